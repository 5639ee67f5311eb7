import Verif.Spec.Samples
/-!
# C40: encoding with a known term equals generic encoding

`_partial`: the tags of the host variant are below 2^63 (part of `WF`); for larger tags the generic
encoder dispatches to the wrong term (C21) and the claim is false (`C40_violated`).
-/
namespace PJ

/-- The value holds the term the path names: the path goes through struct fields to a variant and its
next component is the name of the stored term. -/
def Holds : Path → Val → Prop
  | c :: p, .struct vs => ∀ v, vs.lookup c = some v → Holds p v
  | c :: _, .variant n _ => n = c
  | _, _ => True

/-- The terms of the variant a path leads to have distinct names. -/
def PathNames : Path → Ty → Prop
  | c :: p, .struct fs _ _ => ∀ o t, fs.find c = some (o, t) → PathNames p t
  | _ :: _, .variant ts _ => (ts.toList.map (·.name)).Nodup
  | _, _ => True

theorem find_name {α} {f : α → Comp} {l : List α} (hnd : (l.map f).Nodup) {t : α} (ht : t ∈ l) :
    l.find? (fun x => f x == f t) = some t := by
  induction l with
  | nil => cases ht
  | cons x l ih =>
    simp only [List.map_cons, List.nodup_cons, List.mem_map, not_exists, not_and] at hnd
    rcases List.mem_cons.1 ht with rfl | ht
    · simp
    · rw [List.find?_cons_of_neg (by simpa using fun h => hnd.1 t ht h.symm)]
      exact ih hnd.2 ht

theorem selectTerm_path {S : Mem} {sts : Terms} {sl : VarL} {sa : Nat} {v : Val} {path : Path}
    (hl : VarLayout sts.toList sl) (hv : readVal S (.variant sts sl) sa = some v)
    (hh : Holds path v) (hn : PathNames path (.variant sts sl)) :
    selectTerm S sts sl path sa = selectTerm S sts sl [] sa := by
  cases path with
  | nil => rfl
  | cons c p =>
    obtain ⟨t, x, h1, h2, _, rfl⟩ := selectTerm_read hl hv
    rw [h1]
    simp only [Holds] at hh
    subst hh
    simp only [PathNames] at hn
    simp only [selectTerm, find_name hn h2]

theorem into_cons_self (c : Comp) (p : Path) : Path.into (c :: p) c = p := by
  simp [Path.into, Path.startsWith, Path.narrow]

theorem into_cons_ne {c d : Comp} (p : Path) (h : c ≠ d) : Path.into (c :: p) d = [] := by
  simp [Path.into, Path.startsWith, h]

theorem into_nil (d : Comp) : Path.into [] d = [] := by
  simp [Path.into, Path.startsWith]

/-- What holds of a struct holds of the fields. -/
theorem path_field {S : Mem} {fs : Fields} {sz al sa so : Nat} {sty : Ty} {v : Val} {path : Path}
    {c : Comp} (hw : WF (.struct fs sz al)) (hv : readVal S (.struct fs sz al) sa = some v)
    (hh : Holds path v) (hn : PathNames path (.struct fs sz al)) (hf : fs.findLast c = some (so, sty)) :
    ∃ x, readVal S sty (sa + so) = some x ∧ Holds (path.into c) x ∧ PathNames (path.into c) sty := by
  obtain ⟨_, hl⟩ := hw
  rw [find_eq_findLast fs hl.names] at hf
  simp only [readVal] at hv
  split at hv
  · rename_i vs hvs
    cases hv
    have := readFields_find fs vs c hvs
    rw [hf] at this
    obtain ⟨x, hx, hr⟩ := this
    refine ⟨x, hr, ?_⟩
    cases path with
    | nil => rw [into_nil]; exact ⟨by unfold Holds; trivial, by unfold PathNames; trivial⟩
    | cons d p =>
      by_cases hd : d = c
      · subst hd
        rw [into_cons_self]
        simp only [Holds] at hh
        simp only [PathNames] at hn
        exact ⟨hh x hx, hn so sty hf⟩
      · rw [into_cons_ne p hd]; exact ⟨by unfold Holds; trivial, by unfold PathNames; trivial⟩
  · cases hv

theorem wf_field {c : Comp} {o : Nat} {t : Ty} : ∀ {fs : Fields}, WFFields fs →
    fs.findLast c = some (o, t) → WF t
  | .nil, _, h => by simp [Fields.findLast] at h
  | .cons n o' t' r, hw, h => by
    simp only [Fields.findLast] at h
    split at h
    · rename_i x hx; cases h; exact wf_field (fs := r) hw.2 hx
    · split at h
      · cases h; exact hw.1
      · cases h

mutual
theorem xcode_path (E : Env) : ∀ (t src : Ty) (path : Path) (hs : Handlers) (sa da : Nat) (st : St)
    (v : Val), WF src → readVal E.S src sa = some v → Holds path v → PathNames path src →
    xcode E t src path hs sa da st = xcode E t src [] hs sa da st
  | .unit, src, path, hs, sa, da, st, v, _, _, _, _ => by simp [xcode]
  | .int _ _ _, src, path, hs, sa, da, st, v, _, _, _, _ => by cases src <;> simp [xcode]
  | .float _ _, src, path, hs, sa, da, st, v, _, _, _, _ => by cases src <;> simp [xcode]
  | .array _ _ _ _, src, path, hs, sa, da, st, v, _, _, _, _ => by cases src <;> simp [xcode]
  | .vector _ _, src, path, hs, sa, da, st, v, _, _, _, _ => by cases src <;> simp [xcode]
  | .struct dfs dsz dal, src, path, hs, sa, da, st, v, hw, hv, hh, hn => by
    cases src with
    | struct sfs sz al =>
      simp only [xcode]
      rw [xFields_path E dfs true sfs sz al path hs sa da _ v hw hv hh hn]
      congr 1
      funext s
      exact xFields_path E dfs false sfs sz al path hs sa da s v hw hv hh hn
    | _ => simp [xcode]
  | .variant dts dl, src, path, hs, sa, da, st, v, hw, hv, hh, hn => by
    cases src with
    | variant sts sl =>
      simp only [xcode]
      rw [selectTerm_path hw.2 hv hh hn]
    | _ => simp [xcode]
termination_by structural t => t
theorem xFields_path (E : Env) : ∀ (dfs : Fields) (out : Bool) (sfs : Fields) (sz al : Nat) (path : Path)
    (hs : Handlers) (sa da : Nat) (st : St) (v : Val), WF (.struct sfs sz al) →
    readVal E.S (.struct sfs sz al) sa = some v → Holds path v → PathNames path (.struct sfs sz al) →
    xFields E dfs out sfs path hs sa da st = xFields E dfs out sfs [] hs sa da st
  | .nil, out, sfs, sz, al, path, hs, sa, da, st, v, _, _, _, _ => by simp [xFields]
  | .cons c off t r, out, sfs, sz, al, path, hs, sa, da, st, v, hw, hv, hh, hn => by
    simp only [xFields]
    have h1 : ∀ so sty, sfs.findLast c = some (so, sty) →
        xcode E t sty (path.into c) (hs.into c) (sa + so) (da + off) st =
        xcode E t sty (Path.into [] c) (hs.into c) (sa + so) (da + off) st := by
      intro so sty hf
      obtain ⟨x, hx, hx1, hx2⟩ := path_field hw hv hh hn hf
      rw [into_nil]
      exact xcode_path E t sty (path.into c) (hs.into c) (sa + so) (da + off) st x
        (wf_field (fs := sfs) hw.1 hf) hx hx1 hx2
    have h2 : (fun s => xFields E r out sfs path hs sa da s) =
        (fun s => xFields E r out sfs [] hs sa da s) := by
      funext s; exact xFields_path E r out sfs sz al path hs sa da s v hw hv hh hn
    have h2' : xFields E r out sfs path hs sa da = xFields E r out sfs [] hs sa da := h2
    rw [h2']
    congr 1
    by_cases ho : t.hasOut = out
    · simp only [if_pos ho]
      cases hf : sfs.findLast c with
      | none => rfl
      | some p => exact h1 p.1 p.2 hf
    · simp only [if_neg ho]
termination_by structural t => t
end

mutual
theorem szX_path (ru : Bool) (S : Mem) : ∀ (t src : Ty) (path : Path) (sa c : Nat)
    (v : Val), WF src → readVal S src sa = some v → Holds path v → PathNames path src →
    szX ru S t src path sa c = szX ru S t src [] sa c
  | .unit, src, path, sa, c, v, _, _, _, _ => by simp [szX]
  | .int _ _ _, src, path, sa, c, v, _, _, _, _ => by cases src <;> simp [szX]
  | .float _ _, src, path, sa, c, v, _, _, _, _ => by cases src <;> simp [szX]
  | .array _ _ _ _, src, path, sa, c, v, _, _, _, _ => by cases src <;> simp [szX]
  | .vector _ _, src, path, sa, c, v, _, _, _, _ => by cases src <;> simp [szX]
  | .struct dfs dsz dal, src, path, sa, c, v, hw, hv, hh, hn => by
    cases src with
    | struct sfs sz al =>
      simp only [szX]
      rw [szFields_path ru S dfs true sfs sz al path sa _ v hw hv hh hn]
      congr 1
      funext s
      exact szFields_path ru S dfs false sfs sz al path sa s v hw hv hh hn
    | _ => simp [szX]
  | .variant dts dl, src, path, sa, c, v, hw, hv, hh, hn => by
    cases src with
    | variant sts sl =>
      simp only [szX]
      rw [selectTerm_path hw.2 hv hh hn]
    | _ => simp [szX]
termination_by structural t => t
theorem szFields_path (ru : Bool) (S : Mem) : ∀ (dfs : Fields) (out : Bool) (sfs : Fields) (sz al : Nat)
    (path : Path) (sa k : Nat) (v : Val), WF (.struct sfs sz al) →
    readVal S (.struct sfs sz al) sa = some v → Holds path v → PathNames path (.struct sfs sz al) →
    szFields ru S dfs out sfs path sa k = szFields ru S dfs out sfs [] sa k
  | .nil, out, sfs, sz, al, path, sa, k, v, _, _, _, _ => by simp [szFields]
  | .cons c off t r, out, sfs, sz, al, path, sa, k, v, hw, hv, hh, hn => by
    simp only [szFields]
    have h1 : ∀ so sty, sfs.findLast c = some (so, sty) →
        szX ru S t sty (path.into c) (sa + so) k = szX ru S t sty (Path.into [] c) (sa + so) k := by
      intro so sty hf
      obtain ⟨x, hx, hx1, hx2⟩ := path_field hw hv hh hn hf
      rw [into_nil]
      exact szX_path ru S t sty (path.into c) (sa + so) k x
        (wf_field (fs := sfs) hw.1 hf) hx hx1 hx2
    have h2 : szFields ru S r out sfs path sa = szFields ru S r out sfs [] sa := by
      funext s; exact szFields_path ru S r out sfs sz al path sa s v hw hv hh hn
    rw [h2]
    congr 1
    by_cases ho : t.hasOut = out
    · simp only [if_pos ho]
      cases hf : sfs.findLast c with
      | none => rfl
      | some p => exact h1 p.1 p.2 hf
    · simp only [if_neg ho]
termination_by structural t => t
end

/-- An encoder specialised for a term produces, for an object holding that term, exactly the result of
the generic encoder (memory, cursor, outcome), for any destination type and any memory. -/
theorem C40_known_term_partial (E : Env) (host : Ty) (p : Proto) (path : Path) (obj buf : Nat)
    (mem : Mem) (v : Val) (hw : WF host) (hv : readVal E.S host obj = some v) (hh : Holds path v)
    (hn : PathNames path host) :
    encode E host p path obj buf mem = encode E host p [] obj buf mem :=
  xcode_path E p.head host path [] obj buf _ v hw hv hh hn

/-- The same for the size functions. -/
theorem C40_size_partial (ru : Bool) (S : Mem) (host : Ty) (p : Proto) (path : Path) (obj : Nat)
    (v : Val) (hw : WF host) (hv : readVal S host obj = some v) (hh : Holds path v)
    (hn : PathNames path host) :
    sizeFn ru S host p path obj = sizeFn ru S host p [] obj := by
  unfold sizeFn
  rw [szX_path ru S p.head host path obj 0 v hw hv hh hn]

/-- A host variant `{ a : u8 = 1, b : u8 = 2^63 }`. -/
def C40.host : Ty :=
  .variant (.cons ['a'] 1 [] (.int 1 .unsigned 1) (.cons ['b'] (2 ^ 63) [] (.int 1 .unsigned 1) .nil))
    { outline := false, dflt := 0, termOff := 8, termSize := 1, tagOff := 0, tagW := 8, size := 9,
      align := 1, termAlign := 1 }

/-- Address 0: tag 1 (term `a`), payload 5. -/
def C40.S : Mem := fun a => if a = 0 then 1 else if a = 8 then 5 else 0

/-- Violation: the object holds `a`; the encoder for `a` and the generic encoder store different
tags. -/
theorem C40_violated : ∃ s s', readVal C40.S C40.host 0 = some (.variant ['a'] (.int 5)) ∧
    encode ⟨C40.S, fun _ => 0, fun _ _ b => b⟩ C40.host ⟨C40.host, 0⟩ [['a']] 0 100 (fun _ => 0) = .ok s ∧
    encode ⟨C40.S, fun _ => 0, fun _ _ b => b⟩ C40.host ⟨C40.host, 0⟩ [] 0 100 (fun _ => 0) = .ok s' ∧
    readVal s.mem C40.host 100 = some (.variant ['a'] (.int 5)) ∧
    readVal s'.mem C40.host 100 = some (.variant ['b'] (.int 5)) := by
  obtain ⟨s, hs, h⟩ := Res.sat_ok (r := encode ⟨C40.S, fun _ => 0, fun _ _ b => b⟩ C40.host
      ⟨C40.host, 0⟩ [['a']] 0 100 (fun _ => 0))
    (f := fun s => readN s.mem 100 8 == 1 && readN s.mem 108 1 == 5) (by decide +kernel)
  obtain ⟨s', hs', h'⟩ := Res.sat_ok (r := encode ⟨C40.S, fun _ => 0, fun _ _ b => b⟩ C40.host
      ⟨C40.host, 0⟩ [] 0 100 (fun _ => 0))
    (f := fun s => readN s.mem 100 8 == 2 ^ 63 && readN s.mem 108 1 == 5) (by decide +kernel)
  simp only [Bool.and_eq_true, beq_iff_eq] at h h'
  refine ⟨s, s', rfl, hs, hs', ?_, ?_⟩
  · simp [C40.host, readVal, readTerm, h, intValue]
  · simp [C40.host, readVal, readTerm, h', intValue]

open Sample in
/-- The sample object holds `q` in its field `v`. -/
example : encode env0 hostS proto0 [nm "v", nm "q"] 1000 5000 (fun _ => 0) =
    encode env0 hostS proto0 [] 1000 5000 (fun _ => 0) :=
  C40_known_term_partial env0 hostS proto0 _ 1000 5000 _ val0 hostS_wf read0
    (by simp [Holds, val0, nm, List.lookup]) (by
      simp [PathNames, hostS, Fields.find, nm, hostV, Terms.toList])

/-- A path that names no term of the variant is not quietly taken for another term: there is no block to
jump to, and the generated function is undefined (as is its size function). -/
theorem C40_unknown_term (E : Env) (ru : Bool) (dts sts : Terms) (dl sl : VarL) (c : Comp) (p : Path)
    (hs : Handlers) (sa da n : Nat) (st : St) (hf : enumFast dts sts dl sl = false)
    (hc : ∀ t ∈ sts.toList, t.name ≠ c) :
    xcode E (.variant dts dl) (.variant sts sl) (c :: p) hs sa da st = .ub ∧
    szX ru E.S (.variant dts dl) (.variant sts sl) (c :: p) sa n = none := by
  have h : selectTerm E.S sts sl (c :: p) sa = none := by
    have : sts.toList.find? (fun t => t.name == c) = none := by
      rw [List.find?_eq_none]
      intro t ht
      simpa using hc t ht
    simp only [selectTerm, this]
  constructor
  · simp only [xcode, hf, h]
    cases handlerMap hs <;> rfl
  · simp only [szX, hf, h]
    rfl

example : ∃ dts dl, C40.host = .variant dts dl ∧
    xcode ⟨C40.S, fun _ => 0, fun _ _ b => b⟩ (.variant dts dl) (.variant dts dl) [['c']] [] 0 100
      ⟨fun _ => 0, 200, none, 0, 0⟩ = .ub :=
  ⟨_, _, rfl, (C40_unknown_term _ false _ _ _ _ _ _ _ _ _ 0 _ rfl (by simp [Terms.toList])).1⟩

end PJ
