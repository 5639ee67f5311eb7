import Verif.Lemmas.Inv
import Verif.Lemmas.MainTri
/-!
# The callback slot
-/
namespace PJ

/-- The part of a value at a path of struct fields. -/
def valAt : Path → Val → Option Val
  | [], v => some v
  | c :: p, .struct vs =>
    match vs.lookup c with
    | some v => valAt p v
    | none => none
  | _ :: _, _ => none

/-- The variant at the path is not an enum (all terms of size 0). -/
def NotEnumAt : Path → Ty → Prop
  | [], .variant ts _ => ts.isEnum = false
  | c :: p, .struct fs _ _ => ∀ o t, fs.find c = some (o, t) → NotEnumAt p t
  | _, _ => True

/-- All handlers are for terms of the variant at the path. -/
def HandlersAt (P : Path) (hs : Handlers) : Prop := ∀ h ∈ hs, ∃ n, h.1 = P ++ [n]

/-- The slot after a value with term `n` at `P` has been stored. -/
def slot (hs : Handlers) (P : Path) (n : Comp) (x : Nat) : Nat :=
  match hs.lookup (P ++ [n]) with
  | some i => i + 1
  | none => x

/-- The slot is `x` after a successful run. -/
def CbRes (x : Nat) : Res → Prop
  | .ok s => s.cb = x
  | _ => True

theorem CbRes.bind {x y : Nat} {r : Res} {f : St → Res} (h1 : CbRes x r)
    (h2 : ∀ s, s.cb = x → CbRes y (f s)) : CbRes y (r.bind f) := by
  cases r with
  | ok s => exact h2 s h1
  | throw s => trivial
  | ub => trivial

theorem CbRes.keep {x : Nat} {st : St} {r : Res} (h : CbRes x r) : CbRes x (keepBuf st r) :=
  CbRes.bind h fun _ h => h

theorem cb_stepInv : StepInv (fun _ => True) (fun a b => b.cb = a.cb) where
  refl _ := rfl
  trans h1 h2 := h2.trans h1
  store _ _ _ _ := rfl
  poison _ _ _ _ := rfl
  alloc st s n _ h := by
    unfold alloc at h
    split at h
    · cases h; rfl
    · split at h
      · cases h
      · cases h; rfl
  keep _ _ h := h
  small _ _ := trivial

theorem xcode_cb_none (E : Env) (t src : Ty) (path : Path) (sa da : Nat) (st : St) :
    InvRes (fun a b => b.cb = a.cb) st (xcode E t src path [] sa da st) :=
  xcode_inv cb_stepInv E t src path [] sa da st (allocs_true t) CbAll.nil

theorem dflt_cb_none (E : Env) (t : Ty) (da : Nat) (st : St) :
    InvRes (fun a b => b.cb = a.cb) st (dflt E t [] da st) :=
  dflt_inv cb_stepInv E t [] da st (allocs_true t) CbAll.nil

theorem InvRes.cbRes {st : St} {r : Res} (h : InvRes (fun a b => b.cb = a.cb) st r) :
    CbRes st.cb r := by
  cases r with
  | ok s => exact h
  | throw s => trivial
  | ub => trivial

theorem beginTerm_cb (l : VarL) (da g sz : Nat) (st : St) : CbRes st.cb (beginTerm l da g sz st) :=
  (InvRes.beginTerm cb_stepInv l da g sz st fun _ => trivial).cbRes

theorem handlersAt_into {P : Path} {hs : Handlers} {c : Comp} (h : HandlersAt (c :: P) hs) :
    HandlersAt P (hs.into c) ∧ ∀ n, (hs.into c).lookup (P ++ [n]) = hs.lookup (c :: P ++ [n]) := by
  induction hs with
  | nil => exact ⟨fun _ h => (by cases h), fun _ => rfl⟩
  | cons x hs ih =>
    obtain ⟨ih1, ih2⟩ := ih fun y hy => h y (List.mem_cons_of_mem _ hy)
    obtain ⟨m, hm⟩ := h x List.mem_cons_self
    obtain ⟨p, i⟩ := x
    simp only at hm
    subst hm
    have he : Handlers.into (((c :: P) ++ [m], i) :: hs) c = (P ++ [m], i) :: Handlers.into hs c := by
      simp [Handlers.into, Path.startsWith, Path.into, Path.narrow]
    rw [he]
    refine ⟨fun y hy => ?_, fun n => ?_⟩
    · rcases List.mem_cons.1 hy with rfl | hy
      · exact ⟨m, rfl⟩
      · exact ih1 y hy
    · simp only [List.lookup, ih2]
      by_cases hnm : n = m
      · subst hnm; simp
      · have e1 : (P ++ [n] == P ++ [m]) = false := by simp [hnm]
        have e2 : (c :: P ++ [n] == c :: P ++ [m]) = false := by simp [hnm]
        rw [e1, e2]

theorem handlersAt_into_ne {P : Path} {hs : Handlers} {c d : Comp} (h : HandlersAt (c :: P) hs)
    (hd : d ≠ c) : hs.into d = [] := by
  induction hs with
  | nil => rfl
  | cons x hs ih =>
    have ih := ih fun y hy => h y (List.mem_cons_of_mem _ hy)
    obtain ⟨m, hm⟩ := h x List.mem_cons_self
    obtain ⟨p, i⟩ := x
    simp only at hm
    subst hm
    have : Path.startsWith (c :: P ++ [m]) d = false := by
      simp [Path.startsWith]; exact fun h => hd h.symm
    unfold Handlers.into at ih ⊢
    rw [List.filter_cons_of_neg (by rw [this]; exact Bool.false_ne_true)]
    exact ih

theorem handlerMap_at {hs : Handlers} (h : HandlersAt [] hs) :
    ∃ hm, handlerMap hs = some hm ∧ ∀ n, hm.lookup n = hs.lookup [n] := by
  induction hs with
  | nil => exact ⟨[], rfl, fun _ => rfl⟩
  | cons x hs ih =>
    obtain ⟨hm, h1, h2⟩ := ih fun y hy => h y (List.mem_cons_of_mem _ hy)
    obtain ⟨m, hm'⟩ := h x List.mem_cons_self
    obtain ⟨p, i⟩ := x
    simp only [List.nil_append] at hm'
    subst hm'
    refine ⟨(m, i) :: hm, by simp [handlerMap, h1], fun n => ?_⟩
    simp only [List.lookup, h2]
    by_cases hnm : n = m
    · subst hnm; simp
    · have e1 : (n == m) = false := by simp [hnm]
      have e2 : (([n] : Path) == [m]) = false := by simp [hnm]
      rw [e1, e2]

theorem setCb_slot {hs : Handlers} {hm : List (Comp × Nat)} (h2 : ∀ n, hm.lookup n = hs.lookup [n])
    (n : Comp) (s : St) : CbRes (slot hs [] n s.cb) (setCb hm n s) := by
  unfold setCb slot
  simp only [List.nil_append, ← h2]
  cases hm.lookup n <;> rfl

theorem noOut_field : ∀ (fs : Fields), fs.noOut → ∀ x ∈ fs.toList, x.2.2.noOut
  | .nil, _, x, hx => by simp [Fields.toList] at hx
  | .cons c o t r, h, x, hx => by
    simp only [Fields.toList, List.mem_cons] at hx
    simp only [Fields.noOut] at h
    rcases hx with rfl | hx
    · exact h.1
    · exact noOut_field r h.2 x hx

theorem xFields_out_nop (E : Env) (sfs : Fields) (path : Path) (hs : Handlers) (sa da : Nat) (st : St) :
    ∀ fs : Fields, fs.noOut → xFields E fs true sfs path hs sa da st = .ok st
  | .nil, _ => by simp [xFields]
  | .cons c o t r, h => by
    simp only [Fields.noOut] at h
    simp only [xFields, noOut_hasOut t h.1]
    simp only [Res.bind, Bool.false_eq_true, if_false]
    exact xFields_out_nop E sfs path hs sa da st r h.2

theorem dfltFields_out_nop (E : Env) (hs : Handlers) (da : Nat) (st : St) :
    ∀ fs : Fields, fs.noOut → dfltFields E fs true hs da st = .ok st
  | .nil, _ => by simp [dfltFields]
  | .cons c o t r, h => by
    simp only [Fields.noOut] at h
    simp only [dfltFields, noOut_hasOut t h.1]
    simp only [Res.bind, Bool.false_eq_true, if_false]
    exact dfltFields_out_nop E hs da st r h.2

theorem dfltAt_cb (E : Env) {hs : Handlers} {hm : List (Comp × Nat)}
    (h2 : ∀ n, hm.lookup n = hs.lookup [n]) (l : VarL) (da : Nat) (st : St) (n : Comp) (x : Val) :
    ∀ (ts : Terms) (i : Nat), dfltTermVal ts i = some (.variant n x) →
    CbRes (slot hs [] n st.cb) (dfltAt E ts l i hm da st)
  | .nil, i, h => by simp [dfltTermVal] at h
  | .cons m g as t r, 0, h => by
    simp only [dfltTermVal] at h
    split at h
    · cases h
      simp only [dfltAt]
      refine CbRes.bind (x := st.cb) ?_ fun s hs' => hs' ▸ setCb_slot h2 n s
      split
      · trivial
      · rfl
      · exact CbRes.bind (beginTerm_cb ..) fun s hs' => CbRes.keep (hs' ▸ (dflt_cb_none E t _ s).cbRes)
    · cases h
  | .cons m g as t r, i + 1, h => by
    simp only [dfltTermVal] at h
    simp only [dfltAt]
    exact dfltAt_cb E h2 l da st n x r i h

theorem xAt_cb (E : Env) {hs : Handlers} {hm : List (Comp × Nat)}
    (h2 : ∀ n, hm.lookup n = hs.lookup [n]) (l : VarL) (sty : Ty) (sa da : Nat) (st : St) (n : Comp)
    (p x : Val) (F : Nat → Nat → Nat → Nat) :
    ∀ (ts : Terms) (i : Nat), convAt F ts i p = some (.variant n x) →
    CbRes (slot hs [] n st.cb) (xAt E ts l i sty hm sa da st)
  | .nil, i, h => by simp [convAt] at h
  | .cons m g as t r, 0, h => by
    simp only [convAt] at h
    split at h
    · cases h
      simp only [xAt]
      refine CbRes.bind (x := st.cb) ?_ fun s hs' => hs' ▸ setCb_slot h2 n s
      split
      · trivial
      · rfl
      · exact CbRes.bind (beginTerm_cb ..) fun s hs' => (hs' ▸ (xcode_cb_none E t sty [] _ _ s).cbRes)
    · cases h
  | .cons m g as t r, i + 1, h => by
    simp only [convAt] at h
    simp only [xAt]
    exact xAt_cb E h2 l sty sa da st n p x F r i h

/-- Fields without the handled one. -/
theorem dfltFields_cb_none (E : Env) {P : Path} {hs : Handlers} {c : Comp} (hp : HandlersAt (c :: P) hs)
    (out : Bool) (da : Nat) : ∀ (fs : Fields) (st : St), c ∉ fs.toList.map (·.1) →
    CbRes st.cb (dfltFields E fs out hs da st)
  | .nil, st, _ => by simp only [dfltFields]; rfl
  | .cons d o t r, st, h => by
    simp only [Fields.toList, List.map_cons, List.mem_cons, not_or] at h
    simp only [dfltFields]
    refine CbRes.bind (x := st.cb) ?_ fun s hs' => hs' ▸ dfltFields_cb_none E hp out da r s h.2
    split
    · rw [handlersAt_into_ne hp (Ne.symm h.1)]
      exact CbRes.keep (dflt_cb_none E t _ st).cbRes
    · rfl

theorem xFields_cb_none (E : Env) {P : Path} {hs : Handlers} {c : Comp} (hp : HandlersAt (c :: P) hs)
    (out : Bool) (sfs : Fields) (path : Path) (sa da : Nat) : ∀ (fs : Fields) (st : St),
    c ∉ fs.toList.map (·.1) → CbRes st.cb (xFields E fs out sfs path hs sa da st)
  | .nil, st, _ => by simp only [xFields]; rfl
  | .cons d o t r, st, h => by
    simp only [Fields.toList, List.map_cons, List.mem_cons, not_or] at h
    simp only [xFields]
    refine CbRes.bind (x := st.cb) ?_ fun s hs' => hs' ▸ xFields_cb_none E hp out sfs path sa da r s h.2
    split
    · rw [handlersAt_into_ne hp (Ne.symm h.1)]
      split
      · exact (xcode_cb_none E t _ _ _ _ st).cbRes
      · exact CbRes.keep (dflt_cb_none E t _ st).cbRes
    · rfl

mutual
theorem dflt_cb (E : Env) : ∀ (t : Ty) (P : Path) (hs : Handlers) (da : Nat) (st : St) (w : Val)
    (n : Comp) (x : Val), WF t → t.noOut → HandlersAt P hs → dfltVal t = some w →
    valAt P w = some (.variant n x) → CbRes (slot hs P n st.cb) (dflt E t hs da st)
  | .int _ _ _, P, hs, da, st, w, n, x, _, _, _, hv, hn => by
    simp [dfltVal] at hv; subst hv; cases P <;> simp [valAt] at hn
  | .float _ _, P, hs, da, st, w, n, x, _, _, _, hv, hn => by
    simp [dfltVal] at hv; subst hv; cases P <;> simp [valAt] at hn
  | .unit, P, hs, da, st, w, n, x, _, _, _, hv, hn => by
    simp [dfltVal] at hv; subst hv; cases P <;> simp [valAt] at hn
  | .vector _ _, P, hs, da, st, w, n, x, _, _, _, hv, hn => by
    simp [dfltVal] at hv; subst hv; cases P <;> simp [valAt] at hn
  | .array _ _ _ _, P, hs, da, st, w, n, x, _, _, _, hv, hn => by
    simp only [dfltVal] at hv
    split at hv
    · cases hv; cases P <;> simp [valAt] at hn
    · cases hv
  | .variant ts l, P, hs, da, st, w, n, x, hw, ho, hp, hv, hn => by
    simp only [dfltVal] at hv
    cases P with
    | cons c p =>
      exfalso
      have : ∃ m y, w = .variant m y := by
        clear hn
        revert hv
        generalize l.dflt = i
        clear hw ho
        intro hv
        exact dfltTermVal_variant ts i w hv
      obtain ⟨m, y, rfl⟩ := this
      simp [valAt] at hn
    | nil =>
      simp only [valAt, Option.some.injEq] at hn
      subst hn
      obtain ⟨hm, h1, h2⟩ := handlerMap_at hp
      simp only [dflt, h1]
      exact dfltAt_cb E h2 l da st n x ts l.dflt hv
  | .struct fs sz al, P, hs, da, st, w, n, x, hw, ho, hp, hv, hn => by
    simp only [dfltVal] at hv
    split at hv
    · rename_i ws hws
      cases hv
      cases P with
      | nil => simp [valAt] at hn
      | cons c p =>
        simp only [valAt] at hn
        split at hn
        · rename_i wc hwc
          simp only [WF] at hw
          simp only [Ty.noOut] at ho
          simp only [dflt]
          rw [dfltFields_out_nop E hs da _ fs ho]
          exact dfltFields_cb E fs c p hs da (st.poison E.J da sz) ws wc n x hw.1 hw.2.names ho hp hws hwc hn
        · cases hn
    · cases hv
termination_by structural t => t
theorem dfltTermVal_variant : ∀ (ts : Terms) (i : Nat) (w : Val), dfltTermVal ts i = some w →
    ∃ m y, w = .variant m y
  | .nil, i, w, h => by simp [dfltTermVal] at h
  | .cons n g as t r, 0, w, h => by
    simp only [dfltTermVal] at h
    split at h
    · cases h; exact ⟨_, _, rfl⟩
    · cases h
  | .cons n g as t r, i + 1, w, h => by
    simp only [dfltTermVal] at h; exact dfltTermVal_variant r i w h
termination_by structural t => t
theorem dfltFields_cb (E : Env) : ∀ (fs : Fields) (c : Comp) (p : Path) (hs : Handlers) (da : Nat)
    (st : St) (ws : List (Comp × Val)) (wc : Val) (n : Comp) (x : Val), WFFields fs →
    (fs.toList.map (·.1)).Nodup → fs.noOut → HandlersAt (c :: p) hs → dfltFieldsVal fs = some ws →
    ws.lookup c = some wc → valAt p wc = some (.variant n x) →
    CbRes (slot hs (c :: p) n st.cb) (dfltFields E fs false hs da st)
  | .nil, c, p, hs, da, st, ws, wc, n, x, _, _, _, _, hv, hl, _ => by
    simp [dfltFieldsVal] at hv; subst hv; simp at hl
  | .cons d o t r, c, p, hs, da, st, ws, wc, n, x, hw, hnd, ho, hp, hv, hl, hn => by
    simp only [dfltFieldsVal] at hv
    split at hv
    · rename_i w1 ws1 hw1 hws1
      cases hv
      simp only [WFFields] at hw
      simp only [Fields.noOut] at ho
      simp only [Fields.toList, List.map_cons, List.nodup_cons] at hnd
      simp only [dfltFields, noOut_hasOut t ho.1, if_true]
      by_cases hd : d = c
      · subst hd
        simp only [List.lookup, beq_self_eq_true, Option.some.injEq] at hl
        subst hl
        obtain ⟨hp1, hp2⟩ := handlersAt_into hp
        have := dflt_cb E t p (hs.into d) (da + o) st w1 n x hw.1 ho.1 hp1 hw1 hn
        have he : slot (hs.into d) p n st.cb = slot hs (d :: p) n st.cb := by
          unfold slot; rw [hp2]
        rw [he] at this
        exact CbRes.bind (CbRes.keep this) fun s hs' => hs' ▸ dfltFields_cb_none E hp false da r s hnd.1
      · have hl' : ws1.lookup c = some wc := by
          simp only [List.lookup] at hl
          have : (c == d) = false := by simp; exact fun h => hd h.symm
          rw [this] at hl; exact hl
        refine CbRes.bind (x := st.cb) ?_ fun s hs' =>
          hs' ▸ dfltFields_cb E r c p hs da s ws1 wc n x hw.2 hnd.2 ho.2 hp hws1 hl' hn
        rw [handlersAt_into_ne hp hd]
        exact CbRes.keep (dflt_cb_none E t _ st).cbRes
    · cases hv
termination_by structural t => t
end

theorem enumFast_enum {dts sts : Terms} {dl sl : VarL} (h : enumFast dts sts dl sl = true) :
    dts.isEnum = true := by
  unfold enumFast at h
  simp only [Bool.and_eq_true] at h
  exact h.1.1.2

mutual
theorem xcode_cb (E : Env) : ∀ (t src : Ty) (P : Path) (hs : Handlers) (sa da : Nat) (st : St) (v w : Val)
    (n : Comp) (x : Val), WF t → t.noOut → WF src → HandlersAt P hs → NotEnumAt P t →
    readVal E.S src sa = some v → conv E.fconv t v = some w →
    valAt P w = some (.variant n x) → CbRes (slot hs P n st.cb) (xcode E t src [] hs sa da st)
  | .unit, src, P, hs, sa, da, st, v, w, n, x, _, _, _, _, _, hv, hw, hn => by
    simp only [conv, Option.some.injEq] at hw; subst hw; cases P <;> simp [valAt] at hn
  | .int _ _ _, src, P, hs, sa, da, st, v, w, n, x, _, _, _, _, _, hv, hw, hn => by
    simp only [conv] at hw
    split at hw
    · simp [dfltVal] at hw; subst hw; cases P <;> simp [valAt] at hn
    · cases hw; cases P <;> simp [valAt] at hn
    · cases hw
  | .float _ _, src, P, hs, sa, da, st, v, w, n, x, _, _, _, _, _, hv, hw, hn => by
    simp only [conv] at hw
    split at hw
    · simp [dfltVal] at hw; subst hw; cases P <;> simp [valAt] at hn
    · cases hw; cases P <;> simp [valAt] at hn
    · cases hw
  | .vector _ _, src, P, hs, sa, da, st, v, w, n, x, _, _, _, _, _, hv, hw, hn => by
    simp only [conv] at hw
    split at hw
    · simp [dfltVal] at hw; subst hw; cases P <;> simp [valAt] at hn
    · split at hw
      · cases hw; cases P <;> simp [valAt] at hn
      · cases hw
    · cases hw
  | .array e m esz al, src, P, hs, sa, da, st, v, w, n, x, _, _, _, _, _, hv, hw, hn => by
    exfalso
    have : ∃ l, w = .arr l := by
      simp only [conv] at hw
      split at hw
      · simp only [dfltVal] at hw
        split at hw
        · cases hw; exact ⟨_, rfl⟩
        · cases hw
      · split at hw
        · cases hw
        · split at hw
          · split at hw
            · cases hw; exact ⟨_, rfl⟩
            · cases hw
          · cases hw; exact ⟨_, rfl⟩
      · cases hw
    obtain ⟨l, rfl⟩ := this
    cases P <;> simp [valAt] at hn
  | .variant ts l, src, P, hs, sa, da, st, v, w, n, x, hwf, ho, hws, hp, hne, hv, hw, hn => by
    have hk := readVal_kind hv
    cases src with
    | unit =>
      cases hk
      simp only [conv] at hw
      simp only [xcode]
      exact CbRes.keep (dflt_cb E (.variant ts l) P hs da st w n x hwf ho hp hw hn)
    | variant sts sl =>
      simp only [WF] at hws
      obtain ⟨t, p, hsel, htm, hpv, rfl⟩ := selectTerm_read hws.2 hv
      simp only [conv] at hw
      have hvar : ∃ m y, w = .variant m y ∧ (ts.hasName t.name = true → m = t.name) := by
        split at hw
        · obtain ⟨_, _, _, y, _, hy⟩ := convNamed_some hw
          exact ⟨_, _, hy, fun _ => rfl⟩
        · rename_i hnn
          obtain ⟨_, _, y, _, hy⟩ := convAt_some hw
          exact ⟨_, _, hy, fun h => absurd h hnn⟩
      obtain ⟨m, y, rfl, hm'⟩ := hvar
      cases P with
      | cons c q => simp [valAt] at hn
      | nil =>
        simp only [valAt, Option.some.injEq, Val.variant.injEq] at hn
        obtain ⟨rfl, rfl⟩ := hn
        simp only [NotEnumAt] at hne
        have hnf : enumFast ts sts l sl = false := by
          cases hf : enumFast ts sts l sl with
          | false => rfl
          | true => rw [enumFast_enum hf] at hne; cases hne
        obtain ⟨hm, h1, h2⟩ := handlerMap_at hp
        simp only [xcode, hnf, Bool.false_eq_true, if_false, h1, hsel]
        split
        · rename_i hn'
          have := hm' hn'
          subst this
          refine CbRes.bind (x := st.cb) ?_ fun s hs' => hs' ▸ setCb_slot h2 _ s
          exact (xNamed_inv cb_stepInv E ts l _ _ _ da st (fun _ _ _ => trivial) (allocsT_true ts)).cbRes
        · rename_i hn'
          rw [if_neg hn'] at hw
          exact xAt_cb E h2 l t.ty _ da st m p y E.fconv ts l.dflt hw
    | _ => simp only [xcode]; trivial
  | .struct fs sz al, src, P, hs, sa, da, st, v, w, n, x, hwf, ho, hws, hp, hne, hv, hw, hn => by
    have hk := readVal_kind hv
    cases src with
    | unit =>
      cases hk
      simp only [conv] at hw
      simp only [xcode]
      exact CbRes.keep (dflt_cb E (.struct fs sz al) P hs da st w n x hwf ho hp hw hn)
    | struct sfs ssz sal =>
      simp only [readVal] at hv
      split at hv
      · rename_i vs hvs
        cases hv
        simp only [conv] at hw
        split at hw
        · rename_i ws hws'
          cases hw
          cases P with
          | nil => simp [valAt] at hn
          | cons c p =>
            simp only [valAt] at hn
            split at hn
            · rename_i wc hwc
              simp only [WF] at hwf hws
              simp only [Ty.noOut] at ho
              simp only [NotEnumAt] at hne
              simp only [xcode]
              rw [xFields_out_nop E sfs [] hs sa da _ fs ho]
              exact xFields_cb E fs sfs c p hs sa da (st.poison E.J da sz) vs ws wc n x hwf.1 hwf.2.names
                ho hws.1 hws.2.names hp hne hvs hws' hwc hn
            · cases hn
        · cases hw
      · cases hv
    | _ => simp only [xcode]; trivial
termination_by structural t => t
theorem xFields_cb (E : Env) : ∀ (fs sfs : Fields) (c : Comp) (p : Path) (hs : Handlers) (sa da : Nat)
    (st : St) (vs ws : List (Comp × Val)) (wc : Val) (n : Comp) (x : Val), WFFields fs →
    (fs.toList.map (·.1)).Nodup → fs.noOut → WFFields sfs → (sfs.toList.map (·.1)).Nodup →
    HandlersAt (c :: p) hs → (∀ o t, fs.find c = some (o, t) → NotEnumAt p t) →
    readFields E.S sfs sa = some vs → convFields E.fconv fs vs = some ws →
    ws.lookup c = some wc → valAt p wc = some (.variant n x) →
    CbRes (slot hs (c :: p) n st.cb) (xFields E fs false sfs [] hs sa da st)
  | .nil, sfs, c, p, hs, sa, da, st, vs, ws, wc, n, x, _, _, _, _, _, _, _, _, hv, hl, _ => by
    simp [convFields] at hv; subst hv; simp at hl
  | .cons d o t r, sfs, c, p, hs, sa, da, st, vs, ws, wc, n, x, hwf, hnd, ho, hws, hsn, hp, hne, hvs, hv,
      hl, hn => by
    simp only [convFields] at hv
    split at hv
    · rename_i w1 ws1 hw1 hws1
      cases hv
      simp only [WFFields] at hwf
      simp only [Fields.noOut] at ho
      simp only [Fields.toList, List.map_cons, List.nodup_cons] at hnd
      simp only [xFields, noOut_hasOut t ho.1, if_true, Path.into, Path.startsWith, Bool.false_eq_true,
        if_false]
      have hrf := readFields_find sfs vs d hvs
      by_cases hd : d = c
      · subst hd
        simp only [List.lookup, beq_self_eq_true, Option.some.injEq] at hl
        subst hl
        obtain ⟨hp1, hp2⟩ := handlersAt_into hp
        have he : slot (hs.into d) p n st.cb = slot hs (d :: p) n st.cb := by
          unfold slot; rw [hp2]
        refine CbRes.bind (x := slot hs (d :: p) n st.cb) ?_ fun s hs' =>
          hs' ▸ xFields_cb_none E hp false sfs [] sa da r s hnd.1
        rw [find_eq_findLast sfs hsn]
        have hne' : NotEnumAt p t := hne o t (by simp [Fields.find])
        cases hf : sfs.find d with
        | none =>
          rw [hf] at hrf
          simp only at hrf
          rw [hrf] at hw1
          have := dflt_cb E t p (hs.into d) (da + o) st w1 n x hwf.1 ho.1 hp1 hw1 hn
          rw [he] at this
          exact CbRes.keep this
        | some y =>
          rw [hf] at hrf
          obtain ⟨v1, hv1, hr1⟩ := hrf
          rw [hv1] at hw1
          have := xcode_cb E t y.2 p (hs.into d) (sa + y.1) (da + o) st v1 w1 n x hwf.1 ho.1
            (findLast_WF sfs d y.1 y.2 hws (by rw [find_eq_findLast sfs hsn]; exact hf)) hp1 hne' hr1 hw1 hn
          rw [he] at this
          exact this
      · have hl' : ws1.lookup c = some wc := by
          simp only [List.lookup] at hl
          have : (c == d) = false := by simp; exact fun h => hd h.symm
          rw [this] at hl; exact hl
        refine CbRes.bind (x := st.cb) ?_ fun s hs' =>
          hs' ▸ xFields_cb E r sfs c p hs sa da s vs ws1 wc n x hwf.2 hnd.2 ho.2 hws hsn hp
            (fun o' t' h => hne o' t' (by simp only [Fields.find, if_neg hd]; exact h)) hvs hws1 hl' hn
        rw [handlersAt_into_ne hp hd]
        split
        · exact (xcode_cb_none E t _ _ _ _ st).cbRes
        · exact CbRes.keep (dflt_cb_none E t _ st).cbRes
    · cases hv
termination_by structural t => t
end

end PJ
