import Verif.Model.VariantCode
import Verif.Lemmas.StraightOrder
import Verif.Lemmas.StraightSame
import Verif.Lemmas.WireGen
import Verif.Lemmas.FnCache
import Verif.Lemmas.MainTri
import Verif.Props.C35_Function
/-!
# The code for variants runs like the generated functions
-/
namespace PJ

/-! ## The terms that are taken -/

theorem termCond_const {as : List Attr} {b : Bool} (h : unitCond as = some b) (S : Mem) (t : Ty) (a : Nat) :
    termCond S t a as = some b := by
  induction as generalizing b with
  | nil => simpa [termCond, unitCond] using h
  | cons x r ih =>
    cases x with
    | split => simp [unitCond] at h
    | undef d =>
      simp only [unitCond, Option.map_eq_some_iff] at h
      obtain ⟨c, hc, rfl⟩ := h
      simp only [termCond, ih hc, Option.map_some]

theorem pickNamed_mem : ∀ {ts : Terms} {c : Comp} {t : Term}, pickNamed ts c = some (some t) → t ∈ ts.toList
  | .nil, _, _, h => by simp [pickNamed] at h
  | .cons n g as ty r, c, t, h => by
    simp only [Terms.toList, List.mem_cons]
    simp only [pickNamed] at h
    split at h
    · split at h
      · simp at h
      · simp only [Option.some.injEq] at h
        exact .inl h.symm
      · exact .inr (pickNamed_mem h)
    · exact .inr (pickNamed_mem h)

theorem pickAt_mem : ∀ {ts : Terms} {i : Nat} {t : Term}, pickAt ts i = some (some t) → t ∈ ts.toList
  | .nil, _, _, h => by simp [pickAt] at h
  | .cons n g as ty r, 0, t, h => by
    simp only [pickAt, Option.map_eq_some_iff] at h
    obtain ⟨b, -, h⟩ := h
    split at h
    · simp only [Option.some.injEq] at h
      simp [Terms.toList, h]
    · simp at h
  | .cons n g as ty r, i + 1, t, h => by
    simp only [pickAt] at h
    simp [Terms.toList, pickAt_mem h]

theorem pickTerm_mem {ts : Terms} {l : VarL} {c : Comp} {t : Term} (h : pickTerm ts l c = some (some t)) : t ∈ ts.toList := by
  simp only [pickTerm] at h
  split at h
  · exact pickNamed_mem h
  · exact pickAt_mem h

/-- What is done for the term that is taken. -/
def takeTerm (E : Env) (dl : VarL) (sty : Ty) (sa da : Nat) (st : St) : Option Term → Res
  | none => .ok st
  | some t => (beginTerm dl da t.tag t.ty.size st).bind (xcode E t.ty sty [] [] sa (da + dl.termOff))

theorem xNamed_pick (E : Env) : ∀ {ts : Terms} {c : Comp} {o : Option Term} (l : VarL) (sty : Ty) (sa da : Nat) (st : St),
    pickNamed ts c = some o → xNamed E ts l c sty sa da st = takeTerm E l sty sa da st o
  | .nil, c, o, l, sty, sa, da, st, h => by
    simp only [pickNamed, Option.some.injEq] at h
    subst h
    simp [xNamed, takeTerm]
  | .cons n g as ty r, c, o, l, sty, sa, da, st, h => by
    simp only [pickNamed] at h
    simp only [xNamed]
    split at h
    · rename_i hn
      rw [if_pos hn]
      split at h
      · simp at h
      · rename_i hc
        simp only [Option.some.injEq] at h
        subst h
        rw [termCond_const hc]
        rfl
      · rename_i hc
        rw [termCond_const hc]
        exact xNamed_pick E l sty sa da st h
    · rename_i hn
      rw [if_neg hn]
      exact xNamed_pick E l sty sa da st h

theorem xAt_pick (E : Env) : ∀ {ts : Terms} {i : Nat} {o : Option Term} (l : VarL) (sty : Ty) (sa da : Nat) (st : St),
    pickAt ts i = some o → xAt E ts l i sty [] sa da st = takeTerm E l sty sa da st o
  | .nil, _, _, _, _, _, _, _, h => by simp [pickAt] at h
  | .cons n g as ty r, 0, o, l, sty, sa, da, st, h => by
    simp only [pickAt, Option.map_eq_some_iff] at h
    obtain ⟨b, hb, rfl⟩ := h
    have hcb : ∀ x : Res, x.bind (setCb [] n) = x := by
      intro x
      cases x <;> rfl
    simp only [xAt]
    rw [hcb, termCond_const hb]
    cases b <;> rfl
  | .cons n g as ty r, i + 1, o, l, sty, sa, da, st, h => by
    simp only [pickAt] at h
    simp only [xAt]
    exact xAt_pick E l sty sa da st h

/-! ## A term -/

theorem wfTerms_mem : ∀ {ts : Terms}, WFTerms ts → ∀ t ∈ ts.toList, WF t.ty
  | .nil, _, t, h => by simp [Terms.toList] at h
  | .cons n g as ty r, hw, t, h => by
    simp only [Terms.toList, List.mem_cons] at h
    rcases h with rfl | h
    · exact hw.1
    · exact wfTerms_mem hw.2 t h

theorem lowerTerm_sim (E : Env) {A : Aliasing} {sa N da M : Nat} (hd : Disj sa N da M) {dl sl : VarL} {sty : Ty} {o : Option Term}
    {is : List Inst} (h : lowerTerm E.fconv A sa da dl sl sty o = some is)
    (hout : dl.outline = false) (htag : dl.tagOff + dl.tagW ≤ M)
    (ht : ∀ t, o = some t → WF t.ty ∧ dl.termOff + t.ty.size ≤ M) (hw : WF sty) (hs : sl.termOff + sty.size ≤ N)
    {st : St} {m : UMem} (hm : Tracks E sa N st m) :
    ∃ st', takeTerm E dl sty (sa + sl.termOff) da st o = .ok st' ∧ Tracks E sa N st' (runBlock (rootsAt sa da) is m) := by
  cases o with
  | none =>
    simp only [lowerTerm, Option.some.injEq] at h
    subst h
    exact ⟨st, rfl, hm⟩
  | some t =>
    simp only [lowerTerm] at h
    split at h
    · simp at h
    rename_i h0
    simp only [Option.map_eq_some_iff] at h
    obtain ⟨x, hx, rfl⟩ := h
    obtain ⟨g1, g2⟩ := ht t rfl
    have hm1 := sim_conv hd hm A (fun _ => t.tag) 0 0 dl.tagOff dl.tagW (by omega) htag
    obtain ⟨st', h1, h2⟩ := lower_sim E hd t.ty sty [] [] sl.termOff dl.termOff _ _ x hx g1 hw hs g2 hm1
    refine ⟨st', ?_, h2⟩
    simp only [takeTerm, beginTerm, storeTag, if_neg h0, hout, Bool.false_eq_true, if_false, Res.bind]
    exact h1

/-! ## The function -/

theorem mapM_at {α β} {f : α → Option β} : ∀ {l : List α} {r : List β}, l.mapM f = some r → ∀ {i : Nat} {a : α}, l[i]? = some a →
    ∃ b, r[i]? = some b ∧ f a = some b
  | [], _, _, _, _, h => by simp at h
  | x :: l, r, h, i, a, hi => by
    rw [List.mapM_cons] at h
    cases hx : f x with
    | none => rw [hx] at h; simp at h
    | some y =>
      cases hl : l.mapM f with
      | none => rw [hx, hl] at h; simp at h
      | some s =>
        rw [hx, hl] at h
        have : r = y :: s := by simpa using h.symm
        subst this
        cases i with
        | zero => simp at hi; subst hi; exact ⟨y, by simp, hx⟩
        | succ i => simp at hi; simpa using mapM_at hl hi

theorem caseBlock_some {sts : Terms} {tag : Nat} {t : Term}
    (h : matchTag (sts.toList.map fun t => (t.tag, some t)) none tag = some t) :
    ∃ i, caseBlock sts tag = i + 2 ∧ sts.toList[i]? = some t := by
  have e : (sts.toList.zipIdx.map fun x => (x.1.tag, some x.2)).map
      (fun x => (x.1, (fun o : Option Nat => o.bind (sts.toList[·]?)) x.2)) = sts.toList.map fun t => (t.tag, some t) := by
    apply List.ext_getElem?
    intro i
    simp only [List.getElem?_map, List.getElem?_zipIdx]
    cases hi : sts.toList[i]? with
    | none => simp
    | some t => simp [hi]
  have := matchTag_map (fun o : Option Nat => o.bind (sts.toList[·]?)) (sts.toList.zipIdx.map fun x => (x.1.tag, some x.2)) none tag
  rw [e] at this
  simp only [Option.bind_none] at this
  rw [h] at this
  cases ho : matchTag (sts.toList.zipIdx.map fun x => (x.1.tag, some x.2)) none tag with
  | none => rw [ho] at this; simp at this
  | some i =>
    rw [ho] at this
    exact ⟨i, by simp only [caseBlock, ho], by simpa using this.symm⟩

/-- The parts of the function. -/
structure VarCode (F : Nat → Nat → Nat → Nat) (A : Aliasing) (sa da : Nat) (dts : Terms) (dl : VarL) (sts : Terms) (sl : VarL) (f : CFn) :
    Prop where
  dout : dl.outline = false
  sout : sl.outline = false
  slow : enumFast dts sts dl sl = false
  tagW : sl.tagW ≠ 0
  entry : f[0]? = some (entryBlock sa da sts sl)
  term : ∀ {i : Nat} {t : Term}, sts.toList[i]? = some t → ∃ o is, pickTerm dts dl t.name = some o ∧ lowerTerm F A sa da dl sl t.ty o = some is ∧
    f[i + 2]? = some (retBlock sa da is)
  dflt : ∃ o is, pickAt dts dl.dflt = some o ∧ lowerTerm F A sa da dl sl .unit o = some is ∧ f[1]? = some (retBlock sa da is)
  blocks : ∀ b ∈ f, b = entryBlock sa da sts sl ∨ ∃ is o sty, b = retBlock sa da is ∧ lowerTerm F A sa da dl sl sty o = some is ∧
    (pickAt dts dl.dflt = some o ∧ sty = .unit ∨ ∃ t ∈ sts.toList, sty = t.ty ∧ pickTerm dts dl t.name = some o)

theorem mapM_from {α β} {f : α → Option β} : ∀ {l : List α} {r : List β}, l.mapM f = some r → ∀ b ∈ r, ∃ a ∈ l, f a = some b
  | [], r, h, b, hb => by
    have : r = [] := by simpa using h.symm
    subst this
    simp at hb
  | x :: l, r, h, b, hb => by
    rw [List.mapM_cons] at h
    cases hx : f x with
    | none => rw [hx] at h; simp at h
    | some y =>
      cases hl : l.mapM f with
      | none => rw [hx, hl] at h; simp at h
      | some s =>
        rw [hx, hl] at h
        have : r = y :: s := by simpa using h.symm
        subst this
        rcases List.mem_cons.1 hb with rfl | hb
        · exact ⟨x, by simp, hx⟩
        · obtain ⟨a, ha, h⟩ := mapM_from hl b hb
          exact ⟨a, by simp [ha], h⟩

theorem lowerVariant_parts {F : Nat → Nat → Nat → Nat} {A : Aliasing} {sa da : Nat} {dts sts : Terms} {dl sl : VarL} {f : CFn}
    (h : lowerVariant F A sa da dts dl sts sl = some f) : VarCode F A sa da dts dl sts sl f := by
  simp only [lowerVariant] at h
  split at h
  · simp at h
  rename_i hc
  simp only [Bool.or_eq_true, not_or, Bool.not_eq_true, beq_eq_false_iff_ne, ne_eq] at hc
  obtain ⟨⟨⟨h1, h2⟩, h3⟩, h4⟩ := hc
  simp only [Option.bind_eq_some_iff, Option.map_eq_some_iff] at h
  obtain ⟨d, ⟨o, ho, hd⟩, bs, hbs, rfl⟩ := h
  refine ⟨h1, h2, h3, h4, rfl, ?_, ⟨o, d, ho, hd, rfl⟩, ?_⟩
  · intro i t hi
    obtain ⟨b, hb, hf⟩ := mapM_at hbs hi
    simp only [Option.bind_eq_some_iff] at hf
    obtain ⟨o, ho, hl⟩ := hf
    exact ⟨o, b, ho, hl, by simp [hb]⟩
  · intro b hb
    simp only [List.mem_cons, List.mem_map] at hb
    rcases hb with rfl | rfl | ⟨is, hi, rfl⟩
    · exact .inl rfl
    · exact .inr ⟨d, o, .unit, rfl, hd, .inl ⟨ho, rfl⟩⟩
    · obtain ⟨t, ht, hf⟩ := mapM_from hbs is hi
      simp only [Option.bind_eq_some_iff] at hf
      obtain ⟨o, ho, hl⟩ := hf
      exact .inr ⟨is, o, t.ty, rfl, hl, .inr ⟨t, ht, rfl, ho⟩⟩

theorem loadU_val {m : UMem} {S : Mem} {a n : Nat} (h : ∀ x, a ≤ x → x < a + n → m x = some (S x)) :
    (loadU m a n).map ofLE = some (readN S a n) := by
  rw [loadU_some m S a n h]
  rfl

/-- The function runs two blocks, and leaves the memory of the conversion. -/
theorem lowerVariant_sim (E : Env) {A : Aliasing} {sa da : Nat} {dts sts : Terms} {dl sl : VarL} {f : CFn} {v : Val}
    (h : lowerVariant E.fconv A sa da dts dl sts sl = some f) (hd : Disj sa sl.size da dl.size)
    (hwt : WF (.variant dts dl)) (hws : WF (.variant sts sl)) (hv : readVal E.S (.variant sts sl) sa = some v)
    {st : St} {m : UMem} (hm : Tracks E sa sl.size st m) :
    ∃ st' m', xcode E (.variant dts dl) (.variant sts sl) [] [] sa da st = .ok st' ∧
      f.steps 2 (some 0, m) = some (none, m') ∧ Tracks E sa sl.size st' m' := by
  have hp := lowerVariant_parts h
  simp only [WF] at hwt hws
  simp only [readVal] at hv
  obtain ⟨t, p, hsel, ht, -, -⟩ := selectTerm_read hws.2 hv
  have hmt : matchTag (sts.toList.map fun t => (t.tag, some t)) none (readN E.S (sa + sl.tagOff) sl.tagW) = some t := by
    simp only [selectTerm] at hsel
    cases sts with
    | nil => simp [Terms.toList] at ht
    | cons n g as ty r =>
      simp only [if_neg hp.tagW, Option.some.injEq] at hsel
      exact hsel
  obtain ⟨i, hci, hi⟩ := caseBlock_some hmt
  obtain ⟨o, is, ho, hl, hblk⟩ := hp.term hi
  have hin := hws.2.inside hp.sout t ht
  obtain ⟨st', h1, h2⟩ := lowerTerm_sim E hd hl hp.dout hwt.2.tagIn
    (fun t' he => by
      subst he
      have hmem := pickTerm_mem ho
      exact ⟨wfTerms_mem hwt.1 t' hmem, hwt.2.inside hp.dout t' hmem⟩)
    (wfTerms_mem hws.1 t ht) hin hm
  refine ⟨st', _, ?_, ?_, h2⟩
  · simp only [xcode, hp.slow, Bool.false_eq_true, if_false, handlerMap, hsel]
    simp only [pickTerm] at ho
    split at ho
    · rename_i hn
      rw [if_pos hn, xNamed_pick E dl t.ty _ da st ho, h1]
      rfl
    · rename_i hn
      rw [if_neg hn, xAt_pick E dl t.ty _ da st ho, h1]
  · have htag : (loadU m (sa + sl.tagOff) sl.tagW).map ofLE = some (readN E.S (sa + sl.tagOff) sl.tagW) :=
      loadU_val fun x g1 g2 => hm.src x (by omega) (by have := hws.2.tagIn; omega)
    have hnext : (entryBlock sa da sts sl).next m = some (.jump (i + 2)) := by
      cases sts with
      | nil => simp [Terms.toList] at ht
      | cons n g as ty r =>
        simp only [Option.map_eq_some_iff] at htag
        obtain ⟨bs, hb, he⟩ := htag
        simp only [entryBlock, hb, Option.map_some, he, hci]
    have hb0 : runBlock (rootsAt sa da) (entryBlock sa da sts sl).body m = m := rfl
    have hr0 : (entryBlock sa da sts sl).roots m = some (rootsAt sa da) := rfl
    simp only [CFn.steps, CFn.step, hp.entry, hr0, hb0, hnext, hblk, retBlock]

end PJ
