import Verif.Model.BinCompat
import Verif.Spec.Obs
import Verif.Lemmas.Tight
import Verif.Props.C01_RoundTrip
/-!
# C22: binary compatibility

`_partial`: the full claim has no hypothesis `Agree`; `C22_violated_term` and `C22_violated_unit` show that it
is needed.
-/
namespace PJ

theorem takeFirst_self {α} {p : α → Bool} {x : α} {l : List α} (h : p x = true) : takeFirst p (x :: l) = some l := by
  simp [takeFirst, h]

theorem takeFirst_perm {α} {p : α → Bool} : ∀ {l l' : List α}, takeFirst p l = some l' →
    ∃ x, p x = true ∧ l.Perm (x :: l')
  | [], _, h => by simp [takeFirst] at h
  | y :: l, l', h => by
    simp only [takeFirst] at h
    split at h
    · rename_i hy
      cases h
      exact ⟨y, hy, List.Perm.refl _⟩
    · simp only [Option.map_eq_some_iff] at h
      obtain ⟨l1, h1, rfl⟩ := h
      obtain ⟨x, hx, hp⟩ := takeFirst_perm h1
      exact ⟨x, hx, (hp.cons y).trans (List.Perm.swap x y l1)⟩

theorem sameAttrs_refl (a : List Attr) : sameAttrs a a = true := by
  have : ∀ a : List Attr, sameAttrs.go a a = true := by
    intro a
    induction a with
    | nil => rfl
    | cons x a ih => simp [sameAttrs.go, takeFirst, ih]
  simp [sameAttrs, this]

mutual
/-- Every type is binary compatible with itself. -/
theorem C22_refl : ∀ t : Ty, binCompat t t = true
  | .int _ _ _ => by simp [binCompat]
  | .float _ _ => by simp [binCompat]
  | .unit => by simp [binCompat]
  | .struct fs _ _ => by simp [binCompat, binFields_refl fs]
  | .variant ts l => by
    have : sameVarL l l = true := by unfold sameVarL; split <;> simp_all
    simp [binCompat, binTerms_refl ts, this]
  | .array e _ _ _ => by simp [binCompat, C22_refl e]
  | .vector e l => by simp [binCompat, C22_refl e, sameVecL]
termination_by structural t => t
theorem binFields_refl : ∀ fs : Fields, binFields fs fs.toList = true
  | .nil => rfl
  | .cons n o t r => by
    simp only [Fields.toList, binFields]
    rw [takeFirst_self (by simp [C22_refl t])]
    exact binFields_refl r
termination_by structural fs => fs
theorem binTerms_refl : ∀ ts : Terms, binTerms ts ts.toList = true
  | .nil => rfl
  | .cons n g as t r => by
    simp only [Terms.toList, binTerms]
    rw [takeFirst_self (by simp [C22_refl t, sameAttrs_refl])]
    exact binTerms_refl r
termination_by structural ts => ts
end

theorem C22_refl_proto (p : Proto) : p.binCompat p = true := by
  simp [Proto.binCompat, C22_refl]

mutual
/-- What the check fails to look at: the types of terms with the same tag are compatible, and `unit` meets
only `unit`. -/
def Agree : Ty → Ty → Prop
  | .unit, b => b = .unit
  | .struct fs _ _, .struct gs _ _ => AgreeFields fs gs
  | .variant ts _, .variant us _ => AgreeTerms ts us
  | .array e _ _ _, .array e' _ _ _ => Agree e e'
  | .vector e _, .vector e' _ => Agree e e'
  | _, _ => True
def AgreeFields : Fields → Fields → Prop
  | .nil, _ => True
  | .cons n _ t r, gs => (∀ x ∈ gs.toList, x.1 = n → Agree t x.2.2) ∧ AgreeFields r gs
def AgreeTerms : Terms → Terms → Prop
  | .nil, _ => True
  | .cons _ g _ t r, us => (∀ u ∈ us.toList, u.tag = g → binCompat t u.ty = true ∧ Agree t u.ty) ∧ AgreeTerms r us
end

/-! ## What the check implies -/

theorem binFields_match : ∀ {fs : Fields} {gs : List (Comp × Nat × Ty)}, binFields fs gs = true →
    fs.toList.length = gs.length →
    (∀ f ∈ fs.toList, ∃ g ∈ gs, g.1 = f.1 ∧ g.2.1 = f.2.1 ∧ binCompat f.2.2 g.2.2 = true) ∧
    (∀ g ∈ gs, ∃ f ∈ fs.toList, f.1 = g.1)
  | .nil, gs, _, hl => by
    have : gs = [] := List.length_eq_zero_iff.1 hl.symm
    subst this
    simp [Fields.toList]
  | .cons n o t r, gs, h, hl => by
    simp only [binFields] at h
    split at h
    · rename_i gs' ht
      obtain ⟨x, hx, hp⟩ := takeFirst_perm ht
      simp only [Bool.and_eq_true, beq_iff_eq] at hx
      have hlen := hp.length_eq
      simp only [Fields.toList, List.length_cons] at hl hlen
      obtain ⟨h1, h2⟩ := binFields_match h (by omega)
      refine ⟨fun f hf => ?_, fun g hg => ?_⟩
      · rcases List.mem_cons.1 hf with rfl | hf
        · exact ⟨x, hp.mem_iff.2 List.mem_cons_self, hx.1.2.symm, hx.2.symm, hx.1.1⟩
        · obtain ⟨g, hg, h3⟩ := h1 f hf
          exact ⟨g, hp.mem_iff.2 (List.mem_cons_of_mem _ hg), h3⟩
      · rcases List.mem_cons.1 (hp.mem_iff.1 hg) with rfl | hg
        · exact ⟨(n, o, t), List.mem_cons_self, hx.1.2⟩
        · obtain ⟨f, hf, h3⟩ := h2 g hg
          exact ⟨f, List.mem_cons_of_mem _ hf, h3⟩
    · cases h

theorem binTerms_match : ∀ {ts : Terms} {us : List Term}, binTerms ts us = true →
    ts.toList.length = us.length →
    (∀ t ∈ ts.toList, ∃ u ∈ us, u.name = t.name ∧ u.tag = t.tag) ∧
    (∀ u ∈ us, ∃ t ∈ ts.toList, t.tag = u.tag)
  | .nil, us, _, hl => by
    have : us = [] := List.length_eq_zero_iff.1 hl.symm
    subst this
    simp [Terms.toList]
  | .cons n g as t r, us, h, hl => by
    simp only [binTerms] at h
    split at h
    · rename_i us' ht
      obtain ⟨x, hx, hp⟩ := takeFirst_perm ht
      simp only [Bool.and_eq_true, beq_iff_eq] at hx
      have hlen := hp.length_eq
      simp only [Terms.toList, List.length_cons] at hl hlen
      obtain ⟨h1, h2⟩ := binTerms_match h (by omega)
      refine ⟨fun f hf => ?_, fun g hg => ?_⟩
      · rcases List.mem_cons.1 hf with rfl | hf
        · exact ⟨x, hp.mem_iff.2 List.mem_cons_self, hx.1.1.1.symm, hx.1.2.symm⟩
        · obtain ⟨g, hg, h3⟩ := h1 f hf
          exact ⟨g, hp.mem_iff.2 (List.mem_cons_of_mem _ hg), h3⟩
      · rcases List.mem_cons.1 (hp.mem_iff.1 hg) with rfl | hg
        · exact ⟨⟨n, _, as, t⟩, List.mem_cons_self, hx.1.2⟩
        · obtain ⟨f, hf, h3⟩ := h2 g hg
          exact ⟨f, List.mem_cons_of_mem _ hf, h3⟩
    · cases h

theorem sameAttrs_perm {a b : List Attr} (h : sameAttrs a b = true) : a.Perm b := by
  have key : ∀ a b : List Attr, sameAttrs.go a b = true → a.length = b.length → a.Perm b := by
    intro a
    induction a with
    | nil => intro b _ hl; rw [List.length_eq_zero_iff.1 hl.symm]
    | cons x a ih =>
      intro b h hl
      simp only [sameAttrs.go] at h
      split at h
      · rename_i b' ht
        obtain ⟨y, hy, hp⟩ := takeFirst_perm ht
        have : x = y := by simpa using hy
        subst this
        have := hp.length_eq
        simp only [List.length_cons] at hl this
        exact ((ih b' h (by omega)).cons x).trans hp.symm
      · cases h
  simp only [sameAttrs, Bool.and_eq_true, beq_iff_eq] at h
  exact key a b h.2 h.1

theorem binTerms_perm : ∀ {ts : Terms} {us : List Term}, binTerms ts us = true → ts.toList.length = us.length →
    ∃ us' : List Term, us'.Perm us ∧ ∀ x ∈ ts.toList.zip us',
      x.1.name = x.2.name ∧ x.1.tag = x.2.tag ∧ x.1.attrs.Perm x.2.attrs
  | .nil, us, _, hl => by
    have : us = [] := List.length_eq_zero_iff.1 hl.symm
    subst this
    exact ⟨[], List.Perm.refl _, by simp⟩
  | .cons n g as t r, us, h, hl => by
    simp only [binTerms] at h
    split at h
    · rename_i us' ht
      obtain ⟨x, hx, hp⟩ := takeFirst_perm ht
      simp only [Bool.and_eq_true, beq_iff_eq] at hx
      have hlen := hp.length_eq
      simp only [Terms.toList, List.length_cons] at hl hlen
      obtain ⟨us2, h1, h2⟩ := binTerms_perm h (by omega)
      refine ⟨x :: us2, (h1.cons x).trans hp.symm, fun y hy => ?_⟩
      simp only [Terms.toList, List.zip_cons_cons, List.mem_cons] at hy
      rcases hy with rfl | hy
      · exact ⟨hx.1.1.1, hx.1.2, sameAttrs_perm hx.2⟩
      · exact h2 y hy
    · cases h

/-- Compatible variants have the same terms in some order: names, tags, and attributes in some order. -/
theorem C22_terms (ts us : Terms) (l l' : VarL) (h : binCompat (.variant ts l) (.variant us l') = true) :
    ∃ us' : List Term, us'.Perm us.toList ∧ us'.length = ts.toList.length ∧
      ∀ x ∈ ts.toList.zip us', x.1.name = x.2.name ∧ x.1.tag = x.2.tag ∧ x.1.attrs.Perm x.2.attrs := by
  simp only [binCompat, Bool.and_eq_true, beq_iff_eq] at h
  obtain ⟨us', h1, h2⟩ := binTerms_perm h.1.2 h.1.1
  exact ⟨us', h1, by rw [h1.length_eq, h.1.1], h2⟩

/-- Two variants whose terms and attributes are in a different order. -/
def C22.w (swap : Bool) : Ty :=
  let a := Term.mk ['a'] 1 [.undef true, .split true 2 [['x']]] .unit
  let a' := Term.mk ['a'] 1 [.split true 2 [['x']], .undef true] .unit
  let b := Term.mk ['b'] 2 [] .unit
  .variant (Terms.ofList (if swap then [b, a'] else [a, b]))
    { outline := false, dflt := 0, termOff := 0, termSize := 0, tagOff := 0, tagW := 1, size := 1,
      align := 1, termAlign := 0 }

example : binCompat (C22.w false) (C22.w true) = true := by decide

theorem AgreeFields_iff : ∀ {fs gs : Fields}, AgreeFields fs gs ↔
    ∀ f ∈ fs.toList, ∀ x ∈ gs.toList, x.1 = f.1 → Agree f.2.2 x.2.2
  | .nil, _ => by simp [AgreeFields, Fields.toList]
  | .cons n o t r, gs => by simp [AgreeFields, Fields.toList, AgreeFields_iff (fs := r)]

theorem AgreeTerms_iff : ∀ {ts us : Terms}, AgreeTerms ts us ↔
    ∀ t ∈ ts.toList, ∀ u ∈ us.toList, u.tag = t.tag → binCompat t.ty u.ty = true ∧ Agree t.ty u.ty
  | .nil, _ => by simp [AgreeTerms, Terms.toList]
  | .cons n g as t r, us => by simp [AgreeTerms, Terms.toList, AgreeTerms_iff (ts := r)]

mutual
/-- What the check leaves to the layout: the distance of vector elements and the place of the tag of an
outlined variant. -/
def Stride : Ty → Ty → Prop
  | .struct fs _ _, .struct gs _ _ => StrideFields fs gs
  | .variant ts l, .variant us l' => (l.outline = true → l.tagOff = l'.tagOff) ∧ StrideTerms ts us
  | .array e _ _ _, .array e' _ _ _ => Stride e e'
  | .vector e l, .vector e' l' => l.elemW = l'.elemW ∧ Stride e e'
  | _, _ => True
def StrideFields : Fields → Fields → Prop
  | .nil, _ => True
  | .cons n _ t r, gs =>
    (∀ x ∈ gs.toList, x.1 = n → binCompat t x.2.2 = true → Stride t x.2.2) ∧ StrideFields r gs
def StrideTerms : Terms → Terms → Prop
  | .nil, _ => True
  | .cons _ g _ t r, us => (∀ u ∈ us.toList, u.tag = g → Stride t u.ty) ∧ StrideTerms r us
end

theorem StrideFields_iff : ∀ {fs gs : Fields}, StrideFields fs gs ↔
    ∀ f ∈ fs.toList, ∀ x ∈ gs.toList, x.1 = f.1 → binCompat f.2.2 x.2.2 = true → Stride f.2.2 x.2.2
  | .nil, _ => by simp [StrideFields, Fields.toList]
  | .cons n o t r, gs => by simp [StrideFields, Fields.toList, StrideFields_iff (fs := r)]

theorem StrideTerms_iff : ∀ {ts us : Terms}, StrideTerms ts us ↔
    ∀ t ∈ ts.toList, ∀ u ∈ us.toList, u.tag = t.tag → Stride t.ty u.ty
  | .nil, _ => by simp [StrideTerms, Terms.toList]
  | .cons n g as t r, us => by simp [StrideTerms, Terms.toList, StrideTerms_iff (ts := r)]

/-- Vectors that pass the check have the same length and the same elements. -/
theorem sameVec {l l' : VecL} (h : sameVecL l l' = true) (he : l.elemW = l'.elemW) (m : Mem) (a : Nat) :
    lengthOp m l a = lengthOp m l' a ∧ ∀ n i, vecElemAddr m l a n i = vecElemAddr m l' a n i := by
  simp only [sameVecL, Bool.and_eq_true, beq_iff_eq] at h
  obtain ⟨⟨⟨⟨⟨⟨⟨⟨⟨h1, h2⟩, h3⟩, h4⟩, h5⟩, h6⟩, h7⟩, h8⟩, h9⟩, h10⟩ := h
  refine ⟨by simp only [lengthOp, h2, h4, h5], fun n i => ?_⟩
  simp only [vecElemAddr, VecL.isInl, refStart, h1, h3, h6, h7, h8, h9, h10, he]
  rfl

theorem compat_size : ∀ a b : Ty, binCompat a b = true → Agree a b → Tight a → Tight b → a.size = b.size
  | .int _ _ _, b, h, _, _, _ => by
    cases b <;> simp [binCompat] at h
    simp [Ty.size, h]
  | .float _ _, b, h, _, _, _ => by
    cases b <;> simp [binCompat] at h
    simp [Ty.size, h]
  | .unit, b, _, h, _, _ => by simp only [Agree] at h; rw [h]
  | .struct _ _ _, b, h, _, _, _ => by
    cases b <;> simp [binCompat] at h
    simp [Ty.size, h]
  | .variant ts l, b, h, _, ht, ht' => by
    cases b <;> simp [binCompat, sameVarL] at h
    rename_i us l'
    simp only [Ty.size]
    by_cases ho : l.outline = true
    · rw [if_pos ho] at h
      rw [(ht.2.1 ho).2.2, (ht'.2.1 h.2.1.1.1.1).2.2, h.2.1.1.1.2]
    · rw [if_neg ho] at h
      exact h.2.1.2
  | .array e _ _ _, b, h, _, _, _ => by
    cases b <;> simp [binCompat] at h
    simp [Ty.size, h]
  | .vector e l, b, h, ha, ht, ht' => by
    cases b <;> simp only [binCompat, Bool.and_eq_true, Bool.false_eq_true] at h
    rename_i e' l'
    have hs := compat_size e e' h.1 ha ht.2.2 ht'.2.2
    have h0 := h.2
    simp only [sameVecL, Bool.and_eq_true, beq_iff_eq] at h0
    have h1 := ht.2.1.2
    have h2 := ht'.2.1.2
    have h3 : l.minLen = l.wireMin := by rw [h1]; rfl
    have h4 : l'.minLen = l'.wireMin := by rw [h2]; rfl
    have h5 : l.maxLen = l'.maxLen := by simp [h0]
    have h6 : l.wireMin = l'.wireMin := by rw [← h3, ← h4]; simp [h0]
    simp only [Ty.size]
    rw [h1, h2, hs]
    simp only [layoutVec, h5, h6]

mutual
/-- In planned protocols the check need not look at these. -/
theorem tight_stride : ∀ a b : Ty, binCompat a b = true → Agree a b → Tight a → Tight b → Stride a b
  | .int _ _ _, b, _, _, _, _ => by cases b <;> trivial
  | .float _ _, b, _, _, _, _ => by cases b <;> trivial
  | .unit, b, _, _, _, _ => by cases b <;> trivial
  | .struct fs _ _, b, h, ha, ht, ht' => by
    cases b <;> simp only [binCompat, Bool.and_eq_true, Bool.false_eq_true] at h
    rename_i gs _ _
    exact StrideFields_iff.2 fun f hf x hx hn hb => tight_strideFields fs f hf x.2.2 hb
      (AgreeFields_iff.1 ha f hf x hx hn) (TightFields_iff.1 ht.2.2 f hf) (TightFields_iff.1 ht'.2.2 x hx)
  | .variant ts l, b, h, ha, ht, ht' => by
    cases b <;> simp only [binCompat, Bool.and_eq_true, Bool.false_eq_true] at h
    rename_i us l'
    refine ⟨fun ho => ?_, StrideTerms_iff.2 fun t h1 u h2 hn => ?_⟩
    · have hl := h.2
      unfold sameVarL at hl
      rw [if_pos ho] at hl
      simp only [Bool.and_eq_true] at hl
      rw [(ht.2.1 ho).2.1, (ht'.2.1 hl.1.1.1.1).2.1]
    · obtain ⟨c1, c2⟩ := AgreeTerms_iff.1 ha t h1 u h2 hn
      exact tight_strideTerms ts t h1 u.ty c1 c2 (TightTerms_iff.1 ht.2.2.2 t h1) (TightTerms_iff.1 ht'.2.2.2 u h2)
  | .array e _ _ _, b, h, ha, ht, ht' => by
    cases b <;> simp only [binCompat, Bool.and_eq_true, Bool.false_eq_true] at h
    exact tight_stride e _ h.1.1.1 ha ht.2.2 ht'.2.2
  | .vector e l, b, h, ha, ht, ht' => by
    cases b <;> simp only [binCompat, Bool.and_eq_true, Bool.false_eq_true] at h
    rename_i e' l'
    refine ⟨?_, tight_stride e _ h.1 ha ht.2.2 ht'.2.2⟩
    rw [ht.2.1.2, ht'.2.1.2, compat_size e e' h.1 ha ht.2.2 ht'.2.2]
    rfl
termination_by structural a => a
theorem tight_strideFields : ∀ (fs : Fields), ∀ f ∈ fs.toList, ∀ b : Ty, binCompat f.2.2 b = true → Agree f.2.2 b →
    Tight f.2.2 → Tight b → Stride f.2.2 b
  | .nil, f, hf => by cases hf
  | .cons n o t r, f, hf => by
    rcases List.mem_cons.1 hf with rfl | hf
    · exact tight_stride t
    · exact tight_strideFields r f hf
termination_by structural fs => fs
theorem tight_strideTerms : ∀ (ts : Terms), ∀ f ∈ ts.toList, ∀ b : Ty, binCompat f.ty b = true → Agree f.ty b →
    Tight f.ty → Tight b → Stride f.ty b
  | .nil, f, hf => by cases hf
  | .cons n g as t r, f, hf => by
    rcases List.mem_cons.1 hf with rfl | hf
    · exact tight_stride t
    · exact tight_strideTerms r f hf
termination_by structural ts => ts
end

/-! ## Reading -/

theorem nodup_map_inj {α β} {f : α → β} {l : List α} (h : (l.map f).Nodup) {x y : α} (hx : x ∈ l) (hy : y ∈ l)
    (he : f x = f y) : x = y := by
  induction l with
  | nil => cases hx
  | cons z l ih =>
    simp only [List.map_cons, List.nodup_cons] at h
    rcases List.mem_cons.1 hx with hx' | hx' <;> rcases List.mem_cons.1 hy with hy' | hy'
    · exact hx'.trans hy'.symm
    · subst hx'; exact absurd (he ▸ List.mem_map_of_mem hy') h.1
    · subst hy'; exact absurd (he ▸ List.mem_map_of_mem hx') h.1
    · exact ih h.2 hx' hy'

theorem readFields_spec {m : Mem} : ∀ {fs : Fields} {a : Nat}, (fs.toList.map (·.1)).Nodup →
    (∃ vs, readFields m fs a = some vs ∧ (∀ x ∈ fs.toList, ∃ v, readVal m x.2.2 (a + x.2.1) = some v ∧
        vs.lookup x.1 = some v) ∧ ∀ c, (∀ x ∈ fs.toList, x.1 ≠ c) → vs.lookup c = none) ∨
    (readFields m fs a = none ∧ ∃ x ∈ fs.toList, readVal m x.2.2 (a + x.2.1) = none)
  | .nil, _, _ => Or.inl ⟨[], by simp [readFields], by simp [Fields.toList], by simp⟩
  | .cons n o t r, a, hn => by
    simp only [Fields.toList, List.map_cons, List.nodup_cons] at hn
    cases ht : readVal m t (a + o) with
    | none =>
      refine Or.inr ⟨by simp [readFields, ht], (n, o, t), List.mem_cons_self, ht⟩
    | some v =>
      rcases readFields_spec (m := m) (a := a) hn.2 with ⟨vs, h1, h2, h3⟩ | ⟨h1, x, hx, h2⟩
      · refine Or.inl ⟨(n, v) :: vs, by simp [readFields, ht, h1], fun x hx => ?_, fun c hc => ?_⟩
        · rcases List.mem_cons.1 hx with rfl | hx'
          · exact ⟨v, ht, by simp [List.lookup]⟩
          · obtain ⟨v', h4, h5⟩ := h2 x hx'
            have : (x.1 == n) = false := by
              simp only [beq_eq_false_iff_ne, ne_eq]
              intro he
              exact hn.1 (he ▸ List.mem_map_of_mem (f := (·.1)) hx')
            exact ⟨v', h4, by simp only [List.lookup, this]; exact h5⟩
        · have hne : (c == n) = false := by
            simpa using fun e => hc (n, o, t) List.mem_cons_self e.symm
          simp only [List.lookup, hne]
          exact h3 c fun x hx => hc x (List.mem_cons_of_mem _ hx)
      · exact Or.inr ⟨by simp [readFields, ht, h1], x, List.mem_cons_of_mem _ hx, h2⟩

theorem readTerm_spec {m : Mem} : ∀ {ts : Terms} {raw a : Nat}, (ts.toList.map (·.tag)).Nodup →
    (∃ t ∈ ts.toList, t.tag = raw ∧ readTerm m ts raw a = (readVal m t.ty a).map (.variant t.name)) ∨
    ((∀ t ∈ ts.toList, t.tag ≠ raw) ∧ readTerm m ts raw a = none)
  | .nil, _, _, _ => Or.inr ⟨by simp [Terms.toList], rfl⟩
  | .cons n g as t r, raw, a, hn => by
    simp only [Terms.toList, List.map_cons, List.nodup_cons] at hn
    by_cases hg : g = raw
    · refine Or.inl ⟨⟨n, g, as, t⟩, List.mem_cons_self, hg, ?_⟩
      simp only [readTerm, if_pos hg]
      cases readVal m t a <;> rfl
    · rcases readTerm_spec (m := m) (raw := raw) (a := a) hn.2 with ⟨u, hu, h1, h2⟩ | ⟨h1, h2⟩
      · exact Or.inl ⟨u, List.mem_cons_of_mem _ hu, h1, by simp only [readTerm, if_neg hg, h2]⟩
      · refine Or.inr ⟨fun u hu => ?_, by simp only [readTerm, if_neg hg, h2]⟩
        rcases List.mem_cons.1 hu with rfl | hu
        · exact hg
        · exact h1 u hu

theorem collect_same {f g : Nat → Option Val} : ∀ (n i : Nat), (∀ j, SameObs (f j) (g j)) →
    (∃ xs ys, collect f i n = some xs ∧ collect g i n = some ys ∧ xs.length = ys.length ∧
      ∀ k : Nat, ∀ x, xs[k]? = some x → ∃ y, ys[k]? = some y ∧ ∀ p, x.obs p = y.obs p) ∨
    (collect f i n = none ∧ collect g i n = none)
  | 0, i, _ => Or.inl ⟨[], [], rfl, rfl, rfl, by simp⟩
  | n + 1, i, h => by
    have hi := h i
    simp only [collect]
    cases hf : f i with
    | none =>
      cases hg : g i with
      | none => exact Or.inr ⟨rfl, rfl⟩
      | some y => rw [hf, hg] at hi; exact hi.elim
    | some x =>
      cases hg : g i with
      | none => rw [hf, hg] at hi; exact hi.elim
      | some y =>
        rw [hf, hg] at hi
        rcases collect_same n (i + 1) h with ⟨xs, ys, h1, h2, h3, h4⟩ | ⟨h1, h2⟩
        · refine Or.inl ⟨x :: xs, y :: ys, by simp [h1], by simp [h2], by simp [h3], fun k z hz => ?_⟩
          cases k with
          | zero => simp only [List.getElem?_cons_zero, Option.some.injEq] at hz ⊢; subst hz; exact ⟨y, rfl, hi⟩
          | succ k => simp only [List.getElem?_cons_succ] at hz ⊢; exact h4 k z hz
        · exact Or.inr ⟨by simp [h1], by simp [h2]⟩

theorem obs_elems {xs ys : List Val} (hl : xs.length = ys.length)
    (h : ∀ k : Nat, ∀ x, xs[k]? = some x → ∃ y, ys[k]? = some y ∧ ∀ p, x.obs p = y.obs p) (k : Nat)
    (p : List Look) : (match xs[k]? with | some v => v.obs p | none => none) =
      (match ys[k]? with | some v => v.obs p | none => none) := by
  cases hx : xs[k]? with
  | none =>
    have : ys[k]? = none := by
      rw [List.getElem?_eq_none_iff] at hx ⊢; omega
    rw [this]
  | some x =>
    obtain ⟨y, hy, ho⟩ := h k x hx
    rw [hy]; exact ho p

set_option maxHeartbeats 1000000 in
mutual
theorem compat_read (m : Mem) : ∀ (a b : Ty) (addr : Nat), binCompat a b = true → Agree a b → Stride a b →
    WF a → WF b → SameObs (readVal m a addr) (readVal m b addr)
  | .int _ _ _, b, addr, h, _, _, _, _ => by
    cases b <;> simp [binCompat] at h
    obtain ⟨⟨rfl, rfl⟩, rfl⟩ := h
    exact fun p => rfl
  | .float _ _, b, addr, h, _, _, _, _ => by
    cases b <;> simp [binCompat] at h
    obtain ⟨rfl, rfl⟩ := h
    exact fun p => rfl
  | .unit, b, addr, _, h, _, _, _ => by
    simp only [Agree] at h; rw [h]; exact fun p => rfl
  | .struct fs sz al, b, addr, h, ha, ht, hw, hw' => by
    cases b <;> simp only [binCompat, Bool.and_eq_true, beq_iff_eq, Bool.false_eq_true] at h
    rename_i gs sz' al'
    obtain ⟨h1, h2⟩ := binFields_match h.1.1.2 h.1.1.1
    have ih : ∀ f ∈ fs.toList, ∀ g ∈ gs.toList, g.1 = f.1 → g.2.1 = f.2.1 → binCompat f.2.2 g.2.2 = true →
        SameObs (readVal m f.2.2 (addr + f.2.1)) (readVal m g.2.2 (addr + g.2.1)) := by
      intro f hf g hg e1 e2 e3
      rw [e2]
      exact compat_readFields m fs f hf g.2.2 _ e3 (AgreeFields_iff.1 ha f hf g hg e1)
        (StrideFields_iff.1 ht f hf g hg e1 e3) (WFFields_iff.1 hw.1 f hf)
        (WFFields_iff.1 hw'.1 g hg)
    simp only [readVal]
    rcases readFields_spec (m := m) (a := addr) hw.2.names with ⟨vs, e1, e2, e3⟩ | ⟨e1, x, hx, e2⟩ <;>
    rcases readFields_spec (m := m) (a := addr) hw'.2.names with ⟨ws, d1, d2, d3⟩ | ⟨d1, y, hy, d2⟩
    · rw [e1, d1]
      intro p
      cases p with
      | nil => rfl
      | cons s p =>
        cases s with
        | payload => rfl
        | elem i => rfl
        | field c =>
          simp only [Val.obs]
          by_cases hc : ∃ f ∈ fs.toList, f.1 = c
          · obtain ⟨f, hf, rfl⟩ := hc
            obtain ⟨g, hg, g1, g2, g3⟩ := h1 f hf
            obtain ⟨v, v1, v2⟩ := e2 f hf
            obtain ⟨w, w1, w2⟩ := d2 g hg
            have hi := ih f hf g hg g1 g2 g3
            rw [v1, w1] at hi
            rw [g1] at w2
            rw [v2, w2]
            exact hi p
          · have n1 : ∀ x ∈ fs.toList, x.1 ≠ c := fun x hx he => hc ⟨x, hx, he⟩
            have n2 : ∀ x ∈ gs.toList, x.1 ≠ c := fun x hx he => by
              obtain ⟨f, hf, hfe⟩ := h2 x hx
              exact hc ⟨f, hf, hfe.trans he⟩
            rw [e3 c n1, d3 c n2]
    · exfalso
      obtain ⟨f, hf, hfe⟩ := h2 y hy
      obtain ⟨g, hg, g1, g2, g3⟩ := h1 f hf
      have hgy : g = y := by
        have := hw'.2.names
        exact nodup_map_inj this hg hy (g1.trans hfe)
      subst hgy
      have hi := ih f hf g hg g1 g2 g3
      obtain ⟨v, v1, _⟩ := e2 f hf
      rw [v1, d2] at hi
      exact hi
    · exfalso
      obtain ⟨g, hg, g1, g2, g3⟩ := h1 x hx
      have hi := ih x hx g hg g1 g2 g3
      obtain ⟨w, w1, _⟩ := d2 g hg
      rw [e2, w1] at hi
      exact hi
    · rw [e1, d1]; trivial
  | .variant ts l, b, addr, h, ha, ht, hw, hw' => by
    cases b <;> simp only [binCompat, Bool.and_eq_true, beq_iff_eq, Bool.false_eq_true] at h
    rename_i us l'
    obtain ⟨h1, h2⟩ := binTerms_match h.1.2 h.1.1
    have hl : l.tagOff = l'.tagOff ∧ l.tagW = l'.tagW ∧ l.termOff = l'.termOff := by
      have hl := h.2
      unfold sameVarL at hl
      split at hl
      · rename_i ho
        simp only [Bool.and_eq_true, beq_iff_eq] at hl
        exact ⟨ht.1 ho, hl.1.1.1.2, hl.1.2⟩
      · simp only [Bool.and_eq_true, beq_iff_eq] at hl
        exact ⟨hl.1.1.1.2, hl.1.1.2, hl.1.1.1.1.1.2⟩
    simp only [readVal, ← hl.1, ← hl.2.1, ← hl.2.2]
    rcases readTerm_spec (m := m) (raw := readN m (addr + l.tagOff) l.tagW) (a := addr + l.termOff) hw.2.tags with
      ⟨t, ht1, ht2, ht3⟩ | ⟨ht1, ht2⟩ <;>
    rcases readTerm_spec (m := m) (raw := readN m (addr + l.tagOff) l.tagW) (a := addr + l.termOff) hw'.2.tags with
      ⟨u, hu1, hu2, hu3⟩ | ⟨hu1, hu2⟩
    · rw [ht3, hu3]
      obtain ⟨u', hu', n1, n2⟩ := h1 t ht1
      have : u' = u := nodup_map_inj hw'.2.tags hu' hu1 (n2.trans (ht2.trans hu2.symm))
      subst this
      obtain ⟨c1, c2⟩ := AgreeTerms_iff.1 ha t ht1 u' hu1 n2
      have hi := compat_readTerms m ts t ht1 u'.ty (addr + l.termOff) c1 c2
        (StrideTerms_iff.1 ht.2 t ht1 u' hu1 n2) (WFTerms_iff.1 hw.1 t ht1) (WFTerms_iff.1 hw'.1 u' hu1)
      cases hx : readVal m t.ty (addr + l.termOff) <;> cases hy : readVal m u'.ty (addr + l.termOff) <;>
        rw [hx, hy] at hi
      · trivial
      · exact hi.elim
      · exact hi.elim
      · intro p
        cases p with
        | nil => simp [Val.obs, Val.seen, n1]
        | cons s p =>
          cases s with
          | payload => exact hi p
          | elem i => rfl
          | field c => rfl
    · exfalso
      obtain ⟨u, hu, _, n2⟩ := h1 t ht1
      exact hu1 u hu (n2.trans ht2)
    · exfalso
      obtain ⟨t, ht, n2⟩ := h2 u hu1
      exact ht1 t ht (n2.trans hu2)
    · rw [ht2, hu2]; trivial
  | .array e n esz al, b, addr, h, ha, ht, hw, hw' => by
    cases b <;> simp only [binCompat, Bool.and_eq_true, beq_iff_eq, Bool.false_eq_true] at h
    rename_i e' n' esz' al'
    obtain ⟨⟨⟨h1, rfl⟩, rfl⟩, rfl⟩ := h
    have ih := fun x => compat_read m e e' x h1 ha ht hw.1 hw'.1
    simp only [readVal]
    rcases collect_same n 0 (fun j => ih (elemAt addr esz j)) with ⟨xs, ys, c1, c2, c3, c4⟩ | ⟨c1, c2⟩
    · rw [c1, c2]
      intro p
      cases p with
      | nil => simp [Val.obs, Val.seen, c3]
      | cons s p =>
        cases s with
        | payload => rfl
        | field c => rfl
        | elem i => exact obs_elems c3 c4 i p
    · rw [c1, c2]; trivial
  | .vector e l, b, addr, h, ha, ht, hw, hw' => by
    cases b <;> simp only [binCompat, Bool.and_eq_true, Bool.false_eq_true] at h
    rename_i e' l'
    obtain ⟨v1, v2⟩ := sameVec h.2 ht.1 m addr
    have ih := fun x => compat_read m e e' x h.1 ha ht.2 hw.1 hw'.1
    simp only [readVal, ← v1, ← v2]
    cases hlen : lengthOp m l addr with
    | none => trivial
    | some n =>
      simp only
      by_cases hn : n < 2 ^ 63
      · simp only [if_pos hn]
        rcases collect_same n 0 (fun j => ih (vecElemAddr m l addr n j)) with ⟨xs, ys, c1, c2, c3, c4⟩ | ⟨c1, c2⟩
        · rw [c1, c2]
          intro p
          cases p with
          | nil => simp [Val.obs, Val.seen, c3]
          | cons s p =>
            cases s with
            | payload => rfl
            | field c => rfl
            | elem i => exact obs_elems c3 c4 i p
        · rw [c1, c2]; trivial
      · simp only [if_neg hn]; trivial
termination_by structural a => a
theorem compat_readFields (m : Mem) : ∀ (fs : Fields), ∀ f ∈ fs.toList, ∀ (b : Ty) (addr : Nat),
    binCompat f.2.2 b = true → Agree f.2.2 b → Stride f.2.2 b → WF f.2.2 → WF b →
    SameObs (readVal m f.2.2 addr) (readVal m b addr)
  | .nil, f, hf => by cases hf
  | .cons n o t r, f, hf => by
    rcases List.mem_cons.1 hf with rfl | hf
    · exact compat_read m t
    · exact compat_readFields m r f hf
termination_by structural fs => fs
theorem compat_readTerms (m : Mem) : ∀ (ts : Terms), ∀ f ∈ ts.toList, ∀ (b : Ty) (addr : Nat),
    binCompat f.ty b = true → Agree f.ty b → Stride f.ty b → WF f.ty → WF b →
    SameObs (readVal m f.ty addr) (readVal m b addr)
  | .nil, f, hf => by cases hf
  | .cons n g as t r, f, hf => by
    rcases List.mem_cons.1 hf with rfl | hf
    · exact compat_read m t
    · exact compat_readTerms m r f hf
termination_by structural ts => ts
end

/-- The same for any types, planned or not, if the distances of vector elements agree as well. -/
theorem C22_types_partial (a b : Ty) (hw : WF a) (hw' : WF b) (hc : binCompat a b = true) (ha : Agree a b)
    (hs : Stride a b) (m : Mem) (addr : Nat) : SameObs (readVal m a addr) (readVal m b addr) :=
  compat_read m a b addr hc ha hs hw hw'

/-- Two binary compatible planned protocols interpret every message identically: whatever is in the memory,
either both see no valid value at an address, or both see values that look the same, provided that the
parts the check does not look at (`Agree`) agree. -/
theorem C22_same_partial (h1 h2 : Ty) (path1 path2 : Path) (p q : Proto) (hh1 : HostTy h1) (hh2 : HostTy h2)
    (hp : plan h1 path1 = some p) (hq : plan h2 path2 = some q) (hc : p.binCompat q = true)
    (ha : Agree p.head q.head) (m : Mem) (addr : Nat) :
    SameObs (readVal m p.head addr) (readVal m q.head addr) := by
  simp only [Proto.binCompat, Bool.and_eq_true] at hc
  exact compat_read m p.head q.head addr hc.1 ha
    (tight_stride _ _ hc.1 ha (plan_tight _ _ _ hp) (plan_tight _ _ _ hq))
    (plan_ok h1 path1 p hh1.sch hh1.small hh1.plain hh1.noOut hp).1.wf
    (plan_ok h2 path2 q hh2.sch hh2.small hh2.plain hh2.noOut hq).1.wf

/-- Two structs with the same fields in another order of declaration (and the layout of the first). -/
def C22.a : Ty := .struct (.cons ['x'] 0 (.int 1 .signed 1) (.cons ['y'] 1 (.int 2 .unsigned 1) .nil)) 3 1
def C22.b : Ty := .struct (.cons ['y'] 1 (.int 2 .unsigned 1) (.cons ['x'] 0 (.int 1 .signed 1) .nil)) 3 1

example : binCompat C22.a C22.b = true ∧ Agree C22.a C22.b := by
  refine ⟨by decide, ?_⟩
  simp [C22.a, C22.b, Agree, AgreeFields]

example : SameObs (readVal (fun _ => 3) C22.a 0) (readVal (fun _ => 3) C22.b 0) := by
  refine C22_types_partial _ _ ?_ ?_ (by decide) ?_ ?_ _ _
  · simp only [C22.a, WF, WFFields, and_true]
    refine ⟨by omega, ?_⟩
    constructor <;> simp [Fields.toList, Ty.size, Disj]
  · simp only [C22.b, WF, WFFields, and_true]
    refine ⟨by omega, ?_⟩
    constructor <;> simp [Fields.toList, Ty.size, Disj]
  · simp [C22.a, C22.b, Agree, AgreeFields]
  · simp [C22.a, C22.b, Stride, StrideFields]

open Sample in
example : ∃ p, plan hostR pathR = some p ∧ p.binCompat p = true := by
  obtain ⟨p, hp⟩ := C01_plan hostR pathR hostR_ok hostR_elems
  exact ⟨p, hp, C22_refl_proto p⟩

/-- A host variant `{ a : u8/i8 = 1 }`. -/
def C22.v (s : Sign) : Ty :=
  .variant (.cons ['a'] 1 [] (.int 1 s 1) .nil)
    { outline := false, dflt := 0, termOff := 0, termSize := 1, tagOff := 1, tagW := 1, size := 2,
      align := 1, termAlign := 1 }

/-- Violation: the types of terms are not compared; one protocol reads 255 where the other reads -1. -/
theorem C22_violated_term : ∃ p q m, plan (C22.v .unsigned) [] = some p ∧ plan (C22.v .signed) [] = some q ∧
    p.binCompat q = true ∧ readVal m p.head 0 = some (.variant ['a'] (.int 255)) ∧
    readVal m q.head 0 = some (.variant ['a'] (.int (-1))) :=
  ⟨_, _, fun a => if a = 0 then 255 else 1, rfl, rfl, by decide, rfl, rfl⟩

/-- Violation: `unit` is compatible with everything. -/
theorem C22_violated_unit : ∃ p q, plan .unit [] = some p ∧ plan (.int 1 .unsigned 1) [] = some q ∧
    p.binCompat q = true ∧ q.binCompat p = false ∧ readVal (fun _ => 7) p.head 0 = some .unit ∧
    readVal (fun _ => 7) q.head 0 = some (.int 7) :=
  ⟨_, _, rfl, rfl, by decide, by decide, rfl, rfl⟩

end PJ
