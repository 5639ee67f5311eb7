import Verif.Spec.Host
import Verif.Lemmas.AnyLayout
import Verif.Props.C25_TagAssignment
import Verif.Props.C01_RoundTrip
/-!
# The generated types are laid out as described
-/
namespace PJ

/-- An alignment of C++. -/
def IsAl (a : Nat) : Prop := a = 1 ∨ a = 2 ∨ a = 4 ∨ a = 8

theorem IsAl.pos {a : Nat} (h : IsAl a) : 0 < a := by unfold IsAl at h; omega

theorem IsAl.max {a b : Nat} (ha : IsAl a) (hb : IsAl b) : IsAl (max a b) := by unfold IsAl at *; omega

theorem IsAl.dvd_max_left {a b : Nat} (ha : IsAl a) (hb : IsAl b) : a ∣ Nat.max a b := by
  unfold IsAl at *
  rcases ha with rfl | rfl | rfl | rfl <;> rcases hb with rfl | rfl | rfl | rfl <;> decide

theorem roundUp_dvd (x m : Nat) : m ∣ roundUp x m := by
  unfold roundUp; exact Nat.dvd_mul_left _ _

theorem roundUp_of_dvd {x m : Nat} (h : 0 < m) (hd : m ∣ x) : roundUp x m = x := by
  obtain ⟨k, rfl⟩ := hd
  unfold roundUp divideUp
  have : (m * k + m - 1) / m = k := by
    rw [show m * k + m - 1 = m - 1 + m * k by omega, Nat.add_mul_div_left _ _ h, Nat.div_eq_of_lt (by omega)]
    omega
  rw [this, Nat.mul_comm]

theorem cppInt_eq {w : Nat} (h : validateInt (8 * w) = true) : cppInt w = w ∧ IsAl w := by
  have : w = 1 ∨ w = 2 ∨ w = 4 ∨ w = 8 := by
    rcases (C38_int _).1 h with h | h | h | h <;> omega
  rcases this with rfl | rfl | rfl | rfl <;> exact ⟨by decide, by unfold IsAl; omega⟩

theorem STy.isWchar_eq {t : STy} (h : t.isWchar = true) : t = .int 2 .signless := by
  cases t <;> simp [STy.isWchar] at h
  rw [h.1, h.2]

theorem describeTerms_toList : ∀ ts : STerms,
    (describeTerms ts).toList.map (fun t => (t.name, t.tag)) = ts.decls
  | .nil => rfl
  | .cons c g t r => by
    simp only [describeTerms, Terms.toList, List.map_cons, describeTerms_toList r, STerms.decls]
termination_by structural ts => ts

theorem describeTerms_tags (ts : STerms) : (describeTerms ts).toList.map (·.tag) = ts.decls.map (·.2) := by
  rw [← describeTerms_toList, List.map_map]; rfl

theorem describeTerms_names (ts : STerms) : (describeTerms ts).toList.map (·.name) = ts.decls.map (·.1) := by
  rw [← describeTerms_toList, List.map_map]; rfl

theorem describeFields_names : ∀ (fs : SFields) (off : Nat), (describeFields fs off).toList.map (·.1) = fs.names
  | .nil, _ => rfl
  | .cons c t r, off => by
    simp only [describeFields, Fields.toList, List.map_cons, describeFields_names r, SFields.names]
termination_by structural fs => fs

/-- Interning permutes the terms and keeps the default term. -/
theorem internDecls_spec (terms : List (Comp × Nat)) (k : Nat) (hk : k < terms.length) :
    (internDecls terms k).1.Perm terms ∧ (internDecls terms k).1[(internDecls terms k).2]? = terms[k]? := by
  have h1 := (C24_sorted (fun _ => false) (terms.map fun t => (nameBytes t.1, t)) k).1
  have h2 := C24_default (fun _ => false) (terms.map fun t => (nameBytes t.1, t)) k (by simpa using hk)
  have e : (terms.map fun t => (nameBytes t.1, t)).map (·.2) = terms := by simp [Function.comp_def]
  constructor
  · have := h1.map (·.2)
    rwa [e] at this
  · simp only [internDecls, List.getElem?_map, h2]
    cases terms[k]? <;> rfl

/-- What the parser guarantees about the terms of a variant. -/
theorem accepted_variant {ts : STerms} {d : Nat} (h : Accepted (.variant ts d)) :
    (ts.decls.map (·.1)).Nodup ∧ (ts.decls.map (·.2)).Nodup ∧ d < ts.decls.length := by
  obtain ⟨⟨decl, terms, k, hl, hd, hi⟩, _⟩ := h
  have h1 := C25_accepted decl hl _ _ hd
  have hk : k < terms.length := by
    have : ∃ x, (terms.map (·.1))[k]? = some x := by
      rcases C25_default decl _ _ hd with ⟨f, _, _, h, _⟩ | ⟨_, h⟩ <;> exact ⟨_, h⟩
    obtain ⟨x, hx⟩ := this
    have := (List.getElem?_eq_some_iff.1 hx).1
    simpa using this
  obtain ⟨hp, hd'⟩ := internDecls_spec terms k hk
  rw [hi] at hp hd'
  refine ⟨(hp.map _).nodup_iff.2 h1.1, (hp.map _).nodup_iff.2 h1.2.1, ?_⟩
  rw [List.getElem?_eq_getElem hk] at hd'
  exact (List.getElem?_eq_some_iff.1 hd').1

theorem safe_tagWidth {ts : STerms} {d : Nat} (h : Safe (.variant ts d)) :
    IsAl ts.tagWidth ∧ ∀ x ∈ ts.decls, x.2 < 256 ^ ts.tagWidth := by
  obtain ⟨⟨x, hx, hne⟩, h2, _⟩ := h
  obtain ⟨w, hw, hw2, hw3⟩ := C17_tag_fits_partial (ts.decls.map (·.2))
    (fun t ht => by
      obtain ⟨x, hx, rfl⟩ := List.mem_map.1 ht
      have := h2 x hx
      omega) ⟨_, List.mem_map_of_mem hx, hne⟩
  unfold STerms.tagWidth
  rw [hw]
  exact ⟨hw2, fun x hx => hw3 _ (List.mem_map_of_mem hx)⟩

/-- Sizes are positive multiples of the alignment. -/
def GoodSA (sa : Nat × Nat) : Prop := IsAl sa.2 ∧ sa.2 ∣ sa.1 ∧ 1 ≤ sa.1

mutual
theorem cpp_good : ∀ t : STy, Accepted t → Safe t → GoodSA (cpp t)
  | .int w s, h, _ => by
    obtain ⟨h1, h2⟩ := cppInt_eq h
    simp only [cpp, h1]
    exact ⟨h2, Nat.dvd_refl _, h2.pos⟩
  | .float w, h, _ => by
    have : w = 4 ∨ w = 8 := by simp only [Accepted] at h; omega
    rcases this with rfl | rfl <;> exact ⟨by unfold IsAl; simp [cpp], Nat.dvd_refl _, by simp [cpp]⟩
  | .unit, _, _ => ⟨Or.inl rfl, Nat.dvd_refl _, Nat.le_refl _⟩
  | .struct fs, h, hs => by
    have h1 := cppFields_good fs 0 h.2 hs
    simp only [cpp]
    refine ⟨h1, ?_, Nat.le_max_left _ _⟩
    simp only
    have hd := roundUp_dvd (cppFields fs 0).1 (cppFields fs 0).2
    rcases Nat.eq_zero_or_pos (roundUp (cppFields fs 0).1 (cppFields fs 0).2) with h0 | h0
    · rw [h0]
      have : (cppFields fs 0).2 = 1 := by
        cases fs with
        | nil => rfl
        | cons c t r =>
          exfalso
          have g := cpp_good t h.2.1 hs.1
          have g2 := roundUp_ge (x := (cppFields (.cons c t r) 0).1) h1.pos
          have g3 := cppFields_ge r (roundUp 0 (cpp t).2 + (cpp t).1) h.2.2 hs.2
          have g4 := g.2.2
          simp only [cppFields] at g2 h0
          omega
      rw [this]; exact Nat.one_dvd _
    · rwa [Nat.max_eq_right h0]
  | .variant ts d, h, hs => by
    have hw := (safe_tagWidth hs).1
    have hu := cppUnion_good ts h.2 hs.2.2
    simp only [cpp]
    split
    · refine ⟨hu.1.max hw, roundUp_dvd _ _, ?_⟩
      have := roundUp_ge (x := roundUp (roundUp (cppUnion ts).1 (cppUnion ts).2) ts.tagWidth + ts.tagWidth)
        (hu.1.max hw).pos
      have := hw.pos
      simp only; omega
    · exact ⟨hw, Nat.dvd_refl _, hw.pos⟩
  | .array e n, h, hs => by
    have he := cpp_good e h.2.2 hs.2
    have hwr : GoodSA (wrapped e (cpp e)) := by
      unfold wrapped
      split
      · exact ⟨by unfold IsAl; simp, Nat.dvd_refl _, by simp⟩
      · exact he
    simp only [cpp]
    split
    · exact ⟨Or.inl rfl, Nat.dvd_refl _, Nat.le_refl _⟩
    · rename_i hn
      exact ⟨hwr.1, Nat.dvd_trans hwr.2.1 (Nat.dvd_mul_left _ _), Nat.mul_pos (by omega) hwr.2.2⟩
  | .vector _ _ _, _, _ => ⟨by unfold IsAl; simp [cpp], by simp only [cpp]; decide, by simp [cpp]⟩
termination_by structural t => t
theorem cppFields_good : ∀ (fs : SFields) (off : Nat), AcceptedFields fs → SafeFields fs → IsAl (cppFields fs off).2
  | .nil, _, _, _ => Or.inl rfl
  | .cons c t r, off, h, hs => by
    simp only [cppFields]
    exact (cpp_good t h.1 hs.1).1.max (cppFields_good r _ h.2 hs.2)
termination_by structural fs => fs
theorem cppFields_ge : ∀ (fs : SFields) (off : Nat), AcceptedFields fs → SafeFields fs → off ≤ (cppFields fs off).1
  | .nil, _, _, _ => Nat.le_refl _
  | .cons c t r, off, h, hs => by
    have h1 := roundUp_ge (x := off) (cpp_good t h.1 hs.1).1.pos
    have h2 := cppFields_ge r (roundUp off (cpp t).2 + (cpp t).1) h.2 hs.2
    simp only [cppFields]; omega
termination_by structural fs => fs
theorem cppUnion_good : ∀ (ts : STerms), AcceptedTerms ts → SafeTerms ts → IsAl (cppUnion ts).2 ∧ 1 ≤ (cppUnion ts).1
  | .nil, _, _ => ⟨Or.inl rfl, Nat.le_refl _⟩
  | .cons c g t r, h, hs => by
    have h1 := cpp_good t h.1 hs.1
    have h2 := cppUnion_good r h.2 hs.2
    simp only [cppUnion]
    exact ⟨h1.1.max h2.1, by have := h2.2; omega⟩
termination_by structural ts => ts
end

/-- The described size is the size of the C++ type if it is not 0. -/
theorem describe_size (t : STy) (h : Accepted t) (hs : Safe t) :
    (describe t).size = (cpp t).1 ∨ (describe t).size = 0 := by
  cases t with
  | int w s => simp only [describe, Ty.size, cpp, (cppInt_eq h).1, true_or]
  | float w => exact Or.inl rfl
  | unit => exact Or.inr rfl
  | struct fs => exact Or.inl rfl
  | variant ts d => exact Or.inl rfl
  | vector e mn mx => exact Or.inl rfl
  | array e n =>
    simp only [describe, Ty.size, cpp]
    split
    · rename_i hn; right; rw [hn, Nat.zero_mul]
    · left
      congr 1
      cases e with
      | int w s =>
        have := hs.1 w s rfl
        subst this
        simp [arrayElemSize, wrapped, STy.isWchar, cpp, cppInt]
        decide
      | _ => rfl

theorem describe_size_le (t : STy) (h : Accepted t) (hs : Safe t) : (describe t).size ≤ (cpp t).1 := by
  rcases describe_size t h hs with h | h <;> omega

theorem describe_size_bytes (t : STy) (h : Accepted t) (hs : Safe t) (hb : t.bytes = true) :
    (describe t).size = (cpp t).1 := by
  rcases describe_size t h hs with h1 | h1
  · exact h1
  · have hg := (cpp_good t h hs).2.2
    cases t with
    | int w s => simp only [describe, Ty.size, cpp, (cppInt_eq h).1]
    | float w => rfl
    | unit => simp [STy.bytes] at hb
    | struct fs => rfl
    | variant ts d => rfl
    | vector e mn mx => rfl
    | array e n =>
      exfalso
      simp only [STy.bytes, Bool.and_eq_true, bne_iff_ne] at hb
      simp only [describe, Ty.size] at h1
      rcases Nat.mul_eq_zero.1 h1 with h1 | h1
      · exact hb.1 h1
      · have g := (cpp_good e h.2.2 hs.2).2.2
        cases e with
        | int w s => simp [arrayElemSize] at h1
        | _ => simp only [arrayElemSize] at h1; omega

/-- The described alignment is an alignment that divides the one of the C++ type. -/
theorem describe_align (t : STy) (h : Accepted t) (hs : Safe t) : IsAl (describe t).align ∧ (describe t).align ∣ (cpp t).2 := by
  have hg := (cpp_good t h hs).1
  cases t with
  | int w s =>
    simp only [describe, Ty.align, cpp, (cppInt_eq h).1]
    exact ⟨(cppInt_eq h).2, Nat.dvd_refl _⟩
  | float w =>
    simp only [describe, Ty.align, cpp]
    have : w = 4 ∨ w = 8 := by simp only [Accepted] at h; omega
    rcases this with rfl | rfl <;> exact ⟨by unfold IsAl; simp, by decide⟩
  | unit => exact ⟨Or.inl rfl, Nat.dvd_refl _⟩
  | struct fs => exact ⟨hg, Nat.dvd_refl _⟩
  | variant ts d =>
    simp only [describe, Ty.align, Bool.false_eq_true, if_false]
    exact ⟨hg, Nat.dvd_refl _⟩
  | vector e mn mx => exact ⟨hg, Nat.dvd_refl _⟩
  | array e n => exact ⟨hg, Nat.dvd_refl _⟩

/-- The stride of a span is the size of the C++ element. -/
theorem describe_stride (t : STy) (h : Accepted t) (hs : Safe t) (hb : t.bytes = true) :
    roundUp (describe t).size (describe t).align = (cpp t).1 := by
  obtain ⟨h1, h2⟩ := describe_align t h hs
  rw [describe_size_bytes t h hs hb]
  exact roundUp_of_dvd h1.pos (Nat.dvd_trans h2 (cpp_good t h hs).2.1)

/-- The stride of an array is the size of the C++ element. -/
theorem array_stride (e : STy) (h : Accepted e) (hs : ∀ w s, e = .int w s → w = 1) : arrayElemSize e = (cpp e).1 := by
  cases e with
  | int w s =>
    have := hs w s rfl
    subst this
    simp only [arrayElemSize, cpp]
    decide
  | _ => rfl

/-! ## Well-formedness -/

theorem describeFields_layout : ∀ (fs : SFields) (off : Nat), AcceptedFields fs → SafeFields fs →
    (∀ x ∈ (describeFields fs off).toList, off ≤ x.2.1 ∧ x.2.1 + x.2.2.size ≤ (cppFields fs off).1) ∧
    (describeFields fs off).toList.Pairwise fun x y => Disj x.2.1 x.2.2.size y.2.1 y.2.2.size
  | .nil, off, _, _ => ⟨by simp [describeFields, Fields.toList], by simp [describeFields, Fields.toList]⟩
  | .cons c t r, off, h, hs => by
    have h1 := roundUp_ge (x := off) (cpp_good t h.1 hs.1).1.pos
    have h2 := describe_size_le t h.1 hs.1
    have h3 := cppFields_ge r (roundUp off (cpp t).2 + (cpp t).1) h.2 hs.2
    obtain ⟨i1, i2⟩ := describeFields_layout r (roundUp off (cpp t).2 + (cpp t).1) h.2 hs.2
    simp only [describeFields, Fields.toList, cppFields, List.forall_mem_cons, List.pairwise_cons]
    refine ⟨⟨⟨h1, by omega⟩, fun x hx => ?_⟩, fun x hx => ?_, i2⟩
    · have := i1 x hx; omega
    · have := i1 x hx
      right; right; left; omega
termination_by structural fs => fs

theorem describeTerms_size : ∀ ts : STerms, AcceptedTerms ts → SafeTerms ts →
    ∀ x ∈ (describeTerms ts).toList, x.ty.size ≤ (cppUnion ts).1
  | .nil, _, _, x, hx => by simp [describeTerms, Terms.toList] at hx
  | .cons c g t r, h, hs, x, hx => by
    simp only [describeTerms, Terms.toList, List.mem_cons] at hx
    simp only [cppUnion]
    rcases hx with rfl | hx
    · have := describe_size_le t h.1 hs.1
      simp only; omega
    · have := describeTerms_size r h.2 hs.2 x hx
      omega
termination_by structural ts => ts

theorem describeTerms_unit : ∀ ts : STerms, ts.hasValue = false → ∀ x ∈ (describeTerms ts).toList, x.ty.size = 0
  | .nil, _, x, hx => by simp [describeTerms, Terms.toList] at hx
  | .cons c g t r, h, x, hx => by
    simp only [STerms.hasValue, Bool.or_eq_false_iff, Bool.not_eq_false'] at h
    simp only [describeTerms, Terms.toList, List.mem_cons] at hx
    rcases hx with rfl | hx
    · cases t <;> simp [STy.isUnit] at h
      rfl
    · exact describeTerms_unit r h.2 x hx
termination_by structural ts => ts

mutual
theorem describe_WF : ∀ t : STy, Accepted t → Safe t → WF (describe t)
  | .int w s, h, _ => by
    have := (cppInt_eq h).2
    unfold IsAl at this
    simp only [describe, WF]; omega
  | .float w, h, _ => by simp only [Accepted] at h; simp only [describe, WF]; omega
  | .unit, _, _ => trivial
  | .struct fs, h, hs => by
    simp only [describe, WF]
    refine ⟨describeFields_WF fs 0 h.2 hs, ?_⟩
    obtain ⟨h1, h2⟩ := describeFields_layout fs 0 h.2 hs
    refine ⟨fun x hx => ?_, h2, ?_⟩
    · have := (h1 x hx).2
      have := roundUp_ge (x := (cppFields fs 0).1) (cppFields_good fs 0 h.2 hs).pos
      simp only [cpp]; omega
    · rw [describeFields_names]; exact (C38_struct _).1 h.1
  | .variant ts d, h, hs => by
    simp only [describe, WF]
    refine ⟨describeTerms_WF ts h.2 hs.2.2, ?_⟩
    obtain ⟨hn, ht, hd⟩ := accepted_variant h
    obtain ⟨hw, hlt⟩ := safe_tagWidth hs
    have hu := cppUnion_good ts h.2 hs.2.2
    have hw' := hw
    unfold IsAl at hw'
    have hlen : (describeTerms ts).toList.length = ts.decls.length := by rw [← describeTerms_toList, List.length_map]
    have hm : ∀ x ∈ (describeTerms ts).toList, (x.name, x.tag) ∈ ts.decls := fun x hx => by
      rw [← describeTerms_toList]; exact List.mem_map_of_mem hx
    refine ⟨by simp only; omega, ?_, fun x hx => ?_, by simp only; omega, ?_, fun _ x hx => ?_, fun _ x hx => ?_⟩
    · rw [describeTerms_tags]; exact ht
    · exact ⟨hlt _ (hm x hx), hs.2.1 _ (hm x hx)⟩
    · simp only [cpp, cppTagOff]
      split
      · exact roundUp_ge (hu.1.max hw).pos
      · simp
    · have h1 := describeTerms_size ts h.2 hs.2.2 x hx
      simp only [cpp]
      split
      · have := roundUp_ge (x := (cppUnion ts).1) hu.1.pos
        have := roundUp_ge (x := roundUp (cppUnion ts).1 (cppUnion ts).2) hw.pos
        have := roundUp_ge (x := roundUp (roundUp (cppUnion ts).1 (cppUnion ts).2) ts.tagWidth + ts.tagWidth)
          (hu.1.max hw).pos
        simp only; omega
      · rename_i hv
        rw [describeTerms_unit ts (by simpa using hv) x hx]
        simp only; omega
    · have h1 := describeTerms_size ts h.2 hs.2.2 x hx
      simp only [cppTagOff]
      split
      · have := roundUp_ge (x := (cppUnion ts).1) hu.1.pos
        have := roundUp_ge (x := roundUp (cppUnion ts).1 (cppUnion ts).2) hw.pos
        right; right; right; omega
      · rename_i hv
        rw [describeTerms_unit ts (by simpa using hv) x hx]
        exact Or.inr (Or.inl rfl)
  | .array e n, h, hs => by
    simp only [describe, WF]
    refine ⟨describe_WF e h.2.2 hs.2, ?_⟩
    rw [array_stride e h.2.2 hs.1]
    exact describe_size_le e h.2.2 hs.2
  | .vector e mn mx, h, hs => by
    simp only [describe, WF]
    obtain ⟨hv, hmin, hmax, he⟩ := h
    obtain ⟨_, hb, h0, hse⟩ := hs
    have hst := describe_stride e he hse hb
    refine ⟨describe_WF e he hse, ?_⟩
    refine ⟨⟨by simp [spanL], by simp [spanL]⟩, fun m hm => ?_, fun _ => rfl, by simp [spanL], by simp [spanL], ?_, Nat.le_refl _,
      fun h => absurd rfl h, fun _ => ⟨rfl, by simp [spanL], ?_⟩, fun _ h => absurd rfl h, (describe_align e he hse).1⟩
    · simp only [spanL] at hm ⊢
      have h1 : m ≠ 0 := fun hz => h0 (by rw [hm, hz])
      have h2 := hmax m hm
      refine ⟨by omega, ?_, h2, by omega⟩
      have : (2 : Nat) ^ 63 < 256 ^ 8 := by decide
      omega
    · simp only [spanL]
      rw [hst]; exact describe_size_le e he hse
    · right; right; right; simp [spanL]
termination_by structural t => t
theorem describeFields_WF : ∀ (fs : SFields) (off : Nat), AcceptedFields fs → SafeFields fs → WFFields (describeFields fs off)
  | .nil, _, _, _ => trivial
  | .cons _ t r, _, h, hs => ⟨describe_WF t h.1 hs.1, describeFields_WF r _ h.2 hs.2⟩
termination_by structural fs => fs
theorem describeTerms_WF : ∀ ts : STerms, AcceptedTerms ts → SafeTerms ts → WFTerms (describeTerms ts)
  | .nil, _, _ => trivial
  | .cons _ _ t r, h, hs => ⟨describe_WF t h.1 hs.1, describeTerms_WF r h.2 hs.2⟩
termination_by structural ts => ts
end

mutual
theorem describe_sch : ∀ t : STy, Accepted t → Safe t → Sch (describe t)
  | .int w s, h, _ => by
    have := (cppInt_eq h).2
    unfold IsAl at this
    simp only [describe, Sch]; omega
  | .float w, h, _ => by simp only [Accepted] at h; simp only [describe, Sch]; omega
  | .unit, _, _ => trivial
  | .struct fs, h, hs => by
    simp only [describe, Sch]
    rw [describeFields_names]
    exact ⟨(C38_struct _).1 h.1, describeFields_sch fs 0 h.2 hs⟩
  | .variant ts d, h, hs => by
    simp only [describe, Sch]
    obtain ⟨hn, ht, hd⟩ := accepted_variant h
    have hlen : (describeTerms ts).toList.length = ts.decls.length := by rw [← describeTerms_toList, List.length_map]
    refine ⟨by omega, by rw [describeTerms_tags]; exact ht, ?_, fun x hx => ?_, describeTerms_sch ts h.2 hs.2.2⟩
    · obtain ⟨x, hx, hne⟩ := hs.1
      rw [← describeTerms_toList] at hx
      obtain ⟨u, hu, rfl⟩ := List.mem_map.1 hx
      exact ⟨u, hu, hne⟩
    · exact hs.2.1 (x.name, x.tag) (by rw [← describeTerms_toList]; exact List.mem_map_of_mem hx)
  | .array e n, h, hs => describe_sch e h.2.2 hs.2
  | .vector e mn mx, h, hs => by
    simp only [describe, Sch]
    obtain ⟨hv, hmin, hmax, he⟩ := h
    refine ⟨describe_sch e he hs.2.2.2, hmin, fun m hm => ?_⟩
    simp only [spanL] at hm ⊢
    subst hm
    have h1 : m ≠ 0 := fun hz => hs.2.2.1 (by rw [hz])
    have := (C38_vector _ _).1 hv
    refine ⟨by omega, hmax m rfl, ?_⟩
    simp only at this; omega
termination_by structural t => t
theorem describeFields_sch : ∀ (fs : SFields) (off : Nat), AcceptedFields fs → SafeFields fs → SchFields (describeFields fs off)
  | .nil, _, _, _ => trivial
  | .cons _ t r, _, h, hs => ⟨describe_sch t h.1 hs.1, describeFields_sch r _ h.2 hs.2⟩
termination_by structural fs => fs
theorem describeTerms_sch : ∀ ts : STerms, AcceptedTerms ts → SafeTerms ts → SchTerms (describeTerms ts)
  | .nil, _, _ => trivial
  | .cons _ _ t r, h, hs => ⟨describe_sch t h.1 hs.1, describeTerms_sch r h.2 hs.2⟩
termination_by structural ts => ts
end

mutual
theorem describe_plain : ∀ t : STy, Accepted t → Plain (describe t)
  | .int w s, _ => trivial
  | .float w, _ => trivial
  | .unit, _ => trivial
  | .struct fs, h => describeFields_plain fs 0 h.2
  | .variant ts d, h => by
    simp only [describe, Plain]
    rw [describeTerms_names]
    exact ⟨(accepted_variant h).1, describeTerms_plain ts h.2⟩
  | .array e n, h => describe_plain e h.2.2
  | .vector e mn mx, h => describe_plain e h.2.2.2
termination_by structural t => t
theorem describeFields_plain : ∀ (fs : SFields) (off : Nat), AcceptedFields fs → PlainFields (describeFields fs off)
  | .nil, _, _ => trivial
  | .cons _ t r, _, h => ⟨describe_plain t h.1, describeFields_plain r _ h.2⟩
termination_by structural fs => fs
theorem describeTerms_plain : ∀ ts : STerms, AcceptedTerms ts → PlainTerms (describeTerms ts)
  | .nil, _ => trivial
  | .cons _ _ t r, h => ⟨rfl, describe_plain t h.1, describeTerms_plain r h.2⟩
termination_by structural ts => ts
end

mutual
theorem describe_noOut : ∀ t : STy, (describe t).noOut
  | .int _ _ => trivial
  | .float _ => trivial
  | .unit => trivial
  | .struct fs => describeFields_noOut fs 0
  | .variant ts _ => ⟨rfl, describeTerms_noOut ts⟩
  | .array e _ => describe_noOut e
  | .vector e _ _ => describe_noOut e
termination_by structural t => t
theorem describeFields_noOut : ∀ (fs : SFields) (off : Nat), (describeFields fs off).noOut
  | .nil, _ => trivial
  | .cons _ t r, _ => ⟨describe_noOut t, describeFields_noOut r _⟩
termination_by structural fs => fs
theorem describeTerms_noOut : ∀ ts : STerms, (describeTerms ts).noOut
  | .nil => trivial
  | .cons _ _ t r => ⟨describe_noOut t, describeTerms_noOut r⟩
termination_by structural ts => ts
end

mutual
theorem describe_bytes : ∀ t : STy, Accepted t → (describe t).bytes = t.bytes
  | .int w s, h => by
    have := (cppInt_eq h).2.pos
    simp only [describe, Ty.bytes, STy.bytes, bne_iff_ne]; omega
  | .float w, h => by simp only [Accepted] at h; simp only [describe, Ty.bytes, STy.bytes, bne_iff_ne]; omega
  | .unit, _ => rfl
  | .struct fs, h => describeFields_bytes fs 0 h.2
  | .variant ts d, h => rfl
  | .array e n, h => by simp only [describe, Ty.bytes, STy.bytes, describe_bytes e h.2.2]
  | .vector e mn mx, h => rfl
termination_by structural t => t
theorem describeFields_bytes : ∀ (fs : SFields) (off : Nat), AcceptedFields fs → (describeFields fs off).bytes = fs.bytes
  | .nil, _, _ => rfl
  | .cons c t r, off, h => by
    simp only [describeFields, Fields.bytes, SFields.bytes, describe_bytes t h.1, describeFields_bytes r _ h.2]
termination_by structural fs => fs
end

mutual
theorem describe_elems : ∀ t : STy, Accepted t → Safe t → Elems (describe t)
  | .int w s, _, _ => trivial
  | .float w, _, _ => trivial
  | .unit, _, _ => trivial
  | .struct fs, h, hs => describeFields_elems fs 0 h.2 hs
  | .variant ts d, h, hs => describeTerms_elems ts h.2 hs.2.2
  | .array e n, h, hs => describe_elems e h.2.2 hs.2
  | .vector e mn mx, h, hs => ⟨by rw [describe_bytes e h.2.2.2]; exact hs.2.1, describe_elems e h.2.2.2 hs.2.2.2⟩
termination_by structural t => t
theorem describeFields_elems : ∀ (fs : SFields) (off : Nat), AcceptedFields fs → SafeFields fs → ElemsFields (describeFields fs off)
  | .nil, _, _, _ => trivial
  | .cons _ t r, _, h, hs => ⟨describe_elems t h.1 hs.1, describeFields_elems r _ h.2 hs.2⟩
termination_by structural fs => fs
theorem describeTerms_elems : ∀ ts : STerms, AcceptedTerms ts → SafeTerms ts → ElemsTerms (describeTerms ts)
  | .nil, _, _ => trivial
  | .cons _ _ t r, h, hs => ⟨describe_elems t h.1 hs.1, describeTerms_elems r h.2 hs.2⟩
termination_by structural ts => ts
end

/-! ## Values -/

theorem collect_ext {α} {f g : Nat → Option α} (h : ∀ i, f i = g i) : ∀ n i, collect f i n = collect g i n := by
  have : f = g := funext h
  subst this
  exact fun _ _ => rfl

mutual
theorem describe_val (m : Mem) : ∀ (t : STy) (a : Nat), Accepted t → Safe t → readVal m (describe t) a = cppVal m t a
  | .int w s, a, h, _ => by simp only [describe, readVal, cppVal, (cppInt_eq h).1]
  | .float w, a, _, _ => rfl
  | .unit, a, _, _ => rfl
  | .struct fs, a, h, hs => by
    simp only [describe, readVal, cppVal, describeFields_val m fs a 0 h.2 hs]
    cases cppFieldsVal m fs a 0 <;> rfl
  | .variant ts d, a, h, hs => by
    simp only [describe, readVal, cppVal]
    exact describeTerms_val m ts _ a h.2 hs.2.2
  | .array e n, a, h, hs => by
    have hw : e.isWchar = false := by
      cases hw : e.isWchar
      · rfl
      · have h1 := STy.isWchar_eq hw
        have := hs.1 _ _ h1
        omega
    have he := fun x => describe_val m e x h.2.2 hs.2
    simp only [describe, readVal, cppVal, hw, Bool.false_eq_true, if_false, array_stride e h.2.2 hs.1, elemAt, he]
    cases collect (fun i => cppVal m e (a + i * (cpp e).1)) 0 n <;> rfl
  | .vector e mn mx, a, h, hs => by
    have he := fun x => describe_val m e x h.2.2.2 hs.2.2.2
    have hst := describe_stride e h.2.2.2 hs.2.2.2 hs.2.1
    have hadr : ∀ n i, vecElemAddr m (spanL mn mx (describe e).size (describe e).align) a n i = readN m a 8 + i * (cpp e).1 := by
      intro n i
      simp [vecElemAddr, VecL.isInl, spanL, elemAt, refStart, hst]
    simp only [describe, readVal, cppVal, hs.1, Bool.false_eq_true, if_false, he, hadr]
    have hlen : lengthOp m (spanL mn mx (describe e).size (describe e).align) a =
        if (∀ k, mx = some k → readN m (a + 8) 8 ≤ k) then some (readN m (a + 8) 8) else none := by
      unfold lengthOp
      simp only [spanL]
      cases mx with
      | none => simp
      | some k =>
        have : k ≠ 0 := fun hz => hs.2.2.1 (by rw [hz])
        by_cases hk : readN m (a + 8) 8 ≤ k <;> simp [this, hk]
    rw [hlen]
    by_cases h1 : ∀ k, mx = some k → readN m (a + 8) 8 ≤ k
    · rw [if_pos h1]
      by_cases h2 : readN m (a + 8) 8 < 2 ^ 63
      · rw [if_pos ⟨h2, h1⟩]
        simp only [h2, if_true]
        cases collect (fun i => cppVal m e (readN m a 8 + i * (cpp e).1)) 0 (readN m (a + 8) 8) <;> rfl
      · rw [if_neg (fun h => h2 h.1)]
        simp only [h2, if_false]
    · rw [if_neg h1, if_neg (fun h => h1 h.2)]
termination_by structural t => t
theorem describeFields_val (m : Mem) : ∀ (fs : SFields) (a off : Nat), AcceptedFields fs → SafeFields fs →
    readFields m (describeFields fs off) a = cppFieldsVal m fs a off
  | .nil, a, off, _, _ => rfl
  | .cons c t r, a, off, h, hs => by
    simp only [describeFields, readFields, cppFieldsVal, describe_val m t _ h.1 hs.1, describeFields_val m r a _ h.2 hs.2]
    rfl
termination_by structural fs => fs
theorem describeTerms_val (m : Mem) : ∀ (ts : STerms) (raw a : Nat), AcceptedTerms ts → SafeTerms ts →
    readTerm m (describeTerms ts) raw a = cppTermVal m ts raw a
  | .nil, raw, a, _, _ => rfl
  | .cons c g t r, raw, a, h, hs => by
    simp only [describeTerms, readTerm, cppTermVal, describe_val m t a h.1 hs.1, describeTerms_val m r raw a h.2 hs.2]
    split
    · cases cppVal m t a <;> rfl
    · rfl
termination_by structural ts => ts
end

end PJ
