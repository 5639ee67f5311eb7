import Verif.Model.CopyTag
import Verif.Props.C17_TagWidth
/-!
# C11: the enum fast path agrees with the name based mapping
-/
namespace PJ

/-- Specification: the receiver's tag for a raw sender tag, by name, with the receiver's default
for everything unknown. -/
def specTag (src dst : EnumTy) (dfltTag raw : Nat) : Nat :=
  match src.terms.find? (fun t => t.2 == raw) with
  | some t =>
    match dst.terms.find? (fun d => d.1 == t.1) with
    | some d => d.2
    | none => dfltTag
  | none => dfltTag

/-- An enum as accepted by the compiler: distinct names, distinct tags fitting the tag field. -/
structure EnumTy.WF (e : EnumTy) (dfltTag : Nat) : Prop where
  names : (e.terms.map (·.1)).Nodup
  tags : (e.terms.map (·.2)).Nodup
  fits : ∀ t ∈ e.terms, t.2 < 256 ^ e.tagW
  dflt : ∃ n, e.terms[e.dflt]? = some (n, dfltTag)

theorem nodup_unique {α β} (f : α → β) (l : List α) (h : (l.map f).Nodup) :
    ∀ a ∈ l, ∀ b ∈ l, f a = f b → a = b := by
  intro a ha b hb hab
  obtain ⟨i, hi, rfl⟩ := List.getElem_of_mem ha
  obtain ⟨j, hj, rfl⟩ := List.getElem_of_mem hb
  have hp := List.pairwise_iff_getElem.1 (List.pairwise_map.1 h)
  rcases Nat.lt_trichotomy i j with h | h | h
  · exact absurd hab (hp i j hi hj h)
  · subst h; rfl
  · exact absurd hab.symm (hp j i hj hi h)

theorem find?_unique {α β} [BEq β] [LawfulBEq β] (f : α → β) (l : List α) (h : (l.map f).Nodup)
    (a : α) (ha : a ∈ l) : l.find? (fun x => f x == f a) = some a := by
  cases hf : l.find? (fun x => f x == f a) with
  | none => have := List.find?_eq_none.1 hf a ha; simp at this
  | some b =>
    have h1 := List.mem_of_find?_eq_some hf
    have h2 := List.find?_some hf
    simp at h2
    rw [nodup_unique f l h b h1 a ha h2]

theorem tagOf_eq (e : EnumTy) (h : (e.terms.map (·.1)).Nodup) (n : Comp) :
    e.tagOf n = (e.terms.find? (fun t => t.1 == n)).map (·.2) := by
  unfold EnumTy.tagOf
  congr 1
  cases hf : e.terms.find? (fun t => t.1 == n) with
  | none =>
    rw [List.find?_eq_none] at hf ⊢
    intro x hx; exact hf x (by simpa using hx)
  | some t =>
    have h1 := List.mem_of_find?_eq_some hf
    have h2 := List.find?_some hf
    simp at h2
    subst h2
    exact find?_unique (·.1) e.terms.reverse (by
      rw [List.map_reverse]; exact (List.reverse_perm _).nodup_iff.2 h) t
      (by simpa using h1)

theorem tableEntry_eq (src dst : EnumTy) (t : Nat) : tableEntry src dst t =
    match src.terms.find? (fun u => u.2 == t) with
    | some u => (match dst.tagOf u.1 with | some g => g | none => 0)
    | none => 0 := by
  unfold tableEntry tagMapping
  induction src.terms with
  | nil => rfl
  | cons u us ih =>
    simp only [List.map_cons, List.find?_cons]
    cases u.2 == t with
    | true => rfl
    | false => exact ih

/-- A source term known to the receiver by name gets the receiver's tag of that name, provided
the tables match exactly or all source tags stay in the lower half of the tag field's range. -/
theorem C11_known_partial (src dst : EnumTy) (sd dd : Nat) (hs : src.WF sd) (hd : dst.WF dd)
    (hrange : exactMatch src dst = true ∨ 2 * tableSize src ≤ 256 ^ src.tagW)
    (n : Comp) (st dt : Nat) (h1 : (n, st) ∈ src.terms) (h2 : (n, dt) ∈ dst.terms) :
    copyTag src dst st = some dt := by
  have hdt : dst.tagOf n = some dt := by
    have := find?_unique (·.1) dst.terms hd.names (n, dt) h2
    simp only at this
    rw [tagOf_eq dst hd.names, this]; rfl
  unfold copyTag
  by_cases he : exactMatch src dst = true
  · rw [if_pos he]
    have := List.all_eq_true.1 he _ h1
    simp [hdt] at this
    rw [← this, Nat.mod_eq_of_lt (hd.fits _ h2)]
  · rw [if_neg he]
    have hr : 2 * tableSize src ≤ 256 ^ src.tagW := by
      rcases hrange with h | h
      · exact absurd h he
      · exact h
    have hpos := Nat.pow_pos (n := src.tagW) (show 0 < 256 by decide)
    have hlt : st < tableSize src := by
      unfold tableSize
      have := (foldl_max_ge (src.terms.map (·.2)) 0).2 st (List.mem_map.2 ⟨_, h1, rfl⟩)
      omega
    rw [Nat.mod_eq_of_lt (show tableSize src < 256 ^ src.tagW by
      unfold tableSize at *; omega), if_neg (by omega)]
    rw [if_neg (by unfold toSigned; rw [if_pos (by omega)]; omega)]
    have : tableEntry src dst st = dt := by
      have h := find?_unique (·.2) src.terms hs.tags (n, st) h1
      simp only at h
      rw [tableEntry_eq, h]
      simp [hdt]
    rw [this, Nat.mod_eq_of_lt (hd.fits _ h2)]

/-- The fast path agrees with the name based mapping for every raw tag, if the receiver's default
term has tag 0 (as the implicit `undef` has), the enums are not identical, and the source tags
stay in the lower half of the tag field's range.  Missing for the full claim: the situations of
the four `C11_violated_*` theorems. -/
theorem C11_all_tags_partial (src dst : EnumTy) (sd : Nat) (hs : src.WF sd) (hd : dst.WF 0)
    (hne : exactMatch src dst = false) (hrange : 2 * tableSize src ≤ 256 ^ src.tagW)
    (raw : Nat) : copyTag src dst raw = some (specTag src dst 0 raw) := by
  have hpos := Nat.pow_pos (n := src.tagW) (show 0 < 256 by decide)
  have htspos : 0 < tableSize src := by unfold tableSize; omega
  have hmod : tableSize src % 256 ^ src.tagW = tableSize src :=
    Nat.mod_eq_of_lt (by omega)
  cases hf : src.terms.find? (fun t => t.2 == raw) with
  | some t =>
    have h1 := List.mem_of_find?_eq_some hf
    have h2 := List.find?_some hf
    simp at h2
    subst h2
    cases hfd : dst.terms.find? (fun d => d.1 == t.1) with
    | some d =>
      have h3 := List.mem_of_find?_eq_some hfd
      have h4 := List.find?_some hfd
      simp at h4
      have := C11_known_partial src dst sd 0 hs hd (Or.inr hrange) t.1 t.2 d.2 h1 (by
        rw [← h4]; exact h3)
      rw [this]
      simp [specTag, hf, hfd]
    | none =>
      have hnone : dst.tagOf t.1 = none := by rw [tagOf_eq dst hd.names, hfd]; rfl
      have hlt : t.2 < tableSize src := by
        unfold tableSize
        have := (foldl_max_ge (src.terms.map (·.2)) 0).2 t.2 (List.mem_map.2 ⟨_, h1, rfl⟩)
        omega
      unfold copyTag
      rw [if_neg (by simp [hne]), hmod, if_neg (by omega),
        if_neg (by unfold toSigned; rw [if_pos (by omega)]; omega)]
      have : tableEntry src dst t.2 = 0 := by
        have h := find?_unique (·.2) src.terms hs.tags t h1
        rw [tableEntry_eq, h]
        simp [hnone]
      rw [this]
      simp [specTag, hf, hfd]
  | none =>
    have hspec : specTag src dst 0 raw = 0 := by simp [specTag, hf]
    rw [hspec]
    unfold copyTag
    rw [if_neg (by simp [hne]), hmod]
    split
    · obtain ⟨n, hn⟩ := hd.dflt
      rw [hn]; simp
    · rw [if_neg (by unfold toSigned; rw [if_pos (by omega)]; omega)]
      have : tableEntry src dst raw = 0 := by
        rw [tableEntry_eq, hf]
      rw [this]; simp

/-- Violation 1: a term the receiver does not know becomes tag 0, not the receiver's default term
(here `x` with tag 3); 0 is not a tag of the receiver at all. -/
theorem C11_violated_unknown_term :
    ∃ src dst : EnumTy, src.WF 1 ∧ dst.WF 3 ∧
      copyTag src dst 2 = some 0 ∧ specTag src dst 3 2 = 3 ∧ ∀ t ∈ dst.terms, t.2 ≠ 0 := by
  refine ⟨⟨[(['a'], 1), (['b'], 2)], 0, 1⟩, ⟨[(['a'], 1), (['x'], 3)], 1, 1⟩,
    ⟨by decide, by decide, by decide, ⟨['a'], rfl⟩⟩,
    ⟨by decide, by decide, by decide, ⟨['x'], rfl⟩⟩, by decide, by decide, by decide⟩

/-- Violation 2: with a one byte tag field, a known term with a tag of 128 or more reads outside
the table. -/
theorem C11_violated_out_of_bounds :
    ∃ src dst : EnumTy, src.WF 0 ∧ dst.WF 0 ∧ copyTag src dst 150 = none ∧
      specTag src dst 0 150 = 1 := by
  refine ⟨⟨[(['u'], 0), (['a'], 150)], 0, 1⟩, ⟨[(['u'], 0), (['a'], 1)], 0, 1⟩,
    ⟨by decide, by decide, by decide, ⟨['u'], rfl⟩⟩,
    ⟨by decide, by decide, by decide, ⟨['u'], rfl⟩⟩, by decide, by decide⟩

/-- Violation 3: a source enum using the tag 255 in a one byte tag field makes the table size wrap
to 0: every term, known or not, becomes the default. -/
theorem C11_violated_full_table :
    ∃ src dst : EnumTy, src.WF 0 ∧ dst.WF 0 ∧ copyTag src dst 1 = some 0 ∧
      specTag src dst 0 1 = 2 := by
  refine ⟨⟨[(['u'], 0), (['a'], 1), (['z'], 255)], 0, 1⟩, ⟨[(['u'], 0), (['a'], 2)], 0, 1⟩,
    ⟨by decide, by decide, by decide, ⟨['u'], rfl⟩⟩,
    ⟨by decide, by decide, by decide, ⟨['u'], rfl⟩⟩, by decide, by decide⟩

/-- Violation 4: if the receiver knows all source terms under the same tags, a raw tag unknown to
both is copied instead of being replaced by the default. -/
theorem C11_violated_exact_copy :
    ∃ src dst : EnumTy, src.WF 0 ∧ dst.WF 0 ∧ copyTag src dst 9 = some 9 ∧
      specTag src dst 0 9 = 0 := by
  refine ⟨⟨[(['u'], 0), (['a'], 1)], 0, 1⟩, ⟨[(['u'], 0), (['a'], 1)], 0, 1⟩,
    ⟨by decide, by decide, by decide, ⟨['u'], rfl⟩⟩,
    ⟨by decide, by decide, by decide, ⟨['u'], rfl⟩⟩, by decide, by decide⟩

/-- Non-vacuity of the positive theorems: re-tagged, re-ordered enum with an unknown term. -/
example : let src : EnumTy := ⟨[(['a'], 1), (['b'], 2), (['u'], 0)], 2, 1⟩
    let dst : EnumTy := ⟨[(['a'], 7), (['u'], 0)], 1, 1⟩
    src.WF 0 ∧ dst.WF 0 ∧ exactMatch src dst = false ∧ 2 * tableSize src ≤ 256 ^ src.tagW ∧
    copyTag src dst 1 = some 7 ∧ copyTag src dst 2 = some 0 := by
  refine ⟨⟨by decide, by decide, by decide, ⟨['u'], rfl⟩⟩,
    ⟨by decide, by decide, by decide, ⟨['u'], rfl⟩⟩, by decide, by decide, by decide, by decide⟩

end PJ
