import Verif.Model.TagWidth
/-!
# C17: the tag field is wide enough
-/
namespace PJ

theorem log2Ceil_spec (n : Nat) : n ≤ 2 ^ log2Ceil n := by
  unfold log2Ceil
  split
  · simpa using by assumption
  · have := Nat.lt_log2_self (n := n - 1)
    omega

theorem log2Ceil_le (n k : Nat) (h : n ≤ 2 ^ k) : log2Ceil n ≤ k := by
  unfold log2Ceil
  split
  · omega
  · have hk : n - 1 < 2 ^ k := by have := Nat.two_pow_pos k; omega
    have := (Nat.log2_lt (by omega)).2 hk
    omega

theorem foldl_max_ge (l : List Nat) (a : Nat) : a ≤ l.foldl max a ∧ ∀ x ∈ l, x ≤ l.foldl max a := by
  induction l generalizing a with
  | nil => simp
  | cons y ys ih =>
    simp only [List.foldl_cons]
    obtain ⟨h1, h2⟩ := ih (max a y)
    refine ⟨by omega, ?_⟩
    intro x hx
    rcases List.mem_cons.1 hx with rfl | hx
    · omega
    · exact h2 x hx

theorem foldl_max_lt (l : List Nat) (a b : Nat) (ha : a < b) (h : ∀ x ∈ l, x < b) :
    l.foldl max a < b := by
  induction l generalizing a with
  | nil => simpa
  | cons y ys ih =>
    simp only [List.foldl_cons]
    exact ih _ (by have := h y (by simp); omega) (fun x hx => h x (by simp [hx]))

theorem roundUp_small (k : Nat) (h1 : 1 ≤ k) (h8 : k ≤ 8) :
    k ≤ roundUpToPowerOfTwo k ∧
    (roundUpToPowerOfTwo k = 1 ∨ roundUpToPowerOfTwo k = 2 ∨ roundUpToPowerOfTwo k = 4 ∨
      roundUpToPowerOfTwo k = 8) := by
  have : k = 1 ∨ k = 2 ∨ k = 3 ∨ k = 4 ∨ k = 5 ∨ k = 6 ∨ k = 7 ∨ k = 8 := by omega
  rcases this with rfl | rfl | rfl | rfl | rfl | rfl | rfl | rfl <;> decide

/-- For every set of tags below `2^64 - 1` that contains a tag other than 0, the planned width is
1, 2, 4 or 8 bytes and every tag fits in it.  Missing for the full claim: the tag `2^64-1`
(`C17_max_tag_undefined`) and a variant whose only tag is 0 (`C17_width_zero`). -/
theorem C17_tag_fits_partial (tags : List Nat) (hlt : ∀ t ∈ tags, t < 2 ^ 64 - 1)
    (hpos : ∃ t ∈ tags, t ≠ 0) :
    ∃ w, computeTagWidth tags = some w ∧ (w = 1 ∨ w = 2 ∨ w = 4 ∨ w = 8) ∧
      ∀ t ∈ tags, t < 256 ^ w := by
  obtain ⟨t0, ht0, hne⟩ := hpos
  have hemp : tags.isEmpty = false := by cases tags <;> simp_all
  have hmax := foldl_max_ge tags 0
  have hmlt := foldl_max_lt tags 0 (2 ^ 64 - 1) (by decide) hlt
  unfold computeTagWidth
  simp only [hemp, Bool.false_eq_true, if_false]
  generalize hm : tags.foldl max 0 = m at *
  have hm1 : 1 ≤ m := by have := hmax.2 t0 ht0; omega
  have hmod : (m + 1) % 2 ^ 64 = m + 1 := Nat.mod_eq_of_lt (by omega)
  rw [hmod, if_neg (by omega)]
  have hl := log2Ceil_spec (m + 1)
  have hl64 : log2Ceil (m + 1) ≤ 64 := log2Ceil_le _ _ (by omega)
  have hl1 : 1 ≤ log2Ceil (m + 1) := by
    unfold log2Ceil; rw [if_neg (by omega)]; omega
  have hk1 : 1 ≤ ceilLog2Bytes (m + 1) := by unfold ceilLog2Bytes; omega
  have hk8 : ceilLog2Bytes (m + 1) ≤ 8 := by unfold ceilLog2Bytes; omega
  obtain ⟨hge, hcase⟩ := roundUp_small _ hk1 hk8
  refine ⟨_, rfl, hcase, ?_⟩
  intro t ht
  have h1 : t ≤ m := hmax.2 t ht
  have h2 : m + 1 ≤ 256 ^ roundUpToPowerOfTwo (ceilLog2Bytes (m + 1)) := by
    refine Nat.le_trans hl ?_
    rw [show (256 : Nat) = 2 ^ 8 from rfl, ← Nat.pow_mul]
    apply Nat.pow_le_pow_right (by decide)
    have : log2Ceil (m + 1) ≤ 8 * ceilLog2Bytes (m + 1) := by unfold ceilLog2Bytes; omega
    omega
  omega

/-- The width is the least of the four possible widths: no narrower field could hold all tags. -/
theorem C17_tag_minimal (tags : List Nat) (hlt : ∀ t ∈ tags, t < 2 ^ 64 - 1)
    (w w' : Nat) (h : computeTagWidth tags = some w) (hne : tags ≠ [])
    (hw' : w' = 1 ∨ w' = 2 ∨ w' = 4 ∨ w' = 8) (hfit : ∀ t ∈ tags, t < 256 ^ w') : w ≤ w' := by
  have hemp : tags.isEmpty = false := by cases tags <;> simp_all
  have hmlt := foldl_max_lt tags 0 (2 ^ 64 - 1) (by decide) hlt
  have hmlt' := foldl_max_lt tags 0 (256 ^ w') (Nat.pow_pos (by decide)) hfit
  unfold computeTagWidth at h
  simp only [hemp, Bool.false_eq_true, if_false] at h
  generalize hm : tags.foldl max 0 = m at *
  have hmod : (m + 1) % 2 ^ 64 = m + 1 := Nat.mod_eq_of_lt (by omega)
  rw [hmod, if_neg (by omega)] at h
  simp at h
  have hl : log2Ceil (m + 1) ≤ 8 * w' := log2Ceil_le _ _ (by
    rw [Nat.pow_mul]; exact hmlt')
  have hk : ceilLog2Bytes (m + 1) ≤ w' := by unfold ceilLog2Bytes; omega
  have hk8 : ceilLog2Bytes (m + 1) ≤ 8 := by omega
  generalize hkk : ceilLog2Bytes (m + 1) = k at *
  have : k = 0 ∨ k = 1 ∨ k = 2 ∨ k = 3 ∨ k = 4 ∨ k = 5 ∨ k = 6 ∨ k = 7 ∨ k = 8 := by omega
  subst h
  rcases this with rfl | rfl | rfl | rfl | rfl | rfl | rfl | rfl | rfl <;>
    rcases hw' with rfl | rfl | rfl | rfl <;> first | omega | decide

/-- The full claim is false for the tag `2^64 - 1` (accepted by the parser): computing the width
has undefined behaviour. -/
theorem C17_max_tag_undefined (tags : List Nat) (h : 2 ^ 64 - 1 ∈ tags)
    (hle : ∀ t ∈ tags, t < 2 ^ 64) : computeTagWidth tags = none := by
  have hemp : tags.isEmpty = false := by cases tags <;> simp_all
  have h1 := (foldl_max_ge tags 0).2 _ h
  have h2 := foldl_max_lt tags 0 (2 ^ 64) (by decide) hle
  unfold computeTagWidth
  simp only [hemp, Bool.false_eq_true, if_false]
  rw [show tags.foldl max 0 + 1 = 2 ^ 64 by omega]
  simp

/-- The full claim is false for a variant whose only tag is 0, e.g. `enum E { }` with its implicit
`undef` term: the tag field has no bytes at all, so there is no integer type to store it in. -/
theorem C17_width_zero : computeTagWidth [0] = some 0 := by decide

example : computeTagWidth [0, 1, 255] = some 1 := by decide
example : computeTagWidth [0, 256] = some 2 := by decide
example : computeTagWidth [0, 2 ^ 32] = some 8 := by decide

end PJ
