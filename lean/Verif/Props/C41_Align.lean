import Verif.Model.Size
/-!
# C41: alignment of out-of-line data
-/
namespace PJ

theorem or_two_pow_sub_one (x k : Nat) : x ||| (2 ^ k - 1) = x / 2 ^ k * 2 ^ k + (2 ^ k - 1) := by
  apply Nat.eq_of_testBit_eq
  intro i
  rw [Nat.testBit_or, Nat.testBit_two_pow_sub_one, Nat.mul_comm,
    Nat.testBit_two_pow_mul_add _ (by have := Nat.two_pow_pos k; omega)]
  by_cases h : i < k
  · simp [h]
  · simp only [h, decide_false, Bool.or_false, if_false]
    rw [Nat.testBit_div_two_pow]; congr 1; omega

theorem alignDiff_eq (ptr k : Nat) (hp : ptr < W64) (hk : k ≤ 3) :
    alignDiff ptr (2 ^ k) = (2 ^ k - ptr % 2 ^ k) % 2 ^ k := by
  unfold alignDiff
  by_cases h0 : k = 0
  · subst h0; simp [Nat.mod_one]
  · have hne : 2 ^ k ≠ 1 := by
      have : 2 ^ 1 ≤ 2 ^ k := Nat.pow_le_pow_right (by decide) (by omega)
      omega
    simp only [hne, if_false]
    rw [or_two_pow_sub_one]
    have hk3 : k = 1 ∨ k = 2 ∨ k = 3 := by omega
    unfold sub64 add64 W64 at *
    rcases hk3 with rfl | rfl | rfl <;> simp only [Nat.reducePow] at * <;> omega

/-- For every address and every alignment 1, 2, 4 or 8: the padding is smaller than the alignment,
the padded address is a multiple of it, and an address that is already aligned is not padded. -/
theorem C41_align (ptr align : Nat) (hp : ptr < 2 ^ 64)
    (ha : align = 1 ∨ align = 2 ∨ align = 4 ∨ align = 8) :
    alignDiff ptr align < align ∧ (ptr + alignDiff ptr align) % align = 0 ∧
    (ptr % align = 0 → alignDiff ptr align = 0) := by
  have hex : ∃ k, k ≤ 3 ∧ align = 2 ^ k := by
    rcases ha with rfl | rfl | rfl | rfl
    · exact ⟨0, by omega, rfl⟩
    · exact ⟨1, by omega, rfl⟩
    · exact ⟨2, by omega, rfl⟩
    · exact ⟨3, by omega, rfl⟩
  obtain ⟨k, hk, rfl⟩ := hex
  rw [alignDiff_eq ptr k hp hk]
  have hk3 : k = 0 ∨ k = 1 ∨ k = 2 ∨ k = 3 := by omega
  rcases hk3 with rfl | rfl | rfl | rfl <;> simp only [Nat.reducePow] <;> omega

/-- The padding is minimal: no smaller padding makes the address a multiple of the alignment. -/
theorem C41_minimal (ptr align d : Nat) (hp : ptr < 2 ^ 64)
    (ha : align = 1 ∨ align = 2 ∨ align = 4 ∨ align = 8) (hd : (ptr + d) % align = 0) :
    alignDiff ptr align ≤ d := by
  have h := C41_align ptr align hp ha
  rcases ha with rfl | rfl | rfl | rfl <;> omega

/-- The size functions count the padding the same way: the counter after an `AlignOp` is the least
multiple of the alignment that is not below the counter. -/
theorem C41_size (c align : Nat) (hc : c + 8 < 2 ^ 64)
    (ha : align = 1 ∨ align = 2 ∨ align = 4 ∨ align = 8) :
    ∃ c', szAlign c align = some c' ∧ c ≤ c' ∧ c' % align = 0 ∧
      ∀ x, c ≤ x → x % align = 0 → c' ≤ x := by
  have h := C41_align c align (by omega) ha
  have hm := fun d => C41_minimal c align d (by omega) ha
  refine ⟨c + alignDiff c align, ?_, by omega, h.2.1, fun x hx h0 => ?_⟩
  · unfold szAlign szAlloc
    by_cases h1 : align = 1
    · subst h1; simp [alignDiff]
    · rw [if_neg h1, if_pos (by omega), Nat.mod_eq_of_lt]
      unfold W64
      omega
  · have := hm (x - c) (by rw [show c + (x - c) = x by omega]; exact h0)
    omega

example : szAlign 13 8 = some 16 := by decide
example : alignDiff 13 8 = 3 := by decide
example : alignDiff 0 8 = 0 := by decide
example : alignDiff (2 ^ 64 - 1) 4 = 1 := by decide

end PJ
