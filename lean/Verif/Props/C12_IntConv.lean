import Verif.Spec.IntValue
/-!
# C12: integer conversion
-/
namespace PJ

/-- A stored integer is determined by its value modulo `256^w`; in particular two stored integers
with congruent in-range values have the same value. -/
theorem inRange_unique {w : Nat} {s : Sign} {v v' : Int} (h : InRange w s v)
    (h' : InRange w s v') (hc : v % ((256 ^ w : Nat) : Int) = v' % ((256 ^ w : Nat) : Int)) :
    v = v' := by
  unfold InRange at h h'
  have hpos : (0 : Int) < ((256 ^ w : Nat) : Int) := by
    have := Nat.pow_pos (n := w) (show 0 < 256 by decide); omega
  generalize ((256 ^ w : Nat) : Int) = M at *
  have hd : M ∣ v - v' := Int.dvd_of_emod_eq_zero (by
    rw [Int.sub_emod, hc]; simp)
  obtain ⟨c, hcv⟩ := hd
  have hb : -M < v - v' ∧ v - v' < M := by
    by_cases hs : s = .signed
    · simp only [hs, if_true] at h h'; omega
    · simp only [hs, if_false] at h h'; omega
  rw [hcv] at hb
  have h1 : c < 1 := by
    have : M * c < M * 1 := by omega
    exact Int.lt_of_mul_lt_mul_left this (by omega)
  have h2 : -1 < c := by
    have : M * (-1) < M * c := by omega
    exact Int.lt_of_mul_lt_mul_left this (by omega)
  have : c = 0 := by omega
  subst this
  simp at hcv; omega

theorem intValue_mod (w : Nat) (s : Sign) (n : Nat) (d : Nat) (hd : d ≤ w) :
    intValue w s n % ((256 ^ d : Nat) : Int) = (n : Int) % ((256 ^ d : Nat) : Int) := by
  unfold intValue toSigned
  split
  · split
    · rfl
    · have : ((256 ^ d : Nat) : Int) ∣ ((256 ^ w : Nat) : Int) := by
        rw [Int.natCast_dvd_natCast]; exact Nat.pow_dvd_pow 256 hd
      rw [Int.sub_emod, Int.emod_eq_zero_of_dvd this]; simp
  · rfl

/-- The converted value is congruent to the original modulo `2^(8*dw)`, for all widths and
signs. -/
theorem C12_modular (sw : Nat) (ss : Sign) (dw : Nat) (ds : Sign) (n : Nat) (hn : n < 256 ^ sw) :
    convInt sw ss dw n < 256 ^ dw ∧
    intValue dw ds (convInt sw ss dw n) % ((256 ^ dw : Nat) : Int)
      = intValue sw ss n % ((256 ^ dw : Nat) : Int) := by
  unfold convInt
  by_cases hw : sw < dw
  · simp only [hw, if_true]
    have hlt : 256 ^ sw ≤ 256 ^ dw := Nat.pow_le_pow_right (by decide) (by omega)
    by_cases hs : ss = .signed
    · simp only [hs, if_true]
      refine ⟨by unfold sext; split <;> omega, ?_⟩
      rw [intValue_mod _ _ _ _ (Nat.le_refl _)]
      unfold sext intValue toSigned
      simp only [if_true]
      split
      · rfl
      · have : (((256 ^ dw - 256 ^ sw + n : Nat)) : Int)
            = (n : Int) - ((256 ^ sw : Nat) : Int) + ((256 ^ dw : Nat) : Int) := by omega
        rw [this, Int.add_emod_right]
    · simp only [hs, if_false]
      refine ⟨by omega, ?_⟩
      rw [intValue_mod _ _ _ _ (Nat.le_refl _)]
      simp [intValue, hs]
  · simp only [hw, if_false]
    refine ⟨Nat.mod_lt _ (Nat.pow_pos (by decide)), ?_⟩
    rw [intValue_mod _ _ _ _ (Nat.le_refl _), intValue_mod _ _ _ _ (by omega)]
    unfold trunc
    rw [Int.natCast_emod, Int.emod_emod]

/-- Whenever the number is representable in the destination type it is preserved exactly, whatever
the widths and signs. -/
theorem C12_preserved (sw : Nat) (ss : Sign) (dw : Nat) (ds : Sign) (n : Nat) (hn : n < 256 ^ sw)
    (hr : InRange dw ds (intValue sw ss n)) :
    intValue dw ds (convInt sw ss dw n) = intValue sw ss n := by
  obtain ⟨h1, h2⟩ := C12_modular sw ss dw ds n hn
  exact inRange_unique (intValue_inRange dw ds _ h1) hr h2

/-- Widening to the same signedness (or from unsigned to a wider signed type) always preserves the
number. -/
theorem C12_widening (sw : Nat) (ss : Sign) (dw : Nat) (ds : Sign) (n : Nat) (hn : n < 256 ^ sw)
    (hw : sw ≤ dw) (hs : (ss = .signed ↔ ds = .signed) ∨ (ss ≠ .signed ∧ sw < dw)) :
    intValue dw ds (convInt sw ss dw n) = intValue sw ss n := by
  apply C12_preserved _ _ _ _ _ hn
  have h0 := intValue_inRange sw ss n hn
  have hle : 256 ^ sw ≤ 256 ^ dw := Nat.pow_le_pow_right (by decide) hw
  unfold InRange at *
  rcases hs with hs | ⟨hs, hlt⟩
  · by_cases h : ss = .signed
    · have := hs.1 h; simp only [h, this, if_true] at *; omega
    · have : ¬ ds = .signed := fun h' => h (hs.2 h')
      simp only [h, this, if_false] at *; omega
  · simp only [hs, if_false] at h0
    have : 256 * 256 ^ sw ≤ 256 ^ dw := by
      rw [← Nat.pow_succ']; exact Nat.pow_le_pow_right (by decide) (by omega)
    split <;> omega

example : intValue 4 .signed (convInt 1 .signed 4 255) = -1 := by decide
example : intValue 8 .signed (convInt 4 .unsigned 8 (2 ^ 32 - 1)) = 4294967295 := by decide
example : InRange 1 .signed (intValue 8 .signed (2 ^ 64 - 3)) := by
  simp [InRange, intValue, toSigned]

end PJ
