import Verif.Model.Validate
/-!
# C38: validation accepts exactly the well-formed declarations
-/
namespace PJ

/-- Integers: exactly 8, 16, 32 and 64 bits are accepted. -/
theorem C38_int (bits : Nat) :
    validateInt bits = true ↔ bits = 8 ∨ bits = 16 ∨ bits = 32 ∨ bits = 64 := by
  simp [validateInt]; omega

private theorem validateFieldsFrom_iff {N} [BEq N] [LawfulBEq N] (seen names : List N) :
    validateFieldsFrom seen names = true ↔ names.Nodup ∧ ∀ n ∈ names, n ∉ seen := by
  induction names generalizing seen with
  | nil => simp [validateFieldsFrom]
  | cons n ns ih =>
    simp only [validateFieldsFrom]
    split
    · rename_i h; simp at h; simp [h]
    · rename_i h
      simp at h
      rw [ih]
      simp only [List.nodup_cons, List.mem_cons, forall_eq_or_imp]
      grind

/-- Structs: accepted exactly when the field names are pairwise different. -/
theorem C38_struct {N} [BEq N] [LawfulBEq N] (names : List N) :
    validateStruct names = true ↔ names.Nodup := by
  simp [validateStruct, validateFieldsFrom_iff]

private theorem validateTermsFrom_iff {N} [BEq N] [LawfulBEq N] (sn : List N) (st : List Nat)
    (terms : List (N × Nat)) :
    validateTermsFrom sn st terms = true ↔
      (terms.map (·.1)).Nodup ∧ (terms.map (·.2)).Nodup ∧
      (∀ t ∈ terms, t.1 ∉ sn) ∧ (∀ t ∈ terms, t.2 ∉ st) := by
  induction terms generalizing sn st with
  | nil => simp [validateTermsFrom]
  | cons t ts ih =>
    obtain ⟨n, g⟩ := t
    simp only [validateTermsFrom]
    split
    · rename_i h; simp at h; simp [h]
    · rename_i h
      simp at h
      split
      · rename_i h'; simp at h'; simp [h']
      · rename_i h'
        simp at h'
        rw [ih]
        simp only [List.map_cons, List.nodup_cons, List.mem_cons, forall_eq_or_imp, List.mem_map]
        grind

/-- Variants: accepted exactly when the names are pairwise different and the tags are pairwise
different. -/
theorem C38_variant {N} [BEq N] [LawfulBEq N] (terms : List (N × Nat)) :
    validateVariant terms = true ↔ (terms.map (·.1)).Nodup ∧ (terms.map (·.2)).Nodup := by
  simp [validateVariant, validateTermsFrom_iff]

/-- Arrays: accepted exactly when the length is not negative. -/
theorem C38_array (len : Int) : validateArray len = true ↔ 0 ≤ len := by
  simp [validateArray]

/-- Vectors: accepted exactly when there is no maximum or the minimum does not exceed it. -/
theorem C38_vector (minLen : Nat) (maxLen : Int) :
    validateVector minLen maxLen = true ↔ (maxLen < 0 ∨ (minLen : Int) ≤ maxLen) := by
  simp [validateVector]; omega

example : validateVariant [("a", 3), ("b", 1)] = true := by decide
example : validateVariant [("a", 3), ("b", 3)] = false := by decide
example : validateStruct ["x", "y", "x"] = false := by decide

end PJ
