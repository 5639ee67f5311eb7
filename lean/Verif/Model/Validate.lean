/-!
# Validation of declarations

Models `pj/validate.cpp`.  Names and tags are kept abstract (`String`/`Nat`); `throw parse_error`
is `false`.
-/
namespace PJ

/-- `validate(const Int&)` (`pj/validate.cpp` 13-22); the width is in bits as in the source
(`Width::bytes` truncates, `arch_base.hpp`). -/
def validateInt (bits : Nat) : Bool :=
  !(bits % 8 != 0 ||
    (bits / 8 != 1 && bits / 8 != 2 && bits / 8 != 4 && bits / 8 != 8))

/-- The loop of `validate(const Struct&)` (`pj/validate.cpp` 25-32) with the set of names seen so
far. -/
def validateFieldsFrom {N} [BEq N] (seen : List N) : List N → Bool
  | [] => true
  | n :: ns => if seen.contains n then false else validateFieldsFrom (n :: seen) ns

/-- `validate(const Struct&)` (`pj/validate.cpp` 24-33) on the field names. -/
def validateStruct {N} [BEq N] (names : List N) : Bool := validateFieldsFrom [] names

/-- The loop of `validate(const InlineVariant&)` (`pj/validate.cpp` 38-50) with the names and tags
seen so far. -/
def validateTermsFrom {N} [BEq N] (names : List N) (tags : List Nat) : List (N × Nat) → Bool
  | [] => true
  | (n, t) :: ts =>
    if names.contains n then false
    else if tags.contains t then false
    else validateTermsFrom (n :: names) (t :: tags) ts

/-- `validate(const InlineVariant&)` (`pj/validate.cpp` 35-51) on the terms' names and tags. -/
def validateVariant {N} [BEq N] (terms : List (N × Nat)) : Bool := validateTermsFrom [] [] terms

/-- `validate(const Array&)` (`pj/validate.cpp` 53-57). -/
def validateArray (length : Int) : Bool := !(decide (length < 0))

/-- `validate(const Vector&)` (`pj/validate.cpp` 59-67); `min_length` is unsigned so its test
never fires; `max_length` is negative when there is no maximum.  The cast to `uint64_t` of a
non-negative `intptr_t` is the identity. -/
def validateVector (minLen : Nat) (maxLen : Int) : Bool :=
  !(decide (maxLen ≥ 0) && decide (minLen > maxLen.toNat))

end PJ
