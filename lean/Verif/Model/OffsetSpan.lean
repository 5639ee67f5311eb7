import Verif.Model.Word
/-!
# `offset_span`

Models `pj/include/pj/offset_span.hpp` 10-61.  An object is given by its address and its two
members.  Pointer arithmetic is modulo 2^64.
-/
namespace PJ

/-- The members of `offset_span` (`offset_span.hpp` 60-61). -/
structure OffsetSpan where
  offset : Nat
  size : Nat
deriving DecidableEq

/-- `base()` (`offset_span.hpp` 21-24) of the object at address `this`. -/
def OffsetSpan.base (s : OffsetSpan) (this : Nat) : Nat := add64 this s.offset

/-- Constructor from pointer and size (`offset_span.hpp` 16-19). -/
def OffsetSpan.mk' (this data size : Nat) : OffsetSpan := ⟨sub64 data this, size⟩

/-- Copy/move constructor and assignment (`offset_span.hpp` 28-47): the new object lives at
`this`, the copied one at `other`. -/
def OffsetSpan.copyTo (s : OffsetSpan) (other this : Nat) : OffsetSpan :=
  ⟨sub64 (s.base other) this, s.size⟩

/-- A history of copies: the object is copied from address to address. -/
def OffsetSpan.copyChain (s : OffsetSpan) (at_ : Nat) : List Nat → OffsetSpan × Nat
  | [] => (s, at_)
  | a :: as => (s.copyTo at_ a).copyChain a as

end PJ
