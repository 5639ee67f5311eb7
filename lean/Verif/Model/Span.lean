/-!
# `span`

Models the constructors of `pj/include/pj/span.hpp` 18-41 and `validate` (62-69).  A span is given by its pointer
and its size; its bound, the template argument `max_length`, is part of its type.

Simplifications: the three constructors that are given data (a string view, a C string, pointer and size) are one; spans of
the same type are copied by the implicit copy operations.  Assignment from a span with another bound (43-48) does not compile,
as `o.size` is a function, and is left out.
-/
namespace PJ

/-- `unbounded_length`. -/
def unboundedLen : Nat := 2 ^ 64 - 1

/-- A span that a program makes. -/
inductive SpanExpr where
  /-- `span()` -/
  | empty
  /-- `span(data, size)` -/
  | data (ptr size : Nat)
  /-- From a span of the same type. -/
  | copy (e : SpanExpr)
  /-- From a span with the bound `L`. -/
  | convert (L : Nat) (e : SpanExpr)

/-- `validate<L>` of a span with the bound `M` and the size `n`; `false` if it throws. -/
def validSpan (L M n : Nat) : Bool :=
  if M < L then !(M != unboundedLen && decide (M < n)) else true

/-- Pointer and size of a span of type `span<T, M>`; `none` if an exception is thrown. -/
def SpanExpr.eval : SpanExpr → Nat → Option (Nat × Nat)
  | .empty, _ => some (0, 0)
  | .data p n, M => if validSpan unboundedLen M n then some (p, n) else none
  | .copy e, M => e.eval M
  | .convert L e, M =>
    match e.eval L with
    | none => none
    | some s => if validSpan L M s.2 then some s else none

end PJ
