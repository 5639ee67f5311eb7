/-!
# 64-bit words and little helpers

LLVM's `add`, `sub`, `or` on `i64` and C++ `uint64_t`/`intptr_t` arithmetic.
-/
namespace PJ

/-- `2^64`. -/
def W64 : Nat := 2 ^ 64

/-- LLVM `add i64`. -/
def add64 (a b : Nat) : Nat := (a + b) % W64
/-- LLVM `sub i64`. -/
def sub64 (a b : Nat) : Nat := (a + (W64 - b % W64)) % W64

/-- The two's complement value of an `n`-byte word. -/
def toSigned (bytes : Nat) (n : Nat) : Int :=
  if 2 * n < 256 ^ bytes then (n : Int) else (n : Int) - ((256 ^ bytes : Nat) : Int)

/-- Insertion into a list sorted by `key`. -/
def insertBy {α} (key : α → Int) (x : α) : List α → List α
  | [] => [x]
  | y :: ys => if key x ≤ key y then x :: y :: ys else y :: insertBy key x ys

/-- A sort by an integer key, standing for `std::sort` (which differs at most in the order of
elements with equal keys). -/
def sortBy {α} (key : α → Int) : List α → List α
  | [] => []
  | x :: xs => insertBy key x (sortBy key xs)

end PJ
