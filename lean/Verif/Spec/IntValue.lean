import Verif.Model.IntConv
/-!
# The number denoted by a stored integer
-/
namespace PJ

/-- Specification: the number denoted by a stored `w`-byte integer. -/
def intValue (w : Nat) (s : Sign) (n : Nat) : Int :=
  if s = .signed then toSigned w n else (n : Int)

/-- Specification: the numbers representable in `w` bytes. -/
def InRange (w : Nat) (s : Sign) (v : Int) : Prop :=
  if s = .signed then -((256 ^ w : Nat) : Int) ≤ 2 * v ∧ 2 * v < ((256 ^ w : Nat) : Int)
  else 0 ≤ v ∧ v < ((256 ^ w : Nat) : Int)

theorem intValue_inRange (w : Nat) (s : Sign) (n : Nat) (h : n < 256 ^ w) :
    InRange w s (intValue w s n) := by
  unfold InRange intValue toSigned
  by_cases hs : s = .signed
  · simp only [hs, if_true]; split <;> omega
  · simp only [hs, if_false]; omega

end PJ
