import Verif.Model.Word
/-!
# Integer conversion

Models the integer part of `TranscodePrimitiveOpLowering` (`pj/llvm_gen2.cpp` 400-411).
Widths are in bytes, a stored integer is the number `n < 256^width` whose little-endian bytes are
in memory.
-/
namespace PJ

/-- `Sign` (`pj/include/pj/arch_base.hpp` 12-16). -/
inductive Sign
  | signed | unsigned | signless
deriving DecidableEq, Repr

/-- LLVM `sext`: from `sw` to `dw` bytes. -/
def sext (sw dw n : Nat) : Nat :=
  if 2 * n < 256 ^ sw then n else 256 ^ dw - 256 ^ sw + n

/-- LLVM `trunc` to `dw` bytes (and the identity for equal widths, as `IRBuilder::CreateTrunc`
returns the operand in this case). -/
def trunc (dw n : Nat) : Nat := n % 256 ^ dw

/-- Conversion of an integer of `sw` bytes with sign `ss` to `dw` bytes
(`pj/llvm_gen2.cpp` 402-410): the sign of the *source* selects the extension. -/
def convInt (sw : Nat) (ss : Sign) (dw : Nat) (n : Nat) : Nat :=
  if sw < dw then (if ss = .signed then sext sw dw n else n) else trunc dw n

end PJ
