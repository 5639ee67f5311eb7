import Verif.Model.Word
/-!
# AlignOp

Models `AlignOpLowering` (`pj/llvm_gen2.cpp` 734-766).
-/
namespace PJ

/-- The number of bytes `AlignOp` allocates: `((ptr - 1) | (alignment - 1)) + 1 - ptr`
(`pj/llvm_gen2.cpp` 748-759), and nothing for alignment 1 (743-746). -/
def alignDiff (ptr align : Nat) : Nat :=
  if align = 1 then 0
  else
    let ptrMinusOne := sub64 ptr 1
    let orAlign := ptrMinusOne ||| (align - 1)
    let aligned := add64 orAlign 1
    sub64 aligned ptr

end PJ
