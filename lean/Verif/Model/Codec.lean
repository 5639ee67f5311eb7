import Verif.Model.Size
/-!
# The generated encode, decode and size functions

Models `EncodeFunctionLowering`, `DecodeFunctionLowering` and `SizeFunctionLowering`
(`pj/generate_ir.cpp` 897-1054) with `DecodeCatchOpLowering` (`pj/llvm_gen2.cpp` 881-965),
`InvokeCallbackOpLowering` (590-639) and `SizeOpLowering` (1082-1115).
-/
namespace PJ

/-- `Protocol` (`pj/types.hpp`): type of the message head and gap between head and buffer. -/
structure Proto where
  head : Ty
  bufOff : Nat

/-- The encode function: object at `obj`, message to be written at `buf`
(`pj/generate_ir.cpp` 925-935). -/
def encode (E : Env) (host : Ty) (p : Proto) (path : Path) (obj buf : Nat) (mem : Mem) : Res :=
  xcode E p.head host path [] obj buf
    { mem := mem, ptr := buf + p.head.size + p.bufOff, rem := none, cb := 0, used := 0 }

/-- What a caller of the decode function sees: memory, the returned bounded buffer and the index of
the handler that was called. -/
structure Decoded where
  mem : Mem
  ptr : Nat
  size : Nat
  called : Option Nat

/-- `InvokeCallbackOp`: slot 0 means no handler, slot `i + 1` handler `i`
(`pj/llvm_gen2.cpp` 607-627). -/
def invoked (cb : Nat) : Option Nat := if cb = 0 then none else some (cb - 1)

/-- The decode function: message at `msg`, destination object at `obj`, buffer of `cap` bytes at
`buf`.  `InvokeCallbackOp` follows the transcode call inside the `DecodeCatchOp`, and the failure flag
is only looked at after the body (`pj/generate_ir.cpp` 984-1000, `pj/llvm_gen2.cpp` 919-962): the
call itself has no exit check because the effect provider, the `DecodeCatchOp`, has no effects
(1002).  A failure returns a null buffer of size -1 (950-952).  `none`: undefined behaviour. -/
def decode (E : Env) (p : Proto) (host : Ty) (hs : Handlers) (msg obj buf cap : Nat) (mem : Mem) :
    Option Decoded :=
  match xcode E host p.head [] hs msg obj
    { mem := mem, ptr := buf, rem := some cap, cb := 0, used := 0 } with
  | .ok s => some { mem := s.mem, ptr := s.ptr, size := s.rem.getD 0, called := invoked s.cb }
  | .throw s => some { mem := s.mem, ptr := 0, size := W64 - 1, called := invoked s.cb }
  | .ub => none

/-- The size function (`pj/generate_ir.cpp` 1033-1052): head size plus the final value of the
counter, which starts at 0 (`pj/llvm_gen2.cpp` 1082-1115). -/
def sizeFn (ru : Bool) (S : Mem) (host : Ty) (p : Proto) (path : Path) (obj : Nat) : Option Nat :=
  (szX ru S p.head host path obj 0).map fun c => (c + p.head.size) % W64

end PJ
