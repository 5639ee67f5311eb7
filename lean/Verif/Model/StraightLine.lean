import Verif.Model.Coalesce
import Verif.Model.Xcode
/-!
# The code of a conversion without branches

Models the instructions that are generated for a pair of types made of structs, integers and floats:
`getOrCreateStructTranscodeFn` (`pj/generate_ir.cpp` 307-393), `TranscodeOpLowering` (1068-1148), `DefaultOpLowering`
(1159-1192) and the lowering of `TranscodePrimitiveOp` (`pj/llvm_gen2.cpp` 383-427), `DefaultOp` (1030-1058) and
`PoisonOp` (1068-1080), with all calls inlined: one block.  `getRegionRoot` gives copies the source (root 0) or destination
(root 1) of the whole function.

Simplifications: arrays, vectors and variants, which make loops, branches or allocations, give `none`; LLVM's own passes
that run before copy coalescing (`pj/context.cpp` 425-463) are not modelled.
-/
namespace PJ

/-- The run time values of the two roots. -/
def rootsAt (sa da : Nat) : Nat → Nat := fun r => if r = 0 then sa else da

/-- What the alias analysis says about an instruction that reads `rl` bytes from `ra` and writes `wl` bytes from `wa`:
whether it modifies or reads the first `n` bytes of a root. -/
structure Aliasing where
  mods : (ra rl wa wl : Nat) → Nat → Nat → Bool
  refs : (ra rl wa wl : Nat) → Nat → Nat → Bool

/-- LLVM `load` of `n` bytes, `none` if one of them is undefined. -/
def loadU (m : UMem) : Nat → Nat → Option (List UInt8)
  | _, 0 => some []
  | a, n + 1 => (m a).bind fun b => (loadU m (a + 1) n).map (b :: ·)

/-- Load, conversion and store; the store of a constant loads nothing. -/
def convOp (A : Aliasing) (f : Nat → Nat) (ra rl wa wl : Nat) : Other where
  reads := fun x => ra ≤ x ∧ x < ra + rl
  writes := fun x => wa ≤ x ∧ x < wa + wl
  eff := fun m x =>
    if wa ≤ x ∧ x < wa + wl then (loadU m ra rl).map fun bs => writeN (fun _ => 0) wa wl (f (ofLE bs)) x
    else m x
  term := false
  mods := A.mods ra rl wa wl
  refs := A.refs ra rl wa wl

mutual
/-- `DefaultOp` (`pj/llvm_gen2.cpp` 1030-1058, `pj/generate_ir.cpp` 1159-1192) at distance `d`. -/
def lowerDflt (A : Aliasing) (sa da : Nat) : Ty → Nat → Option (List Inst)
  | .unit, _ => some []
  | .int w _ _, d => if w = 0 then none else some [.other (convOp A (fun _ => 0) sa 0 (da + d) w)]
  | .float w _, d =>
    if w = 4 ∨ w = 8 then some [.other (convOp A (fun _ => qNaN w) sa 0 (da + d) w)] else none
  | .struct fs sz _, d => (lowerDfltFields A sa da fs d).map (.copy ⟨none, 1, 0, d, sz⟩ :: ·)
  | _, _ => none
def lowerDfltFields (A : Aliasing) (sa da : Nat) : Fields → Nat → Option (List Inst)
  | .nil, _ => some []
  | .cons _ o t r, d =>
    (lowerDflt A sa da t (d + o)).bind fun x => (lowerDfltFields A sa da r d).map (x ++ ·)
end

mutual
/-- `TranscodeOp` (`pj/generate_ir.cpp` 1068-1148, `pj/llvm_gen2.cpp` 383-427) from distance `s` to distance `d`. -/
def lower (F : Nat → Nat → Nat → Nat) (A : Aliasing) (sa da : Nat) : Ty → Ty → Nat → Nat → Option (List Inst)
  | .unit, _, _, _ => some []
  | .int dw ds dal, src, s, d =>
    match src with
    | .unit => lowerDflt A sa da (.int dw ds dal) d
    | .int sw ss _ =>
      if sw = 0 ∨ dw = 0 then none
      else if sw = dw then some [.loadStore ⟨some 0, 1, s, d, dw⟩ []]
      else some [.other (convOp A (convInt sw ss dw) (sa + s) sw (da + d) dw)]
    | _ => none
  | .float dw dal, src, s, d =>
    match src with
    | .unit => lowerDflt A sa da (.float dw dal) d
    | .float sw _ =>
      if (sw = 4 ∨ sw = 8) ∧ (dw = 4 ∨ dw = 8) then
        if sw = dw then some [.loadStore ⟨some 0, 1, s, d, dw⟩ []]
        else some [.other (convOp A (F sw dw) (sa + s) sw (da + d) dw)]
      else none
    | _ => none
  | .struct dfs dsz dal, src, s, d =>
    match src with
    | .unit => lowerDflt A sa da (.struct dfs dsz dal) d
    | .struct sfs _ _ => (lowerFields F A sa da dfs sfs s d).map (.copy ⟨none, 1, 0, d, dsz⟩ :: ·)
    | _ => none
  | _, _, _, _ => none
/-- The loop over the fields (`pj/generate_ir.cpp` 355-386). -/
def lowerFields (F : Nat → Nat → Nat → Nat) (A : Aliasing) (sa da : Nat) :
    Fields → Fields → Nat → Nat → Option (List Inst)
  | .nil, _, _, _ => some []
  | .cons c o t r, sfs, s, d =>
    (match sfs.findLast c with
      | some (so, sty) => lower F A sa da t sty (s + so) (d + o)
      | none => lowerDflt A sa da t (d + o)).bind fun x =>
    (lowerFields F A sa da r sfs s d).map (x ++ ·)
end

/-- The block without its poisons. -/
def Inst.isPoison : Inst → Bool
  | .copy c => c.src.isNone
  | _ => false

def unpoisoned (is : List Inst) : List Inst := is.filter fun i => !i.isPoison

end PJ
