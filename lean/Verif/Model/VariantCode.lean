import Verif.Model.CoalesceFn
import Verif.Model.StraightLine
/-!
# The code of a conversion between variants

Models the blocks that are generated for two inline variants: `getOrCreateVariantTranscodeFn` (`pj/generate_ir.cpp`
394-500) with `transcodeTerm` (238-305), and the lowering of `MatchOp` (`pj/llvm_gen2.cpp` 544-588) and `TagOp`
(429-443), with the calls that convert the terms inlined (`Verif.Model.StraightLine`).  The entry loads the tag and jumps
to the block of the term, or to that of the default term; these blocks return.

Simplifications: as in `Verif.Model.StraightLine`; terms have structs, integers and floats only, so that the conditions of
`generateTermCondition` are constants, and are folded; no handlers; the fast path for enums (`pj/generate_ir.cpp` 1104-1121)
and outlined variants give `none`.
-/
namespace PJ

/-- The first destination term of a name whose condition holds (`pj/generate_ir.cpp` 254-293); the outer `none` if a
condition is not constant. -/
def pickNamed : Terms → Comp → Option (Option Term)
  | .nil, _ => some none
  | .cons n g as t r, c =>
    if n = c then
      match unitCond as with
      | none => none
      | some true => some (some ⟨n, g, as, t⟩)
      | some false => pickNamed r c
    else pickNamed r c

/-- The destination term number `i`, if its condition holds. -/
def pickAt : Terms → Nat → Option (Option Term)
  | .nil, _ => none
  | .cons n g as t _, 0 => (unitCond as).map fun b => if b then some ⟨n, g, as, t⟩ else none
  | .cons _ _ _ _ r, i + 1 => pickAt r i

/-- The destination term for a source term (`pj/generate_ir.cpp` 468-477). -/
def pickTerm (dts : Terms) (dl : VarL) (c : Comp) : Option (Option Term) :=
  if dts.hasName c then pickNamed dts c else pickAt dts dl.dflt

/-- The then-branch of `transcodeTerm` (266-285): the tag, and the conversion of the term.  Nothing if no condition
holds. -/
def lowerTerm (F : Nat → Nat → Nat → Nat) (A : Aliasing) (sa da : Nat) (dl sl : VarL) (sty : Ty) :
    Option Term → Option (List Inst)
  | none => some []
  | some t =>
    if dl.tagW = 0 then none
    else (lower F A sa da t.ty sty sl.termOff dl.termOff).map
      (.other (convOp A (fun _ => t.tag) sa 0 (da + dl.tagOff) dl.tagW) :: ·)

/-- A block that returns. -/
def retBlock (sa da : Nat) (is : List Inst) : CBlock := ⟨is, fun _ => some (rootsAt sa da), fun _ => some .ret⟩

/-- Where the entry jumps: block 1 is the default block, and then come the terms in the order of the type. -/
def caseBlock (sts : Terms) (tag : Nat) : Nat :=
  match matchTag (sts.toList.zipIdx.map fun x => (x.1.tag, some x.2)) none tag with
  | none => 1
  | some i => i + 2

/-- The entry (`pj/generate_ir.cpp` 484-491). -/
def entryBlock (sa da : Nat) (sts : Terms) (sl : VarL) : CBlock :=
  ⟨[], fun _ => some (rootsAt sa da), fun m =>
    match sts with
    | .nil => some (.jump 1)
    | _ => (loadU m (sa + sl.tagOff) sl.tagW).map fun bs => .jump (caseBlock sts (ofLE bs))⟩

/-- `getOrCreateVariantTranscodeFn` (394-500). -/
def lowerVariant (F : Nat → Nat → Nat → Nat) (A : Aliasing) (sa da : Nat) (dts : Terms) (dl : VarL) (sts : Terms) (sl : VarL) :
    Option CFn :=
  if dl.outline || sl.outline || enumFast dts sts dl sl || sl.tagW == 0 then none
  else
    ((pickAt dts dl.dflt).bind (lowerTerm F A sa da dl sl .unit)).bind fun d =>
    (sts.toList.mapM fun t => (pickTerm dts dl t.name).bind (lowerTerm F A sa da dl sl t.ty)).map fun bs =>
      entryBlock sa da sts sl :: retBlock sa da d :: bs.map (retBlock sa da)

/-- The function without its poisons. -/
def CFn.unpoisoned (f : CFn) : CFn := f.map fun b => { b with body := PJ.unpoisoned b.body }

end PJ
