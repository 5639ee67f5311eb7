import Verif.Model.Coalesce
import Verif.Model.Extend
import Verif.Model.Ty
/-!
# Which memory may be read

Models `pj/llvm_utils.cpp`: `isSafeToRead`, which the passes that make copies longer ask
(`pj/copy_coalescing.cpp` 328, `pj/copy_extending.cpp` 222), and the promises it looks for, which are made by
`ProjectOp`s that are `frozen` (`pj/llvm_gen2.cpp` 359-366).

A function is a list of pointers and what is promised about them.  Simplifications: users that are not pointers or
promises are left out; `BitCastInst` and `GetElementPtrInst` refer to earlier values (phis are `other`).
-/
namespace PJ

/-- How a pointer is made. -/
inductive PtrDef
  /-- `BitCastInst` -/
  | cast (p : Nat)
  /-- `GetElementPtrInst`, with the distance in bytes if it is constant (`accumulateConstantOffset`). -/
  | gep (p : Nat) (off : Option Int)
  /-- Arguments, loads, phis, calls and so on. -/
  | other
deriving DecidableEq, Repr

/-- The pointers of a function, by number, and its `invariant.start`s: pointer and length. -/
structure PtrFun where
  defs : List PtrDef
  freezes : List (Nat × Nat)

def PtrFun.def (f : PtrFun) (i : Nat) : PtrDef := f.defs.getD i .other

/-- `getGEPOffset` (8-16). -/
def gepOffset : Option Int → Option Nat
  | none => none
  | some d => if d < 0 then none else some d.toNat

/-- `getRegionDerivation` (18-38): the pointer, what it is derived from, and so on, with the distances. -/
def derivation (f : PtrFun) : Nat → Nat → Nat → List (Nat × Nat)
  | 0, mem, off => [(mem, off)]
  | n + 1, mem, off => (mem, off) ::
    match f.def mem with
    | .cast p => derivation f n p off
    | .gep p d =>
      match gepOffset d with
      | some k => derivation f n p (add64 off k)
      | none => []
    | .other => []

/-- `getRegionRoot` (40-42), which gives both passes the source and destination of a copy. -/
def regionRoot (f : PtrFun) (mem : Nat) : Option (Nat × Nat) := (derivation f f.defs.length mem 0).getLast?

/-- The casts and `gep`s that use a pointer. -/
def PtrFun.users (f : PtrFun) (cur : Nat) : List Nat := (List.range f.defs.length).filter fun i =>
  match f.def i with
  | .cast p => p == cur
  | .gep p _ => p == cur
  | .other => false

/-- `getDerivedLocations` (44-60). -/
def derived (f : PtrFun) : Nat → Nat → Nat → List (Nat × Nat)
  | 0, _, _ => []
  | n + 1, cur, off => (f.users cur).flatMap fun u =>
    match f.def u with
    | .cast _ => derived f n u off ++ [(u, off)]
    | .gep _ d =>
      match gepOffset d with
      | some k => derived f n u (add64 off k) ++ [(u, add64 off k)]
      | none => []
    | .other => []

/-- Whether a user is an `invariant.start` with at least this length (`isMatchingFreeze`, 62-72). -/
def PtrFun.frozen (f : PtrFun) (p minLen : Nat) : Bool :=
  f.freezes.any fun x => x.1 == p && decide (minLen ≤ x.2)

/-- `isSafeToRead` (74-103). -/
def isSafeToRead (f : PtrFun) (src offset len : Nat) : Bool :=
  (derivation f f.defs.length src 0).any fun x =>
    let total := add64 offset x.2
    f.frozen x.1 (add64 total len) ||
    (derived f f.defs.length x.1 0).any fun y =>
      !(decide (total < y.2)) && f.frozen y.1 (add64 (sub64 total y.2) len)

/-! ## The promises -/

mutual
/-- The `frozen` projections from a source: fields (`pj/generate_ir.cpp` 207, 373-374) and terms (249-250), by distance and
size.  There are only those that the destination has something for; here are all.  Elements of arrays and vectors are at
distances that are not constant. -/
def Ty.parts : Ty → Nat → List (Nat × Nat)
  | .struct fs _ _, o => fs.parts o
  | .variant ts l, o => ts.parts (o + l.termOff)
  | _, _ => []
def Fields.parts : Fields → Nat → List (Nat × Nat)
  | .nil, _ => []
  | .cons _ d t r, o => (o + d, t.size) :: (t.parts (o + d) ++ r.parts o)
def Terms.parts : Terms → Nat → List (Nat × Nat)
  | .nil, _ => []
  | .cons _ _ _ t r, o => (o, t.size) :: (t.parts o ++ r.parts o)
end

/-- The promises about a source, with that about all of it (`pj/generate_ir.cpp` 925, 990-991). -/
def Ty.promises (t : Ty) : List (Nat × Nat) := (0, t.size) :: t.parts 0

/-- The target of `CopyCoalescing` for a function. -/
def PtrFun.target (f : PtrFun) (maxPromotion : Nat) : CopyTarget where
  maxPromotion := maxPromotion
  safe := fun src off len =>
    match src with
    | some r => isSafeToRead f r off len
    | none => false

end PJ
