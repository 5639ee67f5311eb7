import Verif.Model.Coalesce
/-!
# Copy coalescing of whole functions

Models `runOnFunction` (`pj/copy_coalescing.cpp` 389-406): every block of a function is coalesced on its own,
or nothing is done if there is no `memcpy` (391).

A function is a control flow graph of blocks as in `Verif.Model.Coalesce`.  What a block needs of the values
that were computed before it is taken from memory when it is entered: registers are bytes at addresses that
no pointer has.  Values that depend on undefined bytes have no value (`none`); to use them is undefined
behaviour, and a run that does so has no next step.
-/
namespace PJ

/-- Where a block goes. -/
inductive Next
  | jump (b : Nat)
  | ret
deriving DecidableEq, Repr

/-- A basic block. -/
structure CBlock where
  body : List Inst
  /-- The addresses of the roots, given the memory in which the block is entered. -/
  roots : UMem → Option (Nat → Nat)
  /-- The terminator, given the memory in which it is reached. -/
  next : UMem → Option Next

/-- A function: its blocks, of which the first is the entry. -/
abbrev CFn := List CBlock

/-- `runOnFunction` (389-406). -/
def CFn.coalesce (t : CopyTarget) (memcpy : Bool) (f : CFn) : CFn :=
  if memcpy then f.map fun b => { b with body := PJ.coalesce t {} b.body } else f

/-- A state of a run: the next block, or `none` after the return; and the memory. -/
abbrev CState := Option Nat × UMem

/-- One block is run.  No block is run after the return. -/
def CFn.step (f : CFn) : CState → Option CState
  | (none, _) => none
  | (some b, m) =>
    match f[b]? with
    | none => none
    | some blk =>
      match blk.roots m with
      | none => none
      | some base =>
        let m' := runBlock base blk.body m
        match blk.next m' with
        | none => none
        | some (.jump b') => some (some b', m')
        | some .ret => some (none, m')

/-- `k` blocks are run. -/
def CFn.steps (f : CFn) : Nat → CState → Option CState
  | 0, s => some s
  | k + 1, s => match f.step s with
    | none => none
    | some s' => f.steps k s'

end PJ
