import Verif.Model.Coalesce
import Verif.Model.Word
/-!
# Copy extending

Models `pj/copy_extending.cpp`: `BoundedCopy` 35-68, `PoisonRegion` 70-168, `runOnFunction` 183-232.

A function is a list of basic blocks, block 0 is the entry; a position is a block and an index in it, where
the index after the last instruction is the terminator.  Values are registers; memory bytes and registers may
be undefined (`none`), and using an undefined address, length or condition is undefined behaviour.  A `Value*`
that `getRegionRoot` returns is a register.  Alias analysis, dominance, the bound from `LazyValueInfo` and
`isSafeToRead` are oracles, about which the theorems make assumptions.  Simplifications: addresses do not wrap
around; traps are not modelled; a `memcpy` with overlapping regions behaves like `memmove` (for LLVM it is
undefined).
-/
namespace PJ

/-- Registers and memory. -/
structure XSt where
  regs : Nat → Option Nat
  mem : UMem

/-- The first state is a possible refinement of the second: undefined parts may have become anything. -/
def XSt.Ref (s' s : XSt) : Prop :=
  (∀ r, s.regs r = none ∨ s'.regs r = s.regs r) ∧ ∀ a, s.mem a = none ∨ s'.mem a = s.mem a

/-- Any other instruction: it may compute a register and change memory (`none`: undefined behaviour). -/
structure XOther where
  dst : Option Nat
  eff : XSt → Option XSt
  /-- It only defines its register. -/
  frame : ∀ s t r, eff s = some t → dst ≠ some r → t.regs r = s.regs r
  /-- It does not know what undefined parts are: what it does with them it may do with anything. -/
  mono : ∀ s s' t, XSt.Ref s' s → eff s = some t → ∃ t', eff s' = some t' ∧ XSt.Ref t' t

inductive XLen
  | reg (r : Nat)
  | const (n : Nat)
deriving DecidableEq, Repr

inductive XI
  /-- `memset` of undef at a constant offset from a root (71-93). -/
  | poison (root off len : Nat)
  /-- `memcpy` (36-54); `bound` is what `LazyValueInfo` says, `safe` what `isSafeToRead` says about it. -/
  | copy (src srcOff root off : Nat) (len : XLen) (bound : Nat) (safe : Bool)
  | other (o : XOther)

inductive XTerm
  | jump (b : Nat)
  | br (c b b' : Nat)
  /-- Terminators the pass does not know (142-144). -/
  | switch (c : Nat) (bs : List Nat)
  | ret

structure XBlock where
  insts : List XI
  term : XTerm

abbrev XProg := List XBlock

/-- Block and index. -/
abbrev Pos := Nat × Nat

def XProg.inst (p : XProg) (q : Pos) : Option XI := (p[q.1]?).bind fun b => b.insts[q.2]?

/-! ## Execution -/

def XLen.eval : XLen → XSt → Option Nat
  | .reg r, s => s.regs r
  | .const n, _ => some n

def uPoison (m : UMem) (a n : Nat) : UMem := fun x => if a ≤ x ∧ x < a + n then none else m x

def uCopy (m : UMem) (src dst n : Nat) : UMem := fun x => if dst ≤ x ∧ x < dst + n then m (src + (x - dst)) else m x

def XI.exec : XI → XSt → Option XSt
  | .poison root off len, s => (s.regs root).map fun a => { s with mem := uPoison s.mem (a + off) len }
  | .copy src so root off len _ _, s =>
    match s.regs src, s.regs root, len.eval s with
    | some a, some d, some n => some { s with mem := uCopy s.mem (a + so) (d + off) n }
    | _, _, _ => none
  | .other o, s => o.eff s

/-- The block a terminator goes to. -/
def XTerm.next : XTerm → XSt → Option Nat
  | .jump b, _ => some b
  | .br c b b', s => (s.regs c).map fun v => if v = 0 then b' else b
  | .switch c bs, s => (s.regs c).bind fun v => bs[v]?
  | .ret, _ => none

/-- One step.  `none`: undefined behaviour, or the function has returned. -/
def XProg.step (p : XProg) (q : Pos) (s : XSt) : Option (Pos × XSt) :=
  match p[q.1]? with
  | none => none
  | some b =>
    match b.insts[q.2]? with
    | some i => (i.exec s).map fun t => ((q.1, q.2 + 1), t)
    | none => if q.2 = b.insts.length then (b.term.next s).map fun b' => ((b', 0), s) else none

/-- `n` steps from the entry. -/
def XProg.run (p : XProg) : Nat → XSt → Option (Pos × XSt)
  | 0, s => some ((0, 0), s)
  | n + 1, s => (p.run n s).bind fun c => p.step c.1 c.2

/-! ## The pass -/

/-- `PoisonRegion`: the position of the `memset` and its region. -/
structure Region where
  at_ : Pos
  root : Nat
  off : Nat
  len : Nat
deriving DecidableEq, Repr

/-- What the analyses answer. -/
structure Analyses where
  /-- `getModRefInfo`: may the instruction store to the region? -/
  mods : Pos → Region → Bool
  /-- `dt.dominates(pos, block)`, `pos` being the instruction after the `memset`. -/
  dom : Pos → Nat → Bool

/-- The loop over the instructions of a block (123-154) up to the terminator: the first one from index `i` on
that may store to the region. -/
def firstMod (A : Analyses) (R : Region) (b : Nat) : Nat → Nat → Option Pos
  | 0, _ => none
  | n + 1, i => if A.mods (b, i) R then some (b, i) else firstMod A R b n (i + 1)

/-- `MemoTable`. -/
abbrev Memo := List (Nat × List Pos)

def Memo.set (m : Memo) (b : Nat) (f : List Pos) : Memo := (b, f) :: m

/-- `findFrontier` (111-157).  A block is entered into the table with an empty frontier first, so a block met
again before its frontier is known counts as having none.  The recursion depth is at most the number of
blocks. -/
def findFrontier (p : XProg) (A : Analyses) (R : Region) : Nat → Memo → Pos → List Pos × Memo
  | 0, memo, _ => ([], memo)
  | fuel + 1, memo, cur =>
    match memo.lookup cur.1 with
    | some f => (f, memo)
    | none =>
      let memo := memo.set cur.1 []
      if R.at_.1 ≠ cur.1 ∧ ¬ A.dom (R.at_.1, R.at_.2 + 1) cur.1 then ([], memo)
      else
        match p[cur.1]? with
        | none => ([], memo)
        | some b =>
          match firstMod A R cur.1 (b.insts.length - cur.2) cur.2 with
          | some q => ([q], memo.set cur.1 [q])
          | none =>
            match b.term with
            | .jump b' =>
              let r := findFrontier p A R fuel memo (b', 0)
              (r.1, r.2.set cur.1 r.1)
            | .br _ b1 b2 =>
              let r1 := findFrontier p A R fuel memo (b1, 0)
              let r2 := findFrontier p A R fuel r1.2 (b2, 0)
              (r1.1 ++ r2.1, r2.2.set cur.1 (r1.1 ++ r2.1))
            | _ => ([], memo)

/-- `findFrontier` from the instruction after the `memset` (102-105). -/
def frontier (p : XProg) (A : Analyses) (R : Region) : List Pos :=
  (findFrontier p A R (p.length + 1) [] (R.at_.1, R.at_.2 + 1)).1

/-- The regions of a function (190-197). -/
def regions (p : XProg) : List Region :=
  p.zipIdx.flatMap fun x => x.1.insts.zipIdx.filterMap fun y =>
    match y.1 with
    | .poison root off len => some ⟨(x.2, y.2), root, off, len⟩
    | _ => none

/-- The checks before a copy is extended (209-225); `size_t` arithmetic wraps around. -/
def extendable (R : Region) : XI → Bool
  | .copy _ _ root off _ bound safe =>
    R.root == root && decide (R.off ≤ off) && decide (bound ≤ sub64 (add64 R.off R.len) off) &&
      decide (bound ≤ 64) && safe
  | _ => false

/-- Whether the copy at a position is extended (205-229).  The order in which regions are looked at does not
matter, since all frontiers are computed before and the new length is the same for all of them. -/
def extended (p : XProg) (A : Analyses) (q : Pos) (i : XI) : Bool :=
  (regions p).any fun R => (frontier p A R).contains q && extendable R i

/-- `setLength` (226). -/
def XI.extend : XI → XI
  | .copy src so root off _ bound safe => .copy src so root off (.const bound) bound safe
  | i => i

def extendInst (p : XProg) (A : Analyses) (q : Pos) (i : XI) : XI := if extended p A q i then i.extend else i

/-- `runOnFunction` (183-232). -/
def copyExtend (p : XProg) (A : Analyses) : XProg :=
  p.mapIdx fun b blk => ⟨blk.insts.mapIdx fun i x => extendInst p A (b, i) x, blk.term⟩

end PJ
