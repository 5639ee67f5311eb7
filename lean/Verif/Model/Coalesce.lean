import Verif.Model.Mem
/-!
# Copy coalescing

Models `pj/copy_coalescing.cpp`: `Copy` 49-169, `CopySet` 171-375, `runOnBlock` 413-443.

A basic block is a list of instructions.  Memory bytes may be undefined (`none`): the poison `memset` of
undef makes them so.  A `Value*` that `getRegionRoot` returns is a number; its run time value is given by
`base`.  Simplifications: addresses do not wrap around; instructions that do not touch memory are left out;
`ast` (the alias set tracker) is only a source of alias information; `isSafeToRead` is any predicate;
traps are not modelled.
-/
namespace PJ

/-- Memory with undefined bytes. -/
abbrev UMem := Nat → Option UInt8

/-- `Copy` (49-169); `src = none` is a poison (`matchPoison`). -/
structure CCopy where
  src : Option Nat
  dst : Nat
  srcOff : Nat
  dstOff : Nat
  len : Nat
deriving DecidableEq, Repr

/-- Any other instruction: the bytes it may read and write, and its effect. -/
structure Other where
  reads : Nat → Prop
  writes : Nat → Prop
  eff : UMem → UMem
  /-- Whether it is a terminator. -/
  term : Bool
  /-- Answers of `getModRefInfo` for the location of a root and a length. -/
  mods : Nat → Nat → Bool
  refs : Nat → Nat → Bool

/-- An instruction of the block. -/
inductive Inst
  /-- A `memcpy` of constant length (92-115), or a poison (63-90). -/
  | copy (c : CCopy)
  /-- A load whose only use is a store that comes after some other instructions, with no alias between
  the two (117-161). -/
  | loadStore (c : CCopy) (mid : List Other)
  | other (o : Other)

/-- `Piece` (347-367). -/
structure Piece where
  poison : Bool
  load : Nat
  store : Nat
  len : Nat
deriving DecidableEq, Repr

/-- `CopySet` (171-375).  `store_starts` is the list of pieces in order of their `store_start`.
`load_starts` is not used for anything. -/
structure CopySet where
  src : Option Nat := none
  dst : Option Nat := none
  starts : List Piece := []
  storeEnd : Nat := 0
  loadEnd : Nat := 0

/-- `canReorderWith` (177-192). -/
def CopySet.canReorderWith (s : CopySet) (o : Other) : Bool :=
  match s.dst with
  | none => true
  | some d =>
    !o.term &&
    (match s.src with
      | none => true
      | some r => !o.mods r s.loadEnd) &&
    !o.refs d s.storeEnd

/-- `mergeWith` (194-255): the new set, or `none` for `false`.  (On `false` the set is only used for
`generate`; the change of `src_def` in 209-211 then has no effect, since there are only poisons.) -/
def CopySet.mergeWith (s : CopySet) (c : CCopy) : Option CopySet :=
  let src := if s.dst = none then c.src else s.src
  let dst := if s.dst = none then some c.dst else s.dst
  if (src ≠ none ∧ c.src ≠ none ∧ src ≠ c.src) ∨ dst ≠ some c.dst then none
  else
    let src := if src = none then c.src else src
    -- `lower_bound` (216)
    let lo := s.starts.takeWhile (fun p => p.store < c.dstOff)
    let hi := s.starts.dropWhile (fun p => p.store < c.dstOff)
    let overNext := match hi.head? with
      | some p => decide (c.dstOff + c.len > p.store)
      | none => false
    let overPrev := match lo.getLast? with
      | some p => decide (p.store + p.len > c.dstOff)
      | none => false
    if overNext || overPrev then none
    else
      let piece : Piece := ⟨c.src == none, c.srcOff, c.dstOff, c.len⟩
      -- `emplace` does nothing if the key is there (247)
      let starts := match hi.head? with
        | some p => if p.store = c.dstOff then s.starts else lo ++ piece :: hi
        | none => lo ++ piece :: hi
      some { src := src, dst := dst, starts := starts,
             loadEnd := if c.src = none then s.loadEnd else max s.loadEnd (c.srcOff + c.len),
             storeEnd := max s.storeEnd (c.dstOff + c.len) }

/-- The smallest power of two above `n` (`NextPowerOf2`). -/
def nextPow2 (n : Nat) : Nat := 2 ^ (Nat.log2 n + 1)

def isPow2 (n : Nat) : Bool := n != 0 && 2 ^ Nat.log2 n == n

/-- The loop of condition (a) (310-321): whether `need` bytes after `stop` get overwritten. -/
def covered : Nat → Nat → List Piece → Bool
  | _, 0, _ => true
  | _, _ + 1, [] => false
  | stop, need + 1, q :: rest =>
    if q.store > stop then false
    else covered (stop + q.len) (need + 1 - min (need + 1) q.len) rest

/-- The target and `isSafeToRead`. -/
structure CopyTarget where
  maxPromotion : Nat
  safe : Option Nat → Nat → Nat → Bool

/-- `try_extend_piece` (296-331). -/
def extendPiece (t : CopyTarget) (src : Option Nat) (piece : Piece) (rest : List Piece) : Piece :=
  if piece.poison || isPow2 piece.len || !(decide (piece.len < t.maxPromotion)) then piece
  else
    let newLen := if piece.len = 0 then 1 else nextPow2 piece.len
    if !covered (piece.store + piece.len) (newLen - piece.len) rest then piece
    else if !t.safe src piece.load newLen then piece
    else { piece with len := newLen }

/-- The loop of `generate` (288-341). -/
def genLoop (t : CopyTarget) (src : Option Nat) : Piece → List Piece → List Piece
  | piece, [] => [piece]
  | piece, q :: rest =>
    if piece.poison = q.poison ∧ piece.load + piece.len = q.load ∧ piece.store + piece.len = q.store then
      genLoop t src { piece with len := piece.len + q.len } rest
    else extendPiece t src piece (q :: rest) :: genLoop t src q rest

/-- `generate` (257-343) with `Piece::generate` (353-366): the `memcpy`s. -/
def CopySet.generate (t : CopyTarget) (s : CopySet) : List Inst :=
  match s.starts with
  | [] => []
  | p :: rest =>
    (genLoop t s.src p rest).filterMap fun p =>
      if p.poison then none
      else
        match s.src, s.dst with
        | some r, some d => some (.copy ⟨some r, d, p.load, p.store, p.len⟩)
        | _, _ => none

/-- `runOnBlock` (413-443).  A block ends with a terminator, where the set is written out. -/
def coalesce (t : CopyTarget) : CopySet → List Inst → List Inst
  | set, [] => set.generate t
  | set, .other o :: rest =>
    if set.canReorderWith o then .other o :: coalesce t set rest
    else set.generate t ++ .other o :: coalesce t {} rest
  | set, .copy c :: rest =>
    match set.mergeWith c with
    | some set => coalesce t set rest
    | none =>
      set.generate t ++
        (match CopySet.mergeWith {} c with
          | some set => coalesce t set rest
          | none => coalesce t {} rest)
  | set, .loadStore c mid :: rest =>
    -- the iterator continues after the store; what is between load and store is skipped (144)
    mid.map .other ++
      match set.mergeWith c with
      | some set => coalesce t set rest
      | none =>
        set.generate t ++
          (match CopySet.mergeWith {} c with
            | some set => coalesce t set rest
            | none => coalesce t {} rest)

/-! ## Execution -/

/-- The bytes of a copy or poison: all reads come before all writes. -/
def CCopy.exec (base : Nat → Nat) (c : CCopy) (m : UMem) : UMem := fun a =>
  if base c.dst + c.dstOff ≤ a ∧ a < base c.dst + c.dstOff + c.len then
    match c.src with
    | none => none
    | some r => m (base r + c.srcOff + (a - (base c.dst + c.dstOff)))
  else m a

def Inst.exec (base : Nat → Nat) : Inst → UMem → UMem
  | .copy c, m => c.exec base m
  | .other o, m => o.eff m
  | .loadStore c mid, m => fun a =>
    let m' := mid.foldl (fun m o => o.eff m) m
    if base c.dst + c.dstOff ≤ a ∧ a < base c.dst + c.dstOff + c.len then
      match c.src with
      | none => none
      | some r => m (base r + c.srcOff + (a - (base c.dst + c.dstOff)))
    else m' a

def runBlock (base : Nat → Nat) (is : List Inst) (m : UMem) : UMem :=
  is.foldl (fun m i => i.exec base m) m

end PJ
