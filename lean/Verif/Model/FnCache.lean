import Verif.Model.Codec
/-!
# The functions of a module and the calls between them

Models `GeneratePass` (`pj/generate_ir.cpp` 47-192) and the lowering of `TranscodeOp` and
`DefaultOp` (1068-1192): which functions a module gets, how they are named, which function a
`TranscodeOp` in a body ends up calling, and what running the module does.  `Model/Xcode.lean`
takes every call to be inlined; here bodies call functions by name.

Simplifications: types are trees (`Model/Ty.lean`), so that two types are the same if their trees
are; the types named `<empty>` that `DefaultOp` reads from are the source `none` of a key.
Conversions to `Any` (788-829) are left out.
-/
namespace PJ

deriving instance DecidableEq for Ty, Fields, Terms

/-- The operations that bodies contain before lowering: `TranscodeOp` with destination type, source
type, path and handlers, and `DefaultOp` with destination type and handlers. -/
inductive Op
  | transcode (d s : Ty) (p : Path) (hs : Handlers)
  | default (d : Ty) (hs : Handlers)
deriving DecidableEq

/-- `RawBufferType` (encoders), `BoundedBufferType` (decoders), `DummyBufferType` (sizers). -/
inductive BufTy
  | raw | bounded | dummy
deriving DecidableEq, Repr

/-- `FnKey` (`pj/generate_ir.cpp` 17-28). -/
structure FnKey where
  dst : Ty
  src : Option Ty
  path : Path
  hs : Handlers
  buf : BufTy
deriving DecidableEq

/-- What becomes of an operation. -/
inductive Low
  /-- replaced by its buffer (1075-1078, 1165-1168) -/
  | skip
  /-- `TranscodePrimitiveOp` (1087-1092) -/
  | prim (d s : Ty)
  /-- `CopyTagOp` (1117-1121) -/
  | copyTag (dts sts : Terms) (dl sl : VarL)
  /-- a `DefaultOp` that stays (1183-1185) -/
  | dfltPrim (d : Ty)
  /-- a call; `keep`: the resulting buffer is not used (1081-1083, 1188-1190) -/
  | call (k : FnKey) (keep : Bool)
  /-- a call of no function (1094, 1145) -/
  | null

/-- `DefaultOpLowering` (`pj/generate_ir.cpp` 1159-1192) followed by the lowering of the
`TranscodeOp` it creates.  `<empty>` is not an enum (`pj/types.hpp` 377), so that `CopyTagOp` is
not considered. -/
def lowerDefault (b : BufTy) (d : Ty) (hs : Handlers) : Low :=
  match d with
  | .unit => .skip
  | .struct .. => .call ⟨d, none, [], hs, b⟩ true
  | .variant .. => .call ⟨d, none, [], hs, b⟩ true
  | .array .. => .call ⟨d, none, [], [], b⟩ true
  | _ => .dfltPrim d

/-- `TranscodeOpLowering` (`pj/generate_ir.cpp` 1068-1148) and the keys made by the builders
(311, 397, 500-501, 834-835): arrays and vectors ignore path and handlers. -/
def lowerTranscode (b : BufTy) (d s : Ty) (p : Path) (hs : Handlers) : Low :=
  match d with
  | .unit => .skip
  | .int .. =>
    match s with
    | .unit => lowerDefault b d hs
    | .int .. => .prim d s
    | _ => .null
  | .float .. =>
    match s with
    | .unit => lowerDefault b d hs
    | .float .. => .prim d s
    | _ => .null
  | .struct .. =>
    match s with
    | .unit => lowerDefault b d hs
    | .struct .. => .call ⟨d, some s, p, hs, b⟩ false
    | _ => .null
  | .variant dts dl =>
    match s with
    | .unit => lowerDefault b d hs
    | .variant sts sl =>
      if enumFast dts sts dl sl then .copyTag dts sts dl sl else .call ⟨d, some s, p, hs, b⟩ false
    | _ => .null
  | .array .. =>
    match s with
    | .unit => lowerDefault b d hs
    | .array .. => .call ⟨d, some s, [], [], b⟩ false
    | _ => .null
  | .vector .. =>
    match s with
    | .unit => lowerDefault b d hs
    | .vector .. => .call ⟨d, some s, [], [], b⟩ false
    | _ => .null

def lowerOp (b : BufTy) : Op → Low
  | .transcode d s p hs => lowerTranscode b d s p hs
  | .default d hs => lowerDefault b d hs

/-- The key of the function an operation calls. -/
def Low.key : Low → Option FnKey
  | .call k _ => some k
  | _ => none

/-- Running code with a source and a destination address. -/
abbrev Exec := Nat → Nat → St → Res

/-- `TranscodePrimitiveOp` (`pj/llvm_gen2.cpp` 349-427). -/
def primExec (E : Env) (d s : Ty) : Exec := fun sa da st =>
  match d, s with
  | .int dw _ _, .int sw ss _ =>
    if sw = 0 ∨ dw = 0 then .ub else .ok (st.store da dw (convInt sw ss dw (readN E.S sa sw)))
  | .float dw _, .float sw _ =>
    if (sw = 4 ∨ sw = 8) ∧ (dw = 4 ∨ dw = 8) then
      .ok (st.store da dw (if sw = dw then readN E.S sa sw else E.fconv sw dw (readN E.S sa sw)))
    else .ub
  | _, _ => .ub

/-- `DefaultOp` of primitives and vectors (`pj/llvm_gen2.cpp` 1028-1058). -/
def dfltPrimExec (d : Ty) : Exec := fun _ da st =>
  match d with
  | .int w _ _ => if w = 0 then .ub else .ok (st.store da w 0)
  | .float w _ => if w = 4 ∨ w = 8 then .ok (st.store da w (qNaN w)) else .ub
  | .vector _ l => storeLength l da 0 st
  | _ => .ub

/-- Running a lowered operation, given what calls do. -/
def runLow (E : Env) (call : FnKey → Exec) : Low → Exec
  | .skip => fun _ _ st => .ok st
  | .prim d s => primExec E d s
  | .copyTag dts sts dl sl => fun sa da st => xEnum E dts sts dl sl sa da st
  | .dfltPrim d => dfltPrimExec d
  | .call k false => call k
  | .call k true => fun sa da st => keepBuf st (call k sa da st)
  | .null => fun _ _ _ => .ub

/-! ## Bodies -/

/-- The loop over `to_fields` (`pj/generate_ir.cpp` 332-386). -/
def bodyFields (op : Op → Exec) : Fields → Bool → Fields → Path → Handlers → Exec
  | .nil, _, _, _, _ => fun _ _ st => .ok st
  | .cons c off t r, out, sfs, path, hs => fun sa da st =>
    (if t.hasOut = out then
      match sfs.findLast c with
      | some (so, sty) => op (.transcode t sty (path.into c) (hs.into c)) (sa + so) (da + off) st
      | none => op (.default t (hs.into c)) sa (da + off) st
    else .ok st).bind
    (bodyFields op r out sfs path hs sa da)

/-- The if-chain of `transcodeTerm` (`pj/generate_ir.cpp` 254-293). -/
def bodyNamed (E : Env) (op : Op → Exec) : Terms → VarL → Comp → Ty → Exec
  | .nil, _, _, _ => fun _ _ st => .ok st
  | .cons n g as t r, l, c, sty => fun sa da st =>
    if n = c then
      match termCond E.S sty sa as with
      | none => .ub
      | some true =>
        (beginTerm l da g t.size st).bind (op (.transcode t sty [] []) sa (da + l.termOff))
      | some false => bodyNamed E op r l c sty sa da st
    else bodyNamed E op r l c sty sa da st

/-- `transcodeTerm` with the default term only. -/
def bodyAt (E : Env) (op : Op → Exec) : Terms → VarL → Nat → Ty → List (Comp × Nat) → Exec
  | .nil, _, _, _, _ => fun _ _ _ => .ub
  | .cons n g as t _, l, 0, sty, hm => fun sa da st =>
    Res.bind (match termCond E.S sty sa as with
      | none => .ub
      | some false => .ok st
      | some true =>
        (beginTerm l da g t.size st).bind (op (.transcode t sty [] []) sa (da + l.termOff)))
      (setCb hm n)
  | .cons _ _ _ _ r, l, i + 1, sty, hm => bodyAt E op r l i sty hm

/-- The source fields of a key. -/
def srcFields : Option Ty → Option Fields
  | none => some .nil
  | some (.struct fs _ _) => some fs
  | _ => none

/-- The source terms and the source layout of a key. -/
def srcTerms : Option Ty → Option (Terms × VarL)
  | none => some (.nil, ⟨false, 0, 0, 0, 0, 0, 0, 0, 0⟩)
  | some (.variant ts l) => some (ts, l)
  | _ => none

/-- The source element, length and stride of a key, given the destination element. -/
def srcArray (e : Ty) : Option Ty → Option (Ty × Nat × Nat)
  | none => some (e, 0, 0)
  | some (.array se sn sesz _) => some (se, sn, sesz)
  | _ => none

/-- The body that the builders make for a key (`pj/generate_ir.cpp` 307-392, 394-496, 498-566,
831-888), run with `op` for the operations in it. -/
def fnBody (E : Env) (op : Op → Exec) (k : FnKey) : Exec := fun sa da st =>
  match k.dst with
  | .struct dfs dsz _ =>
    match srcFields k.src with
    | none => .ub
    | some sfs =>
      (bodyFields op dfs true sfs k.path k.hs sa da (st.poison E.J da dsz)).bind
        (bodyFields op dfs false sfs k.path k.hs sa da)
  | .variant dts dl =>
    match srcTerms k.src with
    | none => .ub
    | some (sts, sl) =>
      match handlerMap k.hs with
      | none => .ub
      | some hm =>
        match selectTerm E.S sts sl k.path sa with
        | none => .ub
        | some none => bodyAt E op dts dl dl.dflt .unit hm (sa + sl.termOff) da st
        | some (some t) =>
          if dts.hasName t.name then
            (bodyNamed E op dts dl t.name t.ty (sa + sl.termOff) da st).bind (setCb hm t.name)
          else bodyAt E op dts dl dl.dflt t.ty hm (sa + sl.termOff) da st
  | .array de dn desz _ =>
    match srcArray de k.src with
    | none => .ub
    | some (se, sn, sesz) =>
      (loop (fun i => op (.transcode de se [] []) (elemAt sa sesz i) (elemAt da desz i))
        (min sn dn) 0 st).bind
      (loop (fun i => op (.default de []) 0 (elemAt da desz i)) (dn - min sn dn) (min sn dn))
  | .vector de dl =>
    match k.src with
    | some (.vector se sl) =>
      xVector E (op (.transcode de se [] [])) de.size de.align dl sl sa da st
    | _ => .ub
  | _ => .ub

/-! ## The operations in a body -/

/-- One per destination field. -/
def fieldOps : Fields → Fields → Path → Handlers → List Op
  | .nil, _, _, _ => []
  | .cons c _ t r, sfs, path, hs =>
    (match sfs.findLast c with
      | some (_, sty) => Op.transcode t sty (path.into c) (hs.into c)
      | none => Op.default t (hs.into c)) :: fieldOps r sfs path hs

/-- The operations of `transcodeTerm` with the default term. -/
def dfltOps (dts : Terms) (dl : VarL) (sty : Ty) : List Op :=
  (dts.toList[dl.dflt]?).toList.map fun t => Op.transcode t.ty sty [] []

/-- The operations of `transcodeTerm` for a source term: all destination terms of the name, or the
default term. -/
def termOps (dts : Terms) (dl : VarL) (t : Term) : List Op :=
  if dts.hasName t.name then
    (dts.toList.filter fun u => u.name == t.name).map fun u => Op.transcode u.ty t.ty [] []
  else dfltOps dts dl t.ty

/-- The blocks of a variant function: one per source term and the default block, or the block the
path selects (`pj/generate_ir.cpp` 428-491). -/
def variantOps (dts : Terms) (dl : VarL) (sts : Terms) (path : Path) : List Op :=
  match path with
  | c :: _ =>
    match sts.toList.find? (fun t => t.name == c) with
    | some t => termOps dts dl t
    | none => []
  | [] =>
    dfltOps dts dl .unit ++ sts.toList.flatMap (termOps dts dl)

/-- All operations in the body of a key. -/
def fnOps (k : FnKey) : List Op :=
  match k.dst with
  | .struct dfs _ _ =>
    match srcFields k.src with
    | none => []
    | some sfs => fieldOps dfs sfs k.path k.hs
  | .variant dts dl =>
    match srcTerms k.src with
    | none => []
    | some (sts, _) => variantOps dts dl sts k.path
  | .array de _ _ _ =>
    match srcArray de k.src with
    | none => []
    | some (se, _, _) => [.transcode de se [] [], .default de []]
  | .vector de _ =>
    match k.src with
    | some (.vector se _) => [.transcode de se [] []]
    | _ => []
  | _ => []

/-! ## The pass -/

abbrev FnName := List Char

/-- What the pass keeps: the functions made so far, `used_names_`, the operations not yet lowered
with the function they are in and its buffer, and the calls made so far: in which function, for
which key, to which name. -/
structure Gen where
  fns : List (FnName × FnKey)
  used : List (FnName × Nat)
  todo : List (FnName × BufTy × Op)
  links : List ((FnName × FnKey) × FnName)

/-- A number in decimal. -/
def decimalName (n : Nat) : FnName := Nat.toDigits 10 n

/-- The loop choosing a suffix (`pj/generate_ir.cpp` 158-164): 0, or anything `rand` returns. -/
def Suffix (used : List (FnName × Nat)) (base : FnName) (s : Nat) : Prop :=
  (base, s) ∉ used ∧ (s = 0 ∨ (base, 0) ∈ used ∧ s < 2 ^ 31)

/-- The function cached for a key (`pj/generate_ir.cpp` 131-133). -/
def Gen.cached (g : Gen) (k : FnKey) : Option FnName :=
  (g.fns.find? fun f => f.2 = k).map (·.1)

/-- Lowering one operation.  `base` is what a key prints as (`pj/generate_ir.cpp` 140-157): types
do not print all they consist of, and handlers print as an address, so nothing is known about it. -/
inductive PassStep (base : FnKey → FnName) : Gen → Gen → Prop
  | inline {g : Gen} {u v c b o} (hg : g.todo = u ++ (c, b, o) :: v)
      (hk : (lowerOp b o).key = none) :
      PassStep base g { g with todo := u ++ v }
  | hit {g : Gen} {u v c b o k n} (hg : g.todo = u ++ (c, b, o) :: v)
      (hk : (lowerOp b o).key = some k) (hc : g.cached k = some n) :
      PassStep base g { g with todo := u ++ v, links := ((c, k), n) :: g.links }
  | create {g : Gen} {u v c b o k s} (hg : g.todo = u ++ (c, b, o) :: v)
      (hk : (lowerOp b o).key = some k) (hc : g.cached k = none) (hs : Suffix g.used (base k) s) :
      PassStep base g
        { fns := (base k ++ '_' :: decimalName s, k) :: g.fns
          used := (base k, s) :: g.used
          todo := u ++ v ++ (fnOps k).map fun o => (base k ++ '_' :: decimalName s, k.buf, o)
          links := ((c, k), base k ++ '_' :: decimalName s) :: g.links }

/-- The functions a user sees (`EncodeFunctionLowering`, `DecodeFunctionLowering`,
`SizeFunctionLowering`, `pj/generate_ir.cpp` 890-1054): a name, the buffer and the `TranscodeOp` in
it. -/
abbrev Entries := List (FnName × BufTy × Op)

/-- The pass begins with the operations in the entries. -/
def Gen.start (es : Entries) : Gen := ⟨[], [], es, []⟩

/-- Any number of steps. -/
inductive PassRun (base : FnKey → FnName) (es : Entries) : Nat → Gen → Prop
  | start : PassRun base es 0 (Gen.start es)
  | step {n g g'} : PassRun base es n g → PassStep base g g' → PassRun base es (n + 1) g'

/-! ## Running a module -/

/-- The function called for a key in function `c`: by the name that was linked. -/
def Gen.link (g : Gen) (c : FnName) (k : FnKey) : Option FnName :=
  (g.links.find? fun l => l.1 = (c, k)).map (·.2)

/-- Running a function of the module, with at most `fuel` calls inside each other. -/
def runFn (E : Env) (g : Gen) : Nat → FnName → Exec
  | 0, _ => fun _ _ _ => .ub
  | fuel + 1, n =>
    match g.fns.find? (fun f => f.1 = n) with
    | none => fun _ _ _ => .ub
    | some f =>
      fnBody E (fun o => runLow E (fun k =>
        match g.link n k with
        | none => fun _ _ _ => .ub
        | some m => runFn E g fuel m) (lowerOp f.2.buf o)) f.2

/-- Running the operation of an entry. -/
def runOp (E : Env) (g : Gen) (fuel : Nat) (n : FnName) (b : BufTy) (o : Op) : Exec :=
  runLow E (fun k =>
    match g.link n k with
    | none => fun _ _ _ => .ub
    | some m => runFn E g fuel m) (lowerOp b o)

/-- The entry named `n` of an encoder (`pj/generate_ir.cpp` 897-939, as in `encode`). -/
def encodeEntry (host : Ty) (p : Proto) (path : Path) (n : FnName) : FnName × BufTy × Op :=
  (n, .raw, .transcode p.head host path [])

/-- Running an encoder of a module. -/
def runEncode (E : Env) (g : Gen) (fuel : Nat) (n : FnName) (host : Ty) (p : Proto) (path : Path)
    (obj buf : Nat) (mem : Mem) : Res :=
  runOp E g fuel n .raw (.transcode p.head host path []) obj buf
    { mem := mem, ptr := buf + p.head.size + p.bufOff, rem := none, cb := 0, used := 0 }

/-- The entry named `n` of a decoder (`pj/generate_ir.cpp` 949-1005, as in `decode`). -/
def decodeEntry (p : Proto) (host : Ty) (hs : Handlers) (n : FnName) : FnName × BufTy × Op :=
  (n, .bounded, .transcode host p.head [] hs)

/-- Running a decoder of a module. -/
def runDecode (E : Env) (g : Gen) (fuel : Nat) (n : FnName) (p : Proto) (host : Ty) (hs : Handlers)
    (msg obj buf cap : Nat) (mem : Mem) : Option Decoded :=
  match runOp E g fuel n .bounded (.transcode host p.head [] hs) msg obj
    { mem := mem, ptr := buf, rem := some cap, cb := 0, used := 0 } with
  | .ok s => some { mem := s.mem, ptr := s.ptr, size := s.rem.getD 0, called := invoked s.cb }
  | .throw s => some { mem := s.mem, ptr := 0, size := W64 - 1, called := invoked s.cb }
  | .ub => none

/-! ## Size functions

`GenSizeFunctionsPass` (`pj/sizing.cpp`) clones the functions on dummy buffers, once per use of
`round_up`, with calls to clones.  Simplification: here all functions are cloned, in the code those
that are called from a size function. -/

/-- Running a size function with a source address and a counter. -/
abbrev SzExec := Nat → Nat → Option Nat

/-- The name of a clone (`pj/sizing.cpp` 41). -/
def convName (n : FnName) (ru : Bool) : FnName :=
  n ++ (if ru then "_rounded".toList else "_exact".toList)

/-- Running a lowered operation in a clone: only calls whose buffer is used are left
(`pj/sizing.cpp` 103-130). -/
def runLowSz (call : FnKey → SzExec) : Low → SzExec
  | .call k false => call k
  | .null => fun _ _ => none
  | _ => fun _ c => some c

def szBodyFields (op : Op → SzExec) : Fields → Bool → Fields → Path → Handlers → SzExec
  | .nil, _, _, _, _ => fun _ c => some c
  | .cons n _ t r, out, sfs, path, hs => fun sa c =>
    (if t.hasOut = out then
      match sfs.findLast n with
      | some (so, sty) => op (.transcode t sty (path.into n) (hs.into n)) (sa + so) c
      | none => op (.default t (hs.into n)) sa c
    else some c).bind
    (szBodyFields op r out sfs path hs sa)

def szBodyNamed (ru : Bool) (S : Mem) (op : Op → SzExec) : Terms → VarL → Comp → Ty → SzExec
  | .nil, _, _, _ => fun _ c => some c
  | .cons n _ as t r, l, nm, sty => fun sa c =>
    if n = nm then
      match szCond ru S sty sa as with
      | none => none
      | some true => op (.transcode t sty [] []) sa (if l.outline then szAlloc c t.size else c)
      | some false => szBodyNamed ru S op r l nm sty sa c
    else szBodyNamed ru S op r l nm sty sa c

def szBodyAt (ru : Bool) (S : Mem) (op : Op → SzExec) : Terms → VarL → Nat → Ty → SzExec
  | .nil, _, _, _ => fun _ _ => none
  | .cons _ _ as t _, l, 0, sty => fun sa c =>
    match szCond ru S sty sa as with
    | none => none
    | some false => some c
    | some true => op (.transcode t sty [] []) sa (if l.outline then szAlloc c t.size else c)
  | .cons _ _ _ _ r, l, i + 1, sty => szBodyAt ru S op r l i sty

/-- The body of a clone. -/
def szBody (ru : Bool) (S : Mem) (op : Op → SzExec) (k : FnKey) : SzExec := fun sa c =>
  match k.dst with
  | .struct dfs _ _ =>
    match srcFields k.src with
    | none => none
    | some sfs =>
      (szBodyFields op dfs true sfs k.path k.hs sa c).bind
        (szBodyFields op dfs false sfs k.path k.hs sa)
  | .variant dts dl =>
    match srcTerms k.src with
    | none => none
    | some (sts, sl) =>
      match selectTerm S sts sl k.path sa with
      | none => none
      | some none => szBodyAt ru S op dts dl dl.dflt .unit (sa + sl.termOff) c
      | some (some t) =>
        if dts.hasName t.name then szBodyNamed ru S op dts dl t.name t.ty (sa + sl.termOff) c
        else szBodyAt ru S op dts dl dl.dflt t.ty (sa + sl.termOff) c
  | .array de dn _ _ =>
    match srcArray de k.src with
    | none => none
    | some (se, sn, sesz) =>
      szLoop (fun i => op (.transcode de se [] []) (elemAt sa sesz i)) (min sn dn) 0 c
  | .vector de dl =>
    match k.src with
    | some (.vector se sl) =>
      szVector S (op (.transcode de se [] [])) de.align dl sl (szLength ru S se sl sa) sa c
    | _ => none
  | _ => none

/-- The clones: name, `round_up` and the function cloned. -/
def Gen.clones (g : Gen) : List (FnName × Bool × FnName × FnKey) :=
  g.fns.flatMap fun f => [(convName f.1 true, true, f), (convName f.1 false, false, f)]

/-- Running a clone. -/
def runSz (S : Mem) (g : Gen) : Nat → FnName → SzExec
  | 0, _ => fun _ _ => none
  | fuel + 1, n =>
    match g.clones.find? (fun f => f.1 = n) with
    | none => fun _ _ => none
    | some (_, ru, m, k) =>
      szBody ru S (fun o => runLowSz (fun k' =>
        match g.link m k' with
        | none => fun _ _ => none
        | some m' => runSz S g fuel (convName m' ru)) (lowerOp k.buf o)) k

/-- Running a size function of a module (`pj/generate_ir.cpp` 1013-1054, as in `sizeFn`). -/
def runSize (ru : Bool) (S : Mem) (g : Gen) (fuel : Nat) (n : FnName) (host : Ty) (p : Proto)
    (path : Path) (obj : Nat) : Option Nat :=
  (runLowSz (fun k =>
    match g.link n k with
    | none => fun _ _ => none
    | some m => runSz S g fuel (convName m ru)) (lowerOp .dummy (.transcode p.head host path []))
    obj 0).map fun c => (c + p.head.size) % W64

/-- The entry named `n` of a size function. -/
def sizeEntry (host : Ty) (p : Proto) (path : Path) (n : FnName) : FnName × BufTy × Op :=
  (n, .dummy, .transcode p.head host path [])

end PJ
