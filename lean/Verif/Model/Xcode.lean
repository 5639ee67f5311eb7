import Verif.Model.Ty
import Verif.Model.Mem
import Verif.Model.Align
import Verif.Model.CopyTag
import Verif.Model.Dispatch
/-!
# The generated transcode functions

Models `pj/generate_ir.cpp` 195-888, 1068-1192 (which code is generated for a pair of types)
together with the lowering of every operation in `pj/llvm_gen2.cpp` 339-1080 (what the code does).

The source object (host object or message) lives in the read-only memory `Env.S`, the destination
object and the buffer in `St.mem`: the arguments are marked `noalias`
(`pj/generate_ir.cpp` 914-917, 971-974).  No generated code reads destination memory.

Outcomes: `ok`, `throw` (an `AllocateOp` on a bounded buffer failed) and `ub` (undefined behaviour,
failed assertion, call of a null function).
-/
namespace PJ

/-- What does not change during a call. -/
structure Env where
  /-- source memory -/
  S : Mem
  /-- content of poisoned bytes -/
  J : Mem
  /-- LLVM `fpext`/`fptrunc` from a width to a width, on bit patterns -/
  fconv : Nat → Nat → Nat → Nat

/-- The state of a call.  `rem = none` is a raw buffer (encode), `rem = some r` a bounded buffer with
`r` bytes left (as 64-bit word); `cb` is the callback slot, 0 for none
(`pj/llvm_gen2.cpp` 655-667).  `used` is a ghost counter that nothing reads: the number of bytes
asked from the buffer so far, without wrapping. -/
structure St where
  mem : Mem
  ptr : Nat
  rem : Option Nat
  cb : Nat
  used : Nat

inductive Res
  | ok (s : St)
  | throw (s : St)
  | ub

/-- Sequencing: after a call that failed the caller returns at once
(`CallOpLowering`, `pj/llvm_gen2.cpp` 967-1026). -/
def Res.bind (r : Res) (f : St → Res) : Res :=
  match r with
  | .ok s => f s
  | .throw s => .throw s
  | .ub => .ub

/-- An `scf.for` from `i` with `n` iterations. -/
def loop (body : Nat → St → Res) : Nat → Nat → St → Res
  | 0, _, st => .ok st
  | n + 1, i, st => (body i st).bind (loop body n (i + 1))

/-- Number of iterations of an `scf.for` from 0 to the 64-bit word `n` with step 1: the comparison
is signed. -/
def loopCount (n : Nat) : Nat := if n < 2 ^ 63 then n else 0

/-- LLVM `store` into the destination. -/
def St.store (st : St) (a k n : Nat) : St := { st with mem := writeN st.mem a k n }

/-- `PoisonOp` (`pj/llvm_gen2.cpp` 1068-1080). -/
def St.poison (st : St) (J : Mem) (a n : Nat) : St := { st with mem := poisonMem J st.mem a n }

/-- `AllocateOp` (`pj/llvm_gen2.cpp` 768-804) with the byte count `n` (reduced mod 2^64 as the
code computes it in 64 bits). -/
def alloc (st : St) (n : Nat) : Res :=
  match st.rem with
  | none => .ok { st with ptr := (st.ptr + n) % W64, used := st.used + n }
  | some r =>
    if toSigned 8 (sub64 r n) < 0 then .throw st
    else .ok { st with ptr := (st.ptr + n) % W64, rem := some (sub64 r n), used := st.used + n }

/-- `AlignOp` (`pj/llvm_gen2.cpp` 734-766); other alignments fail an assertion. -/
def alignTo (st : St) (al : Nat) : Res :=
  if al = 1 then .ok st
  else if al = 2 ∨ al = 4 ∨ al = 8 then alloc st (alignDiff st.ptr al)
  else .ub

/-- `LengthOp` (`pj/llvm_gen2.cpp` 806-831); a length above the maximum violates an `assume`. -/
def lengthOp (S : Mem) (l : VecL) (a : Nat) : Option Nat :=
  match l.maxLen with
  | none => if l.lenSize = 0 then none else some (readN S (a + l.lenOff) l.lenSize)
  | some m =>
    if m = 0 then some 0
    else if l.lenSize = 0 then none
    else if readN S (a + l.lenOff) l.lenSize ≤ m then some (readN S (a + l.lenOff) l.lenSize)
    else none

/-- `StoreLengthOp` (`pj/llvm_gen2.cpp` 833-847); an `i0` store is invalid. -/
def storeLength (l : VecL) (da n : Nat) (st : St) : Res :=
  if l.lenSize = 0 then .ub else .ok (st.store (da + l.lenOff) l.lenSize n)

/-- `StoreRefOp` (`pj/llvm_gen2.cpp` 849-879). -/
def storeRef (l : VecL) (da : Nat) (st : St) : Res :=
  match l.mode with
  | .pointer => if l.refSize = 8 then .ok (st.store (da + l.refOff) 8 st.ptr) else .ub
  | .offset =>
    if l.refSize = 0 then .ub
    else .ok (st.store (da + l.refOff) l.refSize (sub64 st.ptr (da + l.refOff)))

/-- Where the out-of-line elements of a vector at `a` start (`VectorIndexOp`, region `Reference`,
`pj/llvm_gen2.cpp` 701-720): in offset mode the sum of reference and offset is computed in
`ref_size` bytes and sign extended by the `getelementptr`. -/
def refStart (S : Mem) (l : VecL) (a : Nat) : Nat :=
  match l.mode with
  | .pointer => readN S (a + l.refOff) l.refSize
  | .offset =>
    (a + sext l.refSize 8 ((readN S (a + l.refOff) l.refSize + l.refOff) % 256 ^ l.refSize)) % W64

/-- The stride-`w` address of element `i` (`pj/llvm_gen2.cpp` 723-728). -/
def elemAt (start w i : Nat) : Nat := start + i * w

/-- `generateVectorCopyLoop` (`pj/generate_ir.cpp` 568-604): `f` transcodes one element. -/
def copyLoop (f : Nat → Nat → St → Res) (ss sw si ds dw di n : Nat) (st : St) : Res :=
  loop (fun i => f (elemAt ss sw (si + i)) (elemAt ds dw (di + i))) (loopCount n) 0 st

/-- `maxLengthBound` (`pj/types.hpp` 713-715). -/
def VecL.maxBound (l : VecL) : Nat :=
  match l.maxLen with
  | some m => m
  | none => 2 ^ 63 - 1

/-- Whether a vector of `n` elements is stored inline (`pj/generate_ir.cpp` 617-623, 862-868). -/
def VecL.isInl (l : VecL) (n : Nat) : Bool := l.minLen ≠ 0 && n ≤ l.minLen

/-- `transcodeInlineVector` (`pj/generate_ir.cpp` 606-672). -/
def xInlineVec (E : Env) (f : Nat → Nat → St → Res) (desz deal : Nat) (dl sl : VecL)
    (sa da copy : Nat) (st : St) : Res :=
  if ¬ copy ≤ sl.minLen then .ub
  else if dl.isInl copy then
    copyLoop f (sa + sl.inlOff) sl.elemW 0 (da + dl.inlOff) dl.elemW 0 copy
      (st.poison E.J (da + dl.inlOff) (desz * dl.minLen))
  else
    (alignTo st deal).bind fun sta =>
    (storeRef dl da sta).bind fun st1 =>
    (alloc st1 (dl.elemW * sub64 copy dl.ppl)).bind fun st2 =>
    (copyLoop f (sa + sl.inlOff) sl.elemW 0 (da + dl.parOff) dl.elemW 0 dl.ppl st2).bind fun st3 =>
    copyLoop f (sa + sl.inlOff) sl.elemW dl.ppl sta.ptr dl.elemW 0 (sub64 copy dl.ppl) st3

/-- `transcodeOutlineVector` (`pj/generate_ir.cpp` 674-786). -/
def xOutlineVec (E : Env) (f : Nat → Nat → St → Res) (desz deal : Nat) (dl sl : VecL)
    (sa da copy : Nat) (st : St) : Res :=
  if sl.minLen > 0 ∧ ¬ min (sl.minLen + 1) dl.maxBound ≤ copy then .ub
  else if dl.isInl copy then
    let n := min sl.ppl dl.maxBound
    (copyLoop f (sa + sl.parOff) sl.elemW 0 (da + dl.inlOff) dl.elemW 0 n
      (st.poison E.J (da + dl.inlOff) (desz * dl.minLen))).bind fun st1 =>
    copyLoop f (refStart E.S sl sa) sl.elemW 0 (da + dl.inlOff) dl.elemW n (sub64 copy n) st1
  else
    (alignTo st deal).bind fun sta =>
    (storeRef dl da sta).bind fun st1 =>
    (alloc st1 (dl.elemW * sub64 copy dl.ppl)).bind fun st2 =>
    if sl.ppl ≤ dl.ppl then
      (copyLoop f (sa + sl.parOff) sl.elemW 0 (da + dl.parOff) dl.elemW 0 sl.ppl st2).bind fun st3 =>
      (copyLoop f (refStart E.S sl sa) sl.elemW 0 (da + dl.parOff) dl.elemW sl.ppl
        (dl.ppl - sl.ppl) st3).bind fun st4 =>
      copyLoop f (refStart E.S sl sa) sl.elemW (dl.ppl - sl.ppl) sta.ptr dl.elemW 0
        (sub64 copy dl.ppl) st4
    else
      (copyLoop f (sa + sl.parOff) sl.elemW 0 (da + dl.parOff) dl.elemW 0 dl.ppl st2).bind fun st3 =>
      (copyLoop f (sa + sl.parOff) sl.elemW dl.ppl sta.ptr dl.elemW 0
        (sl.ppl - dl.ppl) st3).bind fun st4 =>
      copyLoop f (refStart E.S sl sa) sl.elemW 0 sta.ptr dl.elemW (sl.ppl - dl.ppl)
        (sub64 copy sl.ppl) st4

/-- `copy_length` (`pj/generate_ir.cpp` 851-858). -/
def copyLength (dl : VecL) (n : Nat) : Nat :=
  match dl.maxLen with
  | none => n
  | some m => if n ≤ m then n else m

/-- `getOrCreateVectorTranscodeFn` (`pj/generate_ir.cpp` 831-888). -/
def xVector (E : Env) (f : Nat → Nat → St → Res) (desz deal : Nat) (dl sl : VecL)
    (sa da : Nat) (st : St) : Res :=
  match lengthOp E.S sl sa with
  | none => .ub
  | some n =>
    (storeLength dl da (copyLength dl n) st).bind fun st =>
    if sl.isInl n then xInlineVec E f desz deal dl sl sa da (copyLength dl n) st
    else xOutlineVec E f desz deal dl sl sa da (copyLength dl n) st

/-- `projectPath` followed by the cast to a vector type (`pj/generate_ir.cpp` 195-209, 222-223):
the layout and address of the vector a split attribute talks about. -/
def projVec : Ty → Nat → Path → Option (VecL × Nat)
  | _, _, [] => none
  | .vector _ l, a, [_] => some (l, a)
  | .struct fs _ _, a, c :: c' :: p =>
    match fs.find c with
    | some (o, t) => projVec t (a + o) (c' :: p)
    | none => none
  | _, _, _ => none

/-- `generateTermCondition` (`pj/generate_ir.cpp` 211-236). -/
def termCond (S : Mem) (sty : Ty) (sa : Nat) : List Attr → Option Bool
  | [] => some true
  | .undef d :: r => (termCond S sty sa r).map (d && ·)
  | .split inl n p :: r =>
    match projVec sty sa p with
    | none => none
    | some (l, a) =>
      match lengthOp S l a with
      | none => none
      | some len => (termCond S sty sa r).map ((if inl then decide (len ≤ n) else decide (n < len)) && ·)

/-- The handlers given to a decoder: path and index (`DispatchHandlerAttr`). -/
abbrev Handlers := List (Path × Nat)

/-- `field_handlers` (`pj/generate_ir.cpp` 356-366). -/
def Handlers.into (hs : Handlers) (c : Comp) : Handlers :=
  (hs.filter fun h => h.1.startsWith c).map fun h => (h.1.into c, h.2)

/-- `handler_map` (`pj/generate_ir.cpp` 420-424): first component to index; `none` when a path is
empty (out-of-range access). -/
def handlerMap : Handlers → Option (List (Comp × Nat))
  | [] => some []
  | ([], _) :: _ => none
  | (c :: _, i) :: r => (handlerMap r).map ((c, i) :: ·)

/-- `SetCallbackOp` after a term was transcoded (`pj/generate_ir.cpp` 298-304,
`pj/llvm_gen2.cpp` 655-667); `StringMap::insert` keeps the first entry of a name. -/
def setCb (hm : List (Comp × Nat)) (name : Comp) (st : St) : Res :=
  match hm.lookup name with
  | some i => .ok { st with cb := i + 1 }
  | none => .ok st

/-- `TagOp` (`pj/llvm_gen2.cpp` 429-443); an `i0` store is invalid. -/
def storeTag (l : VarL) (da tag : Nat) (st : St) : Res :=
  if l.tagW = 0 then .ub else .ok (st.store (da + l.tagOff) l.tagW tag)

/-- The then-branch of `transcodeTerm` before the payload (`pj/generate_ir.cpp` 266-279). -/
def beginTerm (l : VarL) (da tag sz : Nat) (st : St) : Res :=
  (storeTag l da tag st).bind fun st => if l.outline then alloc st sz else .ok st

/-- Restores the buffer: the buffer result of a `DefaultOp` is not used
(`pj/generate_ir.cpp` 383, 558, 1081-1083, 1188-1190). -/
def keepBuf (st : St) (r : Res) : Res :=
  r.bind fun s => .ok { s with ptr := st.ptr, rem := st.rem, used := st.used }

/-- The bit pattern of the quiet NaN (`getDefaultValue`, `pj/types.hpp` 173-187). -/
def qNaN (w : Nat) : Nat := if w = 4 then 0x7fc00000 else 0x7ff8000000000000

/-- Condition of a default term whose source is `Unit` (no vector to look at). -/
def unitCond : List Attr → Option Bool
  | [] => some true
  | .undef d :: r => (unitCond r).map (d && ·)
  | .split _ _ _ :: _ => none

mutual
/-- `DefaultOp`: primitives and vectors (`pj/llvm_gen2.cpp` 1028-1058), other types by transcoding
from an empty source (`pj/generate_ir.cpp` 1159-1192), which is inlined here: a struct without
fields makes every field default (371-385), a variant without terms always takes the default
block (452-461, `pj/llvm_gen2.cpp` 549-554), an array of length 0 defaults every element
(552-562). -/
def dflt (E : Env) : Ty → Handlers → Nat → St → Res
  | .int w _ _, _, da, st => if w = 0 then .ub else .ok (st.store da w 0)
  | .float w _, _, da, st => if w = 4 ∨ w = 8 then .ok (st.store da w (qNaN w)) else .ub
  | .unit, _, _, st => .ok st
  | .struct fs sz _, hs, da, st =>
    (dfltFields E fs true hs da (st.poison E.J da sz)).bind (dfltFields E fs false hs da)
  | .variant ts l, hs, da, st =>
    match handlerMap hs with
    | none => .ub
    | some hm => dfltAt E ts l l.dflt hm da st
  | .array e n esz _, _, da, st =>
    loop (fun i s => keepBuf s (dflt E e [] (elemAt da esz i) s)) n 0 st
  | .vector _ l, _, da, st => storeLength l da 0 st
/-- The fields of a defaulted struct; `out` selects the fields containing the outline variant,
which come first (332-348). -/
def dfltFields (E : Env) : Fields → Bool → Handlers → Nat → St → Res
  | .nil, _, _, _, st => .ok st
  | .cons c off t r, out, hs, da, st =>
    (if t.hasOut = out then keepBuf st (dflt E t (hs.into c) (da + off) st) else .ok st).bind
      (dfltFields E r out hs da)
/-- `transcodeTerm` for the default term number `i` and a `Unit` source. -/
def dfltAt (E : Env) : Terms → VarL → Nat → List (Comp × Nat) → Nat → St → Res
  | .nil, _, _, _, _, _ => .ub
  | .cons n g as t _, l, 0, hm, da, st =>
    Res.bind (match unitCond as with
      | none => .ub
      | some false => .ok st
      | some true =>
        (beginTerm l da g t.size st).bind fun st => keepBuf st (dflt E t [] (da + l.termOff) st))
      (setCb hm n)
  | .cons _ _ _ _ r, l, i + 1, hm, da, st => dfltAt E r l i hm da st
end

/-- The source term the path or the tag selects: name, type and address of the payload. -/
def Terms.hasName (ts : Terms) (c : Comp) : Bool := ts.toList.any fun t => t.name == c

/-- The fast path is chosen for two enums (`pj/generate_ir.cpp` 1104-1121). -/
def enumFast (dts sts : Terms) (dl sl : VarL) : Bool :=
  (!dl.outline && !sl.outline && dts.isEnum && sts.isEnum) &&
  ((sts.toList.map fun t => (t.name, t.tag)) == (dts.toList.map fun t => (t.name, t.tag)) ||
   decide ((sts.toList.map (·.tag)).foldl max 0 ≤ 4 * sts.toList.length))

/-- What `CopyTagOp` sees of a variant type. -/
def enumTy (ts : Terms) (l : VarL) : EnumTy :=
  { terms := ts.toList.map fun t => (t.name, t.tag), dflt := l.dflt, tagW := l.tagW }

/-- `CopyTagOp` (`pj/llvm_gen2.cpp` 445-542). -/
def xEnum (E : Env) (dts sts : Terms) (dl sl : VarL) (sa da : Nat) (st : St) : Res :=
  if sl.tagW = 0 ∨ dl.tagW = 0 then .ub else
  match copyTag (enumTy sts sl) (enumTy dts dl) (readN E.S (sa + sl.tagOff) sl.tagW) with
  | none => .ub
  | some g => .ok (st.store (da + dl.tagOff) dl.tagW g)

/-- The branch taken by the generic variant code: the source term, `none` for the default block
(`pj/generate_ir.cpp` 428-491).  Outer `none`: undefined behaviour. -/
def selectTerm (S : Mem) (sts : Terms) (sl : VarL) (path : Path) (sa : Nat) :
    Option (Option Term) :=
  match path with
  | c :: _ =>
    match sts.toList.find? (fun t => t.name == c) with
    | some t => some (some t)
    | none => none
  | [] =>
    match sts with
    | .nil => some none
    | _ =>
      if sl.tagW = 0 then none
      else some (matchTag (sts.toList.map fun t => (t.tag, some t)) none
        (readN S (sa + sl.tagOff) sl.tagW))

mutual
/-- `TranscodeOpLowering` (`pj/generate_ir.cpp` 1068-1148): arguments are destination type, source
type, `path`, `handlers`, source and destination address.  A combination of kinds without a
function is a call of a null function. -/
def xcode (E : Env) : Ty → Ty → Path → Handlers → Nat → Nat → St → Res
  | .unit, _, _, _, _, _, st => .ok st
  | .int dw ds dal, src, _, hs, sa, da, st =>
    match src with
    | .unit => keepBuf st (dflt E (.int dw ds dal) hs da st)
    | .int sw ss _ =>
      if sw = 0 ∨ dw = 0 then .ub else .ok (st.store da dw (convInt sw ss dw (readN E.S sa sw)))
    | _ => .ub
  | .float dw dal, src, _, hs, sa, da, st =>
    match src with
    | .unit => keepBuf st (dflt E (.float dw dal) hs da st)
    | .float sw _ =>
      if (sw = 4 ∨ sw = 8) ∧ (dw = 4 ∨ dw = 8) then
        .ok (st.store da dw (if sw = dw then readN E.S sa sw else E.fconv sw dw (readN E.S sa sw)))
      else .ub
    | _ => .ub
  | .struct dfs dsz dal, src, path, hs, sa, da, st =>
    match src with
    | .unit => keepBuf st (dflt E (.struct dfs dsz dal) hs da st)
    | .struct sfs _ _ =>
      (xFields E dfs true sfs path hs sa da (st.poison E.J da dsz)).bind
        (xFields E dfs false sfs path hs sa da)
    | _ => .ub
  | .variant dts dl, src, path, hs, sa, da, st =>
    match src with
    | .unit => keepBuf st (dflt E (.variant dts dl) hs da st)
    | .variant sts sl =>
      if enumFast dts sts dl sl then xEnum E dts sts dl sl sa da st
      else
        match handlerMap hs with
        | none => .ub
        | some hm =>
          match selectTerm E.S sts sl path sa with
          | none => .ub
          | some none => xAt E dts dl dl.dflt .unit hm (sa + sl.termOff) da st
          | some (some t) =>
            if dts.hasName t.name then
              (xNamed E dts dl t.name t.ty (sa + sl.termOff) da st).bind (setCb hm t.name)
            else xAt E dts dl dl.dflt t.ty hm (sa + sl.termOff) da st
    | _ => .ub
  | .array de dn desz dal, src, _, hs, sa, da, st =>
    match src with
    | .unit => keepBuf st (dflt E (.array de dn desz dal) hs da st)
    | .array se sn sesz _ =>
      (loop (fun i => xcode E de se [] [] (elemAt sa sesz i) (elemAt da desz i))
        (min sn dn) 0 st).bind
      (loop (fun i s => keepBuf s (dflt E de [] (elemAt da desz i) s)) (dn - min sn dn) (min sn dn))
    | _ => .ub
  | .vector de dl, src, _, hs, sa, da, st =>
    match src with
    | .unit => keepBuf st (dflt E (.vector de dl) hs da st)
    | .vector se sl => xVector E (xcode E de se [] []) de.size de.align dl sl sa da st
    | _ => .ub
/-- The loop over `to_fields` (`pj/generate_ir.cpp` 332-386): the fields with `hasOut = out`. -/
def xFields (E : Env) : Fields → Bool → Fields → Path → Handlers → Nat → Nat → St → Res
  | .nil, _, _, _, _, _, _, st => .ok st
  | .cons c off t r, out, sfs, path, hs, sa, da, st =>
    (if t.hasOut = out then
      match sfs.findLast c with
      | some (so, sty) => xcode E t sty (path.into c) (hs.into c) (sa + so) (da + off) st
      | none => keepBuf st (dflt E t (hs.into c) (da + off) st)
    else .ok st).bind
    (xFields E r out sfs path hs sa da)
/-- The if-chain of `transcodeTerm` over the destination terms of a name
(`pj/generate_ir.cpp` 254-293); when no condition holds nothing is written. -/
def xNamed (E : Env) : Terms → VarL → Comp → Ty → Nat → Nat → St → Res
  | .nil, _, _, _, _, _, st => .ok st
  | .cons n g as t r, l, c, sty, sa, da, st =>
    if n = c then
      match termCond E.S sty sa as with
      | none => .ub
      | some true =>
        (beginTerm l da g t.size st).bind (xcode E t sty [] [] sa (da + l.termOff))
      | some false => xNamed E r l c sty sa da st
    else xNamed E r l c sty sa da st
/-- `transcodeTerm` with the single destination term number `i` (the default term). -/
def xAt (E : Env) : Terms → VarL → Nat → Ty → List (Comp × Nat) → Nat → Nat → St → Res
  | .nil, _, _, _, _, _, _, _ => .ub
  | .cons n g as t _, l, 0, sty, hm, sa, da, st =>
    Res.bind (match termCond E.S sty sa as with
      | none => .ub
      | some false => .ok st
      | some true =>
        (beginTerm l da g t.size st).bind (xcode E t sty [] [] sa (da + l.termOff)))
      (setCb hm n)
  | .cons _ _ _ _ r, l, i + 1, sty, hm, sa, da, st => xAt E r l i sty hm sa da st
end

end PJ
