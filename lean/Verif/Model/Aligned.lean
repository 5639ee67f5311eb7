import Verif.Model.Codec
/-!
# The generated code with the alignments LLVM is told

Every `load` and `store` of LLVM has an alignment, and is undefined behaviour at an address which is not a
multiple of it.  Models which alignment the lowering of each operation gives (`pj/llvm_gen2.cpp` 339-1058): the
loads and stores of integers and floats have the alignment of the described type (397, 422-423, 1041-1042), those
of tags, lengths and references are created without one (439, 463, 486, 512, 566, 704, 820, 841, 861, 874),
which makes the natural alignment of the loaded or stored integer type out of it.

The functions are those of `Xcode.lean` with a check before each load and store; where there is none they are the
same.  `Chk` says which accesses are checked: those to the source, those to the destination and its buffer, or both.

Simplification: a described alignment of 0, which LLVM would take as none, is not distinguished; a check with it
fails but for address 0.  The loads from the constant table of `CopyTagOp` (527) are not modelled: LLVM places the
table itself.
-/
namespace PJ

/-- The natural alignment of an integer type of `w` bytes on x86-64. -/
def natAlign (w : Nat) : Nat := if w ≤ 1 then 1 else if w ≤ 2 then 2 else if w ≤ 4 then 4 else 8

/-- Which accesses are checked. -/
structure Chk where
  src : Bool
  dst : Bool

/-- A load from `a`, told to be a multiple of `al`, before the rest. -/
def Chk.load (A : Chk) (a al : Nat) (r : Res) : Res := if A.src && decide (a % al ≠ 0) then .ub else r

/-- A store to `a`, told to be a multiple of `al`. -/
def Chk.store (A : Chk) (a al : Nat) (r : Res) : Res := if A.dst && decide (a % al ≠ 0) then .ub else r

/-- A load which decides how to go on. -/
def Chk.loadOpt {α : Type} (A : Chk) (a al : Nat) (r : Option α) : Option α :=
  if A.src && decide (a % al ≠ 0) then none else r

/-- `LengthOp` (`pj/llvm_gen2.cpp` 806-831): without a load if the maximal length is 0. -/
def aLengthOp (A : Chk) (S : Mem) (l : VecL) (a : Nat) : Option Nat :=
  if l.maxLen = some 0 then lengthOp S l a
  else A.loadOpt (a + l.lenOff) (natAlign l.lenSize) (lengthOp S l a)

/-- `StoreLengthOp` (`pj/llvm_gen2.cpp` 833-847). -/
def aStoreLength (A : Chk) (l : VecL) (da n : Nat) (st : St) : Res :=
  A.store (da + l.lenOff) (natAlign l.lenSize) (storeLength l da n st)

/-- `StoreRefOp` (`pj/llvm_gen2.cpp` 849-879). -/
def aStoreRef (A : Chk) (l : VecL) (da : Nat) (st : St) : Res :=
  A.store (da + l.refOff) (natAlign l.refSize) (storeRef l da st)

/-- One element of the loop of `generateVectorCopyLoop` whose source region is `Reference`: `VectorIndexOp` loads the
reference (`pj/llvm_gen2.cpp` 701-704) for each element. -/
def viaRef (A : Chk) (l : VecL) (a : Nat) (f : Nat → Nat → St → Res) : Nat → Nat → St → Res :=
  fun s d st => A.load (a + l.refOff) (natAlign l.refSize) (f s d st)

/-- `transcodeInlineVector` (`pj/generate_ir.cpp` 606-672). -/
def aInlineVec (A : Chk) (E : Env) (f : Nat → Nat → St → Res) (desz deal : Nat) (dl sl : VecL)
    (sa da copy : Nat) (st : St) : Res :=
  if ¬ copy ≤ sl.minLen then .ub
  else if dl.isInl copy then
    copyLoop f (sa + sl.inlOff) sl.elemW 0 (da + dl.inlOff) dl.elemW 0 copy
      (st.poison E.J (da + dl.inlOff) (desz * dl.minLen))
  else
    (alignTo st deal).bind fun sta =>
    (aStoreRef A dl da sta).bind fun st1 =>
    (alloc st1 (dl.elemW * sub64 copy dl.ppl)).bind fun st2 =>
    (copyLoop f (sa + sl.inlOff) sl.elemW 0 (da + dl.parOff) dl.elemW 0 dl.ppl st2).bind fun st3 =>
    copyLoop f (sa + sl.inlOff) sl.elemW dl.ppl sta.ptr dl.elemW 0 (sub64 copy dl.ppl) st3

/-- `transcodeOutlineVector` (`pj/generate_ir.cpp` 674-786). -/
def aOutlineVec (A : Chk) (E : Env) (f : Nat → Nat → St → Res) (desz deal : Nat) (dl sl : VecL)
    (sa da copy : Nat) (st : St) : Res :=
  if sl.minLen > 0 ∧ ¬ min (sl.minLen + 1) dl.maxBound ≤ copy then .ub
  else if dl.isInl copy then
    let n := min sl.ppl dl.maxBound
    (copyLoop f (sa + sl.parOff) sl.elemW 0 (da + dl.inlOff) dl.elemW 0 n
      (st.poison E.J (da + dl.inlOff) (desz * dl.minLen))).bind fun st1 =>
    copyLoop (viaRef A sl sa f) (refStart E.S sl sa) sl.elemW 0 (da + dl.inlOff) dl.elemW n (sub64 copy n) st1
  else
    (alignTo st deal).bind fun sta =>
    (aStoreRef A dl da sta).bind fun st1 =>
    (alloc st1 (dl.elemW * sub64 copy dl.ppl)).bind fun st2 =>
    if sl.ppl ≤ dl.ppl then
      (copyLoop f (sa + sl.parOff) sl.elemW 0 (da + dl.parOff) dl.elemW 0 sl.ppl st2).bind fun st3 =>
      (copyLoop (viaRef A sl sa f) (refStart E.S sl sa) sl.elemW 0 (da + dl.parOff) dl.elemW sl.ppl
        (dl.ppl - sl.ppl) st3).bind fun st4 =>
      copyLoop (viaRef A sl sa f) (refStart E.S sl sa) sl.elemW (dl.ppl - sl.ppl) sta.ptr dl.elemW 0
        (sub64 copy dl.ppl) st4
    else
      (copyLoop f (sa + sl.parOff) sl.elemW 0 (da + dl.parOff) dl.elemW 0 dl.ppl st2).bind fun st3 =>
      (copyLoop f (sa + sl.parOff) sl.elemW dl.ppl sta.ptr dl.elemW 0
        (sl.ppl - dl.ppl) st3).bind fun st4 =>
      copyLoop (viaRef A sl sa f) (refStart E.S sl sa) sl.elemW 0 sta.ptr dl.elemW (sl.ppl - dl.ppl)
        (sub64 copy sl.ppl) st4

/-- `getOrCreateVectorTranscodeFn` (`pj/generate_ir.cpp` 831-888). -/
def aVector (A : Chk) (E : Env) (f : Nat → Nat → St → Res) (desz deal : Nat) (dl sl : VecL)
    (sa da : Nat) (st : St) : Res :=
  match aLengthOp A E.S sl sa with
  | none => .ub
  | some n =>
    (aStoreLength A dl da (copyLength dl n) st).bind fun st =>
    if sl.isInl n then aInlineVec A E f desz deal dl sl sa da (copyLength dl n) st
    else aOutlineVec A E f desz deal dl sl sa da (copyLength dl n) st

/-- `generateTermCondition` (`pj/generate_ir.cpp` 211-236). -/
def aTermCond (A : Chk) (S : Mem) (sty : Ty) (sa : Nat) : List Attr → Option Bool
  | [] => some true
  | .undef d :: r => (aTermCond A S sty sa r).map (d && ·)
  | .split inl n p :: r =>
    match projVec sty sa p with
    | none => none
    | some (l, a) =>
      match aLengthOp A S l a with
      | none => none
      | some len => (aTermCond A S sty sa r).map ((if inl then decide (len ≤ n) else decide (n < len)) && ·)

/-- The then-branch of `transcodeTerm` before the payload (`pj/generate_ir.cpp` 266-279) with `TagOp`
(`pj/llvm_gen2.cpp` 429-443). -/
def aBeginTerm (A : Chk) (l : VarL) (da tag sz : Nat) (st : St) : Res :=
  A.store (da + l.tagOff) (natAlign l.tagW) (beginTerm l da tag sz st)

mutual
/-- `DefaultOp`: the stores of `pj/llvm_gen2.cpp` 1041-1042 and `StoreLengthOp` (1053). -/
def aDflt (A : Chk) (E : Env) : Ty → Handlers → Nat → St → Res
  | .int w s al, hs, da, st => A.store da al (dflt E (.int w s al) hs da st)
  | .float w al, hs, da, st => A.store da al (dflt E (.float w al) hs da st)
  | .unit, _, _, st => .ok st
  | .struct fs sz _, hs, da, st =>
    (aDfltFields A E fs true hs da (st.poison E.J da sz)).bind (aDfltFields A E fs false hs da)
  | .variant ts l, hs, da, st =>
    match handlerMap hs with
    | none => .ub
    | some hm => aDfltAt A E ts l l.dflt hm da st
  | .array e n esz _, _, da, st =>
    loop (fun i s => keepBuf s (aDflt A E e [] (elemAt da esz i) s)) n 0 st
  | .vector _ l, _, da, st => aStoreLength A l da 0 st
/-- The fields of a defaulted struct. -/
def aDfltFields (A : Chk) (E : Env) : Fields → Bool → Handlers → Nat → St → Res
  | .nil, _, _, _, st => .ok st
  | .cons c off t r, out, hs, da, st =>
    (if t.hasOut = out then keepBuf st (aDflt A E t (hs.into c) (da + off) st) else .ok st).bind
      (aDfltFields A E r out hs da)
/-- `transcodeTerm` for the default term number `i` and a `Unit` source. -/
def aDfltAt (A : Chk) (E : Env) : Terms → VarL → Nat → List (Comp × Nat) → Nat → St → Res
  | .nil, _, _, _, _, _ => .ub
  | .cons n g as t _, l, 0, hm, da, st =>
    Res.bind (match unitCond as with
      | none => .ub
      | some false => .ok st
      | some true =>
        (aBeginTerm A l da g t.size st).bind fun st => keepBuf st (aDflt A E t [] (da + l.termOff) st))
      (setCb hm n)
  | .cons _ _ _ _ r, l, i + 1, hm, da, st => aDfltAt A E r l i hm da st
end

/-- `CopyTagOp` (`pj/llvm_gen2.cpp` 463, 486, 512). -/
def aEnum (A : Chk) (E : Env) (dts sts : Terms) (dl sl : VarL) (sa da : Nat) (st : St) : Res :=
  A.load (sa + sl.tagOff) (natAlign sl.tagW)
    (A.store (da + dl.tagOff) (natAlign dl.tagW) (xEnum E dts sts dl sl sa da st))

/-- The branch of the generic variant code: `MatchOp` loads the tag (`pj/llvm_gen2.cpp` 566) unless the path tells
the term or there are no terms. -/
def aSelectTerm (A : Chk) (S : Mem) (sts : Terms) (sl : VarL) (path : Path) (sa : Nat) : Option (Option Term) :=
  match path with
  | _ :: _ => selectTerm S sts sl path sa
  | [] =>
    match sts with
    | .nil => selectTerm S .nil sl [] sa
    | sts => A.loadOpt (sa + sl.tagOff) (natAlign sl.tagW) (selectTerm S sts sl [] sa)

mutual
/-- `TranscodeOpLowering` (`pj/generate_ir.cpp` 1068-1148) with `TranscodePrimitiveOp` (`pj/llvm_gen2.cpp` 397,
422-423). -/
def aXcode (A : Chk) (E : Env) : Ty → Ty → Path → Handlers → Nat → Nat → St → Res
  | .unit, _, _, _, _, _, st => .ok st
  | .int dw ds dal, src, path, hs, sa, da, st =>
    match src with
    | .unit => keepBuf st (aDflt A E (.int dw ds dal) hs da st)
    | .int sw ss sal => A.load sa sal (A.store da dal (xcode E (.int dw ds dal) (.int sw ss sal) path hs sa da st))
    | _ => .ub
  | .float dw dal, src, path, hs, sa, da, st =>
    match src with
    | .unit => keepBuf st (aDflt A E (.float dw dal) hs da st)
    | .float sw sal => A.load sa sal (A.store da dal (xcode E (.float dw dal) (.float sw sal) path hs sa da st))
    | _ => .ub
  | .struct dfs dsz dal, src, path, hs, sa, da, st =>
    match src with
    | .unit => keepBuf st (aDflt A E (.struct dfs dsz dal) hs da st)
    | .struct sfs _ _ =>
      (aXFields A E dfs true sfs path hs sa da (st.poison E.J da dsz)).bind
        (aXFields A E dfs false sfs path hs sa da)
    | _ => .ub
  | .variant dts dl, src, path, hs, sa, da, st =>
    match src with
    | .unit => keepBuf st (aDflt A E (.variant dts dl) hs da st)
    | .variant sts sl =>
      if enumFast dts sts dl sl then aEnum A E dts sts dl sl sa da st
      else
        match handlerMap hs with
        | none => .ub
        | some hm =>
          match aSelectTerm A E.S sts sl path sa with
          | none => .ub
          | some none => aXAt A E dts dl dl.dflt .unit hm (sa + sl.termOff) da st
          | some (some t) =>
            if dts.hasName t.name then
              (aXNamed A E dts dl t.name t.ty (sa + sl.termOff) da st).bind (setCb hm t.name)
            else aXAt A E dts dl dl.dflt t.ty hm (sa + sl.termOff) da st
    | _ => .ub
  | .array de dn desz dal, src, _, hs, sa, da, st =>
    match src with
    | .unit => keepBuf st (aDflt A E (.array de dn desz dal) hs da st)
    | .array se sn sesz _ =>
      (loop (fun i => aXcode A E de se [] [] (elemAt sa sesz i) (elemAt da desz i))
        (min sn dn) 0 st).bind
      (loop (fun i s => keepBuf s (aDflt A E de [] (elemAt da desz i) s)) (dn - min sn dn) (min sn dn))
    | _ => .ub
  | .vector de dl, src, _, hs, sa, da, st =>
    match src with
    | .unit => keepBuf st (aDflt A E (.vector de dl) hs da st)
    | .vector se sl => aVector A E (aXcode A E de se [] []) de.size de.align dl sl sa da st
    | _ => .ub
/-- The loop over `to_fields` (`pj/generate_ir.cpp` 332-386). -/
def aXFields (A : Chk) (E : Env) : Fields → Bool → Fields → Path → Handlers → Nat → Nat → St → Res
  | .nil, _, _, _, _, _, _, st => .ok st
  | .cons c off t r, out, sfs, path, hs, sa, da, st =>
    (if t.hasOut = out then
      match sfs.findLast c with
      | some (so, sty) => aXcode A E t sty (path.into c) (hs.into c) (sa + so) (da + off) st
      | none => keepBuf st (aDflt A E t (hs.into c) (da + off) st)
    else .ok st).bind
    (aXFields A E r out sfs path hs sa da)
/-- The if-chain of `transcodeTerm` (`pj/generate_ir.cpp` 254-293). -/
def aXNamed (A : Chk) (E : Env) : Terms → VarL → Comp → Ty → Nat → Nat → St → Res
  | .nil, _, _, _, _, _, st => .ok st
  | .cons n g as t r, l, c, sty, sa, da, st =>
    if n = c then
      match aTermCond A E.S sty sa as with
      | none => .ub
      | some true =>
        (aBeginTerm A l da g t.size st).bind (aXcode A E t sty [] [] sa (da + l.termOff))
      | some false => aXNamed A E r l c sty sa da st
    else aXNamed A E r l c sty sa da st
/-- `transcodeTerm` with the single destination term number `i` (the default term). -/
def aXAt (A : Chk) (E : Env) : Terms → VarL → Nat → Ty → List (Comp × Nat) → Nat → Nat → St → Res
  | .nil, _, _, _, _, _, _, _ => .ub
  | .cons n g as t _, l, 0, sty, hm, sa, da, st =>
    Res.bind (match aTermCond A E.S sty sa as with
      | none => .ub
      | some false => .ok st
      | some true =>
        (aBeginTerm A l da g t.size st).bind (aXcode A E t sty [] [] sa (da + l.termOff)))
      (setCb hm n)
  | .cons _ _ _ _ r, l, i + 1, sty, hm, sa, da, st => aXAt A E r l i sty hm sa da st
end

/-- The encode function (`pj/generate_ir.cpp` 925-935). -/
def aEncode (A : Chk) (E : Env) (host : Ty) (p : Proto) (path : Path) (obj buf : Nat) (mem : Mem) : Res :=
  aXcode A E p.head host path [] obj buf
    { mem := mem, ptr := buf + p.head.size + p.bufOff, rem := none, cb := 0, used := 0 }

/-- The decode function (`pj/generate_ir.cpp` 937-1005). -/
def aDecode (A : Chk) (E : Env) (p : Proto) (host : Ty) (hs : Handlers) (msg obj buf cap : Nat) (mem : Mem) :
    Option Decoded :=
  match aXcode A E host p.head [] hs msg obj
    { mem := mem, ptr := buf, rem := some cap, cb := 0, used := 0 } with
  | .ok s => some { mem := s.mem, ptr := s.ptr, size := s.rem.getD 0, called := invoked s.cb }
  | .throw s => some { mem := s.mem, ptr := 0, size := W64 - 1, called := invoked s.cb }
  | .ub => none

end PJ
