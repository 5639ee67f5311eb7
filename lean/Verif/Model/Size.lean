import Verif.Model.Xcode
/-!
# The generated size functions

Models `pj/sizing.cpp` (`GenSizeFunctionsPass`) and `SizeFunctionLowering`
(`pj/generate_ir.cpp` 1013-1054), `SizeOpLowering` (`pj/llvm_gen2.cpp` 1082-1115).

The size function runs clones of the transcode functions on a dummy buffer, which is a 64-bit counter
starting at 0 (`AllocateOp` on a dummy buffer adds, `pj/llvm_gen2.cpp` 797-798).  Only `AlignOp`s,
`AllocateOp`s and the control flow around them survive (`sizing.cpp` 103-130), so no store is
modelled here, and `assume`s without result are gone.  With `round_up` the length of a source vector
that has a maximum size is replaced by the maximum (`sizing.cpp` 84-101).
-/
namespace PJ

mutual
/-- `hasMaxSize` (`pj/types.hpp` 59, 117, 209, 252, 357-361, 406-410, 618, 765, 843;
`pj/types.cpp` 18-20). -/
def Ty.hasMax : Ty → Bool
  | .int _ _ _ => true
  | .float _ _ => true
  | .unit => true
  | .struct fs _ _ => fs.hasMax
  | .variant _ _ => false
  | .array e _ _ _ => e.hasMax
  | .vector e l => l.maxLen.isSome && e.hasMax
def Fields.hasMax : Fields → Bool
  | .nil => true
  | .cons _ _ t r => t.hasMax && r.hasMax
end

/-- `LengthOp` of a vector in a size function. -/
def szLength (ru : Bool) (S : Mem) (e : Ty) (l : VecL) (a : Nat) : Option Nat :=
  match l.maxLen with
  | some m => if ru && e.hasMax then some m else lengthOp S l a
  | none => lengthOp S l a

/-- `projectPath` with the cast to a vector type, keeping the element type. -/
def szProj : Ty → Nat → Path → Option (Ty × VecL × Nat)
  | _, _, [] => none
  | .vector e l, a, [_] => some (e, l, a)
  | .struct fs _ _, a, c :: c' :: p =>
    match fs.find c with
    | some (o, t) => szProj t (a + o) (c' :: p)
    | none => none
  | _, _, _ => none

/-- `generateTermCondition` in a size function. -/
def szCond (ru : Bool) (S : Mem) (sty : Ty) (sa : Nat) : List Attr → Option Bool
  | [] => some true
  | .undef d :: r => (szCond ru S sty sa r).map (d && ·)
  | .split inl n p :: r =>
    match szProj sty sa p with
    | none => none
    | some (e, l, a) =>
      match szLength ru S e l a with
      | none => none
      | some len =>
        (szCond ru S sty sa r).map ((if inl then decide (len ≤ n) else decide (n < len)) && ·)

/-- `AllocateOp` on a dummy buffer. -/
def szAlloc (c n : Nat) : Nat := (c + n) % W64

/-- `AlignOp` on a dummy buffer. -/
def szAlign (c al : Nat) : Option Nat :=
  if al = 1 then some c
  else if al = 2 ∨ al = 4 ∨ al = 8 then some (szAlloc c (alignDiff c al))
  else none

def szLoop (body : Nat → Nat → Option Nat) : Nat → Nat → Nat → Option Nat
  | 0, _, c => some c
  | n + 1, i, c => (body i c).bind (szLoop body n (i + 1))

/-- `generateVectorCopyLoop` in a size function. -/
def szCopy (f : Nat → Nat → Option Nat) (ss sw si n c : Nat) : Option Nat :=
  szLoop (fun i => f (elemAt ss sw (si + i))) (loopCount n) 0 c

def szInlineVec (f : Nat → Nat → Option Nat) (deal : Nat) (dl sl : VecL) (sa copy c : Nat) :
    Option Nat :=
  if dl.isInl copy then szCopy f (sa + sl.inlOff) sl.elemW 0 copy c
  else
    (szAlign c deal).bind fun c =>
    (szCopy f (sa + sl.inlOff) sl.elemW 0 dl.ppl
      (szAlloc c (dl.elemW * sub64 copy dl.ppl))).bind fun c =>
    szCopy f (sa + sl.inlOff) sl.elemW dl.ppl (sub64 copy dl.ppl) c

def szOutlineVec (S : Mem) (f : Nat → Nat → Option Nat) (deal : Nat) (dl sl : VecL)
    (sa copy c : Nat) : Option Nat :=
  if dl.isInl copy then
    (szCopy f (sa + sl.parOff) sl.elemW 0 (min sl.ppl dl.maxBound) c).bind fun c =>
    szCopy f (refStart S sl sa) sl.elemW 0 (sub64 copy (min sl.ppl dl.maxBound)) c
  else
    (szAlign c deal).bind fun c =>
    if sl.ppl ≤ dl.ppl then
      (szCopy f (sa + sl.parOff) sl.elemW 0 sl.ppl
        (szAlloc c (dl.elemW * sub64 copy dl.ppl))).bind fun c =>
      (szCopy f (refStart S sl sa) sl.elemW 0 (dl.ppl - sl.ppl) c).bind fun c =>
      szCopy f (refStart S sl sa) sl.elemW (dl.ppl - sl.ppl) (sub64 copy dl.ppl) c
    else
      (szCopy f (sa + sl.parOff) sl.elemW 0 dl.ppl
        (szAlloc c (dl.elemW * sub64 copy dl.ppl))).bind fun c =>
      (szCopy f (sa + sl.parOff) sl.elemW dl.ppl (sl.ppl - dl.ppl) c).bind fun c =>
      szCopy f (refStart S sl sa) sl.elemW 0 (sub64 copy sl.ppl) c

/-- The vector function; `len` is the result of the `LengthOp`. -/
def szVector (S : Mem) (f : Nat → Nat → Option Nat) (deal : Nat) (dl sl : VecL) (len : Option Nat)
    (sa c : Nat) : Option Nat :=
  match len with
  | none => none
  | some n =>
    if sl.isInl n then szInlineVec f deal dl sl sa (copyLength dl n) c
    else szOutlineVec S f deal dl sl sa (copyLength dl n) c

mutual
/-- The size clone of `TranscodeOp`; arguments are destination type, source type, path, source
address and the counter. -/
def szX (ru : Bool) (S : Mem) : Ty → Ty → Path → Nat → Nat → Option Nat
  | .unit, _, _, _, c => some c
  | .int _ _ _, src, _, _, c =>
    match src with
    | .unit => some c
    | .int _ _ _ => some c
    | _ => none
  | .float _ _, src, _, _, c =>
    match src with
    | .unit => some c
    | .float _ _ => some c
    | _ => none
  | .struct dfs _ _, src, path, sa, c =>
    match src with
    | .unit => some c
    | .struct sfs _ _ =>
      (szFields ru S dfs true sfs path sa c).bind (szFields ru S dfs false sfs path sa)
    | _ => none
  | .variant dts dl, src, path, sa, c =>
    match src with
    | .unit => some c
    | .variant sts sl =>
      if enumFast dts sts dl sl then some c
      else
        match selectTerm S sts sl path sa with
        | none => none
        | some none => szAt ru S dts dl dl.dflt .unit (sa + sl.termOff) c
        | some (some t) =>
          if dts.hasName t.name then szNamed ru S dts dl t.name t.ty (sa + sl.termOff) c
          else szAt ru S dts dl dl.dflt t.ty (sa + sl.termOff) c
    | _ => none
  | .array de dn _ _, src, _, sa, c =>
    match src with
    | .unit => some c
    | .array se sn sesz _ =>
      szLoop (fun i => szX ru S de se [] (elemAt sa sesz i)) (min sn dn) 0 c
    | _ => none
  | .vector de dl, src, _, sa, c =>
    match src with
    | .unit => some c
    | .vector se sl =>
      szVector S (szX ru S de se []) de.align dl sl (szLength ru S se sl sa) sa c
    | _ => none
def szFields (ru : Bool) (S : Mem) : Fields → Bool → Fields → Path → Nat → Nat → Option Nat
  | .nil, _, _, _, _, c => some c
  | .cons n _ t r, out, sfs, path, sa, c =>
    (if t.hasOut = out then
      match sfs.findLast n with
      | some (so, sty) => szX ru S t sty (path.into n) (sa + so) c
      | none => some c
    else some c).bind
    (szFields ru S r out sfs path sa)
def szNamed (ru : Bool) (S : Mem) : Terms → VarL → Comp → Ty → Nat → Nat → Option Nat
  | .nil, _, _, _, _, c => some c
  | .cons n _ as t r, l, nm, sty, sa, c =>
    if n = nm then
      match szCond ru S sty sa as with
      | none => none
      | some true => szX ru S t sty [] sa (if l.outline then szAlloc c t.size else c)
      | some false => szNamed ru S r l nm sty sa c
    else szNamed ru S r l nm sty sa c
def szAt (ru : Bool) (S : Mem) : Terms → VarL → Nat → Ty → Nat → Nat → Option Nat
  | .nil, _, _, _, _, _ => none
  | .cons _ _ as t _, l, 0, sty, sa, c =>
    match szCond ru S sty sa as with
    | none => none
    | some false => some c
    | some true => szX ru S t sty [] sa (if l.outline then szAlloc c t.size else c)
  | .cons _ _ _ _ r, l, i + 1, sty, sa, c => szAt ru S r l i sty sa c
end

end PJ
