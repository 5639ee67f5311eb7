import Verif.Model.Size
/-!
# Unreduced sizes

`cost` is what the size functions count, as a natural number instead of a 64-bit word and without
alignment padding (wire types have none).  It is used to say that a size does not overflow 64 bits.
-/
namespace PJ

/-- The sum of `f i`, …, `f (i + n - 1)`. -/
def sumTo (f : Nat → Option Nat) : Nat → Nat → Option Nat
  | 0, _ => some 0
  | n + 1, i => (f i).bind fun a => (sumTo f n (i + 1)).map (a + ·)

def costCopy (f : Nat → Option Nat) (ss sw si n : Nat) : Option Nat :=
  sumTo (fun i => f (elemAt ss sw (si + i))) (loopCount n) 0

def plus (o : Option Nat) (o' : Option Nat) : Option Nat := o.bind fun a => o'.map (a + ·)

def costVec (S : Mem) (f : Nat → Option Nat) (dl sl : VecL) (len : Option Nat) (sa : Nat) :
    Option Nat :=
  match len with
  | none => none
  | some n =>
    let copy := copyLength dl n
    if sl.isInl n then
      if dl.isInl copy then costCopy f (sa + sl.inlOff) sl.elemW 0 copy
      else
        plus (some (dl.elemW * sub64 copy dl.ppl))
          (plus (costCopy f (sa + sl.inlOff) sl.elemW 0 dl.ppl)
            (costCopy f (sa + sl.inlOff) sl.elemW dl.ppl (sub64 copy dl.ppl)))
    else if dl.isInl copy then
      plus (costCopy f (sa + sl.parOff) sl.elemW 0 (min sl.ppl dl.maxBound))
        (costCopy f (refStart S sl sa) sl.elemW 0 (sub64 copy (min sl.ppl dl.maxBound)))
    else
      plus (some (dl.elemW * sub64 copy dl.ppl))
        (if sl.ppl ≤ dl.ppl then
          plus (costCopy f (sa + sl.parOff) sl.elemW 0 sl.ppl)
            (plus (costCopy f (refStart S sl sa) sl.elemW 0 (dl.ppl - sl.ppl))
              (costCopy f (refStart S sl sa) sl.elemW (dl.ppl - sl.ppl) (sub64 copy dl.ppl)))
        else
          plus (costCopy f (sa + sl.parOff) sl.elemW 0 dl.ppl)
            (plus (costCopy f (sa + sl.parOff) sl.elemW dl.ppl (sl.ppl - dl.ppl))
              (costCopy f (refStart S sl sa) sl.elemW 0 (sub64 copy sl.ppl))))

mutual
def cost (ru : Bool) (S : Mem) : Ty → Ty → Path → Nat → Option Nat
  | .unit, _, _, _ => some 0
  | .int _ _ _, src, _, _ =>
    match src with
    | .unit => some 0
    | .int _ _ _ => some 0
    | _ => none
  | .float _ _, src, _, _ =>
    match src with
    | .unit => some 0
    | .float _ _ => some 0
    | _ => none
  | .struct dfs _ _, src, path, sa =>
    match src with
    | .unit => some 0
    | .struct sfs _ _ =>
      plus (costFields ru S dfs true sfs path sa) (costFields ru S dfs false sfs path sa)
    | _ => none
  | .variant dts dl, src, path, sa =>
    match src with
    | .unit => some 0
    | .variant sts sl =>
      if enumFast dts sts dl sl then some 0
      else
        match selectTerm S sts sl path sa with
        | none => none
        | some none => costAt ru S dts dl dl.dflt .unit (sa + sl.termOff)
        | some (some t) =>
          if dts.hasName t.name then costNamed ru S dts dl t.name t.ty (sa + sl.termOff)
          else costAt ru S dts dl dl.dflt t.ty (sa + sl.termOff)
    | _ => none
  | .array de dn _ _, src, _, sa =>
    match src with
    | .unit => some 0
    | .array se sn sesz _ => sumTo (fun i => cost ru S de se [] (elemAt sa sesz i)) (min sn dn) 0
    | _ => none
  | .vector de dl, src, _, sa =>
    match src with
    | .unit => some 0
    | .vector se sl => costVec S (cost ru S de se []) dl sl (szLength ru S se sl sa) sa
    | _ => none
def costFields (ru : Bool) (S : Mem) : Fields → Bool → Fields → Path → Nat → Option Nat
  | .nil, _, _, _, _ => some 0
  | .cons n _ t r, out, sfs, path, sa =>
    plus (if t.hasOut = out then
        match sfs.findLast n with
        | some (so, sty) => cost ru S t sty (path.into n) (sa + so)
        | none => some 0
      else some 0)
      (costFields ru S r out sfs path sa)
def costNamed (ru : Bool) (S : Mem) : Terms → VarL → Comp → Ty → Nat → Option Nat
  | .nil, _, _, _, _ => some 0
  | .cons n _ as t r, l, nm, sty, sa =>
    if n = nm then
      match szCond ru S sty sa as with
      | none => none
      | some true => plus (some (if l.outline then t.size else 0)) (cost ru S t sty [] sa)
      | some false => costNamed ru S r l nm sty sa
    else costNamed ru S r l nm sty sa
def costAt (ru : Bool) (S : Mem) : Terms → VarL → Nat → Ty → Nat → Option Nat
  | .nil, _, _, _, _ => none
  | .cons _ _ as t _, l, 0, sty, sa =>
    match szCond ru S sty sa as with
    | none => none
    | some false => some 0
    | some true => plus (some (if l.outline then t.size else 0)) (cost ru S t sty [] sa)
  | .cons _ _ _ _ r, l, i + 1, sty, sa => costAt ru S r l i sty sa
end

end PJ
