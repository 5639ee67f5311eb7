import Verif.Spec.Value
/-!
# Out-of-line data

How many bytes of buffer the out-of-line part of a value takes: `fin t v p` is the first free address
after a value converted from `v` has been stored as a `t` with its out-of-line data placed from
address `p` on.  Only the lengths of vectors, the chosen terms and the layout numbers of `t` matter.
-/
namespace PJ

/-- The first multiple of `al` not below `p`. -/
def alignUp (p al : Nat) : Nat := (p + al - 1) / al * al

mutual
def fin : Ty → Val → Nat → Nat
  | .unit, _, p => p
  | .int _ _ _, _, p => p
  | .float _ _, _, p => p
  | .struct fs _ _, v, p =>
    match v with
    | .struct vs => finFields fs false vs (finFields fs true vs p)
    | _ => p
  | .variant ts l, v, p =>
    match v with
    | .variant c x => if ts.hasName c then finNamed ts l c x p else finAt ts l l.dflt x p
    | _ => p
  | .array e n _ _, v, p =>
    match v with
    | .arr xs => (xs.take n).foldl (fun p x => fin e x p) p
    | _ => p
  | .vector e l, v, p =>
    match v with
    | .vec xs =>
      (cutTo l.maxLen xs).foldl (fun p x => fin e x p)
        (if l.isInl (cutTo l.maxLen xs).length then p
         else alignUp p e.align + l.elemW * ((cutTo l.maxLen xs).length - l.ppl))
    | _ => p
/-- The fields containing an outlined variant (`out = true`), or the others. -/
def finFields : Fields → Bool → List (Comp × Val) → Nat → Nat
  | .nil, _, _, p => p
  | .cons c _ t r, out, vs, p =>
    finFields r out vs
      (if t.hasOut = out then (match vs.lookup c with | some v => fin t v p | none => p) else p)
def finNamed : Terms → VarL → Comp → Val → Nat → Nat
  | .nil, _, _, _, p => p
  | .cons n _ as t r, l, c, v, p =>
    if n = c then
      match attrsAllow v as with
      | some true => fin t v (if l.outline then p + t.size else p)
      | some false => finNamed r l c v p
      | none => p
    else finNamed r l c v p
def finAt : Terms → VarL → Nat → Val → Nat → Nat
  | .nil, _, _, _, p => p
  | .cons _ _ as t _, l, 0, v, p =>
    match attrsAllow v as with
    | some true => fin t v (if l.outline then p + t.size else p)
    | _ => p
  | .cons _ _ _ _ r, l, i + 1, v, p => finAt r l i v p
end

end PJ
