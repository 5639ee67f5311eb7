import Verif.Model.Codec
/-!
# Binary compatibility

Models `isBinaryCompatibleWith` (`pj/types.cpp` 76-153, `pj/types.hpp` 55, 111-113, 211,
`pj/type_support.hpp` 163-166, 232-235, `PJIsBinaryCompatible` in `pj/runtime.cpp` 313-315).  `Any` and
nested protocols are not part of `Ty`.
-/
namespace PJ

/-- Removes the first element for which `p` holds (`std::find_if` and `erase`, 84-89). -/
def takeFirst {α} (p : α → Bool) : List α → Option (List α)
  | [] => none
  | x :: l => if p x then some l else (takeFirst p l).map (x :: ·)

/-- `isBinaryCompatible(ArrayRef<T>, ArrayRef<T>)` for attributes (77-93 with `std::equal_to`). -/
def sameAttrs (a b : List Attr) : Bool :=
  a.length == b.length && go a b
where
  go : List Attr → List Attr → Bool
    | [], _ => true
    | x :: a, b =>
      match takeFirst (fun y => x == y) b with
      | some b' => go a b'
      | none => false

/-- What `Vector::isBinaryCompatibleWith` compares besides the element (135-143). -/
def sameVecL (a b : VecL) : Bool :=
  a.minLen == b.minLen && a.maxLen == b.maxLen && a.ppl == b.ppl && a.lenOff == b.lenOff &&
  a.lenSize == b.lenSize && a.refOff == b.refOff && a.refSize == b.refSize && a.mode == b.mode &&
  a.inlOff == b.inlOff && a.parOff == b.parOff

/-- What `InlineVariant::isBinaryCompatibleWith` (114-120) and `OutlineVariant::isBinaryCompatibleWith`
(122-128) compare besides the terms; the two kinds are different types. -/
def sameVarL (a b : VarL) : Bool :=
  if a.outline then
    b.outline && a.tagW == b.tagW && a.align == b.align && a.termOff == b.termOff && a.termAlign == b.termAlign
  else
    !b.outline && a.termOff == b.termOff && a.termSize == b.termSize && a.tagOff == b.tagOff &&
    a.tagW == b.tagW && a.size == b.size && a.align == b.align

mutual
/-- `ValueType::isBinaryCompatibleWith`. -/
def binCompat : Ty → Ty → Bool
  | .int w s al, b =>
    match b with
    | .int w' s' al' => w == w' && s == s' && al == al'
    | _ => false
  | .float w al, b =>
    match b with
    | .float w' al' => w == w' && al == al'
    | _ => false
  | .unit, _ => true
  | .struct fs sz al, b =>
    match b with
    | .struct gs sz' al' =>
      fs.toList.length == gs.toList.length && binFields fs gs.toList && sz == sz' && al == al'
    | _ => false
  | .variant ts l, b =>
    match b with
    | .variant us l' => ts.toList.length == us.toList.length && binTerms ts us.toList && sameVarL l l'
    | _ => false
  | .array e n esz al, b =>
    match b with
    | .array e' n' esz' al' => binCompat e e' && n == n' && esz == esz' && al == al'
    | _ => false
  | .vector e l, b =>
    match b with
    | .vector e' l' => binCompat e e' && sameVecL l l'
    | _ => false
/-- The loop over the fields (83-92, 96-103). -/
def binFields : Fields → List (Comp × Nat × Ty) → Bool
  | .nil, _ => true
  | .cons n o t r, gs =>
    match takeFirst (fun g => binCompat t g.2.2 && n == g.1 && o == g.2.1) gs with
    | some gs' => binFields r gs'
    | none => false
/-- The loop over the terms (83-92, 107-112).  The type of the term is compared with itself (109). -/
def binTerms : Terms → List Term → Bool
  | .nil, _ => true
  | .cons n g as t r, us =>
    match takeFirst (fun u => n == u.name && binCompat t t && g == u.tag && sameAttrs as u.attrs) us with
    | some us' => binTerms r us'
    | none => false
end

/-- `Protocol::isBinaryCompatibleWith` (150-153). -/
def Proto.binCompat (p q : Proto) : Bool := PJ.binCompat p.head q.head && p.bufOff == q.bufOff

end PJ
