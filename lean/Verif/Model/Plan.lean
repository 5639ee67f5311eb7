import Verif.Model.Codec
import Verif.Model.Intern
import Verif.Model.TagWidth
/-!
# Planning a protocol

Models `plan_protocol` (`pj/plan.cpp` 62-107): `VariantOutlining` and
`OutlineVariantOffsetGeneration` (`pj/variant_outlining.cpp`), `VectorHoisting`
(`pj/vector_hoisting.cpp`) and `WireLayout` (`pj/wire_layout.cpp`).  `ConvertInternal`
(`pj/convert_internal.cpp`) only changes the domain of nominal types, which `Ty` does not have.

Simplifications: types are trees.  The source rewrites nominal types in place, so that a change to a
struct or variant shows up at every other place that uses it; here only the place itself is changed
(see `Model/Nominal.lean` for the difference).  Sizes are unbounded natural numbers.
-/
namespace PJ

/-! ## Variant outlining -/

/-- The `OutlineVariant` before `WireLayout` (`pj/variant_outlining.cpp` 28-33); `Width::None()` is
written 0. -/
def outlineL (dflt tagW : Nat) : VarL :=
  { outline := true, dflt := dflt, termOff := 0, termSize := 0, tagOff := 0, tagW := tagW, size := tagW,
    align := 0, termAlign := 0 }

mutual
/-- `VariantOutlining::tryOutlineVariant` (`pj/variant_outlining.cpp` 8-48). -/
def tryOutline : Ty → Path → Option Ty
  | .variant ts l, path =>
    if path = [] ∨ l.outline then none
    else some (.variant ts (outlineL l.dflt l.tagW))
  | .struct fs sz al, path =>
    if path = [] then none
    else
      match tryOutlineFields fs path with
      | some fs' => some (.struct fs' sz al)
      | none => none
  | _, _ => none
/-- The loop over the fields (38-44). -/
def tryOutlineFields : Fields → Path → Option Fields
  | .nil, _ => none
  | .cons n o t r, path =>
    match tryOutline t (path.into n) with
    | some t' => some (.cons n o t' r)
    | none =>
      match tryOutlineFields r path with
      | some r' => some (.cons n o t r')
      | none => none
end

/-! ## Vector hoisting -/

/-- `VectorHoisting::Split` (`pj/vector_hoisting.hpp` 46-51). -/
structure Split where
  len : Nat
  short : Ty
  long : Ty
  path : Path

/-- A `Vector` of which only lengths and element width are given (`pj/vector_hoisting.cpp` 22-29,
32-39); `WireLayout` fills in the rest. -/
def bareVec (e : Ty) (maxLen : Option Nat) (wireMin : Nat) : VecL :=
  { minLen := 0, maxLen := maxLen, wireMin := wireMin, ppl := 0, lenOff := 0, lenSize := 0, refOff := 0,
    refSize := 0, mode := .offset, inlOff := 0, parOff := 0, elemW := roundUp e.size e.align, size := 0,
    align := 0 }

mutual
/-- `splitFirstEligibleVector` (`pj/vector_hoisting.cpp` 11-83). -/
def splitFirst : Ty → Option Split
  | .vector e l =>
    if l.wireMin = 0 ∨ l.maxLen = some l.wireMin then none
    else some
      { len := l.wireMin
        short := .vector e (bareVec e (some l.wireMin) l.wireMin)
        long := .vector e (bareVec e l.maxLen 0)
        path := [['_']] }
  | .struct fs sz al =>
    match splitFields fs with
    | some (n, short, long, path) =>
      some { len := n, short := .struct short sz al, long := .struct long sz al, path := path }
    | none => none
  | _ => none
/-- The loop over the fields with `get_struct` (41-79): inline length, fields of the short and of the
long struct, path. -/
def splitFields : Fields → Option (Nat × Fields × Fields × Path)
  | .nil => none
  | .cons n o t r =>
    match splitFirst t with
    | some s => some (s.len, .cons n o s.short r, .cons n o s.long r, Path.expand s.path n)
    | none =>
      match splitFields r with
      | some (k, short, long, path) => some (k, .cons n o t short, .cons n o t long, path)
      | none => none
end

/-- The smallest tag from 1 on that is not used (103-107). -/
def freeTagFrom (tags : List Nat) : Nat → Nat → Nat
  | 0, g => g
  | n + 1, g => if g ∈ tags then freeTagFrom tags n (g + 1) else g

def freeTag (tags : List Nat) : Nat := freeTagFrom tags tags.length 1

/-- The loop over the terms (92-129): the terms with the long version in place, and the short
version. -/
def splitTerms (tag : Nat) : List Term → Option (List Term × Term)
  | [] => none
  | t :: r =>
    match splitFirst t.ty with
    | some s =>
      some ({ t with ty := s.long, attrs := t.attrs ++ [.split false s.len s.path] } :: r,
        { t with ty := s.short, tag := tag, attrs := t.attrs ++ [.split true s.len s.path] })
    | none =>
      match splitTerms tag r with
      | some (l, s) => some (t :: l, s)
      | none => none

/-- The bytes of a name (identifiers are ASCII). -/
def nameBytes (n : Comp) : Str := n.map Char.toNat

/-- `setTypeData` of a variant interns the terms: they are sorted by name and the default index follows
(`pj/types.hpp` 426-469, `Model/Intern.lean`). -/
def internTerms (ts : List Term) (dflt : Nat) : List Term × Nat :=
  let r := internVariant (fun t : Term => t.ty.size == 0) (ts.map fun t => (nameBytes t.name, t)) dflt
  (r.1.map (·.2), r.2.1)

/-- `hoistVectors` (85-151): `none` if there is nothing to split. -/
def hoistOnce (x : List Term × Nat) : Option (List Term × Nat) :=
  match splitTerms (freeTag (x.1.map (·.tag))) x.1 with
  | some (l, s) => some (internTerms (l ++ [s]) x.2)
  | none => none

/-- `while (hoistVectors(var))` (155-157), at most `n` rounds. -/
def hoistN : Nat → List Term × Nat → List Term × Nat
  | 0, x => x
  | n + 1, x =>
    match hoistOnce x with
    | some y => hoistN n y
    | none => x

mutual
/-- The number of vectors that can be split. -/
def eligible : Ty → Nat
  | .vector _ l => if l.wireMin = 0 ∨ l.maxLen = some l.wireMin then 0 else 1
  | .struct fs _ _ => eligibleFields fs
  | _ => 0
def eligibleFields : Fields → Nat
  | .nil => 0
  | .cons _ _ t r => eligible t + eligibleFields r
end

/-- An upper bound for the number of rounds. -/
def rounds (ts : List Term) : Nat := (ts.map fun t => 2 ^ eligible t.ty - 1).sum

/-- The loop with as many rounds as it needs (`C18_terminates`). -/
def hoist (x : List Term × Nat) : List Term × Nat := hoistN (rounds x.1) x

mutual
/-- `findVariantAndHoist` (153-170): the first variant reached through struct fields. -/
def findHoist : Ty → Option Ty
  | .variant ts l =>
    let h := hoist (ts.toList, l.dflt)
    some (.variant (Terms.ofList h.1) { l with dflt := h.2 })
  | .struct fs sz al =>
    match findHoistFields fs with
    | some fs' => some (.struct fs' sz al)
    | none => none
  | _ => none
def findHoistFields : Fields → Option Fields
  | .nil => none
  | .cons n o t r =>
    match findHoist t with
    | some t' => some (.cons n o t' r)
    | none =>
      match findHoistFields r with
      | some r' => some (.cons n o t r')
      | none => none
end

/-! ## Wire layout -/

/-- `WireLayout::visit(VectorType)` (`pj/wire_layout.cpp` 101-160) for an element of size `esz0` and
alignment `eal`. -/
def layoutVec (esz0 eal : Nat) (l : VecL) : VecL :=
  let esz := roundUp esz0 eal
  let lenSize := match l.maxLen with
    | some m => roundUpToPowerOfTwo (divideUp (log2Ceil (m + 1)) 8)
    | none => 8
  let refOff := lenSize
  let inlOff := roundUp lenSize eal
  let inlSize := esz * l.wireMin
  let parOff := roundUp (refOff + 8) eal
  let ppl := (inlOff + inlSize - parOff) / esz
  { minLen := l.wireMin, maxLen := l.maxLen, wireMin := l.wireMin, ppl := ppl, lenOff := 0,
    lenSize := lenSize, refOff := refOff, refSize := 8, mode := .offset, inlOff := inlOff,
    parOff := parOff, elemW := esz,
    size := max (inlOff + inlSize) (if ppl > 0 then parOff + esz * ppl else refOff + 8),
    align := if l.wireMin > 0 ∨ ppl > 0 then eal else 1 }

/-- `term_size` and `term_align` (`pj/wire_layout.cpp` 41-48). -/
def maxSize (ts : List Term) : Nat := ts.foldl (fun s t => max s t.ty.size) 0
def maxAlign (ts : List Term) : Nat := ts.foldl (fun a t => roundUp a t.ty.align) 1

/-- `WireLayout::visitVariant` (`pj/wire_layout.cpp` 40-82) for the laid out terms.  Interning sorts
terms that are sorted already. -/
def layoutVar (ts : List Term) (l : VarL) : VarL :=
  let tagW := (computeTagWidth (ts.map (·.tag))).getD 0
  if l.outline then
    { outline := true, dflt := l.dflt, termOff := 0, termSize := 0, tagOff := 0, tagW := tagW,
      size := tagW, align := 1, termAlign := maxAlign ts }
  else
    { outline := false, dflt := l.dflt, termOff := 0, termSize := maxSize ts,
      tagOff := roundUp (0 + maxSize ts) 1, tagW := tagW, size := roundUp (0 + maxSize ts) 1 + tagW,
      align := max (maxAlign ts) 1, termAlign := 0 }

mutual
/-- `WireLayout::visit` (`pj/wire_layout.cpp` 7-160). -/
def layout : Ty → Ty
  | .int w s _ => .int w s 1
  | .float w _ => .float w 1
  | .unit => .unit
  | .struct fs _ _ =>
    let x := layoutFields fs 0 1
    .struct x.1 x.2.1 x.2.2
  | .variant ts l => .variant (layoutTerms ts) (layoutVar (layoutTerms ts).toList l)
  | .array e n _ _ => .array (layout e) n (roundUp (layout e).size (layout e).align) (layout e).align
  | .vector e l => .vector (layout e) (layoutVec (layout e).size (layout e).align l)
/-- The loop over the fields (24-32): fields, offset behind the last one, alignment. -/
def layoutFields : Fields → Nat → Nat → Fields × Nat × Nat
  | .nil, off, al => (.nil, off, al)
  | .cons n _ t r, off, al =>
    let o := roundUp off (layout t).align
    let x := layoutFields r (o + (layout t).size) (max al (layout t).align)
    (.cons n o (layout t) x.1, x.2)
def layoutTerms : Terms → Terms
  | .nil => .nil
  | .cons n g as t r => .cons n g as (layout t) (layoutTerms r)
end

mutual
/-- Planning has no undefined behaviour: no vector element of size 0 (`DivideDown` divides by it,
`pj/wire_layout.cpp` 125-128), no tag 2^64-1 (`compute_tag_width`, `pj/types.hpp` 493-502). -/
def Ty.planDef : Ty → Bool
  | .struct fs _ _ => fs.planDef
  | .variant ts _ => (computeTagWidth (ts.toList.map (·.tag))).isSome && ts.planDef
  | .array e _ _ _ => e.planDef
  | .vector e _ => (layout e).size != 0 && e.planDef
  | _ => true
def Fields.planDef : Fields → Bool
  | .nil => true
  | .cons _ _ t r => t.planDef && r.planDef
def Terms.planDef : Terms → Bool
  | .nil => true
  | .cons _ _ _ t r => t.planDef && r.planDef
end

/-! ## Offset of the outlined payload -/

/-- The offset of the first field, or else the size of the struct. -/
def Fields.nextOff : Fields → Nat → Nat
  | .nil, sz => sz
  | .cons _ o _ _, _ => o

mutual
/-- `OutlineVariantOffsetGeneration::run` (`pj/variant_outlining.cpp` 65-96) for a type with one outline
variant (`pj/types.cpp` 27-35 asserts that there are no two): what is added to `term_offset`, and the
alignment of the terms. -/
def outDist : Ty → Option (Nat × Nat)
  | .variant _ l => if l.outline then some (l.termOff + l.size, l.termAlign) else none
  | .struct fs sz _ => outDistFields fs sz
  | _ => none
def outDistFields : Fields → Nat → Option (Nat × Nat)
  | .nil, _ => none
  | .cons _ _ t r, sz =>
    match outDist t with
    | some (d, a) => some (d + (sz - r.nextOff sz), a)
    | none => outDistFields r sz
end

mutual
/-- `setTypeData` of the outline variant with another `term_offset` (58-63). -/
def setOut (d : Nat) : Ty → Ty
  | .variant ts l => if l.outline then .variant ts { l with termOff := d } else .variant ts l
  | .struct fs sz al => .struct (setOutFields d fs) sz al
  | t => t
def setOutFields (d : Nat) : Fields → Fields
  | .nil => .nil
  | .cons n o t r => .cons n o (setOut d t) (setOutFields d r)
end

/-- `OutlineVariantOffsetGeneration::run(Protocol&)` (98-117). -/
def genOffset (t : Ty) : Proto :=
  match outDist t with
  | none => { head := t, bufOff := 0 }
  | some (d, a) =>
    let diff := roundUp t.size a - t.size
    { head := setOut (d + diff) t, bufOff := diff }

/-- Type after `VariantOutlining` and `VectorHoisting` (`pj/plan.cpp` 76-86). -/
def prepare (t : Ty) (path : Path) : Ty :=
  let t1 := (tryOutline t path).getD t
  (findHoist t1).getD t1

/-- `plan_protocol` (`pj/plan.cpp` 62-107); `none`: undefined behaviour. -/
def plan (t : Ty) (path : Path) : Option Proto :=
  if (prepare t path).planDef then some (genOffset (layout (prepare t path))) else none

end PJ
