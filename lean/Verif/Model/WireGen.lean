import Verif.Model.Codec
import Verif.Model.Plan
/-!
# Generated code of a wire protocol

Models what the code written by `SourceGenerator::addWireProtocol` (`pj/sourcegen.cpp` 289-320, option
`--gen-proto` of `pjc`) builds when it runs: `createTypeHandle` in the wire domain (143-229), `addStructBuilder`
(357-426), `addVariantBuilder` (569-659) and the functions of `pj/runtime.cpp` they call (100-290).

`none`: the generated code does not compile.

Simplification: the terms of a planned variant are sorted already, so that interning them once more keeps their
order; types are expanded to trees.
-/
namespace PJ

/-- The layout of a variant as `PJCreateInlineVariantType` and `PJCreateOutlineVariantType` get it
(`pj/sourcegen.cpp` 636-651). An outline variant has no members for the size of the terms and the place of the tag. -/
def rebuildVar (l : VarL) : VarL :=
  if l.outline then
    { outline := true, dflt := l.dflt, termOff := l.termOff, termSize := 0, tagOff := 0, tagW := l.tagW,
      size := l.tagW, align := l.align, termAlign := l.termAlign }
  else
    { outline := false, dflt := l.dflt, termOff := l.termOff, termSize := l.termSize, tagOff := l.tagOff,
      tagW := l.tagW, size := l.size, align := l.align, termAlign := 0 }

/-- `PJCreateVectorType` (`pj/sourcegen.cpp` 196-226, `pj/runtime.cpp` 235-267) with a rebuilt element of size `esz`
and alignment `eal`: `min_length` is handed over as `wire_min_length`, the width of the elements is computed. -/
def rebuildVec (esz eal : Nat) (l : VecL) : VecL :=
  { minLen := l.minLen, maxLen := l.maxLen, wireMin := l.minLen, ppl := l.ppl, lenOff := l.lenOff,
    lenSize := l.lenSize, refOff := l.refOff, refSize := l.refSize, mode := l.mode, inlOff := l.inlOff,
    parOff := l.parOff, elemW := roundUp esz eal, size := l.size, align := l.align }

mutual
/-- `createTypeHandle` in the wire domain.  The statement written for a float has no closing parenthesis
(171-178). -/
def rebuild : Ty → Option Ty
  | .int w s al => some (.int w s al)
  | .float _ _ => none
  | .unit => some .unit
  | .struct fs sz al =>
    match rebuildFields fs with
    | some fs' => some (.struct fs' sz al)
    | none => none
  | .variant ts l =>
    match rebuildTerms ts with
    | some ts' => some (.variant ts' (rebuildVar l))
    | none => none
  | .array e n esz al =>
    match rebuild e with
    | some e' => some (.array e' n esz al)
    | none => none
  | .vector e l =>
    match rebuild e with
    | some e' => some (.vector e' (rebuildVec e'.size e'.align l))
    | none => none
/-- `PJCreateStructField` for each field (372-394). -/
def rebuildFields : Fields → Option Fields
  | .nil => some .nil
  | .cons n o t r =>
    match rebuild t, rebuildFields r with
    | some t', some r' => some (.cons n o t' r')
    | _, _ => none
/-- `PJCreateTerm` for each term (586-597, `pj/runtime.cpp` 151-159): name, type and tag, no attributes. -/
def rebuildTerms : Terms → Option Terms
  | .nil => some .nil
  | .cons n g _ t r =>
    match rebuild t, rebuildTerms r with
    | some t', some r' => some (.cons n g [] t' r')
    | _, _ => none
end

/-- `PJCreateProtocolType` (`pj/sourcegen.cpp` 312-313). -/
def rebuildProto (p : Proto) : Option Proto :=
  match rebuild p.head with
  | some h => some { head := h, bufOff := p.bufOff }
  | none => none

end PJ
