import Verif.Model.HostGen
import Verif.Spec.Value
/-!
# C++ objects of generated types

What the parser accepts, what an object of a generated C++ type holds by the rules of C++, and which
schemas are outside the known defects.
-/
namespace PJ

mutual
/-- The type passes the checks of the parser (`pj/validate.cpp`, `pj/parse.cpp` 262-281): lengths are
numbers below 2^63, and terms, tags and default come from a declaration. -/
def Accepted : STy → Prop
  | .int w _ => validateInt (8 * w) = true
  | .float w => 8 * w = 32 ∨ 8 * w = 64
  | .unit => True
  | .struct fs => validateStruct fs.names = true ∧ AcceptedFields fs
  | .variant ts d => (∃ (decl : List FieldDecl) (terms : List (Comp × Nat)) (k : Nat), (∀ f ∈ decl, f.Legal) ∧
    handleVariant decl = .ok terms k ∧ internDecls terms k = (ts.decls, d)) ∧ AcceptedTerms ts
  | .array e n => validateArray n = true ∧ n < 2 ^ 63 ∧ Accepted e
  | .vector e min max => validateVector min (match max with | some m => m | none => -1) = true ∧ min < 2 ^ 63 ∧
    (∀ m, max = some m → m < 2 ^ 63) ∧ Accepted e
def AcceptedFields : SFields → Prop
  | .nil => True
  | .cons _ t r => Accepted t ∧ AcceptedFields r
def AcceptedTerms : STerms → Prop
  | .nil => True
  | .cons _ _ t r => Accepted t ∧ AcceptedTerms r
end

mutual
/-- The type has at least one byte on the wire. -/
def STy.bytes : STy → Bool
  | .unit => false
  | .struct fs => fs.bytes
  | .array e n => n != 0 && e.bytes
  | _ => true
def SFields.bytes : SFields → Bool
  | .nil => false
  | .cons _ t r => t.bytes || r.bytes
end

mutual
/-- Outside the known defects: tags below 2^63 of which not all are 0 (`C21_dispatch_violated`,
`C17_width_zero`), no arrays of integers of more than one byte and no vectors of `char16`
(`C45_violated_array`, `C45_violated_wchar`), no maximum of 0 and no vectors of elements of size 0. -/
def Safe : STy → Prop
  | .struct fs => SafeFields fs
  | .variant ts _ => (∃ d ∈ ts.decls, d.2 ≠ 0) ∧ (∀ d ∈ ts.decls, d.2 < 2 ^ 63) ∧ SafeTerms ts
  | .array e _ => (∀ w s, e = .int w s → w = 1) ∧ Safe e
  | .vector e _ max => e.isWchar = false ∧ e.bytes = true ∧ max ≠ some 0 ∧ Safe e
  | _ => True
def SafeFields : SFields → Prop
  | .nil => True
  | .cons _ t r => Safe t ∧ SafeFields r
def SafeTerms : STerms → Prop
  | .nil => True
  | .cons _ _ t r => Safe t ∧ SafeTerms r
end

mutual
/-- The value of the C++ object at an address.  `none`: the tag is not one of the enumerators, or the
span is longer than its maximum or has 2^63 elements or more. -/
def cppVal (m : Mem) : STy → Nat → Option Val
  | .int w s, a => some (.int (intValue (cppInt w) s (readN m a (cppInt w))))
  | .float w, a => some (.float w (readN m a w))
  | .unit, _ => some .unit
  | .struct fs, a => (cppFieldsVal m fs a 0).map .struct
  | .variant ts _, a => cppTermVal m ts (readN m (a + cppTagOff ts) ts.tagWidth) a
  | .array e n, a =>
    (collect (fun i =>
      if e.isWchar then some (.int (intValue 4 .signless (readN m (a + i * 4) 4)))
      else cppVal m e (a + i * (cpp e).1)) 0 n).map .arr
  | .vector e _ max, a =>
    if readN m (a + 8) 8 < 2 ^ 63 ∧ ∀ k, max = some k → readN m (a + 8) 8 ≤ k then
      (collect (fun i =>
        if e.isWchar then some (.int (intValue 4 .signless (readN m (readN m a 8 + i * 4) 4)))
        else cppVal m e (readN m a 8 + i * (cpp e).1)) 0 (readN m (a + 8) 8)).map .vec
    else none
/-- The members of the object at `a` from the member on that comes after the offset `off`. -/
def cppFieldsVal (m : Mem) : SFields → Nat → Nat → Option (List (Comp × Val))
  | .nil, _, _ => some []
  | .cons c t r, a, off =>
    match cppVal m t (a + roundUp off (cpp t).2), cppFieldsVal m r a (roundUp off (cpp t).2 + (cpp t).1) with
    | some v, some vs => some ((c, v) :: vs)
    | _, _ => none
/-- The member of the union at `a` that the tag selects. -/
def cppTermVal (m : Mem) : STerms → Nat → Nat → Option Val
  | .nil, _, _ => none
  | .cons c g t r, raw, a => if g = raw then (cppVal m t a).map (.variant c) else cppTermVal m r raw a
end

end PJ
