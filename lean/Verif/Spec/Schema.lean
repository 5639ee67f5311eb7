import Verif.Model.Plan
/-!
# Schemas

What the front ends guarantee about the types they hand to the planner, apart from the host layout.
-/
namespace PJ

mutual
/-- Distinct field names; nonempty variants with distinct tags below 2^63, not only the
tag 0 of the implicit default term (`C17_width_zero`); positive maximum
lengths below 2^63 and minimum lengths below them. -/
def Sch : Ty → Prop
  | .int w _ _ => 1 ≤ w ∧ w ≤ 8
  | .float w _ => w = 4 ∨ w = 8
  | .unit => True
  | .struct fs _ _ => (fs.toList.map (·.1)).Nodup ∧ SchFields fs
  | .variant ts l => l.dflt < ts.toList.length ∧ (ts.toList.map (·.tag)).Nodup ∧
    (∃ t ∈ ts.toList, t.tag ≠ 0) ∧ (∀ t ∈ ts.toList, t.tag < 2 ^ 63) ∧ SchTerms ts
  | .array e _ _ _ => Sch e
  | .vector e l => Sch e ∧ l.wireMin < 2 ^ 63 ∧
    ∀ m, l.maxLen = some m → 0 < m ∧ m < 2 ^ 63 ∧ l.wireMin ≤ m
def SchFields : Fields → Prop
  | .nil => True
  | .cons _ _ t r => Sch t ∧ SchFields r
def SchTerms : Terms → Prop
  | .nil => True
  | .cons _ _ _ t r => Sch t ∧ SchTerms r
end

mutual
/-- The type has at least one byte on the wire. -/
def Ty.bytes : Ty → Bool
  | .int w _ _ => w != 0
  | .float w _ => w != 0
  | .unit => false
  | .struct fs _ _ => fs.bytes
  | .variant _ _ => true
  | .array e n _ _ => n != 0 && e.bytes
  | .vector _ _ => true
def Fields.bytes : Fields → Bool
  | .nil => false
  | .cons _ _ t r => t.bytes || r.bytes
end

mutual
/-- Every vector element has at least one byte on the wire. -/
def Elems : Ty → Prop
  | .struct fs _ _ => ElemsFields fs
  | .variant ts _ => ElemsTerms ts
  | .array e _ _ _ => Elems e
  | .vector e _ => e.bytes = true ∧ Elems e
  | _ => True
def ElemsFields : Fields → Prop
  | .nil => True
  | .cons _ _ t r => Elems t ∧ ElemsFields r
def ElemsTerms : Terms → Prop
  | .nil => True
  | .cons _ _ _ t r => Elems t ∧ ElemsTerms r
end

end PJ
