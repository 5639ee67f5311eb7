import Verif.Spec.Value
/-!
# Values of a type

Which values the type can hold, and which types a schema front end produces.
-/
namespace PJ

mutual
/-- The value is one of the type: numbers in range, exactly the fields of the struct, at most the maximum
number of elements, and exactly one term of the variant takes the payload. -/
def Fits : Ty → Val → Prop
  | .int w s _, v => ∃ x, v = .int x ∧ InRange w s x
  | .float w _, v => ∃ b, v = .float w b
  | .unit, v => v = .unit
  | .struct fs _ _, v => ∃ vs, v = .struct vs ∧ FitsFields fs vs
  | .variant ts _, v => ∃ c p, v = .variant c p ∧ FitsTerms ts c p ∧
    (ts.toList.filter fun t => decide (t.name = c ∧ attrsAllow p t.attrs = some true)).length = 1
  | .array e n _ _, v => ∃ xs, v = .arr xs ∧ xs.length = n ∧ ∀ x ∈ xs, Fits e x
  | .vector e l, v => ∃ xs, v = .vec xs ∧ xs.length < 2 ^ 63 ∧
    (∀ m, l.maxLen = some m → xs.length ≤ m) ∧ ∀ x ∈ xs, Fits e x
def FitsFields : Fields → List (Comp × Val) → Prop
  | .nil, vs => vs = []
  | .cons c _ t r, vs => ∃ v rest, vs = (c, v) :: rest ∧ Fits t v ∧ FitsFields r rest
/-- The condition of every term of the name can be evaluated, and if it holds the payload fits. -/
def FitsTerms : Terms → Comp → Val → Prop
  | .nil, _, _ => True
  | .cons n _ as t r, c, p =>
    (n = c → (attrsAllow p as).isSome = true ∧ (attrsAllow p as = some true → Fits t p)) ∧ FitsTerms r c p
end

mutual
/-- A type from a schema: terms have distinct names and no attributes. -/
def Plain : Ty → Prop
  | .struct fs _ _ => PlainFields fs
  | .variant ts _ => (ts.toList.map (·.name)).Nodup ∧ PlainTerms ts
  | .array e _ _ _ => Plain e
  | .vector e _ => Plain e
  | _ => True
def PlainFields : Fields → Prop
  | .nil => True
  | .cons _ _ t r => Plain t ∧ PlainFields r
def PlainTerms : Terms → Prop
  | .nil => True
  | .cons _ _ as t r => as = [] ∧ Plain t ∧ PlainTerms r
end

end PJ
