import Verif.Model.Ty
/-!
# Types without attributes, types without floats
-/
namespace PJ

mutual
/-- The type with the attributes of all terms removed. -/
def Ty.dropAttrs : Ty → Ty
  | .struct fs sz al => .struct fs.dropAttrs sz al
  | .variant ts l => .variant ts.dropAttrs l
  | .array e n esz al => .array e.dropAttrs n esz al
  | .vector e l => .vector e.dropAttrs l
  | .int w s al => .int w s al
  | .float w al => .float w al
  | .unit => .unit
def Fields.dropAttrs : Fields → Fields
  | .nil => .nil
  | .cons n o t r => .cons n o t.dropAttrs r.dropAttrs
def Terms.dropAttrs : Terms → Terms
  | .nil => .nil
  | .cons n g _ t r => .cons n g [] t.dropAttrs r.dropAttrs
end

/-- One term without its attributes. -/
def Term.dropAttrs (t : Term) : Term := { t with attrs := [], ty := t.ty.dropAttrs }

mutual
/-- Whether there is a float in the type. -/
def Ty.hasFloat : Ty → Bool
  | .float _ _ => true
  | .struct fs _ _ => fs.hasFloat
  | .variant ts _ => ts.hasFloat
  | .array e _ _ _ => e.hasFloat
  | .vector e _ => e.hasFloat
  | _ => false
def Fields.hasFloat : Fields → Bool
  | .nil => false
  | .cons _ _ t r => t.hasFloat || r.hasFloat
def Terms.hasFloat : Terms → Bool
  | .nil => false
  | .cons _ _ _ t r => t.hasFloat || r.hasFloat
end

mutual
/-- No vector in the type or its fields has a wire minimum apart from its maximum. -/
def Unsplit : Ty → Prop
  | .vector _ l => l.wireMin = 0 ∨ l.maxLen = some l.wireMin
  | .struct fs _ _ => UnsplitFields fs
  | _ => True
def UnsplitFields : Fields → Prop
  | .nil => True
  | .cons _ _ t r => Unsplit t ∧ UnsplitFields r
end

mutual
/-- `Unsplit` for the terms of the variants that are reached through struct fields. -/
def Unhoisted : Ty → Prop
  | .variant ts _ => ∀ t ∈ ts.toList, Unsplit t.ty
  | .struct fs _ _ => UnhoistedFields fs
  | _ => True
def UnhoistedFields : Fields → Prop
  | .nil => True
  | .cons _ _ t r => Unhoisted t ∧ UnhoistedFields r
end

end PJ
