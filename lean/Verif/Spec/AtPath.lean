import Verif.Spec.Value
/-!
# The variant at a tag path
-/
namespace PJ

/-- Offset and type of the variant that a tag path leads to: field names, then one more component for
the variant itself. -/
def Ty.at : Path → Ty → Option (Nat × Terms × VarL)
  | _ :: _, .variant ts l => some (0, ts, l)
  | c :: p, .struct fs _ _ =>
    match fs.find c with
    | some (o, t) =>
      match Ty.at p t with
      | some (o', x) => some (o + o', x)
      | none => none
    | none => none
  | _, _ => none

/-- The value of the variant that a tag path leads to. -/
def Val.at : Path → Val → Option (Comp × Val)
  | _ :: _, .variant c x => some (c, x)
  | c :: p, .struct vs =>
    match vs.lookup c with
    | some v => Val.at p v
    | none => none
  | _, _ => none

mutual
/-- The number of outline variants in a type. -/
def Ty.outs : Ty → Nat
  | .struct fs _ _ => fs.outs
  | .variant ts l => (if l.outline then 1 else 0) + ts.outs
  | .array e _ _ _ => e.outs
  | .vector e _ => e.outs
  | _ => 0
def Fields.outs : Fields → Nat
  | .nil => 0
  | .cons _ _ t r => t.outs + r.outs
def Terms.outs : Terms → Nat
  | .nil => 0
  | .cons _ _ _ t r => t.outs + r.outs
end

end PJ
