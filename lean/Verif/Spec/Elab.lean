import Verif.Model.Elab
import Verif.Spec.Host
/-!
# Types that schema files define

Parts and names of types, and the types of the code generator.
-/
namespace PJ

mutual
/-- The type and all types inside it. -/
def PTy.parts : PTy → List PTy
  | .int w s => [.int w s]
  | .float w => [.float w]
  | .unit => [.unit]
  | .any => [.any]
  | .ext n => [.ext n]
  | .struct n fs => .struct n fs :: fs.parts
  | .variant n ts d => .variant n ts d :: ts.parts
  | .array e n => .array e n :: e.parts
  | .vector e a b => .vector e a b :: e.parts
def PFields.parts : PFields → List PTy
  | .nil => []
  | .cons _ t r => t.parts ++ r.parts
def PTerms.parts : PTerms → List PTy
  | .nil => []
  | .cons _ _ t r => t.parts ++ r.parts
end

/-- The name under which the context keeps a type: MLIR identifies structs and variants by their names. -/
def PTy.name? : PTy → Option SourceId
  | .ext n => some n
  | .struct n _ => some n
  | .variant n _ _ => some n
  | _ => none

mutual
/-- The type without its names; `any` and types that the user has to provide have none. -/
def PTy.sty : PTy → Option STy
  | .int w s => some (.int w s)
  | .float w => some (.float w)
  | .unit => some .unit
  | .any => none
  | .ext _ => none
  | .struct _ fs => fs.sty.map .struct
  | .variant _ ts d => ts.sty.map (.variant · d)
  | .array e n => e.sty.map (.array · n)
  | .vector e a b => e.sty.map (.vector · a b)
def PFields.sty : PFields → Option SFields
  | .nil => some .nil
  | .cons c t r =>
    match t.sty, r.sty with
    | some s, some q => some (.cons c s q)
    | _, _ => none
def PTerms.sty : PTerms → Option STerms
  | .nil => some .nil
  | .cons c g t r =>
    match t.sty, r.sty with
    | some s, some q => some (.cons c g s q)
    | _, _ => none
end

/-- A path leads through fields of structs to a variant. -/
inductive LeadsToVariant : PTy → Path → SourceId → PTerms → Nat → Prop
  | here (n ts d) : LeadsToVariant (.variant n ts d) [] n ts d
  | field {n fs c t p m ts d} : fs.find c = some t → LeadsToVariant t p m ts d →
      LeadsToVariant (.struct n fs) (c :: p) m ts d

/-- `name` and type of what a declaration of a file puts into the generated header. -/
def DeclOut.type? : DeclOut → Option (SourceId × PTy)
  | .alias n t => some (n, t)
  | .composite n t _ _ => some (n, t)
  | .language _ _ _ => none

/-- A file imports another one, directly or through other files. -/
inductive Reaches (files : Nat → FileOut) : Nat → Nat → Prop
  | refl (f) : Reaches files f f
  | step {f g h} : g ∈ (files f).imports → Reaches files g h → Reaches files f h

end PJ
