import Verif.Model.Any
/-!
# What should be found in an `Any`

The value as the schema describes it: numbers with width and sign, the fields of structs and the terms of
variants with their names, tags as declared.  Variants without data are enums, sequences of `char8` are strings.
-/
namespace PJ

def Ty.isUnit : Ty → Bool
  | .unit => true
  | _ => false

/-- `char8` -/
def Ty.isChar : Ty → Bool
  | .int w s _ => w == 1 && s == .signless
  | _ => false

def Terms.enum : Terms → Bool
  | .nil => true
  | .cons _ _ _ t r => t.isUnit && r.enum

mutual
def view : Ty → Val → Option AVal
  | .int w s _, .int x => some (.int w s x)
  | .float w _, .float w' b => if w' = w then some (.float w b) else none
  | .unit, .unit => some .unit
  | .struct fs _ _, .struct vs =>
    match viewFields fs vs with
    | some l => some (.struct l)
    | none => none
  | .variant ts _, .variant c p => viewTerm ts.enum ts c p
  | .array e _ _ _, .arr xs =>
    match mapAll (view e) xs with
    | some l => some (.seq e.isChar l)
    | none => none
  | .vector e _, .vec xs =>
    match mapAll (view e) xs with
    | some l => some (.seq e.isChar l)
    | none => none
  | _, _ => none
/-- The fields in declaration order. -/
def viewFields : Fields → List (Comp × Val) → Option (List (Comp × AVal))
  | .nil, [] => some []
  | .cons c _ t r, (c', v) :: vs =>
    if c' = c then
      match view t v, viewFields r vs with
      | some x, some xs => some ((c, x) :: xs)
      | _, _ => none
    else none
  | _, _ => none
/-- The term of the name, with its tag. -/
def viewTerm (enum : Bool) : Terms → Comp → Val → Option AVal
  | .nil, _, _ => none
  | .cons n g _ t r, c, p =>
    if n = c then
      match view t p with
      | some x => some (.variant enum g n x)
      | none => none
    else viewTerm enum r c p
end

end PJ
