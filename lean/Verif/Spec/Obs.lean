import Verif.Spec.Value
/-!
# Observations

What can be seen of a value by following field names, payloads and indices.  Unlike equality of values this
does not look at the order in which the fields of a struct are declared.
-/
namespace PJ

/-- One step into a value. -/
inductive Look
  | field (c : Comp)
  | payload
  | elem (i : Nat)

/-- What is seen at the end. -/
inductive Seen
  | int (v : Int)
  | float (w bits : Nat)
  | unit
  | struct
  | term (name : Comp)
  | arr (n : Nat)
  | vec (n : Nat)
deriving DecidableEq

def Val.seen : Val → Seen
  | .int v => .int v
  | .float w b => .float w b
  | .unit => .unit
  | .struct _ => .struct
  | .variant c _ => .term c
  | .arr l => .arr l.length
  | .vec l => .vec l.length

def Val.obs : List Look → Val → Option Seen
  | [], v => some v.seen
  | .field c :: p, .struct vs =>
    match vs.lookup c with
    | some v => v.obs p
    | none => none
  | .payload :: p, .variant _ v => v.obs p
  | .elem i :: p, .arr l =>
    match l[i]? with
    | some v => v.obs p
    | none => none
  | .elem i :: p, .vec l =>
    match l[i]? with
    | some v => v.obs p
    | none => none
  | _ :: _, _ => none

/-- Both are invalid, or both are values that look the same. -/
def SameObs : Option Val → Option Val → Prop
  | none, none => True
  | some v, some w => ∀ p, v.obs p = w.obs p
  | _, _ => False

end PJ
