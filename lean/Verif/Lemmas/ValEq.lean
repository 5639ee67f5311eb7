import Verif.Spec.Value
/-!
# Equality of values can be decided
-/
namespace PJ

mutual
def Val.decEq : (a b : Val) → Decidable (a = b)
  | .int x, .int y => decidable_of_iff (x = y) (by simp)
  | .float w x, .float w' y => decidable_of_iff (w = w' ∧ x = y) (by simp)
  | .unit, .unit => isTrue rfl
  | .struct x, .struct y => haveI := Val.decEqF x y; decidable_of_iff (x = y) (by simp)
  | .variant c x, .variant d y => haveI := Val.decEq x y; decidable_of_iff (c = d ∧ x = y) (by simp)
  | .arr x, .arr y => haveI := Val.decEqL x y; decidable_of_iff (x = y) (by simp)
  | .vec x, .vec y => haveI := Val.decEqL x y; decidable_of_iff (x = y) (by simp)
  | .int _, .float _ _ => isFalse nofun
  | .int _, .unit => isFalse nofun
  | .int _, .struct _ => isFalse nofun
  | .int _, .variant _ _ => isFalse nofun
  | .int _, .arr _ => isFalse nofun
  | .int _, .vec _ => isFalse nofun
  | .float _ _, .int _ => isFalse nofun
  | .float _ _, .unit => isFalse nofun
  | .float _ _, .struct _ => isFalse nofun
  | .float _ _, .variant _ _ => isFalse nofun
  | .float _ _, .arr _ => isFalse nofun
  | .float _ _, .vec _ => isFalse nofun
  | .unit, .int _ => isFalse nofun
  | .unit, .float _ _ => isFalse nofun
  | .unit, .struct _ => isFalse nofun
  | .unit, .variant _ _ => isFalse nofun
  | .unit, .arr _ => isFalse nofun
  | .unit, .vec _ => isFalse nofun
  | .struct _, .int _ => isFalse nofun
  | .struct _, .float _ _ => isFalse nofun
  | .struct _, .unit => isFalse nofun
  | .struct _, .variant _ _ => isFalse nofun
  | .struct _, .arr _ => isFalse nofun
  | .struct _, .vec _ => isFalse nofun
  | .variant _ _, .int _ => isFalse nofun
  | .variant _ _, .float _ _ => isFalse nofun
  | .variant _ _, .unit => isFalse nofun
  | .variant _ _, .struct _ => isFalse nofun
  | .variant _ _, .arr _ => isFalse nofun
  | .variant _ _, .vec _ => isFalse nofun
  | .arr _, .int _ => isFalse nofun
  | .arr _, .float _ _ => isFalse nofun
  | .arr _, .unit => isFalse nofun
  | .arr _, .struct _ => isFalse nofun
  | .arr _, .variant _ _ => isFalse nofun
  | .arr _, .vec _ => isFalse nofun
  | .vec _, .int _ => isFalse nofun
  | .vec _, .float _ _ => isFalse nofun
  | .vec _, .unit => isFalse nofun
  | .vec _, .struct _ => isFalse nofun
  | .vec _, .variant _ _ => isFalse nofun
  | .vec _, .arr _ => isFalse nofun
def Val.decEqL : (a b : List Val) → Decidable (a = b)
  | [], [] => isTrue rfl
  | [], _ :: _ => isFalse nofun
  | _ :: _, [] => isFalse nofun
  | x :: xs, y :: ys => haveI := Val.decEq x y; haveI := Val.decEqL xs ys; decidable_of_iff (x = y ∧ xs = ys) (by simp)
def Val.decEqF : (a b : List (Comp × Val)) → Decidable (a = b)
  | [], [] => isTrue rfl
  | [], _ :: _ => isFalse nofun
  | _ :: _, [] => isFalse nofun
  | (c, x) :: xs, (d, y) :: ys => haveI := Val.decEq x y; haveI := Val.decEqF xs ys
    decidable_of_iff ((c = d ∧ x = y) ∧ xs = ys) (by simp)
end

instance : DecidableEq Val := Val.decEq

end PJ
