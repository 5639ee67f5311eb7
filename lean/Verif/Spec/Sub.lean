import Verif.Model.Ty
/-!
# Parts of a type
-/
namespace PJ

/-- `Sub u t`: `u` is `t` or the type of a field, term or element inside `t`. -/
inductive Sub : Ty → Ty → Prop
  | refl (t : Ty) : Sub t t
  | field {u : Ty} {fs : Fields} {sz al : Nat} (x : Comp × Nat × Ty) (hx : x ∈ fs.toList) (h : Sub u x.2.2) :
      Sub u (.struct fs sz al)
  | term {u : Ty} {ts : Terms} {l : VarL} (x : Term) (hx : x ∈ ts.toList) (h : Sub u x.ty) : Sub u (.variant ts l)
  | arr {u e : Ty} {n esz al : Nat} (h : Sub u e) : Sub u (.array e n esz al)
  | vec {u e : Ty} {l : VecL} (h : Sub u e) : Sub u (.vector e l)

/-- The fields follow each other from offset `off` to `fin` without gaps. -/
def Contig : List (Comp × Nat × Ty) → Nat → Nat → Prop
  | [], off, fin => off = fin
  | x :: r, off, fin => x.2.1 = off ∧ Contig r (off + x.2.2.size) fin

end PJ
