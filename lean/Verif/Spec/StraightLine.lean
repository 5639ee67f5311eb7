import Verif.Model.Ty
/-!
# Which conversions keep their poisons apart
-/
namespace PJ

def Ty.isStruct : Ty → Bool
  | .struct _ _ _ => true
  | _ => false

def Ty.blank : Ty → Bool
  | .unit => true
  | _ => false

/-- Bytes that are copied as they are. -/
def plainCopy : Ty → Ty → Bool
  | .int dw _ _, .int sw _ _ => sw == dw
  | .float dw _, .float sw _ => sw == dw
  | _, _ => false

mutual
/-- The first bytes that are stored are a copy. -/
def starts : Ty → Ty → Bool
  | .struct dfs _ _, src =>
    match src with
    | .struct sfs _ _ => startsFields dfs sfs
    | _ => false
  | t, src => plainCopy t src
def startsFields : Fields → Fields → Bool
  | .nil, _ => false
  | .cons c _ t r, sfs =>
    if t.blank then startsFields r sfs
    else
      match sfs.findLast c with
      | some (_, sty) => starts t sty
      | none => false
end

mutual
/-- Every struct in the field starts with a copy; none gets a default value. -/
def inner : Ty → Ty → Bool
  | .struct dfs _ _, src =>
    match src with
    | .struct sfs _ _ => startsFields dfs sfs && innerFields dfs sfs
    | _ => false
  | _, _ => true
def innerFields : Fields → Fields → Bool
  | .nil, _ => true
  | .cons c _ t r, sfs =>
    (match sfs.findLast c with
    | some (_, sty) => inner t sty
    | none => !t.isStruct) && innerFields r sfs
end

/-- The same for the fields of the whole: only structs inside of the struct have to start with a copy. -/
def tidy : Ty → Ty → Bool
  | .struct dfs _ _, .struct sfs _ _ => innerFields dfs sfs
  | .struct _ _ _, _ => false
  | _, _ => true

mutual
/-- The first thing in it is an integer or float. -/
def Ty.opens : Ty → Bool
  | .struct fs _ _ => fs.opens
  | .int _ _ _ => true
  | .float _ _ => true
  | _ => false
def Fields.opens : Fields → Bool
  | .nil => false
  | .cons _ _ t r => if t.blank then r.opens else t.opens
end

mutual
/-- Every struct in the field opens with an integer or float: none is empty. -/
def Ty.solid : Ty → Bool
  | .struct fs _ _ => fs.opens && fs.solid
  | _ => true
def Fields.solid : Fields → Bool
  | .nil => true
  | .cons _ _ t r => t.solid && r.solid
end

/-- The same for the structs inside of a struct. -/
def Ty.full : Ty → Bool
  | .struct fs _ _ => fs.solid
  | _ => true

mutual
/-- Structs, integers and floats only. -/
def Ty.straight : Ty → Prop
  | .struct fs _ _ => fs.straight
  | .variant _ _ => False
  | .array _ _ _ _ => False
  | .vector _ _ => False
  | _ => True
def Fields.straight : Fields → Prop
  | .nil => True
  | .cons _ _ t r => t.straight ∧ r.straight
end

end PJ
