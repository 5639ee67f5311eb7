import Verif.Model.Xcode
import Verif.Spec.IntValue
/-!
# Abstract values

The specification side of the transcoder: what a user sees when looking at an object or a message
(`readVal`), and the conversion between schemas in terms of these values (`conv`).  Nothing here
talks about buffers, cursors, regions or generated code.
-/
namespace PJ

/-- A value: numbers, float bit patterns with their width, structs with named fields, variants with
the name of the term and its payload, arrays and vectors. -/
inductive Val
  | int (v : Int)
  | float (w bits : Nat)
  | unit
  | struct (fs : List (Comp × Val))
  | variant (name : Comp) (v : Val)
  | arr (l : List Val)
  | vec (l : List Val)

/-- `[f i, f (i+1), …]` (`n` results), if all are defined. -/
def collect {α} (f : Nat → Option α) : Nat → Nat → Option (List α)
  | _, 0 => some []
  | i, n + 1 =>
    match f i, collect f (i + 1) n with
    | some x, some xs => some (x :: xs)
    | _, _ => none

/-- The address of element `i` of a vector of `n` elements at `a` (`pj/types.hpp` 670-703). -/
def vecElemAddr (m : Mem) (l : VecL) (a n i : Nat) : Nat :=
  if l.isInl n then elemAt (a + l.inlOff) l.elemW i
  else if i < l.ppl then elemAt (a + l.parOff) l.elemW i
  else elemAt (refStart m l a) l.elemW (i - l.ppl)

mutual
/-- The value of an object of a type at an address.  `none`: not a valid object (a tag which no
term has, a vector longer than its maximum or with 2^63 or more elements). -/
def readVal (m : Mem) : Ty → Nat → Option Val
  | .int w s _, a => some (.int (intValue w s (readN m a w)))
  | .float w _, a => some (.float w (readN m a w))
  | .unit, _ => some .unit
  | .struct fs _ _, a =>
    match readFields m fs a with
    | some vs => some (.struct vs)
    | none => none
  | .variant ts l, a => readTerm m ts (readN m (a + l.tagOff) l.tagW) (a + l.termOff)
  | .array e n esz _, a =>
    match collect (fun i => readVal m e (elemAt a esz i)) 0 n with
    | some vs => some (.arr vs)
    | none => none
  | .vector e l, a =>
    match lengthOp m l a with
    | none => none
    | some n =>
      if n < 2 ^ 63 then
        match collect (fun i => readVal m e (vecElemAddr m l a n i)) 0 n with
        | some vs => some (.vec vs)
        | none => none
      else none
/-- The named fields in declaration order. -/
def readFields (m : Mem) : Fields → Nat → Option (List (Comp × Val))
  | .nil, _ => some []
  | .cons c o t r, a =>
    match readVal m t (a + o), readFields m r a with
    | some v, some vs => some ((c, v) :: vs)
    | _, _ => none
/-- The term with the stored tag. -/
def readTerm (m : Mem) : Terms → Nat → Nat → Option Val
  | .nil, _, _ => none
  | .cons n g _ t r, raw, a =>
    if g = raw then
      match readVal m t a with
      | some v => some (.variant n v)
      | none => none
    else readTerm m r raw a
end

/-- The length of the vector at a path inside a value (the last component stands for the vector
itself). -/
def lenAt : Path → Val → Option Nat
  | [_], .vec l => some l.length
  | c :: c' :: p, .struct fs =>
    match fs.lookup c with
    | some v => lenAt (c' :: p) v
    | none => none
  | _, _ => none

/-- Whether the attributes of a term allow a payload. -/
def attrsAllow (v : Val) : List Attr → Option Bool
  | [] => some true
  | .undef d :: r => (attrsAllow v r).map (d && ·)
  | .split inl n p :: r =>
    match lenAt p v with
    | none => none
    | some len => (attrsAllow v r).map ((if inl then decide (len ≤ n) else decide (n < len)) && ·)

/-- The number `v` modulo `2^(8w)` in the range of a `w` byte integer. -/
def wrapInt (w : Nat) (s : Sign) (v : Int) : Int :=
  intValue w s (v % ((256 ^ w : Nat) : Int)).toNat

mutual
/-- The default value of a type: 0, NaN, empty vector, default term, defaults inside. -/
def dfltVal : Ty → Option Val
  | .int _ _ _ => some (.int 0)
  | .float w _ => some (.float w (qNaN w))
  | .unit => some .unit
  | .struct fs _ _ =>
    match dfltFieldsVal fs with
    | some vs => some (.struct vs)
    | none => none
  | .variant ts l => dfltTermVal ts l.dflt
  | .array e n _ _ =>
    match dfltVal e with
    | some v => some (.arr (List.replicate n v))
    | none => none
  | .vector _ _ => some (.vec [])
def dfltFieldsVal : Fields → Option (List (Comp × Val))
  | .nil => some []
  | .cons c _ t r =>
    match dfltVal t, dfltFieldsVal r with
    | some v, some vs => some ((c, v) :: vs)
    | _, _ => none
def dfltTermVal : Terms → Nat → Option Val
  | .nil, _ => none
  | .cons n _ as t _, 0 =>
    match attrsAllow .unit as, dfltVal t with
    | some true, some v => some (.variant n v)
    | _, _ => none
  | .cons _ _ _ _ r, i + 1 => dfltTermVal r i
end

/-- All conversions succeed. -/
def mapAll {α β} (f : α → Option β) : List α → Option (List β)
  | [] => some []
  | x :: xs =>
    match f x, mapAll f xs with
    | some y, some ys => some (y :: ys)
    | _, _ => none

/-- The first `max` elements. -/
def cutTo (max : Option Nat) (l : List Val) : List Val :=
  match max with
  | none => l
  | some m => l.take m

mutual
/-- What a receiver with destination type sees of a value.  Fields and terms are matched by name,
missing fields get their default, unknown terms become the default term, numbers are wrapped,
arrays and vectors are cut or (arrays) filled up.  `none` when the kinds do not fit together. -/
def conv (F : Nat → Nat → Nat → Nat) : Ty → Val → Option Val
  | .unit, _ => some .unit
  | .int w s al, v =>
    match v with
    | .unit => dfltVal (.int w s al)
    | .int x => some (.int (wrapInt w s x))
    | _ => none
  | .float w al, v =>
    match v with
    | .unit => dfltVal (.float w al)
    | .float sw b => some (.float w (if sw = w then b else F sw w b % 256 ^ w))
    | _ => none
  | .struct fs sz al, v =>
    match v with
    | .unit => dfltVal (.struct fs sz al)
    | .struct vs =>
      match convFields F fs vs with
      | some ws => some (.struct ws)
      | none => none
    | _ => none
  | .variant ts l, v =>
    match v with
    | .unit => dfltVal (.variant ts l)
    | .variant c p => if ts.hasName c then convNamed F ts c p else convAt F ts l.dflt p
    | _ => none
  | .array e n esz al, v =>
    match v with
    | .unit => dfltVal (.array e n esz al)
    | .arr l =>
      match mapAll (conv F e) (l.take n) with
      | none => none
      | some ws =>
        if l.length < n then
          match dfltVal e with
          | some d => some (.arr (ws ++ List.replicate (n - l.length) d))
          | none => none
        else some (.arr ws)
    | _ => none
  | .vector e l, v =>
    match v with
    | .unit => dfltVal (.vector e l)
    | .vec xs =>
      match mapAll (conv F e) (cutTo l.maxLen xs) with
      | some ws => some (.vec ws)
      | none => none
    | _ => none
def convFields (F : Nat → Nat → Nat → Nat) : Fields → List (Comp × Val) → Option (List (Comp × Val))
  | .nil, _ => some []
  | .cons c _ t r, vs =>
    match (match vs.lookup c with | some v => conv F t v | none => dfltVal t), convFields F r vs with
    | some w, some ws => some ((c, w) :: ws)
    | _, _ => none
/-- The first term of the name whose attributes allow the payload. -/
def convNamed (F : Nat → Nat → Nat → Nat) : Terms → Comp → Val → Option Val
  | .nil, _, _ => none
  | .cons n _ as t r, c, v =>
    if n = c then
      match attrsAllow v as with
      | none => none
      | some true =>
        match conv F t v with
        | some w => some (.variant n w)
        | none => none
      | some false => convNamed F r c v
    else convNamed F r c v
/-- Term number `i`, if its attributes allow the payload. -/
def convAt (F : Nat → Nat → Nat → Nat) : Terms → Nat → Val → Option Val
  | .nil, _, _ => none
  | .cons n _ as t _, 0, v =>
    match attrsAllow v as, conv F t v with
    | some true, some w => some (.variant n w)
    | _, _ => none
  | .cons _ _ _ _ r, i + 1, v => convAt F r i v
end

end PJ
