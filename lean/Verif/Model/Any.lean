import Verif.Model.Plan
import Verif.Model.Reflect
import Verif.Spec.Value
/-!
# `Any`

Models `reflectableTypeFor` (`pj/reflect.cpp` 492-584), the generated code that decodes into an `Any`
(`pj/generate_ir.cpp` 788-829, `pj/llvm_gen2.cpp` 1118-1197) and the classes which look into it
(`pj/include/pj/any.hpp`).

Simplifications: types are trees as in `Model/Plan.lean`; the terms of a reflectable variant are sorted by
name (`setTypeData`) as those of its source are already, so that their order and the default index stay.
The schema which `ReflectOp` puts into the constant pool (an encoded `reflect::Protocol`) is given by its
address and the list of its entries.  `Any` is the destination itself: it is not part of `Ty`.
-/
namespace PJ

/-! ## The type behind an `Any` -/

/-- The vector of `pj/reflect.cpp` 505-528 for the (reflectable) element. -/
def anyVec (e : Ty) (maxLen : Option Nat) : VecL :=
  { minLen := 0, maxLen := maxLen, wireMin := 0, ppl := 0, lenOff := 0, lenSize := 8, refOff := 8,
    refSize := 8, mode := .pointer, inlOff := 0, parOff := 0, elemW := roundUp e.size e.align, size := 16,
    align := 8 }

/-- The variant of `pj/reflect.cpp` 556-577 for the (reflectable) terms. -/
def anyVar (ts : List Term) (dflt tagW : Nat) : VarL :=
  let sz := ts.foldl (fun s t => max s t.ty.size) 0
  { outline := false, dflt := dflt, termOff := 0, termSize := sz, tagOff := sz, tagW := tagW,
    size := sz + tagW, align := ts.foldl (fun a t => max a t.ty.align) 1, termAlign := 0 }

mutual
/-- `reflectableTypeFor` (`pj/reflect.cpp` 492-584). -/
def reflectable : Ty → Ty
  | .int w s al => .int w s al
  | .float w al => .float w al
  | .unit => .unit
  | .array e n _ _ =>
    .array (reflectable e) n (roundUp (reflectable e).size (reflectable e).align) (reflectable e).align
  | .vector e l => .vector (reflectable e) (anyVec (reflectable e) l.maxLen)
  | .struct fs _ _ =>
    let x := reflectableFields fs 0 1
    .struct x.1 x.2.1 x.2.2
  | .variant ts l => .variant (reflectableTerms ts) (anyVar (reflectableTerms ts).toList l.dflt l.tagW)
/-- The loop over the fields (534-545): fields, offset behind the last one, alignment. -/
def reflectableFields : Fields → Nat → Nat → Fields × Nat × Nat
  | .nil, off, al => (.nil, off, al)
  | .cons n _ t r, off, al =>
    let o := roundUp off (reflectable t).align
    let x := reflectableFields r (o + (reflectable t).size) (max al (reflectable t).align)
    (.cons n o (reflectable t) x.1, x.2)
/-- The loop over the terms (559-568): attributes are dropped. -/
def reflectableTerms : Terms → Terms
  | .nil => .nil
  | .cons n g _ t r => .cons n g [] (reflectable t) (reflectableTerms r)
end

/-! ## Decoding into an `Any` -/

/-- `PJCreateAnyType` (`pj/include/pj/any.hpp` 333-341): offsets of the members of an `Any` at `da`. -/
def anyProtocolOff : Nat := 0
def anyDataOff : Nat := 8
def anyOffsetOff : Nat := 16
def anySize : Nat := 24

/-- `getOrCreateReflectFn` (`pj/generate_ir.cpp` 788-829) with `ReflectOp` (`pj/llvm_gen2.cpp` 1118-1197):
`schema` is the address of the schema, `head` the index of the type in it. -/
def xAny (E : Env) (schema : Nat) (head : Int) (src : Ty) (sa da : Nat) (st : St) : Res :=
  (alignTo st (reflectable src).align).bind fun sta =>
  (alloc sta (reflectable src).size).bind fun st1 =>
  (xcode E (reflectable src) src [] [] sa sta.ptr st1).bind fun st2 =>
  .ok (((st2.store (da + anyDataOff) 8 sta.ptr).store (da + anyProtocolOff) 8 schema).store
    (da + anyOffsetOff) 4 (head % 2 ^ 32).toNat)

/-- The decode function for an `Any` (see `decode`). -/
def decodeAny (E : Env) (schema : Nat) (head : Int) (p : Proto) (msg obj buf cap : Nat) (mem : Mem) :
    Option Decoded :=
  match xAny E schema head p.head msg obj { mem := mem, ptr := buf, rem := some cap, cb := 0, used := 0 } with
  | .ok s => some { mem := s.mem, ptr := s.ptr, size := s.rem.getD 0, called := invoked s.cb }
  | .throw s => some { mem := s.mem, ptr := 0, size := W64 - 1, called := invoked s.cb }
  | .ub => none

/-! ## Looking into an `Any` -/

/-- What a program finds by descending with `kind()` and the classes of `any.hpp`. -/
inductive AVal
  /-- `AnyInt`: width, sign, `getValue` -/
  | int (w : Nat) (s : Sign) (v : Int)
  /-- `AnyFloat`: width, bit pattern -/
  | float (w bits : Nat)
  | unit
  /-- `AnyStruct`: names and values of the fields -/
  | struct (fs : List (Comp × AVal))
  /-- `AnyVariant`: `isEnum`, `termTag`, `termName`, `term` -/
  | variant (enum : Bool) (tag : Nat) (name : Comp) (v : AVal)
  /-- `AnySequence`: `isString`, the elements -/
  | seq (string : Bool) (l : List AVal)

/-- `getIntValueSigned`, `getIntValueUnsigned` (143-172): other widths throw. -/
def anyWidth (w : Nat) : Bool := w == 1 || w == 2 || w == 4 || w == 8

/-- The fields of an `AnyStruct` (97-123), `step` being the access to a child at a relative index. -/
def anyFields (step : Int → Nat → Option AVal) (data : Nat) : List (FieldD Int) →
    Option (List (Comp × AVal))
  | [] => some []
  | f :: fs =>
    match step f.ty (data + f.off), anyFields step data fs with
    | some v, some vs => some ((f.name, v) :: vs)
    | _, _ => none

def isUnitNode : Option PNode → Bool
  | some .unit => true
  | _ => false

def isCharNode : Option PNode → Bool
  | some (.int w s _) => w == 1 && s == .signless
  | _ => false

/-- Everything reachable from an `Any` with the pool `pool`, the index `off` and the data at `data`.
`none`: an exception or a failed assertion somewhere; `fuel` bounds the depth. -/
def anyRead (pool : List PNode) (m : Mem) : Nat → Int → Nat → Option AVal
  | 0, _, _ => none
  | fuel + 1, off, data =>
    let step := fun (i : Int) (a : Nat) => anyRead pool m fuel (PJ.i32 (off + i)) a
    match poolAt pool off with
    | none => none
    | some (.int w s _) =>
      if anyWidth w then
        some (.int w s (if s = .signed then toSigned w (readN m data w) else (readN m data w : Int)))
      else none
    | some (.float k _) => some (.float (if k then 8 else 4) (readN m data (if k then 8 else 4)))
    | some .unit => some .unit
    | some (.struct _ fs _ _) =>
      match anyFields step data fs with
      | some vs => some (.struct vs)
      | none => none
    | some (.inl _ ts d) =>
      if anyWidth d.tagW then
        let tag := readN m (data + d.tagOff) d.tagW
        match ts.find? (fun t => t.tag == tag) with
        | some t =>
          match step t.ty (data + d.termOff) with
          | some v => some (.variant (ts.all fun t => isUnitNode (poolAt pool (PJ.i32 (off + t.ty)))) tag t.name v)
          | none => none
        | none => none
      else none
    | some (.out _ _ _) => none
    | some (.array e n esz _) =>
      match collect (fun i => step e (data + i * esz)) 0 n with
      | some vs => some (.seq (isCharNode (poolAt pool (PJ.i32 (off + e)))) vs)
      | none => none
    | some (.vector e l) =>
      if anyWidth l.lenSize && anyWidth l.refSize && l.mode == .pointer && l.minLen == 0 && l.ppl == 0 then
        match collect (fun i => step e (readN m (data + l.refOff) l.refSize + i * l.elemW)) 0
            (readN m (data + l.lenOff) l.lenSize) with
        | some vs => some (.seq (isCharNode (poolAt pool (PJ.i32 (off + e)))) vs)
        | none => none
      else none

/-- `Any` at `a`: `data_` and `offset_` (`any.hpp` 66-68). -/
def anyData (m : Mem) (a : Nat) : Nat := readN m (a + anyDataOff) 8
def anyIndex (m : Mem) (a : Nat) : Int := toSigned 4 (readN m (a + anyOffsetOff) 4)
def anySchema (m : Mem) (a : Nat) : Nat := readN m (a + anyProtocolOff) 8

end PJ
