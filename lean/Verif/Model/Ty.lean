import Verif.Model.Path
import Verif.Model.IntConv
/-!
# Types

Models the type data of `pj/types.hpp`.  All widths are whole bytes.  Simplifications: nominal
types are expanded to trees (no names of structs and variants, no sharing, no domains);
`Any` and `Protocol` are not part of `Ty`.
-/
namespace PJ

/-- `ReferenceMode` (`pj/include/pj/arch_base.hpp` 18-21). -/
inductive RefMode
  | pointer | offset
deriving DecidableEq, Repr

/-- The lengths and the layout of `Vector` (`pj/types.hpp` 664-760); `maxLen = none` stands for
`max_length = -1`.  `inline_payload_size`, `partial_payload_size` and
`outlined_payload_alignment` are left out: nothing in `generate_ir.cpp` or `llvm_gen2.cpp` reads
them. -/
structure VecL where
  minLen : Nat
  maxLen : Option Nat
  wireMin : Nat
  ppl : Nat
  lenOff : Nat
  lenSize : Nat
  refOff : Nat
  refSize : Nat
  mode : RefMode
  inlOff : Nat
  parOff : Nat
  elemW : Nat
  size : Nat
  align : Nat
deriving DecidableEq, Repr

/-- Default index and layout of `InlineVariant` and `OutlineVariant`
(`pj/types.hpp` 338-424).  For outline variants `tagOff = 0` (575-578), `size = tagW` (397). -/
structure VarL where
  outline : Bool
  dflt : Nat
  termOff : Nat
  termSize : Nat
  tagOff : Nat
  tagW : Nat
  size : Nat
  align : Nat
  termAlign : Nat
deriving DecidableEq, Repr

/-- `TermAttribute` (`pj/types.hpp` 279-312); `split true` is `kInline`. -/
inductive Attr
  | undef (isDefault : Bool)
  | split (inl : Bool) (n : Nat) (path : Path)
deriving DecidableEq, Repr

mutual
/-- `ValueType`: `Int` (`pj/types.hpp` 40-63), `Float` (100-121), `Unit` (193-212),
`Struct` (235-265), `InlineVariant`/`OutlineVariant` (338-424), `Array` (592-626),
`Vector` (664-760). -/
inductive Ty
  | int (w : Nat) (s : Sign) (al : Nat)
  | float (w : Nat) (al : Nat)
  | unit
  | struct (fs : Fields) (size al : Nat)
  | variant (ts : Terms) (l : VarL)
  | array (e : Ty) (len esz al : Nat)
  | vector (e : Ty) (l : VecL)
/-- A list of `StructField` (`pj/types.hpp` 220-233): name, offset, type. -/
inductive Fields
  | nil
  | cons (name : Comp) (off : Nat) (t : Ty) (rest : Fields)
/-- A list of `Term` (`pj/types.hpp` 314-331): name, tag, attributes, type. -/
inductive Terms
  | nil
  | cons (name : Comp) (tag : Nat) (attrs : List Attr) (t : Ty) (rest : Terms)
end

/-- `headSize` (`pj/types.hpp` 57, 115, 207, 250, 355, 397, 616, 751). -/
def Ty.size : Ty → Nat
  | .int w _ _ => w
  | .float w _ => w
  | .unit => 0
  | .struct _ s _ => s
  | .variant _ l => l.size
  | .array _ n esz _ => n * esz
  | .vector _ l => l.size

/-- `headAlignment` (`pj/types.hpp` 58, 116, 208, 251, 356, 399-404, 617, 756). -/
def Ty.align : Ty → Nat
  | .int _ _ a => a
  | .float _ a => a
  | .unit => 1
  | .struct _ _ a => a
  | .variant _ l => if l.outline then max l.align l.termAlign else l.align
  | .array _ _ _ a => a
  | .vector _ l => l.align

/-- The fields as a list. -/
def Fields.toList : Fields → List (Comp × Nat × Ty)
  | .nil => []
  | .cons n o t r => (n, o, t) :: r.toList

/-- First field of a name (`projectPath`, `pj/generate_ir.cpp` 203-205). -/
def Fields.find : Fields → Comp → Option (Nat × Ty)
  | .nil, _ => none
  | .cons n o t r, c => if n = c then some (o, t) else r.find c

/-- The map `from_fields` (`pj/generate_ir.cpp` 327-330): the last field of a name wins. -/
def Fields.findLast : Fields → Comp → Option (Nat × Ty)
  | .nil, _ => none
  | .cons n o t r, c =>
    match r.findLast c with
    | some x => some x
    | none => if n = c then some (o, t) else none

/-- One term. -/
structure Term where
  name : Comp
  tag : Nat
  attrs : List Attr
  ty : Ty

/-- The terms as a list. -/
def Terms.toList : Terms → List Term
  | .nil => []
  | .cons n g a t r => ⟨n, g, a, t⟩ :: r.toList

def Terms.ofList : List Term → Terms
  | [] => .nil
  | t :: r => .cons t.name t.tag t.attrs t.ty (Terms.ofList r)

/-- `is_enum`: every term type has size 0 (`pj/types.hpp` 449-462, `isUnit` in
`pj/type_support.hpp` 89-92); only set for inline variants (465-467, `isEnum` in
`pj/type_support.cpp` 123-128). -/
def Terms.isEnum (ts : Terms) : Bool := ts.toList.all fun t => t.ty.size == 0

mutual
/-- Whether `outline_variant` is set: the type is an outline variant or a struct with such a field
(`pj/types.cpp` 27-35; the condition of `pj/generate_ir.cpp` 338-340). -/
def Ty.hasOut : Ty → Bool
  | .variant _ l => l.outline
  | .struct fs _ _ => fs.hasOut
  | _ => false
def Fields.hasOut : Fields → Bool
  | .nil => false
  | .cons _ _ t r => t.hasOut || r.hasOut
end

end PJ
