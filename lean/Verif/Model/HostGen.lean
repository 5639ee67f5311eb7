import Verif.Model.Plan
import Verif.Model.VariantDecl
/-!
# Generated C++ types and their descriptions

Models what `pjc` makes of the types of a schema: the C++ types (`pj/sourcegen.cpp`), their layout in
memory, and the descriptions which the generated and predefined `BuildPJType` specialisations hand to
the runtime (`pj/sourcegen.cpp`, `pj/include/pj/*.hpp`, `pj/runtime.cpp`).

The layout rules of C++ (`sizeof`, `alignof`, `offsetof`) are those of the Itanium ABI on LP64 Linux with
libstdc++: they are part of the trusted base.  Simplifications: types are trees; `any` and `external`
types are left out.
-/
namespace PJ

mutual
/-- A type of a schema as the parser makes it (`pj/parse.cpp` 230-622); widths in bytes. -/
inductive STy
  | int (w : Nat) (s : Sign)
  | float (w : Nat)
  | unit
  | struct (fs : SFields)
  | variant (ts : STerms) (dflt : Nat)
  | array (e : STy) (n : Nat)
  | vector (e : STy) (min : Nat) (max : Option Nat)
inductive SFields
  | nil
  | cons (name : Comp) (t : STy) (rest : SFields)
inductive STerms
  | nil
  | cons (name : Comp) (tag : Nat) (t : STy) (rest : STerms)
end

def SFields.names : SFields → List Comp
  | .nil => []
  | .cons c _ r => c :: r.names

/-- Names and tags of the terms. -/
def STerms.decls : STerms → List (Comp × Nat)
  | .nil => []
  | .cons c g _ r => (c, g) :: r.decls

def STy.isUnit : STy → Bool
  | .unit => true
  | _ => false

/-- `has_value` (`pj/sourcegen.cpp` 667-670). -/
def STerms.hasValue : STerms → Bool
  | .nil => false
  | .cons _ _ t r => !t.isUnit || r.hasValue

/-- `compute_tag_width(type)` (`pj/sourcegen.cpp` 672); 0 where it is undefined. -/
def STerms.tagWidth (ts : STerms) : Nat := (computeTagWidth (ts.decls.map (·.2))).getD 0

/-- The names and tags of a declared variant and its default term, in the order `internVariant`
(`pj/types.hpp` 426-469) puts them: the parser hands out interned types only (`pj/parse.cpp` 607-612). -/
def internDecls (terms : List (Comp × Nat)) (k : Nat) : List (Comp × Nat) × Nat :=
  let r := internVariant (fun _ => false) (terms.map fun t => (nameBytes t.1, t)) k
  (r.1.map (·.2), r.2.1)

/-! ## Layout of the C++ types -/

/-- `sizeof` the integer type printed by `printIntTypeRef` (`pj/sourcegen.cpp` 30-62): `char`, `short`,
`int` or `long` by `ceil(log2(bytes))`. -/
def cppInt (w : Nat) : Nat := [1, 2, 4, 8].getD (log2Ceil w) 0

/-- `pj_wchar`, whose `wrapped_type` is `wchar_t` (`pj/include/pj/integer.hpp` 22, 53-56). -/
def STy.isWchar : STy → Bool
  | .int w s => w == 2 && s == .signless
  | _ => false

/-- Size and alignment of `wrapped_type<T>::type`, given those of the type of a field `T`
(`pj/include/pj/traits.hpp` 5-8, `integer.hpp` 36-95). -/
def wrapped (t : STy) (sa : Nat × Nat) : Nat × Nat := if t.isWchar then (4, 4) else sa

mutual
/-- `sizeof` and `alignof` of the C++ type printed for a type of the schema (`printTypeRef`,
`pj/sourcegen.cpp` 90-141; `addStructDef` 336-356; `addVariantDef` 529-575).  `pj::array` is a
`std::array` (`pj/include/pj/array.hpp` 10-11), `pj::span` a pointer and a size (`span.hpp` 72-73), a
variant a union starting with a `char` and an enum, an enum has its underlying type. -/
def cpp : STy → Nat × Nat
  | .int w _ => (cppInt w, cppInt w)
  | .float w => (w, w)
  | .unit => (1, 1)
  | .struct fs => (max 1 (roundUp (cppFields fs 0).1 (cppFields fs 0).2), (cppFields fs 0).2)
  | .variant ts _ =>
    if ts.hasValue then
      (roundUp (roundUp (roundUp (cppUnion ts).1 (cppUnion ts).2) ts.tagWidth + ts.tagWidth)
        (max (cppUnion ts).2 ts.tagWidth), max (cppUnion ts).2 ts.tagWidth)
    else (ts.tagWidth, ts.tagWidth)
  | .array e n => if n = 0 then (1, 1) else (n * (wrapped e (cpp e)).1, (wrapped e (cpp e)).2)
  | .vector _ _ _ => (16, 8)
/-- The end of the last member, when the members are laid out from an offset on, and the largest
alignment. -/
def cppFields : SFields → Nat → Nat × Nat
  | .nil, off => (off, 1)
  | .cons _ t r, off =>
    ((cppFields r (roundUp off (cpp t).2 + (cpp t).1)).1, max (cpp t).2 (cppFields r (roundUp off (cpp t).2 + (cpp t).1)).2)
/-- The largest size and the largest alignment of the members of the union. -/
def cppUnion : STerms → Nat × Nat
  | .nil => (1, 1)
  | .cons _ _ t r => (max (cpp t).1 (cppUnion r).1, max (cpp t).2 (cppUnion r).2)
end

/-- `offsetof(V, tag)`. -/
def cppTagOff (ts : STerms) : Nat :=
  if ts.hasValue then roundUp (roundUp (cppUnion ts).1 (cppUnion ts).2) ts.tagWidth else 0

/-- `sizeof(V::value)`, 0 if there is none. -/
def cppTermSize (ts : STerms) : Nat := if ts.hasValue then roundUp (cppUnion ts).1 (cppUnion ts).2 else 0

/-! ## Descriptions -/

/-- `sizeof(Elem)` in `BuildPJType<array<Elem, Length>>` (`pj/include/pj/array.hpp` 28), where `Elem` is
printed with `wrap` (`pj/sourcegen.cpp` 119-120): for integers it is the empty struct `pj::integer`
(`integer.hpp` 11-12) of size 1. -/
def arrayElemSize (e : STy) : Nat :=
  match e with
  | .int _ _ => 1
  | _ => (cpp e).1

/-- The layout of `BuildPJType<span<Elem, MaxLength, MinLength>>` (`pj/include/pj/span.hpp` 80-110) for
elements of a described size and alignment; `elem_width` is set by `PJCreateVectorType`
(`pj/runtime.cpp` 264).  Simplification: `kNone` offsets, which are not used, are 0. -/
def spanL (min : Nat) (max : Option Nat) (esz eal : Nat) : VecL :=
  { minLen := 0, maxLen := max, wireMin := min, ppl := 0, lenOff := 8, lenSize := 8, refOff := 0, refSize := 8,
    mode := .pointer, inlOff := 0, parOff := 0, elemW := roundUp esz eal, size := 16, align := 8 }

mutual
/-- The description of the host type: `BuildPJType` for integers (`pj/include/pj/integer.hpp` 99-105), floats
(`float.hpp` 10-28), `Unit` (`unit.hpp` 12-17), arrays (`array.hpp` 22-31), spans, and as generated for
structs (`addStructBuilder`, `pj/sourcegen.cpp` 358-425) and variants (`addVariantBuilder` 577-659).
Simplification: `term_offset` is -1 without a value (614); it is not used for terms without payload, and
0 here. -/
def describe : STy → Ty
  | .int w s => .int w s w
  | .float w => .float w 4
  | .unit => .unit
  | .struct fs => .struct (describeFields fs 0) (cpp (.struct fs)).1 (cpp (.struct fs)).2
  | .variant ts d => .variant (describeTerms ts)
    { outline := false, dflt := d, termOff := 0, termSize := cppTermSize ts, tagOff := cppTagOff ts,
      tagW := ts.tagWidth, size := (cpp (.variant ts d)).1, align := (cpp (.variant ts d)).2, termAlign := 1 }
  | .array e n => .array (describe e) n (arrayElemSize e) (cpp (.array e n)).2
  | .vector e min max => .vector (describe e) (spanL min max (describe e).size (describe e).align)
/-- The fields with `offsetof`, when the members are laid out from an offset on. -/
def describeFields : SFields → Nat → Fields
  | .nil, _ => .nil
  | .cons c t r, off => .cons c (roundUp off (cpp t).2) (describe t) (describeFields r (roundUp off (cpp t).2 + (cpp t).1))
def describeTerms : STerms → Terms
  | .nil => .nil
  | .cons c g t r => .cons c g [] (describe t) (describeTerms r)
end

end PJ
