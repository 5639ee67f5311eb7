import Verif.Model.HostGen
/-!
# The types with which protocols are sent

A protocol is sent as an object of the type `pj::reflect::Protocol` (`pj/reflect.pj` 167-172).  Here are the description
of the C++ type (`host`) and the message type of version 0.1 (`wire`).

The C++ types are those which `pjc` generates from `pj/reflect.pj`, laid out as in `Model/HostGen.lean`, except for the
`external` ones: `Width` (`pj/include/pj/arch_base.hpp` 42-110) holds an `int64_t`, `Sign` and `ReferenceMode` (10-16) are
`enum class`es without underlying type, which is `int` then, and all vectors are `offset_span`s
(`pj/include/pj/offset_span.hpp` 68-104).  `addVariantBuilder` (`pj/sourcegen.cpp` 581-678) takes the tags of the terms
and the tag width from the schema, also for the two external enums.
-/
namespace PJ
namespace Refl

/-- `pj/include/pj/offset_span.hpp` 68-104: an offset and a size.  `kNone` offsets, which are not used, are 0. -/
def spanL (esz eal : Nat) : VecL :=
  { minLen := 0, maxLen := none, wireMin := 0, ppl := 0, lenOff := 8, lenSize := 8, refOff := 0, refSize := 8,
    mode := .offset, inlOff := 0, parOff := 0, elemW := roundUp esz eal, size := 16, align := 8 }

def span (e : Ty) : Ty := .vector e (spanL e.size e.align)

/-- Members with `offsetof` from an offset on, the end of the last one and the largest alignment. -/
def members : List (Comp × Ty) → Nat → Fields × Nat × Nat
  | [], off => (.nil, off, 1)
  | (c, t) :: r, off =>
    let o := roundUp off t.align
    let x := members r (o + t.size)
    (.cons c o t x.1, x.2.1, max t.align x.2.2)

/-- A generated struct (`addStructDef`, `addStructBuilder`); `sizeof` is at least 1. -/
def strct (fs : List (Comp × Ty)) : Ty :=
  let x := members fs 0
  .struct x.1 (max 1 (roundUp x.2.1 x.2.2)) x.2.2

/-- An enum of a size and alignment with the given terms: 1 byte of tag.  The default is the last term. -/
def enm (ts : List (Comp × Nat)) (size : Nat) : Ty :=
  .variant (.ofList (ts.map fun t => ⟨t.1, t.2, [], .unit⟩))
    { outline := false, dflt := ts.length - 1, termOff := 0, termSize := 0, tagOff := 0, tagW := 1, size := size,
      align := size, termAlign := 1 }

/-- Size and alignment of a union. -/
def union (ts : List (Comp × Nat × Ty)) : Nat × Nat :=
  let al := ts.foldl (fun a t => max a t.2.2.align) 1
  (roundUp (ts.foldl (fun a t => max a t.2.2.size) 1) al, al)

/-- A generated variant: a union and 1 byte of tag. -/
def vrnt (ts : List (Comp × Nat × Ty)) (dflt : Nat) : Ty :=
  .variant (.ofList (ts.map fun t => ⟨t.1, t.2.1, [], t.2.2⟩))
    { outline := false, dflt := dflt, termOff := 0, termSize := (union ts).1, tagOff := (union ts).1, tagW := 1,
      size := roundUp ((union ts).1 + 1) (union ts).2, align := (union ts).2, termAlign := 1 }

def n (s : String) : Comp := s.toList

def i32 : Ty := .int 4 .signed 4
def i64 : Ty := .int 8 .signed 8
def u64 : Ty := .int 8 .unsigned 8
def u8 : Ty := .int 1 .unsigned 1
/-- `char8[:]` -/
def name : Ty := span (.int 1 .signless 1)
def qname : Ty := span name
def width : Ty := .struct (.cons (n "bits_") 0 i64 .nil) 8 8
def sign : Ty := enm [(n "kSigned", 1), (n "kSignless", 3), (n "kUnsigned", 2), (n "undef", 0)] 4
def mode : Ty := enm [(n "kOffset", 2), (n "kPointer", 1), (n "undef", 0)] 4
def floatWidth : Ty := enm [(n "k32", 1), (n "k64", 2), (n "undef", 0)] 1
def splitType : Ty := enm [(n "kInline", 1), (n "kOutline", 2), (n "undef", 0)] 1

def int : Ty := strct [(n "width", width), (n "alignment", width), (n "sign", sign)]
def float : Ty := strct [(n "width", floatWidth), (n "alignment", width)]
def unit : Ty := strct []
def field : Ty := strct [(n "type", i32), (n "name", name), (n "offset", width)]
def struct : Ty := strct [(n "name", qname), (n "fields", span field), (n "size", width), (n "alignment", width)]
def undef : Ty := strct [(n "is_default", u8)]
def split : Ty := strct [(n "type", splitType), (n "inline_length", u64), (n "path", qname), (n "is_default", u8)]
def attr : Ty := vrnt [(n "undef", 0, undef), (n "vector_split", 1, split)] 0
def term : Ty := strct [(n "name", name), (n "type", i32), (n "tag", u64), (n "attributes", span attr)]
def inl : Ty := strct [(n "name", qname), (n "terms", span term), (n "default_term", u64), (n "term_offset", width),
  (n "term_size", width), (n "tag_offset", width), (n "tag_width", width), (n "size", width), (n "alignment", width)]
def out : Ty := strct [(n "name", qname), (n "terms", span term), (n "default_term", u64), (n "tag_width", width),
  (n "tag_alignment", width), (n "term_offset", width), (n "term_alignment", width)]
def array : Ty := strct [(n "elem", i32), (n "length", u64), (n "elem_size", width), (n "alignment", width)]
def vector : Ty := strct [(n "elem", i32), (n "elem_width", width), (n "min_length", u64), (n "max_length", i64),
  (n "ppl_count", i64), (n "length_offset", width), (n "length_size", width), (n "ref_offset", width),
  (n "ref_size", width), (n "reference_mode", mode), (n "inline_payload_offset", width),
  (n "partial_payload_offset", width), (n "size", width), (n "alignment", width)]
def type : Ty := vrnt [(n "Array", 7, array), (n "Float", 2, float), (n "InlineVariant", 5, inl), (n "Int", 1, int),
  (n "OutlineVariant", 6, out), (n "Struct", 4, struct), (n "Unit", 3, unit), (n "Vector", 8, vector),
  (n "undef", 0, .unit)] 8

/-- The description of the C++ type `pj::reflect::Protocol`. -/
def host : Ty := strct [(n "pj_version", i32), (n "head", i32), (n "buffer_offset", width), (n "types", span type)]

/-! ## Version 0.1 (`pj/schema/reflect.pj.v0_1.hpp` 170-900)

The numbers are those of the file, divided by 8. -/
namespace Wire

/-- All vectors of the file are described alike; `elem_width` is set by `PJCreateVectorType` (`pj/runtime.cpp` 264). -/
def vecL (esz eal : Nat) : VecL :=
  { minLen := 0, maxLen := none, wireMin := 0, ppl := 0, lenOff := 0, lenSize := 8, refOff := 8, refSize := 8,
    mode := .offset, inlOff := 8, parOff := 16, elemW := roundUp esz eal, size := 16, align := 1 }

def vec (e : Ty) : Ty := .vector e (vecL e.size e.align)

def fields : List (Comp × Nat × Ty) → Fields
  | [] => .nil
  | (c, o, t) :: r => .cons c o t (fields r)

def strct (fs : List (Comp × Nat × Ty)) (size align : Nat) : Ty := .struct (fields fs) size align

def vrnt (ts : List (Comp × Nat × Ty)) (dflt termSize tagOff tagW size : Nat) : Ty :=
  .variant (.ofList (ts.map fun t => ⟨t.1, t.2.1, [], t.2.2⟩))
    { outline := false, dflt := dflt, termOff := 0, termSize := termSize, tagOff := tagOff, tagW := tagW,
      size := size, align := 1, termAlign := 0 }

def width : Ty := strct [(n "bits_", 0, .int 8 .signed 1)] 8 1
def array : Ty := strct [(n "elem", 0, .int 4 .signed 1), (n "length", 4, .int 8 .unsigned 1),
  (n "elem_size", 12, width), (n "alignment", 20, width)] 28 1
def floatWidth : Ty := vrnt [(n "k32", 1, .unit), (n "k64", 2, .unit), (n "undef", 0, .unit)] 2 0 0 1 1
def float : Ty := strct [(n "width", 0, floatWidth), (n "alignment", 1, width)] 9 1
def undef : Ty := strct [(n "is_default", 0, .int 1 .unsigned 1)] 1 1
def vectorSplitType : Ty := vrnt [(n "kInline", 1, .unit), (n "kOutline", 2, .unit), (n "undef", 0, .unit)] 2 0 0 1 1
def vectorSplit : Ty := strct [(n "type", 0, vectorSplitType), (n "inline_length", 1, .int 8 .unsigned 1),
  (n "path", 9, vec (vec (.int 1 .signless 1))), (n "is_default", 25, .int 1 .unsigned 1)] 26 1
def termAttribute : Ty := vrnt [(n "undef", 0, undef), (n "vector_split", 1, vectorSplit)] 0 26 26 1 27
def term : Ty := strct [(n "name", 0, vec (.int 1 .signless 1)), (n "type", 16, .int 4 .signed 1),
  (n "tag", 20, .int 8 .unsigned 1), (n "attributes", 28, vec termAttribute)] 44 1
def inlineVariant : Ty := strct [(n "name", 0, vec (vec (.int 1 .signless 1))), (n "terms", 16, vec term),
  (n "default_term", 32, .int 8 .unsigned 1), (n "term_offset", 40, width), (n "term_size", 48, width),
  (n "tag_offset", 56, width), (n "tag_width", 64, width), (n "size", 72, width), (n "alignment", 80, width)] 88 1
def sign : Ty := vrnt [(n "kSigned", 1, .unit), (n "kSignless", 3, .unit), (n "kUnsigned", 2, .unit),
  (n "undef", 0, .unit)] 3 0 0 1 1
def int : Ty := strct [(n "width", 0, width), (n "alignment", 8, width), (n "sign", 16, sign)] 17 1
def outlineVariant : Ty := strct [(n "name", 0, vec (vec (.int 1 .signless 1))), (n "terms", 16, vec term),
  (n "default_term", 32, .int 8 .unsigned 1), (n "tag_width", 40, width), (n "tag_alignment", 48, width),
  (n "term_offset", 56, width), (n "term_alignment", 64, width)] 72 1
def structField : Ty := strct [(n "type", 0, .int 4 .signed 1), (n "name", 4, vec (.int 1 .signless 1)),
  (n "offset", 20, width)] 28 1
def struct : Ty := strct [(n "name", 0, vec (vec (.int 1 .signless 1))), (n "fields", 16, vec structField),
  (n "size", 32, width), (n "alignment", 40, width)] 48 1
def unit : Ty := strct [] 0 1
def referenceMode : Ty := vrnt [(n "kOffset", 2, .unit), (n "kPointer", 1, .unit), (n "undef", 0, .unit)] 2 0 0 1 1
def vector : Ty := strct [(n "elem", 0, .int 4 .signed 1), (n "elem_width", 4, width),
  (n "min_length", 12, .int 8 .unsigned 1), (n "max_length", 20, .int 8 .signed 1),
  (n "ppl_count", 28, .int 8 .signed 1), (n "length_offset", 36, width), (n "length_size", 44, width),
  (n "ref_offset", 52, width), (n "ref_size", 60, width), (n "reference_mode", 68, referenceMode),
  (n "inline_payload_offset", 69, width), (n "partial_payload_offset", 77, width), (n "size", 85, width),
  (n "alignment", 93, width)] 101 1
def type : Ty := vrnt [(n "Array", 7, array), (n "Float", 2, float), (n "InlineVariant", 5, inlineVariant),
  (n "Int", 1, int), (n "OutlineVariant", 6, outlineVariant), (n "Struct", 4, struct), (n "Unit", 3, unit),
  (n "Vector", 8, vector), (n "undef", 0, .unit)] 8 101 101 1 102
def protocol : Ty := strct [(n "pj_version", 0, .int 4 .signed 1), (n "head", 4, .int 4 .signed 1),
  (n "buffer_offset", 8, width), (n "types", 16, vec type)] 32 1

end Wire

/-- `BuildPJProtocol<::v0_1::pj::reflect::Schema>`. -/
def proto : Proto := ⟨Wire.protocol, 0⟩

end Refl
end PJ
