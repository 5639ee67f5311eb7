import Verif.Model.Ty
import Verif.Model.Intern
/-!
# Reflection of protocols

Models `pj/reflect.cpp` 29-488 (`reflect`, `unreflect`) with the record types of `pj/reflect.pj`.

Types are modelled as MLIR has them (`pj/type_support.hpp` 135-255): structural types (`Int`, `Float`,
`Unit`, `Array`, `Vector`) are unique per contents, so a value of the type is its contents; nominal types
(`Struct`, `InlineVariant`, `OutlineVariant`) are unique per kind and name in a domain, and their data is
found in the context.  Equality of `Ref`s is equality of `getAsOpaquePointer`.

Simplifications: one domain at a time (protocols are laid out in one wire domain, `unreflect` uses a fresh
one, `pj/context.cpp` 255-256); widths are bytes as in `Model/Ty.lean`; memory of the allocator and the
offset spans are not modelled (see C25); `outline_variant`, `has_max_size` and `is_enum`, which
`type_intern` derives, are left out; `Any` and `Protocol` are `UNREACHABLE` there and not part of `Ref`.
-/
namespace PJ

/-- The three nominal kinds. -/
inductive NKind
  | struct | inl | out
deriving DecidableEq, Repr

/-- Kind and qualified name (`NominalTypeStorage::KeyTy`, `pj/type_support.hpp` 194). -/
structure Key where
  kind : NKind
  name : List Comp
deriving DecidableEq, Repr

/-- A `ValueType`. -/
inductive Ref
  | int (w : Nat) (s : Sign) (al : Nat)
  | float (w : Nat) (al : Nat)
  | unit
  | nom (k : Key)
  | array (e : Ref) (len esz al : Nat)
  | vector (e : Ref) (l : VecL)
deriving DecidableEq, Repr

/-- `StructField`, with `α` for the type. -/
structure FieldD (α : Type) where
  name : Comp
  off : Nat
  ty : α
deriving DecidableEq, Repr

/-- `Term`, with `α` for the type and `β` for the attributes. -/
structure TermD (α β : Type) where
  name : Comp
  tag : Nat
  attrs : List β
  ty : α
deriving DecidableEq, Repr

/-- `InlineVariant` without the terms (`pj/types.hpp` 338-381). -/
structure InlD where
  dflt : Nat
  termOff : Nat
  termSize : Nat
  tagOff : Nat
  tagW : Nat
  size : Nat
  align : Nat
deriving DecidableEq, Repr

/-- `OutlineVariant` without the terms (`pj/types.hpp` 389-424). -/
structure OutD where
  dflt : Nat
  tagW : Nat
  tagAlign : Nat
  termOff : Nat
  termAlign : Nat
deriving DecidableEq, Repr

/-- The data of a nominal type. -/
inductive Data
  | struct (fs : List (FieldD Ref)) (size al : Nat)
  | inl (ts : List (TermD Ref Attr)) (d : InlD)
  | out (ts : List (TermD Ref Attr)) (d : OutD)
deriving DecidableEq, Repr

/-- The nominal types of a domain. -/
abbrev Ctx := Key → Option Data

/-! ## Pool entries (`pj/reflect.pj`) -/

/-- `TermAttribute` of `reflect.pj` (lines 73-92); `is_default` is a `uint8`. -/
inductive PAttr
  | undef (isDefault : Nat)
  | split (inl : Bool) (n : Nat) (path : List Comp) (isDefault : Nat)
deriving DecidableEq, Repr

/-- `Vector` of `reflect.pj` (lines 135-150) without the element: it has no `wire_min_length`. -/
structure PVec where
  elemW : Nat
  minLen : Nat
  maxLen : Option Nat
  ppl : Nat
  lenOff : Nat
  lenSize : Nat
  refOff : Nat
  refSize : Nat
  mode : RefMode
  inlOff : Nat
  parOff : Nat
  size : Nat
  align : Nat
deriving DecidableEq, Repr

/-- `Type` of `reflect.pj` (lines 152-161).  Child types are relative indices. -/
inductive PNode
  | int (w : Nat) (s : Sign) (al : Nat)
  | float (k64 : Bool) (al : Nat)
  | unit
  | struct (name : List Comp) (fs : List (FieldD Int)) (size al : Nat)
  | inl (name : List Comp) (ts : List (TermD Int PAttr)) (d : InlD)
  | out (name : List Comp) (ts : List (TermD Int PAttr)) (d : OutD)
  | array (e : Int) (len esz al : Nat)
  | vector (e : Int) (l : PVec)
deriving DecidableEq, Repr

/-- Conversion to `int32_t`. -/
def i32 (x : Int) : Int := Int.bmod x (2 ^ 32)

/-! ## `reflect` -/

/-- The types inside a type, in the order in which `reflect` visits them. -/
def Data.kids : Data → List Ref
  | .struct fs _ _ => fs.map (·.ty)
  | .inl ts _ => ts.map (·.ty)
  | .out ts _ => ts.map (·.ty)

def kids (ctx : Ctx) : Ref → List Ref
  | .nom k => match ctx k with
    | some d => d.kids
    | none => []
  | .array e _ _ _ => [e]
  | .vector e _ => [e]
  | _ => []

/-- `reflectTermAttributes` (315-342). -/
def reflectAttr : Attr → PAttr
  | .undef d => .undef d.toNat
  | .split inl n p => .split inl n p (!inl).toNat

/-- `fields[i].type - this_offset` (186-189), `elem - pool.size()` (226, 254),
`terms_alloc[i].type - this_offset` (392-395). -/
def relative (pos : Nat) (i : Int) : Int := i32 (i - i32 pos)

/-- The entry for a type, given the indices of its children and its own position:
`reflect(IntType)` (101-111), `FloatType` (123-134), `UnitType` (148-152), `StructType` (174-198),
`ArrayType` (222-235), `VectorType` (250-273), `InlineVariantType` (418-435), `OutlineVariantType`
(456-471) with `reflectTerms` (378-397). -/
def entry (ctx : Ctx) (r : Ref) (is : List Int) (pos : Nat) : Option PNode :=
  match r with
  | .int w s al => some (.int w s al)
  | .float w al => some (.float (w ≠ 4) al)
  | .unit => some .unit
  | .array _ n esz al =>
    match is with
    | [i] => some (.array (relative pos i) n esz al)
    | _ => none
  | .vector _ l =>
    match is with
    | [i] => some (.vector (relative pos i)
        { elemW := l.elemW, minLen := l.minLen, maxLen := l.maxLen, ppl := l.ppl, lenOff := l.lenOff,
          lenSize := l.lenSize, refOff := l.refOff, refSize := l.refSize, mode := l.mode,
          inlOff := l.inlOff, parOff := l.parOff, size := l.size, align := l.align })
    | _ => none
  | .nom k =>
    match ctx k with
    | none => none
    | some (.struct fs size al) =>
      some (.struct k.name (fs.zipWith (fun f i => ⟨f.name, f.off, relative pos i⟩) is) size al)
    | some (.inl ts d) =>
      some (.inl k.name (ts.zipWith (fun t i => ⟨t.name, t.tag, t.attrs.map reflectAttr,
        relative pos i⟩) is) d)
    | some (.out ts d) =>
      some (.out k.name (ts.zipWith (fun t i => ⟨t.name, t.tag, t.attrs.map reflectAttr,
        relative pos i⟩) is) d)

/-- Pool and cache (73-78). -/
structure RState where
  pool : List PNode
  cache : List (Ref × Int)

/-- The loops over fields and terms (180-186, 384-391). -/
def reflectAll (step : Ref → RState → Option (Int × RState)) :
    List Ref → RState → Option (List Int × RState)
  | [], s => some ([], s)
  | r :: rs, s =>
    match step r s with
    | none => none
    | some (i, s) =>
      match reflectAll step rs s with
      | none => none
      | some (is, s) => some (i :: is, s)

/-- `reflect(ValueType)` (29-52): the index of the type.  The recursion depth is bounded by `fuel`;
`none`: out of fuel or undefined type. -/
def reflect (ctx : Ctx) : Nat → Ref → RState → Option (Int × RState)
  | 0, _, _ => none
  | fuel + 1, r, s =>
    match s.cache.lookup r with
    | some i => some (i, s)
    | none =>
      match reflectAll (reflect ctx fuel) (kids ctx r) s with
      | none => none
      | some (is, s) =>
        match entry ctx r is s.pool.length with
        | none => none
        | some e =>
          let pool := s.pool ++ [e]
          let result := i32 (pool.length - 1)
          some (result, ⟨pool, s.cache ++ [(r, result)]⟩)

/-- `Protocol` of `reflect.pj` (lines 167-172). -/
structure PProto where
  version : Nat
  head : Int
  bufOff : Nat
  types : List PNode

/-- `reflect(ProtocolType)` (73-88). -/
def reflectProto (ctx : Ctx) (fuel : Nat) (head : Ref) (bufOff : Nat) : Option PProto :=
  match reflect ctx fuel head ⟨[], []⟩ with
  | none => none
  | some (h, s) => some ⟨0, h, bufOff, s.pool⟩

/-! ## `unreflect` -/

/-- The relative indices of an entry, in the order in which `unreflect` visits them. -/
def PNode.kids : PNode → List Int
  | .struct _ fs _ _ => fs.map (·.ty)
  | .inl _ ts _ => ts.map (·.ty)
  | .out _ ts _ => ts.map (·.ty)
  | .array e _ _ _ => [e]
  | .vector e _ => [e]
  | _ => []

/-- `unreflectTermAttributes` (344-376). -/
def unreflectAttr : PAttr → Attr
  | .undef d => .undef (d != 0)
  | .split inl n p _ => .split inl n p

/-- `type_intern` of variants (`pj/types.hpp` 426-469): terms and default index. -/
def internTermsD (ts : List (TermD Ref Attr)) (dflt : Nat) : List (TermD Ref Attr) × Nat :=
  let r := internVariant (fun _ : TermD Ref Attr => false) (ts.map fun t => (t.name.map Char.toNat, t))
    dflt
  (r.1.map (·.2), r.2.1)

/-- `setTypeData` (`pj/type_support.hpp` 227-231, 278-280). -/
def setTypeData (ctx : Ctx) (k : Key) (d : Data) : Ctx := fun k' =>
  if k' = k then
    match d with
    | .struct fs size al => some (.struct fs size al)
    | .inl ts d => some (.inl (internTermsD ts d.dflt).1 { d with dflt := (internTermsD ts d.dflt).2 })
    | .out ts d => some (.out (internTermsD ts d.dflt).1 { d with dflt := (internTermsD ts d.dflt).2 })
  else ctx k'

/-- The type of an entry whose children have been made: `unreflect(Int)` (113-121), `Float` (136-146),
`Unit` (154-158), `Struct` (200-220), `Array` (237-248), `Vector` (275-296), `InlineVariant` (437-454),
`OutlineVariant` (473-488) with `unreflectTerms` (399-416). -/
def build (ctx : Ctx) (e : PNode) (rs : List Ref) : Option (Ref × Ctx) :=
  match e with
  | .int w s al => some (.int w s al, ctx)
  | .float k al => some (.float (if k then 8 else 4) al, ctx)
  | .unit => some (.unit, ctx)
  | .array _ n esz al =>
    match rs with
    | [r] => some (.array r n esz al, ctx)
    | _ => none
  | .vector _ l =>
    match rs with
    | [r] => some (.vector r
        { elemW := l.elemW, minLen := l.minLen, maxLen := l.maxLen, wireMin := 0, ppl := l.ppl,
          lenOff := l.lenOff, lenSize := l.lenSize, refOff := l.refOff, refSize := l.refSize,
          mode := l.mode, inlOff := l.inlOff, parOff := l.parOff, size := l.size, align := l.align },
        ctx)
    | _ => none
  | .struct name fs size al =>
    some (.nom ⟨.struct, name⟩, setTypeData ctx ⟨.struct, name⟩
      (.struct (fs.zipWith (fun f r => ⟨f.name, f.off, r⟩) rs) size al))
  | .inl name ts d =>
    some (.nom ⟨.inl, name⟩, setTypeData ctx ⟨.inl, name⟩
      (.inl (ts.zipWith (fun t r => ⟨t.name, t.tag, t.attrs.map unreflectAttr, r⟩) rs) d))
  | .out name ts d =>
    some (.nom ⟨.out, name⟩, setTypeData ctx ⟨.out, name⟩
      (.out (ts.zipWith (fun t r => ⟨t.name, t.tag, t.attrs.map unreflectAttr, r⟩) rs) d))

/-- `pool[index]`; outside the pool the access is undefined. -/
def poolAt (pool : List PNode) (index : Int) : Option PNode :=
  if 0 ≤ index then pool[index.toNat]? else none

/-- The loops over fields and terms (205-213, 406-414): `index + f.type`. -/
def unreflectAll (step : Int → Ctx → Option (Ref × Ctx)) (index : Int) :
    List Int → Ctx → Option (List Ref × Ctx)
  | [], ctx => some ([], ctx)
  | i :: is, ctx =>
    match step (i32 (index + i)) ctx with
    | none => none
    | some (r, ctx) =>
      match unreflectAll step index is ctx with
      | none => none
      | some (rs, ctx) => some (r :: rs, ctx)

/-- `unreflect(Type)` (54-69) at an index. -/
def unreflect (pool : List PNode) : Nat → Int → Ctx → Option (Ref × Ctx)
  | 0, _, _ => none
  | fuel + 1, index, ctx =>
    match poolAt pool index with
    | none => none
    | some e =>
      match unreflectAll (unreflect pool fuel) index e.kids ctx with
      | none => none
      | some (rs, ctx) => build ctx e rs

/-- `unreflect(Protocol)` (90-99) in a fresh domain: head, buffer offset, nominal types. -/
def unreflectProto (fuel : Nat) (p : PProto) : Option (Ref × Nat × Ctx) :=
  match unreflect p.types fuel p.head (fun _ => none) with
  | none => none
  | some (r, ctx) => some (r, p.bufOff, ctx)

end PJ
