import Verif.Model.Reflect
import Verif.Model.ReflectWire
import Verif.Model.Framing
import Verif.Spec.Value
/-!
# Sending protocols

`objOf` is the value of the `pj::reflect::Protocol` object which `reflect` (`pj/reflect.cpp` 73-471) makes, as `readVal`
sees it with the description `Refl.host`; `ofObj` is what `unreflect` (90-488) reads from such an object.  The external
enums `Sign` and `ReferenceMode` count from 0 in C++ (`pj/include/pj/arch_base.hpp` 10-16) and from 1 in the schema,
where 0 is the implicit term `undef`, so that the names are shifted by one.

Simplification: the two are read as the descriptions say, by their lowest byte (see `C52_violated`).

`encodeProtoAt` and `decodeProtoAt` are `encodeProto` and `decodeProto` of `pj/context.cpp` (171-259) with the one version
there is (`pj/schema/versions.hpp` 5-8).
-/
namespace PJ
namespace Refl

/-! ## The object -/

/-- `Width` -/
def bits (x : Nat) : Val := .struct [(n "bits_", .int (8 * x))]

/-- `Name` -/
def chars (c : Comp) : Val := .vec (c.map fun x => .int x.toNat)

/-- `QualifiedName` -/
def names (q : List Comp) : Val := .vec (q.map chars)

def enumerator (c : String) : Val := .variant (n c) .unit

/-- The terms with the tags 0, 1 and 2. -/
def signV : Sign → Val
  | .signed => enumerator "undef"
  | .unsigned => enumerator "kSigned"
  | .signless => enumerator "kUnsigned"

/-- The terms with the tags 0 and 1. -/
def modeV : RefMode → Val
  | .pointer => enumerator "undef"
  | .offset => enumerator "kPointer"

def fieldV (f : FieldD Int) : Val :=
  .struct [(n "type", .int f.ty), (n "name", chars f.name), (n "offset", bits f.off)]

def attrV : PAttr → Val
  | .undef d => .variant (n "undef") (.struct [(n "is_default", .int d)])
  | .split i k p d => .variant (n "vector_split") (.struct [(n "type", enumerator (if i then "kInline" else "kOutline")),
    (n "inline_length", .int k), (n "path", names p), (n "is_default", .int d)])

def termV (t : TermD Int PAttr) : Val :=
  .struct [(n "name", chars t.name), (n "type", .int t.ty), (n "tag", .int t.tag),
    (n "attributes", .vec (t.attrs.map attrV))]

/-- `kNone` is -1. -/
def maxV : Option Nat → Val
  | some m => .int m
  | none => .int (-1)

def nodeV : PNode → Val
  | .int w s al => .variant (n "Int") (.struct [(n "width", bits w), (n "alignment", bits al), (n "sign", signV s)])
  | .float k al => .variant (n "Float")
    (.struct [(n "width", enumerator (if k then "k64" else "k32")), (n "alignment", bits al)])
  | .unit => .variant (n "Unit") (.struct [])
  | .struct q fs sz al => .variant (n "Struct")
    (.struct [(n "name", names q), (n "fields", .vec (fs.map fieldV)), (n "size", bits sz), (n "alignment", bits al)])
  | .inl q ts d => .variant (n "InlineVariant")
    (.struct [(n "name", names q), (n "terms", .vec (ts.map termV)), (n "default_term", .int d.dflt),
      (n "term_offset", bits d.termOff), (n "term_size", bits d.termSize), (n "tag_offset", bits d.tagOff),
      (n "tag_width", bits d.tagW), (n "size", bits d.size), (n "alignment", bits d.align)])
  | .out q ts d => .variant (n "OutlineVariant")
    (.struct [(n "name", names q), (n "terms", .vec (ts.map termV)), (n "default_term", .int d.dflt),
      (n "tag_width", bits d.tagW), (n "tag_alignment", bits d.tagAlign), (n "term_offset", bits d.termOff),
      (n "term_alignment", bits d.termAlign)])
  | .array e k esz al => .variant (n "Array")
    (.struct [(n "elem", .int e), (n "length", .int k), (n "elem_size", bits esz), (n "alignment", bits al)])
  | .vector e l => .variant (n "Vector")
    (.struct [(n "elem", .int e), (n "elem_width", bits l.elemW), (n "min_length", .int l.minLen),
      (n "max_length", maxV l.maxLen), (n "ppl_count", .int l.ppl),
      (n "length_offset", bits l.lenOff), (n "length_size", bits l.lenSize), (n "ref_offset", bits l.refOff),
      (n "ref_size", bits l.refSize), (n "reference_mode", modeV l.mode), (n "inline_payload_offset", bits l.inlOff),
      (n "partial_payload_offset", bits l.parOff), (n "size", bits l.size), (n "alignment", bits l.align)])

def objOf (p : PProto) : Val :=
  .struct [(n "pj_version", .int p.version), (n "head", .int p.head), (n "buffer_offset", bits p.bufOff),
    (n "types", .vec (p.types.map nodeV))]

/-! ## Reading it -/

/-- A member. -/
def mem (v : Val) (c : String) : Option Val :=
  match v with
  | .struct vs => vs.lookup (n c)
  | _ => none

def intOf : Val → Option Int
  | .int x => some x
  | _ => none

def natOf (v : Val) : Option Nat := (intOf v).bind fun x => if 0 ≤ x then some x.toNat else none

/-- A number of whole bytes. -/
def bitsOf (v : Val) : Option Nat :=
  (mem v "bits_").bind fun b => (natOf b).bind fun x => if x % 8 = 0 then some (x / 8) else none

def listOf {α} (f : Val → Option α) : Val → Option (List α)
  | .vec l => mapAll f l
  | _ => none

def charOf (v : Val) : Option Char := (natOf v).map Char.ofNat

def namesOf (v : Val) : Option (List Comp) := listOf (listOf charOf) v

def tagOf : Val → Option Comp
  | .variant c _ => some c
  | _ => none

/-- The C++ values 0, 1 and 2. -/
def signOf (v : Val) : Option Sign :=
  (tagOf v).bind fun c =>
    if c = n "undef" then some .signed else if c = n "kSigned" then some .unsigned
    else if c = n "kUnsigned" then some .signless else none

/-- The C++ values 0 and 1. -/
def modeOf (v : Val) : Option RefMode :=
  (tagOf v).bind fun c => if c = n "undef" then some .pointer else if c = n "kPointer" then some .offset else none

def fieldOf (v : Val) : Option (FieldD Int) :=
  match (mem v "type").bind intOf, (mem v "name").bind (listOf charOf), (mem v "offset").bind bitsOf with
  | some ty, some name, some off => some ⟨name, off, ty⟩
  | _, _, _ => none

/-- `unreflectTermAttributes` (344-376). -/
def attrOf : Val → Option PAttr
  | .variant c v =>
    if c = n "undef" then ((mem v "is_default").bind natOf).map .undef
    else if c = n "vector_split" then
      match (mem v "type").bind tagOf, (mem v "inline_length").bind natOf, (mem v "path").bind namesOf,
        (mem v "is_default").bind natOf with
      | some t, some k, some p, some d => some (.split (t = n "kInline") k p d)
      | _, _, _, _ => none
    else none
  | _ => none

def termOf (v : Val) : Option (TermD Int PAttr) :=
  match (mem v "name").bind (listOf charOf), (mem v "type").bind intOf, (mem v "tag").bind natOf,
    (mem v "attributes").bind (listOf attrOf) with
  | some name, some ty, some tag, some attrs => some ⟨name, tag, attrs, ty⟩
  | _, _, _, _ => none

/-- `max_length`: -1 for none. -/
def maxOf (v : Val) : Option (Option Nat) :=
  (intOf v).bind fun x => if x = -1 then some none else (natOf v).map some

/-- The entry, by its tag (`unreflect`, 54-69). -/
def nodeOf : Val → Option PNode
  | .variant c v =>
    if c = n "Int" then
      match (mem v "width").bind bitsOf, (mem v "sign").bind signOf, (mem v "alignment").bind bitsOf with
      | some w, some s, some al => some (.int w s al)
      | _, _, _ => none
    else if c = n "Float" then
      match (mem v "width").bind tagOf, (mem v "alignment").bind bitsOf with
      | some w, some al => some (.float (w ≠ n "k32") al)
      | _, _ => none
    else if c = n "Unit" then some .unit
    else if c = n "Struct" then
      match (mem v "name").bind namesOf, (mem v "fields").bind (listOf fieldOf), (mem v "size").bind bitsOf,
        (mem v "alignment").bind bitsOf with
      | some q, some fs, some sz, some al => some (.struct q fs sz al)
      | _, _, _, _ => none
    else if c = n "InlineVariant" then
      match (mem v "name").bind namesOf, (mem v "terms").bind (listOf termOf), (mem v "default_term").bind natOf,
        (mem v "term_offset").bind bitsOf, (mem v "term_size").bind bitsOf, (mem v "tag_offset").bind bitsOf,
        (mem v "tag_width").bind bitsOf, (mem v "size").bind bitsOf, (mem v "alignment").bind bitsOf with
      | some q, some ts, some d, some to, some ts', some go, some gw, some sz, some al =>
        some (.inl q ts ⟨d, to, ts', go, gw, sz, al⟩)
      | _, _, _, _, _, _, _, _, _ => none
    else if c = n "OutlineVariant" then
      match (mem v "name").bind namesOf, (mem v "terms").bind (listOf termOf), (mem v "default_term").bind natOf,
        (mem v "tag_width").bind bitsOf, (mem v "tag_alignment").bind bitsOf, (mem v "term_offset").bind bitsOf,
        (mem v "term_alignment").bind bitsOf with
      | some q, some ts, some d, some gw, some ga, some to, some ta => some (.out q ts ⟨d, gw, ga, to, ta⟩)
      | _, _, _, _, _, _, _ => none
    else if c = n "Array" then
      match (mem v "elem").bind intOf, (mem v "length").bind natOf, (mem v "elem_size").bind bitsOf,
        (mem v "alignment").bind bitsOf with
      | some e, some k, some esz, some al => some (.array e k esz al)
      | _, _, _, _ => none
    else if c = n "Vector" then
      match (mem v "elem").bind intOf, (mem v "elem_width").bind bitsOf, (mem v "min_length").bind natOf,
        (mem v "max_length").bind maxOf, (mem v "ppl_count").bind natOf, (mem v "length_offset").bind bitsOf,
        (mem v "length_size").bind bitsOf, (mem v "ref_offset").bind bitsOf, (mem v "ref_size").bind bitsOf,
        (mem v "reference_mode").bind modeOf, (mem v "inline_payload_offset").bind bitsOf,
        (mem v "partial_payload_offset").bind bitsOf, (mem v "size").bind bitsOf, (mem v "alignment").bind bitsOf with
      | some e, some ew, some mn, some mx, some ppl, some lo, some ls, some ro, some rs, some m, some io, some po,
        some sz, some al => some (.vector e ⟨ew, mn, mx, ppl, lo, ls, ro, rs, m, io, po, sz, al⟩)
      | _, _, _, _, _, _, _, _, _, _, _, _, _, _ => none
    else none
  | _ => none

def ofObj (v : Val) : Option PProto :=
  match (mem v "pj_version").bind natOf, (mem v "head").bind intOf, (mem v "buffer_offset").bind bitsOf,
    (mem v "types").bind (listOf nodeOf) with
  | some ver, some h, some b, some ts => some ⟨ver, h, b, ts⟩
  | _, _, _, _ => none

/-! ## `encodeProto` and `decodeProto` -/

/-- `CURRENT_VERSION` (`pj/schema/versions.hpp` 5). -/
def version : Nat := 0x100000000

/-- `getProtoSize` (`pj/context.cpp` 152-169); the size function rounds up (`pj/schema/precompile.cpp` 24-25). -/
def getProtoSize (S : Mem) (obj : Nat) : Option Nat :=
  (sizeFn true S host proto [] obj).map fun size => (8 + 8 + 8 + size) % W64

/-- One block (`pj/context.cpp` 178-186), with what `GET_PROTO_SIZE` returns and the function `ENCODE_PROTO`, and the
total size. -/
def encodeBlock (protoSize : Option Nat) (encodeFn : Nat → Mem → Res) (buf : Nat) (m : Mem) : Option Mem :=
  match protoSize with
  | none => none
  | some size =>
    match encodeFn (buf + 24) (writeN (writeN m (buf + 8) 8 version) (buf + 16) 8 size) with
    | .ok s => some (writeN s.mem buf 8 (24 + size))
    | _ => none

/-- `encodeProto` (`pj/context.cpp` 171-193) of the object at `obj`, into the buffer at `buf`. -/
def encodeProtoAt (E : Env) (obj buf : Nat) (m : Mem) : Option Mem :=
  encodeBlock (sizeFn true E.S host proto [] obj) (encode E host proto [] obj) buf m

/-- The decoding loop (`pj/context.cpp` 245-258) with the function `decode_fn`, which takes buffer, size and memory.  The
buffers come from the allocator, `buffers k` in round `k`, and are zeroed.  `fuel` bounds the number of rounds. -/
def decodeLoop (decodeFn : Nat → Nat → Mem → Option Decoded) (buffers : Nat → Nat) : Nat → Nat → Mem → Option Decoded
  | 0, _, _ => none
  | fuel + 1, k, m =>
    match decodeFn (buffers k) (8192 * 2 ^ k)
        (fun x => if buffers k ≤ x ∧ x < buffers k + 8192 * 2 ^ k then 0 else m x) with
    | none => none
    | some d => if d.size < 2 ^ 63 then some d else decodeLoop decodeFn buffers fuel (k + 1) d.mem

/-- `decodeProto` (`pj/context.cpp` 195-259) of the bytes at `file`, of which there are `len`, up to `unreflect`: the
memory in which the decoded object is at `obj`. -/
def decodeProtoAt (E : Env) (file len obj : Nat) (buffers : Nat → Nat) (fuel : Nat) (m : Mem) : Option Mem :=
  match decodeProto (· == version) (readBytes E.S file len) with
  | .found _ pos _ => (decodeLoop (decode E proto host [] (file + pos) obj) buffers fuel 0 m).map (·.mem)
  | _ => none

end Refl
end PJ
