import Verif.Model.Any
import Verif.Model.RecordFile
/-!
# What `pjcat` prints

Models `print` and the loop over the messages (`pj/pjcat.cpp` 19-91, 136-168).  Characters are bytes; `F` is how the
standard library prints the number whose bits are given.
-/
namespace PJ

/-- `std::cout <<` of a `uint64_t`. -/
def natText (n : Nat) : List Char := Nat.toDigits 10 n

/-- `std::cout <<` of an `int64_t`. -/
def intText (i : Int) : List Char := if i < 0 then '-' :: natText i.natAbs else natText i.natAbs

/-- A character of a string (70): `getValue<char>()`. -/
def charText : AVal → List Char
  | .int _ _ v => [Char.ofNat (v % 256).toNat]
  | _ => []

/-! The pieces of text in 47, 55, 56 and 58. -/
def textColon : List Char := ['"', ':']
def textTag : List Char := ['{', '"', 't', 'a', 'g', '"', ':']
def textName : List Char := [',', '"', 'n', 'a', 'm', 'e', '"', ':', '"']
def textData : List Char := [',', '"', 'd', 'a', 't', 'a', '"', ':']

mutual
/-- `print` (19-91) -/
def printAny (F : Nat → Nat → List Char) : AVal → List Char
  | .int _ _ v => intText v
  | .float w b => F w b
  | .unit => ['{', '}']
  | .struct fs => '{' :: printFields F fs ++ ['}']
  | .variant enum tag name v =>
    textTag ++ natText tag ++ textName ++ name ++ ['"'] ++ (if enum then [] else textData ++ printAny F v) ++ ['}']
  | .seq string l =>
    if string then '"' :: (l.map charText).flatten ++ ['"'] else '[' :: printElems F l ++ [']']
/-- The fields (42-49): a comma before all but the first. -/
def printFields (F : Nat → Nat → List Char) : List (Comp × AVal) → List Char
  | [] => []
  | f :: r => printField F f ++ printMoreFields F r
def printMoreFields (F : Nat → Nat → List Char) : List (Comp × AVal) → List Char
  | [] => []
  | f :: r => ',' :: printField F f ++ printMoreFields F r
def printField (F : Nat → Nat → List Char) : Comp × AVal → List Char
  | (c, v) => '"' :: c ++ textColon ++ printAny F v
/-- The elements (76-82). -/
def printElems (F : Nat → Nat → List Char) : List AVal → List Char
  | [] => []
  | v :: r => printAny F v ++ printMoreElems F r
def printMoreElems (F : Nat → Nat → List Char) : List AVal → List Char
  | [] => []
  | v :: r => ',' :: printAny F v ++ printMoreElems F r
end

/-! ## The loop over the messages -/

/-- The bytes are in memory at `a`. -/
def HoldsAt (m : Mem) (a : Nat) (bytes : List UInt8) : Prop :=
  a + bytes.length < W64 ∧ ∀ i (h : i < bytes.length), m (a + i) = bytes[i]

/-- What stays the same while a file is printed: the decode function (`p` is the protocol of the file, `schema` and
`pool` are the schema of its reflectable type) and the addresses of `any` and `dec_buffer`. -/
structure Cat where
  E : Env
  F : Nat → Nat → List Char
  schema : Nat
  pool : PProto
  p : Proto
  any : Nat
  dbuf : Nat

/-- One call of the decode function (155-157), with the message somewhere in memory. -/
inductive Cat.Call (c : Cat) (claimed : Nat) (msg : List UInt8) (d : Decoded) : Prop
  | mk (src mem : Mem) (mb : Nat) (h : HoldsAt src mb msg)
      (hd : decodeAny { c.E with S := src } c.schema c.pool.head c.p mb c.any c.dbuf claimed mem = some d)

/-- The inner loop (154-167) for one message, with `dec_size` before and after: what is printed. -/
inductive Cat.Msg (c : Cat) (msg : List UInt8) : Nat → List Char → Nat → Prop
  | done {claimed : Nat} {d : Decoded} {x : AVal} (h : c.Call claimed msg d) (hs : d.size < 2 ^ 63)
      (hx : anyRead c.pool.types d.mem c.pool.types.length (anyIndex d.mem c.any) (anyData d.mem c.any) = some x) :
      c.Msg msg claimed (printAny c.F x ++ ['\n']) claimed
  | retry {claimed claimed' : Nat} {d : Decoded} {out : List Char} (h : c.Call claimed msg d) (hs : ¬ d.size < 2 ^ 63)
      (hr : c.Msg msg (2 * claimed) out claimed') : c.Msg msg claimed out claimed'

/-- The outer loop (138-168). -/
inductive Cat.Msgs (c : Cat) : Nat → List (List UInt8) → List Char → Prop
  | nil {claimed : Nat} : c.Msgs claimed [] []
  | cons {claimed claimed' : Nat} {msg : List UInt8} {msgs : List (List UInt8)} {out outs : List Char}
      (h : c.Msg msg claimed out claimed') (hr : c.Msgs claimed' msgs outs) : c.Msgs claimed (msg :: msgs) (out ++ outs)

end PJ
