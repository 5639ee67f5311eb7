import Verif.Model.Any
/-!
# JSON

A reader for JSON texts (RFC 8259), written without regard to what `pjcat` prints.  It knows less than the RFC allows: no
white space, no fractions and exponents, no escapes in strings.  Texts with these are rejected, so that what it accepts
means the same to every reader.  A character stands for a byte; whether those from 128 on are UTF-8 is not looked at.
-/
namespace PJ

inductive JVal
  | num (i : Int)
  | str (s : List Char)
  | arr (l : List JVal)
  | obj (l : List (List Char × JVal))

namespace Json

/-- A character that stands for itself in a string. -/
def plainChar (c : Char) : Bool := c != '"' && c != '\\' && 32 ≤ c.toNat

/-- Behind the opening quote: the string and what follows the closing one. -/
def str : List Char → Option (List Char × List Char)
  | [] => none
  | c :: r =>
    if c = '"' then some ([], r)
    else if plainChar c then (str r).map fun x => (c :: x.1, x.2)
    else none

/-- Digits, without needless zeros in front, not followed by a fraction or an exponent. -/
def nat (s : List Char) : Option (Nat × List Char) :=
  let ds := s.takeWhile Char.isDigit
  let r := s.dropWhile Char.isDigit
  if ds = [] then none
  else if ds.head? = some '0' ∧ ds.length ≠ 1 then none
  else if r.head? = some '.' ∨ r.head? = some 'e' ∨ r.head? = some 'E' then none
  else some (Nat.ofDigitChars 10 ds 0, r)

mutual
/-- A value and what follows it. -/
def value : Nat → List Char → Option (JVal × List Char)
  | 0, _ => none
  | n + 1, s =>
    match s with
    | [] => none
    | c :: r =>
      if c = '"' then (str r).map fun x => (.str x.1, x.2)
      else if c = '[' then
        if r.head? = some ']' then some (.arr [], r.tail) else (elements n r).map fun x => (.arr x.1, x.2)
      else if c = '{' then
        if r.head? = some '}' then some (.obj [], r.tail) else (members n r).map fun x => (.obj x.1, x.2)
      else if c = '-' then (nat r).map fun x => (.num (-(x.1 : Int)), x.2)
      else (nat s).map fun x => (.num x.1, x.2)
/-- At least one element, up to the bracket. -/
def elements : Nat → List Char → Option (List JVal × List Char)
  | 0, _ => none
  | n + 1, s =>
    match value n s with
    | none => none
    | some (v, r) =>
      if r.head? = some ']' then some ([v], r.tail)
      else if r.head? = some ',' then (elements n r.tail).map fun x => (v :: x.1, x.2)
      else none
/-- At least one member, up to the brace. -/
def members : Nat → List Char → Option (List (List Char × JVal) × List Char)
  | 0, _ => none
  | n + 1, s =>
    if s.head? = some '"' then
      match str s.tail with
      | none => none
      | some (k, r) =>
        if r.head? = some ':' then
          match value n r.tail with
          | none => none
          | some (v, r) =>
            if r.head? = some '}' then some ([(k, v)], r.tail)
            else if r.head? = some ',' then (members n r.tail).map fun x => ((k, v) :: x.1, x.2)
            else none
        else none
    else none
end

/-- Values, each followed by a newline, up to the end. -/
def lines : Nat → List Char → Option (List JVal)
  | 0, _ => none
  | n + 1, s =>
    if s = [] then some []
    else
      match value n s with
      | none => none
      | some (v, r) => if r.head? = some '\n' then (lines n r.tail).map (v :: ·) else none

/-- The text consists of lines with these values. -/
def Text (s : List Char) (vs : List JVal) : Prop := ∃ n, lines n s = some vs

end Json

/-! ## What the printed text should say -/

def keyTag : List Char := ['t', 'a', 'g']
def keyName : List Char := ['n', 'a', 'm', 'e']
def keyData : List Char := ['d', 'a', 't', 'a']

mutual
/-- An `Any` in JSON; numbers with a fraction are left out. -/
def jsonOf : AVal → JVal
  | .int _ _ v => .num v
  | .float _ _ => .num 0
  | .unit => .obj []
  | .struct fs => .obj (jsonFields fs)
  | .variant enum tag name v =>
    .obj ([(keyTag, .num tag), (keyName, .str name)] ++ if enum then [] else [(keyData, jsonOf v)])
  | .seq string l =>
    if string then .str (l.map fun x => match x with | .int _ _ v => Char.ofNat v.toNat | _ => '?') else .arr (jsonElems l)
def jsonFields : List (Comp × AVal) → List (List Char × JVal)
  | [] => []
  | f :: r => jsonField f :: jsonFields r
def jsonField : Comp × AVal → List Char × JVal
  | (c, v) => (c, jsonOf v)
def jsonElems : List AVal → List JVal
  | [] => []
  | v :: r => jsonOf v :: jsonElems r
end

mutual
/-- No floats; names and strings consist of characters that stand for themselves. -/
def Clean : AVal → Prop
  | .int _ _ _ => True
  | .float _ _ => False
  | .unit => True
  | .struct fs => CleanFields fs
  | .variant _ _ name v => (∀ c ∈ name, Json.plainChar c = true) ∧ Clean v
  | .seq string l =>
    if string then ∀ x ∈ l, ∃ w s v, x = .int w s v ∧ 0 ≤ v ∧ v < 256 ∧ Json.plainChar (Char.ofNat v.toNat) = true
    else CleanElems l
def CleanFields : List (Comp × AVal) → Prop
  | [] => True
  | f :: r => CleanField f ∧ CleanFields r
def CleanField : Comp × AVal → Prop
  | (c, v) => (∀ x ∈ c, Json.plainChar x = true) ∧ Clean v
def CleanElems : List AVal → Prop
  | [] => True
  | v :: r => Clean v ∧ CleanElems r
end

end PJ
