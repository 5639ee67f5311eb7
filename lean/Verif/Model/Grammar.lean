import Verif.Model.Path
import Verif.Model.Ty
/-!
# The grammar of schema files

Models the PEGTL grammar of `pj/parse.cpp` (lines 200-953): parsing expressions over the characters of a
file, and the syntax trees of the declarations they recognise.

Simplifications: the semantic actions are separated from the grammar.  Each rule yields a syntax tree;
the actions run on it afterwards.  This is faithful because the only action that runs in a branch which
is given up later is that of `Len` in `[3:5]`, whose `array_len` nobody reads before the next `Len`
(`pj/parse.cpp` 321-366); every other alternative is decided before its first action.  A character
stands for a byte of the file.
-/
namespace PJ

/-! ## Parsing expressions (PEGTL) -/

/-- Outcome of a rule: local failure (the input is rewound), global failure (`must`, an exception), or
success with the rest of the input. -/
inductive PRes (α : Type)
  | fail
  | err
  | ok (a : α) (rest : List Char)
deriving DecidableEq

abbrev Peg (α : Type) := List Char → PRes α

namespace Peg

def pure {α} (a : α) : Peg α := fun s => .ok a s

/-- `seq`. -/
def bind {α β} (p : Peg α) (f : α → Peg β) : Peg β := fun s =>
  match p s with
  | .fail => .fail
  | .err => .err
  | .ok a r => f a r

def map {α β} (f : α → β) (p : Peg α) : Peg β := p.bind fun a => pure (f a)

/-- `sor`: the first alternative that does not fail locally. -/
def or {α} (p q : Peg α) : Peg α := fun s =>
  match p s with
  | .fail => q s
  | r => r

/-- `must`: local failure becomes global. -/
def must {α} (p : Peg α) : Peg α := fun s =>
  match p s with
  | .fail => .err
  | r => r

/-- `opt`. -/
def opt {α} (p : Peg α) : Peg (Option α) := fun s =>
  match p s with
  | .fail => .ok none s
  | .err => .err
  | .ok a r => .ok (some a) r

/-- At most `n` iterations of `star`. -/
def starN {α} (p : Peg α) : Nat → Peg (List α)
  | 0, s => .ok [] s
  | n + 1, s =>
    match p s with
    | .fail => .ok [] s
    | .err => .err
    | .ok a r =>
      match starN p n r with
      | .fail => .fail
      | .err => .err
      | .ok as r' => .ok (a :: as) r'

/-- `star`.  Every rule under a `star` consumes at least one character, so that this bound on the
iterations is never met. -/
def star {α} (p : Peg α) : Peg (List α) := fun s => starN p (s.length + 1) s

/-- `not_at`. -/
def notAt {α} (p : Peg α) : Peg Unit := fun s =>
  match p s with
  | .fail => .ok () s
  | .err => .err
  | .ok _ _ => .fail

/-- A character of a class (`one`, `ranges`). -/
def one (f : Char → Bool) : Peg Char
  | [] => .fail
  | c :: r => if f c then .ok c r else .fail

/-- `string`. -/
def str : List Char → Peg Unit
  | [], s => .ok () s
  | c :: cs, s =>
    match s with
    | [] => .fail
    | d :: r => if d = c then str cs r else .fail

def eof : Peg Unit
  | [] => .ok () []
  | _ :: _ => .fail

/-- The characters matched by a rule: `in.begin()` to `in.end()` of its action. -/
def text {α} (p : Peg α) : Peg (List Char) := fun s =>
  match p s with
  | .fail => .fail
  | .err => .err
  | .ok _ r => .ok (s.take (s.length - r.length)) r

end Peg

/-! ## Characters and tokens -/

/-- `tao::pegtl::space`. -/
def isSpace (c : Char) : Bool := c == ' ' || c == '\n' || c == '\r' || c == '\t' || c == '\x0b' || c == '\x0c'

/-- `identifier_first`. -/
def identFirst (c : Char) : Bool := c.isAlpha || c == '_'

/-- `identifier_other`. -/
def identOther (c : Char) : Bool := identFirst c || c.isDigit

/-- `eol` (by default `lf_crlf`). -/
def eol : Peg Unit := (Peg.str ['\n']).or (Peg.str ['\r', '\n'])

/-- `space_or_comment` (`pj/parse.cpp` 214-215). -/
def spaceOrComment : Peg Unit :=
  ((Peg.one isSpace).map fun _ => ()).or
    ((Peg.str ['/', '/']).bind fun _ =>
      (Peg.star ((Peg.notAt eol).bind fun _ => Peg.one fun _ => true)).bind fun _ => eol)

def gap : Peg Unit := (Peg.star spaceOrComment).map fun _ => ()

/-- `pad<T, space_or_comment>` (`pj/parse.cpp` 217-218). -/
def spaced {α} (p : Peg α) : Peg α := gap.bind fun _ => p.bind fun a => gap.bind fun _ => .pure a

/-- `tok<C>` (`pj/parse.cpp` 220-221). -/
def tok (c : Char) : Peg Unit := spaced (Peg.str [c])

/-- The keywords of the grammar. -/
inductive Kw
  | import_ | struct_ | variant_ | enum_ | specification | type_ | space_ | language | portal | precompile
  | external | default_ | any | round_up | sizer | encoder | decoder | handlers
deriving DecidableEq

def Kw.chars : Kw → List Char
  | .import_ => ['i', 'm', 'p', 'o', 'r', 't']
  | .struct_ => ['s', 't', 'r', 'u', 'c', 't']
  | .variant_ => ['v', 'a', 'r', 'i', 'a', 'n', 't']
  | .enum_ => ['e', 'n', 'u', 'm']
  | .specification => ['s', 'p', 'e', 'c', 'i', 'f', 'i', 'c', 'a', 't', 'i', 'o', 'n']
  | .type_ => ['t', 'y', 'p', 'e']
  | .space_ => ['s', 'p', 'a', 'c', 'e']
  | .language => ['l', 'a', 'n', 'g', 'u', 'a', 'g', 'e']
  | .portal => ['p', 'o', 'r', 't', 'a', 'l']
  | .precompile => ['p', 'r', 'e', 'c', 'o', 'm', 'p', 'i', 'l', 'e']
  | .external => ['e', 'x', 't', 'e', 'r', 'n', 'a', 'l']
  | .default_ => ['d', 'e', 'f', 'a', 'u', 'l', 't']
  | .any => ['a', 'n', 'y']
  | .round_up => ['r', 'o', 'u', 'n', 'd', '_', 'u', 'p']
  | .sizer => ['s', 'i', 'z', 'e', 'r']
  | .encoder => ['e', 'n', 'c', 'o', 'd', 'e', 'r']
  | .decoder => ['d', 'e', 'c', 'o', 'd', 'e', 'r']
  | .handlers => ['h', 'a', 'n', 'd', 'l', 'e', 'r', 's']

/-- `KEYWORD(X)` (`pj/parse.cpp` 228): the string, not followed by a character of identifiers, padded. -/
def keyword (k : Kw) : Peg Unit := spaced ((Peg.str k.chars).bind fun _ => Peg.notAt (Peg.one identOther))

/-- `opt<KEYWORD(X)>`. -/
def optKw (k : Kw) : Peg Bool := (Peg.opt (keyword k)).map Option.isSome

/-- Decimal value of a string of digits (`std::from_chars` before range checks). -/
def decimal (ds : List Char) : Nat := ds.foldl (fun n c => 10 * n + (c.toNat - 48)) 0

/-- `num` (`pj/parse.cpp` 212). -/
def num : Peg Nat := (Peg.one Char.isDigit).bind fun d =>
  (Peg.star (Peg.one Char.isDigit)).map fun ds => decimal (d :: ds)

/-- `identifier`, `Identifier`, `Id` (`pj/parse.cpp` 285-295). -/
def ident : Peg Comp := (Peg.one identFirst).bind fun c =>
  (Peg.star (Peg.one identOther)).map fun cs => c :: cs

/-- `ScopedId` (`pj/parse.cpp` 297-299). -/
def scopedId : Peg (List Comp) := .must (ident.bind fun c =>
  (Peg.star ((tok '.').bind fun _ => .must ident)).map fun cs => c :: cs)

/-! ## Types -/

/-- The builtin types with a width. -/
inductive Builtin
  | uint | int | char | float
deriving DecidableEq

def Builtin.chars : Builtin → List Char
  | .uint => ['u', 'i', 'n', 't']
  | .int => ['i', 'n', 't']
  | .char => ['c', 'h', 'a', 'r']
  | .float => ['f', 'l', 'o', 'a', 't']

/-- `NonArrayType`. -/
inductive BaseAst
  | builtin (b : Builtin) (n : Nat)
  | any
  | ref (id : List Comp)
deriving DecidableEq

/-- `ArrayModifier`. -/
inductive ModAst
  | fixed (n : Nat)
  | var (min max : Option Nat)
deriving DecidableEq

structure TypeAst where
  base : BaseAst
  mods : List ModAst
deriving DecidableEq

/-- `UIntType`, `IntType`, `CharType`, `FloatType` (`pj/parse.cpp` 248-263). -/
def builtin (b : Builtin) : Peg BaseAst := (Peg.str b.chars).bind fun _ => num.map fun n => .builtin b n

/-- `NonArrayType` (`pj/parse.cpp` 301-319). -/
def baseType : Peg BaseAst :=
  (builtin .uint).or ((builtin .int).or ((builtin .char).or ((builtin .float).or
    (((keyword .any).map fun _ => .any).or (scopedId.map .ref)))))

/-- `FixedArrayModifier` (`pj/parse.cpp` 322). -/
def fixedMod : Peg ModAst := (tok '[').bind fun _ => num.bind fun n => (tok ']').map fun _ => .fixed n

/-- `VarArrayModifier` (`pj/parse.cpp` 365-366). -/
def varMod : Peg ModAst := (tok '[').bind fun _ => (Peg.opt num).bind fun a => (tok ':').bind fun _ =>
  (Peg.opt num).bind fun b => (tok ']').map fun _ => .var a b

/-- `Type` (`pj/parse.cpp` 386-388). -/
def typeRule : Peg TypeAst := baseType.bind fun b => (Peg.star (fixedMod.or varMod)).map fun ms => ⟨b, ms⟩

/-! ## Declarations -/

structure FieldAst where
  name : Comp
  type : TypeAst
deriving DecidableEq

/-- `ExplicitTag`. -/
inductive TagAst
  | num (n : Nat)
  | chr (c : Char)
deriving DecidableEq

structure TermAst where
  name : Comp
  type : Option TypeAst
  tag : Option TagAst
  dflt : Bool
deriving DecidableEq

/-- A path with the characters it was written with. -/
abbrev RawPath := List Char

inductive PortalItem
  | sizer (name : Comp) (roundUp : Bool) (src : List Comp) (path : Option RawPath)
  | encoder (name : Comp) (src : List Comp) (path : Option RawPath)
  /-- Handlers: the first, the others, and whether a comma follows the last. -/
  | decoder (name : Comp) (dst : List Comp) (handlers : Option (RawPath × List RawPath × Bool))
deriving DecidableEq

inductive Decl
  | import_ (id : List Comp)
  | struct (name : Comp) (ext : Bool) (fields : List FieldAst)
  | variant (name : Comp) (ext : Bool) (terms : List TermAst)
  | enum (name : Comp) (ext : Bool) (terms : List TermAst)
  | spec (name : Comp) (head : List Comp) (path : Option RawPath)
  | type (name : Comp) (ext : Bool) (t : TypeAst)
  | space (name : Comp) (body : List Decl)
  | language (name : Comp) (text : List Char)
  | portal (name : Comp) (proto : List Comp) (items : List PortalItem)
  | precomp (name : Comp) (portal : List Comp) (proto : List Comp)

/-- `FieldDecl` (`pj/parse.cpp` 390). -/
def fieldDecl : Peg FieldAst := ident.bind fun n => .must ((tok ':').bind fun _ => typeRule.bind fun t =>
  (tok ';').map fun _ => ⟨n, t⟩)

/-- `opt<ExternalDecl>` (`pj/parse.cpp` 403-406). -/
def externalOpt : Peg Bool := optKw .external

/-- `TypeDecl` (`pj/parse.cpp` 408-409). -/
def typeDecl : Peg Decl := (keyword .type_).bind fun _ => .must (ident.bind fun n => externalOpt.bind fun e =>
  (tok '=').bind fun _ => typeRule.bind fun t => (tok ';').map fun _ => .type n e t)

/-- `StructDecl` (`pj/parse.cpp` 441-442). -/
def structDecl : Peg Decl := (keyword .struct_).bind fun _ => .must (ident.bind fun n => externalOpt.bind fun e =>
  (tok '{').bind fun _ => (Peg.star fieldDecl).bind fun fs => (tok '}').map fun _ => .struct n e fs)

/-- `ExplicitTag` (`pj/parse.cpp` 482). -/
def explicitTagRule : Peg TagAst := (num.map .num).or ((Peg.str ['\'']).bind fun _ => (Peg.one fun _ => true).bind fun c =>
  (Peg.str ['\'']).map fun _ => .chr c)

/-- `ExplicitTagDecl` (`pj/parse.cpp` 507). -/
def tagOpt : Peg (Option TagAst) := .opt ((tok '=').bind fun _ => .must explicitTagRule)

/-- `opt<DefaultDecl>` (`pj/parse.cpp` 502-505). -/
def defaultOpt : Peg Bool := optKw .default_

/-- `VariantFieldDecl` (`pj/parse.cpp` 534-535). -/
def variantField : Peg TermAst := ident.bind fun n => .must (
  (Peg.opt ((tok ':').bind fun _ => typeRule)).bind fun t => tagOpt.bind fun g => defaultOpt.bind fun d =>
  (tok ';').map fun _ => ⟨n, t, g, d⟩)

/-- `EnumFieldDecl` (`pj/parse.cpp` 540-541). -/
def enumField : Peg TermAst := ident.bind fun n => .must (tagOpt.bind fun g => defaultOpt.bind fun d =>
  (tok ';').map fun _ => ⟨n, none, g, d⟩)

/-- `VariantDecl` (`pj/parse.cpp` 624-625). -/
def variantDecl : Peg Decl := (keyword .variant_).bind fun _ => .must (ident.bind fun n => externalOpt.bind fun e =>
  (tok '{').bind fun _ => (Peg.star variantField).bind fun fs => (tok '}').map fun _ => .variant n e fs)

/-- `EnumDecl` (`pj/parse.cpp` 630-631). -/
def enumDecl : Peg Decl := (keyword .enum_).bind fun _ => .must (ident.bind fun n => externalOpt.bind fun e =>
  (tok '{').bind fun _ => (Peg.star enumField).bind fun fs => (tok '}').map fun _ => .enum n e fs)

/-- `ImportDecl` (`pj/parse.cpp` 650). -/
def importDecl : Peg Decl := (keyword .import_).bind fun _ => .must (scopedId.bind fun i =>
  (tok ';').map fun _ => .import_ i)

/-- `Path` (`pj/parse.cpp` 678). -/
def pathRule : Peg RawPath := .text ((Peg.star (ident.bind fun _ => tok '.')).bind fun _ => ident)

/-- `PathDecl` (`pj/parse.cpp` 687). -/
def pathOpt : Peg (Option RawPath) := .opt ((tok '@').bind fun _ => .must pathRule)

/-- `SpecDecl` (`pj/parse.cpp` 739-740). -/
def specDecl : Peg Decl := (keyword .specification).bind fun _ => .must (ident.bind fun n => (tok ':').bind fun _ =>
  scopedId.bind fun h => pathOpt.bind fun p => (tok ';').map fun _ => .spec n h p)

/-- `SizerDecl` (`pj/parse.cpp` 816-817). -/
def sizerDecl : Peg PortalItem := (keyword .sizer).bind fun _ => .must (ident.bind fun n =>
  (optKw .round_up).bind fun u => (tok ':').bind fun _ => scopedId.bind fun i => pathOpt.bind fun p =>
  (tok ';').map fun _ => .sizer n u i p)

/-- `EncoderDecl` (`pj/parse.cpp` 822-823). -/
def encoderDecl : Peg PortalItem := (keyword .encoder).bind fun _ => .must (ident.bind fun n =>
  (tok ':').bind fun _ => scopedId.bind fun i => pathOpt.bind fun p => (tok ';').map fun _ => .encoder n i p)

/-- `HandlersDecl` (`pj/parse.cpp` 828-830). -/
def handlersDecl : Peg (RawPath × List RawPath × Bool) := (tok '{').bind fun _ => .must ((keyword .handlers).bind fun _ =>
  (tok '[').bind fun _ => pathRule.bind fun p => (Peg.star ((tok ',').bind fun _ => pathRule)).bind fun ps =>
  ((Peg.opt (tok ',')).map Option.isSome).bind fun c => (tok ']').bind fun _ => (tok ';').bind fun _ => (tok '}').map fun _ => (p, ps, c))

/-- `DecoderDecl` (`pj/parse.cpp` 832-833). -/
def decoderDecl : Peg PortalItem := (keyword .decoder).bind fun _ => .must (ident.bind fun n => (tok ':').bind fun _ =>
  scopedId.bind fun i => (Peg.opt handlersDecl).bind fun h => (tok ';').map fun _ => .decoder n i h)

/-- `PrecompDecl` (`pj/parse.cpp` 871-872). -/
def precompDecl : Peg Decl := (keyword .precompile).bind fun _ => .must (ident.bind fun n => (tok ':').bind fun _ =>
  scopedId.bind fun i => (tok '(').bind fun _ => scopedId.bind fun q => (tok ')').bind fun _ =>
  (tok ';').map fun _ => .precomp n i q)

/-- `PortalDecl` (`pj/parse.cpp` 897-899). -/
def portalDecl : Peg Decl := (keyword .portal).bind fun _ => .must (ident.bind fun n => (tok ':').bind fun _ =>
  scopedId.bind fun q => (tok '{').bind fun _ => (Peg.star (sizerDecl.or (encoderDecl.or decoderDecl))).bind fun is =>
  (tok '}').map fun _ => .portal n q is)

/-- `LanguageLiteralDelimiter` (`pj/parse.cpp` 927). -/
def quotes : Peg Unit := .str ['"', '"', '"']

/-- `LanguageDecl` (`pj/parse.cpp` 934-936); `until<R, A>` is `A` repeated up to the first `R`. -/
def languageDecl : Peg Decl := (keyword .language).bind fun _ => .must (ident.bind fun n => spaceOrComment.bind fun _ =>
  quotes.bind fun _ => (Peg.star ((Peg.notAt quotes).bind fun _ => Peg.one fun _ => true)).bind fun t =>
  quotes.map fun _ => .language n t)

/-- `SpaceDecl` (`pj/parse.cpp` 647-648), given the rule for the declarations inside. -/
def spaceDecl (top : Peg Decl) : Peg Decl := (keyword .space_).bind fun _ => .must (ident.bind fun n =>
  (tok '{').bind fun _ => (Peg.star top).bind fun ds => (tok '}').map fun _ => .space n ds)

/-- `TopDecl` (`pj/parse.cpp` 949-951).  Simplification: the nesting of spaces is bounded, by the length of
the file where the rule is used, which no file exceeds. -/
def topDecl : Nat → Peg Decl
  | 0 => fun _ => .fail
  | n + 1 => importDecl.or (structDecl.or (variantDecl.or (enumDecl.or (specDecl.or (typeDecl.or
      ((spaceDecl (topDecl n)).or (languageDecl.or (portalDecl.or precompDecl))))))))

/-- `ParseFile` (`pj/parse.cpp` 953) on the characters of a file: the declarations, or none if parsing
throws. -/
def parseText (s : List Char) : Option (List Decl) :=
  match (Peg.must ((Peg.star (topDecl (s.length + 1))).bind fun ds => Peg.eof.map fun _ => ds)) s with
  | .ok ds _ => some ds
  | _ => none

end PJ
