import Verif.Model.Grammar
/-!
# The language of schema files

What the text of a schema is: its tokens in order, with gaps (white space and comments) between them.
This does not mention the parser.
-/
namespace PJ

/-- White space and comments.  A comment extends to the end of its line, which must exist. -/
inductive Gap : List Char → Prop
  | nil : Gap []
  | space {c g} : isSpace c = true → Gap g → Gap (c :: g)
  | comment {body g} : '\n' ∉ body → Gap g → Gap ('/' :: '/' :: (body ++ '\n' :: g))

/-- One blank or one comment. -/
def GapUnit (u : List Char) : Prop :=
  (∃ c, isSpace c = true ∧ u = [c]) ∨ ∃ body, '\n' ∉ body ∧ u = '/' :: '/' :: (body ++ ['\n'])

/-- Identifiers. -/
def IsIdent : Comp → Prop
  | [] => False
  | c :: cs => identFirst c = true ∧ ∀ d ∈ cs, identOther d = true

/-- Numbers. -/
def IsNum (ds : List Char) (n : Nat) : Prop := ds ≠ [] ∧ (∀ d ∈ ds, d.isDigit = true) ∧ decimal ds = n

/-- Paths: identifiers separated by dots, which may be surrounded by gaps. -/
inductive PathText : List Char → Prop
  | one {c} : IsIdent c → PathText c
  | cons {c g g' p} : IsIdent c → Gap g → Gap g' → PathText p → PathText (c ++ g ++ '.' :: g' ++ p)

inductive Tok
  | kw (k : Kw)
  | sym (c : Char)
  | id (c : Comp)
  | num (n : Nat)
  | builtin (b : Builtin) (n : Nat)
  | chr (c : Char)
  | path (p : RawPath)
  | text (t : List Char)

def symbols : List Char := ['.', ':', ';', '=', '{', '}', '[', ']', '(', ')', ',', '@']

/-- How a token is written. -/
def Tok.Spell : Tok → List Char → Prop
  | .kw k, s => s = k.chars
  | .sym c, s => c ∈ symbols ∧ s = [c]
  | .id c, s => IsIdent c ∧ s = c
  | .num n, s => IsNum s n
  | .builtin b n, s => ∃ ds, IsNum ds n ∧ s = b.chars ++ ds
  | .chr c, s => s = ['\'', c, '\'']
  | .path p, s => PathText p ∧ s = p
  | .text t, s => ∃ u, GapUnit u ∧ s = u ++ '"' :: '"' :: '"' :: t ++ ['"', '"', '"'] ∧
      ∀ a b, t ++ ['"', '"'] ≠ a ++ '"' :: '"' :: '"' :: b

/-- Tokens that can be written at all: names are identifiers, paths are paths, and a text does not end earlier than
it should. -/
def Tok.Legal : Tok → Prop
  | .sym c => c ∈ symbols
  | .id c => IsIdent c
  | .path p => PathText p
  | .text t => ∀ a b, t ++ ['"', '"'] ≠ a ++ '"' :: '"' :: '"' :: b
  | _ => True

/-- Gaps are allowed next to keywords and symbols. -/
def Tok.padded : Tok → Bool
  | .kw _ => true
  | .sym _ => true
  | _ => false

/-- What may not follow a token immediately. -/
def Tok.Ends : Tok → List Char → Prop
  | .kw _, r | .id _, r | .path _, r => ∀ c ∈ r.head?, identOther c = false
  | .num _, r | .builtin _ _, r => ∀ c ∈ r.head?, c.isDigit = false
  | _, _ => True

def startsPadded : List Tok → Bool
  | [] => false
  | t :: _ => t.padded

/-- The text consists of the tokens, with gaps between them but none before the first. -/
def Text0 : List Tok → List Char → Prop
  | [], s => s = []
  | t :: k, s => ∃ w g r, t.Spell w ∧ Gap g ∧ (g ≠ [] → t.padded = true ∨ startsPadded k = true) ∧ t.Ends (g ++ r) ∧
      s = w ++ (g ++ r) ∧ Text0 k r

/-- The text consists of the tokens and the gaps allowed. -/
def Text (k : List Tok) (s : List Char) : Prop :=
  ∃ g r, Gap g ∧ (g ≠ [] → startsPadded k = true) ∧ s = g ++ r ∧ Text0 k r

/-! ## Tokens of syntax trees -/

def scopedToks : List Comp → List Tok
  | [] => []
  | c :: cs => .id c :: cs.flatMap fun d => [.sym '.', .id d]

def BaseAst.toks : BaseAst → List Tok
  | .builtin b n => [.builtin b n]
  | .any => [.kw .any]
  | .ref i => scopedToks i

def numOpt : Option Nat → List Tok
  | none => []
  | some n => [.num n]

def ModAst.toks : ModAst → List Tok
  | .fixed n => [.sym '[', .num n, .sym ']']
  | .var a b => .sym '[' :: (numOpt a ++ .sym ':' :: (numOpt b ++ [.sym ']']))

def TypeAst.toks (t : TypeAst) : List Tok := t.base.toks ++ t.mods.flatMap ModAst.toks

def kwOpt (k : Kw) : Bool → List Tok
  | false => []
  | true => [.kw k]

def FieldAst.toks (f : FieldAst) : List Tok := .id f.name :: .sym ':' :: (f.type.toks ++ [.sym ';'])

def tagToks : Option TagAst → List Tok
  | none => []
  | some (.num n) => [.sym '=', .num n]
  | some (.chr c) => [.sym '=', .chr c]

def typeOptToks : Option TypeAst → List Tok
  | none => []
  | some t => .sym ':' :: t.toks

def TermAst.toks (t : TermAst) : List Tok :=
  .id t.name :: (typeOptToks t.type ++ (tagToks t.tag ++ (kwOpt .default_ t.dflt ++ [.sym ';'])))

def pathToks : Option RawPath → List Tok
  | none => []
  | some p => [.sym '@', .path p]

def handlerToks : Option (RawPath × List RawPath × Bool) → List Tok
  | none => []
  | some (p, ps, c) => .sym '{' :: .kw .handlers :: .sym '[' :: .path p :: (ps.flatMap (fun q => [.sym ',', .path q]) ++
      ((if c then [.sym ','] else []) ++ [.sym ']', .sym ';', .sym '}']))

def PortalItem.toks : PortalItem → List Tok
  | .sizer n u i p => .kw .sizer :: .id n :: (kwOpt .round_up u ++ .sym ':' :: (scopedToks i ++ (pathToks p ++ [.sym ';'])))
  | .encoder n i p => .kw .encoder :: .id n :: .sym ':' :: (scopedToks i ++ (pathToks p ++ [.sym ';']))
  | .decoder n i h => .kw .decoder :: .id n :: .sym ':' :: (scopedToks i ++ (handlerToks h ++ [.sym ';']))

mutual
def Decl.toks : Decl → List Tok
  | .import_ i => .kw .import_ :: (scopedToks i ++ [.sym ';'])
  | .struct n e fs => .kw .struct_ :: .id n :: (kwOpt .external e ++ .sym '{' :: (fs.flatMap FieldAst.toks ++ [.sym '}']))
  | .variant n e ts => .kw .variant_ :: .id n :: (kwOpt .external e ++ .sym '{' :: (ts.flatMap TermAst.toks ++ [.sym '}']))
  | .enum n e ts => .kw .enum_ :: .id n :: (kwOpt .external e ++ .sym '{' :: (ts.flatMap TermAst.toks ++ [.sym '}']))
  | .spec n h p => .kw .specification :: .id n :: .sym ':' :: (scopedToks h ++ (pathToks p ++ [.sym ';']))
  | .type n e t => .kw .type_ :: .id n :: (kwOpt .external e ++ .sym '=' :: (t.toks ++ [.sym ';']))
  | .space n ds => .kw .space_ :: .id n :: .sym '{' :: (declToks ds ++ [.sym '}'])
  | .language n t => [.kw .language, .id n, .text t]
  | .portal n q is => .kw .portal :: .id n :: .sym ':' :: (scopedToks q ++ .sym '{' :: (is.flatMap PortalItem.toks ++ [.sym '}']))
  | .precomp n i q => .kw .precompile :: .id n :: .sym ':' :: (scopedToks i ++ .sym '(' :: (scopedToks q ++ [.sym ')', .sym ';']))
termination_by structural d => d
def declToks : List Decl → List Tok
  | [] => []
  | d :: ds => d.toks ++ declToks ds
termination_by structural ds => ds
end

/-! ## Syntax trees that can be written -/

/-- A name that is not taken for a builtin type: it does not begin with `uint`, `int`, `char` or `float` and
a digit, and is not `any`. -/
def RefName (c : Comp) : Prop :=
  (∀ (b : Builtin) (d : Char) (r : List Char), c = b.chars ++ d :: r → d.isDigit = false) ∧ c ≠ Kw.chars .any

/-- Types name types by names that are not taken for builtin ones. -/
def TypeAst.OK (t : TypeAst) : Prop :=
  match t.base with
  | .ref i => i ≠ [] ∧ ∀ c ∈ i.head?, RefName c
  | _ => True

def PortalItem.OK : PortalItem → Prop
  | .sizer _ _ i _ => i ≠ []
  | .encoder _ i _ => i ≠ []
  | .decoder _ i _ => i ≠ []

mutual
/-- Names are not empty, types are written with proper names, terms of enums have no payload. -/
def Decl.OK : Decl → Prop
  | .import_ i => i ≠ []
  | .struct _ _ fs => ∀ f ∈ fs, f.type.OK
  | .variant _ _ ts => ∀ t ∈ ts, ∀ y ∈ t.type, y.OK
  | .enum _ _ ts => ∀ t ∈ ts, t.type = none
  | .spec _ h _ => h ≠ []
  | .type _ _ t => t.OK
  | .space _ ds => DeclsOK ds
  | .language _ _ => True
  | .portal _ q is => q ≠ [] ∧ ∀ i ∈ is, i.OK
  | .precomp _ i q => i ≠ [] ∧ q ≠ []
termination_by structural d => d
def DeclsOK : List Decl → Prop
  | [] => True
  | d :: ds => d.OK ∧ DeclsOK ds
termination_by structural ds => ds
end

end PJ
