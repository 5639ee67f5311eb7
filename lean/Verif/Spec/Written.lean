import Verif.Spec.Elab
import Verif.Spec.Grammar
/-!
# How the contents of a schema file are written

From what a file is to define, back to the declarations in it.  Types are referred to by their full names.
-/
namespace PJ

/-- The characters of a name. -/
def Str.chars (s : Str) : Comp := s.map Char.ofNat

def SourceId.comps (n : SourceId) : List Comp := n.map Str.chars

/-- The last component of a name, the one that is declared. -/
def SourceId.own (n : SourceId) : Comp := Str.chars (n.getLast?.getD [])

/-- `space c { ... }` around a declaration. -/
def inSpaces : List Comp → Decl → Decl
  | [], d => d
  | c :: cs, d => .space c [inSpaces cs d]

/-! ## Types -/

/-- A type where it is used. -/
def PTy.written : PTy → TypeAst
  | .int w .unsigned => ⟨.builtin .uint (8 * w), []⟩
  | .int w .signed => ⟨.builtin .int (8 * w), []⟩
  | .int w .signless => ⟨.builtin .char (8 * w), []⟩
  | .float w => ⟨.builtin .float (8 * w), []⟩
  | .unit => ⟨.any, []⟩
  | .any => ⟨.any, []⟩
  | .ext n => ⟨.ref n.comps, []⟩
  | .struct n _ => ⟨.ref n.comps, []⟩
  | .variant n _ _ => ⟨.ref n.comps, []⟩
  | .array e n => ⟨e.written.base, e.written.mods ++ [.fixed n]⟩
  | .vector e a b => ⟨e.written.base, e.written.mods ++ [.var (some a) b]⟩

def PFields.toList : PFields → List (Comp × PTy)
  | .nil => []
  | .cons c t r => (c, t) :: r.toList

def PTerms.toList : PTerms → List (Comp × Nat × PTy)
  | .nil => []
  | .cons c g t r => (c, g, t) :: r.toList

/-- A term with its tag, unless it is 0, which is given to the first term without a tag. -/
def writeTerm (dflt : Comp) (x : Comp × Nat × PTy) : TermAst where
  name := x.1
  type := if x.2.2 = .unit then none else some x.2.2.written
  tag := if x.2.1 = 0 then none else some (.num x.2.1)
  dflt := decide (x.1 = dflt)

/-- The terms of a variant, that with tag 0 first. -/
def writeTerms (ts : PTerms) (d : Nat) : List TermAst :=
  let l := ts.toList
  let dflt := (l.map (·.1)).getD d []
  (l.filter (fun x => x.2.1 == 0) ++ l.filter (fun x => x.2.1 != 0)).map (writeTerm dflt)

/-- Items of a file. -/
inductive Item
  | alias (name : SourceId) (t : PTy)
  | external (name : SourceId)
  | struct (name : SourceId) (fs : PFields) (isExternal : Bool)
  | variant (name : SourceId) (ts : PTerms) (dflt : Nat) (isEnum isExternal : Bool)
  | spec (name head : SourceId) (t : PTy) (path : Path)
  | portal (name : SourceId) (q : Portal)
  | precomp (name portal proto : SourceId)

def writePath : Path → Option RawPath
  | [] => none
  | p => some p.print

def writeHandlers : List Path → Option (RawPath × List RawPath × Bool)
  | [] => none
  | p :: ps => some (p.print, ps.map Path.print, false)

def writePortal (q : Portal) : List PortalItem :=
  q.sizers.map (fun x => .sizer x.name x.roundUp x.src.comps (writePath x.path)) ++
  (q.encoders.map (fun x => .encoder x.name x.src.comps (writePath x.path)) ++
  q.decoders.map (fun x => .decoder x.name x.dst.comps (writeHandlers x.handlers)))

def Item.name : Item → SourceId
  | .alias n _ | .external n | .struct n _ _ | .variant n _ _ _ _ | .spec n _ _ _ | .portal n _ | .precomp n _ _ => n

/-- The declaration inside its spaces. -/
def Item.inner : Item → Decl
  | .alias n t => .type n.own false t.written
  | .external n => .type n.own true ⟨.any, []⟩
  | .struct n fs ex => .struct n.own ex (fs.toList.map fun x => ⟨x.1, x.2.written⟩)
  | .variant n ts d false ex => .variant n.own ex (writeTerms ts d)
  | .variant n ts d true ex => .enum n.own ex (writeTerms ts d)
  | .spec n head _ p => .spec n.own head.comps (writePath p)
  | .portal n q => .portal n.own q.proto.comps (writePortal q)
  | .precomp n po pr => .precomp n.own po.comps pr.comps

def Item.decl (i : Item) : Decl := inSpaces (i.name.dropLast.map Str.chars) i.inner

/-- What the item adds to the scope, as part of the file `f`. -/
def Item.add (f : Nat) (sc : Scope) : Item → Scope
  | .alias n t => { sc with defs := sc.defs ++ [(n, t)] }.addDecl f (.alias n t)
  | .external n => { sc with defs := sc.defs ++ [(n, PTy.ext n)] }
  | .struct n fs ex =>
    { sc with defs := sc.defs ++ [(n, PTy.struct n fs)] }.addDecl f (.composite n (.struct n fs) false ex)
  | .variant n ts d en ex =>
    { sc with defs := sc.defs ++ [(n, PTy.variant n ts d)] }.addDecl f (.composite n (.variant n ts d) en ex)
  | .spec n _ t p =>
    { sc with specs := sc.specs ++ [(n, t, p)] }.upd f fun o => { o with specs := o.specs ++ [(n, t, p)] }
  | .portal n q =>
    { sc with portals := sc.portals ++ [(n, q)] }.upd f fun o => { o with portals := o.portals ++ [(n, ())] }
  | .precomp n po pr => sc.upd f fun o => { o with precomps := o.precomps ++ [(n, po, pr)] }

/-! ## What can be written -/

/-- A name that can be written. -/
def LegalName (n : SourceId) : Prop := n ≠ [] ∧ ∀ c ∈ n, IsIdent (Str.chars c)

/-- From the spaces `space`, the full name is not hidden by a longer one. -/
def Visible {α} (l : List (SourceId × α)) (space n : SourceId) : Prop :=
  ∀ q, q ≠ [] → q <+: space → q ++ n ∉ l.map (·.1)

/-- A type that can be used in the spaces `space`. -/
inductive Usable (defs : List (SourceId × PTy)) (space : SourceId) : PTy → Prop
  | int (w s) : w = 1 ∨ w = 2 ∨ w = 4 ∨ w = 8 → Usable defs space (.int w s)
  | float (w) : w = 4 ∨ w = 8 → Usable defs space (.float w)
  | any : Usable defs space .any
  | ref (n t) : t.name? = some n → (n, t) ∈ defs → LegalName n → (∀ c ∈ n.head?, RefName (Str.chars c)) →
      Visible defs space n → Usable defs space t
  | array (e n) : n < 2 ^ 63 → Usable defs space e → Usable defs space (.array e n)
  | vector (e a b) : a < 2 ^ 63 → (∀ m, b = some m → a ≤ m ∧ m < 2 ^ 63) → Usable defs space e →
      Usable defs space (.vector e a b)

/-- The terms are sorted by name, with different tags. -/
structure VariantOK (defs : List (SourceId × PTy)) (space : SourceId) (ts : PTerms) (d : Nat) (isEnum : Bool) : Prop where
  names : ∀ x ∈ ts.toList, IsIdent x.1
  sorted : ts.toList.Pairwise fun a b => (nameBytes a.1).less (nameBytes b.1) = true
  tags : (ts.toList.map (·.2.1)).Nodup
  range : ∀ x ∈ ts.toList, x.2.1 < 2 ^ 64
  dflt : d < ts.toList.length
  types : ∀ x ∈ ts.toList, x.2.2 = .unit ∨ Usable defs space x.2.2
  isEnum : isEnum = true → ∀ x ∈ ts.toList, x.2.2 = .unit

/-- A path of identifiers. -/
def LegalPath (p : Path) : Prop := ∀ c ∈ p, IsIdent c

/-- A name of the list. -/
def Known {α} (l : List (SourceId × α)) (space n : SourceId) : Prop := n ∈ l.map (·.1) ∧ LegalName n ∧ Visible l space n

/-- A source or destination with paths that lead to terms. -/
def Ends (defs : List (SourceId × PTy)) (space n : SourceId) (ps : List Path) : Prop :=
  Known defs space n ∧ ∀ t, (n, t) ∈ defs → ∀ p ∈ ps, LegalPath p ∧
    ∃ q c m ts d, p = q ++ [c] ∧ LeadsToVariant t q m ts d ∧ c ∈ ts.names

def pathList : Path → List Path
  | [] => []
  | p => [p]

/-- The item can be written after what is there. -/
def Item.OK (f : Nat) (sc : Scope) (i : Item) : Prop :=
  LegalName i.name ∧
  match i with
  | .alias n t => n ∉ sc.defs.map (·.1) ∧ Usable sc.defs n.dropLast t
  | .external n => n ∉ sc.defs.map (·.1)
  | .struct n fs _ => n ∉ sc.defs.map (·.1) ∧ (fs.toList.map (·.1)).Nodup ∧
    ∀ x ∈ fs.toList, IsIdent x.1 ∧ Usable sc.defs n.dropLast x.2
  | .variant n ts d en _ => n ∉ sc.defs.map (·.1) ∧ VariantOK sc.defs n.dropLast ts d en
  | .spec n head t p => n ∉ sc.specs.map (·.1) ∧ Visible sc.specs n.dropLast n ∧ Known sc.defs n.dropLast head ∧
    (head, t) ∈ sc.defs ∧ LegalPath p ∧ (p ≠ [] → ∃ q m ts d, p = q ++ [['_']] ∧ LeadsToVariant t q m ts d)
  | .portal n q => n ∉ sc.portals.map (·.1) ∧ n ∉ (sc.files f).portals.map (·.1) ∧ Known sc.specs n.dropLast q.proto ∧
    (∀ x ∈ q.sizers, IsIdent x.name ∧ Ends sc.defs n.dropLast x.src (pathList x.path)) ∧
    (∀ x ∈ q.encoders, IsIdent x.name ∧ Ends sc.defs n.dropLast x.src (pathList x.path)) ∧
    (∀ x ∈ q.decoders, IsIdent x.name ∧ x.handlers.Nodup ∧ Ends sc.defs n.dropLast x.dst x.handlers)
  | .precomp n po pr => Known sc.specs n.dropLast pr ∧ Known (sc.files f).portals n.dropLast po ∧
    n ∉ (sc.files f).precomps.map (·.1) ∧ Visible (sc.files f).precomps n.dropLast n ∧
    n ∉ (sc.files f).portals.map (·.1) ∧ Visible (sc.files f).portals n.dropLast n

/-- The items can be written one after the other. -/
def ItemsOK (f : Nat) : Scope → List Item → Prop
  | _, [] => True
  | sc, i :: is => i.OK f sc ∧ ItemsOK f (i.add f sc) is

end PJ
