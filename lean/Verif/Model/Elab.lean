import Verif.Model.Grammar
import Verif.Model.HostGen
/-!
# What a schema file defines

Models the semantic actions of `pj/parse.cpp` on the declarations that the grammar recognises
(`Model/Grammar.lean`), `ParsingScope` and `ParsedProtoFile` (`pj/protogen.hpp` 34-103), and
`parseProtoFile` (`pj/parse.cpp` 955-987) with the imports of a file.

Simplifications:
* The actions of a file run after its grammar has accepted it.  A file that the grammar rejects is rejected
  without the undefined behaviour which its first declarations may have.
* Types are trees.  The names in them show which types the code shares (`C48_nominal`).
* Paths of the file system are numbers, and looking for an import in the import directories
  (`pj/parse.cpp` 655-666) is a function.
-/
namespace PJ

/-- Outcome of an action: a value, an exception, or undefined behaviour. -/
inductive Out (α : Type)
  | ok (a : α)
  | reject
  | undef
deriving DecidableEq

def Out.bind {α β} : Out α → (α → Out β) → Out β
  | .ok a, f => f a
  | .reject, _ => .reject
  | .undef, _ => .undef

/-- `throw parse_error` unless a condition holds. -/
def Out.check (b : Bool) : Out Unit := if b then .ok () else .reject

/-- `throw parse_error` if there is nothing. -/
def Out.some? {α} : Option α → Out α
  | some a => .ok a
  | none => .reject

def Out.isOk {α} : Out α → Bool
  | .ok _ => true
  | _ => false

/-! ## Types -/

mutual
/-- A type as the actions build it, with the names of structs and variants.  `ext` is the empty struct that stands
for an external type (`pj/parse.cpp` 418-427). -/
inductive PTy
  | int (w : Nat) (s : Sign)
  | float (w : Nat)
  | unit
  | any
  | ext (name : SourceId)
  | struct (name : SourceId) (fs : PFields)
  | variant (name : SourceId) (ts : PTerms) (dflt : Nat)
  | array (e : PTy) (n : Nat)
  | vector (e : PTy) (min : Nat) (max : Option Nat)
inductive PFields
  | nil
  | cons (name : Comp) (t : PTy) (rest : PFields)
inductive PTerms
  | nil
  | cons (name : Comp) (tag : Nat) (t : PTy) (rest : PTerms)
end

deriving instance DecidableEq for PTy, PFields, PTerms

def PFields.ofList : List (Comp × PTy) → PFields
  | [] => .nil
  | (c, t) :: r => .cons c t (PFields.ofList r)

def PFields.find (c : Comp) : PFields → Option PTy
  | .nil => none
  | .cons n t r => if n = c then some t else r.find c

def PTerms.names : PTerms → List Comp
  | .nil => []
  | .cons c _ _ r => c :: r.names

/-- Terms with the payloads of a map. -/
def PTerms.make (payload : Comp → PTy) : List (Comp × Nat) → PTerms
  | [] => .nil
  | (c, g) :: r => .cons c g (payload c) (PTerms.make payload r)

/-! ## State -/

/-- `ParsedProtoFile::Decl` (`pj/protogen.hpp` 60-75). -/
inductive DeclOut
  /-- `kType` -/
  | alias (name : SourceId) (t : PTy)
  /-- `kComposite` -/
  | composite (name : SourceId) (t : PTy) (isEnum isExternal : Bool)
  /-- `kLanguage` -/
  | language (space : SourceId) (name : Comp) (text : List Char)
deriving DecidableEq

/-- `Portal::Sizer`, `Encoder` and `Decoder` (`pj/protogen.hpp` 35-51). -/
structure SizerOut where
  name : Comp
  src : SourceId
  path : Path
  roundUp : Bool
deriving DecidableEq

structure EncoderOut where
  name : Comp
  src : SourceId
  path : Path
deriving DecidableEq

structure DecoderOut where
  name : Comp
  dst : SourceId
  handlers : List Path
deriving DecidableEq

/-- `Portal` (`pj/protogen.hpp` 34-58). -/
structure Portal where
  sizers : List SizerOut
  encoders : List EncoderOut
  decoders : List DecoderOut
  proto : SourceId
deriving DecidableEq

/-- `ParsedProtoFile` (`pj/protogen.hpp` 60-90). -/
structure FileOut where
  decls : List DeclOut := []
  specs : List (SourceId × PTy × Path) := []
  portals : List (SourceId × Unit) := []
  /-- Portal and specification. -/
  precomps : List (SourceId × SourceId × SourceId) := []
  imports : List Nat := []
deriving DecidableEq

/-- `ParsingScope` (`pj/protogen.hpp` 92-103). -/
structure Scope where
  defs : List (SourceId × PTy) := []
  specs : List (SourceId × PTy × Path) := []
  portals : List (SourceId × Portal) := []
  /-- `parsed_files`; a file that was not parsed has nothing. -/
  files : Nat → FileOut := fun _ => {}

/-- A change to the entry of a file in `parsed_files`. -/
def Scope.upd (sc : Scope) (f : Nat) (g : FileOut → FileOut) : Scope :=
  { sc with files := fun i => if i = f then g (sc.files i) else sc.files i }

def Scope.addDecl (sc : Scope) (f : Nat) (d : DeclOut) : Scope :=
  sc.upd f fun o => { o with decls := o.decls ++ [d] }

/-! ## Types of a file -/

/-- `std::from_chars` into an `intptr_t` that has no value before (`pj/parse.cpp` 234-235, 268-269, 325-326, 348-349,
358-359): numbers out of range leave it as it is. -/
def intptr (n : Nat) : Out Nat := if n < 2 ^ 63 then .ok n else .undef

/-- `parseInt` (`pj/parse.cpp` 230-246). -/
def elabInt (n : Nat) (s : Sign) : Out PTy :=
  (intptr n).bind fun n => (Out.check (validateInt n)).bind fun _ => .ok (.int (n / 8) s)

/-- The actions of `UIntType`, `IntType`, `CharType`, `FloatType`, `AnyType` and `TypeRef`
(`pj/parse.cpp` 248-316). -/
def elabBase (defs : List (SourceId × PTy)) (space : SourceId) : BaseAst → Out PTy
  | .builtin .uint n => elabInt n .unsigned
  | .builtin .int n => elabInt n .signed
  | .builtin .char n => elabInt n .signless
  | .builtin .float n => (intptr n).bind fun n => (Out.check (n == 32 || n == 64)).bind fun _ => .ok (.float (n / 8))
  | .any => .ok .any
  | .ref id => (Out.some? (resolve defs space (id.map nameBytes))).bind fun e => .ok e.2

/-- The actions of `MinLen` and `MaxLen` (`pj/parse.cpp` 347-363). -/
def elabLen : Option Nat → Out (Option Nat)
  | none => .ok none
  | some n => (intptr n).bind fun n => .ok (some n)

/-- The actions of `FixedArrayModifier` and `VarArrayModifier` (`pj/parse.cpp` 324-384). -/
def elabMod (t : PTy) : ModAst → Out PTy
  | .fixed n => (intptr n).bind fun n => (Out.check (validateArray n)).bind fun _ => .ok (.array t n)
  | .var a b => (elabLen a).bind fun a => (elabLen b).bind fun b =>
    (Out.check (validateVector (a.getD 0) (match b with | some m => m | none => -1))).bind fun _ =>
      .ok (.vector t (a.getD 0) b)

def elabMods : PTy → List ModAst → Out PTy
  | t, [] => .ok t
  | t, m :: ms => (elabMod t m).bind fun t => elabMods t ms

/-- `Type`. -/
def elabType (defs : List (SourceId × PTy)) (space : SourceId) (t : TypeAst) : Out PTy :=
  (elabBase defs space t.base).bind fun b => elabMods b t.mods

/-- The action of `FieldDecl` (`pj/parse.cpp` 392-399). -/
def elabFields (defs : List (SourceId × PTy)) (space : SourceId) : List FieldAst → Out (List (Comp × PTy))
  | [] => .ok []
  | f :: fs => (elabType defs space f.type).bind fun t => (elabFields defs space fs).bind fun r => .ok ((f.name, t) :: r)

/-- The action of `StructDecl` up to the definition (`pj/parse.cpp` 444-466).  Duplicate names are rejected, so each
field has its own entry in the map `fields`. -/
def elabStruct (defs : List (SourceId × PTy)) (space : SourceId) (n : Comp) (fs : List FieldAst) : Out PTy :=
  (elabFields defs space fs).bind fun l => (Out.check (validateStruct (l.map (·.1)))).bind fun _ =>
    .ok (.struct (space ++ [nameBytes n]) (PFields.ofList l))

/-- The action of `ExplicitTag` (`pj/parse.cpp` 484-500): a number out of range leaves the tag at 0, which is
rejected; a character is signed. -/
def elabTag : TagAst → Out Nat
  | .num n => (Out.check (decide (n ≠ 0 ∧ n < 2 ^ 64))).bind fun _ => .ok n
  | .chr c =>
    let b := c.toNat % 256
    let g := if b < 128 then b else 2 ^ 64 - 256 + b
    (Out.check (decide (g ≠ 0))).bind fun _ => .ok g

/-- One line of a variant or enum: the actions inside and `handleVariantField` but for the default
(`pj/parse.cpp` 509-526). -/
def elabTerm (defs : List (SourceId × PTy)) (space : SourceId) (t : TermAst) : Out (FieldDecl × PTy) :=
  (match t.type with
    | none => .ok .unit
    | some ty => elabType defs space ty : Out PTy).bind fun p =>
  (match t.tag with
    | none => .ok none
    | some g => (elabTag g).bind fun g => .ok (some g) : Out (Option Nat)).bind fun g =>
  .ok (⟨t.name, g, t.dflt⟩, p)

def elabTerms (defs : List (SourceId × PTy)) (space : SourceId) : List TermAst → Out (List (FieldDecl × PTy))
  | [] => .ok []
  | t :: ts => (elabTerm defs space t).bind fun x => (elabTerms defs space ts).bind fun r => .ok (x :: r)

/-- The map `fields` of a variant: a later line overwrites an earlier one, and the inserted `undef` has no payload
(`pj/parse.cpp` 513-517, 559). -/
def payloadOf (l : List (FieldDecl × PTy)) (c : Comp) : PTy :=
  match l.reverse.find? (fun x => x.1.name == c) with
  | some x => x.2
  | none => .unit

/-- `handleVariant` up to the definition (`pj/parse.cpp` 546-612); `setTypeData` interns the terms. -/
def elabVariant (defs : List (SourceId × PTy)) (space : SourceId) (n : Comp) (ts : List TermAst) : Out PTy :=
  (elabTerms defs space ts).bind fun l =>
    match handleVariant (l.map (·.1)) with
    | .error => .reject
    | .diverges => .undef
    | .ok terms k => .ok (.variant (space ++ [nameBytes n]) (PTerms.make (payloadOf l) (internDecls terms k).1)
        (internDecls terms k).2)

/-! ## Paths -/

/-- The loop of `checkVariantPath` (`pj/parse.cpp` 699-722). -/
def PTy.follow : PTy → Path → Option PTy
  | t, [] => some t
  | .struct _ fs, c :: p =>
    match fs.find c with
    | some t => t.follow p
    | none => none
  | _, _ :: _ => none

/-- `checkVariantPath` (`pj/parse.cpp` 692-737), for a path that is not empty. -/
def checkVariantPath (head : PTy) (path : Path) (checkTerm : Bool) : Bool :=
  match head.follow path.dropLast with
  | some (.variant _ ts _) => !checkTerm || (match path.getLast? with | some c => ts.names.contains c | none => false)
  | _ => false

/-- `getSinglePath` (`pj/parse.cpp` 107-110) and the action of `Path` (680-685). -/
def elabPath : Option RawPath → Path
  | none => []
  | some s => Path.fromString s

/-! ## Declarations -/

/-- A definition (`defineType`, `pj/parse.cpp` 188-194). -/
def Scope.define (sc : Scope) (name : SourceId) (t : PTy) : Out Scope :=
  (Out.some? (defineType sc.defs name t)).bind fun ds => .ok { sc with defs := ds }

/-- The check of the path of a specification (`pj/parse.cpp` 756-764). -/
def specPathOK (head : PTy) (p : Path) : Bool :=
  p.isEmpty || (p.getLast? == some ['_'] && checkVariantPath head p false)

/-- The check of the path of a sizer or encoder (`pj/parse.cpp` 791-793). -/
def srcPathOK (src : PTy) (p : Path) : Bool := p.isEmpty || checkVariantPath src p true

/-- The test for duplicate handlers (`pj/parse.cpp` 846-852). -/
def distinctPaths : List Path → Bool
  | [] => true
  | p :: ps => !ps.contains p && distinctPaths ps

/-- `SizerDecl`, `EncoderDecl` and `DecoderDecl` (`pj/parse.cpp` 779-862). -/
def elabItem (defs : List (SourceId × PTy)) (space : SourceId) (q : Portal) : PortalItem → Out Portal
  | .sizer n u src p => (Out.some? (resolve defs space (src.map nameBytes))).bind fun e =>
    (Out.check (srcPathOK e.2 (elabPath p))).bind fun _ =>
      .ok { q with sizers := q.sizers ++ [⟨n, e.1, elabPath p, u⟩] }
  | .encoder n src p => (Out.some? (resolve defs space (src.map nameBytes))).bind fun e =>
    (Out.check (srcPathOK e.2 (elabPath p))).bind fun _ =>
      .ok { q with encoders := q.encoders ++ [⟨n, e.1, elabPath p⟩] }
  | .decoder n dst h => (Out.some? (resolve defs space (dst.map nameBytes))).bind fun e =>
    let hs : List Path := match h with
      | none => []
      | some (p, ps, _) => (p :: ps).map Path.fromString
    (Out.check (hs.all fun p => checkVariantPath e.2 p true)).bind fun _ =>
      (Out.check (distinctPaths hs)).bind fun _ =>
        .ok { q with decoders := q.decoders ++ [⟨n, e.1, hs⟩] }

def elabItems (defs : List (SourceId × PTy)) (space : SourceId) : Portal → List PortalItem → Out Portal
  | q, [] => .ok q
  | q, i :: is => (elabItem defs space q i).bind fun q => elabItems defs space q is

/-- `portal_defs.emplace(name, portal)` and the assignment of `proto` to the entry, new or old
(`pj/parse.cpp` 908-919). -/
def emplacePortal (name : SourceId) (q : Portal) (l : List (SourceId × Portal)) : List (SourceId × Portal) :=
  match findDef l name with
  | none => l ++ [(name, q)]
  | some _ => l.map fun e => if e.1 = name then (e.1, { e.2 with proto := q.proto }) else e

/-- `SpecDecl` (`pj/parse.cpp` 742-771). -/
def elabSpec (f : Nat) (space : SourceId) (n : Comp) (head : List Comp) (p : Option RawPath) (sc : Scope) : Out Scope :=
  let name := space ++ [nameBytes n]
  (Out.check (resolve sc.specs space name).isNone).bind fun _ =>
    (Out.some? (resolve sc.defs space (head.map nameBytes))).bind fun e =>
      (Out.check (specPathOK e.2 (elabPath p))).bind fun _ =>
        .ok ({ sc with specs := sc.specs ++ [(name, e.2, elabPath p)] }.upd f
          fun o => { o with specs := o.specs ++ [(name, e.2, elabPath p)] })

/-- `PortalDecl` (`pj/parse.cpp` 864-869, 901-925). -/
def elabPortal (f : Nat) (space : SourceId) (n : Comp) (proto : List Comp) (items : List PortalItem) (sc : Scope) :
    Out Scope :=
  let name := space ++ [nameBytes n]
  (Out.some? (resolve sc.specs space (proto.map nameBytes))).bind fun e =>
    (elabItems sc.defs space ⟨[], [], [], e.1⟩ items).bind fun q =>
      (Out.check (findDef (sc.files f).portals name).isNone).bind fun _ =>
        .ok ({ sc with portals := emplacePortal name q sc.portals }.upd f
          fun o => { o with portals := o.portals ++ [(name, ())] })

/-- `PrecompDecl` (`pj/parse.cpp` 873-895).  Only the portals of the file itself are looked at. -/
def elabPrecomp (f : Nat) (space : SourceId) (n : Comp) (portal proto : List Comp) (sc : Scope) : Out Scope :=
  let name := space ++ [nameBytes n]
  (Out.some? (resolve sc.specs space (proto.map nameBytes))).bind fun e =>
    (Out.some? (resolve (sc.files f).portals space (portal.map nameBytes))).bind fun q =>
      (Out.check ((resolve (sc.files f).precomps space name).isNone && (resolve (sc.files f).portals space name).isNone)).bind
        fun _ => .ok (sc.upd f fun o => { o with precomps := o.precomps ++ [(name, q.1, e.1)] })

/-- `TypeDecl` (`pj/parse.cpp` 411-439). -/
def elabAlias (asSpec : Bool) (f : Nat) (space : SourceId) (n : Comp) (ext : Bool) (t : TypeAst) (sc : Scope) :
    Out Scope :=
  let name := space ++ [nameBytes n]
  (elabType sc.defs space t).bind fun ty =>
    if ext then sc.define name (if asSpec then ty else .ext name)
    else (sc.define name ty).bind fun sc => .ok (sc.addDecl f (.alias name ty))

mutual
/-- The actions of a declaration (`TopDecl`) of the file `f`, inside the spaces `space`; `imp` parses an imported
file. -/
def elabDecl (asSpec : Bool) (imp : SourceId → Scope → Out (Nat × Scope)) (f : Nat) (space : SourceId) :
    Decl → Scope → Out Scope
  | .import_ id, sc =>
    -- `pj/parse.cpp` 652-676: `popScopedId` puts the enclosing spaces in front of the name
    (imp (space ++ id.map nameBytes) sc).bind fun r =>
      .ok (r.2.upd f fun o => { o with imports := o.imports ++ [r.1] })
  | .struct n ext fs, sc =>
    -- 444-480
    (elabStruct sc.defs space n fs).bind fun t => (sc.define (space ++ [nameBytes n]) t).bind fun sc =>
      .ok (sc.addDecl f (.composite (space ++ [nameBytes n]) t false ext))
  | .variant n ext ts, sc =>
    (elabVariant sc.defs space n ts).bind fun t => (sc.define (space ++ [nameBytes n]) t).bind fun sc =>
      .ok (sc.addDecl f (.composite (space ++ [nameBytes n]) t false ext))
  | .enum n ext ts, sc =>
    (elabVariant sc.defs space n ts).bind fun t => (sc.define (space ++ [nameBytes n]) t).bind fun sc =>
      .ok (sc.addDecl f (.composite (space ++ [nameBytes n]) t true ext))
  | .spec n head p, sc => elabSpec f space n head p sc
  | .type n ext t, sc => elabAlias asSpec f space n ext t sc
  | .space n ds, sc => elabDecls asSpec imp f (space ++ [nameBytes n]) ds sc
  | .language n text, sc => .ok (sc.addDecl f (.language space n text))
  | .portal n proto items, sc => elabPortal f space n proto items sc
  | .precomp n portal proto, sc => elabPrecomp f space n portal proto sc
def elabDecls (asSpec : Bool) (imp : SourceId → Scope → Out (Nat × Scope)) (f : Nat) (space : SourceId) :
    List Decl → Scope → Out Scope
  | [], sc => .ok sc
  | d :: ds, sc => (elabDecl asSpec imp f space d sc).bind fun sc => elabDecls asSpec imp f space ds sc
end

/-! ## Files -/

/-- Files by number, and where an import leads (`pj/parse.cpp` 655-674). -/
structure FileSys where
  texts : List (List Char)
  find : SourceId → Option Nat

/-- `parseProtoFile` (`pj/parse.cpp` 955-987); `pending` is `pending_files`.  `fuel` bounds the nesting of imports;
`elabRoot` has enough of it (`elabFile_fuel`). -/
def elabFile (fs : FileSys) (asSpec : Bool) : Nat → List Nat → Nat → Scope → Out Scope
  | 0, _, _, _ => .undef
  | fuel + 1, pending, f, sc =>
    (Out.check (!pending.contains f)).bind fun _ =>
      (Out.some? fs.texts[f]?).bind fun s => (Out.some? (parseText s)).bind fun ds =>
        elabDecls asSpec (fun id sc => (Out.some? (fs.find id)).bind fun g =>
          (elabFile fs asSpec fuel (f :: pending) g sc).bind fun sc => .ok (g, sc)) f [] ds sc

/-- `pjc` on a file (`pj/pjc.cpp` 66-82); `asSpec` with `--gen-proto`. -/
def elabRoot (fs : FileSys) (asSpec : Bool) (f : Nat) : Out Scope := elabFile fs asSpec (fs.texts.length + 1) [] f {}

end PJ
