import Verif.Model.Elab
import Verif.Model.FnCache
import Verif.Model.Plan
import Verif.Spec.Elab
/-!
# The classes generated for portals

Models what `SourceGenerator::addPortal`, `addPrecompilation` and `addProtocol` (`pj/sourcegen.cpp` 233-241, 701-1085)
write, called as in `pj/pjc.cpp` 115-130, and what it does when it runs: `pj/include/pj/runtime.hpp`,
`PJAdd*Function`, `PJCompile` and `PJGet*Function` (`pj/runtime.cpp` 317-383), `pj/context.cpp` 261-305, 536-573 and
`pj/portal.hpp`.

Simplifications:
* Generated text is a syntax tree.  The names of C++ types are qualified names without the outer namespace, which all of
  them have.  A name in a string literal has no characters to be escaped, since names are identifiers.
* The lines of the program that precompiles are sorted by what they do; plans do not depend on the functions added
  before them.
* A template is instantiated with the type of state it is used with; decoders have handlers by index (`Decoded.called`).
-/
namespace PJ

/-! ## Text -/

inductive CoderKind
  | size | encode | decode
deriving DecidableEq

/-- `ctx_.addSizeFunction<::ty>("name", proto, "path", round_up)` and so on. -/
inductive AddCall
  | size (ty : SourceId) (name : FnName) (path : List Char) (roundUp : Bool)
  | encode (ty : SourceId) (name : FnName) (path : List Char)
  | decode (ty : SourceId) (name : FnName) (handlers : List (List Char))

def AddCall.name : AddCall → FnName
  | .size _ n _ _ => n
  | .encode _ n _ => n
  | .decode _ n _ => n

def AddCall.ty : AddCall → SourceId
  | .size t _ _ _ => t
  | .encode t _ _ => t
  | .decode t _ _ => t

/-- `var = portal_.getSizeFunction<::ty>("name")` and so on. -/
structure GetCall where
  var : FnName
  name : FnName

/-- A method: its parameters are given by `kind`, `ty` and the number of handlers; it calls `callee`. -/
structure Method where
  name : FnName
  kind : CoderKind
  ty : SourceId
  handlers : Nat
  callee : FnName

/-- The calls for the coders of a portal, with `sym` for their names (`pj/sourcegen.cpp` 776-823, 1012-1017,
1033-1037, 1058-1074). -/
def portalAdds (sym : Comp → FnName) (q : Portal) : List AddCall :=
  q.sizers.map (fun x => .size x.src (sym x.name) x.path.print x.roundUp) ++
    q.encoders.map (fun x => .encode x.src (sym x.name) x.path.print) ++
    q.decoders.map (fun x => .decode x.dst (sym x.name) (x.handlers.map Path.print))

/-- The methods for the coders of a portal (`pj/sourcegen.cpp` 871-914, 998-1010, 1020-1031, 1041-1056). -/
def portalMethods (callee : Comp → FnName) (q : Portal) : List Method :=
  q.sizers.map (fun x => ⟨x.name, .size, x.src, 0, callee x.name⟩) ++
    q.encoders.map (fun x => ⟨x.name, .encode, x.src, 0, callee x.name⟩) ++
    q.decoders.map (fun x => ⟨x.name, .decode, x.dst, x.handlers.length, callee x.name⟩)

/-- The names of the coders of a portal, in order. -/
def Portal.names (q : Portal) : List Comp :=
  q.sizers.map (·.name) ++ q.encoders.map (·.name) ++ q.decoders.map (·.name)

/-- The member variable of a coder. -/
def memberVar (n : Comp) : FnName := n ++ ['_']

/-- A class of a portal: `proto_(ctx_.plan<::head>("tagPath"))`, the body of the constructors, members. -/
structure PortalClass where
  name : SourceId
  head : SourceId
  tagPath : List Char
  adds : List AddCall
  gets : List GetCall
  vars : List FnName
  methods : List Method

/-- `addPortal` (`pj/sourcegen.cpp` 729-926).  `none`: the head is not a struct or variant, so that the cast in line 833
fails. -/
def portalClass (name : SourceId) (q : Portal) (spec : PTy × Path) : Option PortalClass :=
  spec.1.name?.map fun head =>
    { name := name, head := head, tagPath := spec.2.print
      adds := portalAdds (fun n => n) q
      gets := q.names.map fun n => ⟨memberVar n, n⟩
      vars := ["ctx_".toList, "proto_".toList, "portal_".toList] ++ q.names.map memberVar
      methods := portalMethods memberVar q }

/-- `getNameAsString(name, "_")` (`pj/sourcegen.hpp` 104-111). -/
def flatName (outer name : SourceId) : FnName := (outer ++ name).flatMap fun c => '_' :: c.map Char.ofNat

/-- The symbol of a precompiled coder (`pj/sourcegen.cpp` 1002, 1024, 1046). -/
def coderSymbol (outer name : SourceId) (n : Comp) : FnName := flatName outer name ++ '_' :: n

/-- A class of a precompiled portal; `schema` is the symbol that `getSchema` refers to. -/
structure PrecompClass where
  name : SourceId
  schema : FnName
  methods : List Method

/-- `auto var = ctx_.plan<::head>("path")`. -/
structure PlanLine where
  var : FnName
  head : SourceId
  path : List Char

/-- What is written for a file. -/
structure SrcGen where
  portals : List PortalClass
  precomps : List PrecompClass
  plans : List PlanLine
  /-- `ctx_.addProtocolDefinition("ptr", "size", var)` -/
  schemas : List (FnName × FnName × FnName)
  /-- A call of `main` with the variable that has the protocol. -/
  adds : List (FnName × AddCall)

/-- Calls of `addProtocol` (`pj/sourcegen.cpp` 233-241); `seen` is `protos_`. -/
def addProtocols (outer : SourceId) (seen : List SourceId) : List (SourceId × PTy × Path) → Option (List PlanLine)
  | [] => some []
  | (n, t, p) :: r =>
    if n ∈ seen then addProtocols outer seen r
    else t.name?.bind fun h => (addProtocols outer (n :: seen) r).map (⟨flatName outer n, h, p.print⟩ :: ·)

/-- A portal of a file with its specification (`pj/pjc.cpp` 119-123). -/
def filePortal (sc : Scope) (n : SourceId) : Option (SourceId × Portal × SourceId × PTy × Path) :=
  (findDef sc.portals n).bind fun q => (findDef sc.specs q.2.proto).map fun s => (n, q.2, s)

/-- A precompiled portal of a file (`pj/pjc.cpp` 125-129). -/
def filePrecomp (sc : Scope) (e : SourceId × SourceId × SourceId) : Option (SourceId × Portal × SourceId × PTy × Path) :=
  (findDef sc.portals e.2.1).bind fun q => (findDef sc.specs e.2.2).map fun s => (e.1, q.2, s)

def schemaPtr (outer name : SourceId) : FnName := "protocol_ptr_".toList ++ flatName outer name
def schemaSize (outer name : SourceId) : FnName := "protocol_size_".toList ++ flatName outer name

/-- The part of `main` in `pj/pjc.cpp` (115-130) about protocols and portals. -/
def genFile (outer : SourceId) (sc : Scope) (f : Nat) : Option SrcGen :=
  ((sc.files f).portals.mapM fun e => filePortal sc e.1).bind fun ps =>
    ((sc.files f).precomps.mapM (filePrecomp sc)).bind fun cs =>
      (addProtocols outer [] ((sc.files f).specs ++ ps.map (·.2.2) ++ cs.map (·.2.2))).bind fun plans =>
        (ps.mapM fun x => portalClass x.1 x.2.1 x.2.2.2).map fun portals =>
          { portals := portals
            precomps := cs.map fun x => ⟨x.1, schemaPtr outer x.1, portalMethods (coderSymbol outer x.1) x.2.1⟩
            plans := plans
            schemas := cs.map fun x => (schemaPtr outer x.1, schemaSize outer x.1, flatName outer x.2.2.1)
            adds := cs.flatMap fun x => (portalAdds (coderSymbol outer x.1) x.2.1).map fun a => (flatName outer x.2.2.1, a) }

/-! ## What C++ demands -/

/-- Keywords of C++17 that the grammar accepts as names. -/
def cppKeywords : List FnName :=
  ["alignas", "alignof", "and", "and_eq", "asm", "auto", "bitand", "bitor", "bool", "break", "case", "catch", "char",
    "char16_t", "char32_t", "class", "compl", "const", "const_cast", "constexpr", "continue", "decltype", "default",
    "delete", "do", "double", "dynamic_cast", "else", "enum", "explicit", "export", "extern", "false", "float", "for",
    "friend", "goto", "if", "inline", "int", "long", "mutable", "namespace", "new", "noexcept", "not", "not_eq",
    "nullptr", "operator", "or", "or_eq", "private", "protected", "public", "register", "reinterpret_cast", "return",
    "short", "signed", "sizeof", "static", "static_assert", "static_cast", "struct", "switch", "template", "this",
    "thread_local", "throw", "true", "try", "typedef", "typeid", "typename", "union", "unsigned", "using", "virtual",
    "void", "volatile", "wchar_t", "while", "xor", "xor_eq"].map String.toList

/-- Rules of C++ for the members of a class named `name` (there are others): variables have names of their own, no
member but the constructor has the name of the class, methods of one name have different parameters, and no name is a
keyword. -/
structure MembersOK (name : FnName) (vars : List FnName) (methods : List Method) : Prop where
  nodup : vars.Nodup
  apart : ∀ m ∈ methods, m.name ∉ vars
  ctor : name ∉ vars ∧ ∀ m ∈ methods, m.name ≠ name
  overloads : (methods.map fun m => (m.name, m.kind, m.ty)).Nodup
  words : ∀ m ∈ methods, m.name ∉ cppKeywords

/-- The last part of a name. -/
def className (n : SourceId) : FnName := (n.getLast?.getD []).map Char.ofNat

/-- A method without parameters: no type has the empty name. -/
def plainMethod (n : String) : Method := ⟨n.toList, .size, [], 0, []⟩

def PortalClass.Compiles (c : PortalClass) : Prop :=
  MembersOK (className c.name) c.vars (plainMethod "getProtocol" :: plainMethod "getContext" :: c.methods)

def PrecompClass.Compiles (c : PrecompClass) : Prop :=
  MembersOK (className c.name) [] (plainMethod "getSchema" :: c.methods)

/-! ## Running it -/

/-- `BuildPJType<::n>::build` (C45).  `none`: there is no specialisation (integers, for which the alias is the C++ type,
`pj/include/pj/integer.hpp` 118-124), or it is not modelled (`any`, types provided by the user). -/
def Scope.hostTy (sc : Scope) (n : SourceId) : Option Ty :=
  (findDef sc.defs n).bind fun e =>
    match e.2 with
    | .int _ _ => none
    | t => t.sty.map describe

/-- A function added to a context (`pj/context.cpp` 261-297). -/
inductive FnDecl
  | size (host : Ty) (p : Proto) (path : Path) (roundUp : Bool)
  | encode (host : Ty) (p : Proto) (path : Path)
  | decode (p : Proto) (host : Ty) (hs : Handlers)

/-- Handlers in the order of their indices (`pj/context.cpp` 277-281). -/
def indexed (l : List Path) : Handlers := l.zipIdx

def AddCall.fn (D : SourceId → Option Ty) (p : Proto) : AddCall → Option (FnName × FnDecl)
  | .size ty n path ru => (D ty).map fun t => (n, .size t p (Path.fromString path) ru)
  | .encode ty n path => (D ty).map fun t => (n, .encode t p (Path.fromString path))
  | .decode ty n hs => (D ty).map fun t => (n, .decode p t (indexed (hs.map Path.fromString)))

def FnDecl.entry (n : FnName) : FnDecl → FnName × BufTy × Op
  | .size t p path _ => sizeEntry t p path n
  | .encode t p path => encodeEntry t p path n
  | .decode p t hs => decodeEntry p t hs n

/-- Compiled code: functions and how they were lowered (C49). -/
structure Image where
  fns : List (FnName × FnDecl)
  g : Gen

/-- `compileToLLVM` (`pj/context.cpp` 341-516): the verifier rejects names that are used twice; the pass has finished. -/
structure Image.Compiled (base : FnKey → FnName) (im : Image) : Prop where
  names : (im.fns.map (·.1)).Nodup
  pass : ∃ n, PassRun base (im.fns.map fun f => f.2.entry f.1) n im.g
  done : im.g.todo = []

/-- The function of a symbol. -/
def Image.find (im : Image) (sym : FnName) : Option FnDecl := (im.fns.find? fun f => f.1 = sym).map (·.2)

/-- Calling a symbol as a size function; undefined if it is something else. -/
def Image.size (im : Image) (fuel : Nat) (sym : FnName) (S : Mem) (obj : Nat) : Option Nat :=
  match im.find sym with
  | some (.size t p path ru) => runSize ru S im.g fuel sym t p path obj
  | _ => none

def Image.encode (im : Image) (fuel : Nat) (sym : FnName) (E : Env) (obj buf : Nat) (mem : Mem) : Res :=
  match im.find sym with
  | some (.encode t p path) => runEncode E im.g fuel sym t p path obj buf mem
  | _ => .ub

def Image.decode (im : Image) (fuel : Nat) (sym : FnName) (E : Env) (msg obj buf cap : Nat) (mem : Mem) :
    Option Decoded :=
  match im.find sym with
  | some (.decode p t hs) => runDecode E im.g fuel sym p t hs msg obj buf cap mem
  | _ => none

/-- The method that a call with these parameters refers to. -/
def findMethod (ms : List Method) (f : FnName) (k : CoderKind) (ty : SourceId) : Option Method :=
  ms.find? fun m => m.name = f ∧ m.kind = k ∧ m.ty = ty

/-- An object of a portal class: code, and the symbols that its variables point to (`none`: null). -/
structure PortalObj where
  image : Image
  members : List (FnName × Option FnName)

/-- The assignments of the constructor, the last one first. -/
def runGets (im : Image) (gets : List GetCall) : List (FnName × Option FnName) :=
  (gets.map fun g => (g.var, (im.find g.name).map fun _ => g.name)).reverse

/-- A constructor has returned, with `p` in `proto_`.  `compile` defines `memcpy` before it adds the module
(`pj/context.cpp` 559-571), so that a function of this name makes it abort. -/
structure Constructed (base : FnKey → FnName) (D : SourceId → Option Ty) (c : PortalClass) (p : Proto) (o : PortalObj) :
    Prop where
  fns : c.adds.mapM (AddCall.fn D p) = some o.image.fns
  compiled : o.image.Compiled base
  libc : "memcpy".toList ∉ o.image.fns.map (·.1)
  members : o.members = runGets o.image c.gets

/-- The protocol that the constructor without arguments plans. -/
def PortalClass.planned (D : SourceId → Option Ty) (c : PortalClass) : Option Proto :=
  (D c.head).bind fun t => plan t (Path.fromString c.tagPath)

/-- The function a method of an object calls. -/
def PortalObj.target (c : PortalClass) (o : PortalObj) (f : FnName) (k : CoderKind) (ty : SourceId) : Option FnName :=
  (findMethod c.methods f k ty).bind fun m => (o.members.lookup m.callee).join

def PortalObj.size (c : PortalClass) (o : PortalObj) (fuel : Nat) (f : FnName) (ty : SourceId) (S : Mem) (obj : Nat) :
    Option Nat :=
  (o.target c f .size ty).bind fun sym => o.image.size fuel sym S obj

def PortalObj.encode (c : PortalClass) (o : PortalObj) (fuel : Nat) (f : FnName) (ty : SourceId) (E : Env) (obj buf : Nat)
    (mem : Mem) : Res :=
  match o.target c f .encode ty with
  | some sym => o.image.encode fuel sym E obj buf mem
  | none => .ub

def PortalObj.decode (c : PortalClass) (o : PortalObj) (fuel : Nat) (f : FnName) (ty : SourceId) (E : Env)
    (msg obj buf cap : Nat) (mem : Mem) : Option Decoded :=
  (o.target c f .decode ty).bind fun sym => o.image.decode fuel sym E msg obj buf cap mem

/-- The object file that the generated `main` writes: code, and the protocols whose encodings are at symbols. -/
structure PreImage where
  image : Image
  data : List (FnName × Proto)

/-- A line of `main` that plans. -/
def PlanLine.run (D : SourceId → Option Ty) (l : PlanLine) : Option (FnName × Proto) :=
  ((D l.head).bind fun t => plan t (Path.fromString l.path)).map fun p => (l.var, p)

/-- The generated `main` compiles and has returned. -/
structure Precompiled (base : FnKey → FnName) (D : SourceId → Option Ty) (s : SrcGen) (im : PreImage) : Prop where
  vars : (s.plans.map (·.var)).Nodup
  run : ∃ env, s.plans.mapM (PlanLine.run D) = some env ∧
    s.adds.mapM (fun a => (env.lookup a.1).bind fun p => a.2.fn D p) = some im.image.fns ∧
    s.schemas.mapM (fun x => (env.lookup x.2.2).map fun p => (x.1, p)) = some im.data
  names : (im.image.fns.map (·.1) ++ s.schemas.map (·.1) ++ s.schemas.map (·.2.1)).Nodup
  compiled : im.image.Compiled base

/-- The function a method of a precompiled class calls. -/
def PrecompClass.target (c : PrecompClass) (f : FnName) (k : CoderKind) (ty : SourceId) : Option FnName :=
  (findMethod c.methods f k ty).map (·.callee)

def PrecompClass.size (c : PrecompClass) (im : PreImage) (fuel : Nat) (f : FnName) (ty : SourceId) (S : Mem) (obj : Nat) :
    Option Nat :=
  (c.target f .size ty).bind fun sym => im.image.size fuel sym S obj

def PrecompClass.encode (c : PrecompClass) (im : PreImage) (fuel : Nat) (f : FnName) (ty : SourceId) (E : Env)
    (obj buf : Nat) (mem : Mem) : Res :=
  match c.target f .encode ty with
  | some sym => im.image.encode fuel sym E obj buf mem
  | none => .ub

def PrecompClass.decode (c : PrecompClass) (im : PreImage) (fuel : Nat) (f : FnName) (ty : SourceId) (E : Env)
    (msg obj buf cap : Nat) (mem : Mem) : Option Decoded :=
  (c.target f .decode ty).bind fun sym => im.image.decode fuel sym E msg obj buf cap mem

end PJ
