/-!
# Qualified names: ordering and resolution

Models `SourceIdLess` (`pj/protogen.hpp` 15-32), `operator<` on `Name`
(`pj/type_support.hpp` 30-40) and `ParseState::resolve` (`pj/parse.cpp` 162-186).

A string is its list of bytes; `std::string::operator<` and `llvm::StringRef::compare` both
compare bytes as unsigned numbers (`memcmp`) and then lengths.
-/
namespace PJ

/-- `std::string`: the bytes. -/
abbrev Str := List Nat

/-- `std::string::operator<` (used at `pj/protogen.hpp` 22, 25): first differing byte decides, a
proper prefix is smaller.  Same as `StringRef::compare(..) == -1` (`pj/type_support.hpp` 34-36). -/
def Str.less : Str → Str → Bool
  | [], [] => false
  | [], _ :: _ => true
  | _ :: _, [] => false
  | a :: as, b :: bs => if a < b then true else if b < a then false else Str.less as bs

/-- A qualified name (`SourceId`, `pj/protogen.hpp` 13). -/
abbrev SourceId := List Str

/-- `SourceIdLess::operator()` (`pj/protogen.hpp` 18-31): the loop over the common prefix, then the
size comparison.  Simplification: the index loop is a recursion over both lists. -/
def SourceId.less : SourceId → SourceId → Bool
  | [], [] => false
  | [], _ :: _ => true
  | _ :: _, [] => false
  | a :: as, b :: bs =>
    if a.less b then true else if b.less a then false else SourceId.less as bs

/-- `StringRef::compare` (LLVM): -1, 0 or 1. -/
def Str.compare (a b : Str) : Int :=
  if a.less b then -1 else if b.less a then 1 else 0

/-- `operator<(Name, Name)` (`pj/type_support.hpp` 30-40). -/
def SourceId.nameLess : SourceId → SourceId → Bool
  | [], [] => false
  | [], _ :: _ => true
  | _ :: _, [] => false
  | a :: as, b :: bs => if a.compare b ≠ 0 then a.compare b == -1 else SourceId.nameLess as bs

/-- `std::map::find` with a transparent comparator (`pj/parse.cpp` 176): the entry whose key is
neither smaller nor larger. -/
def findDef {α} (defs : List (SourceId × α)) (id : SourceId) : Option (SourceId × α) :=
  defs.find? fun e => !(e.1.less id) && !(id.less e.1)

/-- The loop of `ParseState::resolve` (`pj/parse.cpp` 168-180): tries the name prefixed with the
first `i` components of the current namespace for `i = space.size(), ..., 0`. -/
def resolveFrom {α} (defs : List (SourceId × α)) (space : SourceId) (id : SourceId) :
    Nat → Option (SourceId × α)
  | 0 => findDef defs id
  | i + 1 =>
    match findDef defs (space.take (i + 1) ++ id) with
    | some e => some e
    | none => resolveFrom defs space id i

/-- `ParseState::resolve` (`pj/parse.cpp` 162-186); `none` models the "Cannot resolve type"
error. -/
def resolve {α} (defs : List (SourceId × α)) (space : SourceId) (id : SourceId) :
    Option (SourceId × α) :=
  resolveFrom defs space id space.length

/-- `ParseState::defineType` (`pj/parse.cpp` 188-194); `none` models "Cannot re-define type". -/
def defineType {α} (defs : List (SourceId × α)) (id : SourceId) (v : α) :
    Option (List (SourceId × α)) :=
  match findDef defs id with
  | some _ => none
  | none => some (defs ++ [(id, v)])

end PJ
