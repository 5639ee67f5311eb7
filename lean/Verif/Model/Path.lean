/-!
# Dotted paths

Models `PathAttr` of `pj/type_support.hpp` 324-365 and `pj/type_support.cpp` 79-111.

A component is a list of characters, a path a list of components.
-/
namespace PJ

/-- A path component (`llvm::StringRef`), a name of a field or term. -/
abbrev Comp := List Char

/-- `PathAttr::getValue()`: the components (`pj/type_support.hpp` 344). -/
abbrev Path := List Comp

/-- The loop of `PathAttr::fromString` (`pj/type_support.cpp` 91-96), where the argument is the
suffix of the string starting at `pos`.  `find('.', pos + 1)` looks for a dot from the *second*
character of the suffix on; the component is everything before it and the loop continues
behind the dot.  Simplification: indices into the string are replaced by suffixes. -/
def Path.fromChars : List Char → Path
  | [] => []
  | c :: cs =>
    (c :: cs.takeWhile (· != '.')) :: Path.fromChars ((cs.dropWhile (· != '.')).drop 1)
termination_by s => s.length
decreasing_by
  have := (List.dropWhile_sublist (· != '.') (l := cs)).length_le
  simp only [List.length_drop, List.length_cons]; omega

/-- `PathAttr::fromString` (`pj/type_support.cpp` 84-98); the empty string gives the empty path. -/
def Path.fromString (s : List Char) : Path := Path.fromChars s

/-- `PathAttr::print` (`pj/type_support.hpp` 329-339): components separated by dots. -/
def Path.print : Path → List Char
  | [] => []
  | [c] => c
  | c :: cs => c ++ '.' :: Path.print cs

/-- `PathAttr::startsWith` (`pj/type_support.hpp` 349-353). -/
def Path.startsWith (p : Path) (pre : Comp) : Bool :=
  match p with
  | [] => false
  | c :: _ => c == pre

/-- `PathAttr::narrow` (`pj/type_support.hpp` 355): drops the first component.  Only called when
`startsWith` holds, so the empty case (an out-of-range slice) is not reached. -/
def Path.narrow (p : Path) : Path := p.tail

/-- `PathAttr::into` (`pj/type_support.hpp` 357-362). -/
def Path.into (p : Path) (pre : Comp) : Path :=
  if p.startsWith pre then p.narrow else []

/-- `PathAttr::expand` (`pj/type_support.cpp` 106-111). -/
def Path.expand (p : Path) (pre : Comp) : Path := pre :: p

end PJ
