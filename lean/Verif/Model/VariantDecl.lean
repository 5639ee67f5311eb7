import Verif.Model.Path
import Verif.Model.Validate
/-!
# Tag assignment of `variant`/`enum` declarations

Models `handleVariantField` and `handleVariant` (`pj/parse.cpp` 508-532, 546-622).
-/
namespace PJ

/-- One `name [: Type] [= tag] [default];` line.  Explicit tags are non-zero 64-bit numbers
(`pj/parse.cpp` 482-500 rejects 0; a character literal is a sign-extended byte). The payload type
plays no role in tag assignment and is left out. -/
structure FieldDecl where
  name : Comp
  tag : Option Nat
  isDefault : Bool
deriving DecidableEq

def FieldDecl.Legal (f : FieldDecl) : Prop := ∀ t, f.tag = some t → t ≠ 0 ∧ t < 2 ^ 64

/-- Result of the declaration: an error ("Cannot have multiple default terms" or a validation
error), the tag search running forever, or the terms in order and the default's index. -/
inductive DeclResult
  | error
  | diverges
  | ok (terms : List (Comp × Nat)) (defaultIdx : Nat)
deriving DecidableEq

/-- Effect of `handleVariantField` over the lines of the declaration (`pj/parse.cpp` 508-532) on
`default_term`: `none` in case of the "multiple default terms" error. -/
def collectDefault : List FieldDecl → Option Comp → Option (Option Comp)
  | [], d => some d
  | f :: fs, d =>
    if f.isDefault then
      (match d with
       | some _ => none
       | none => collectDefault fs (some f.name))
    else collectDefault fs d

/-- `explicit_tags` (`pj/parse.cpp` 519-522): a map, a later line overwrites an earlier one. -/
def explicitTag (fs : List FieldDecl) (n : Comp) : Option Nat :=
  match fs.reverse.find? (fun f => f.name == n && f.tag.isSome) with
  | some f => f.tag
  | none => none

/-- The `while` loop looking for a free tag (`pj/parse.cpp` 582-584), 64-bit wrap-around included.
`fuel` bounds the number of iterations; running out of it stands for an endless loop, which
`nextFree_total` shows to be impossible with the fuel used below unless all 2^64 tags are taken. -/
def nextFree (reserved : List Nat) : Nat → Nat → Option Nat
  | 0, _ => none
  | fuel + 1, cur =>
    if reserved.contains cur then nextFree reserved fuel ((cur + 1) % 2 ^ 64) else some cur

/-- The loop assigning tags (`pj/parse.cpp` 569-593). -/
def assignTags (ex : Comp → Option Nat) :
    List Comp → List Nat → Nat → Option (List (Comp × Nat))
  | [], _, _ => some []
  | n :: ns, reserved, cur =>
    match ex n with
    | some t =>
      match assignTags ex ns reserved ((t + 1) % 2 ^ 64) with
      | some r => some ((n, t) :: r)
      | none => none
    | none =>
      match nextFree reserved (reserved.length + 1) cur with
      | none => none
      | some t =>
        match assignTags ex ns (t :: reserved) t with
        | some r => some ((n, t) :: r)
        | none => none

/-- The name given to the implicit default term (`pj/parse.cpp` 559). -/
def undefName : Comp := ['u', 'n', 'd', 'e', 'f']

/-- `field_order` after inserting the implicit default term (`pj/parse.cpp` 558-561). -/
def declOrder (fs : List FieldDecl) : Option Comp → List Comp
  | none => undefName :: fs.map (·.name)
  | some _ => fs.map (·.name)

/-- `default_term_idx` (`pj/parse.cpp` 561-567). -/
def declDefaultIdx (fs : List FieldDecl) : Option Comp → Nat
  | none => 0
  | some d => (fs.map (·.name)).idxOf d

/-- `handleVariant` (`pj/parse.cpp` 546-605). -/
def handleVariant (fs : List FieldDecl) : DeclResult :=
  match collectDefault fs none with
  | none => .error
  | some dflt =>
    match assignTags (explicitTag fs) (declOrder fs dflt)
        (fs.filterMap (fun f => explicitTag fs f.name)) 0 with
    | none => .diverges
    | some terms => if validateVariant terms then .ok terms (declDefaultIdx fs dflt) else .error

end PJ
