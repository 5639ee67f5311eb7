import Verif.Model.Ident
/-!
# Interning of variants

Models `internVariant` (`pj/types.hpp` 426-469).
-/
namespace PJ

/-- Insertion by name. -/
def insertTerm {β} (x : (Str × β) × Nat) : List ((Str × β) × Nat) → List ((Str × β) × Nat)
  | [] => [x]
  | y :: ys => if y.1.1.less x.1.1 then y :: insertTerm x ys else x :: y :: ys

/-- `std::sort` of the indices by the names of the terms (`pj/types.hpp` 435-439).  Simplification:
the indices are sorted together with the terms they stand for. -/
def sortTerms {β} : List ((Str × β) × Nat) → List ((Str × β) × Nat)
  | [] => []
  | x :: xs => insertTerm x (sortTerms xs)

/-- `internVariant` (`pj/types.hpp` 426-469) on terms (name, rest) and default index: the sorted
terms, the new default index (`std::distance` to the position of the old one, 441-443), and
whether all payloads are unit (450-459). -/
def internVariant {β} (isUnit : β → Bool) (terms : List (Str × β)) (dflt : Nat) :
    List (Str × β) × Nat × Bool :=
  let sorted := sortTerms terms.zipIdx
  (sorted.map (·.1), sorted.findIdx (fun p => p.2 == dflt), terms.all (fun t => isUnit t.2))

end PJ
