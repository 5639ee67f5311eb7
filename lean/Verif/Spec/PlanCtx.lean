import Verif.Spec.Reflect
import Verif.Model.Ty
/-!
# Where a type uses nominal types
-/
namespace PJ

/-- How often a struct or variant occurs in a type, up to a depth. -/
def uses (ctx : Ctx) : Nat → Key → Ref → Nat
  | 0, _, _ => 0
  | n + 1, k, r => (if r = .nom k then 1 else 0) + ((kids ctx r).map (uses ctx n k)).sum

/-- The structs on a path. -/
def onPath (ctx : Ctx) : Nat → Ref → Path → List Key
  | n + 1, .nom k, c :: p =>
    match ctx k with
    | some (.struct fs _ _) => k :: fs.flatMap fun f => if f.name = c then onPath ctx n f.ty p else []
    | _ => []
  | _, _, _ => []

/-- The digits of no address are the last digits of that of another type. -/
def SuffixFree (addr : Ref → Comp) : Prop := ∀ r r' p, addr r = p ++ addr r' → r = r'

/-- A type has a name that does not end with the digits of an address. -/
def Named (addr : Ref → Comp) (k : Key) : Prop := k.name ≠ [] ∧ ∀ r p, k.name.getLast? ≠ some (p ++ addr r)

end PJ
