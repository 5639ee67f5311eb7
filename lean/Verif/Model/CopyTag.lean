import Verif.Model.Path
import Verif.Model.IntConv
/-!
# Enum fast path

Models `CopyTagOpLowering` (`pj/llvm_gen2.cpp` 445-542).
-/
namespace PJ

/-- What the lowering looks at: terms (name, tag), default index and tag width in bytes. -/
structure EnumTy where
  terms : List (Comp × Nat)
  dflt : Nat
  tagW : Nat

/-- `dst_terms` (`pj/llvm_gen2.cpp` 455-458): name to term, a later term of the same name wins. -/
def EnumTy.tagOf (e : EnumTy) (n : Comp) : Option Nat :=
  (e.terms.reverse.find? (fun t => t.1 == n)).map (·.2)

/-- `exact_match` (`pj/llvm_gen2.cpp` 465-476): every source term exists with the same tag. -/
def exactMatch (src dst : EnumTy) : Bool :=
  src.terms.all fun t => dst.tagOf t.1 == some t.2

/-- `tag_mapping` (`pj/llvm_gen2.cpp` 467-476): unknown terms are mapped to 0. -/
def tagMapping (src dst : EnumTy) : List (Nat × Nat) :=
  src.terms.map fun t => (t.2, match dst.tagOf t.1 with | some g => g | none => 0)

/-- Number of entries of `table` (`pj/llvm_gen2.cpp` 497-504): one more than the largest source
tag.  The loop needs the source tags to be distinct, as `validate` ensures. -/
def tableSize (src : EnumTy) : Nat := (src.terms.map (·.2)).foldl max 0 + 1

/-- Entry `t` of `table`: 0 in the gaps (`pj/llvm_gen2.cpp` 499-503). -/
def tableEntry (src dst : EnumTy) (t : Nat) : Nat :=
  match (tagMapping src dst).find? (fun p => p.1 == t) with
  | some p => p.2
  | none => 0

/-- The tag stored in the destination for the raw source tag `raw` (`pj/llvm_gen2.cpp` 478-538);
`none` is undefined behaviour.  Exact match: copied, zero extended or truncated (478-489).
Otherwise the bounds check compares with the table size truncated to the source tag width
(506-508), and the element address is computed by a `getelementptr` with the raw tag as index,
which LLVM sign-extends (524-525): a tag with its top bit set addresses memory in front of the
table. -/
def copyTag (src dst : EnumTy) (raw : Nat) : Option Nat :=
  if exactMatch src dst then some (raw % 256 ^ dst.tagW)
  else if raw ≥ tableSize src % 256 ^ src.tagW then
    match dst.terms[dst.dflt]? with
    | some t => some (t.2 % 256 ^ dst.tagW)
    | none => none
  else if toSigned src.tagW raw < 0 then none
  else some (tableEntry src dst raw % 256 ^ dst.tagW)

end PJ
