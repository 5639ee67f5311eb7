import Verif.Model.Word
/-!
# Tag dispatch

Models the block list built in `getOrCreateVariantTranscodeFn` (`pj/generate_ir.cpp` 447-491) and
`MatchOpLowering` (`pj/llvm_gen2.cpp` 544-588).
-/
namespace PJ

/-- The blocks in the order given to `MatchOp`: pairs of (tag, code), the tag converted to the
signed `intptr_t` (`pj/generate_ir.cpp` 447, 479), sorted by it (482). -/
def matchBlocks {β} (terms : List (Nat × β)) : List (Nat × β) :=
  sortBy (fun t => toSigned 8 t.1) terms

/-- The case values of the switch: the tags of the terms sorted as unsigned numbers
(`pj/llvm_gen2.cpp` 567-572). -/
def matchCaseVals {β} (terms : List (Nat × β)) : List Nat :=
  sortBy (fun t => (t : Int)) (terms.map (·.1))

/-- LLVM `switch`: the destination paired with the first case value equal to the tag, or the
default destination. -/
def switchOn {β} (tag : Nat) (dflt : β) : List Nat → List β → β
  | v :: vs, b :: bs => if v = tag then b else switchOn tag dflt vs bs
  | _, _ => dflt

/-- The whole dispatch on the (zero extended) tag read from the source; with no cases the lowering
jumps to the default block (`pj/llvm_gen2.cpp` 549-554), which `switchOn` does too. -/
def matchTag {β} (terms : List (Nat × β)) (dflt : β) (tag : Nat) : β :=
  switchOn tag dflt (matchCaseVals terms) ((matchBlocks terms).map (·.2))

end PJ
