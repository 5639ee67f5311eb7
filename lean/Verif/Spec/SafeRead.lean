import Verif.Model.SafeRead
/-!
# Distances between pointers
-/
namespace PJ

/-- Pointer `j` is `d` bytes after `i`, by its definition. -/
def PtrFun.Step (f : PtrFun) (i j d : Nat) : Prop := (f.def j = .cast i ∧ d = 0) ∨ f.def j = .gep i (some d)

/-- Pointer `i` is `d` bytes after `r`, whatever `r` is. -/
inductive PtrFun.At (f : PtrFun) (r : Nat) : Nat → Nat → Prop
  | refl : f.At r r 0
  | step {i j d k : Nat} : f.At r i d → f.Step i j k → f.At r j (d + k)

/-- A pointer that is not a constant distance after another one. -/
def PtrFun.Root (f : PtrFun) (r : Nat) : Prop := ∀ i d, ¬ f.Step i r d

/-- Pointers are made of pointers that come before them. -/
def PtrFun.Ordered (f : PtrFun) : Prop := ∀ i j d, f.Step i j d → i < j

/-- At run time pointers have addresses as their definitions say. -/
def PtrFun.Run (f : PtrFun) (addr : Nat → Nat) : Prop := ∀ i j d, f.Step i j d → addr j = addr i + d

/-- The bytes that are promised: the distances from `r` are below `n`. -/
def PtrFun.Promised (f : PtrFun) (r n : Nat) : Prop := ∀ p L d, (p, L) ∈ f.freezes → f.At r p d → d + L ≤ n

/-- What an instruction copies from where. -/
def Inst.source : Inst → Option (Nat × Nat × Nat)
  | .copy c => c.src.map fun r => (r, c.srcOff, c.len)
  | .loadStore c _ => c.src.map fun r => (r, c.srcOff, c.len)
  | .other _ => none

/-- All copies read inside of the first `n r` bytes of `r`. -/
def Inside (n : Nat → Nat) (is : List Inst) : Prop := ∀ i ∈ is, ∀ r o l, i.source = some (r, o, l) → o + l ≤ n r

/-- The pointers to the parts of a source, pointer 0, and what is promised about them. -/
def Ty.ptrs (t : Ty) : PtrFun where
  defs := .other :: t.promises.map fun x => .gep 0 (some (x.1 : Int))
  freezes := t.promises.zipIdx.map fun x => (x.2 + 1, x.1.2)

/-- The copies that fill the fields of a struct from the fields with the same names in another one, as far as they have the
same type: source at distance `a` of pointer `r`, destination `d`. -/
def Fields.copies (sfs : Fields) (r a d : Nat) : Fields → List Inst
  | .nil => []
  | .cons n o t rest =>
    (match sfs.find n with
    | some (so, _) => [.copy ⟨some r, d, a + so, o, t.size⟩]
    | none => []) ++ sfs.copies r a d rest

end PJ
