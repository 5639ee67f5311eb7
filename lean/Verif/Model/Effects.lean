/-!
# Side effect analysis

Models `SideEffectAnalysis::SideEffectAnalysis` (`pj/side_effect_analysis.cpp` 17-81).
-/
namespace PJ

/-- An operation the analysis looks at (`side_effect_analysis.cpp` 31-46).  `fn` is the function
directly enclosing it, `none` if it is inside a `DecodeCatchOp` or `SizeOp` (48-54).  `callee` is
the called function, `none` for the operations that are effects themselves (callbacks, throws,
bounded allocations and alignments; 56-61). -/
structure EffOp where
  fn : Option Nat
  callee : Option Nat
deriving DecidableEq

/-- An entry of the work queue `roots`: an operation (by index) or a function. -/
inductive EffNode
  | op (i : Nat)
  | fn (f : Nat)

/-- Call sites of `f` not yet in `effect_points` (`side_effect_analysis.cpp` 76-81). -/
def newSites (ops : List EffOp) (points : List Nat) (f : Nat) : List Nat :=
  (List.range ops.length).filter fun i =>
    (match ops[i]? with
     | some o => o.callee == some f
     | none => false) && !points.contains i

/-- Functions with operations that are not yet in `effect_functions` (termination measure). -/
def missingFns (ops : List EffOp) (fns : List Nat) : Nat :=
  ((ops.filterMap (·.fn)).filter (fun f => !fns.contains f)).length

/-- Operations not yet in `effect_points` (termination measure). -/
def missingPoints (ops : List EffOp) (points : List Nat) : Nat :=
  ((List.range ops.length).filter (fun i => !points.contains i)).length

theorem filter_length_mono {α} (l : List α) (p q : α → Bool) (h : ∀ a ∈ l, p a = true → q a = true) :
    (l.filter p).length ≤ (l.filter q).length := by
  rw [← List.countP_eq_length_filter, ← List.countP_eq_length_filter]
  exact List.countP_mono_left h

theorem missingFns_lt (ops : List EffOp) (fns : List Nat) (f : Nat)
    (hf : f ∈ ops.filterMap (·.fn)) (hn : ¬ fns.contains f = true) :
    missingFns ops (f :: fns) < missingFns ops fns := by
  unfold missingFns
  generalize ops.filterMap (·.fn) = l at hf
  induction l with
  | nil => simp at hf
  | cons x xs ih =>
    have hmono := filter_length_mono xs (fun g => !(f :: fns).contains g)
      (fun g => !fns.contains g) (by intro a _; simp)
    have hn' : fns.contains f = false := by simpa using hn
    by_cases hx : x = f
    · subst hx
      have h2 : (x :: fns).contains x = true := by simp
      rw [List.filter_cons, List.filter_cons]
      simp only [h2, hn', Bool.not_true, Bool.not_false, if_true, List.length_cons,
        Bool.false_eq_true, if_false]
      omega
    · have ih := ih (by
        rcases List.mem_cons.1 hf with h | h
        · exact absurd h.symm hx
        · exact h)
      have h2 : (f :: fns).contains x = fns.contains x := by
        simp [hx]
      rw [List.filter_cons, List.filter_cons, h2]
      split
      · simp only [List.length_cons]; omega
      · exact ih

theorem missingPoints_le (ops : List EffOp) (points : List Nat) (f : Nat) :
    missingPoints ops (newSites ops points f ++ points) + (newSites ops points f).length
      ≤ missingPoints ops points := by
  unfold missingPoints newSites
  generalize List.range ops.length = l
  have key : ∀ P : Nat → Bool, ∀ l' : List Nat, (∀ i ∈ l', i ∈ l) →
      (l'.filter (fun i => !((l.filter (fun i => P i && !points.contains i)) ++ points).contains i)).length
      + (l'.filter (fun i => P i && !points.contains i)).length
      ≤ (l'.filter (fun i => !points.contains i)).length := by
    intro P l'
    induction l' with
    | nil => intro _; simp
    | cons x xs ih =>
      intro hsub
      have ih := ih (fun i hi => hsub i (by simp [hi]))
      have hxl := hsub x (by simp)
      rw [List.filter_cons, List.filter_cons, List.filter_cons]
      by_cases hp : points.contains x = true
      · have h1 : ((l.filter (fun i => P i && !points.contains i)) ++ points).contains x = true := by
          simp at hp ⊢; exact Or.inr hp
        rw [h1, hp]
        simp only [Bool.not_true, Bool.and_false, Bool.false_eq_true, if_false]
        exact ih
      · have hp' : points.contains x = false := by simpa using hp
        by_cases hPx : P x = true
        · have h1 : ((l.filter (fun i => P i && !points.contains i)) ++ points).contains x = true := by
            simp only [List.contains_iff_mem, List.mem_append, List.mem_filter]
            left; exact ⟨hxl, by rw [hPx, hp']; rfl⟩
          rw [h1, hp', hPx]
          simp only [Bool.not_true, Bool.not_false, Bool.and_true, Bool.false_eq_true, if_false,
            if_true, List.length_cons]
          omega
        · have hPx' : P x = false := by simpa using hPx
          rw [hp', hPx']
          simp only [Bool.not_false, Bool.and_true, Bool.false_eq_true, if_false, if_true,
            List.length_cons]
          split
          · simp only [List.length_cons]; omega
          · omega
  exact key _ l (fun i hi => hi)

/-- The breadth first closure (`side_effect_analysis.cpp` 65-83): returns `effect_functions` and
`effect_points`.  An operation without enclosing function has no call sites (the lookup at 74
yields an empty list). -/
def effBfs (ops : List EffOp) : List EffNode → List Nat → List Nat → List Nat × List Nat
  | [], fns, points => (fns, points)
  | .op i :: q, fns, points =>
    match _h : ops[i]? with
    | some ⟨some f, _⟩ =>
      if fns.contains f then effBfs ops q fns points
      else effBfs ops (q ++ [.fn f]) (f :: fns) points
    | some ⟨none, _⟩ => effBfs ops q fns points
    | none => effBfs ops q fns points
  | .fn f :: q, fns, points =>
    effBfs ops (q ++ (newSites ops points f).map .op) fns (newSites ops points f ++ points)
termination_by q fns points => q.length + 2 * missingFns ops fns + 2 * missingPoints ops points
decreasing_by
  · simp +arith
  · rename_i c hn
    have hm : f ∈ ops.filterMap (·.fn) := by
      rw [List.mem_filterMap]
      exact ⟨⟨some f, _⟩, List.mem_of_getElem? _h, rfl⟩
    have := missingFns_lt ops fns f hm hn
    simp only [List.length_append, List.length_cons, List.length_nil]
    omega
  · simp +arith
  · simp +arith
  · have := missingPoints_le ops points f
    simp only [List.length_append, List.length_cons, List.length_map]
    omega

/-- The initial queue: all operations that are effects themselves (`side_effect_analysis.cpp`
56-61). -/
def effRoots (ops : List EffOp) : List EffNode :=
  ((List.range ops.length).filter fun i =>
    match ops[i]? with
    | some o => o.callee.isNone
    | none => false).map .op

/-- `effect_functions` computed by the analysis. -/
def effectFunctions (ops : List EffOp) : List Nat := (effBfs ops (effRoots ops) [] []).1

end PJ
