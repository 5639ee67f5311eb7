import Verif.Props.C36_SourceOrder
/-!
# C26: a scoped name resolves to the innermost enclosing definition
-/
namespace PJ

theorem findDef_some {α} {defs : List (SourceId × α)} {id : SourceId} {e : SourceId × α}
    (h : findDef defs id = some e) : e ∈ defs ∧ e.1 = id := by
  unfold findDef at h
  refine ⟨List.mem_of_find?_eq_some h, ?_⟩
  have := List.find?_some h
  simp at this
  exact C36_total _ _ this.1 this.2

theorem findDef_none {α} {defs : List (SourceId × α)} {id : SourceId}
    (h : findDef defs id = none) : ∀ e ∈ defs, e.1 ≠ id := by
  intro e he hid
  unfold findDef at h
  have := List.find?_eq_none.1 h e he
  simp [hid, C36_irreflexive] at this

private theorem resolveFrom_spec {α} (defs : List (SourceId × α)) (space id : SourceId) (n : Nat) :
    (∀ e, resolveFrom defs space id n = some e →
      ∃ k, k ≤ n ∧ e ∈ defs ∧ e.1 = space.take k ++ id ∧
        ∀ j, k < j → j ≤ n → ∀ d ∈ defs, d.1 ≠ space.take j ++ id) ∧
    (resolveFrom defs space id n = none →
      ∀ j, j ≤ n → ∀ d ∈ defs, d.1 ≠ space.take j ++ id) := by
  induction n with
  | zero =>
    simp only [resolveFrom]
    constructor
    · intro e h
      obtain ⟨h1, h2⟩ := findDef_some h
      exact ⟨0, by omega, h1, by simpa using h2, by intro j; omega⟩
    · intro h j hj
      have : j = 0 := by omega
      subst this
      simpa using findDef_none h
  | succ n ih =>
    simp only [resolveFrom]
    cases hf : findDef defs (space.take (n + 1) ++ id) with
    | some e' =>
      simp only [Option.some.injEq, forall_eq', reduceCtorEq, false_implies, and_true]
      obtain ⟨h1, h2⟩ := findDef_some hf
      exact ⟨n + 1, by omega, h1, h2, by intro j; omega⟩
    | none =>
      have hnone := findDef_none hf
      simp only []
      constructor
      · intro e h
        obtain ⟨k, hk, he, hid, hin⟩ := ih.1 e h
        refine ⟨k, by omega, he, hid, ?_⟩
        intro j hj1 hj2
        by_cases hj : j = n + 1
        · subst hj; exact hnone
        · exact hin j hj1 (by omega)
      · intro h j hj
        by_cases hj' : j = n + 1
        · subst hj'; exact hnone
        · exact ih.2 h j (by omega)

/-- A successful resolution returns a definition in one of the enclosing namespaces (the current
namespace cut to some length `k`), and no longer namespace prefix defines the name. -/
theorem C26_innermost {α} (defs : List (SourceId × α)) (space id : SourceId) (e : SourceId × α)
    (h : resolve defs space id = some e) :
    ∃ k, k ≤ space.length ∧ e ∈ defs ∧ e.1 = space.take k ++ id ∧
      ∀ j, k < j → j ≤ space.length → ∀ d ∈ defs, d.1 ≠ space.take j ++ id :=
  (resolveFrom_spec defs space id space.length).1 e h

/-- Resolution fails exactly when no enclosing namespace defines the name. -/
theorem C26_fails_iff {α} (defs : List (SourceId × α)) (space id : SourceId) :
    resolve defs space id = none ↔
      ∀ j, j ≤ space.length → ∀ d ∈ defs, d.1 ≠ space.take j ++ id := by
  constructor
  · exact (resolveFrom_spec defs space id space.length).2
  · intro h
    cases hr : resolve defs space id with
    | none => rfl
    | some e =>
      obtain ⟨k, hk, he, hid, _⟩ := C26_innermost defs space id e hr
      exact absurd hid (h k hk e he)

/-- Definitions are unique: `defineType` keeps the names in the table distinct, refuses exactly
the names already there, and otherwise makes the new name resolvable to the new definition. -/
theorem C26_define {α} (defs : List (SourceId × α)) (id : SourceId) (v : α)
    (hnd : (defs.map (·.1)).Nodup) :
    (defineType defs id v = none ↔ ∃ e ∈ defs, e.1 = id) ∧
    (∀ defs', defineType defs id v = some defs' →
      (defs'.map (·.1)).Nodup ∧ resolve defs' [] id = some (id, v) ∧
      ∀ other, other ≠ id → resolve defs' [] other = resolve defs [] other) := by
  unfold defineType
  cases hf : findDef defs id with
  | some e =>
    have := findDef_some hf
    simp only [reduceCtorEq, false_implies, implies_true, and_true, true_iff]
    exact ⟨e, this.1, this.2⟩
  | none =>
    have hn := findDef_none hf
    refine ⟨⟨by simp, ?_⟩, ?_⟩
    · rintro ⟨e, he, hid⟩; exact absurd hid (hn e he)
    · intro defs' h
      simp only [Option.some.injEq] at h
      subst h
      refine ⟨?_, ?_, ?_⟩
      · rw [List.map_append, List.nodup_append]
        refine ⟨hnd, by simp, ?_⟩
        intro a ha b hb hab
        simp at hb
        obtain ⟨e, he, hea⟩ := List.mem_map.1 ha
        exact hn e he (by rw [hea, hab, hb])
      · simp only [resolve, resolveFrom, List.length_nil, findDef]
        unfold findDef at hf
        rw [List.find?_append, hf]
        simp [C36_irreflexive]
      · intro other ho
        have : (id.less other = true ∨ other.less id = true) := by
          by_cases h1 : id.less other = true
          · exact Or.inl h1
          · by_cases h2 : other.less id = true
            · exact Or.inr h2
            · exact absurd (C36_total _ _ (by simpa using h2) (by simpa using h1)) ho
        simp only [resolve, resolveFrom, List.length_nil, findDef]
        rw [List.find?_append]
        have hnone : List.find? (fun e : SourceId × α => !e.1.less other && !other.less e.1)
            [(id, v)] = none := by
          rcases this with h | h <;> simp [h]
        rw [hnone, Option.or_none]

/-- Non-vacuity: `B` used inside `a.b` resolves to `a.B` although `B` is defined globally too. -/
example : resolve [([[98]], 0), ([[1], [98]], 1)] [[1], [2]] [[98]] = some ([[1], [98]], 1) := by
  decide

end PJ
