import Verif.Model.Dispatch
import Verif.Lemmas.Sort
/-!
# C21: tag dispatch selects the block of the matching term
-/
namespace PJ

theorem switchOn_pairs {β} (tag : Nat) (dflt : β) (l : List (Nat × β)) :
    switchOn tag dflt (l.map (·.1)) (l.map (·.2)) =
      match l.find? (fun t => t.1 == tag) with
      | some t => t.2
      | none => dflt := by
  induction l with
  | nil => rfl
  | cons x xs ih =>
    simp only [List.map_cons, switchOn, List.find?_cons]
    by_cases h : x.1 = tag
    · simp [h]
    · have : (x.1 == tag) = false := by simpa using h
      simp only [h, if_false, this]; exact ih

/-- The claim for one list of terms: every stored tag selects the code of the term with this tag,
every other tag the default code. -/
def DispatchCorrect {β} (terms : List (Nat × β)) : Prop :=
  ∀ (dflt : β) (tag : Nat),
    (∀ c, (tag, c) ∈ terms → matchTag terms dflt tag = c) ∧
    ((∀ c, (tag, c) ∉ terms) → matchTag terms dflt tag = dflt)

theorem matchTag_eq {β} (terms : List (Nat × β))
    (hord : ∀ a ∈ terms, ∀ b ∈ terms,
      (toSigned 8 a.1 ≤ toSigned 8 b.1 ↔ (a.1 : Int) ≤ (b.1 : Int))) (dflt : β) (tag : Nat) :
    matchTag terms dflt tag =
      match (matchBlocks terms).find? (fun t => t.1 == tag) with
      | some t => t.2
      | none => dflt := by
  have : matchCaseVals terms = (matchBlocks terms).map (·.1) := by
    unfold matchCaseVals matchBlocks
    exact (sortBy_map (fun t : Nat × β => t.1) _ (fun t => (t : Int)) terms hord).symm
  unfold matchTag
  rw [this, switchOn_pairs]

theorem dispatch_of_order {β} (terms : List (Nat × β)) (hnd : (terms.map (·.1)).Nodup)
    (hord : ∀ a ∈ terms, ∀ b ∈ terms,
      (toSigned 8 a.1 ≤ toSigned 8 b.1 ↔ (a.1 : Int) ≤ (b.1 : Int))) :
    DispatchCorrect terms := by
  have huniq : ∀ a ∈ terms, ∀ b ∈ terms, a.1 = b.1 → a = b := by
    intro a ha b hb hab
    obtain ⟨i, hi, rfl⟩ := List.getElem_of_mem ha
    obtain ⟨j, hj, rfl⟩ := List.getElem_of_mem hb
    have hp := List.pairwise_iff_getElem.1 (List.pairwise_map.1 hnd)
    rcases Nat.lt_trichotomy i j with h | h | h
    · exact absurd hab (hp i j hi hj h)
    · subst h; rfl
    · exact absurd hab.symm (hp j i hj hi h)
  intro dflt tag
  rw [matchTag_eq terms hord]
  constructor
  · intro c hc
    cases hf : (matchBlocks terms).find? (fun t => t.1 == tag) with
    | none =>
      have := List.find?_eq_none.1 hf (tag, c) (sortBy_mem.2 hc)
      simp at this
    | some t =>
      have h1 := sortBy_mem.1 (List.mem_of_find?_eq_some hf)
      have h2 := List.find?_some hf
      simp at h2
      have := huniq t h1 (tag, c) hc h2
      simp [this]
  · intro hno
    cases hf : (matchBlocks terms).find? (fun t => t.1 == tag) with
    | none => rfl
    | some t =>
      have h1 := sortBy_mem.1 (List.mem_of_find?_eq_some hf)
      have h2 := List.find?_some hf
      simp at h2
      exact absurd h1 (by obtain ⟨a, b⟩ := t; simp at h2; subst h2; exact hno b)

/-- Dispatch is correct for all terms with distinct 64-bit tags provided no tag has the top bit set
(or all have).  Missing for the full claim: tags on both sides of 2^63, where the claim is false
(`C21_dispatch_violated`). -/
theorem C21_dispatch_partial {β} (terms : List (Nat × β)) (hnd : (terms.map (·.1)).Nodup)
    (hlt : ∀ t ∈ terms, t.1 < 2 ^ 64)
    (hside : (∀ t ∈ terms, t.1 < 2 ^ 63) ∨ (∀ t ∈ terms, 2 ^ 63 ≤ t.1)) :
    DispatchCorrect terms := by
  apply dispatch_of_order terms hnd
  intro a ha b hb
  have h1 := hlt a ha
  have h2 := hlt b hb
  unfold toSigned
  rcases hside with h | h
  · have := h a ha; have := h b hb
    simp only [Nat.reducePow] at *
    rw [if_pos (by omega), if_pos (by omega)]
  · have := h a ha; have := h b hb
    simp only [Nat.reducePow] at *
    rw [if_neg (by omega), if_neg (by omega)]; omega

/-- The full claim is false: with tags 1 and 2^63 (both allowed in a schema) the two blocks are
exchanged: the blocks are sorted as signed and the case values as unsigned numbers. -/
theorem C21_dispatch_violated :
    ∃ terms : List (Nat × String), (terms.map (·.1)).Nodup ∧ (∀ t ∈ terms, t.1 < 2 ^ 64) ∧
      ¬ DispatchCorrect terms := by
  refine ⟨[(1, "a"), (2 ^ 63, "b")], by decide, by decide, ?_⟩
  intro h
  have := (h "default" 1).1 "a" (by decide)
  revert this
  decide

example : DispatchCorrect [(7, "x"), (1, "y"), (300, "z")] :=
  C21_dispatch_partial _ (by decide) (by decide) (Or.inl (by decide))

end PJ
