import Verif.Model.Effects
/-!
# C34: the effect analysis is exact
-/
namespace PJ

/-- Specification: `f` contains an effect, or calls (outside of a catching region) a function
that has one. -/
inductive HasEffect (ops : List EffOp) : Nat → Prop
  | direct {f} : (⟨some f, none⟩ : EffOp) ∈ ops → HasEffect ops f
  | call {f g} : (⟨some f, some g⟩ : EffOp) ∈ ops → HasEffect ops g → HasEffect ops f

/-- The invariant of the closure. -/
private structure Inv (ops : List EffOp) (q : List EffNode) (fns points : List Nat) : Prop where
  fsound : ∀ f ∈ fns, HasEffect ops f
  qfn : ∀ f, EffNode.fn f ∈ q → f ∈ fns
  qop : ∀ i, EffNode.op i ∈ q → ∀ o, ops[i]? = some o →
    (o.callee = none ∨ ∃ g, o.callee = some g ∧ g ∈ fns)
  roots : ∀ i f, ops[i]? = some ⟨some f, none⟩ → EffNode.op i ∈ q ∨ f ∈ fns
  fdone : ∀ g ∈ fns, EffNode.fn g ∈ q ∨ ∀ i o, ops[i]? = some o → o.callee = some g → i ∈ points
  pdone : ∀ i ∈ points, EffNode.op i ∈ q ∨ ∀ f c, ops[i]? = some ⟨some f, c⟩ → f ∈ fns

private theorem mem_newSites {ops : List EffOp} {points : List Nat} {f i : Nat} :
    i ∈ newSites ops points f ↔ (∃ o, ops[i]? = some o ∧ o.callee = some f) ∧ i ∉ points := by
  unfold newSites
  rw [List.mem_filter, List.mem_range]
  constructor
  · rintro ⟨hl, hc⟩
    rw [List.getElem?_eq_getElem hl] at hc
    simp at hc
    exact ⟨⟨ops[i], List.getElem?_eq_getElem hl, hc.1⟩, hc.2⟩
  · rintro ⟨⟨o, ho, hoc⟩, hp⟩
    refine ⟨(List.getElem?_eq_some_iff.1 ho).1, ?_⟩
    rw [ho]; simp [hoc, hp]

private theorem bfs_spec (ops : List EffOp) (q : List EffNode) (fns points : List Nat)
    (h : Inv ops q fns points) :
    ∃ points', Inv ops [] (effBfs ops q fns points).1 points' := by
  fun_induction effBfs ops q fns points with
  | case1 fns points => exact ⟨points, h⟩
  | case2 i q fns points f c ho hc ih =>
    apply ih
    have hc : f ∈ fns := by simpa using hc
    refine ⟨h.fsound, fun g hg => h.qfn g (by simp [hg]), fun j hj => h.qop j (by simp [hj]),
      ?_, ?_, ?_⟩
    · intro j g hj
      rcases h.roots j g hj with h' | h'
      · simp at h'
        rcases h' with rfl | h'
        · rw [ho] at hj; simp at hj; right; rw [← hj.1]; exact hc
        · exact Or.inl h'
      · exact Or.inr h'
    · intro g hg
      rcases h.fdone g hg with h' | h'
      · simp at h'; exact Or.inl h'
      · exact Or.inr h'
    · intro j hj
      rcases h.pdone j hj with h' | h'
      · simp at h'
        rcases h' with rfl | h'
        · right; intro g c' hg; rw [ho] at hg; simp at hg; rw [← hg.1]; exact hc
        · exact Or.inl h'
      · exact Or.inr h'
  | case3 i q fns points f c ho hc ih =>
    apply ih
    have heff : HasEffect ops f := by
      rcases h.qop i (by simp) _ ho with h' | ⟨g, hg, hgf⟩
      · simp at h'; subst h'; exact .direct (List.mem_of_getElem? ho)
      · simp at hg; subst hg; exact .call (List.mem_of_getElem? ho) (h.fsound g hgf)
    refine ⟨?_, ?_, ?_, ?_, ?_, ?_⟩
    · intro g hg
      rcases List.mem_cons.1 hg with rfl | hg
      · exact heff
      · exact h.fsound g hg
    · intro g hg
      simp at hg
      rcases hg with hg | rfl
      · exact List.mem_cons_of_mem _ (h.qfn g (by simp [hg]))
      · simp
    · intro j hj o hoj
      simp at hj
      rcases h.qop j (by simp [hj]) o hoj with h' | ⟨g, h1, h2⟩
      · exact Or.inl h'
      · exact Or.inr ⟨g, h1, by simp [h2]⟩
    · intro j g hj
      rcases h.roots j g hj with h' | h'
      · simp at h'
        rcases h' with rfl | h'
        · rw [ho] at hj; simp at hj; right; simp [hj.1]
        · left; simp [h']
      · right; simp [h']
    · intro g hg
      rcases List.mem_cons.1 hg with rfl | hg
      · left; simp
      · rcases h.fdone g hg with h' | h'
        · simp at h'; left; simp [h']
        · exact Or.inr h'
    · intro j hj
      rcases h.pdone j hj with h' | h'
      · simp at h'
        rcases h' with rfl | h'
        · right; intro g c' hg; rw [ho] at hg; simp at hg; simp [hg.1]
        · left; simp [h']
      · right; intro g c' hg; simp [h' g c' hg]
  | case4 i q fns points c ho ih =>
    apply ih
    refine ⟨h.fsound, fun g hg => h.qfn g (by simp [hg]), fun j hj => h.qop j (by simp [hj]),
      ?_, ?_, ?_⟩
    · intro j g hj
      rcases h.roots j g hj with h' | h'
      · simp at h'
        rcases h' with rfl | h'
        · rw [ho] at hj; simp at hj
        · exact Or.inl h'
      · exact Or.inr h'
    · intro g hg
      rcases h.fdone g hg with h' | h'
      · simp at h'; exact Or.inl h'
      · exact Or.inr h'
    · intro j hj
      rcases h.pdone j hj with h' | h'
      · simp at h'
        rcases h' with rfl | h'
        · right; intro g c' hg; rw [ho] at hg; simp at hg
        · exact Or.inl h'
      · exact Or.inr h'
  | case5 i q fns points ho ih =>
    apply ih
    refine ⟨h.fsound, fun g hg => h.qfn g (by simp [hg]), fun j hj => h.qop j (by simp [hj]),
      ?_, ?_, ?_⟩
    · intro j g hj
      rcases h.roots j g hj with h' | h'
      · simp at h'
        rcases h' with rfl | h'
        · rw [ho] at hj; simp at hj
        · exact Or.inl h'
      · exact Or.inr h'
    · intro g hg
      rcases h.fdone g hg with h' | h'
      · simp at h'; exact Or.inl h'
      · exact Or.inr h'
    · intro j hj
      rcases h.pdone j hj with h' | h'
      · simp at h'
        rcases h' with rfl | h'
        · right; intro g c' hg; rw [ho] at hg; simp at hg
        · exact Or.inl h'
      · exact Or.inr h'
  | case6 f q fns points ih =>
    apply ih
    have hf : f ∈ fns := h.qfn f (by simp)
    refine ⟨h.fsound, ?_, ?_, ?_, ?_, ?_⟩
    · intro g hg
      simp at hg
      exact h.qfn g (by simp [hg])
    · intro j hj o hoj
      simp only [List.mem_append, List.mem_map, EffNode.op.injEq, exists_eq_right] at hj
      rcases hj with hj | hj
      · exact h.qop j (by simp [hj]) o hoj
      · obtain ⟨⟨o', ho', hc'⟩, _⟩ := mem_newSites.1 hj
        rw [hoj] at ho'; simp at ho'; subst ho'
        exact Or.inr ⟨f, hc', hf⟩
    · intro j g hj
      rcases h.roots j g hj with h' | h'
      · simp at h'; left; simp [h']
      · exact Or.inr h'
    · intro g hg
      rcases h.fdone g hg with h' | h'
      · simp at h'
        rcases h' with rfl | h'
        · right
          intro i o ho hoc
          by_cases hp : i ∈ points
          · simp [hp]
          · exact List.mem_append_left _ (mem_newSites.2 ⟨⟨o, ho, hoc⟩, hp⟩)
        · left; simp [h']
      · right; intro i o ho hoc; simp [h' i o ho hoc]
    · intro j hj
      rcases List.mem_append.1 hj with hj | hj
      · left; simp [hj]
      · rcases h.pdone j hj with h' | h'
        · simp at h'; left; simp [h']
        · exact Or.inr h'

/-- The functions found by the analysis are exactly the functions that (transitively, through calls
outside of catching regions) contain an effect — for every call graph, recursion included. -/
theorem C34_exact (ops : List EffOp) (f : Nat) :
    f ∈ effectFunctions ops ↔ HasEffect ops f := by
  have hinit : Inv ops (effRoots ops) [] [] := by
    refine ⟨by simp, ?_, ?_, ?_, by simp, by simp⟩
    · intro g hg; simp [effRoots] at hg
    · intro i hi o ho
      simp only [effRoots, List.mem_map, EffNode.op.injEq, exists_eq_right, List.mem_filter,
        List.mem_range] at hi
      rw [ho] at hi
      left
      simpa using hi.2
    · intro i g hi
      left
      simp only [effRoots, List.mem_map, EffNode.op.injEq, exists_eq_right, List.mem_filter,
        List.mem_range]
      exact ⟨(List.getElem?_eq_some_iff.1 hi).1, by rw [hi]; rfl⟩
  obtain ⟨points', hinv⟩ := bfs_spec ops _ _ _ hinit
  unfold effectFunctions
  constructor
  · exact hinv.fsound f
  · intro h
    induction h with
    | direct hm =>
      obtain ⟨i, hi⟩ := List.getElem?_of_mem hm
      rcases hinv.roots i _ hi with h' | h'
      · simp at h'
      · exact h'
    | @call f g hm _ ih =>
      obtain ⟨i, hi⟩ := List.getElem?_of_mem hm
      rcases hinv.fdone g ih with h' | h'
      · simp at h'
      · rcases hinv.pdone i (h' i _ hi rfl) with h'' | h''
        · simp at h''
        · exact h'' f _ hi

/-- Non-vacuity: 0 calls 1, 1 calls itself and allocates; 2 calls 1 only inside a catch. -/
example : let ops : List EffOp := [⟨some 0, some 1⟩, ⟨some 1, some 1⟩, ⟨some 1, none⟩, ⟨none, some 1⟩]
    HasEffect ops 0 ∧ HasEffect ops 1 ∧ ¬ HasEffect ops 2 := by
  refine ⟨.call (g := 1) (by simp) (.direct (by simp)), .direct (by simp), ?_⟩
  intro h
  cases h with
  | direct h => simp at h
  | call h _ => simp at h

end PJ
