import Verif.Model.Imports
/-!
# C27: imports terminate and cycles are reported

Termination is the fact that `parseFile` is a total Lean function without fuel.
-/
namespace PJ

/-- Specification: `f` directly imports `g`. -/
def Imports (fs : Files) (f g : Nat) : Prop := ∃ ds, fs.get f = some ds ∧ FileDecl.imp g ∈ ds

/-- Specification: `g` is reachable from `f` by imports (reflexive, transitive). -/
inductive ImportsStar (fs : Files) : Nat → Nat → Prop
  | refl (f) : ImportsStar fs f f
  | step {f g h} : Imports fs f g → ImportsStar fs g h → ImportsStar fs f h

/-- Specification: `f` lies on an import cycle. -/
def OnCycle (fs : Files) (f : Nat) : Prop := ∃ g, Imports fs f g ∧ ImportsStar fs g f

/-- Every file in the list comes after all the files it imports. -/
def AfterImports (fs : Files) (log : List Nat) : Prop :=
  ∀ a f b, log = a ++ f :: b → ∀ g, Imports fs f g → g ∈ a

private theorem main (fs : Files) :
    (∀ pending sc f,
      (parseFile fs pending sc f = .error .cycle →
        ∃ g, ImportsStar fs f g ∧ (g ∈ pending ∨ OnCycle fs g)) ∧
      (parseFile fs pending sc f = .error .missing →
        ∃ g, ImportsStar fs f g ∧ fs.get g = none) ∧
      (∀ sc', parseFile fs pending sc f = .ok sc' →
        (∀ g, ImportsStar fs f g → g ∉ pending ∧ ¬ OnCycle fs g ∧ g ∈ sc'.finished ∧
          fs.get g ≠ none) ∧
        (∃ l, sc'.finished = sc.finished ++ l) ∧
        (AfterImports fs sc.finished → AfterImports fs sc'.finished))) ∧
    (∀ pending sc ds,
      (parseDecls fs pending sc ds = .error .cycle →
        ∃ h, FileDecl.imp h ∈ ds ∧ ∃ g, ImportsStar fs h g ∧ (g ∈ pending ∨ OnCycle fs g)) ∧
      (parseDecls fs pending sc ds = .error .missing →
        ∃ h, FileDecl.imp h ∈ ds ∧ ∃ g, ImportsStar fs h g ∧ fs.get g = none) ∧
      (∀ sc', parseDecls fs pending sc ds = .ok sc' →
        (∀ h, FileDecl.imp h ∈ ds → ∀ g, ImportsStar fs h g →
          g ∉ pending ∧ ¬ OnCycle fs g ∧ g ∈ sc'.finished ∧ fs.get g ≠ none) ∧
        (∃ l, sc'.finished = sc.finished ++ l) ∧
        (AfterImports fs sc.finished → AfterImports fs sc'.finished))) := by
  apply parseFile.mutual_induct fs
  case case1 =>
    intro pending sc f hp
    rw [parseFile]
    simp only [hp, dite_true]
    refine ⟨fun _ => ⟨f, .refl f, Or.inl (by simpa using hp)⟩, by simp, by simp⟩
  case case2 =>
    intro pending sc f hp hf
    rw [parseFile]
    rw [dif_neg hp]
    split
    · exact ⟨by simp, fun _ => ⟨f, .refl f, hf⟩, by simp⟩
    · rename_i ds hds; rw [hf] at hds; simp at hds
  case case3 =>
    intro pending sc f hp ds hf e he ih
    have key : parseFile fs pending sc f = .error e := by
      rw [parseFile]
      rw [dif_neg hp]
      split
      · rename_i h; rw [h] at hf; simp at hf
      · rename_i ds' hds
        rw [hf] at hds; simp at hds; subst hds
        simp [he]
    rw [key]
    refine ⟨?_, ?_, by simp⟩
    · intro hc
      simp at hc; subst hc
      obtain ⟨h, hh, g, hg, hg'⟩ := ih.1 he
      have hfh : Imports fs f h := ⟨ds, hf, hh⟩
      rcases hg' with hg' | hg'
      · rcases List.mem_cons.1 hg' with rfl | hg'
        · exact ⟨g, .refl g, Or.inr ⟨h, hfh, hg⟩⟩
        · exact ⟨g, .step hfh hg, Or.inl hg'⟩
      · exact ⟨g, .step hfh hg, Or.inr hg'⟩
    · intro hc
      simp at hc; subst hc
      obtain ⟨h, hh, g, hg, hg'⟩ := ih.2.1 he
      exact ⟨g, .step ⟨ds, hf, hh⟩ hg, hg'⟩
  case case4 =>
    intro pending sc f hp ds hf sc' he ih
    have key : parseFile fs pending sc f =
        .ok { sc' with finished := sc'.finished ++ [f] } := by
      rw [parseFile]
      rw [dif_neg hp]
      split
      · rename_i h; rw [h] at hf; simp at hf
      · rename_i ds' hds
        rw [hf] at hds; simp at hds; subst hds
        simp [he]
    rw [key]
    refine ⟨by simp, by simp, ?_⟩
    intro sc'' hsc
    simp only [Except.ok.injEq] at hsc
    subst hsc
    obtain ⟨h1, ⟨l, hl⟩, h3⟩ := ih.2.2 sc' he
    have himp : ∀ g, Imports fs f g → FileDecl.imp g ∈ ds := by
      rintro g ⟨ds', hds', hg⟩
      rw [hf] at hds'; simp at hds'; subst hds'; exact hg
    refine ⟨?_, ⟨l ++ [f], by simp [hl]⟩, ?_⟩
    · intro g hg
      cases hg with
      | refl =>
        refine ⟨by simpa using hp, ?_, by simp, by simp [hf]⟩
        rintro ⟨h, hfh, hhf⟩
        exact (h1 h (himp h hfh) _ hhf).1 (by simp)
      | step hfh hhg =>
        rename_i h
        obtain ⟨a, b, c, d⟩ := h1 h (himp h hfh) _ hhg
        exact ⟨fun hm => a (by simp [hm]), b, by simp [c], d⟩
    · intro hord
      have hord := h3 hord
      intro a x b hab g hxg
      simp only at hab
      rcases List.append_eq_append_iff.1 hab with ⟨t, ht1, ht2⟩ | ⟨t, ht1, ht2⟩
      · cases t with
        | nil =>
          simp at ht1 ht2
          obtain ⟨rfl, _⟩ := ht2
          rw [ht1]
          exact (h1 g (himp g hxg) g (.refl g)).2.2.1
        | cons y t =>
          simp at ht2
      · cases t with
        | nil =>
          simp at ht1 ht2
          obtain ⟨rfl, _⟩ := ht2
          rw [← ht1]
          exact (h1 g (himp g hxg) g (.refl g)).2.2.1
        | cons y t =>
          simp at ht2
          obtain ⟨rfl, rfl⟩ := ht2
          exact hord a x t (by rw [ht1]) g hxg
  case case5 =>
    intro pending sc
    rw [parseDecls]
    refine ⟨by simp, by simp, ?_⟩
    intro sc' h
    simp at h; subst h
    exact ⟨by simp, ⟨[], by simp⟩, id⟩
  case case6 =>
    intro pending sc g ds e he ih
    rw [parseDecls, he]
    refine ⟨?_, ?_, by simp⟩
    · intro hc; simp at hc; subst hc
      obtain ⟨x, hx, hx'⟩ := ih.1 he
      exact ⟨g, by simp, x, hx, hx'⟩
    · intro hc; simp at hc; subst hc
      obtain ⟨x, hx, hx'⟩ := ih.2.1 he
      exact ⟨g, by simp, x, hx, hx'⟩
  case case7 =>
    intro pending sc g ds sc1 he ih1 ih2
    rw [parseDecls, he]
    simp only
    obtain ⟨a1, ⟨l1, hl1⟩, a3⟩ := ih1.2.2 sc1 he
    refine ⟨?_, ?_, ?_⟩
    · intro hc
      obtain ⟨h, hh, r⟩ := ih2.1 hc
      exact ⟨h, by simp [hh], r⟩
    · intro hc
      obtain ⟨h, hh, r⟩ := ih2.2.1 hc
      exact ⟨h, by simp [hh], r⟩
    · intro sc' hok
      obtain ⟨b1, ⟨l2, hl2⟩, b3⟩ := ih2.2.2 sc' hok
      refine ⟨?_, ⟨l1 ++ l2, by simp [hl2, hl1]⟩, fun h => b3 (a3 h)⟩
      intro h hh x hx
      simp only [List.mem_cons, FileDecl.imp.injEq] at hh
      rcases hh with rfl | hh
      · obtain ⟨p, q, r, s⟩ := a1 x hx
        exact ⟨p, q, by rw [hl2]; simp [r], s⟩
      · exact b1 h hh x hx
  case case8 =>
    intro pending sc n ds hn
    rw [parseDecls]
    simp only [hn, if_true]
    exact ⟨by simp, by simp, by simp⟩
  case case9 =>
    intro pending sc n ds hn ih
    rw [parseDecls]
    simp only [hn]
    refine ⟨?_, ?_, ?_⟩
    · intro hc
      obtain ⟨h, hh, r⟩ := ih.1 hc
      exact ⟨h, by simp [hh], r⟩
    · intro hc
      obtain ⟨h, hh, r⟩ := ih.2.1 hc
      exact ⟨h, by simp [hh], r⟩
    · intro sc' hok
      obtain ⟨b1, ⟨l2, hl2⟩, b3⟩ := ih.2.2 sc' hok
      refine ⟨?_, ⟨l2, hl2⟩, b3⟩
      intro h hh x hx
      simp at hh
      exact b1 h hh x hx

/-- A reported cycle exists among the files reachable from the root. -/
theorem C27_cycle_sound (fs : Files) (root : Nat) (h : parseRoot fs root = .error .cycle) :
    ∃ g, ImportsStar fs root g ∧ OnCycle fs g := by
  obtain ⟨g, hg, hg'⟩ := ((main fs).1 [] ⟨[], []⟩ root).1 h
  exact ⟨g, hg, by simpa using hg'⟩

/-- If the reachable part contains a cycle, or refers to a file that does not exist, parsing fails
(it never loops and never succeeds). -/
theorem C27_cycle_complete (fs : Files) (root g : Nat) (hr : ImportsStar fs root g)
    (hc : OnCycle fs g ∨ fs.get g = none) : ∃ e, parseRoot fs root = .error e := by
  cases h : parseRoot fs root with
  | error e => exact ⟨e, rfl⟩
  | ok sc =>
    have := (((main fs).1 [] ⟨[], []⟩ root).2.2 sc h).1 g hr
    rcases hc with hc | hc
    · exact absurd hc this.2.1
    · exact absurd hc this.2.2.2

/-- After successful parsing every reachable file has been processed, and each file was processed
after all the files it imports. -/
theorem C27_success (fs : Files) (root : Nat) (sc : ParseScope) (h : parseRoot fs root = .ok sc) :
    (∀ g, ImportsStar fs root g → g ∈ sc.finished) ∧ AfterImports fs sc.finished := by
  obtain ⟨h1, _, h3⟩ := ((main fs).1 [] ⟨[], []⟩ root).2.2 sc h
  refine ⟨fun g hg => (h1 g hg).2.2.1, h3 ?_⟩
  intro a f b hab; simp at hab

/-- The full claim "without a cycle every reachable file is processed" is false: a diamond
(0 imports 1 and 2, both import 3, which defines a type) has no cycle, but file 3 is parsed twice
and the parser reports a re-definition. -/
theorem C27_diamond_rejected :
    ∃ fs : Files, ∃ root, parseRoot fs root = .error .redefine ∧
      ∀ g, ImportsStar fs root g → ¬ OnCycle fs g ∧ fs.get g ≠ none := by
  refine ⟨[(0, [.imp 1, .imp 2]), (1, [.imp 3]), (2, [.imp 3]), (3, [.defn 7])], 0, ?_, ?_⟩
  · simp [parseRoot, parseFile, parseDecls, Files.get, List.lookup]
  · have himp : ∀ f g, Imports [(0, [.imp 1, .imp 2]), (1, [.imp 3]), (2, [.imp 3]),
        (3, [.defn 7])] f g → f < g ∧ g ≤ 3 := by
      rintro f g ⟨ds, hds, hg⟩
      have hcase : f = 0 ∨ f = 1 ∨ f = 2 ∨ f = 3 := by
        have := List.lookup_eq_some_iff.1 hds
        obtain ⟨l1, l2, he, _⟩ := this
        have hm : (f, ds) ∈ [(0, [FileDecl.imp 1, .imp 2]), (1, [.imp 3]), (2, [.imp 3]),
          (3, [.defn 7])] := by rw [he]; simp
        simp at hm
        omega
      rcases hcase with rfl | rfl | rfl | rfl <;>
        (simp [Files.get, List.lookup] at hds; subst hds; simp at hg)
      all_goals omega
    have hstar : ∀ f g, ImportsStar [(0, [.imp 1, .imp 2]), (1, [.imp 3]), (2, [.imp 3]),
        (3, [.defn 7])] f g → f ≤ g ∧ (f ≤ 3 → g ≤ 3) := by
      intro f g h
      induction h with
      | refl => simp
      | step h1 _ ih => have := himp _ _ h1; omega
    intro g hg
    constructor
    · rintro ⟨x, hx, hxg⟩
      have := himp _ _ hx; have := hstar _ _ hxg; omega
    · have := (hstar _ _ hg).2 (by omega)
      have : g = 0 ∨ g = 1 ∨ g = 2 ∨ g = 3 := by omega
      rcases this with rfl | rfl | rfl | rfl <;> simp [Files.get, List.lookup]

/-- What does hold of acyclic imports: if no cycle and no missing file is reachable, the only
possible failure is a re-definition (so a set of files each reachable along one path only is
always processed, definitions being distinct). Missing for the full claim: diamonds (see `C27_diamond_rejected`). -/
theorem C27_acyclic_partial (fs : Files) (root : Nat)
    (h : ∀ g, ImportsStar fs root g → ¬ OnCycle fs g ∧ fs.get g ≠ none) :
    (∃ sc, parseRoot fs root = .ok sc) ∨ parseRoot fs root = .error .redefine := by
  cases hr : parseRoot fs root with
  | ok sc => exact Or.inl ⟨sc, rfl⟩
  | error e =>
    right
    cases e with
    | redefine => rfl
    | cycle =>
      obtain ⟨g, hg, hg'⟩ := C27_cycle_sound fs root hr
      exact absurd hg' (h g hg).1
    | missing =>
      obtain ⟨g, hg, hg'⟩ := ((main fs).1 [] ⟨[], []⟩ root).2.1 hr
      exact absurd hg' (h g hg).2

/-- Non-vacuity: a chain of imports with definitions is parsed, innermost file first. -/
example : parseRoot [(0, [.imp 1, .defn 1]), (1, [.imp 2, .defn 2]), (2, [.defn 3])] 0
    = .ok ⟨[1, 2, 3], [2, 1, 0]⟩ := by
  simp [parseRoot, parseFile, parseDecls, Files.get, List.lookup]

/-- Non-vacuity: a cycle is reported. -/
example : parseRoot [(0, [.imp 1]), (1, [.imp 0])] 0 = .error .cycle := by
  simp [parseRoot, parseFile, parseDecls, Files.get, List.lookup]

end PJ
