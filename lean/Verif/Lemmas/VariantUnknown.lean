import Verif.Lemmas.VariantOrder
import Verif.Lemmas.VariantSame
import Verif.Props.C10_VariantEvolution
/-!
# The code for variants and tags without a term
-/
namespace PJ

theorem caseBlock_none {sts : Terms} {sl : VarL} {tag : Nat} (hl : VarLayout sts.toList sl) (h : ∀ t ∈ sts.toList, t.tag ≠ tag) :
    caseBlock sts tag = 1 := by
  have mem : ∀ x ∈ sts.toList.zipIdx.map (fun x => (x.1.tag, some x.2)), ∃ t ∈ sts.toList, x.1 = t.tag := by
    intro x hx
    simp only [List.mem_map] at hx
    obtain ⟨⟨t, i⟩, ht, rfl⟩ := hx
    exact ⟨t, List.fst_mem_of_mem_zipIdx ht, rfl⟩
  have hd : DispatchCorrect (sts.toList.zipIdx.map fun x => (x.1.tag, some x.2)) := by
    apply C21_dispatch_partial
    · rw [List.map_map, show ((·.1) ∘ fun x : Term × Nat => (x.1.tag, some x.2)) = (·.tag) ∘ Prod.fst from rfl, ← List.map_map,
        List.zipIdx_map_fst]
      exact hl.tags
    · intro x hx
      obtain ⟨t, ht, e⟩ := mem x hx
      have := (hl.tagLt t ht).2
      omega
    · left
      intro x hx
      obtain ⟨t, ht, e⟩ := mem x hx
      have := (hl.tagLt t ht).2
      omega
  have := (hd none tag).2 fun c hc => by
    obtain ⟨t, ht, e⟩ := mem _ hc
    exact h t ht e.symm
  simp only [caseBlock, this]

/-- The function jumps to the default block, and leaves the memory of the conversion. -/
theorem lowerVariant_unknown (E : Env) {A : Aliasing} {sa da : Nat} {dts sts : Terms} {dl sl : VarL} {f : CFn}
    (h : lowerVariant E.fconv A sa da dts dl sts sl = some f) (hd : Disj sa sl.size da dl.size)
    (hwt : WF (.variant dts dl)) (hws : WF (.variant sts sl)) (hoff : sl.termOff ≤ sl.size)
    (hv : ∀ t ∈ sts.toList, t.tag ≠ readN E.S (sa + sl.tagOff) sl.tagW)
    {st : St} {m : UMem} (hm : Tracks E sa sl.size st m) :
    ∃ st' m', xcode E (.variant dts dl) (.variant sts sl) [] [] sa da st = .ok st' ∧
      f.steps 2 (some 0, m) = some (none, m') ∧ Tracks E sa sl.size st' m' := by
  have hp := lowerVariant_parts h
  simp only [WF] at hwt hws
  obtain ⟨o, is, ho, hl, hblk⟩ := hp.dflt
  obtain ⟨st', h1, h2⟩ := lowerTerm_sim E hd hl hp.dout hwt.2.tagIn
    (fun t' he => by
      subst he
      have hmem := pickAt_mem ho
      exact ⟨wfTerms_mem hwt.1 t' hmem, hwt.2.inside hp.dout t' hmem⟩)
    (by simp [WF]) (by simpa [Ty.size] using hoff) hm
  refine ⟨st', _, ?_, ?_, h2⟩
  · simp only [xcode, hp.slow, Bool.false_eq_true, if_false, handlerMap, selectTerm_unknown hws.2 hv]
    rw [xAt_pick E dl .unit _ da st ho, h1]
  · have htag : (loadU m (sa + sl.tagOff) sl.tagW).map ofLE = some (readN E.S (sa + sl.tagOff) sl.tagW) :=
      loadU_val fun x g1 g2 => hm.src x (by omega) (by have := hws.2.tagIn; omega)
    have hci := caseBlock_none hws.2 hv
    have hnext : (entryBlock sa da sts sl).next m = some (.jump 1) := by
      cases sts with
      | nil => rfl
      | cons n g as ty r =>
        simp only [Option.map_eq_some_iff] at htag
        obtain ⟨bs, hb, he⟩ := htag
        simp only [entryBlock, hb, Option.map_some, he, hci]
    have hb0 : runBlock (rootsAt sa da) (entryBlock sa da sts sl).body m = m := rfl
    have hr0 : (entryBlock sa da sts sl).roots m = some (rootsAt sa da) := rfl
    simp only [CFn.steps, CFn.step, hp.entry, hr0, hb0, hnext, hblk, retBlock]

/-- What other completions of the memory that is left have. -/
theorem tracks_rest {F : Nat → Nat → Nat → Nat} {S M : Mem} {sa N : Nat} {m m1 m' : UMem} {st : St}
    (hS : ∀ x, sa ≤ x → x < sa + N → m x = some (S x)) (h2 : Tracks ⟨S, M, F⟩ sa N st m1) (hr : Refines m' m1)
    (hM : ∀ a, m' a = none ∨ m' a = some (M a)) :
    (∀ a, ¬ (sa ≤ a ∧ a < sa + N) → M a = st.mem a) ∧ ∀ a, sa ≤ a → a < sa + N → ∀ b, m a = some b → M a = b := by
  have known : ∀ a b, m1 a = some b → M a = b := by
    intro a b h
    rcases hr a with g | g
    · rw [h] at g; simp at g
    · rcases hM a with k | k
      · rw [k, h] at g; simp at g
      · rw [k, h] at g
        simpa using g
  constructor
  · intro a ha
    rcases h2.dst a ha with h | ⟨-, h⟩
    · exact known a _ h
    · exact h.symm
  · intro a g1 g2 b hb
    rw [known a _ (h2.src a g1 g2)]
    have := hS a g1 g2
    rw [hb] at this
    simpa using this.symm

end PJ
