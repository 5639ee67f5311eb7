import Verif.Lemmas.HoistFits
import Verif.Spec.Samples
/-!
# C19: split terms partition the values
-/
namespace PJ

/-- Let the payload of a term of the host variant be in memory.  Of the terms that hoisting makes from it,
exactly one has a true condition, all conditions can be evaluated, and the value fits the type of the
selected term before and after layout. -/
theorem C19_partition (S : Mem) (ts : List Term) (d : Nat) (hs : ∀ t ∈ ts, Sch t.ty)
    (ha : ∀ t ∈ ts, t.attrs = [] ∧ Plain t.ty) (hn : (ts.map (·.name)).Nodup) (t : Term) (ht : t ∈ ts)
    (a : Nat) (p : Val) (hp : readVal S t.ty a = some p) :
    ∃ pre u post, ((hoist (ts, d)).1.filter fun u => u.name == t.name) = pre ++ u :: post ∧
      termCond S t.ty a u.attrs = some true ∧
      (∀ u' ∈ pre ++ post, termCond S t.ty a u'.attrs = some false) ∧
      Fits u.ty p ∧ Fits (layout u.ty) p := by
  have hf : Fits t.ty p := readVal_fits S _ _ _ (ha t ht).2 hp
  have key : FitsOne ts t.name p := by
    have hu : ∀ u ∈ ts, u.name = t.name → u = t := by
      intro u hu hc
      obtain ⟨i, hi, rfl⟩ := List.mem_iff_getElem.1 hu
      obtain ⟨j, hj, rfl⟩ := List.mem_iff_getElem.1 ht
      have := (List.getElem_inj (xs := ts.map (·.name)) (i := i) (j := j) (h₀ := by simpa using hi)
        (h₁ := by simpa using hj) hn).1 (by simpa using hc)
      subst this; rfl
    refine ⟨fun u h1 h2 => ?_, fun u h1 h2 => ?_, fun u h1 h2 h3 => ?_,
      filter_name hn (fun u h => (ha u h).1) t ht rfl p⟩
    · rw [hu u h1 h2]; exact fits_shp _ _ hf
    · rw [(ha u h1).1]; rfl
    · rw [hu u h1 h2]; exact hf
  have h := hoist_fitsOne (ts, d) hs key
  obtain ⟨u, hu⟩ := List.length_eq_one_iff.1 h.one
  have hmem : u ∈ (hoist (ts, d)).1.filter fun u =>
      decide (u.name = t.name ∧ attrsAllow p u.attrs = some true) := by rw [hu]; simp
  obtain ⟨h1, h2⟩ := List.mem_filter.1 hmem
  obtain ⟨h2, h3⟩ := of_decide_eq_true h2
  obtain ⟨pre, post, hsplit⟩ := List.append_of_mem
    (List.mem_filter.2 ⟨h1, by simp [h2]⟩ : u ∈ (hoist (ts, d)).1.filter fun u => u.name == t.name)
  refine ⟨pre, u, post, hsplit, by rw [termCond_eq hp]; exact h3, fun u' hu' => ?_, h.fits u h1 h2 h3,
    layout_fits _ _ (h.fits u h1 h2 h3)⟩
  rw [termCond_eq hp]
  have hu'' : u' ∈ (hoist (ts, d)).1.filter fun u => u.name == t.name := by
    rw [hsplit]
    simp only [List.mem_append, List.mem_cons] at hu' ⊢
    rcases hu' with h | h
    · exact Or.inl h
    · exact Or.inr (Or.inr h)
  obtain ⟨g1, g2⟩ := List.mem_filter.1 hu''
  have g2 : u'.name = t.name := by simpa using g2
  obtain ⟨b, hb⟩ := Option.isSome_iff_exists.1 (h.def_ u' g1 g2)
  cases b with
  | false => exact hb
  | true =>
    exfalso
    have hone := h.one
    have e : (hoist (ts, d)).1.filter (fun u => decide (u.name = t.name ∧ attrsAllow p u.attrs = some true)) =
        ((hoist (ts, d)).1.filter fun u => u.name == t.name).filter
          (fun u => decide (attrsAllow p u.attrs = some true)) := by
      rw [List.filter_filter]
      congr 1
      funext u
      rw [Bool.eq_iff_iff]
      simp [and_comm]
    rw [e, hsplit, List.filter_append, List.filter_cons, if_pos (by simp [h3])] at hone
    have hne : 0 < (pre.filter fun u => decide (attrsAllow p u.attrs = some true)).length +
        (post.filter fun u => decide (attrsAllow p u.attrs = some true)).length := by
      rcases List.mem_append.1 hu' with h | h
      · have := List.length_pos_of_mem (List.mem_filter.2
          ⟨h, by simp [hb]⟩ : u' ∈ pre.filter fun u => decide (attrsAllow p u.attrs = some true))
        omega
      · have := List.length_pos_of_mem (List.mem_filter.2
          ⟨h, by simp [hb]⟩ : u' ∈ post.filter fun u => decide (attrsAllow p u.attrs = some true))
        omega
    simp only [List.length_append, List.length_cons] at hone
    omega

namespace Sample

theorem twoVecs_sch : Sch twoVecs := by
  simp only [twoVecs, vecIn2, vecIn2L, Sch, SchFields, Fields.toList]
  decide

theorem hTerms_sch : ∀ t ∈ hTerms, Sch t.ty := by
  intro t ht
  simp only [hTerms, List.mem_cons, List.not_mem_nil, or_false] at ht
  rcases ht with rfl | rfl
  · trivial
  · exact twoVecs_sch

theorem hTerms_plain : ∀ t ∈ hTerms, t.attrs = [] ∧ Plain t.ty := by
  intro t ht
  simp only [hTerms, List.mem_cons, List.not_mem_nil, or_false] at ht
  rcases ht with rfl | rfl
  · exact ⟨rfl, trivial⟩
  · exact ⟨rfl, trivial, trivial, trivial⟩

/-- First vector with five elements, second one empty: one of the four terms is selected. -/
example := C19_partition (fun a => if a = 8 then 5 else 0) hTerms 1 hTerms_sch hTerms_plain (by decide)
  ⟨nmV, 1, [], twoVecs⟩ (by simp [hTerms]) 0 _ rfl

end Sample
end PJ
