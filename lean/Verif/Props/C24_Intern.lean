import Verif.Model.Intern
import Verif.Props.C36_SourceOrder
import Verif.Props.C11_EnumCopy
/-!
# C24: variant interning is order independent
-/
namespace PJ

theorem insertTerm_perm {β} (x : (Str × β) × Nat) (l : List ((Str × β) × Nat)) :
    (insertTerm x l).Perm (x :: l) := by
  induction l with
  | nil => exact .refl _
  | cons y ys ih =>
    simp only [insertTerm]
    split
    · exact (ih.cons y).trans (.swap x y ys)
    · exact .refl _

theorem sortTerms_perm {β} (l : List ((Str × β) × Nat)) : (sortTerms l).Perm l := by
  induction l with
  | nil => exact .refl _
  | cons x xs ih => exact (insertTerm_perm x _).trans (ih.cons x)

theorem Str.less_asymm (a b : Str) (h : a.less b = true) : b.less a = false := by
  cases hb : b.less a with
  | false => rfl
  | true => have := Str.less_trans a b a h hb; rw [Str.less_irrefl] at this; simp at this

/-- Sortedness: no later name is smaller. -/
theorem sortTerms_sorted {β} (l : List ((Str × β) × Nat)) :
    (sortTerms l).Pairwise (fun a b => b.1.1.less a.1.1 = false) := by
  induction l with
  | nil => simp [sortTerms]
  | cons x xs ih =>
    simp only [sortTerms]
    generalize sortTerms xs = l at ih
    induction l with
    | nil => simp [insertTerm]
    | cons y ys ih2 =>
      have hc := List.pairwise_cons.1 ih
      simp only [insertTerm]
      split
      · rename_i hyx
        refine List.pairwise_cons.2 ⟨?_, ih2 hc.2⟩
        intro z hz
        rcases List.mem_cons.1 ((insertTerm_perm x ys).mem_iff.1 hz) with rfl | hz
        · exact Str.less_asymm _ _ hyx
        · exact hc.1 z hz
      · rename_i hyx
        have hyx : y.1.1.less x.1.1 = false := by simpa using hyx
        refine List.pairwise_cons.2 ⟨?_, ih⟩
        intro z hz
        rcases List.mem_cons.1 hz with rfl | hz
        · exact hyx
        · have h1 := hc.1 z hz
          cases hzx : z.1.1.less x.1.1 with
          | false => rfl
          | true =>
            -- z < x ≤ y ≤ z
            cases hzy : z.1.1.less y.1.1 with
            | true => rw [hzy] at h1; simp at h1
            | false =>
              cases hyz : y.1.1.less z.1.1 with
              | true =>
                have := Str.less_trans _ _ _ hyz hzx
                rw [this] at hyx; simp at hyx
              | false =>
                have := Str.less_total _ _ hyz hzy
                rw [this, hzx] at hyx; simp at hyx

/-- Sorted permutations of lists with distinct names are equal up to the indices. -/
private theorem sorted_unique {β} (l1 l2 : List (Str × β)) (hp : l1.Perm l2)
    (hnd : (l1.map (·.1)).Nodup)
    (h1 : l1.Pairwise (fun a b => b.1.less a.1 = false))
    (h2 : l2.Pairwise (fun a b => b.1.less a.1 = false)) : l1 = l2 := by
  induction l1 generalizing l2 with
  | nil => exact (List.nil_perm.1 hp).symm
  | cons x xs ih =>
    cases l2 with
    | nil => exact absurd (List.perm_nil.1 hp) (by simp)
    | cons y ys =>
      have hx := List.pairwise_cons.1 h1
      have hy := List.pairwise_cons.1 h2
      have hxy : x = y := by
        have hym : y ∈ x :: xs := hp.mem_iff.2 (by simp)
        have hxm : x ∈ y :: ys := hp.mem_iff.1 (by simp)
        apply nodup_unique (·.1) _ hnd x (by simp) y hym
        rcases List.mem_cons.1 hym with h | h
        · rw [h]
        · rcases List.mem_cons.1 hxm with h' | h'
          · rw [h']
          · exact Str.less_total _ _ (hy.1 x h') (hx.1 y h)
      subst hxy
      rw [ih ys hp.cons_inv (List.nodup_cons.1 hnd).2 hx.2 hy.2]

private theorem terms_perm {β} (l : List (Str × β)) : ((sortTerms l.zipIdx).map (·.1)).Perm l := by
  have := (sortTerms_perm l.zipIdx).map (·.1)
  rwa [List.zipIdx_map_fst] at this

private theorem terms_sorted {β} (l : List (Str × β)) :
    ((sortTerms l.zipIdx).map (·.1)).Pairwise (fun a b => b.1.less a.1 = false) :=
  List.pairwise_map.2 (sortTerms_sorted _)

/-- The interned terms are the declared ones, sorted by name. -/
theorem C24_sorted {β} (isUnit : β → Bool) (terms : List (Str × β)) (d : Nat) :
    (internVariant isUnit terms d).1.Perm terms ∧
    (internVariant isUnit terms d).1.Pairwise (fun a b => b.1.less a.1 = false) :=
  ⟨terms_perm terms, terms_sorted terms⟩

/-- The interned default index designates the term originally designated. -/
theorem C24_default {β} (isUnit : β → Bool) (terms : List (Str × β)) (d : Nat)
    (hd : d < terms.length) :
    (internVariant isUnit terms d).1[(internVariant isUnit terms d).2.1]? = terms[d]? := by
  simp only [internVariant]
  have hmem : (terms[d], d) ∈ sortTerms terms.zipIdx := by
    apply (sortTerms_perm _).mem_iff.2
    rw [List.mem_zipIdx_iff_getElem?]; simp [hd]
  have hlt : (sortTerms terms.zipIdx).findIdx (fun p => p.2 == d) < (sortTerms terms.zipIdx).length :=
    List.findIdx_lt_length_of_exists ⟨_, hmem, by simp⟩
  rw [List.getElem?_map, List.getElem?_eq_getElem hlt]
  have hp := List.findIdx_getElem (w := hlt)
  simp only [beq_iff_eq] at hp
  have hm := (sortTerms_perm terms.zipIdx).mem_iff.1 (List.getElem_mem hlt)
  rw [List.mem_zipIdx_iff_getElem?] at hm
  rw [hp] at hm
  simp [hm]

/-- Declaring the same terms in another order, with the default index designating the same term,
gives exactly the same variant. -/
theorem C24_order_independent {β} (isUnit : β → Bool) (l1 l2 : List (Str × β)) (d1 d2 : Nat)
    (hp : l1.Perm l2) (hnd : (l1.map (·.1)).Nodup) (h1 : d1 < l1.length) (h2 : d2 < l2.length)
    (hd : l1[d1]? = l2[d2]?) : internVariant isUnit l1 d1 = internVariant isUnit l2 d2 := by
  have hterms : (internVariant isUnit l1 d1).1 = (internVariant isUnit l2 d2).1 := by
    apply sorted_unique
    · exact (terms_perm l1).trans (hp.trans (terms_perm l2).symm)
    · exact (List.Perm.nodup_iff ((terms_perm l1).map _)).2 hnd
    · exact terms_sorted l1
    · exact terms_sorted l2
  have hu : (internVariant isUnit l1 d1).2.2 = (internVariant isUnit l2 d2).2.2 := by
    simp only [internVariant]
    rw [Bool.eq_iff_iff, List.all_eq_true, List.all_eq_true]
    exact ⟨fun h t ht => h t (hp.mem_iff.2 ht), fun h t ht => h t (hp.mem_iff.1 ht)⟩
  have hdef : (internVariant isUnit l1 d1).2.1 = (internVariant isUnit l2 d2).2.1 := by
    have e1 := C24_default isUnit l1 d1 h1
    have e2 := C24_default isUnit l2 d2 h2
    rw [hd, ← e2, hterms] at e1
    have hnd2 : ((internVariant isUnit l2 d2).1.map (·.1)).Nodup := by
      rw [← hterms]
      exact (List.Perm.nodup_iff ((terms_perm l1).map _)).2 hnd
    generalize (internVariant isUnit l2 d2).1 = t at *
    generalize (internVariant isUnit l1 d1).2.1 = i at *
    generalize (internVariant isUnit l2 d2).2.1 = j at *
    have hj : j < t.length := by
      cases hh : t[j]? with
      | none => rw [hh] at e2; rw [List.getElem?_eq_getElem h2] at e2; simp at e2
      | some x => exact (List.getElem?_eq_some_iff.1 hh).1
    have hi : i < t.length := by
      cases hh : t[i]? with
      | none => rw [hh, List.getElem?_eq_getElem hj] at e1; simp at e1
      | some x => exact (List.getElem?_eq_some_iff.1 hh).1
    rw [List.getElem?_eq_getElem hi, List.getElem?_eq_getElem hj] at e1
    simp at e1
    have hpw := List.pairwise_iff_getElem.1 (List.pairwise_map.1 hnd2)
    rcases Nat.lt_trichotomy i j with h | h | h
    · exact absurd (congrArg Prod.fst e1) (hpw i j hi hj h)
    · exact h
    · exact absurd (congrArg Prod.fst e1.symm) (hpw j i hj hi h)
  exact Prod.ext hterms (Prod.ext hdef hu)

example : internVariant (fun _ : Nat => true) [([98], 1), ([97], 2), ([97, 97], 3)] 0
    = ([([97], 2), ([97, 97], 3), ([98], 1)], 2, true) := by decide

end PJ
