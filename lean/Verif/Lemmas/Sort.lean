import Verif.Model.Word
/-!
# Lemmas about `sortBy`
-/
namespace PJ

theorem insertBy_perm {α} (key : α → Int) (x : α) (l : List α) :
    (insertBy key x l).Perm (x :: l) := by
  induction l with
  | nil => exact .refl _
  | cons y ys ih =>
    simp only [insertBy]
    split
    · exact .refl _
    · exact (ih.cons y).trans (.swap x y ys)

theorem sortBy_perm {α} (key : α → Int) (l : List α) : (sortBy key l).Perm l := by
  induction l with
  | nil => exact .refl _
  | cons x xs ih => exact (insertBy_perm key x _).trans (ih.cons x)

theorem sortBy_mem {α} {key : α → Int} {l : List α} {x : α} : x ∈ sortBy key l ↔ x ∈ l :=
  (sortBy_perm key l).mem_iff

theorem insertBy_sorted {α} (key : α → Int) (x : α) (l : List α)
    (h : l.Pairwise (fun a b => key a ≤ key b)) :
    (insertBy key x l).Pairwise (fun a b => key a ≤ key b) := by
  induction l with
  | nil => simp [insertBy]
  | cons y ys ih =>
    simp only [insertBy]
    have hc := List.pairwise_cons.1 h
    split
    · rename_i hxy
      refine List.pairwise_cons.2 ⟨?_, h⟩
      intro z hz
      rcases List.mem_cons.1 hz with rfl | hz
      · exact hxy
      · have := hc.1 z hz; omega
    · rename_i hxy
      refine List.pairwise_cons.2 ⟨?_, ih hc.2⟩
      intro z hz
      rcases List.mem_cons.1 ((insertBy_perm key x ys).mem_iff.1 hz) with rfl | hz
      · omega
      · exact hc.1 z hz

theorem sortBy_sorted {α} (key : α → Int) (l : List α) :
    (sortBy key l).Pairwise (fun a b => key a ≤ key b) := by
  induction l with
  | nil => simp [sortBy]
  | cons x xs ih => exact insertBy_sorted key x _ ih

/-- Two permutations of each other, both sorted by keys that are pairwise different, are equal. -/
theorem sorted_perm_unique {α} (key : α → Int) (l1 l2 : List α) (hp : l1.Perm l2)
    (hinj : ∀ a ∈ l1, ∀ b ∈ l1, key a = key b → a = b)
    (h1 : l1.Pairwise (fun a b => key a ≤ key b)) (h2 : l2.Pairwise (fun a b => key a ≤ key b)) :
    l1 = l2 := by
  induction l1 generalizing l2 with
  | nil => exact (List.nil_perm.1 hp).symm
  | cons x xs ih =>
    cases l2 with
    | nil => exact absurd (List.perm_nil.1 hp) (by simp)
    | cons y ys =>
      have hx := List.pairwise_cons.1 h1
      have hy := List.pairwise_cons.1 h2
      have hxy : x = y := by
        have hym : y ∈ x :: xs := hp.mem_iff.2 (by simp)
        have hxm : x ∈ y :: ys := hp.mem_iff.1 (by simp)
        apply hinj x (by simp) y hym
        rcases List.mem_cons.1 hym with h | h
        · rw [h]
        · rcases List.mem_cons.1 hxm with h' | h'
          · rw [h']
          · have a1 := hx.1 y h
            have a2 := hy.1 x h'
            omega
      subst hxy
      rw [ih ys (hp.cons_inv) (fun a ha b hb => hinj a (by simp [ha]) b (by simp [hb]))
        hx.2 hy.2]

theorem sortBy_perm_eq {α} (key : α → Int) (l1 l2 : List α) (hp : l1.Perm l2)
    (hinj : ∀ a ∈ l1, ∀ b ∈ l1, key a = key b → a = b) : sortBy key l1 = sortBy key l2 := by
  apply sorted_perm_unique key _ _ ?_ ?_ (sortBy_sorted key l1) (sortBy_sorted key l2)
  · exact (sortBy_perm key l1).trans (hp.trans (sortBy_perm key l2).symm)
  · intro a ha b hb; exact hinj a (sortBy_mem.1 ha) b (sortBy_mem.1 hb)

theorem insertBy_map {α β} (f : α → β) (k1 : α → Int) (k2 : β → Int) (x : α) (l : List α)
    (h : ∀ a ∈ x :: l, ∀ b ∈ x :: l, k1 a ≤ k1 b ↔ k2 (f a) ≤ k2 (f b)) :
    (insertBy k1 x l).map f = insertBy k2 (f x) (l.map f) := by
  induction l with
  | nil => rfl
  | cons y ys ih =>
    simp only [insertBy, List.map_cons]
    have hxy := h x (by simp) y (by simp)
    by_cases hle : k1 x ≤ k1 y
    · rw [if_pos hle, if_pos (hxy.1 hle)]; rfl
    · rw [if_neg hle, if_neg (fun h => hle (hxy.2 h)), List.map_cons, ih]
      intro a ha b hb
      apply h
      · rcases List.mem_cons.1 ha with rfl | ha
        · simp
        · simp [ha]
      · rcases List.mem_cons.1 hb with rfl | hb
        · simp
        · simp [hb]

/-- Sorting commutes with a map that preserves the order of the keys. -/
theorem sortBy_map {α β} (f : α → β) (k1 : α → Int) (k2 : β → Int) (l : List α)
    (h : ∀ a ∈ l, ∀ b ∈ l, k1 a ≤ k1 b ↔ k2 (f a) ≤ k2 (f b)) :
    (sortBy k1 l).map f = sortBy k2 (l.map f) := by
  induction l with
  | nil => rfl
  | cons x xs ih =>
    simp only [sortBy, List.map_cons]
    rw [insertBy_map f k1 k2 x _, ih]
    · intro a ha b hb; exact h a (by simp [ha]) b (by simp [hb])
    · intro a ha b hb
      apply h
      · rcases List.mem_cons.1 ha with rfl | ha
        · simp
        · exact List.mem_cons_of_mem _ (sortBy_mem.1 ha)
      · rcases List.mem_cons.1 hb with rfl | hb
        · simp
        · exact List.mem_cons_of_mem _ (sortBy_mem.1 hb)

end PJ
