import Verif.Model.Ident
/-!
# C36: the ordering of qualified names is a strict total order
-/
namespace PJ

theorem Str.less_irrefl (a : Str) : a.less a = false := by
  induction a with
  | nil => rfl
  | cons x a ih => simp [Str.less, ih]

theorem Str.less_trans (a b c : Str) (h1 : a.less b = true) (h2 : b.less c = true) :
    a.less c = true := by
  induction a generalizing b c with
  | nil => cases b <;> cases c <;> simp_all [Str.less]
  | cons x a ih =>
    cases b with
    | nil => simp [Str.less] at h1
    | cons y b =>
      cases c with
      | nil => simp [Str.less] at h2
      | cons z c =>
        simp only [Str.less] at *
        split at h1 <;> split at h2 <;> rename_i p q
        · rw [if_pos (by omega)]
        · split at h2
          · simp at h2
          · rw [if_pos (by omega)]
        · split at h1
          · simp at h1
          · rw [if_pos (by omega)]
        · split at h1
          · simp at h1
          · split at h2
            · simp at h2
            · rw [if_neg (by omega), if_neg (by omega)]; exact ih b c h1 h2

theorem Str.less_total (a b : Str) (h1 : a.less b = false) (h2 : b.less a = false) : a = b := by
  induction a generalizing b with
  | nil => cases b <;> simp_all [Str.less]
  | cons x a ih =>
    cases b with
    | nil => simp [Str.less] at h2
    | cons y b =>
      simp only [Str.less] at *
      have : ¬ x < y := by intro h; simp [h] at h1
      have : ¬ y < x := by intro h; simp [h] at h2
      have e : x = y := by omega
      subst e
      simp at h1 h2
      rw [ih b h1 h2]

/-- No name is smaller than itself. -/
theorem C36_irreflexive (a : SourceId) : a.less a = false := by
  induction a with
  | nil => rfl
  | cons x a ih => simp [SourceId.less, ih, Str.less_irrefl]

/-- Transitivity. -/
theorem C36_transitive (a b c : SourceId) (h1 : a.less b = true) (h2 : b.less c = true) :
    a.less c = true := by
  induction a generalizing b c with
  | nil => cases b <;> cases c <;> simp_all [SourceId.less]
  | cons x a ih =>
    cases b with
    | nil => simp [SourceId.less] at h1
    | cons y b =>
      cases c with
      | nil => simp [SourceId.less] at h2
      | cons z c =>
        simp only [SourceId.less] at *
        by_cases hxy : x.less y = true
        · by_cases hyz : y.less z = true
          · rw [if_pos (Str.less_trans _ _ _ hxy hyz)]
          · rw [if_neg hyz] at h2
            by_cases hzy : z.less y = true
            · simp [hzy] at h2
            · have : y = z := Str.less_total _ _ (by simpa using hyz) (by simpa using hzy)
              subst this
              rw [if_pos hxy]
        · rw [if_neg hxy] at h1
          by_cases hyx : y.less x = true
          · simp [hyx] at h1
          · have : x = y := Str.less_total _ _ (by simpa using hxy) (by simpa using hyx)
            subst this
            rw [if_neg (by simp [Str.less_irrefl])] at h1
            by_cases hyz : x.less z = true
            · rw [if_pos hyz]
            · rw [if_neg hyz] at h2
              by_cases hzy : z.less x = true
              · simp [hzy] at h2
              · rw [if_neg hzy] at h2
                rw [if_neg hyz, if_neg hzy]
                exact ih b c h1 h2

/-- Two different names are always ordered one way or the other: incomparable names are equal, so
looking up a name never returns another name's definition. -/
theorem C36_total (a b : SourceId) (h1 : a.less b = false) (h2 : b.less a = false) : a = b := by
  induction a generalizing b with
  | nil => cases b <;> simp_all [SourceId.less]
  | cons x a ih =>
    cases b with
    | nil => simp [SourceId.less] at h2
    | cons y b =>
      simp only [SourceId.less] at *
      by_cases hxy : x.less y = true
      · simp [hxy] at h1
      · by_cases hyx : y.less x = true
        · simp [hyx] at h2
        · have : x = y := Str.less_total _ _ (by simpa using hxy) (by simpa using hyx)
          subst this
          simp only [Str.less_irrefl, Bool.false_eq_true, if_false] at h1 h2
          rw [ih b h1 h2]

/-- The ordering of `Name` used for interning coincides with the ordering of source ids. -/
theorem C36_name_order_agrees (a b : SourceId) : a.nameLess b = a.less b := by
  induction a generalizing b with
  | nil => cases b <;> rfl
  | cons x a ih =>
    cases b with
    | nil => rfl
    | cons y b =>
      simp only [SourceId.less, SourceId.nameLess, Str.compare]
      by_cases hxy : x.less y = true
      · simp [hxy]
      · by_cases hyx : y.less x = true <;> simp [hxy, hyx, ih]

/-- The hypotheses are satisfiable in a non-trivial way: a proper prefix is smaller. -/
example : SourceId.less [[112, 106]] [[112, 106], [118]] = true ∧
    SourceId.less [[112, 106], [118]] [[113]] = true := by decide

end PJ
