import Verif.Lemmas.Inv
/-!
# Accounting of a bounded buffer
-/
namespace PJ

/-- Bytes left plus bytes taken is constant while at most 2^63 bytes are taken in total. -/
def Total (a b : St) : Prop :=
  a.used ≤ b.used ∧ ∀ r, a.rem = some r → r < 2 ^ 63 → b.used - a.used ≤ 2 ^ 63 →
    b.used - a.used ≤ r ∧ b.rem = some (r - (b.used - a.used))

theorem alloc_bounded {st s : St} {n r : Nat} (h : alloc st n = .ok s) (hr : st.rem = some r)
    (hlt : r < 2 ^ 63) (hn : n ≤ 2 ^ 63) : n ≤ r ∧ s.rem = some (r - n) := by
  unfold alloc at h
  rw [hr] at h
  simp only at h
  split at h
  · cases h
  · rename_i hs
    cases h
    by_cases hle : n ≤ r
    · refine ⟨hle, ?_⟩
      simp only [sub64_eq hle (by unfold W64; omega)]
    · exfalso
      apply hs
      have : sub64 r n = r + W64 - n := by unfold sub64 W64; omega
      rw [this]
      unfold toSigned W64
      rw [if_neg (by simp only [Nat.reducePow] at *; omega)]
      simp only [Nat.reducePow] at *; omega

theorem total_stepInv : StepInv (fun _ => True) Total where
  refl st := ⟨Nat.le_refl _, fun r hr _ _ => by simp [hr]⟩
  trans {a b c} h1 h2 := by
    refine ⟨Nat.le_trans h1.1 h2.1, fun r hr hlt ht => ?_⟩
    have ha := h1.1
    have hb := h2.1
    obtain ⟨h3, h4⟩ := h1.2 r hr hlt (by omega)
    obtain ⟨h5, h6⟩ := h2.2 _ h4 (by omega) (by omega)
    exact ⟨by omega, by rw [h6]; congr 1; omega⟩
  store st _ _ _ := ⟨Nat.le_refl _, fun r hr _ _ => by simp [St.store, hr]⟩
  poison st _ _ _ := ⟨Nat.le_refl _, fun r hr _ _ => by simp [St.poison, hr]⟩
  alloc st s n _ h := by
    have hu := (alloc_ok h).2.1
    refine ⟨by omega, fun r hr hlt ht => ?_⟩
    have : s.used - st.used = n := by omega
    rw [this] at ht ⊢
    exact alloc_bounded h hr hlt ht
  keep st s h := ⟨Nat.le_refl _, fun r hr _ _ => by simp [hr]⟩
  small _ _ := trivial

/-- The same without a bound on the total, when every single request is below 2^63. -/
def Each (a b : St) : Prop :=
  a.used ≤ b.used ∧ ∀ r, a.rem = some r → r < 2 ^ 63 →
    b.used - a.used ≤ r ∧ b.rem = some (r - (b.used - a.used))

theorem each_stepInv : StepInv (fun n => n < 2 ^ 63) Each where
  refl st := ⟨Nat.le_refl _, fun r hr _ => by simp [hr]⟩
  trans {a b c} h1 h2 := by
    refine ⟨Nat.le_trans h1.1 h2.1, fun r hr hlt => ?_⟩
    have ha := h1.1
    have hb := h2.1
    obtain ⟨h3, h4⟩ := h1.2 r hr hlt
    obtain ⟨h5, h6⟩ := h2.2 _ h4 (by omega)
    exact ⟨by omega, by rw [h6]; congr 1; omega⟩
  store st _ _ _ := ⟨Nat.le_refl _, fun r hr _ => by simp [St.store, hr]⟩
  poison st _ _ _ := ⟨Nat.le_refl _, fun r hr _ => by simp [St.poison, hr]⟩
  alloc st s n hn h := by
    have hu := (alloc_ok h).2.1
    refine ⟨by omega, fun r hr hlt => ?_⟩
    have : s.used - st.used = n := by omega
    rw [this]
    exact alloc_bounded h hr hlt (by omega)
  keep st s h := ⟨Nat.le_refl _, fun r hr _ => by simp [hr]⟩
  small n h := by omega

/-- The remaining size stays below 2^63. -/
def RemLt (a b : St) : Prop := ∀ r, a.rem = some r → r < 2 ^ 63 → ∃ r', b.rem = some r' ∧ r' < 2 ^ 63

theorem remLt_stepInv : StepInv (fun _ => True) RemLt where
  refl st := fun r hr h => ⟨r, hr, h⟩
  trans {a b c} h1 h2 := fun r hr h => by
    obtain ⟨r', hr', h'⟩ := h1 r hr h
    exact h2 r' hr' h'
  store st _ _ _ := fun r hr h => ⟨r, hr, h⟩
  poison st _ _ _ := fun r hr h => ⟨r, hr, h⟩
  alloc st s n _ h := fun r hr hlt => by
    unfold alloc at h
    rw [hr] at h
    simp only at h
    split at h
    · cases h
    · rename_i hs
      cases h
      refine ⟨_, rfl, ?_⟩
      have := sub64_lt r n
      unfold toSigned at hs
      split at hs
      · simp only [Nat.reducePow] at *; omega
      · unfold W64 at this; simp only [Nat.reducePow] at *; omega
  keep st s h := fun r hr hlt => ⟨r, hr, hlt⟩
  small _ _ := trivial

theorem remLt_cb : CbFree RemLt := fun _ _ r hr h => ⟨r, hr, h⟩
theorem total_cb : CbFree Total := fun st _ => ⟨Nat.le_refl _, fun r hr _ _ => by simp [hr]⟩
theorem each_cb : CbFree Each := fun st _ => ⟨Nat.le_refl _, fun r hr _ => by simp [hr]⟩

end PJ
