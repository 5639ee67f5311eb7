import Verif.Lemmas.StraightBare
import Verif.Lemmas.MainTri
/-!
# Straight-line conversions have code
-/
namespace PJ

theorem readTerm_shape {m : Mem} : ∀ (ts : Terms) (raw a : Nat) (v : Val), readTerm m ts raw a = some v →
    ∃ n x, v = .variant n x
  | .nil, _, _, _, h => by simp [readTerm] at h
  | .cons n g as t r, raw, a, v, h => by
    simp only [readTerm] at h
    split at h
    · split at h
      · simp only [Option.some.injEq] at h
        exact ⟨_, _, h.symm⟩
      · simp at h
    · exact readTerm_shape r raw a v h

theorem conv_int_shape {F : Nat → Nat → Nat → Nat} {S : Mem} {src : Ty} {a w al : Nat} {s : Sign} {v x : Val}
    (hv : readVal S src a = some v) (hx : conv F (.int w s al) v = some x) :
    src = .unit ∨ ∃ sw ss sal, src = .int sw ss sal := by
  cases src with
  | unit => exact .inl rfl
  | int sw ss sal => exact .inr ⟨sw, ss, sal, rfl⟩
  | float =>
    simp only [readVal, Option.some.injEq] at hv
    subst hv
    simp [conv] at hx
  | struct =>
    simp only [readVal] at hv
    split at hv <;> simp at hv
    subst hv
    simp [conv] at hx
  | variant ts l =>
    simp only [readVal] at hv
    obtain ⟨n, y, rfl⟩ := readTerm_shape _ _ _ _ hv
    simp [conv] at hx
  | array =>
    simp only [readVal] at hv
    split at hv <;> simp at hv
    subst hv
    simp [conv] at hx
  | vector =>
    simp only [readVal] at hv
    split at hv
    · simp at hv
    · split at hv
      · split at hv <;> simp at hv
        subst hv
        simp [conv] at hx
      · simp at hv

theorem conv_float_shape {F : Nat → Nat → Nat → Nat} {S : Mem} {src : Ty} {a w al : Nat} {v x : Val}
    (hv : readVal S src a = some v) (hx : conv F (.float w al) v = some x) :
    src = .unit ∨ ∃ sw sal, src = .float sw sal := by
  cases src with
  | unit => exact .inl rfl
  | float sw sal => exact .inr ⟨sw, sal, rfl⟩
  | int =>
    simp only [readVal, Option.some.injEq] at hv
    subst hv
    simp [conv] at hx
  | struct =>
    simp only [readVal] at hv
    split at hv <;> simp at hv
    subst hv
    simp [conv] at hx
  | variant ts l =>
    simp only [readVal] at hv
    obtain ⟨n, y, rfl⟩ := readTerm_shape _ _ _ _ hv
    simp [conv] at hx
  | array =>
    simp only [readVal] at hv
    split at hv <;> simp at hv
    subst hv
    simp [conv] at hx
  | vector =>
    simp only [readVal] at hv
    split at hv
    · simp at hv
    · split at hv
      · split at hv <;> simp at hv
        subst hv
        simp [conv] at hx
      · simp at hv

theorem conv_struct_shape {F : Nat → Nat → Nat → Nat} {S : Mem} {src : Ty} {fs : Fields} {a sz al : Nat} {v x : Val}
    (hv : readVal S src a = some v) (hx : conv F (.struct fs sz al) v = some x) :
    src = .unit ∨ ∃ sfs ssz sal vs ws, src = .struct sfs ssz sal ∧ readFields S sfs a = some vs ∧
      convFields F fs vs = some ws := by
  cases src with
  | unit => exact .inl rfl
  | float =>
    simp only [readVal, Option.some.injEq] at hv
    subst hv
    simp [conv] at hx
  | int =>
    simp only [readVal, Option.some.injEq] at hv
    subst hv
    simp [conv] at hx
  | struct sfs ssz sal =>
    simp only [readVal] at hv
    split at hv
    · rename_i vs hvs
      simp only [Option.some.injEq] at hv
      subst hv
      simp only [conv] at hx
      split at hx
      · rename_i ws hws
        exact .inr ⟨sfs, ssz, sal, vs, ws, rfl, hvs, hws⟩
      · simp at hx
    · simp at hv
  | variant ts l =>
    simp only [readVal] at hv
    obtain ⟨n, y, rfl⟩ := readTerm_shape _ _ _ _ hv
    simp [conv] at hx
  | array =>
    simp only [readVal] at hv
    split at hv <;> simp at hv
    subst hv
    simp [conv] at hx
  | vector =>
    simp only [readVal] at hv
    split at hv
    · simp at hv
    · split at hv
      · split at hv <;> simp at hv
        subst hv
        simp [conv] at hx
      · simp at hv

mutual
/-- Whatever has a converted value has code. -/
theorem lower_defined {F : Nat → Nat → Nat → Nat} {A : Aliasing} {sa da : Nat} (S : Mem) : ∀ (t src : Ty) (a s d : Nat)
    (v w : Val), t.straight → WF t → WF src → readVal S src a = some v → conv F t v = some w →
    ∃ is, lower F A sa da t src s d = some is
  | .unit, _, _, _, _, _, _, _, _, _, _, _ => ⟨_, rfl⟩
  | .int w sg al, src, a, s, d, v, x, hst, hw, hw', hv, hx => by
    rcases conv_int_shape hv hx with rfl | ⟨sw, ss, sal, rfl⟩
    · simp only [lower]
      exact straight_dflt _ d hst hw
    · simp only [WF] at hw hw'
      simp only [lower, if_neg (show ¬ (sw = 0 ∨ w = 0) by omega)]
      split <;> exact ⟨_, rfl⟩
  | .float w al, src, a, s, d, v, x, hst, hw, hw', hv, hx => by
    rcases conv_float_shape hv hx with rfl | ⟨sw, sal, rfl⟩
    · simp only [lower]
      exact straight_dflt _ d hst hw
    · simp only [WF] at hw hw'
      simp only [lower, if_pos (And.intro hw' hw)]
      split <;> exact ⟨_, rfl⟩
  | .struct fs sz al, src, a, s, d, v, x, hst, hw, hw', hv, hx => by
    rcases conv_struct_shape hv hx with rfl | ⟨sfs, ssz, sal, vs, ws, rfl, hvs, hws⟩
    · simp only [lower]
      exact straight_dflt _ d hst hw
    · simp only [WF, Ty.straight] at hw hw' hst
      obtain ⟨y, hy⟩ := lowerFields_defined (A := A) (sa := sa) (da := da) S fs sfs a s d vs ws hst hw.1 hw'.1 hw'.2.names
        hvs hws
      simp only [lower, hy, Option.map_some]
      exact ⟨_, rfl⟩
  | .variant _ _, _, _, _, _, _, _, hst, _, _, _, _ => by simp [Ty.straight] at hst
  | .array _ _ _ _, _, _, _, _, _, _, hst, _, _, _, _ => by simp [Ty.straight] at hst
  | .vector _ _, _, _, _, _, _, _, hst, _, _, _, _ => by simp [Ty.straight] at hst
theorem lowerFields_defined {F : Nat → Nat → Nat → Nat} {A : Aliasing} {sa da : Nat} (S : Mem) : ∀ (fs sfs : Fields)
    (a s d : Nat) (vs ws : List (Comp × Val)), fs.straight → WFFields fs → WFFields sfs →
    (sfs.toList.map (·.1)).Nodup →
    readFields S sfs a = some vs → convFields F fs vs = some ws →
    ∃ is, lowerFields F A sa da fs sfs s d = some is
  | .nil, _, _, _, _, _, _, _, _, _, _, _, _ => ⟨_, rfl⟩
  | .cons c o t r, sfs, a, s, d, vs, ws, hst, hw, hw', hn, hv, hx => by
    simp only [Fields.straight, WFFields] at hst hw
    simp only [convFields] at hx
    have hf := readFields_find sfs vs c hv
    split at hx
    · rename_i w1 ws1 h1 h2
      obtain ⟨y, hy⟩ := lowerFields_defined (A := A) (sa := sa) (da := da) S r sfs a s d vs ws1 hst.2 hw.2 hw' hn hv h2
      simp only [lowerFields, hy, Option.map_some]
      rw [← find_eq_findLast sfs hn] at hf
      cases hfl : sfs.findLast c with
      | none =>
        obtain ⟨x, hx⟩ := straight_dflt (A := A) (sa := sa) (da := da) t (d + o) hst.1 hw.1
        simp only [hx, Option.bind_some]
        exact ⟨_, rfl⟩
      | some q =>
        obtain ⟨so, sty⟩ := q
        rw [hfl] at hf
        obtain ⟨v, hl, hr⟩ := hf
        rw [hl] at h1
        obtain ⟨x, hx⟩ := lower_defined (A := A) (sa := sa) (da := da) S t sty (a + so) (s + so) (d + o) v w1 hst.1 hw.1
          (findLast_WF sfs c so sty hw' hfl) hr h1
        simp only [hx, Option.bind_some]
        exact ⟨_, rfl⟩
    · simp at hx
end

end PJ
