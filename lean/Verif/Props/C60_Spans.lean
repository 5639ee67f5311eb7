import Verif.Model.Span
import Verif.Props.C45_HostTypes
/-!
# C60: spans hold no more than their type allows
-/
namespace PJ

/-- A number of elements that the bound of a span allows. -/
def SpanFits (M n : Nat) : Prop := M = 2 ^ 64 - 1 ∨ n ≤ M

/-- The bounds of all spans on the way. -/
def SpanExpr.bounds : SpanExpr → Nat → List Nat
  | .empty, M | .data _ _, M => [M]
  | .copy e, M => e.bounds M
  | .convert L e, M => M :: e.bounds L

/-- The data it all comes from. -/
def SpanExpr.source : SpanExpr → Nat × Nat
  | .empty => (0, 0)
  | .data p n => (p, n)
  | .copy e | .convert _ e => e.source

theorem SpanExpr.eval_source : ∀ {e : SpanExpr} {M : Nat} {s : Nat × Nat}, e.eval M = some s → s = e.source
  | .empty, M, s, h => by simpa [eval, source] using h.symm
  | .data p n, M, s, h => by
    simp only [eval] at h
    split at h
    · simpa [source] using h.symm
    · simp at h
  | .copy e, M, s, h => e.eval_source (M := M) (by simpa [eval] using h)
  | .convert L e, M, s, h => by
    simp only [eval] at h
    split at h
    · simp at h
    · rename_i s' hs'
      split at h
      · simp only [Option.some.injEq] at h
        subst h
        exact e.eval_source hs'
      · simp at h

/-- **C60.**  A span that was made holds no more elements than its type allows, though conversions to a larger bound check
nothing. -/
theorem C60_bound : ∀ (e : SpanExpr) (M : Nat) (s : Nat × Nat), (∀ K ∈ e.bounds M, K < 2 ^ 64) → e.eval M = some s →
    SpanFits M s.2
  | .empty, M, s, _, h => by
    simp only [SpanExpr.eval, Option.some.injEq] at h
    subst h
    exact .inr (Nat.zero_le _)
  | .data p n, M, s, hb, h => by
    have hM := hb M (by simp [SpanExpr.bounds])
    simp only [SpanExpr.eval] at h
    split at h
    · rename_i hv
      simp only [Option.some.injEq] at h
      subst h
      show M = 2 ^ 64 - 1 ∨ n ≤ M
      have hu : unboundedLen = 2 ^ 64 - 1 := rfl
      simp only [validSpan] at hv
      split at hv
      · simp only [Bool.not_eq_true', Bool.and_eq_false_iff, bne_eq_false_iff_eq, decide_eq_false_iff_not] at hv
        omega
      · omega
    · simp at h
  | .copy e, M, s, hb, h => C60_bound e M s hb (by simpa [SpanExpr.eval] using h)
  | .convert L e, M, s, hb, h => by
    have hM := hb M (by simp [SpanExpr.bounds])
    simp only [SpanExpr.eval] at h
    split at h
    · simp at h
    · rename_i s' hs'
      have ih := C60_bound e L s' (fun K hK => hb K (by simp [SpanExpr.bounds, hK])) hs'
      split at h
      · rename_i hv
        simp only [Option.some.injEq] at h
        subst h
        unfold SpanFits at *
        have hu : unboundedLen = 2 ^ 64 - 1 := rfl
        simp only [validSpan] at hv
        split at hv
        · simp only [Bool.not_eq_true', Bool.and_eq_false_iff, bne_eq_false_iff_eq, decide_eq_false_iff_not] at hv
          omega
        · omega
      · simp at h

/-- An exception is thrown exactly if the data is too long for one of the spans on the way; otherwise the span has all of
the data. -/
theorem C60_exact : ∀ (e : SpanExpr) (M : Nat), (∀ K ∈ e.bounds M, K < 2 ^ 64) → ∀ s,
    e.eval M = some s ↔ s = e.source ∧ ∀ K ∈ e.bounds M, SpanFits K e.source.2 := by
  intro e M hb s
  constructor
  · intro h
    have hs := SpanExpr.eval_source h
    refine ⟨hs, ?_⟩
    rw [← hs]
    clear hs
    induction e generalizing M s with
    | empty => simpa [SpanExpr.bounds] using C60_bound _ M s hb h
    | data p n => simpa [SpanExpr.bounds] using C60_bound _ M s hb h
    | copy e ih => exact ih M hb s (by simpa [SpanExpr.eval] using h)
    | convert L e ih =>
      have h0 := C60_bound _ M s hb h
      simp only [SpanExpr.eval] at h
      split at h
      · simp at h
      · rename_i s' hs'
        split at h
        · simp only [Option.some.injEq] at h
          subst h
          intro K hK
          simp only [SpanExpr.bounds, List.mem_cons] at hK
          rcases hK with rfl | hK
          · exact h0
          · exact ih L (fun K hK => hb K (by simp [SpanExpr.bounds, hK])) s' hs' K hK
        · simp at h
  · rintro ⟨rfl, h⟩
    have valid : ∀ {L K n : Nat}, SpanFits K n → validSpan L K n = true := by
      intro L K n hk
      unfold SpanFits at hk
      have hu : unboundedLen = 2 ^ 64 - 1 := rfl
      simp only [validSpan]
      split
      · simp only [Bool.not_eq_true', Bool.and_eq_false_iff, bne_eq_false_iff_eq, decide_eq_false_iff_not]
        omega
      · rfl
    induction e generalizing M with
    | empty => rfl
    | data p n =>
      simp only [SpanExpr.eval, SpanExpr.source] at h ⊢
      rw [if_pos (valid (h M (by simp [SpanExpr.bounds])))]
    | copy e ih => exact ih M hb h
    | convert L e ih =>
      simp only [SpanExpr.source] at h ⊢
      simp only [SpanExpr.eval, ih L (fun K hK => hb K (by simp [SpanExpr.bounds, hK])) (fun K hK => h K (by simp [SpanExpr.bounds, hK]))]
      rw [if_pos (valid (h M (by simp [SpanExpr.bounds])))]

/-- The bound of the vector type that describes a span. -/
def spanMax (M : Nat) : Option Nat := if M = 2 ^ 64 - 1 then none else some M

/-- A span in memory is a vector with its elements for the encoder: the length is one that the described type allows. -/
theorem C60_object (e : SpanExpr) (M : Nat) (s : Nat × Nat) (hb : ∀ K ∈ e.bounds M, K < 2 ^ 64) (h : e.eval M = some s)
    (hn : s.2 < 2 ^ 63) (t : STy) (min : Nat) (hacc : Accepted (.vector t min (spanMax M))) (hs : Safe (.vector t min (spanMax M)))
    (m : Mem) (a : Nat) (hp : readN m a 8 = s.1) (hl : readN m (a + 8) 8 = s.2) (x : Nat → Val)
    (he : ∀ i, i < s.2 → cppVal m t (s.1 + i * (cpp t).1) = some (x i)) :
    readVal m (describe (.vector t min (spanMax M))) a = some (.vec ((List.range s.2).map x)) := by
  rw [C45_value_partial _ m a hacc hs]
  have hw : t.isWchar = false := hs.1
  have hf : ∀ k, spanMax M = some k → s.2 ≤ k := by
    intro k hk
    rcases C60_bound e M s hb h with g | g
    · simp [spanMax, g] at hk
    · simp only [spanMax] at hk
      split at hk
      · simp at hk
      · simp only [Option.some.injEq] at hk
        omega
  have hc : ∀ (n i : Nat), i + n = s.2 → collect (fun i => cppVal m t (s.1 + i * (cpp t).1)) i n = some ((List.range' i n).map x) := by
    intro n
    induction n with
    | zero => intro i _; rfl
    | succ n ih =>
      intro i hi
      simp only [collect, he i (by omega), ih (i + 1) (by omega), List.range'_succ, List.map_cons]
  simp only [cppVal, hp, hl, hw, Bool.false_eq_true, if_false]
  rw [if_pos ⟨hn, hf⟩, hc s.2 0 (by omega), List.range_eq_range']
  rfl

/-! ## Samples -/

/-- Three elements in a span of at most 4, then of at most 8, then of at most 3. -/
example : ((SpanExpr.data 1000 3).convert 4 |>.convert 8).eval 3 = some (1000, 3) := rfl

/-- Five do not fit. -/
example : ((SpanExpr.data 1000 5).convert 4 |>.convert 8).eval (2 ^ 64 - 1) = none := rfl

namespace C60

/-- The span `{ 16, 3 }` at 100, and bytes 7 elsewhere. -/
def mem : Mem := fun a => if a = 100 then 16 else if a = 108 then 3 else if 100 ≤ a then 0 else 7

example : readVal mem (describe (.vector (.int 1 .unsigned) 0 (spanMax 4))) 100 = some (.vec [.int 7, .int 7, .int 7]) :=
  C60_object ((SpanExpr.data 16 3).convert 8) 4 (16, 3) (by simp [SpanExpr.bounds]) rfl (by simp)
    (.int 1 .unsigned) 0 (by simp [spanMax, Accepted, validateVector, validateInt]) (by simp [Safe, STy.isWchar, STy.bytes, spanMax])
    mem 100 (by decide +kernel) (by decide +kernel) (fun _ => .int 7) (fun i hi => by
      have : i = 0 ∨ i = 1 ∨ i = 2 := by
        simp only at hi
        omega
      rcases this with rfl | rfl | rfl <;> rfl)

end C60

end PJ
