import Verif.Spec.Samples
/-!
# C37: defaulting never consumes buffer

`_partial`: types without an outlined variant.  For an outlined variant it is false
(`C37_violated`).
-/
namespace PJ

/-- Filling a field with its default succeeds, gives it the default value, leaves the buffer alone
and writes only bytes of the field. -/
theorem C37_default_partial (E : Env) (t : Ty) (hs : Handlers) (da : Nat) (st : St) (w : Val)
    (hwf : WF t) (hno : t.noOut) (hh : HsOK t hs) (hv : dfltVal t = some w) (hda : da + t.size < W64)
    (hp : st.ptr < W64) :
    ∃ s, dflt E t hs da st = .ok s ∧ readVal s.mem t da = some w ∧ s.ptr = st.ptr ∧ s.rem = st.rem ∧
      ∀ a, ¬ (da ≤ a ∧ a < da + t.size) → s.mem a = st.mem a :=
  dres_run (dflt_tri E t hs da st w hwf hno hh hv) (dflt_frame E t hs da st hwf hno) hda hp

/-- Without any assumption on the default value: whatever happens, a default without outlined variant
never asks for buffer, never fails for lack of buffer, and writes only bytes of the field. -/
theorem C37_frame_partial (E : Env) (t : Ty) (hs : Handlers) (da : Nat) (st : St) (hwf : WF t)
    (hno : t.noOut) :
    (∀ s, dflt E t hs da st ≠ .throw s) ∧
    ∀ s, dflt E t hs da st = .ok s → s.ptr = st.ptr ∧ s.rem = st.rem ∧ s.used = st.used ∧
      ∀ a, ¬ (da ≤ a ∧ a < da + t.size) → s.mem a = st.mem a := by
  have h := dflt_frame E t hs da st hwf hno
  constructor
  · intro s hs; rw [hs] at h; exact h
  · intro s hs; rw [hs] at h; exact h

/-- The bits of an IEEE 754 number that is not a number, of `w` bytes with `e` exponent bits: the exponent
is all ones and the fraction is not zero. -/
def IsNaN (w e b : Nat) : Prop :=
  b / 2 ^ (8 * w - 1 - e) % 2 ^ e = 2 ^ e - 1 ∧ b % 2 ^ (8 * w - 1 - e) ≠ 0

/-- Numbers get zero, and floating point numbers get a NaN. -/
theorem C37_numbers (E : Env) (hs : Handlers) (da al : Nat) (sg : Sign) (st : St) :
    (∀ w, 0 < w → ∃ s, dflt E (.int w sg al) hs da st = .ok s ∧ readN s.mem da w = 0) ∧
    (∃ s, dflt E (.float 4 al) hs da st = .ok s ∧ IsNaN 4 8 (readN s.mem da 4)) ∧
    (∃ s, dflt E (.float 8 al) hs da st = .ok s ∧ IsNaN 8 11 (readN s.mem da 8)) := by
  refine ⟨fun w h0 => ?_, ?_, ?_⟩
  · refine ⟨_, by rw [dflt, if_neg (by omega)], ?_⟩
    rw [St.store, readN_writeN]
    simp
  · refine ⟨_, by rw [dflt, if_pos (by omega)], ?_⟩
    rw [St.store, readN_writeN]
    unfold IsNaN
    decide
  · refine ⟨_, by rw [dflt, if_pos (by omega)], ?_⟩
    rw [St.store, readN_writeN]
    unfold IsNaN
    decide

/-- An outlined variant `{ a : u8 }` whose payload is 3 bytes behind its tag. -/
def C37.out : Ty :=
  .variant (.cons ['a'] 1 [] (.int 1 .unsigned 1) .nil)
    { outline := true, dflt := 0, termOff := 3, termSize := 0, tagOff := 0, tagW := 1, size := 1,
      align := 1, termAlign := 1 }

/-- Violation: defaulting an outlined variant writes the payload outside the field, to buffer bytes
that stay free. -/
theorem C37_violated : ∃ s, keepBuf ⟨fun _ => 7, 103, none, 0, 0⟩
      (dflt ⟨fun _ => 0, fun _ => 0, fun _ _ b => b⟩ C37.out [] 100 ⟨fun _ => 7, 103, none, 0, 0⟩) =
      .ok s ∧ WF C37.out ∧ OutAt C37.out 100 103 ∧ s.ptr = 103 ∧ s.mem 103 = 0 := by
  obtain ⟨s, hs, h⟩ := Res.sat_ok (r := keepBuf ⟨fun _ => 7, 103, none, 0, 0⟩
      (dflt ⟨fun _ => 0, fun _ => 0, fun _ _ b => b⟩ C37.out [] 100 ⟨fun _ => 7, 103, none, 0, 0⟩))
    (f := fun s => s.ptr == 103 && s.mem 103 == 0) (by decide +kernel)
  simp only [Bool.and_eq_true, beq_iff_eq] at h
  refine ⟨s, hs, ?_, by simp [OutAt, C37.out, Terms.noOut, Ty.noOut], h⟩
  simp only [C37.out, WF, WFTerms, Terms.toList]
  refine ⟨by simp, ?_⟩
  constructor <;> simp [Disj]

open Sample in
example : ∃ s, dflt env0 wireS [] 5000 ⟨fun _ => 1, 6000, some 0, 0, 0⟩ = .ok s ∧
    readVal s.mem wireS 5000 = some (.struct [(nm "v", .variant (nm "r") .unit), (nm "ys", .vec []),
      (nm "fresh", .int 0), (nm "x", .int 0)]) ∧ s.rem = some 0 := by
  obtain ⟨s, h1, h2, _, h4, _⟩ := C37_default_partial env0 wireS [] 5000 ⟨fun _ => 1, 6000, some 0, 0, 0⟩
    _ wireS_wf wireS_noOut (HsOK_nil _) rfl (by decide) (by decide)
  exact ⟨s, h1, h2, h4⟩

end PJ
