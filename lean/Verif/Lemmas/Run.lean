import Verif.Lemmas.MainCur
import Verif.Model.Codec
/-!
# Complete runs

The program logic turned into statements about a whole transcode call, an encode call and a decode
call.
-/
namespace PJ

/-- A protocol whose messages can be written and moved: sane layout, self-relative references, the
outlined payload directly behind head and gap. -/
structure Proto.OK (p : Proto) : Prop where
  wf : WF p.head
  reloc : p.head.reloc
  out : ∀ buf, OutAt p.head buf (buf + p.head.size + p.bufOff)

/-- What is known after a successful call. -/
structure Ran (t : Ty) (da : Nat) (w : Val) (q : Nat) (st s : St) : Prop where
  ptr : s.ptr = q
  used : s.used = st.used + (q - st.ptr)
  frame : ∀ a, ¬ (da ≤ a ∧ a < da + t.size) → ¬ (st.ptr ≤ a ∧ a < q) → s.mem a = st.mem a
  val : readVal s.mem t da = some w
  move : t.reloc → ∀ lo hi (m2 : Mem) (lo' : Nat), lo ≤ da → lo ≤ st.ptr → da + t.size ≤ hi → q ≤ hi →
    hi < W64 → lo' + (hi - lo) < W64 → (∀ i, i < hi - lo → m2 (lo' + i) = s.mem (lo + i)) →
    readVal m2 t (lo' + (da - lo)) = some w
  stable : ∀ m2 : Mem, (∀ a, (da ≤ a ∧ a < da + t.size) ∨ (st.ptr ≤ a ∧ a < q) → m2 a = s.mem a) →
    readVal m2 t da = some w
  ptrs : Ptrs s.mem t [] da

theorem xcode_ran (E : Env) (t src : Ty) (hs : Handlers) (sa da : Nat) (st s : St) (v w : Val)
    (hwt : WF t) (hws : WF src) (hc : Compat t src) (ho : OutAt t da st.ptr) (hh : HsOK t hs)
    (hv : readVal E.S src sa = some v) (hw : conv E.fconv t v = some w)
    (hq : fin t v st.ptr < W64) (hda : da + t.size < W64)
    (hd : Disj da t.size st.ptr (fin t v st.ptr - st.ptr))
    (hr : xcode E t src [] hs sa da st = .ok s) : Ran t da w (fin t v st.ptr) st s := by
  have htri := xcode_tri E t src hs sa da st v w hwt hws hc ho hh hv hw
  have hcur := xcode_cur E t src hs sa da st v hwt hws hc ho hv
  rw [hr] at htri hcur
  have hge := fin_ge t v st.ptr hwt
  obtain ⟨hp, hu, _, _⟩ := hcur hge hq
  obtain ⟨hf, hdone⟩ := htri
  obtain ⟨_, d, hu', _, hm⟩ := hf (by omega)
  have hdq : d = fin t v st.ptr - st.ptr := by omega
  subst hdq
  have hpq : st.ptr + (fin t v st.ptr - st.ptr) = fin t v st.ptr := by omega
  rw [hpq] at hm
  have hdis : ∀ a, Head da t.size a → ¬ (st.ptr ≤ a ∧ a < st.ptr + (fin t v st.ptr - st.ptr)) := by
    intro a ha hb
    unfold Head at ha
    unfold Disj at hd
    omega
  have key : ∀ lo hi, lo ≤ da → lo ≤ st.ptr → da + t.size ≤ hi → fin t v st.ptr ≤ hi → hi < W64 →
      GoodAt lo hi (fun a => Head da t.size a ∨ (st.ptr ≤ a ∧ a < st.ptr + (fin t v st.ptr - st.ptr)))
        s.mem t da w := by
    intro lo hi h1 h2 h3 h4 h5
    exact hdone _ lo hi hu (fun a ha => by unfold Head at ha; omega) h2 (by omega) h5 hdis
  have hst : ∀ m2 : Mem, (∀ a, (da ≤ a ∧ a < da + t.size) ∨ (st.ptr ≤ a ∧ a < fin t v st.ptr) →
      m2 a = s.mem a) → readVal m2 t da = some w ∧ Ptrs m2 t [] da := by
    intro m2 h2
    have := key (min da st.ptr) (max (da + t.size) (fin t v st.ptr)) (by omega) (by omega) (by omega)
      (by omega) (by omega) (by omega) (by omega) m2 0 (fun h => absurd rfl h) (by omega)
      (by omega) (fun a ha => by
        simp only [Int.add_zero, Int.toNat_natCast]
        exact h2 a (by rw [hpq] at ha; exact ha))
    simpa using this
  refine ⟨hp, hu, fun a h1 h2 => hm hq a h1 h2, (hst s.mem (fun _ _ => rfl)).1, ?_, fun m2 h2 => (hst m2 h2).1,
    (hst s.mem (fun _ _ => rfl)).2⟩
  · intro hrl lo hi m2 lo' h1 h2 h3 h4 h5 h6 hm2
    have := key lo hi h1 h2 h3 h4 h5 h1 h3 m2 ((lo' : Int) - lo) (fun _ => hrl) (by omega) (by omega) ?_
    · rw [show ((da : Int) + ((lo' : Int) - lo)).toNat = lo' + (da - lo) by omega] at this
      exact this.1
    · intro a ha
      have hlo : lo ≤ a ∧ a < hi := by
        rcases ha with ha | ha
        · unfold Head at ha; omega
        · omega
      have := hm2 (a - lo) (by omega)
      rw [show ((a : Int) + ((lo' : Int) - lo)).toNat = lo' + (a - lo) by omega, this]
      congr 1; omega

/-- A raw run (encode) succeeds. -/
theorem xcode_raw (E : Env) (t src : Ty) (hs : Handlers) (sa da : Nat) (st : St) (v w : Val)
    (hwt : WF t) (hws : WF src) (hc : Compat t src) (ho : OutAt t da st.ptr) (hh : HsOK t hs)
    (hv : readVal E.S src sa = some v) (hw : conv E.fconv t v = some w) (hn : st.rem = none)
    (hp : st.ptr < W64) : ∃ s, xcode E t src [] hs sa da st = .ok s := by
  have htri := xcode_tri E t src hs sa da st v w hwt hws hc ho hh hv hw
  cases hr : xcode E t src [] hs sa da st with
  | ok s => exact ⟨s, rfl⟩
  | ub => rw [hr] at htri; exact absurd htri.2 id
  | throw s =>
    rw [hr] at htri
    obtain ⟨hsome, _⟩ := htri.1 hp
    have := htri.2
    simp only [Post] at this
    rw [hn] at hsome
    cases hs : s.rem with
    | none => exact absurd hs this
    | some x => rw [hs] at hsome; cases hsome

/-- A bounded run (decode) succeeds exactly when the buffer is large enough. -/
theorem xcode_bounded (E : Env) (t src : Ty) (hs : Handlers) (sa da : Nat) (st : St) (v w : Val)
    (C : Nat) (hwt : WF t) (hws : WF src) (hc : Compat t src) (ho : OutAt t da st.ptr) (hh : HsOK t hs)
    (hv : readVal E.S src sa = some v) (hw : conv E.fconv t v = some w) (hr : st.rem = some C)
    (hC : C < 2 ^ 63) (hq : fin t v st.ptr < W64) (hq' : fin t v st.ptr ≤ st.ptr + 2 ^ 63) :
    (fin t v st.ptr ≤ st.ptr + C ∧ ∃ s, xcode E t src [] hs sa da st = .ok s ∧
      s.rem = some (C - (fin t v st.ptr - st.ptr))) ∨
    (st.ptr + C < fin t v st.ptr ∧ ∃ s, xcode E t src [] hs sa da st = .throw s) := by
  have htri := xcode_tri E t src hs sa da st v w hwt hws hc ho hh hv hw
  have hcur := xcode_cur E t src hs sa da st v hwt hws hc ho hv (fin_ge t v st.ptr hwt) hq
  cases hx : xcode E t src [] hs sa da st with
  | ok s =>
    rw [hx] at hcur
    obtain ⟨h1, h2⟩ := hcur.2.2.2 C hr hC hq'
    exact Or.inl ⟨h1, s, rfl, h2⟩
  | ub => rw [hx] at htri; exact absurd htri.2 id
  | throw s =>
    rw [hx] at hcur
    obtain ⟨C', hC', h⟩ := hcur
    rw [hr] at hC'; cases hC'
    exact Or.inr ⟨h hC hq', s, rfl⟩

/-- A run that consumes no buffer. -/
theorem dres_run {t : Ty} {da : Nat} {w : Val} {st : St} {r : Res}
    (htri : Tri st (Head da t.size) (.good t da w) r) (hd : DRes (Head da t.size) st r)
    (hda : da + t.size < W64) (hp : st.ptr < W64) :
    ∃ s, r = .ok s ∧ readVal s.mem t da = some w ∧ s.ptr = st.ptr ∧ s.rem = st.rem ∧
      ∀ a, ¬ (da ≤ a ∧ a < da + t.size) → s.mem a = st.mem a := by
  cases r with
  | ub => exact absurd htri.2 id
  | throw s => exact absurd hd id
  | ok s =>
    obtain ⟨h1, h2, h3, h4⟩ := hd
    refine ⟨s, rfl, ?_, h1, h2, h4⟩
    have := htri.2 0 (min da st.ptr) (max (da + t.size) st.ptr) (by omega)
      (fun a ha => by unfold Head at ha; omega) (by omega) (by omega) (by omega) (fun a _ h => by omega)
      (by omega) (by omega) s.mem 0 (fun h => absurd rfl h) (by omega) (by omega) (fun a _ => by simp)
    simpa using this.1

/-- Transcoding the default term from `Unit` is defaulting it. -/
theorem xAt_unit (E : Env) (hm : List (Comp × Nat)) (sa da : Nat) (l : VarL) (st : St) :
    ∀ (ts : Terms) (i : Nat), xAt E ts l i .unit hm sa da st = dfltAt E ts l i hm da st
  | .nil, i => by simp [xAt, dfltAt]
  | .cons n g as t r, 0 => by
    have hu : readVal E.S .unit sa = some .unit := rfl
    simp only [xAt, dfltAt, termCond_eq hu, ← unitCond_eq]
    congr 1
    cases unitCond as with
    | none => rfl
    | some b =>
      cases b with
      | false => rfl
      | true =>
        simp only
        congr 1
        funext s
        cases t <;> simp [xcode, dflt, keepBuf, Res.bind]
  | .cons n g as t r, i + 1 => by
    simp only [xAt, dfltAt]; exact xAt_unit E hm sa da l st r i

/-- The run succeeds and its final state satisfies a test (used to evaluate concrete runs). -/
def Res.sat (r : Res) (f : St → Bool) : Bool :=
  match r with
  | .ok s => f s
  | _ => false

theorem Res.sat_ok {r : Res} {f : St → Bool} (h : r.sat f = true) : ∃ s, r = .ok s ∧ f s = true := by
  cases r with
  | ok s => exact ⟨s, rfl, h⟩
  | throw s => cases h
  | ub => cases h

end PJ
