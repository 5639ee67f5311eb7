import Verif.Model.CoalesceFn
import Verif.Props.C35_Flush
/-!
# C35: copy coalescing preserves what a function does

Every execution of a function, of any length, is followed by the coalesced function block for block, with
the same memory except for bytes that are undefined in the original.
-/
namespace PJ

/-! ## Specification -/

/-- What a block computes from memory does not depend on bytes that are undefined. -/
structure CBlock.Mono (b : CBlock) : Prop where
  roots : ∀ m m' base, Refines m' m → b.roots m = some base → b.roots m' = some base
  next : ∀ m m' n, Refines m' m → b.next m = some n → b.next m' = some n

/-- The states of the executions from `s`. -/
def CFn.Reach (f : CFn) (s s' : CState) : Prop := ∃ k, f.steps k s = some s'

/-- Whenever the execution from `s` enters a block, that block may be coalesced. -/
def CFn.OK (f : CFn) (s : CState) : Prop :=
  ∀ b m blk base, f.Reach s (some b, m) → f[b]? = some blk → blk.roots m = some base →
    ∃ ask, FlushOK base ask false [] blk.body

/-! ## Proof -/

theorem FlushOK.mono {base : Nat → Nat} {ask : Nat → Nat → Prop} : ∀ (is : List Inst) (b : Bool) (seen : List CCopy),
    FlushOK base ask b seen is → ∀ m m', Refines m' m → Refines (runBlock base is m') (runBlock base is m)
  | [], _, _, _, _, _, h => h
  | .copy c :: r, _, _, hok, m, m', h =>
    FlushOK.mono r _ _ hok.2.2.2 _ _ (c.exec_mono base h)
  | .loadStore c mid :: r, _, _, hok, m, m', h => by
    obtain ⟨hmid, _, _, _, h3⟩ := hok
    refine FlushOK.mono r _ _ h3 _ _ ?_
    show Refines ((Inst.loadStore c mid).exec base m') ((Inst.loadStore c mid).exec base m)
    rw [loadStore_exec base c mid m (fun o ho => ⟨(hmid o ho).1, (hmid o ho).2.1⟩),
      loadStore_exec base c mid m' (fun o ho => ⟨(hmid o ho).1, (hmid o ho).2.1⟩)]
    exact c.exec_mono base (others_mono base mid (fun o ho => (hmid o ho).1) h)
  | .other o :: r, b, seen, hok, m, m', h => by
    rcases hok.2 with ⟨_, g⟩ | ⟨_, g⟩ <;> exact FlushOK.mono r _ _ g _ _ (hok.1.mono _ _ h)

theorem CFn.steps_succ (f : CFn) : ∀ (k : Nat) (s : CState), f.steps (k + 1) s = (f.steps k s).bind f.step
  | 0, s => by
    simp only [CFn.steps, Option.bind_some]
    cases f.step s <;> rfl
  | k + 1, s => by
    rw [CFn.steps]
    conv => rhs; rw [CFn.steps]
    cases f.step s with
    | none => rfl
    | some s' => exact CFn.steps_succ f k s'

theorem CFn.coalesce_get (t : CopyTarget) (f : CFn) (b : Nat) {blk : CBlock} (h : f[b]? = some blk) :
    (f.coalesce t true)[b]? = some { blk with body := PJ.coalesce t {} blk.body } := by
  simp [CFn.coalesce, h]

theorem CFn.step_coalesce (t : CopyTarget) (mc : Bool) (f : CFn) (hm : ∀ b ∈ f, b.Mono) {b : Option Nat} {m mn : UMem} {s' : CState}
    (hok : ∀ i blk base, b = some i → f[i]? = some blk → blk.roots m = some base → ∃ ask, FlushOK base ask false [] blk.body)
    (hr : Refines mn m) (h : f.step (b, m) = some s') :
    ∃ mn', (f.coalesce t mc).step (b, mn) = some (s'.1, mn') ∧ Refines mn' s'.2 := by
  cases b with
  | none => simp [CFn.step] at h
  | some i =>
    simp only [CFn.step] at h
    split at h
    · exact nomatch h
    rename_i blk hb
    split at h
    · exact nomatch h
    rename_i base hbase
    obtain ⟨ask, hf⟩ := hok i blk base rfl hb hbase
    have hmb := hm blk (List.mem_of_getElem? hb)
    have hrb := hmb.roots m mn base hr hbase
    have hmo := FlushOK.mono blk.body false [] hf m mn hr
    cases mc with
    | false =>
      split at h
      · exact nomatch h
      all_goals
        rename_i hn
        cases h
        exact ⟨_, by simp [CFn.coalesce, CFn.step, hb, hrb, hmb.next _ _ _ hmo hn], hmo⟩
    | true =>
      have hco := C35_flush_partial base ask t blk.body mn hf
      have hre := hco.trans hmo
      split at h
      · exact nomatch h
      all_goals
        rename_i hn
        cases h
        exact ⟨_, by simp [CFn.step, CFn.coalesce_get t f i hb, hrb, hmb.next _ _ _ hre hn], hre⟩

/-- However many blocks of a function are run, the coalesced function runs the same blocks, and memory is the same
except for bytes that are undefined in the original. -/
theorem C35_function_partial (t : CopyTarget) (memcpy : Bool) (f : CFn) (hm : ∀ b ∈ f, b.Mono) (s : CState) (hok : f.OK s) (k : Nat)
    (s' : CState) (h : f.steps k s = some s') :
    ∃ mn, (f.coalesce t memcpy).steps k s = some (s'.1, mn) ∧ Refines mn s'.2 := by
  induction k generalizing s' with
  | zero =>
    simp only [CFn.steps, Option.some.injEq] at h
    subst h
    exact ⟨s.2, rfl, Refines.refl _⟩
  | succ k ih =>
    rw [CFn.steps_succ] at h
    cases hk : f.steps k s with
    | none => rw [hk] at h; simp at h
    | some s1 =>
      rw [hk] at h
      obtain ⟨mn, h1, h2⟩ := ih s1 hk
      obtain ⟨mn', h3, h4⟩ := CFn.step_coalesce t memcpy f hm (b := s1.1) (m := s1.2) (s' := s')
        (fun i blk base hi hb hr => hok i s1.2 blk base ⟨k, by rw [hk]; rw [← hi]⟩ hb hr) h2 h
      exact ⟨mn', by rw [CFn.steps_succ, h1]; exact h3, h4⟩

/-- If a function returns, so does the coalesced function, and only with the same memory except for bytes that are
undefined in the original.  -/
theorem C35_return_partial (t : CopyTarget) (memcpy : Bool) (f : CFn) (hm : ∀ b ∈ f, b.Mono) (m m' : UMem) (hok : f.OK (some 0, m))
    (h : f.Reach (some 0, m) (none, m')) :
    (∃ mn, (f.coalesce t memcpy).Reach (some 0, m) (none, mn)) ∧
      ∀ mn, (f.coalesce t memcpy).Reach (some 0, m) (none, mn) → Refines mn m' := by
  obtain ⟨k, hk⟩ := h
  obtain ⟨mn, h1, h2⟩ := C35_function_partial t memcpy f hm _ hok k _ hk
  refine ⟨⟨mn, k, h1⟩, fun mn2 ⟨k2, hk2⟩ => ?_⟩
  have last : ∀ (g : CFn) (a d : Nat) (s : CState) (x : UMem), g.steps a s = some (none, x) → g.steps (a + d) s = none ∨ d = 0 := by
    intro g a d s x hx
    cases d with
    | zero => exact .inr rfl
    | succ d =>
      left
      induction d with
      | zero => rw [CFn.steps_succ, hx]; rfl
      | succ d ih => rw [← Nat.add_assoc, CFn.steps_succ, ih]; rfl
  have e : k2 = k := by
    rcases Nat.lt_trichotomy k2 k with hl | he | hl
    · rcases last _ k2 (k - k2) _ _ hk2 with h | h
      · rw [show k2 + (k - k2) = k by omega, h1] at h; exact nomatch h
      · omega
    · exact he
    · rcases last _ k (k2 - k) _ _ h1 with h | h
      · rw [show k + (k2 - k) = k2 by omega, hk2] at h; exact nomatch h
      · omega
  subst e
  rw [h1] at hk2
  cases hk2
  exact h2

/-! A loop that copies two halves of four bytes and counts down to zero in the byte at 0, from which the addresses
are computed. -/
namespace C35

def count : Other where
  reads := fun a => a = 0
  writes := fun a => a = 0
  eff := fun m a => if a = 0 then (m 0).map (· - 1) else m a
  term := false
  mods := fun _ _ => false
  refs := fun _ _ => false

def halves : List Inst := [.copy ⟨some 0, 1, 0, 0, 2⟩, .other count, .copy ⟨some 0, 1, 2, 2, 2⟩]

def loop : CBlock where
  body := halves
  roots := fun m => (m 0).map fun c r => 1000 * (r + 1) + 4 * c.toNat
  next := fun m => (m 0).map fun c => if c = 0 then .ret else .jump 0

theorem count_ok (base : Nat → Nat) (h : ∀ r, 0 < base r) : count.OKIn base (fun _ _ => True) where
  frame := fun m a h => by simp only [count] at h ⊢; rw [if_neg h]
  dep := fun m m' a h1 h2 => by simp only [count] at h1 ⊢; rw [h1 0 rfl, h2]
  mono := fun m m' h a => by
    simp only [count]
    split
    · rcases h 0 with h | h <;> simp [h]
    · exact h a
  mods := fun r n a _ h1 h2 => by
    simp only [count] at h1
    have := h r
    omega
  refs := fun r n a _ h1 h2 => by
    simp only [count] at h1
    have := h r
    omega

theorem refines_some {m m' : UMem} (h : Refines m' m) {a : Nat} {x : UInt8} (hx : m a = some x) : m' a = some x := by
  rcases h a with h | h
  · rw [h] at hx; simp at hx
  · rw [h, hx]

theorem loop_mono : loop.Mono where
  roots := fun m m' base h hb => by
    simp only [loop, Option.map_eq_some_iff] at hb ⊢
    obtain ⟨c, hc, e⟩ := hb
    exact ⟨c, refines_some h hc, e⟩
  next := fun m m' n h hb => by
    simp only [loop, Option.map_eq_some_iff] at hb ⊢
    obtain ⟨c, hc, e⟩ := hb
    exact ⟨c, refines_some h hc, e⟩

theorem loop_ok (s : CState) : CFn.OK [loop] s := by
  intro b m blk base _ hb hr
  have hblk : blk = loop := by
    cases b with
    | zero => simpa using hb.symm
    | succ b => simp at hb
  subst hblk
  simp only [loop, Option.map_eq_some_iff] at hr
  obtain ⟨c, _, rfl⟩ := hr
  have hc := c.toNat_lt
  refine ⟨fun _ _ => True, ?_, by simp, ⟨by simp, trivial⟩, count_ok _ (fun r => by omega), .inl ⟨?_, ?_, by simp, ⟨by simp, trivial⟩, trivial⟩⟩
  · intro c' h a
    simp only [List.mem_singleton] at h
    subst h
    simp [CCopy.reads, CCopy.writes] <;> omega
  · intro c' h a
    simp only [waiting, List.takeWhile_nil, List.mem_singleton] at h
    subst h
    simp [CCopy.writes, count] <;> omega
  · intro c' h a
    simp only [waiting, List.takeWhile_nil, List.mem_cons, List.not_mem_nil, or_false] at h
    rcases h with rfl | rfl <;> simp [CCopy.reads, CCopy.writes] <;> omega

example (t : CopyTarget) (m : UMem) (k : Nat) (s' : CState) (h : CFn.steps [loop] k (some 0, m) = some s') :
    ∃ mn, (CFn.coalesce t true [loop]).steps k (some 0, m) = some (s'.1, mn) ∧ Refines mn s'.2 :=
  C35_function_partial t true [loop] (fun b hb => by simp only [List.mem_singleton] at hb; subst hb; exact loop_mono) _ (loop_ok _) k s' h

/-- It runs: with 2 in the counter it returns after two blocks. -/
def start : UMem := fun a => if a = 0 then some 2 else some (UInt8.ofNat a)

example : (CFn.steps [loop] 2 (some 0, start)).any (fun s => s.1.isNone && s.2 2008 == start 1008 && s.2 2007 == start 1007 &&
    s.2 2003 == start 2003) = true := by decide +kernel

/-- The two copies have become one. -/
example : Sample.copiesOf (PJ.coalesce ⟨64, fun _ _ _ => true⟩ {} loop.body) = [⟨some 0, 1, 0, 0, 4⟩] := by decide +kernel

/-- It returns, so the coalesced loop does. -/
example (t : CopyTarget) : ∃ m' mn, (CFn.coalesce t true [loop]).Reach (some 0, start) (none, mn) ∧ Refines mn m' := by
  have h1 : (CFn.steps [loop] 2 (some 0, start)).any (fun s => s.1.isNone) = true := by decide +kernel
  cases h : CFn.steps [loop] 2 (some 0, start) with
  | none => rw [h] at h1; exact Bool.noConfusion h1
  | some s =>
    rw [h] at h1
    obtain ⟨o, m'⟩ := s
    cases o with
    | some b => exact Bool.noConfusion h1
    | none =>
      obtain ⟨⟨mn, hr⟩, h2⟩ := C35_return_partial t true [loop]
        (fun b hb => by simp only [List.mem_singleton] at hb; subst hb; exact loop_mono) start m' (loop_ok _) ⟨2, h⟩
      exact ⟨m', mn, hr, h2 mn hr⟩

end C35

end PJ
