import Verif.Lemmas.Extend
/-!
# C42: extending copies over poison

`_partial`: functions in which the frontiers are what the comment in the source says they are (`Proper`),
in particular functions without joins and loops (`Tree`).  The search does not establish it when there are
joins or loops, and then the pass is wrong (`C42_violated_join`, `C42_violated_loop`); it is also wrong when alias
analysis cannot tell that a copy starts behind the region (`C42_violated_behind`).
-/
namespace PJ
open XProg

theorem copyExtend_block (p : XProg) (A : Analyses) (b : Nat) : (copyExtend p A)[b]? =
    (p[b]?).map fun blk => ⟨blk.insts.mapIdx fun i x => extendInst p A (b, i) x, blk.term⟩ := by
  unfold copyExtend
  rw [List.getElem?_mapIdx]

theorem extended_some {p : XProg} {A : Analyses} {q : Pos} {i : XI} (h : extended p A q i = true) :
    ∃ R ∈ regions p, q ∈ frontier p A R ∧ extendable R i = true := by
  unfold extended at h
  rw [List.any_eq_true] at h
  obtain ⟨R, hR, h⟩ := h
  simp only [Bool.and_eq_true, List.contains_iff_mem] at h
  exact ⟨R, hR, h⟩

/-- The extended function does whatever the function does, in the same steps and by the same way; only bytes
and registers that are undefined in the original may differ. -/
theorem C42_proper_partial (p : XProg) (A : Analyses) (s s' : XSt) (hA : Analysed p A s) (hb : Behind p A)
    (hp : ∀ R ∈ regions p, ∀ q ∈ frontier p A R, ∀ i, p.inst q = some i → extendable R i = true → Proper p A R q)
    (hr : XSt.Ref s' s) (n : Nat) (q : Pos) (t : XSt) (h : p.run n s = some (q, t)) :
    ∃ t', (copyExtend p A).run n s' = some (q, t') ∧ XSt.Ref t' t := by
  induction n generalizing q t with
  | zero =>
    simp only [XProg.run, Option.some.injEq, Prod.mk.injEq] at h
    obtain ⟨rfl, rfl⟩ := h
    exact ⟨s', rfl, hr⟩
  | succ n ih =>
    simp only [XProg.run, Option.bind_eq_some_iff] at h
    obtain ⟨⟨q0, t0⟩, h1, h2⟩ := h
    obtain ⟨t0', h3, h4⟩ := ih q0 t0 h1
    simp only [XProg.run, h3, Option.bind_some]
    simp only [XProg.step] at h2 ⊢
    rw [copyExtend_block]
    cases hblk : p[q0.1]? with
    | none => rw [hblk] at h2; cases h2
    | some blk =>
      rw [hblk] at h2
      simp only [Option.map_some, List.getElem?_mapIdx, List.length_mapIdx] at h2 ⊢
      cases hi : blk.insts[q0.2]? with
      | none =>
        rw [hi] at h2
        simp only [Option.map_none] at h2 ⊢
        split at h2
        · rename_i he
          simp only [Option.map_eq_some_iff, Prod.mk.injEq] at h2
          obtain ⟨u, h5, rfl, rfl⟩ := h2
          rw [if_pos he, next_ref h4 h5]
          exact ⟨t0', rfl, h4⟩
        · cases h2
      | some i =>
        rw [hi] at h2
        simp only [Option.map_eq_some_iff, Prod.mk.injEq, Option.map_some] at h2 ⊢
        obtain ⟨u, h5, rfl, rfl⟩ := h2
        have hinst : p.inst q0 = some i := by simp [XProg.inst, hblk, hi]
        suffices ∃ t', (extendInst p A q0 i).exec t0' = some t' ∧ XSt.Ref t' u by
          obtain ⟨t', h6, h7⟩ := this
          exact ⟨t', ⟨t', h6, rfl, rfl⟩, h7⟩
        unfold extendInst
        split
        · rename_i hx
          obtain ⟨R, hR, hf, he⟩ := extended_some hx
          have hP := proper_poisoned hA hR (hp R hR q0 hf i hinst he) h1
          have hF := frontier_found hR hf
          cases i with
          | poison => simp [extendable] at he
          | other => simp [extendable] at he
          | copy src so root off len bound safe =>
            simp only [extendable, Bool.and_eq_true, beq_iff_eq, decide_eq_true_eq] at he
            obtain ⟨⟨⟨⟨e1, e2⟩, e3⟩, e4⟩, e5⟩ := he
            subst e1
            have e6 : off ≤ R.off + R.len := by
              rcases Nat.lt_or_ge (R.off + R.len) off with h | h
              · have := hb R hR q0 src so off len bound safe hinst h
                rw [hF.mods] at this
                cases this
              · exact h
            have e7 := hA.small.1 R hR
            have e8 : off + bound ≤ R.off + R.len := by
              unfold sub64 add64 at e3
              unfold W64 at *
              omega
            exact extend_ref h4 hP h5 (fun k hk => hA.bound n q0 t0 src so R.root off len bound safe k h1 hinst hk) e2 e8
        · exact exec_ref h4 h5

/-- Without joins and loops the search finds what the comment says, and the pass is right. -/
theorem C42_tree_partial (p : XProg) (A : Analyses) (s s' : XSt) (hA : Analysed p A s) (hb : Behind p A)
    (ht : p.Tree) (hr : XSt.Ref s' s) (n : Nat) (q : Pos) (t : XSt) (h : p.run n s = some (q, t)) :
    ∃ t', (copyExtend p A).run n s' = some (q, t') ∧ XSt.Ref t' t :=
  C42_proper_partial p A s s' hA hb (fun _ hR _ hq _ _ _ => tree_proper hA ht (frontier_found hR hq)) hr n q t h

/-- What a copy is told to copy arrives, whether it was extended or not: after it, the destination in the extended
function holds what the source held before it in the function. -/
theorem C42_copied_partial (p : XProg) (A : Analyses) (s s' : XSt) (hA : Analysed p A s) (hb : Behind p A)
    (ht : p.Tree) (hr : XSt.Ref s' s) (n : Nat) (q : Pos) (t : XSt) (h : p.run n s = some (q, t))
    {src so root off : Nat} {len : XLen} {bound : Nat} {safe : Bool}
    (hi : p.inst q = some (.copy src so root off len bound safe)) {a d k : Nat}
    (ha : t.regs src = some a) (hd : t.regs root = some d) (hk : len.eval t = some k) :
    ∃ t', (copyExtend p A).run (n + 1) s' = some ((q.1, q.2 + 1), t') ∧
      ∀ j < k, ∀ v, t.mem (a + so + j) = some v → t'.mem (d + off + j) = some v := by
  have h1 : p.run (n + 1) s = some ((q.1, q.2 + 1), { t with mem := uCopy t.mem (a + so) (d + off) k }) := by
    simp only [XProg.inst, Option.bind_eq_some_iff] at hi
    obtain ⟨blk, hb1, hb2⟩ := hi
    simp [XProg.run, h, XProg.step, hb1, hb2, XI.exec, ha, hd, hk]
  obtain ⟨t', h2, h3⟩ := C42_tree_partial p A s s' hA hb ht hr (n + 1) _ _ h1
  refine ⟨t', h2, fun j hj v hv => ?_⟩
  have h4 : uCopy t.mem (a + so) (d + off) k (d + off + j) = some v := by
    unfold uCopy
    rw [if_pos (by omega), show a + so + (d + off + j - (d + off)) = a + so + j by omega, hv]
  rcases h3.2 (d + off + j) with h5 | h5
  · simp only at h5
    rw [h4] at h5
    cases h5
  · simp only at h5
    rw [h5, h4]

/-- In any function, what the search finds may store to the region, comes after the poison on all ways from the
entry, and on one way (but not on all) there is nothing in between. -/
theorem C42_frontier (p : XProg) (A : Analyses) (s : XSt) (hA : Analysed p A s) (R : Region) (hR : R ∈ regions p)
    (q : Pos) (h : q ∈ frontier p A R) : A.mods q R = true ∧ p.Dominates R.at_ q ∧
      ∃ l, p.IsPath (R.at_.1, R.at_.2 + 1) l q ∧ ∀ x ∈ l, p.Quiet A R x := by
  have hF := frontier_found hR h
  exact ⟨hF.mods, found_dom hA hF, hF.path⟩

/-! ## Examples and violations -/

namespace C42

/-- Stores a byte at a constant offset from a root. -/
def store (root off : Nat) (v : UInt8) : XOther where
  dst := none
  eff s := (s.regs root).map fun a => { s with mem := fun x => if x = a + off then some v else s.mem x }
  frame s t r h _ := by
    simp only [Option.map_eq_some_iff] at h
    obtain ⟨a, _, rfl⟩ := h
    rfl
  mono s s' t hr h := by
    simp only [Option.map_eq_some_iff] at h
    obtain ⟨a, ha, rfl⟩ := h
    refine ⟨{ s' with mem := fun x => if x = a + off then some v else s'.mem x }, by rw [hr.reg ha]; rfl, hr.1,
      fun x => ?_⟩
    simp only
    split
    · exact .inr rfl
    · exact hr.2 x

/-- Destination at 100, source at 200, 2 bytes to copy; bytes are 9 at first. -/
def s : XSt :=
  { regs := fun r => [some 100, some 200, some 2, some 1][r]?.join, mem := fun _ => some 9 }

theorem run_reg {p : XProg} {r : Nat} {s : XSt} (hd : ∀ q i, p.inst q = some i → i.dst ≠ some r) :
    ∀ {n : Nat} {q : Pos} {t : XSt}, p.run n s = some (q, t) → t.regs r = s.regs r
  | 0, q, t, h => by
    simp only [XProg.run, Option.some.injEq, Prod.mk.injEq] at h
    rw [h.2]
  | n + 1, q, t, h => by
    simp only [XProg.run, Option.bind_eq_some_iff] at h
    obtain ⟨⟨q0, t0⟩, h1, h2⟩ := h
    have ih := run_reg hd h1
    rcases (step_inst h2).2 with ⟨_, rfl⟩ | ⟨i, hi, he⟩
    · exact ih
    · rw [exec_regs he (hd q0 i hi), ih]

theorem run_at {p : XProg} {n : Nat} {s : XSt} {q : Pos} {a : Nat} {v : Option UInt8}
    (h : (p.run n s).map (fun c => (c.1, c.2.mem a)) = some (q, v)) : ∃ t, p.run n s = some (q, t) ∧ t.mem a = v := by
  simp only [Option.map_eq_some_iff, Prod.mk.injEq] at h
  obtain ⟨⟨q', t⟩, h1, rfl, h2⟩ := h
  exact ⟨t, h1, h2⟩

/-- A vector of up to 8 bytes: `memset(d, undef, 8); memcpy(d, src, len)`. -/
def good : XProg := [⟨[.poison 0 0 8, .copy 1 0 0 0 (.reg 2) 8 true], .ret⟩]

/-- `memset(d, undef, 8); if (c) d[4] = 7; memcpy(d, src, len)`. -/
def join : XProg :=
  [⟨[.poison 0 0 8], .br 3 1 2⟩, ⟨[.other (store 0 4 7)], .jump 2⟩,
   ⟨[.copy 1 0 0 0 (.reg 2) 8 true], .ret⟩]

/-- `memset(d, undef, 8); for (;;) { memcpy(d, src, len); d[4] = 7; }`. -/
def loop : XProg :=
  [⟨[.poison 0 0 8], .jump 1⟩, ⟨[.copy 1 0 0 0 (.reg 2) 8 true, .other (store 0 4 7)], .jump 1⟩]

/-- `memset(d, undef, 4); d[20] = 7; memcpy(d + 16, src, len)`. -/
def behind : XProg :=
  [⟨[.poison 0 0 4, .other (store 0 20 7), .copy 1 0 0 16 (.reg 2) 8 true], .ret⟩]

/-- Everything may store to the region; the first block dominates the others. -/
def A : Analyses where
  mods _ _ := true
  dom q b := q == (0, 1) && b != 0

/-- The second instruction does not store to the region. -/
def A2 : Analyses where
  mods q _ := q != (0, 1)
  dom _ _ := false

theorem inst_mem {p : XProg} {q : Pos} {i : XI} (h : p.inst q = some i) : ∃ blk ∈ p, i ∈ blk.insts := by
  simp only [XProg.inst, Option.bind_eq_some_iff] at h
  obtain ⟨blk, h1, h2⟩ := h
  exact ⟨blk, List.mem_of_getElem? h1, List.mem_of_getElem? h2⟩

theorem dom_first {p : XProg} {blk : XBlock} (h0 : p[0]? = some blk) (hl : 0 < blk.insts.length) {b : Nat} (hb : b ≠ 0) :
    p.Dominates (0, 1) (b, 0) := by
  intro l h
  cases l with
  | nil => simp only [IsPath, Prod.mk.injEq] at h; exact absurd h.1.symm hb
  | cons x l =>
    obtain ⟨rfl, y, ⟨blk', h1, h2⟩, h3⟩ := h
    simp only [h0, Option.some.injEq] at h1
    subst h1
    have hy : y = (0, 1) := by
      rcases h2 with ⟨_, h2⟩ | ⟨h2, _⟩
      · exact h2
      · simp only at h2; omega
    subst hy
    cases l with
    | nil => simp only [IsPath, Prod.mk.injEq] at h3; omega
    | cons z l => rw [h3.1]; simp

/-- What the examples have in common. -/
theorem analysed {p : XProg} {A : Analyses} (h0 : ∀ blk ∈ p, ∀ i ∈ blk.insts, i.dst = none)
    (hc : ∀ blk ∈ p, ∀ src so root off len bound safe, XI.copy src so root off len bound safe ∈ blk.insts →
      len = .reg 2 ∧ bound = 8 ∧ off < 64)
    (hR : ∀ R ∈ regions p, R.root = 0 ∧ R.off + R.len < 64)
    (hd : ∀ q b, A.dom q b = true → p.Dominates q (b, 0))
    (ha : ∀ R ∈ regions p, ∀ q i t u, p.inst q = some i → A.mods q R = false → i.exec t = some u →
      t.regs 0 = some 100 → ∀ y, 100 + R.off ≤ y → y < 100 + R.off + R.len → u.mem y = t.mem y) :
    Analysed p A s := by
  have hn : ∀ r q i, p.inst q = some i → i.dst ≠ some r := by
    intro r q i h
    obtain ⟨blk, h1, h2⟩ := inst_mem h
    rw [h0 blk h1 i h2]
    simp
  constructor
  · intro R hR' n q i t u a h1 h2 h3 h4 h5 y h6 h7
    have h8 := run_reg (hn 0) h1
    rw [(hR R hR').1] at h5
    have h9 : t.regs 0 = some 100 := h8
    rw [h9] at h5
    cases h5
    exact ha R hR' q i t u h2 h3 h4 h9 y h6 h7
  · intro n q t src so root off len bound safe k h1 h2 h3
    obtain ⟨blk, h4, h5⟩ := inst_mem h2
    obtain ⟨rfl, rfl, _⟩ := hc blk h4 _ _ _ _ _ _ _ h5
    have h6 := run_reg (hn 2) h1
    simp only [XLen.eval, h6] at h3
    have h7 : some 2 = some k := h3
    cases h7
    omega
  · exact hd
  · intro R _ q i h1 h2
    exact absurd h2 (hn R.root q i h1)
  · refine ⟨fun R h => ?_, fun q src so root off len bound safe h => ?_⟩
    · have := (hR R h).2; unfold W64; omega
    · obtain ⟨blk, h4, h5⟩ := inst_mem h
      have := (hc blk h4 _ _ _ _ _ _ _ h5).2.2
      unfold W64; omega

theorem A_dom {p : XProg} {blk : XBlock} (h0 : p[0]? = some blk) (hl : 0 < blk.insts.length) (q : Pos) (b : Nat)
    (h : A.dom q b = true) : p.Dominates q (b, 0) := by
  simp only [A, Bool.and_eq_true, beq_iff_eq, bne_iff_ne] at h
  rw [h.1]
  exact dom_first h0 hl h.2

theorem good_ok : Analysed good A s := by
  refine analysed ?_ ?_ ?_ (A_dom rfl (by simp)) ?_
  · simp [good, XI.dst]
  · simp [good]
    intros; subst_vars; simp
  · simp [good, regions]
  · intro R _ q i t u _ h; cases h

theorem join_ok : Analysed join A s := by
  refine analysed ?_ ?_ ?_ (A_dom rfl (by simp)) ?_
  · simp [join, XI.dst, store]
  · simp [join]
    intros; subst_vars; simp
  · simp [join, regions]
  · intro R _ q i t u _ h; cases h

theorem loop_ok : Analysed loop A s := by
  refine analysed ?_ ?_ ?_ (A_dom rfl (by simp)) ?_
  · simp [loop, XI.dst, store]
  · simp [loop]
    intros; subst_vars; simp
  · simp [loop, regions]
  · intro R _ q i t u _ h; cases h

theorem behind_ok : Analysed behind A2 s := by
  refine analysed ?_ ?_ ?_ (fun q b h => by cases h) ?_
  · simp [behind, XI.dst, store]
  · simp [behind]
    intros; subst_vars; simp
  · simp [behind, regions]
  · intro R hR q i t u h1 h2 h3 h4 y h5 h6
    simp only [A2, bne_eq_false_iff_eq] at h2
    subst h2
    cases h1
    simp only [XI.exec, store, h4, Option.map_some, Option.some.injEq] at h3
    subst h3
    have : R.off = 0 ∧ R.len = 4 := by
      simp [behind, regions] at hR
      simp [hR]
    simp only
    rw [if_neg (by omega)]

theorem single_tree {blk : XBlock} (h : blk.term = .ret) : XProg.Tree [blk] := by
  intro x y r hx hy
  obtain ⟨b, hb, ⟨h1, rfl⟩ | ⟨h1, h2, h3⟩⟩ := hx
  · exact (edge_succ hy).symm
  · cases hx : x.1 with
    | zero =>
      rw [hx] at hb
      cases hb
      rw [h] at h3
      cases h3
    | succ k => rw [hx] at hb; simp at hb

end C42

theorem C42.good_behind : Behind C42.good C42.A := by
  intro R hR q src so off len bound safe h1 h2
  have hR' : R.off = 0 ∧ R.len = 8 := by
    simp [C42.good, regions] at hR
    simp [hR]
  obtain ⟨blk, h3, h4⟩ := C42.inst_mem h1
  simp [C42.good] at h3
  subst h3
  simp at h4
  omega

/-- The pass does something: the copy becomes one of 8 bytes, and the two bytes arrive. -/
example : extended C42.good C42.A (0, 1) (.copy 1 0 0 0 (.reg 2) 8 true) = true ∧
    ∃ t t', C42.good.run 2 C42.s = some ((0, 2), t) ∧ (copyExtend C42.good C42.A).run 2 C42.s = some ((0, 2), t') ∧
      XSt.Ref t' t := by
  refine ⟨rfl, ?_⟩
  obtain ⟨t, h, _⟩ := C42.run_at (p := C42.good) (n := 2) (s := C42.s) (q := (0, 2)) (a := 100) (v := some 9) rfl
  obtain ⟨t', h1, h2⟩ := C42_tree_partial C42.good C42.A C42.s C42.s C42.good_ok C42.good_behind
    (C42.single_tree rfl) ⟨fun _ => .inr rfl, fun _ => .inr rfl⟩ 2 _ t h
  exact ⟨t, t', h, h1, h2⟩

/-- The second byte of the source is the second byte of the destination after the extended copy. -/
example : ∃ t', (copyExtend C42.good C42.A).run 2 C42.s = some ((0, 2), t') ∧ t'.mem 101 = some 9 := by
  obtain ⟨t, h, _⟩ := C42.run_at (p := C42.good) (n := 1) (s := C42.s) (q := (0, 1)) (a := 200) (v := some 9) rfl
  have ht : t = { C42.s with mem := uPoison C42.s.mem 100 8 } := by
    have : C42.good.run 1 C42.s = some ((0, 1), { C42.s with mem := uPoison C42.s.mem 100 8 }) := rfl
    rw [this] at h
    cases h
    rfl
  subst ht
  obtain ⟨t', h1, h2⟩ := C42_copied_partial C42.good C42.A C42.s C42.s C42.good_ok C42.good_behind
    (C42.single_tree rfl) ⟨fun _ => .inr rfl, fun _ => .inr rfl⟩ 1 _ _ h (src := 1) (so := 0) (root := 0) (off := 0)
    (len := .reg 2) (bound := 8) (safe := true) rfl (a := 200) (d := 100) (k := 2) rfl rfl rfl
  exact ⟨t', h1, h2 1 (by omega) 9 rfl⟩

/-- Violation: the copy is in the frontier because of the way around the store, but the store may have been
executed; the extended copy destroys its byte. -/
theorem C42_violated_join : Analysed C42.join C42.A C42.s ∧ Behind C42.join C42.A ∧
    ∃ t t', C42.join.run 5 C42.s = some ((2, 1), t) ∧ t.mem 104 = some 7 ∧
      (copyExtend C42.join C42.A).run 5 C42.s = some ((2, 1), t') ∧ t'.mem 104 = some 9 := by
  refine ⟨C42.join_ok, ?_, ?_⟩
  · intro R hR q src so off len bound safe h1 h2
    have hR' : R.off = 0 ∧ R.len = 8 := by
      simp [C42.join, regions] at hR
      simp [hR]
    obtain ⟨blk, h3, h4⟩ := C42.inst_mem h1
    simp [C42.join] at h3
    rcases h3 with rfl | rfl | rfl <;> simp at h4
    omega
  · obtain ⟨t, h1, h2⟩ := C42.run_at (p := C42.join) (n := 5) (s := C42.s) (q := (2, 1)) (a := 104) (v := some 7) rfl
    obtain ⟨t', h3, h4⟩ := C42.run_at (p := copyExtend C42.join C42.A) (n := 5) (s := C42.s) (q := (2, 1)) (a := 104)
      (v := some 9) rfl
    exact ⟨t, t', h1, h2, h3, h4⟩

/-- Violation: in the second iteration the bytes behind the copy are not poison any more. -/
theorem C42_violated_loop : Analysed C42.loop C42.A C42.s ∧ Behind C42.loop C42.A ∧
    ∃ t t', C42.loop.run 6 C42.s = some ((1, 1), t) ∧ t.mem 104 = some 7 ∧
      (copyExtend C42.loop C42.A).run 6 C42.s = some ((1, 1), t') ∧ t'.mem 104 = some 9 := by
  refine ⟨C42.loop_ok, ?_, ?_⟩
  · intro R hR q src so off len bound safe h1 h2
    have hR' : R.off = 0 ∧ R.len = 8 := by
      simp [C42.loop, regions] at hR
      simp [hR]
    obtain ⟨blk, h3, h4⟩ := C42.inst_mem h1
    simp [C42.loop] at h3
    rcases h3 with rfl | rfl <;> simp at h4
    omega
  · obtain ⟨t, h1, h2⟩ := C42.run_at (p := C42.loop) (n := 6) (s := C42.s) (q := (1, 1)) (a := 104) (v := some 7) rfl
    obtain ⟨t', h3, h4⟩ := C42.run_at (p := copyExtend C42.loop C42.A) (n := 6) (s := C42.s) (q := (1, 1)) (a := 104)
      (v := some 9) rfl
    exact ⟨t, t', h1, h2, h3, h4⟩

/-- Violation: the room left in the region is computed with unsigned numbers, so a copy that starts behind the region
has plenty.  (The frontier is what it should be, but alias analysis was not able to tell the two apart.) -/
theorem C42_violated_behind : Analysed C42.behind C42.A2 C42.s ∧ C42.behind.Tree ∧
    ∃ t t', C42.behind.run 3 C42.s = some ((0, 3), t) ∧ t.mem 120 = some 7 ∧
      (copyExtend C42.behind C42.A2).run 3 C42.s = some ((0, 3), t') ∧ t'.mem 120 = some 9 := by
  refine ⟨C42.behind_ok, C42.single_tree rfl, ?_⟩
  obtain ⟨t, h1, h2⟩ := C42.run_at (p := C42.behind) (n := 3) (s := C42.s) (q := (0, 3)) (a := 120) (v := some 7) rfl
  obtain ⟨t', h3, h4⟩ := C42.run_at (p := copyExtend C42.behind C42.A2) (n := 3) (s := C42.s) (q := (0, 3)) (a := 120)
    (v := some 9) (by decide +kernel)
  exact ⟨t, t', h1, h2, h3, h4⟩

end PJ
