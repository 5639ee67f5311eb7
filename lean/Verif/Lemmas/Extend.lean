import Verif.Spec.Extend
/-!
# Lemmas on copy extending
-/
namespace PJ
open XProg

/-! ## Paths -/

theorem path_append {p : XProg} : ∀ {l l' : List Pos} {q r : Pos},
    p.IsPath q (l ++ l') r ↔ ∃ x, p.IsPath q l x ∧ p.IsPath x l' r
  | [], l', q, r => by simp [IsPath]
  | y :: l, l', q, r => by
    simp only [List.cons_append, IsPath]
    constructor
    · rintro ⟨rfl, z, h1, h2⟩
      obtain ⟨x, h3, h4⟩ := path_append.1 h2
      exact ⟨x, ⟨rfl, z, h1, h3⟩, h4⟩
    · rintro ⟨x, ⟨rfl, z, h1, h3⟩, h4⟩
      exact ⟨rfl, z, h1, path_append.2 ⟨x, h3, h4⟩⟩

theorem path_one {p : XProg} {q r x : Pos} : p.IsPath q [x] r ↔ x = q ∧ p.Edge q r := by
  simp only [IsPath]
  constructor
  · rintro ⟨rfl, y, h1, rfl⟩; exact ⟨rfl, h1⟩
  · rintro ⟨rfl, h⟩; exact ⟨rfl, _, h, rfl⟩

theorem path_snoc {p : XProg} {l : List Pos} {q r x : Pos} :
    p.IsPath q (l ++ [x]) r ↔ p.IsPath q l x ∧ p.Edge x r := by
  rw [path_append]
  constructor
  · rintro ⟨y, h1, h2⟩
    obtain ⟨rfl, h⟩ := path_one.1 h2
    exact ⟨h1, h⟩
  · rintro ⟨h1, h2⟩
    exact ⟨x, h1, path_one.2 ⟨rfl, h2⟩⟩

theorem path_mid {p : XProg} {l l' : List Pos} {q r x : Pos} (h : p.IsPath q (l ++ x :: l') r) :
    p.IsPath q l x ∧ p.IsPath x (x :: l') r := by
  obtain ⟨y, h1, h2⟩ := path_append.1 h
  have : x = y := h2.1
  subst this
  exact ⟨h1, h2⟩

theorem edge_succ {p : XProg} {x : Pos} {b i : Nat} (h : p.Edge x (b, i + 1)) : x = (b, i) := by
  obtain ⟨_, _, ⟨_, h⟩ | ⟨_, h, _⟩⟩ := h
  · simp only [Prod.mk.injEq, Nat.add_right_cancel_iff] at h
    exact Prod.ext h.1.symm h.2.symm
  · cases h

/-- The way to a position in a block goes through all positions before it. -/
theorem path_block {p : XProg} {b : Nat} : ∀ {j : Nat} {l : List Pos}, p.IsPath (0, 0) l (b, j) →
    (∃ l0, p.IsPath (0, 0) l0 (b, 0) ∧ ∀ x ∈ l0, x ∈ l) ∧ ∀ i, i < j → (b, i) ∈ l
  | 0, l, h => ⟨⟨l, h, fun _ h => h⟩, fun i hi => absurd hi (Nat.not_lt_zero i)⟩
  | j + 1, l, h => by
    rcases List.eq_nil_or_concat l with rfl | ⟨l', x, rfl⟩
    · simp [IsPath] at h
    · rw [List.concat_eq_append] at h ⊢
      obtain ⟨h1, h2⟩ := path_snoc.1 h
      have := edge_succ h2
      subst this
      obtain ⟨⟨l0, h3, h4⟩, h5⟩ := path_block h1
      refine ⟨⟨l0, h3, fun x hx => List.mem_append_left _ (h4 x hx)⟩, fun i hi => ?_⟩
      by_cases hij : i = j
      · subst hij; simp
      · exact List.mem_append_left _ (h5 i (by omega))

theorem first_mem {α : Type} [DecidableEq α] {d : α} : ∀ {l : List α}, d ∈ l → ∃ u v, l = u ++ d :: v ∧ d ∉ u
  | [], h => by cases h
  | z :: l, h => by
    by_cases hz : z = d
    · exact ⟨[], l, by rw [hz]; rfl, by simp⟩
    · have : d ∈ l := by
        rcases List.mem_cons.1 h with h | h
        · exact absurd h.symm hz
        · exact h
      obtain ⟨u, v, rfl, hu⟩ := first_mem this
      exact ⟨z :: u, v, rfl, by simp [hu, Ne.symm hz]⟩

/-- Between the poison and a dominated position, the root keeps its value. -/
theorem no_def {p : XProg} {a d q : Pos} (hd : p.Dominates d a) (ha : p.Dominates a q) {l1 l2 : List Pos}
    (h : p.IsPath (0, 0) (l1 ++ a :: l2) q) (hn : a ∉ l2) : d ∉ l2 := by
  intro hm
  obtain ⟨x, y, rfl⟩ := List.append_of_mem hm
  have h1 := (path_mid h).1
  have h2 : p.IsPath d (d :: y) q := by
    rw [← List.cons_append, ← List.append_assoc] at h
    exact (path_mid h).2
  obtain ⟨u, v, rfl, hu⟩ : ∃ u v, l1 = u ++ d :: v ∧ d ∉ u := by
    exact first_mem (hd l1 h1)
  have h3 : p.IsPath (0, 0) u d := (path_mid h1).1
  have h4 : p.IsPath (0, 0) (u ++ d :: y) q := path_append.2 ⟨d, h3, h2⟩
  have h5 := ha _ h4
  simp only [List.mem_append, List.mem_cons, not_or] at h5 hn
  rcases h5 with h5 | h5 | h5
  · obtain ⟨u1, u2, rfl⟩ := List.append_of_mem h5
    have := hd u1 (path_mid h3).1
    exact hu (List.mem_append_left _ this)
  · exact hn.2.1 h5
  · exact hn.2.2 h5

/-! ## Execution -/

theorem mem_regions {p : XProg} {R : Region} (h : R ∈ regions p) :
    p.inst R.at_ = some (.poison R.root R.off R.len) := by
  unfold regions at h
  obtain ⟨x, hx, h⟩ := List.mem_flatMap.1 h
  obtain ⟨y, hy, h⟩ := List.mem_filterMap.1 h
  have hx' := List.mem_zipIdx_iff_getElem?.1 hx
  have hy' := List.mem_zipIdx_iff_getElem?.1 hy
  split at h
  · rename_i root off len he
    cases h
    simp only [XProg.inst, hx', Option.bind_some, hy', he]
  · cases h

theorem step_inst {p : XProg} {q r : Pos} {s t : XSt} (h : p.step q s = some (r, t)) :
    p.Edge q r ∧ ((p.inst q = none ∧ t = s) ∨ ∃ i, p.inst q = some i ∧ i.exec s = some t) := by
  unfold XProg.step at h
  cases hb : p[q.1]? with
  | none => rw [hb] at h; cases h
  | some b =>
    rw [hb] at h
    simp only at h
    cases hi : b.insts[q.2]? with
    | some i =>
      rw [hi] at h
      simp only [Option.map_eq_some_iff, Prod.mk.injEq] at h
      obtain ⟨u, h1, rfl, rfl⟩ := h
      have hlt : q.2 < b.insts.length := by
        rw [List.getElem?_eq_some_iff] at hi
        exact hi.1
      refine ⟨⟨b, hb, .inl ⟨hlt, rfl⟩⟩, .inr ⟨i, ?_, h1⟩⟩
      simp [XProg.inst, hb, hi]
    | none =>
      rw [hi] at h
      simp only at h
      split at h
      · rename_i he
        simp only [Option.map_eq_some_iff, Prod.mk.injEq] at h
        obtain ⟨u, h1, rfl, rfl⟩ := h
        refine ⟨⟨b, hb, .inr ⟨he, rfl, ?_⟩⟩, .inl ⟨by simp [XProg.inst, hb, hi], rfl⟩⟩
        cases hterm : b.term <;> rw [hterm] at h1 <;> simp only [XTerm.next] at h1
        · cases h1; simp [XTerm.succs]
        · simp only [Option.map_eq_some_iff] at h1
          obtain ⟨v, _, h1⟩ := h1
          simp only [XTerm.succs]
          split at h1 <;> simp [h1]
        · simp only [Option.bind_eq_some_iff] at h1
          obtain ⟨v, _, h1⟩ := h1
          exact List.mem_of_getElem? h1
        · cases h1
      · cases h

/-- The region is poisoned. -/
def Poisoned (R : Region) (s : XSt) : Prop :=
  ∃ a, s.regs R.root = some a ∧ ∀ y, a + R.off ≤ y → y < a + R.off + R.len → s.mem y = none

theorem exec_regs {i : XI} {s t : XSt} {r : Nat} (h : i.exec s = some t) (hd : i.dst ≠ some r) :
    t.regs r = s.regs r := by
  cases i with
  | poison =>
    simp only [XI.exec, Option.map_eq_some_iff] at h
    obtain ⟨a, _, rfl⟩ := h
    rfl
  | copy =>
    simp only [XI.exec] at h
    split at h
    · cases h; rfl
    · cases h
  | other o => exact o.frame s t r h hd

theorem run_path {p : XProg} {A : Analyses} {s : XSt} (hA : Analysed p A s) : ∀ {n : Nat} {q : Pos} {t : XSt},
    p.run n s = some (q, t) → ∃ l, p.IsPath (0, 0) l q ∧ ∀ R ∈ regions p, ∀ l1 l2, l = l1 ++ R.at_ :: l2 →
      (∀ x ∈ l2, p.Quiet A R x) → (∀ x ∈ l2, ∀ i, p.inst x = some i → i.dst ≠ some R.root) → Poisoned R t
  | 0, q, t, h => by
    simp only [XProg.run, Option.some.injEq, Prod.mk.injEq] at h
    exact ⟨[], h.1, fun R _ l1 l2 h => by simp at h⟩
  | n + 1, q, t, h => by
    simp only [XProg.run, Option.bind_eq_some_iff] at h
    obtain ⟨⟨q0, t0⟩, h1, h2⟩ := h
    obtain ⟨l, hl, ih⟩ := run_path hA h1
    obtain ⟨he, hs⟩ := step_inst h2
    refine ⟨l ++ [q0], path_snoc.2 ⟨hl, he⟩, fun R hR l1 l2 heq hm hd => ?_⟩
    rcases List.eq_nil_or_concat l2 with rfl | ⟨l3, x, rfl⟩
    · obtain ⟨rfl, h3⟩ := List.append_inj' heq rfl
      simp only [List.cons.injEq, and_true] at h3
      subst h3
      have hi := mem_regions hR
      rw [hi] at hs
      rcases hs with ⟨hs, _⟩ | ⟨i, hs, hx⟩
      · cases hs
      · cases hs
        simp only [XI.exec, Option.map_eq_some_iff] at hx
        obtain ⟨a, ha, rfl⟩ := hx
        exact ⟨a, ha, fun y h1 h2 => by simp [uPoison, h1, h2]⟩
    · rw [List.concat_eq_append, ← List.cons_append, ← List.append_assoc] at heq
      obtain ⟨rfl, h3⟩ := List.append_inj' heq rfl
      simp only [List.cons.injEq, and_true] at h3
      subst h3
      obtain ⟨a, ha, hp⟩ := ih R hR l1 l3 rfl (fun x hx => hm x (by simp [hx])) (fun x hx => hd x (by simp [hx]))
      rcases hs with ⟨_, rfl⟩ | ⟨i, hs, hx⟩
      · exact ⟨a, ha, hp⟩
      · refine ⟨a, ?_, fun y h1' h2' => ?_⟩
        · rw [exec_regs hx (hd q0 (by simp) i hs)]
          exact ha
        · rw [hA.alias_ R hR n q0 i t0 t a h1 hs ((hm q0 (by simp)).resolve_left (by rw [hs]; simp)) hx ha y h1' h2']
          exact hp y h1' h2'

theorem last_mem {α : Type} {a : α} : ∀ {l : List α}, a ∈ l → ∃ l1 l2, l = l1 ++ a :: l2 ∧ a ∉ l2
  | [], h => by cases h
  | x :: l, h => by
    by_cases hl : a ∈ l
    · obtain ⟨l1, l2, rfl, h2⟩ := last_mem hl
      exact ⟨x :: l1, l2, rfl, h2⟩
    · rcases List.mem_cons.1 h with rfl | h
      · exact ⟨[], l, rfl, hl⟩
      · exact absurd h hl

/-- When execution comes to a proper member of the frontier, the region is still poisoned. -/
theorem proper_poisoned {p : XProg} {A : Analyses} {s t : XSt} {R : Region} {q : Pos} {n : Nat}
    (hA : Analysed p A s) (hR : R ∈ regions p) (hq : Proper p A R q) (h : p.run n s = some (q, t)) :
    Poisoned R t := by
  obtain ⟨l, hl, hp⟩ := run_path hA h
  obtain ⟨l1, l2, rfl, hn⟩ := last_mem (hq.dom l hl)
  have h2 := (path_mid hl).2
  obtain ⟨_, y, he, h3⟩ := h2
  have hi := mem_regions hR
  have hy : y = (R.at_.1, R.at_.2 + 1) := by
    obtain ⟨b, hb, ⟨_, h⟩ | ⟨h, _, _⟩⟩ := he
    · exact h
    · simp only [XProg.inst, hb, Option.bind_some] at hi
      rw [h] at hi
      simp at hi
  subst hy
  refine hp R hR l1 l2 rfl (hq.clean l2 h3 hn) fun x hx i hxi hdst => ?_
  exact no_def (hA.ssa R hR x i hxi hdst) hq.dom hl hn hx

/-! ## Refinement -/

theorem XSt.Ref.reg {s s' : XSt} {r v : Nat} (h : XSt.Ref s' s) (hv : s.regs r = some v) : s'.regs r = some v := by
  rcases h.1 r with h | h
  · rw [h] at hv; cases hv
  · rw [h, hv]

theorem exec_ref {i : XI} {s s' t : XSt} (h : XSt.Ref s' s) (he : i.exec s = some t) :
    ∃ t', i.exec s' = some t' ∧ XSt.Ref t' t := by
  cases i with
  | poison root off len =>
    simp only [XI.exec, Option.map_eq_some_iff] at he
    obtain ⟨a, ha, rfl⟩ := he
    refine ⟨{ s' with mem := uPoison s'.mem (a + off) len }, by simp [XI.exec, h.reg ha], h.1, fun x => ?_⟩
    simp only [uPoison]
    split
    · exact .inl rfl
    · exact h.2 x
  | copy src so root off len bound safe =>
    simp only [XI.exec] at he
    split at he
    · rename_i a d n ha hd hn
      cases he
      have hn' : len.eval s' = some n := by
        cases len with
        | const k => exact hn
        | reg r => exact h.reg hn
      refine ⟨{ s' with mem := uCopy s'.mem (a + so) (d + off) n }, by simp [XI.exec, h.reg ha, h.reg hd, hn'], h.1,
        fun x => ?_⟩
      simp only [uCopy]
      split
      · exact h.2 _
      · exact h.2 x
    · cases he
  | other o => exact o.mono s s' t h he

theorem next_ref {tm : XTerm} {s s' : XSt} {b : Nat} (h : XSt.Ref s' s) (hb : tm.next s = some b) :
    tm.next s' = some b := by
  cases tm with
  | jump => exact hb
  | br c b1 b2 =>
    simp only [XTerm.next, Option.map_eq_some_iff] at hb
    obtain ⟨v, hv, rfl⟩ := hb
    simp [XTerm.next, h.reg hv]
  | switch c bs =>
    simp only [XTerm.next, Option.bind_eq_some_iff] at hb
    obtain ⟨v, hv, hb⟩ := hb
    simp [XTerm.next, h.reg hv, hb]
  | ret => cases hb

/-- An extended copy into a poisoned region refines the copy. -/
theorem extend_ref {R : Region} {src so off k bound : Nat} {len : XLen} {safe : Bool} {s s' t : XSt}
    (h : XSt.Ref s' s) (hp : Poisoned R s)
    (he : (XI.copy src so R.root off len bound safe).exec s = some t) (hk : ∀ k, len.eval s = some k → k ≤ bound)
    (ho : R.off ≤ off) (hb : off + bound ≤ R.off + R.len) :
    ∃ t', (XI.copy src so R.root off (.const bound) k safe).exec s' = some t' ∧ XSt.Ref t' t := by
  obtain ⟨d, hd, hp⟩ := hp
  simp only [XI.exec] at he
  split at he
  · rename_i a d' n ha hd' hn
    cases he
    rw [hd] at hd'
    cases hd'
    have hn := hk n hn
    refine ⟨{ s' with mem := uCopy s'.mem (a + so) (d + off) bound }, by simp [XI.exec, h.reg ha, h.reg hd, XLen.eval],
      h.1, fun x => ?_⟩
    simp only [uCopy]
    by_cases h1 : d + off ≤ x ∧ x < d + off + n
    · rw [if_pos h1, if_pos (by omega)]
      exact h.2 _
    · rw [if_neg h1]
      by_cases h2 : d + off ≤ x ∧ x < d + off + bound
      · exact .inl (hp x (by omega) (by omega))
      · rw [if_neg h2]
        exact h.2 x
  · cases he

/-! ## The frontier -/

/-- What the search guarantees about what it finds from a position. -/
structure Found (p : XProg) (A : Analyses) (R : Region) (cur q : Pos) : Prop where
  mods : A.mods q R = true
  place : (q.1 = R.at_.1 ∧ R.at_.2 < q.2) ∨ (q.1 ≠ R.at_.1 ∧ A.dom (R.at_.1, R.at_.2 + 1) q.1 = true)
  path : ∃ l, p.IsPath cur l q ∧ ∀ x ∈ l, p.Quiet A R x

theorem firstMod_spec {p : XProg} {A : Analyses} {R : Region} {b : Nat} {blk : XBlock} (hb : p[b]? = some blk) :
    ∀ {n i : Nat}, i + n ≤ blk.insts.length →
    (∀ q, firstMod A R b n i = some q → A.mods q R = true ∧ q.1 = b ∧ i ≤ q.2 ∧
      ∃ l, p.IsPath (b, i) l q ∧ ∀ x ∈ l, p.Quiet A R x) ∧
    (firstMod A R b n i = none → ∃ l, p.IsPath (b, i) l (b, i + n) ∧ ∀ x ∈ l, p.Quiet A R x)
  | 0, i, _ => ⟨fun q h => by simp [firstMod] at h, fun _ => ⟨[], rfl, by simp⟩⟩
  | n + 1, i, hle => by
    have ih := firstMod_spec (A := A) (R := R) hb (n := n) (i := i + 1) (by omega)
    simp only [firstMod]
    have he : p.Edge (b, i) (b, i + 1) := ⟨blk, hb, .inl ⟨by simp only; omega, rfl⟩⟩
    by_cases hm : A.mods (b, i) R = true
    · rw [if_pos hm]
      refine ⟨fun q h => ?_, fun h => by cases h⟩
      cases h
      exact ⟨hm, rfl, Nat.le_refl i, [], rfl, by simp⟩
    · rw [if_neg hm]
      refine ⟨fun q h => ?_, fun h => ?_⟩
      · obtain ⟨h1, h2, h3, l, h4, h5⟩ := ih.1 q h
        refine ⟨h1, h2, by omega, (b, i) :: l, ⟨rfl, _, he, h4⟩, fun x hx => ?_⟩
        rcases List.mem_cons.1 hx with rfl | hx
        · exact .inr (by simpa using hm)
        · exact h5 x hx
      · obtain ⟨l, h4, h5⟩ := ih.2 h
        refine ⟨(b, i) :: l, ⟨rfl, _, he, by rw [show i + (n + 1) = i + 1 + n by omega]; exact h4⟩, fun x hx => ?_⟩
        rcases List.mem_cons.1 hx with rfl | hx
        · exact .inr (by simpa using hm)
        · exact h5 x hx

/-- The table during the search below the poison's block. -/
structure MemoOK (p : XProg) (A : Analyses) (R : Region) (m : Memo) : Prop where
  own : m.lookup R.at_.1 = some []
  ok : ∀ b f, m.lookup b = some f → ∀ q ∈ f, Found p A R (b, 0) q

theorem memo_set {m : Memo} {b c : Nat} {f : List Pos} :
    (m.set b f).lookup c = if c = b then some f else m.lookup c := by
  unfold Memo.set
  rw [List.lookup_cons]
  by_cases h : c = b
  · simp [h]
  · have : (c == b) = false := by simpa using h
    rw [this, if_neg h]

theorem MemoOK.set {p : XProg} {A : Analyses} {R : Region} {m : Memo} {b : Nat} {f : List Pos}
    (h : MemoOK p A R m) (hb : b ≠ R.at_.1) (hf : ∀ q ∈ f, Found p A R (b, 0) q) : MemoOK p A R (m.set b f) := by
  refine ⟨?_, fun c g hc => ?_⟩
  · rw [memo_set, if_neg (Ne.symm hb)]
    exact h.own
  · rw [memo_set] at hc
    split at hc
    · rename_i he
      cases hc
      rw [he]
      exact hf
    · exact h.ok c g hc

theorem Found.back {p : XProg} {A : Analyses} {R : Region} {cur x y q : Pos} {l : List Pos}
    (h : Found p A R y q) (hl : p.IsPath cur l x) (hc : ∀ z ∈ l, p.Quiet A R z)
    (he : p.Edge x y) (hx : p.Quiet A R x) : Found p A R cur q := by
  obtain ⟨l', h1, h2⟩ := h.path
  refine ⟨h.mods, h.place, l ++ x :: l', path_append.2 ⟨x, hl, rfl, y, he, h1⟩, fun z hz => ?_⟩
  simp only [List.mem_append, List.mem_cons] at hz
  rcases hz with hz | rfl | hz
  · exact hc z hz
  · exact hx
  · exact h2 z hz

theorem inst_term {p : XProg} {b : Nat} {blk : XBlock} (hb : p[b]? = some blk) : p.inst (b, blk.insts.length) = none := by
  simp [XProg.inst, hb]

theorem findFrontier_sub {p : XProg} {A : Analyses} {R : Region} :
    ∀ (fuel : Nat) (memo : Memo) (b : Nat), MemoOK p A R memo →
    (∀ q ∈ (findFrontier p A R fuel memo (b, 0)).1, Found p A R (b, 0) q) ∧
    MemoOK p A R (findFrontier p A R fuel memo (b, 0)).2
  | 0, memo, b, h => ⟨by simp [findFrontier], h⟩
  | fuel + 1, memo, b, h => by
    simp only [findFrontier]
    cases hm : memo.lookup b with
    | some f => exact ⟨h.ok b f hm, h⟩
    | none =>
      have hne : b ≠ R.at_.1 := by
        rintro rfl
        rw [h.own] at hm
        cases hm
      have h0 : MemoOK p A R (memo.set b []) := h.set hne (by simp)
      simp only
      by_cases hd : A.dom (R.at_.1, R.at_.2 + 1) b = true
      case neg =>
        rw [if_pos ⟨Ne.symm hne, hd⟩]
        exact ⟨by simp, h0⟩
      rw [if_neg (fun x => x.2 hd)]
      cases hb : p[b]? with
      | none => exact ⟨by simp, h0⟩
      | some blk =>
        have hf := firstMod_spec (A := A) (R := R) hb (n := blk.insts.length - 0) (i := 0) (by omega)
        simp only
        cases hfm : firstMod A R b (blk.insts.length - 0) 0 with
        | some q =>
          obtain ⟨h1, h2, _, h3⟩ := hf.1 q hfm
          have hF : ∀ x ∈ [q], Found p A R (b, 0) x := by
            intro x hx
            rw [List.mem_singleton] at hx
            subst hx
            exact ⟨h1, .inr ⟨by rw [h2]; exact hne, by rw [h2]; exact hd⟩, h3⟩
          exact ⟨hF, h0.set hne hF⟩
        | none =>
          obtain ⟨l, hl, hc⟩ := hf.2 hfm
          simp only [Nat.sub_zero, Nat.zero_add] at hl
          have hx : p.Quiet A R _ := .inl (inst_term hb)
          have he : ∀ c ∈ blk.term.succs, p.Edge (b, blk.insts.length) (c, 0) :=
            fun c hc => ⟨blk, hb, .inr ⟨rfl, rfl, hc⟩⟩
          simp only
          cases ht : blk.term with
          | jump c =>
            rw [ht] at he
            have ih := findFrontier_sub fuel (memo.set b []) c h0
            have hF : ∀ q ∈ (findFrontier p A R fuel (memo.set b []) (c, 0)).1, Found p A R (b, 0) q :=
              fun q hqm => (ih.1 q hqm).back hl hc (he c (by simp [XTerm.succs])) hx
            exact ⟨hF, ih.2.set hne hF⟩
          | br k c c' =>
            rw [ht] at he
            have ih := findFrontier_sub fuel (memo.set b []) c h0
            have ih' := findFrontier_sub fuel _ c' ih.2
            have hF : ∀ q ∈ (findFrontier p A R fuel (memo.set b []) (c, 0)).1 ++
                (findFrontier p A R fuel (findFrontier p A R fuel (memo.set b []) (c, 0)).2 (c', 0)).1,
                Found p A R (b, 0) q := by
              intro q hqm
              rcases List.mem_append.1 hqm with hqm | hqm
              · exact (ih.1 q hqm).back hl hc (he c (by simp [XTerm.succs])) hx
              · exact (ih'.1 q hqm).back hl hc (he c' (by simp [XTerm.succs])) hx
            exact ⟨hF, ih'.2.set hne hF⟩
          | switch => exact ⟨by simp, h0⟩
          | ret => exact ⟨by simp, h0⟩

/-- What the pass finds: instructions that may store to the region, with the poison before them on all ways
from the entry, and one clean way from the poison to them. -/
theorem frontier_found {p : XProg} {A : Analyses} {R : Region} (hR : R ∈ regions p) {q : Pos}
    (h : q ∈ frontier p A R) : Found p A R (R.at_.1, R.at_.2 + 1) q := by
  have hi := mem_regions hR
  unfold frontier at h
  simp only [findFrontier, List.lookup_nil, ne_eq, not_true_eq_false, false_and, if_false] at h
  cases hb : p[R.at_.1]? with
  | none => rw [hb] at h; simp at h
  | some blk =>
    rw [hb] at h
    simp only at h
    have hlt : R.at_.2 < blk.insts.length := by
      simp only [XProg.inst, hb, Option.bind_some, List.getElem?_eq_some_iff] at hi
      exact hi.1
    have h0 : MemoOK p A R (Memo.set [] R.at_.1 []) := by
      refine ⟨by rw [memo_set, if_pos rfl], fun b f hbf => ?_⟩
      rw [memo_set] at hbf
      split at hbf
      · cases hbf; simp
      · cases hbf
    have hf := firstMod_spec (A := A) (R := R) hb (n := blk.insts.length - (R.at_.2 + 1)) (i := R.at_.2 + 1) (by omega)
    cases hfm : firstMod A R R.at_.1 (blk.insts.length - (R.at_.2 + 1)) (R.at_.2 + 1) with
    | some x =>
      rw [hfm] at h
      simp only [List.mem_singleton] at h
      subst h
      obtain ⟨h1, h2, h3, h4⟩ := hf.1 q hfm
      exact ⟨h1, .inl ⟨h2, by omega⟩, h4⟩
    | none =>
      rw [hfm] at h
      obtain ⟨l, hl, hc⟩ := hf.2 hfm
      rw [show R.at_.2 + 1 + (blk.insts.length - (R.at_.2 + 1)) = blk.insts.length by omega] at hl
      have hx : p.Quiet A R _ := .inl (inst_term hb)
      have he : ∀ c ∈ blk.term.succs, p.Edge (R.at_.1, blk.insts.length) (c, 0) :=
        fun c hc => ⟨blk, hb, .inr ⟨rfl, rfl, hc⟩⟩
      simp only at h
      cases ht : blk.term with
      | jump c =>
        rw [ht] at h he
        simp only at h
        exact ((findFrontier_sub _ _ c h0).1 q h).back hl hc (he c (by simp [XTerm.succs])) hx
      | br k c c' =>
        rw [ht] at h he
        simp only [List.mem_append] at h
        have ih := findFrontier_sub p.length _ c h0
        rcases h with h | h
        · exact (ih.1 q h).back hl hc (he c (by simp [XTerm.succs])) hx
        · exact ((findFrontier_sub _ _ c' ih.2).1 q h).back hl hc (he c' (by simp [XTerm.succs])) hx
      | switch => rw [ht] at h; simp at h
      | ret => rw [ht] at h; simp at h

theorem found_dom {p : XProg} {A : Analyses} {s : XSt} {R : Region} {cur q : Pos} (hA : Analysed p A s)
    (h : Found p A R cur q) : p.Dominates R.at_ q := by
  intro l hl
  rcases h.place with ⟨h1, h2⟩ | ⟨h1, h2⟩
  · have := (path_block (b := q.1) (j := q.2) hl).2 R.at_.2 h2
    rw [h1] at this
    exact this
  · obtain ⟨l0, h3, h4⟩ := (path_block (b := q.1) (j := q.2) hl).1
    have h5 := hA.dom _ _ h2 l0 h3
    have h6 := h4 _ h5
    obtain ⟨l1, l2, rfl⟩ := List.append_of_mem h6
    have h7 := (path_block (path_mid hl).1).2 R.at_.2 (by omega)
    exact List.mem_append_left _ h7

/-- Two paths from the same place in a tree. -/
theorem tree_paths {p : XProg} (ht : p.Tree) {s : Pos} : ∀ (n : Nat) {l l' : List Pos} {q : Pos},
    l.length = n → p.IsPath s l q → p.IsPath s l' q →
    (∃ x, l = x ++ l' ∧ p.IsPath s x s) ∨ (∃ x, l' = x ++ l ∧ p.IsPath s x s)
  | 0, l, l', q, hn, h, h' => by
    have : l = [] := List.length_eq_zero_iff.1 hn
    subst this
    simp only [IsPath] at h
    subst h
    exact .inr ⟨l', by simp, h'⟩
  | n + 1, l, l', q, hn, h, h' => by
    rcases List.eq_nil_or_concat l' with rfl | ⟨l2, y, rfl⟩
    · simp only [IsPath] at h'
      subst h'
      exact .inl ⟨l, by simp, h⟩
    · rcases List.eq_nil_or_concat l with rfl | ⟨l1, x, rfl⟩
      · cases hn
      · rw [List.concat_eq_append] at h h' ⊢
        rw [List.concat_eq_append] at hn ⊢
        obtain ⟨h1, h2⟩ := path_snoc.1 h
        obtain ⟨h1', h2'⟩ := path_snoc.1 h'
        have := ht _ _ _ h2 h2'
        subst this
        rw [List.length_append] at hn
        rcases tree_paths ht n (by simpa using hn) h1 h1' with ⟨z, rfl, hz⟩ | ⟨z, rfl, hz⟩
        · exact .inl ⟨z, by simp, hz⟩
        · exact .inr ⟨z, by simp, hz⟩

theorem tree_proper {p : XProg} {A : Analyses} {s : XSt} {R : Region} {q : Pos} (hA : Analysed p A s)
    (ht : p.Tree) (h : Found p A R (R.at_.1, R.at_.2 + 1) q) : Proper p A R q := by
  refine ⟨found_dom hA h, fun l hl hn x hx => ?_⟩
  obtain ⟨l', h1, h2⟩ := h.path
  rcases tree_paths ht _ rfl hl h1 with ⟨z, rfl, hz⟩ | ⟨z, rfl, hz⟩
  · rcases List.eq_nil_or_concat z with rfl | ⟨z', y, rfl⟩
    · exact h2 x (by simpa using hx)
    · rw [List.concat_eq_append] at hz
      have := edge_succ (path_snoc.1 hz).2
      exact absurd (by rw [this]; simp) hn
  · exact h2 x (List.mem_append_right _ hx)

end PJ
