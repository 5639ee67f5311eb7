import Verif.Spec.SafeRead
import Verif.Spec.Layout
import Verif.Props.C35_Coalesce
import Verif.Lemmas.Decide
/-!
# C55: copies are only made longer over memory that may be read
-/
namespace PJ

theorem gepOffset_some {d : Option Int} {k : Nat} (h : gepOffset d = some k) : d = some (k : Int) := by
  cases d with
  | none => simp [gepOffset] at h
  | some d =>
    simp only [gepOffset] at h
    split at h
    · cases h
    · cases h
      congr 1
      omega

theorem gepOffset_nat (k : Nat) : gepOffset (some (k : Int)) = some k := by
  simp only [gepOffset]
  rw [if_neg (by omega)]
  simp

theorem PtrFun.Step.lt {f : PtrFun} {i j d : Nat} (h : f.Step i j d) : j < f.defs.length := by
  apply Classical.byContradiction
  intro hj
  have : f.def j = .other := by
    rw [PtrFun.def, List.getD_eq_getElem?_getD, List.getElem?_eq_none (by omega)]
    rfl
  rcases h with h | h <;> simp [this] at h

theorem PtrFun.Step.user {f : PtrFun} {i j d : Nat} (h : f.Step i j d) : j ∈ f.users i := by
  rw [PtrFun.users, List.mem_filter]
  refine ⟨List.mem_range.2 h.lt, ?_⟩
  rcases h with ⟨h, -⟩ | h <;> simp [h]

theorem PtrFun.At.trans {f : PtrFun} {a b c x y : Nat} (h : f.At a b x) (g : f.At b c y) : f.At a c (x + y) := by
  induction g with
  | refl => exact h
  | step _ s ih => exact Nat.add_assoc .. ▸ ih.step s

theorem PtrFun.At.head {f : PtrFun} {a c z : Nat} (h : f.At a c z) : (c = a ∧ z = 0) ∨
    ∃ b x y, f.Step a b x ∧ f.At b c y ∧ z = x + y := by
  induction h with
  | refl => exact Or.inl ⟨rfl, rfl⟩
  | @step i j d k _ s ih =>
    right
    rcases ih with ⟨rfl, rfl⟩ | ⟨b, x, y, h1, h2, rfl⟩
    · exact ⟨j, k, 0, s, .refl, by omega⟩
    · exact ⟨b, x, y + k, h1, h2.step s, by omega⟩

theorem PtrFun.At.le {f : PtrFun} (hf : f.Ordered) {a c z : Nat} (h : f.At a c z) : a ≤ c ∧ (a = c → z = 0) := by
  induction h with
  | refl => exact ⟨Nat.le_refl _, fun _ => rfl⟩
  | step _ s ih =>
    have := hf _ _ _ s
    omega

/-- Every pointer has a root. -/
theorem PtrFun.root {f : PtrFun} (hf : f.Ordered) : ∀ (n i : Nat), i ≤ n → ∃ r d, f.Root r ∧ f.At r i d
  | n, i, hi => by
    by_cases h : f.Root i
    · exact ⟨i, 0, h, .refl⟩
    · simp only [PtrFun.Root, Classical.not_forall, Classical.not_not] at h
      obtain ⟨j, d, h⟩ := h
      have := hf _ _ _ h
      cases n with
      | zero => omega
      | succ n =>
        obtain ⟨r, e, h1, h2⟩ := PtrFun.root hf n j (by omega)
        exact ⟨r, e + d, h1, h2.step h⟩

theorem add64_add64 (a b c : Nat) : add64 (add64 a b) c = add64 a (b + c) := by
  simp only [add64, W64]; omega

theorem derivation_mem {f : PtrFun} : ∀ (n mem off m o : Nat), (m, o) ∈ derivation f n mem off → off < 2 ^ 64 →
    ∃ k, f.At m mem k ∧ o = add64 off k
  | 0, mem, off, m, o, h, hoff => by
    simp only [derivation, List.mem_singleton, Prod.mk.injEq] at h
    obtain ⟨rfl, rfl⟩ := h
    exact ⟨0, .refl, by simp only [add64, W64]; omega⟩
  | n + 1, mem, off, m, o, h, hoff => by
    simp only [derivation, List.mem_cons, Prod.mk.injEq] at h
    rcases h with ⟨rfl, rfl⟩ | h
    · exact ⟨0, .refl, by simp only [add64, W64]; omega⟩
    · split at h
      · next p hp =>
        obtain ⟨k, h1, h2⟩ := derivation_mem n _ _ _ _ h hoff
        exact ⟨k + 0, h1.step (Or.inl ⟨hp, rfl⟩), h2⟩
      · next p d hp =>
        split at h
        · next x hx =>
          obtain ⟨k, h1, h2⟩ := derivation_mem n _ _ _ _ h (by simp only [add64, W64]; exact Nat.mod_lt _ (by decide))
          refine ⟨k + x, h1.step (Or.inr (by rw [hp, gepOffset_some hx])), ?_⟩
          rw [h2, add64_add64, Nat.add_comm x k]
        · simp at h
      · simp at h

theorem derivation_at {f : PtrFun} (hf : f.Ordered) {m mem k : Nat} (h : f.At m mem k) : ∀ (n off : Nat), mem ≤ n →
    off < 2 ^ 64 → (m, add64 off k) ∈ derivation f n mem off := by
  induction h with
  | refl =>
    intro n off _ hoff
    have : add64 off 0 = off := by simp only [add64, W64]; omega
    rw [this]
    cases n <;> simp [derivation]
  | @step i j d k h s ih =>
    intro n off hn hoff
    have := hf _ _ _ s
    cases n with
    | zero => omega
    | succ n =>
      rw [derivation]
      refine List.mem_cons_of_mem _ ?_
      rcases s with ⟨hs, rfl⟩ | hs
      · rw [hs]
        exact ih n off (by omega) hoff
      · rw [hs]
        simp only [gepOffset_nat]
        have := ih n (add64 off k) (by omega) (by simp only [add64, W64]; exact Nat.mod_lt _ (by decide))
        rwa [add64_add64, Nat.add_comm k d] at this

theorem derivation_last {f : PtrFun} (hf : f.Ordered) : ∀ (n mem off : Nat), mem ≤ n ∨ f.def mem = .other → off < 2 ^ 64 →
    ∃ r d, f.Root r ∧ f.At r mem d ∧ (derivation f n mem off).getLast? = some (r, add64 off d)
  | n, mem, off, hn, hoff => by
    have zero : add64 off 0 = off := by simp only [add64, W64]; omega
    have last : (∀ i d, ¬ f.Step i mem d) → derivation f n mem off = [(mem, off)] →
        ∃ r d, f.Root r ∧ f.At r mem d ∧ (derivation f n mem off).getLast? = some (r, add64 off d) := by
      intro h1 h2
      exact ⟨mem, 0, h1, .refl, by rw [h2, zero]; rfl⟩
    cases n with
    | zero =>
      refine last (fun i d h => ?_) rfl
      rcases hn with hn | hn
      · have := hf _ _ _ h
        omega
      · rcases h with ⟨h, -⟩ | h <;> rw [hn] at h <;> cases h
    | succ n =>
      have more : ∀ {i k : Nat}, f.Step i mem k → derivation f (n + 1) mem off = (mem, off) :: derivation f n i (add64 off k) →
          ∃ r d, f.Root r ∧ f.At r mem d ∧ (derivation f (n + 1) mem off).getLast? = some (r, add64 off d) := by
        intro i k hs he
        have hlt := hf _ _ _ hs
        have hle : mem ≤ n + 1 := by
          rcases hn with hn | hn
          · exact hn
          · rcases hs with ⟨h, -⟩ | h <;> rw [hn] at h <;> cases h
        obtain ⟨r, d, h1, h2, h3⟩ := derivation_last hf n i (add64 off k) (Or.inl (by omega))
          (by simp only [add64, W64]; exact Nat.mod_lt _ (by decide))
        refine ⟨r, d + k, h1, h2.step hs, ?_⟩
        rw [he, List.getLast?_cons, h3, add64_add64, Nat.add_comm k d]
        rfl
      cases hd : f.def mem with
      | other =>
        refine last (fun i d h => ?_) (by rw [derivation, hd])
        rcases h with ⟨h, -⟩ | h <;> rw [hd] at h <;> cases h
      | cast p => exact more (Or.inl ⟨hd, rfl⟩) (by rw [derivation, hd, zero])
      | gep p d =>
        cases hg : gepOffset d with
        | some k => exact more (Or.inr (by rw [hd, gepOffset_some hg])) (by rw [derivation, hd]; simp [hg])
        | none =>
          refine last (fun i d h => ?_) (by rw [derivation, hd]; simp [hg])
          rcases h with ⟨h, -⟩ | h <;> rw [hd] at h
          · cases h
          · cases h
            rw [gepOffset_nat] at hg
            cases hg

/-- `getRegionRoot` finds the root and the distance. -/
theorem C55_root (f : PtrFun) (hf : f.Ordered) (mem : Nat) (small : ∀ r i d, f.At r i d → d < 2 ^ 64) :
    ∃ r d, f.Root r ∧ f.At r mem d ∧ regionRoot f mem = some (r, d) := by
  have h : mem ≤ f.defs.length ∨ f.def mem = .other := by
    by_cases h : mem ≤ f.defs.length
    · exact Or.inl h
    · right
      rw [PtrFun.def, List.getD_eq_getElem?_getD, List.getElem?_eq_none (by omega)]
      rfl
  obtain ⟨r, d, h1, h2, h3⟩ := derivation_last hf f.defs.length mem 0 h (by decide)
  have := small r mem d h2
  exact ⟨r, d, h1, h2, by rw [regionRoot, h3]; simp only [add64, W64]; congr 2; omega⟩

theorem derived_mem {f : PtrFun} : ∀ (n cur off u o : Nat), (u, o) ∈ derived f n cur off → off < 2 ^ 64 →
    ∃ k, f.At cur u k ∧ o = add64 off k
  | 0, cur, off, u, o, h, _ => by simp [derived] at h
  | n + 1, cur, off, u, o, h, hoff => by
    simp only [derived, List.mem_flatMap] at h
    obtain ⟨v, hv, h⟩ := h
    simp only [PtrFun.users, List.mem_filter] at hv
    have hv := hv.2
    split at h
    · next p hp =>
      rw [hp] at hv
      have : p = cur := by simpa using hv
      subst this
      simp only [List.mem_append, List.mem_singleton, Prod.mk.injEq] at h
      have st : f.Step p v 0 := Or.inl ⟨hp, rfl⟩
      rcases h with h | ⟨rfl, rfl⟩
      · obtain ⟨k, h1, h2⟩ := derived_mem n _ _ _ _ h hoff
        exact ⟨0 + 0 + k, (PtrFun.At.refl.step st).trans h1, by rw [h2]; congr 1; omega⟩
      · exact ⟨0 + 0, PtrFun.At.refl.step st, by simp only [add64, W64]; omega⟩
    · next p d hp =>
      rw [hp] at hv
      have : p = cur := by simpa using hv
      subst this
      split at h
      · next x hx =>
        have st : f.Step p v x := Or.inr (by rw [hp, gepOffset_some hx])
        simp only [List.mem_append, List.mem_singleton, Prod.mk.injEq] at h
        rcases h with h | ⟨rfl, rfl⟩
        · obtain ⟨k, h1, h2⟩ := derived_mem n _ _ _ _ h (by simp only [add64, W64]; exact Nat.mod_lt _ (by decide))
          exact ⟨0 + x + k, (PtrFun.At.refl.step st).trans h1, by rw [h2, add64_add64]; congr 1; omega⟩
        · exact ⟨0 + x, PtrFun.At.refl.step st, by congr 1; omega⟩
      · simp at h
    · simp at h

theorem derived_at {f : PtrFun} (hf : f.Ordered) : ∀ (n cur off u k : Nat), f.At cur u k → u ≠ cur → f.defs.length ≤ n + cur →
    off < 2 ^ 64 → (u, add64 off k) ∈ derived f n cur off
  | n, cur, off, u, k, h, hne, hn, hoff => by
    rcases h.head with ⟨h, -⟩ | ⟨b, x, y, h1, h2, rfl⟩
    · exact absurd h hne
    · have hb := h1.lt
      have hlt := hf _ _ _ h1
      cases n with
      | zero => omega
      | succ n =>
        rw [derived, List.mem_flatMap]
        refine ⟨b, h1.user, ?_⟩
        by_cases e : u = b
        · subst e
          have : y = 0 := (h2.le hf).2 rfl
          subst this
          rcases h1 with ⟨h1, rfl⟩ | h1
          · rw [h1]
            have : add64 off (0 + 0) = off := by simp only [add64, W64]; omega
            simp [this]
          · rw [h1]
            simp only [gepOffset_nat]
            simp
        · rcases h1 with ⟨h1, rfl⟩ | h1
          · rw [h1]
            refine List.mem_append.2 (Or.inl ?_)
            rw [Nat.zero_add]
            exact derived_at hf n b off u y h2 e (by omega) hoff
          · rw [h1]
            simp only [gepOffset_nat]
            refine List.mem_append.2 (Or.inl ?_)
            rw [← add64_add64]
            exact derived_at hf n b _ u y h2 e (by omega) (by simp only [add64, W64]; exact Nat.mod_lt _ (by decide))

/-- `isSafeToRead` answers yes exactly if the bytes are part of what one promise is about, for a pointer at a constant
distance, wherever in the function the promise is made. -/
theorem C55_exact (f : PtrFun) (hf : f.Ordered) (src off len : Nat)
    (small : ∀ r i d, f.At r i d → d + off + len < 2 ^ 64) :
    isSafeToRead f src off len = true ↔
      ∃ r a p b L, f.Root r ∧ f.At r src a ∧ f.At r p b ∧ (p, L) ∈ f.freezes ∧ b ≤ a + off ∧ a + off + len ≤ b + L := by
  have frozen : ∀ p n, f.frozen p n = true ↔ ∃ L, (p, L) ∈ f.freezes ∧ n ≤ L := by
    intro p n
    simp only [PtrFun.frozen, List.any_eq_true, Bool.and_eq_true, beq_iff_eq, decide_eq_true_eq]
    constructor
    · rintro ⟨⟨q, L⟩, h1, rfl, h2⟩
      exact ⟨L, h1, h2⟩
    · rintro ⟨L, h1, h2⟩
      exact ⟨(p, L), h1, rfl, h2⟩
  constructor
  · intro h
    simp only [isSafeToRead, List.any_eq_true, Bool.or_eq_true, Bool.and_eq_true, frozen] at h
    obtain ⟨⟨m, o⟩, h1, h2⟩ := h
    obtain ⟨k, h3, h4⟩ := derivation_mem _ _ _ _ _ h1 (by decide)
    obtain ⟨r, c, hr, hc⟩ := PtrFun.root hf m m (Nat.le_refl _)
    have hs := small _ _ _ (hc.trans h3)
    have h4 : o = k := by rw [h4]; simp only [add64, W64]; omega
    subst h4
    have ht : add64 off o = off + o := by simp only [add64, W64]; omega
    rcases h2 with ⟨L, h2, h5⟩ | ⟨⟨u, w⟩, h2, h5, L, h6, h7⟩
    · refine ⟨r, c + o, m, c, L, hr, hc.trans h3, hc, h2, by omega, ?_⟩
      simp only at h5
      rw [ht] at h5
      simp only [add64, W64] at h5
      omega
    · obtain ⟨q, h8, h9⟩ := derived_mem _ _ _ _ _ h2 (by decide)
      have hs' := small _ _ _ (hc.trans h8)
      have h9 : w = q := by rw [h9]; simp only [add64, W64]; omega
      subst h9
      simp only at h5 h7
      rw [ht] at h5 h7
      simp only [Bool.not_eq_true', decide_eq_false_iff_not] at h5
      refine ⟨r, c + o, u, c + w, L, hr, hc.trans h3, hc.trans h8, h6, by omega, ?_⟩
      simp only [add64, sub64, W64] at h7
      omega
  · rintro ⟨r, a, p, b, L, hr, ha, hb, hL, h1, h2⟩
    have hs := small _ _ _ ha
    have hs' := small _ _ _ hb
    simp only [isSafeToRead, List.any_eq_true, Bool.or_eq_true, Bool.and_eq_true, frozen]
    have hlen : src ≤ f.defs.length ∨ src = r := by
      cases ha with
      | refl => exact Or.inr rfl
      | step _ s => exact Or.inl (Nat.le_of_lt s.lt)
    refine ⟨(r, a), ?_, ?_⟩
    · rcases hlen with hlen | rfl
      · have := derivation_at hf ha f.defs.length 0 hlen (by decide)
        have e : add64 0 a = a := by simp only [add64, W64]; omega
        rwa [e] at this
      · have : a = 0 := (ha.le hf).2 rfl
        subst this
        cases f.defs.length <;> simp [derivation]
    · have ht : add64 off a = off + a := by simp only [add64, W64]; omega
      simp only [ht]
      by_cases e : p = r
      · subst e
        have : b = 0 := (hb.le hf).2 rfl
        subst this
        left
        refine ⟨L, hL, ?_⟩
        simp only [add64, W64]
        omega
      · right
        refine ⟨(p, b), ?_, ?_, L, hL, ?_⟩
        · have := derived_at hf f.defs.length r 0 p b hb e (by omega) (by decide)
          have e : add64 0 b = b := by simp only [add64, W64]; omega
          rwa [e] at this
        · simp only [Bool.not_eq_true', decide_eq_false_iff_not]
          omega
        · simp only [add64, sub64, W64]
          omega

theorem PtrFun.Run.at {f : PtrFun} {addr : Nat → Nat} (h : f.Run addr) {r i d : Nat} (g : f.At r i d) :
    addr i = addr r + d := by
  induction g with
  | refl => rfl
  | step _ s ih => rw [h _ _ _ s, ih]; omega

/-- In every run: the bytes are among those of a promise. -/
theorem C55_covered (f : PtrFun) (hf : f.Ordered) (src off len : Nat)
    (small : ∀ r i d, f.At r i d → d + off + len < 2 ^ 64) (h : isSafeToRead f src off len = true) :
    ∃ p L, (p, L) ∈ f.freezes ∧ ∀ addr, f.Run addr →
      addr p ≤ addr src + off ∧ addr src + off + len ≤ addr p + L := by
  obtain ⟨r, a, p, b, L, -, h1, h2, h3, h4, h5⟩ := (C55_exact f hf src off len small).1 h
  refine ⟨p, L, h3, fun addr hr => ?_⟩
  rw [hr.at h1, hr.at h2]
  omega

theorem PtrFun.Step.unique {f : PtrFun} {i i' j d d' : Nat} (h : f.Step i j d) (g : f.Step i' j d') : i' = i ∧ d' = d := by
  rcases h with ⟨h, rfl⟩ | h <;> rcases g with ⟨g, rfl⟩ | g <;> rw [h] at g <;> simp_all <;> omega

theorem PtrFun.At.unique {f : PtrFun} {r i x : Nat} (h : f.At r i x) (hr : f.Root r) : ∀ {r' x' : Nat}, f.At r' i x' →
    f.Root r' → r' = r ∧ x' = x := by
  induction h with
  | refl =>
    intro r' x' g hr'
    cases g with
    | refl => exact ⟨rfl, rfl⟩
    | step _ s => exact absurd s (hr _ _)
  | step h s ih =>
    intro r' x' g hr'
    cases g with
    | refl => exact absurd s (hr' _ _)
    | step g s' =>
      obtain ⟨rfl, rfl⟩ := s.unique s'
      obtain ⟨rfl, rfl⟩ := ih g hr'
      exact ⟨rfl, rfl⟩

theorem isSafeToRead_promised {f : PtrFun} (hf : f.Ordered) {src off len n : Nat}
    (small : ∀ r i d, f.At r i d → d + off + len < 2 ^ 64) (h : isSafeToRead f src off len = true) {r a : Nat}
    (hr : f.Root r) (ha : f.At r src a) (hp : f.Promised r n) : a + off + len ≤ n := by
  obtain ⟨r', a', p, b, L, hr', h1, h2, h3, h4, h5⟩ := (C55_exact f hf src off len small).1 h
  obtain ⟨rfl, rfl⟩ := ha.unique hr h1 hr'
  have := hp p L b h3 h2
  omega

/-! ## Coalescing -/

/-- A copy reads inside of its source, about which no more is promised. -/
def CCopy.In (f : PtrFun) (n : Nat → Nat) (c : CCopy) : Prop :=
  ∀ r, c.src = some r → f.Root r ∧ f.Promised r (n r) ∧ c.srcOff + c.len ≤ n r

def Piece.In (f : PtrFun) (n : Nat → Nat) (src : Option Nat) (p : Piece) : Prop :=
  p.poison = false → ∃ r, src = some r ∧ f.Root r ∧ f.Promised r (n r) ∧ p.load + p.len ≤ n r

theorem nextPow2_le {n : Nat} (h : n ≠ 0) : nextPow2 n ≤ 2 * n := by
  have := Nat.log2_self_le h
  rw [nextPow2, Nat.pow_succ]
  omega

theorem extendPiece_in {f : PtrFun} (hf : f.Ordered) {t : Nat} {n : Nat → Nat}
    (hs : ∀ r i d q, f.At r i d → d + n q + 2 * t < 2 ^ 64) {src : Option Nat} {p : Piece} {rest : List Piece}
    (h : p.In f n src) : (extendPiece (f.target t) src p rest).In f n src := by
  rw [extendPiece]
  split
  · exact h
  · next hc =>
    generalize hl : (if p.len = 0 then 1 else nextPow2 p.len) = l
    dsimp only
    simp only [Bool.or_eq_true, Bool.not_eq_true', decide_eq_false_iff_not, not_or] at hc
    have hlt : p.len < t := by
      have := hc.2
      simp only [PtrFun.target] at this
      omega
    have hle : l ≤ 2 * t := by
      rw [← hl]
      split
      · omega
      · next h0 => have := nextPow2_le h0; omega
    split
    · exact h
    · split
      · exact h
      · next hsafe =>
        intro hp
        obtain ⟨r, rfl, h1, h2, h3⟩ := h hp
        refine ⟨r, rfl, h1, h2, ?_⟩
        simp only [Bool.not_eq_true', Bool.not_eq_false] at hsafe
        have := isSafeToRead_promised (n := n r) hf (fun r' i d hd => by
          have := hs r' i d r hd
          omega) hsafe h1 .refl h2
        simpa using this

theorem genLoop_in {f : PtrFun} (hf : f.Ordered) {t : Nat} {n : Nat → Nat}
    (hs : ∀ r i d q, f.At r i d → d + n q + 2 * t < 2 ^ 64) {src : Option Nat} : ∀ (rest : List Piece) (p : Piece),
    p.In f n src → (∀ q ∈ rest, q.In f n src) → ∀ q ∈ genLoop (f.target t) src p rest, q.In f n src
  | [], p, h, _, q, hq => by
    simp only [genLoop, List.mem_singleton] at hq
    exact hq ▸ h
  | x :: rest, p, h, hr, q, hq => by
    rw [genLoop] at hq
    split at hq
    · next hc =>
      refine genLoop_in hf hs rest _ ?_ (fun q hq => hr q (by simp [hq])) q hq
      intro hp
      obtain ⟨r, e, h1, h2, h3⟩ := h hp
      obtain ⟨r', e', h1', h2', h3'⟩ := hr x (by simp) (hc.1 ▸ hp)
      rw [e] at e'
      cases e'
      refine ⟨r, e, h1, h2, ?_⟩
      have := hc.2.1
      simp only
      omega
    · rcases List.mem_cons.1 hq with rfl | hq
      · exact extendPiece_in hf hs h
      · exact genLoop_in hf hs rest x (hr x (by simp)) (fun q hq => hr q (by simp [hq])) q hq

theorem generate_in {f : PtrFun} (hf : f.Ordered) {t : Nat} {n : Nat → Nat}
    (hs : ∀ r i d q, f.At r i d → d + n q + 2 * t < 2 ^ 64) {s : CopySet}
    (hi : SetInv s) (h : ∀ c ∈ s.copies, c.In f n) : Inside n (s.generate (f.target t)) := by
  have all : ∀ p ∈ s.starts, p.In f n s.src := by
    intro p hp hpo
    cases hd : s.dst with
    | none => rw [(hi.empty hd).1] at hp; cases hp
    | some d =>
      cases hss : s.src with
      | none => rw [hi.poison hss p hp] at hpo; cases hpo
      | some r =>
        have := h (p.toCopy s.src d) (by simp only [CopySet.copies, hd]; exact List.mem_map_of_mem hp) r
          (by simp [Piece.toCopy, hpo, hss])
        exact ⟨r, rfl, this⟩
  intro i hm r o l hsrc
  simp only [CopySet.generate] at hm
  split at hm
  · simp at hm
  · next p rest hst =>
    obtain ⟨q, hq, hm⟩ := List.mem_filterMap.1 hm
    have hin := genLoop_in hf hs rest p (all p (by rw [hst]; simp)) (fun q hq => all q (by rw [hst]; simp [hq])) q hq
    split at hm
    · cases hm
    · next hpo =>
      obtain ⟨r', e, -, -, h1⟩ := hin (by simpa using hpo)
      rw [e] at hm
      cases hd : s.dst with
      | none => rw [hd] at hm; cases hm
      | some d =>
        rw [hd] at hm
        cases hm
        simp only [Inst.source, Option.map_some, Option.some.injEq, Prod.mk.injEq] at hsrc
        obtain ⟨rfl, rfl, rfl⟩ := hsrc
        exact h1

theorem coalesce_in {f : PtrFun} (hf : f.Ordered) {t : Nat} {n : Nat → Nat}
    (hs : ∀ r i d q, f.At r i d → d + n q + 2 * t < 2 ^ 64) :
    ∀ (is : List Inst) (s : CopySet), SetInv s → (∀ c ∈ s.copies, c.In f n) →
    (∀ i ∈ is, ∀ r o l, i.source = some (r, o, l) → f.Root r ∧ f.Promised r (n r) ∧ o + l ≤ n r) →
    Inside n (coalesce (f.target t) s is)
  | [], s, hi, h, _ => by
    rw [coalesce]
    exact generate_in hf hs hi h
  | i :: is, s, hi, h, hall => by
    have gen := generate_in hf hs hi h
    have ih := coalesce_in hf hs is
    have rest := fun i hm => hall i (List.mem_cons_of_mem _ hm)
    have start : ∀ c ∈ CopySet.copies {}, c.In f n := by simp [CopySet.copies]
    have app : ∀ {x y : List Inst}, Inside n x → Inside n y → Inside n (x ++ y) := by
      intro x y hx hy i hm
      rcases List.mem_append.1 hm with hm | hm
      · exact hx i hm
      · exact hy i hm
    have others : ∀ (os : List Other), Inside n (os.map Inst.other) := by
      intro os i hm
      obtain ⟨o, -, rfl⟩ := List.mem_map.1 hm
      intro r o l hl
      simp [Inst.source] at hl
    have merge : ∀ {s s' : CopySet} {c : CCopy}, SetInv s → (∀ c ∈ s.copies, c.In f n) → c.In f n →
        s.mergeWith c = some s' → Inside n (coalesce (f.target t) s' is) := by
      intro s s' c hi h hc hm
      refine ih s' (merge_inv s s' c hi hm).1 (fun x hx => ?_) rest
      rcases merge_mem s s' c hi hm x hx with rfl | hx
      · exact hc
      · exact h x hx
    have step : ∀ (c : CCopy), c.In f n →
        Inside n (match s.mergeWith c with
          | some set => coalesce (f.target t) set is
          | none => s.generate (f.target t) ++
            (match CopySet.mergeWith {} c with
              | some set => coalesce (f.target t) set is
              | none => coalesce (f.target t) {} is)) := by
      intro c hc
      split
      · next set hm => exact merge hi h hc hm
      · refine app gen ?_
        split
        · next set hm => exact merge SetInv.init start hc hm
        · exact ih {} SetInv.init start rest
    cases i with
    | other o =>
      rw [coalesce]
      have ho : Inside n [Inst.other o] := others [o]
      split
      · exact app ho (ih s hi h rest)
      · exact app gen (app ho (ih {} SetInv.init start rest))
    | copy c =>
      rw [coalesce]
      exact step c fun r hr => hall (.copy c) (by simp) r _ _ (by simp [Inst.source, hr])
    | loadStore c mid =>
      rw [coalesce]
      exact app (others mid) (step c fun r hr => hall (.loadStore c mid) (by simp) r _ _ (by simp [Inst.source, hr]))

/-- Coalescing with `isSafeToRead`: if the copies of a block read inside of their sources, and what is promised about them is
true, the copies it makes read inside of them as well. -/
theorem C55_coalesce (f : PtrFun) (hf : f.Ordered) (t : Nat) (n : Nat → Nat) (is : List Inst)
    (small : ∀ r i d q, f.At r i d → d + n q + 2 * t < 2 ^ 64)
    (hi : ∀ i ∈ is, ∀ r o l, i.source = some (r, o, l) → f.Root r ∧ f.Promised r (n r))
    (hin : Inside n is) : Inside n (coalesce (f.target t) {} is) :=
  coalesce_in hf small is {} SetInv.init (by simp [CopySet.copies]) fun i hm r o l hs =>
    ⟨(hi i hm r o l hs).1, (hi i hm r o l hs).2, hin i hm r o l hs⟩

/-- Copy extending with `isSafeToRead`: a copy is left as it is, or gets its bound as its length, and that many bytes may be
read. -/
theorem C55_extend (f : PtrFun) (hf : f.Ordered) (n : Nat → Nat) (p : XProg) (A : Analyses)
    (small : ∀ r i d q, f.At r i d → d + n q + 64 < 2 ^ 64)
    (hi : ∀ q src so root off len bound safe, p.inst q = some (.copy src so root off len bound safe) →
      f.Root src ∧ f.Promised src (n src) ∧ ∃ i, f.At src i so ∧ safe = isSafeToRead f i 0 bound)
    (q : Pos) (src so root off : Nat) (len : XLen) (bound : Nat) (safe : Bool)
    (h : (copyExtend p A).inst q = some (.copy src so root off len bound safe)) :
    p.inst q = some (.copy src so root off len bound safe) ∨
    (len = .const bound ∧ so + bound ≤ n src ∧ ∃ len', p.inst q = some (.copy src so root off len' bound safe)) := by
  obtain ⟨b, k⟩ := q
  simp only [XProg.inst, copyExtend, List.getElem?_mapIdx, Option.bind_map] at h ⊢
  cases hb : p[b]? with
  | none => simp [hb] at h
  | some blk =>
    simp only [hb, Option.bind_some, Function.comp_apply, List.getElem?_mapIdx] at h ⊢
    cases hx : blk.insts[k]? with
    | none => simp [hx] at h
    | some x =>
      simp only [hx, Option.map_some, Option.some.injEq] at h ⊢
      rw [extendInst] at h
      split at h
      · next he =>
        obtain ⟨R, -, hR⟩ := List.any_eq_true.1 he
        simp only [Bool.and_eq_true] at hR
        cases x with
        | poison => simp [extendable] at hR
        | other => simp [extendable] at hR
        | copy src' so' root' off' len' bound' safe' =>
          cases h
          obtain ⟨h1, h2, i, h3, h4⟩ := hi (b, k) src so root off len' bound safe (by simp [XProg.inst, hb, hx])
          simp only [extendable, Bool.and_eq_true, decide_eq_true_eq] at hR
          refine Or.inr ⟨rfl, ?_, len', rfl⟩
          rw [hR.2.2] at h4
          have := isSafeToRead_promised (n := n src) hf (fun r j d hd => by
            have := small r j d src hd
            omega) h4.symm h1 h3 h2
          simpa using this
      · exact Or.inl h

/-! ## The promises about types -/

mutual
theorem parts_inside : ∀ (t : Ty) (o : Nat), WF t → t.noOut → ∀ x ∈ t.parts o, x.1 + x.2 ≤ o + t.size
  | .struct fs sz _, o, hw, hn, x, hx => by
    simp only [WF] at hw
    simp only [Ty.noOut] at hn
    simp only [Ty.parts] at hx
    exact parts_insideFields fs o sz hw.1 hw.2.inside hn x hx
  | .variant ts l, o, hw, hn, x, hx => by
    simp only [WF] at hw
    simp only [Ty.noOut] at hn
    simp only [Ty.parts] at hx
    have := parts_insideTerms ts (o + l.termOff) (l.size - l.termOff) hw.1
      (fun t ht => by have := hw.2.inside hn.1 t ht; omega) hn.2 x hx
    have hin : l.termOff ≤ l.size := by
      cases ts with
      | nil => simp [Terms.parts] at hx
      | cons n g as t r =>
        have := hw.2.inside hn.1 ⟨n, g, as, t⟩ (by simp [Terms.toList])
        simp only at this
        omega
    simp only [Ty.size]
    omega
  | .int .., _, _, _, x, hx => by simp [Ty.parts] at hx
  | .float .., _, _, _, x, hx => by simp [Ty.parts] at hx
  | .unit, _, _, _, x, hx => by simp [Ty.parts] at hx
  | .array .., _, _, _, x, hx => by simp [Ty.parts] at hx
  | .vector .., _, _, _, x, hx => by simp [Ty.parts] at hx
theorem parts_insideFields : ∀ (fs : Fields) (o sz : Nat), WFFields fs → (∀ x ∈ fs.toList, x.2.1 + x.2.2.size ≤ sz) → fs.noOut →
    ∀ x ∈ fs.parts o, x.1 + x.2 ≤ o + sz
  | .nil, _, _, _, _, _, x, hx => by simp [Fields.parts] at hx
  | .cons n d t r, o, sz, hw, hl, hn, x, hx => by
    simp only [WFFields] at hw
    simp only [Fields.noOut] at hn
    simp only [Fields.parts, List.mem_cons, List.mem_append] at hx
    have h0 := hl (n, d, t) (by simp [Fields.toList])
    simp only at h0
    rcases hx with rfl | hx | hx
    · simp only; omega
    · have := parts_inside t (o + d) hw.1 hn.1 x hx
      omega
    · exact parts_insideFields r o sz hw.2 (fun x hx => hl x (by simp [Fields.toList, hx])) hn.2 x hx
theorem parts_insideTerms : ∀ (ts : Terms) (o sz : Nat), WFTerms ts → (∀ t ∈ ts.toList, t.ty.size ≤ sz) → ts.noOut →
    ∀ x ∈ ts.parts o, x.1 + x.2 ≤ o + sz
  | .nil, _, _, _, _, _, x, hx => by simp [Terms.parts] at hx
  | .cons n g as t r, o, sz, hw, hl, hn, x, hx => by
    simp only [WFTerms] at hw
    simp only [Terms.noOut] at hn
    simp only [Terms.parts, List.mem_cons, List.mem_append] at hx
    have h0 := hl ⟨n, g, as, t⟩ (by simp [Terms.toList])
    simp only at h0
    rcases hx with rfl | hx | hx
    · simp only; omega
    · have := parts_inside t o hw.1 hn.1 x hx
      omega
    · exact parts_insideTerms r o sz hw.2 (fun x hx => hl x (by simp [Terms.toList, hx])) hn.2 x hx
end

/-- What is promised about a source without outlined variants is true: it is about the source. -/
theorem C55_types_partial (f : PtrFun) (r : Nat) (t : Ty) (hw : WF t) (hn : t.noOut)
    (h : ∀ p L d, (p, L) ∈ f.freezes → f.At r p d → (d, L) ∈ t.promises) : f.Promised r t.size := by
  intro p L d hp hd
  have := h p L d hp hd
  simp only [Ty.promises, List.mem_cons, Prod.mk.injEq] at this
  rcases this with ⟨rfl, rfl⟩ | this
  · omega
  · have := parts_inside t 0 hw hn (d, L) this
    simpa using this

theorem ptrs_step {t : Ty} {i j d : Nat} (h : t.ptrs.Step i j d) :
    i = 0 ∧ ∃ k L, j = k + 1 ∧ t.promises[k]? = some (d, L) := by
  cases j with
  | zero => simp [PtrFun.Step, PtrFun.def, Ty.ptrs] at h
  | succ k =>
    simp only [PtrFun.Step, PtrFun.def, Ty.ptrs, List.getD_eq_getElem?_getD, List.getElem?_cons_succ, List.getElem?_map] at h
    cases hk : t.promises[k]? with
    | none => simp [hk] at h
    | some x =>
      obtain ⟨a, L⟩ := x
      simp only [hk, Option.map_some, Option.getD_some, reduceCtorEq, false_and, PtrDef.gep.injEq, Option.some.injEq,
        false_or] at h
      exact ⟨h.1.symm, k, L, rfl, by rw [hk, show a = d by omega]⟩

theorem ptrs_ordered (t : Ty) : t.ptrs.Ordered := by
  intro i j d h
  obtain ⟨rfl, k, L, rfl, -⟩ := ptrs_step h
  omega

theorem ptrs_root (t : Ty) : t.ptrs.Root 0 := by
  intro i d h
  obtain ⟨-, k, L, h, -⟩ := ptrs_step h
  omega

theorem ptrs_at {t : Ty} {r i d : Nat} (h : t.ptrs.At r i d) :
    (i = r ∧ d = 0) ∨ (r = 0 ∧ ∃ k L, i = k + 1 ∧ t.promises[k]? = some (d, L)) := by
  induction h with
  | refl => exact Or.inl ⟨rfl, rfl⟩
  | step h s ih =>
    obtain ⟨rfl, k, L, rfl, hk⟩ := ptrs_step s
    rcases ih with ⟨rfl, rfl⟩ | ⟨rfl, k', L', h', -⟩
    · exact Or.inr ⟨rfl, k, L, rfl, by simpa using hk⟩
    · omega

theorem ptrs_promised {t : Ty} (hw : WF t) (hn : t.noOut) : t.ptrs.Promised 0 t.size := by
  refine C55_types_partial _ _ t hw hn ?_
  intro p L d hp hd
  simp only [Ty.ptrs, List.mem_map, Prod.mk.injEq] at hp
  obtain ⟨⟨⟨a, L'⟩, k⟩, hm, rfl, rfl⟩ := hp
  have hm := List.mem_zipIdx_iff_getElem?.1 hm
  rcases ptrs_at hd with ⟨h, -⟩ | ⟨-, k', L'', h, hk⟩
  · omega
  · have : k' = k := by simp only at h; omega
    subst this
    simp only at hm
    rw [hk] at hm
    cases hm
    exact List.mem_of_getElem? hk

/-- From a source without outlined variants (which is what is missing, see `C55_violated`) nothing beyond it is read, however the copies from it are put together. -/
theorem C55_source_partial (t : Ty) (mp : Nat) (is : List Inst) (hw : WF t) (hn : t.noOut) (small : 2 * t.size + 2 * mp < 2 ^ 64)
    (hi : ∀ i ∈ is, ∀ r o l, i.source = some (r, o, l) → r = 0) (hin : Inside (fun _ => t.size) is) :
    Inside (fun _ => t.size) (coalesce (t.ptrs.target mp) {} is) := by
  refine C55_coalesce t.ptrs (ptrs_ordered t) mp _ is ?_ ?_ hin
  · intro r i d q h
    have : d ≤ t.size := by
      rcases ptrs_at h with ⟨-, rfl⟩ | ⟨-, k, L, -, hk⟩
      · omega
      · have hm := List.mem_of_getElem? hk
        simp only [Ty.promises, List.mem_cons, Prod.mk.injEq] at hm
        rcases hm with ⟨rfl, -⟩ | hm
        · omega
        · have := parts_inside t 0 hw hn _ hm
          simp only at this
          omega
    omega
  · intro i hm r o l h
    obtain rfl := hi i hm r o l h
    exact ⟨ptrs_root t, ptrs_promised hw hn⟩

/-! ## Examples -/

namespace C55

/-- `struct { q : u8; x : u16; y : u8 }` as it is sent. -/
def sent : Fields := .cons ['q'] 0 (.int 1 .unsigned 1) (.cons ['x'] 1 (.int 2 .unsigned 1) (.cons ['y'] 3 (.int 1 .unsigned 1) .nil))

/-- `struct { x : u16; y : u8; q : u8 }`, the receiver's. -/
def got : Fields := .cons ['x'] 0 (.int 2 .unsigned 2) (.cons ['y'] 2 (.int 1 .unsigned 1) (.cons ['q'] 3 (.int 1 .unsigned 1) .nil))

/-- The fields, and 4 more bytes. -/
def wire : Ty := .struct (.cons ['s'] 0 (.struct sent 4 1) (.cons ['t'] 4 (.int 4 .unsigned 1) .nil)) 8 1

theorem wire_wf : WF wire := by
  simp only [wire, sent, WF, WFFields, Fields.toList]
  refine ⟨⟨⟨⟨by omega, ⟨by omega, ⟨by omega, trivial⟩⟩⟩, ?_⟩, ⟨by omega, trivial⟩⟩, ?_⟩ <;>
    constructor <;> simp [Disj, Ty.size]

/-- The sender's object, `variant { a : struct { q : u8; x : u16; y : u8 }; b : u64 }`. -/
def host : Ty := .variant
  (.cons ['a'] 1 [] (.struct (.cons ['q'] 0 (.int 1 .unsigned 1) (.cons ['x'] 2 (.int 2 .unsigned 2)
      (.cons ['y'] 4 (.int 1 .unsigned 1) .nil))) 6 2)
    (.cons ['b'] 2 [] (.int 8 .unsigned 8) .nil))
  { outline := false, dflt := 0, termOff := 0, termSize := 8, tagOff := 8, tagW := 1, size := 16, align := 8, termAlign := 8 }

/-- Its protocol: the term is outlined, and begins after the tag. -/
def proto : Proto where
  head := .variant (.cons ['a'] 1 [] (.struct sent 4 1) (.cons ['b'] 2 [] (.int 8 .unsigned 1) .nil))
    { outline := true, dflt := 0, termOff := 1, termSize := 0, tagOff := 0, tagW := 1, size := 1, align := 1, termAlign := 1 }
  bufOff := 0

/-- An object with term `a`. -/
def mem : Mem := fun x => if x = 1008 then 1 else 7

end C55

theorem Inside.of {n : Nat → Nat} {is : List Inst} (h : ∀ x ∈ is.filterMap Inst.source, x.2.1 + x.2.2 ≤ n x.1) : Inside n is :=
  fun i hi r o l hs => h (r, o, l) (List.mem_filterMap.2 ⟨i, hi, hs⟩)

/-- Two copies are joined, and the result is made longer by a byte that the third one overwrites; the bytes after the struct may
be read. -/
example : Inside (fun _ => 8) (coalesce (C55.wire.ptrs.target 16) {} (C55.sent.copies 0 0 100 C55.got)) ∧
    (coalesce (C55.wire.ptrs.target 16) {} (C55.sent.copies 0 0 100 C55.got)).filterMap Inst.source = [(0, 1, 4), (0, 0, 1)] := by
  have hsrc : (C55.sent.copies 0 0 100 C55.got).filterMap Inst.source = [(0, 1, 2), (0, 3, 1), (0, 0, 1)] := by decide +kernel
  refine ⟨?_, by decide +kernel⟩
  refine C55_source_partial C55.wire 16 _ C55.wire_wf (by simp [C55.wire, C55.sent, Ty.noOut, Fields.noOut])
    (by simp [C55.wire, Ty.size]) ?_ (Inside.of (by rw [hsrc]; decide))
  intro i hi r o l hs
  have := List.mem_filterMap.2 ⟨i, hi, hs⟩
  rw [hsrc] at this
  simp at this
  omega

/-- A pointer that is two steps away from the promise, and one that is too far. -/
example : isSafeToRead ⟨[.other, .gep 0 (some 4), .cast 1, .gep 0 (some 2), .gep 3 (some (-1))], [(3, 10)]⟩ 2 1 7 = true ∧
    isSafeToRead ⟨[.other, .gep 0 (some 4), .cast 1, .gep 0 (some 2), .gep 3 (some (-1))], [(3, 10)]⟩ 2 1 8 = false := by
  decide +kernel

/-- The hypotheses about the pointers hold here, and the root of pointer 2 is found; pointer 4 is its own root. -/
example : PtrFun.Ordered ⟨[.other, .gep 0 (some 4), .cast 1, .gep 0 (some 2), .gep 3 (some (-1))], [(3, 10)]⟩ ∧
    regionRoot ⟨[.other, .gep 0 (some 4), .cast 1, .gep 0 (some 2), .gep 3 (some (-1))], [(3, 10)]⟩ 2 = some (0, 4) ∧
    regionRoot ⟨[.other, .gep 0 (some 4), .cast 1, .gep 0 (some 2), .gep 3 (some (-1))], [(3, 10)]⟩ 4 = some (4, 0) := by
  refine ⟨?_, by decide +kernel, by decide +kernel⟩
  intro i j d h
  have := h.lt
  simp only [List.length_cons, List.length_nil] at this
  rcases (by omega : j = 0 ∨ j = 1 ∨ j = 2 ∨ j = 3 ∨ j = 4) with rfl | rfl | rfl | rfl | rfl <;>
    simp [PtrFun.Step, PtrFun.def] at h <;> omega

/-- The message of a protocol with an outlined variant may end where its term does.  But what is promised about other, longer
terms counts as a promise about it, though it is made in another branch.  Here the message has 5 bytes, the copies of term `a`
read its 4, and after they have been put together they read 5, of which the last is not in the message. -/
theorem C55_violated :
    HostTy C55.host ∧ plan C55.host [['_']] = some C55.proto ∧
    sizeFn true C55.mem C55.host C55.proto [] 1000 = some 5 ∧
    Inside (fun _ => 5) (C55.sent.copies 0 1 100 C55.got) ∧
    ¬ Inside (fun _ => 5) (coalesce (C55.proto.head.ptrs.target 16) {} (C55.sent.copies 0 1 100 C55.got)) := by
  refine ⟨by decide +kernel, by decide +kernel, by decide +kernel, ?_, ?_⟩
  · refine Inside.of ?_
    have : (C55.sent.copies 0 1 100 C55.got).filterMap Inst.source = [(0, 2, 2), (0, 4, 1), (0, 1, 1)] := by decide +kernel
    rw [this]
    decide
  · intro h
    have : (coalesce (C55.proto.head.ptrs.target 16) {} (C55.sent.copies 0 1 100 C55.got)).filterMap Inst.source =
        [(0, 2, 4), (0, 1, 1)] := by decide +kernel
    have hm : (0, 2, 4) ∈ (coalesce (C55.proto.head.ptrs.target 16) {} (C55.sent.copies 0 1 100 C55.got)).filterMap Inst.source := by
      rw [this]; simp
    obtain ⟨i, hi, hs⟩ := List.mem_filterMap.1 hm
    exact absurd (h i hi 0 2 4 hs) (by decide)

end PJ
