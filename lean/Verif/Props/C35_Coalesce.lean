import Verif.Model.Coalesce
/-!
# C35: copy coalescing preserves memory
-/
namespace PJ

/-! ## Specification -/

/-- Memory `m'` is `m`, except for bytes that are undefined in `m`. -/
def Refines (m' m : UMem) : Prop := ∀ a, m a = none ∨ m' a = m a

/-- The bytes a copy reads. -/
def CCopy.reads (base : Nat → Nat) (c : CCopy) (a : Nat) : Prop :=
  ∃ r, c.src = some r ∧ base r + c.srcOff ≤ a ∧ a < base r + c.srcOff + c.len

/-- The bytes a copy or poison writes. -/
def CCopy.writes (base : Nat → Nat) (c : CCopy) (a : Nat) : Prop :=
  base c.dst + c.dstOff ≤ a ∧ a < base c.dst + c.dstOff + c.len

/-- What is assumed of other instructions: they write only what they may write, the result depends only on
what they may read, making undefined bytes defined does not make more of the result undefined, and the alias
analysis is sound. -/
structure Other.OK (base : Nat → Nat) (o : Other) : Prop where
  frame : ∀ m a, ¬ o.writes a → o.eff m a = m a
  dep : ∀ m m' a, (∀ x, o.reads x → m x = m' x) → m a = m' a → o.eff m a = o.eff m' a
  mono : ∀ m m', Refines m' m → Refines (o.eff m') (o.eff m)
  mods : ∀ r n a, o.writes a → base r ≤ a → a < base r + n → o.mods r n = true
  refs : ∀ r n a, o.reads a → base r ≤ a → a < base r + n → o.refs r n = true

/-- What is assumed of a block, given the copies before it: no copy reads what another one writes, other
instructions do not overwrite what an earlier copy has written, and what comes between a load and its store
leaves alone the bytes of the load and of earlier copies. -/
def BlockOK (base : Nat → Nat) : List CCopy → List Inst → Prop
  | _, [] => True
  | seen, .copy c :: r =>
    (∀ c' ∈ c :: seen, ∀ a, (c.reads base a → ¬ c'.writes base a) ∧ (c'.reads base a → ¬ c.writes base a)) ∧
      BlockOK base (c :: seen) r
  | seen, .loadStore c mid :: r =>
    (∀ o ∈ mid, o.OK base ∧ (∀ a, c.reads base a → ¬ o.writes a) ∧
      ∀ c' ∈ seen, ∀ a, (c'.writes base a → ¬ o.writes a ∧ ¬ o.reads a) ∧ (c'.reads base a → ¬ o.writes a)) ∧
    (∀ c' ∈ c :: seen, ∀ a, (c.reads base a → ¬ c'.writes base a) ∧ (c'.reads base a → ¬ c.writes base a)) ∧
      BlockOK base (c :: seen) r
  | seen, .other o :: r =>
    o.OK base ∧ (∀ c ∈ seen, ∀ a, c.writes base a → ¬ o.writes a) ∧ BlockOK base seen r

/-! ## Refinement -/

theorem Refines.refl (m : UMem) : Refines m m := fun _ => .inr rfl

theorem Refines.trans {a b c : UMem} (h : Refines a b) (g : Refines b c) : Refines a c := by
  intro x
  rcases g x with g | g
  · exact .inl g
  · rcases h x with h | h
    · rw [h] at g; exact .inl g.symm
    · exact .inr (h.trans g)

theorem CCopy.exec_mono (base : Nat → Nat) (c : CCopy) {m m' : UMem} (h : Refines m' m) :
    Refines (c.exec base m') (c.exec base m) := by
  intro a
  simp only [CCopy.exec]
  split
  · cases c.src with
    | none => exact .inl rfl
    | some r => exact h _
  · exact h a

/-! ## All copies of a set at once -/

/-- Whether a copy writes the byte. -/
def CCopy.hits (base : Nat → Nat) (a : Nat) (c : CCopy) : Bool :=
  decide (base c.dst + c.dstOff ≤ a ∧ a < base c.dst + c.dstOff + c.len)

theorem CCopy.hits_iff (base : Nat → Nat) (a : Nat) (c : CCopy) :
    c.hits base a = true ↔ c.writes base a := by
  simp [CCopy.hits, CCopy.writes]

/-- The byte a copy puts at an address. -/
def CCopy.val (base : Nat → Nat) (m : UMem) (a : Nat) (c : CCopy) : Option UInt8 :=
  match c.src with
  | none => none
  | some r => m (base r + c.srcOff + (a - (base c.dst + c.dstOff)))

/-- All copies, reading the old memory. -/
def par (base : Nat → Nat) (cs : List CCopy) (m : UMem) : UMem := fun a =>
  match cs.find? (CCopy.hits base a) with
  | some c => c.val base m a
  | none => m a

theorem exec_eq (base : Nat → Nat) (c : CCopy) (m : UMem) (a : Nat) :
    c.exec base m a = if c.hits base a then c.val base m a else m a := by
  simp only [CCopy.exec, CCopy.hits, CCopy.val, decide_eq_true_eq]
  rfl

/-- The copies read nothing the copies write. -/
def CopiesApart (base : Nat → Nat) (cs : List CCopy) : Prop :=
  ∀ c ∈ cs, ∀ c' ∈ cs, ∀ a, c.reads base a → ¬ c'.writes base a

theorem val_reads (base : Nat → Nat) (c : CCopy) (m m' : UMem) (a : Nat) (hw : c.writes base a)
    (h : ∀ x, c.reads base x → m x = m' x) : c.val base m a = c.val base m' a := by
  simp only [CCopy.val]
  cases hs : c.src with
  | none => rfl
  | some r =>
    exact h _ ⟨r, hs, by omega, by have := hw.1; have := hw.2; omega⟩

theorem par_not (base : Nat → Nat) (cs : List CCopy) (m : UMem) (a : Nat)
    (h : ∀ c ∈ cs, ¬ c.writes base a) : par base cs m a = m a := by
  have : cs.find? (CCopy.hits base a) = none := by
    rw [List.find?_eq_none]
    intro c hc hh
    exact h c hc ((c.hits_iff base a).1 hh)
  simp [par, this]

/-! ## Sets -/

def Piece.toCopy (src : Option Nat) (d : Nat) (p : Piece) : CCopy :=
  ⟨if p.poison then none else src, d, p.load, p.store, p.len⟩

def CopySet.copies (s : CopySet) : List CCopy :=
  match s.dst with
  | none => []
  | some d => s.starts.map (Piece.toCopy s.src d)

/-- The stores come in order and do not overlap. -/
def Chain (ps : List Piece) : Prop := ps.Pairwise (fun p q => p.store + p.len ≤ q.store)

structure SetInv (s : CopySet) : Prop where
  empty : s.dst = none → s.starts = [] ∧ s.src = none
  chain : Chain s.starts
  poison : s.src = none → ∀ p ∈ s.starts, p.poison = true
  loadEnd : ∀ p ∈ s.starts, p.poison = false → p.load + p.len ≤ s.loadEnd
  storeEnd : ∀ p ∈ s.starts, p.store + p.len ≤ s.storeEnd

theorem SetInv.init : SetInv {} := by
  constructor <;> simp [Chain]

/-! ## Merging -/

theorem takeDrop {p : Piece → Bool} (l : List Piece) : l.takeWhile p ++ l.dropWhile p = l :=
  List.takeWhile_append_dropWhile

theorem chain_last {lo : List Piece} {p : Piece} (h : Chain lo) (hl : lo.getLast? = some p) :
    ∀ q ∈ lo, q.store + q.len ≤ p.store + p.len := by
  intro q hq
  obtain ⟨ys, rfl⟩ := List.getLast?_eq_some_iff.1 hl
  rcases List.mem_append.1 hq with hq | hq
  · have := (List.pairwise_append.1 h).2.2 q hq p (by simp)
    omega
  · simp only [List.mem_singleton] at hq
    subst hq; omega

theorem chain_head {hi : List Piece} {p : Piece} (h : Chain hi) (hl : hi.head? = some p) :
    ∀ q ∈ hi, p.store ≤ q.store := by
  intro q hq
  cases hi with
  | nil => simp at hl
  | cons x xs =>
    simp only [List.head?_cons, Option.some.injEq] at hl
    subst hl
    rcases List.mem_cons.1 hq with rfl | hq
    · omega
    · have := (List.pairwise_cons.1 h).1 q hq
      omega

theorem toCopy_poison (s s' : Option Nat) (d : Nat) (p : Piece) (h : p.poison = true) :
    p.toCopy s d = p.toCopy s' d := by
  simp [Piece.toCopy, h]

theorem ite_none_some {α : Type} {p : Prop} [Decidable p] {x y : α}
    (h : (if p then none else some x) = some y) : ¬ p ∧ x = y := by
  split at h
  · simp at h
  · exact ⟨by assumption, by simpa using h⟩

/-- The two outcomes of a successful merge: the copy is put in its place, or it is empty and dropped. -/
theorem merge_inv (s s' : CopySet) (c : CCopy) (hi : SetInv s) (h : s.mergeWith c = some s') :
    SetInv s' ∧
    ((∃ lo hi, s.copies = lo ++ hi ∧ s'.copies = lo ++ c :: hi ∧
        (∀ x ∈ lo, x.dst = c.dst ∧ x.dstOff + x.len ≤ c.dstOff)) ∨
     (s'.copies = s.copies ∧ c.len = 0)) := by
  simp only [CopySet.mergeWith] at h
  generalize hs0 : (if s.dst = none then c.src else s.src) = s0 at h
  generalize hd0 : (if s.dst = none then some c.dst else s.dst) = d0 at h
  by_cases hroots : (s0 ≠ none ∧ c.src ≠ none ∧ s0 ≠ c.src) ∨ d0 ≠ some c.dst
  · simp only [if_pos hroots] at h
    exact absurd h (by simp)
  simp only [if_neg hroots] at h
  obtain ⟨hover, h⟩ := ite_none_some h
  simp only [not_or, not_and, Decidable.not_not, ne_eq] at hroots
  obtain ⟨hsrc, hdst⟩ := hroots
  simp only [Bool.or_eq_true, not_or, Bool.not_eq_true] at hover
  obtain ⟨hnext, hprev⟩ := hover
  have htd := takeDrop (p := fun p => decide (p.store < c.dstOff)) s.starts
  generalize hlo : s.starts.takeWhile (fun p => decide (p.store < c.dstOff)) = lo at *
  generalize hhi : s.starts.dropWhile (fun p => decide (p.store < c.dstOff)) = hs at *
  have hchain := hi.chain
  rw [← htd] at hchain
  have hcp := List.pairwise_append.1 hchain
  have hloE : ∀ q ∈ lo, q.store + q.len ≤ c.dstOff := by
    intro q hq
    cases hg : lo.getLast? with
    | none =>
      rw [List.getLast?_eq_none_iff] at hg
      subst hg; simp at hq
    | some p =>
      rw [hg] at hprev
      have h1 := chain_last hcp.1 hg q hq
      simp only [decide_eq_false_iff_not, Nat.not_lt] at hprev
      omega
  have hhiE : ∀ q ∈ hs, c.dstOff + c.len ≤ q.store := by
    intro q hq
    cases hg : hs.head? with
    | none =>
      rw [List.head?_eq_none_iff] at hg
      subst hg; simp at hq
    | some p =>
      rw [hg] at hnext
      have h1 := chain_head hcp.2.1 hg q hq
      simp only [decide_eq_false_iff_not, Nat.not_lt, gt_iff_lt] at hnext
      omega
  -- the new source
  generalize hns : (if s0 = none then c.src else s0) = ns at h
  have hnd : (if s.dst = none then some c.dst else s.dst) = some c.dst := hd0.trans hdst
  rw [hdst] at h
  have hnsrc : c.src ≠ none → ns = c.src := by
    intro hc
    rw [← hns]
    by_cases h0 : s0 = none
    · simp [h0]
    · simp only [h0, if_false]
      exact hsrc h0 hc
  have hnold : s.src ≠ none → ns = s.src := by
    intro hc
    have hd : s.dst ≠ none := fun hd => hc (hi.empty hd).2
    rw [← hns, ← hs0]
    simp [hd, hc]
  have hnnone : ns = none → s.src = none ∧ c.src = none := by
    intro hn
    constructor
    · rcases Decidable.em (s.src = none) with h1 | h1
      · exact h1
      · exact absurd ((hnold h1).symm.trans hn) h1
    · rcases Decidable.em (c.src = none) with h1 | h1
      · exact h1
      · exact absurd ((hnsrc h1).symm.trans hn) h1
  -- pieces do not change when the source is found
  have hold : ∀ p ∈ s.starts, p.toCopy ns c.dst = p.toCopy s.src c.dst := by
    intro p hp
    rcases Decidable.em (s.src = none) with h1 | h1
    · exact toCopy_poison _ _ _ _ (hi.poison h1 p hp)
    · rw [hnold h1]
  have hcopies : s.copies = s.starts.map (Piece.toCopy ns c.dst) := by
    rw [List.map_congr_left hold]
    simp only [CopySet.copies]
    split
    · rename_i hd
      simp [(hi.empty hd).1]
    · rename_i d hd
      rw [hd] at hnd
      simp only [if_neg (Option.some_ne_none d), Option.some.injEq] at hnd
      rw [hnd]
  generalize hpiece : (⟨c.src == none, c.srcOff, c.dstOff, c.len⟩ : Piece) = piece at h
  have hpc : piece.toCopy ns c.dst = c := by
    subst hpiece
    cases hc : c.src with
    | none =>
      obtain ⟨_, _, _, _, _⟩ := c
      simp only at hc
      subst hc
      simp [Piece.toCopy]
    | some r =>
      have := hnsrc (by rw [hc]; simp)
      obtain ⟨_, _, _, _, _⟩ := c
      simp only at hc this
      subst hc
      simp [Piece.toCopy, this]
  have hins : (hs.head?.elim True fun p => p.store ≠ c.dstOff) →
      s' = { src := ns, dst := some c.dst, starts := lo ++ piece :: hs,
             loadEnd := if c.src = none then s.loadEnd else max s.loadEnd (c.srcOff + c.len),
             storeEnd := max s.storeEnd (c.dstOff + c.len) } := by
    intro hne
    subst h
    cases hg : hs.head? with
    | none => simp
    | some p =>
      rw [hg] at hne
      simp only [Option.elim] at hne
      simp [hne]
  rcases Classical.em (hs.head?.elim True fun p => p.store ≠ c.dstOff) with hne | hne
  · have hs' := hins hne
    clear h hins
    subst hs'
    refine ⟨⟨by simp, ?_, ?_, ?_, ?_⟩, .inl ⟨lo.map (Piece.toCopy ns c.dst),
      hs.map (Piece.toCopy ns c.dst), ?_, ?_, ?_⟩⟩
    · refine List.pairwise_append.2 ⟨hcp.1, List.pairwise_cons.2 ⟨?_, hcp.2.1⟩, ?_⟩
      · intro q hq
        have := hhiE q hq
        subst hpiece
        exact this
      · intro q hq x hx
        rcases List.mem_cons.1 hx with rfl | hx
        · have := hloE q hq
          subst hpiece
          exact this
        · exact hcp.2.2 q hq x hx
    · intro hn p hp
      obtain ⟨h1, h2⟩ := hnnone hn
      simp only [List.mem_append, List.mem_cons] at hp
      rcases hp with hp | rfl | hp
      · exact hi.poison h1 p (by rw [← htd]; simp [hp])
      · subst hpiece; simp [h2]
      · exact hi.poison h1 p (by rw [← htd]; simp [hp])
    · intro p hp hpo
      simp only [List.mem_append, List.mem_cons] at hp
      have hold' : p ∈ s.starts → p.load + p.len ≤
          if c.src = none then s.loadEnd else max s.loadEnd (c.srcOff + c.len) := by
        intro hm
        have := hi.loadEnd p hm hpo
        split <;> omega
      rcases hp with hp | rfl | hp
      · exact hold' (by rw [← htd]; simp [hp])
      · subst hpiece
        simp only at hpo ⊢
        split
        · rename_i hc; simp [hc] at hpo
        · omega
      · exact hold' (by rw [← htd]; simp [hp])
    · intro p hp
      simp only [List.mem_append, List.mem_cons] at hp
      rcases hp with hp | rfl | hp
      · have := hi.storeEnd p (by rw [← htd]; simp [hp])
        simp only; omega
      · subst hpiece; simp only; omega
      · have := hi.storeEnd p (by rw [← htd]; simp [hp])
        simp only; omega
    · rw [hcopies, ← htd, List.map_append]
    · simp only [CopySet.copies, List.map_append, List.map_cons, hpc]
    · intro x hx
      obtain ⟨p, hp, rfl⟩ := List.mem_map.1 hx
      exact ⟨rfl, hloE p hp⟩
  · -- an empty copy at the place of another one
    cases hg : hs.head? with
    | none => rw [hg] at hne; simp at hne
    | some p =>
      rw [hg] at hne
      simp only [Option.elim, ne_eq, Decidable.not_not] at hne
      have hpm : p ∈ hs := List.mem_of_head? hg
      have hlen : c.len = 0 := by have := hhiE p hpm; omega
      have hs' : s' =
          { src := ns, dst := some c.dst, starts := s.starts,
            loadEnd := if c.src = none then s.loadEnd else max s.loadEnd (c.srcOff + c.len),
            storeEnd := max s.storeEnd (c.dstOff + c.len) } := by
        subst h; simp [hg, hne]
      clear h hins
      subst hs'
      refine ⟨⟨by simp, hi.chain, ?_, ?_, ?_⟩, .inr ⟨?_, hlen⟩⟩
      · intro hn
        exact hi.poison (hnnone hn).1
      · intro q hq hpo
        have := hi.loadEnd q hq hpo
        simp only
        split <;> omega
      · intro q hq
        have := hi.storeEnd q hq
        simp only; omega
      · rw [hcopies]; rfl

/-- Merging a copy into a set is the same as doing it after the set. -/
theorem merge_par (base : Nat → Nat) (s s' : CopySet) (c : CCopy) (hi : SetInv s)
    (h : s.mergeWith c = some s') (ha : ∀ x ∈ s.copies, ∀ a, c.reads base a → ¬ x.writes base a)
    (m : UMem) : par base s'.copies m = c.exec base (par base s.copies m) := by
  funext a
  rw [exec_eq]
  rcases (merge_inv s s' c hi h).2 with ⟨lo, hs, h1, h2, h3⟩ | ⟨h1, h2⟩
  · rw [h2]
    cases hh : c.hits base a with
    | true =>
      have hw := (c.hits_iff base a).1 hh
      have hnone : lo.find? (CCopy.hits base a) = none := by
        rw [List.find?_eq_none]
        intro x hx hxh
        have hxw := (x.hits_iff base a).1 hxh
        have := h3 x hx
        simp only [CCopy.writes] at hxw hw
        rw [this.1] at hxw
        omega
      have : (lo ++ c :: hs).find? (CCopy.hits base a) = some c := by
        simp [List.find?_append, hnone, hh]
      simp only [par, this, if_true]
      apply val_reads base c _ _ a hw
      intro x hx
      exact (par_not base s.copies m x (fun y hy => ha y hy x hx)).symm
    | false =>
      have : (lo ++ c :: hs).find? (CCopy.hits base a) = (lo ++ hs).find? (CCopy.hits base a) := by
        simp [List.find?_append, hh]
      simp only [par, this, h1]
      rfl
  · rw [h1]
    have : c.hits base a = false := by
      simp only [CCopy.hits, h2]
      simp
    simp [this]

theorem merge_mem (s s' : CopySet) (c : CCopy) (hi : SetInv s) (h : s.mergeWith c = some s') :
    ∀ x ∈ s'.copies, x = c ∨ x ∈ s.copies := by
  intro x hx
  rcases (merge_inv s s' c hi h).2 with ⟨lo, hs, h1, h2, _⟩ | ⟨h1, _⟩
  · rw [h2] at hx
    rw [h1]
    simp only [List.mem_append, List.mem_cons] at hx ⊢
    rcases hx with hx | hx | hx
    · exact .inr (.inl hx)
    · exact .inl hx
    · exact .inr (.inr hx)
  · rw [h1] at hx; exact .inr hx

theorem merge_empty (c : CCopy) : ∃ s, CopySet.mergeWith {} c = some s := by
  simp [CopySet.mergeWith]

/-! ## Generating -/

theorem covered_spec (stop need : Nat) (rest : List Piece) (hc : Chain rest)
    (hs : ∀ q ∈ rest, stop ≤ q.store) (h : covered stop need rest = true) :
    ∀ x, stop ≤ x → x < stop + need → ∃ q ∈ rest, q.store ≤ x ∧ x < q.store + q.len := by
  induction rest generalizing stop need with
  | nil =>
    intro x h1 h2
    match need, h with
    | 0, _ => omega
  | cons q rest ih =>
    intro x h1 h2
    match need, h with
    | 0, _ => omega
    | need + 1, h =>
      simp only [covered] at h
      split at h
      · simp at h
      · rename_i hgt
        have hq := hs q (by simp)
        have hqe : q.store = stop := by omega
        rcases Nat.lt_or_ge x (stop + q.len) with hx | hx
        · exact ⟨q, by simp, by omega, by omega⟩
        · have hcc := List.pairwise_cons.1 hc
          obtain ⟨q', hq', h3⟩ := ih (stop + q.len) _ hcc.2
            (fun y hy => by have := hcc.1 y hy; omega) h x hx (by omega)
          exact ⟨q', by simp [hq'], h3⟩

theorem extend_spec (t : CopyTarget) (src : Option Nat) (p : Piece) (rest : List Piece)
    (hc : Chain (p :: rest)) :
    (extendPiece t src p rest).poison = p.poison ∧ (extendPiece t src p rest).load = p.load ∧
    (extendPiece t src p rest).store = p.store ∧ p.len ≤ (extendPiece t src p rest).len ∧
    ∀ x, p.store + p.len ≤ x → x < p.store + (extendPiece t src p rest).len →
      ∃ q ∈ rest, q.store ≤ x ∧ x < q.store + q.len := by
  have hcc := List.pairwise_cons.1 hc
  simp only [extendPiece]
  generalize hn : (if p.len = 0 then 1 else nextPow2 p.len) = n
  have hle : p.len ≤ n := by
    subst hn
    split
    · omega
    · exact Nat.le_of_lt Nat.lt_log2_self
  split
  · exact ⟨rfl, rfl, rfl, Nat.le_refl _, fun x h1 h2 => by omega⟩
  · split
    · exact ⟨rfl, rfl, rfl, Nat.le_refl _, fun x h1 h2 => by omega⟩
    · rename_i hcov
      split
      · exact ⟨rfl, rfl, rfl, Nat.le_refl _, fun x h1 h2 => by omega⟩
      · refine ⟨rfl, rfl, rfl, hle, fun x h1 h2 => ?_⟩
        have hcov : covered (p.store + p.len) (n - p.len) rest = true := by simpa using hcov
        simp only at h2
        exact covered_spec _ _ rest hcc.2 hcc.1 hcov x h1 (by omega)

/-- The `memcpy`s of pieces. -/
def emit (src : Option Nat) (dst : Option Nat) (ps : List Piece) : List Inst :=
  ps.filterMap fun p =>
    if p.poison then none
    else
      match src, dst with
      | some r, some d => some (.copy ⟨some r, d, p.load, p.store, p.len⟩)
      | _, _ => none

theorem toCopy_writes (base : Nat → Nat) (src : Option Nat) (d : Nat) (p : Piece) (a : Nat) :
    (p.toCopy src d).writes base a ↔ base d + p.store ≤ a ∧ a < base d + p.store + p.len := Iff.rfl

theorem gen_spec (base : Nat → Nat) (t : CopyTarget) (src : Option Nat) (d : Nat) (p : Piece)
    (rest : List Piece) (hc : Chain (p :: rest))
    (ha : CopiesApart base ((p :: rest).map (Piece.toCopy src d))) (m : UMem) :
    Refines (runBlock base (emit src (some d) (genLoop t src p rest)) m)
      (par base ((p :: rest).map (Piece.toCopy src d)) m) := by
  induction rest generalizing p m with
  | nil =>
    simp only [genLoop, emit, List.filterMap_cons, List.filterMap_nil, List.map_cons, List.map_nil]
    intro a
    cases hp : p.poison with
    | true =>
      simp only [if_true, runBlock, List.foldl_nil, par, List.find?_cons, List.find?_nil]
      split
      · rename_i c hf
        split at hf
        · simp only [Option.some.injEq] at hf
          subst hf
          left
          simp [CCopy.val, Piece.toCopy, hp]
        · simp at hf
      · exact .inr rfl
    | false =>
      cases src with
      | none =>
        simp only [Bool.false_eq_true, if_false, runBlock, List.foldl_nil, par, List.find?_cons,
          List.find?_nil]
        split
        · rename_i c hf
          split at hf
          · simp only [Option.some.injEq] at hf
            subst hf
            left
            simp [CCopy.val, Piece.toCopy]
          · simp at hf
        · exact .inr rfl
      | some r =>
        right
        simp only [Bool.false_eq_true, if_false, runBlock, List.foldl_cons, List.foldl_nil, Inst.exec]
        rw [exec_eq, par]
        simp only [List.find?_cons, List.find?_nil, Piece.toCopy, hp, Bool.false_eq_true, if_false]
        split <;> simp [*]
  | cons q rest ih =>
    have hcc := List.pairwise_cons.1 hc
    simp only [genLoop]
    split
    · -- adjacent pieces are combined
      rename_i hadj
      obtain ⟨h1, h2, h3⟩ := hadj
      have hc' : Chain ({ p with len := p.len + q.len } :: rest) := by
        refine List.pairwise_cons.2 ⟨?_, (List.pairwise_cons.1 hcc.2).2⟩
        intro x hx
        have := (List.pairwise_cons.1 hcc.2).1 x hx
        simp only; omega
      -- the combined copy is the two copies
      have hw : ∀ a, (({ p with len := p.len + q.len } : Piece).toCopy src d).writes base a ↔
          (p.toCopy src d).writes base a ∨ (q.toCopy src d).writes base a := by
        intro a
        simp only [toCopy_writes]
        omega
      have hr : ∀ a, (({ p with len := p.len + q.len } : Piece).toCopy src d).reads base a →
          (p.toCopy src d).reads base a ∨ (q.toCopy src d).reads base a := by
        intro a ⟨r, hr1, hr2, hr3⟩
        simp only [Piece.toCopy] at hr1 hr2 hr3
        rcases Nat.lt_or_ge a (base r + p.load + p.len) with hx | hx
        · exact .inl ⟨r, hr1, hr2, hx⟩
        · refine .inr ⟨r, ?_, ?_, ?_⟩
          · rw [← hr1]; simp [Piece.toCopy, h1]
          · simp only [Piece.toCopy]; omega
          · simp only [Piece.toCopy]; omega
      have ha' : CopiesApart base (({ p with len := p.len + q.len } :: rest).map (Piece.toCopy src d)) := by
        have hm : ∀ c ∈ ({ p with len := p.len + q.len } :: rest : List Piece).map (Piece.toCopy src d),
            ∀ a, (c.reads base a → ∃ x ∈ (p :: q :: rest).map (Piece.toCopy src d), x.reads base a) ∧
              (c.writes base a → ∃ x ∈ (p :: q :: rest).map (Piece.toCopy src d), x.writes base a) := by
          intro c hcm a
          simp only [List.map_cons, List.mem_cons] at hcm
          rcases hcm with rfl | hcm
          · constructor
            · intro hra
              rcases hr a hra with h | h
              · exact ⟨_, by simp, h⟩
              · exact ⟨q.toCopy src d, by simp, h⟩
            · intro hwa
              rcases (hw a).1 hwa with h | h
              · exact ⟨_, by simp, h⟩
              · exact ⟨q.toCopy src d, by simp, h⟩
          · exact ⟨fun h => ⟨c, by simp only [List.map_cons, List.mem_cons]; exact .inr (.inr hcm), h⟩,
              fun h => ⟨c, by simp only [List.map_cons, List.mem_cons]; exact .inr (.inr hcm), h⟩⟩
        intro c hcm c' hcm' a hra hwa
        obtain ⟨x, hx, hxr⟩ := (hm c hcm a).1 hra
        obtain ⟨y, hy, hyw⟩ := (hm c' hcm' a).2 hwa
        exact ha x hx y hy a hxr hyw
      have hpar : par base (({ p with len := p.len + q.len } :: rest).map (Piece.toCopy src d)) m =
          par base ((p :: q :: rest).map (Piece.toCopy src d)) m := by
        funext a
        simp only [par, List.map_cons, List.find?_cons]
        cases hpq : (({ p with len := p.len + q.len } : Piece).toCopy src d).hits base a with
        | true =>
          have := (hw a).1 ((CCopy.hits_iff base a _).1 hpq)
          cases hph : (p.toCopy src d).hits base a with
          | true => rfl
          | false =>
            have hqh : (q.toCopy src d).hits base a = true := by
              rcases this with h | h
              · rw [(CCopy.hits_iff base a _).2 h] at hph; simp at hph
              · exact (CCopy.hits_iff base a _).2 h
            simp only [hqh]
            have hqw := (CCopy.hits_iff base a _).1 hqh
            simp only [toCopy_writes] at hqw
            simp only [CCopy.val, Piece.toCopy, h1]
            cases (if q.poison = true then none else src) with
            | none => rfl
            | some r => simp only; congr 1; omega
        | false =>
          have hnp : (p.toCopy src d).hits base a = false := by
            cases hph : (p.toCopy src d).hits base a with
            | false => rfl
            | true =>
              rw [(CCopy.hits_iff base a _).2 ((hw a).2 (.inl ((CCopy.hits_iff base a _).1 hph)))] at hpq
              simp at hpq
          have hnq : (q.toCopy src d).hits base a = false := by
            cases hph : (q.toCopy src d).hits base a with
            | false => rfl
            | true =>
              rw [(CCopy.hits_iff base a _).2 ((hw a).2 (.inr ((CCopy.hits_iff base a _).1 hph)))] at hpq
              simp at hpq
          simp only [hnp, hnq]
      rw [← hpar]
      exact ih _ hc' ha' m
    · -- the piece is written, possibly extended over the following ones
      have hext := extend_spec t src p (q :: rest) hc
      generalize extendPiece t src p (q :: rest) = p' at hext
      obtain ⟨e1, e2, e3, e4, e5⟩ := hext
      have ha' : CopiesApart base ((q :: rest).map (Piece.toCopy src d)) :=
        fun c hc c' hc' => ha c (by
          simp only [List.map_cons, List.mem_cons] at hc ⊢; exact .inr hc) c' (by
          simp only [List.map_cons, List.mem_cons] at hc' ⊢; exact .inr hc')
      -- memory after this piece
      have key : ∃ m1, runBlock base (emit src (some d) (p' :: genLoop t src q rest)) m =
            runBlock base (emit src (some d) (genLoop t src q rest)) m1 ∧
          Refines (par base ((q :: rest).map (Piece.toCopy src d)) m1)
            (par base ((p :: q :: rest).map (Piece.toCopy src d)) m) := by
        have hundef : (p.toCopy src d).src = none →
            Refines (par base ((q :: rest).map (Piece.toCopy src d)) m)
              (par base ((p :: q :: rest).map (Piece.toCopy src d)) m) := by
          intro hn a
          rw [List.map_cons (l := q :: rest)]
          simp only [par, List.find?_cons (a := p.toCopy src d)]
          cases hph : (p.toCopy src d).hits base a with
          | true => left; simp [CCopy.val, hn]
          | false => right; rfl
        cases hp : p.poison with
        | true =>
          refine ⟨m, ?_, hundef (by simp [Piece.toCopy, hp])⟩
          simp only [emit, List.filterMap_cons, e1, hp, if_true]
        | false =>
          cases src with
          | none =>
            refine ⟨m, ?_, hundef (by simp [Piece.toCopy])⟩
            simp only [emit, List.filterMap_cons, e1, hp, Bool.false_eq_true, if_false]
          | some r =>
            refine ⟨CCopy.exec base ⟨some r, d, p'.load, p'.store, p'.len⟩ m, ?_, ?_⟩
            · simp only [emit, List.filterMap_cons, e1, hp, Bool.false_eq_true, if_false, runBlock,
                List.foldl_cons, Inst.exec]
            · -- the extended part is written again by the following pieces
              have hwx : ∀ a, (⟨some r, d, p'.load, p'.store, p'.len⟩ : CCopy).writes base a →
                  ∃ c ∈ (p :: q :: rest).map (Piece.toCopy (some r) d), c.writes base a := by
                intro a hw
                simp only [CCopy.writes, e3] at hw
                rcases Nat.lt_or_ge a (base d + p.store + p.len) with h | h
                · exact ⟨_, List.mem_map_of_mem (a := p) (by simp), hw.1, h⟩
                · obtain ⟨y, hy, hy1, hy2⟩ := e5 (a - base d) (by omega) (by omega)
                  refine ⟨y.toCopy (some r) d, List.mem_map_of_mem (by
                    simp only [List.mem_cons] at hy ⊢; exact .inr hy), ?_⟩
                  rw [toCopy_writes]; omega
              intro a
              right
              rw [List.map_cons (l := q :: rest)]
              have hpar2 : ∀ m' : UMem, par base ((q :: rest).map (Piece.toCopy (some r) d)) m' a =
                  match ((q :: rest).map (Piece.toCopy (some r) d)).find? (CCopy.hits base a) with
                  | some c => c.val base m' a
                  | none => m' a := fun _ => rfl
              have hpar3 : par base (p.toCopy (some r) d :: (q :: rest).map (Piece.toCopy (some r) d)) m a =
                  match (p.toCopy (some r) d).hits base a with
                  | true => (p.toCopy (some r) d).val base m a
                  | false => par base ((q :: rest).map (Piece.toCopy (some r) d)) m a := by
                simp only [par, List.find?_cons (a := p.toCopy (some r) d)]
                cases (p.toCopy (some r) d).hits base a <;> rfl
              rw [hpar3]
              cases hph : (p.toCopy (some r) d).hits base a with
              | true =>
                have hpw := (CCopy.hits_iff base a _).1 hph
                rw [par_not]
                · rw [exec_eq]
                  have : CCopy.hits base a ⟨some r, d, p'.load, p'.store, p'.len⟩ = true := by
                    rw [CCopy.hits_iff]
                    simp only [toCopy_writes] at hpw
                    simp only [CCopy.writes]; omega
                  simp only [this, if_true]
                  simp only [CCopy.val, Piece.toCopy, hp, e2, e3, Bool.false_eq_true, if_false]
                · intro c hcm hcw
                  obtain ⟨y, hy, rfl⟩ := List.mem_map.1 hcm
                  have := hcc.1 y hy
                  simp only [toCopy_writes] at hpw hcw
                  omega
              | false =>
                simp only [hpar2]
                cases hf : ((q :: rest).map (Piece.toCopy (some r) d)).find? (CCopy.hits base a) with
                | some c =>
                  have hcm := List.mem_of_find?_eq_some hf
                  have hch := List.find?_some hf
                  simp only
                  apply val_reads base c _ _ a ((CCopy.hits_iff base a c).1 hch)
                  intro x hx
                  rw [exec_eq]
                  have : CCopy.hits base x ⟨some r, d, p'.load, p'.store, p'.len⟩ = false := by
                    cases hh : CCopy.hits base x ⟨some r, d, p'.load, p'.store, p'.len⟩ with
                    | false => rfl
                    | true =>
                      obtain ⟨c', hc', hw'⟩ := hwx x ((CCopy.hits_iff base x _).1 hh)
                      exact absurd hw' (ha c (by
                        rw [List.map_cons]; exact List.mem_cons_of_mem _ hcm) c' hc' x hx)
                  simp [this]
                | none =>
                  simp only
                  rw [exec_eq]
                  have : CCopy.hits base a ⟨some r, d, p'.load, p'.store, p'.len⟩ = false := by
                    cases hh : CCopy.hits base a ⟨some r, d, p'.load, p'.store, p'.len⟩ with
                    | false => rfl
                    | true =>
                      obtain ⟨c', hc', hw'⟩ := hwx a ((CCopy.hits_iff base a _).1 hh)
                      rw [List.map_cons] at hc'
                      rcases List.mem_cons.1 hc' with rfl | hc'
                      · rw [(CCopy.hits_iff base a _).2 hw'] at hph; simp at hph
                      · exact absurd ((CCopy.hits_iff base a _).2 hw')
                          (List.find?_eq_none.1 hf c' hc')
                  simp [this]
      obtain ⟨m1, k1, k2⟩ := key
      rw [k1]
      exact (ih q hcc.2 ha' m1).trans k2

theorem generate_spec (base : Nat → Nat) (t : CopyTarget) (s : CopySet) (hi : SetInv s)
    (ha : CopiesApart base s.copies) (m : UMem) :
    Refines (runBlock base (s.generate t) m) (par base s.copies m) := by
  simp only [CopySet.generate]
  cases hst : s.starts with
  | nil =>
    have : s.copies = [] := by
      simp only [CopySet.copies, hst]; split <;> rfl
    rw [this]
    intro a; exact .inr rfl
  | cons p rest =>
    cases hd : s.dst with
    | none => rw [(hi.empty hd).1] at hst; simp at hst
    | some d =>
      have hc : s.copies = (p :: rest).map (Piece.toCopy s.src d) := by
        simp only [CopySet.copies, hd, hst]
      rw [hc] at ha ⊢
      have := gen_spec base t s.src d p rest (by rw [← hst]; exact hi.chain) ha m
      exact this

/-! ## Other instructions -/

/-- An instruction that touches no byte of the copies may come before them. -/
theorem par_comm (base : Nat → Nat) (cs : List CCopy) (o : Other) (ho : o.OK base)
    (h : ∀ c ∈ cs, ∀ a, (c.writes base a → ¬ o.writes a ∧ ¬ o.reads a) ∧ (c.reads base a → ¬ o.writes a))
    (m : UMem) : par base cs (o.eff m) = o.eff (par base cs m) := by
  funext a
  cases hf : cs.find? (CCopy.hits base a) with
  | some c =>
    have hcm := List.mem_of_find?_eq_some hf
    have hcw := (CCopy.hits_iff base a c).1 (List.find?_some hf)
    rw [ho.frame _ a ((h c hcm a).1 hcw).1]
    simp only [par, hf]
    apply val_reads base c _ _ a hcw
    intro x hx
    exact ho.frame _ x ((h c hcm x).2 hx)
  | none =>
    have h1 : par base cs (o.eff m) a = o.eff m a := by simp only [par, hf]
    rw [h1]
    apply ho.dep
    · intro x hx
      exact (par_not base cs m x (fun c hc hcx => ((h c hc x).1 hcx).2 hx)).symm
    · simp only [par, hf]

theorem par_comms (base : Nat → Nat) (cs : List CCopy) (os : List Other)
    (h : ∀ o ∈ os, o.OK base ∧ ∀ c ∈ cs, ∀ a,
      (c.writes base a → ¬ o.writes a ∧ ¬ o.reads a) ∧ (c.reads base a → ¬ o.writes a)) (m : UMem) :
    par base cs (os.foldl (fun m o => o.eff m) m) = os.foldl (fun m o => o.eff m) (par base cs m) := by
  induction os generalizing m with
  | nil => rfl
  | cons o os ih =>
    simp only [List.foldl_cons]
    rw [ih (fun x hx => h x (List.mem_cons_of_mem _ hx)), par_comm base cs o (h o (by simp)).1 (h o (by simp)).2]

theorem others_mono (base : Nat → Nat) (os : List Other) (h : ∀ o ∈ os, o.OK base) {m m' : UMem}
    (hr : Refines m' m) :
    Refines (os.foldl (fun m o => o.eff m) m') (os.foldl (fun m o => o.eff m) m) := by
  induction os generalizing m m' with
  | nil => exact hr
  | cons o os ih =>
    exact ih (fun x hx => h x (List.mem_cons_of_mem _ hx)) ((h o (by simp)).mono _ _ hr)

theorem others_frame (base : Nat → Nat) (os : List Other) (h : ∀ o ∈ os, o.OK base) (m : UMem) (a : Nat)
    (hw : ∀ o ∈ os, ¬ o.writes a) : os.foldl (fun m o => o.eff m) m a = m a := by
  induction os generalizing m with
  | nil => rfl
  | cons o os ih =>
    rw [List.foldl_cons, ih (fun x hx => h x (List.mem_cons_of_mem _ hx)) _
      (fun x hx => hw x (List.mem_cons_of_mem _ hx))]
    exact (h o (by simp)).frame m a (hw o (by simp))

/-- A load and store, if nothing between them writes what is loaded. -/
theorem loadStore_exec (base : Nat → Nat) (c : CCopy) (mid : List Other) (m : UMem)
    (h : ∀ o ∈ mid, o.OK base ∧ ∀ a, c.reads base a → ¬ o.writes a) :
    (Inst.loadStore c mid).exec base m = c.exec base (mid.foldl (fun m o => o.eff m) m) := by
  funext a
  simp only [Inst.exec, CCopy.exec]
  split
  · rename_i hw
    cases hs : c.src with
    | none => rfl
    | some r =>
      simp only
      refine (others_frame base mid (fun o ho => (h o ho).1) m _ (fun o ho => (h o ho).2 _ ?_)).symm
      exact ⟨r, hs, by omega, by omega⟩
  · rfl

theorem run_others (base : Nat → Nat) (os : List Other) (m : UMem) :
    runBlock base (os.map .other) m = os.foldl (fun m o => o.eff m) m := by
  induction os generalizing m with
  | nil => rfl
  | cons o os ih => exact ih (o.eff m)

/-- An instruction that passes `canReorderWith` and does not overwrite the destinations of the set may come
first. -/
theorem reorder_spec (base : Nat → Nat) (s : CopySet) (o : Other) (hi : SetInv s) (ho : o.OK base)
    (h : s.canReorderWith o = true) (hw : ∀ c ∈ s.copies, ∀ a, c.writes base a → ¬ o.writes a)
    (m : UMem) : par base s.copies (o.eff m) = o.eff (par base s.copies m) := by
  refine par_comm base s.copies o ho (fun c hc a => ⟨fun hca => ⟨hw c hc a hca, fun hra => ?_⟩,
    fun hca hwa => ?_⟩) m
  · simp only [CopySet.copies] at hc
    cases hd : s.dst with
    | none => rw [hd] at hc; simp at hc
    | some d =>
      rw [hd] at hc
      obtain ⟨p, hp, rfl⟩ := List.mem_map.1 hc
      have := hi.storeEnd p hp
      rw [toCopy_writes] at hca
      have hr := ho.refs d s.storeEnd a hra (by omega) (by omega)
      simp only [CopySet.canReorderWith, hd, hr] at h
      simp at h
  · simp only [CopySet.copies] at hc
    cases hd : s.dst with
    | none => rw [hd] at hc; simp at hc
    | some d =>
      rw [hd] at hc
      obtain ⟨p, hp, rfl⟩ := List.mem_map.1 hc
      obtain ⟨r, h1, h2, h3⟩ := hca
      simp only [Piece.toCopy] at h1 h2 h3
      have hpo : p.poison = false := by
        cases hp' : p.poison with
        | false => rfl
        | true => simp [hp'] at h1
      simp only [hpo, Bool.false_eq_true, if_false] at h1
      have := hi.loadEnd p hp hpo
      have hr := ho.mods r s.loadEnd a hwa (by omega) (by omega)
      simp only [CopySet.canReorderWith, hd, h1, hr] at h
      simp at h

/-! ## The block -/

theorem par_mono (base : Nat → Nat) (cs : List CCopy) {m m' : UMem} (h : Refines m' m) :
    Refines (par base cs m') (par base cs m) := by
  intro a
  simp only [par]
  split
  · simp only [CCopy.val]
    split
    · exact .inl rfl
    · exact h _
  · exact h a

theorem par_nil (base : Nat → Nat) (m : UMem) : par base (CopySet.copies {}) m = m := rfl

theorem runBlock_append (base : Nat → Nat) (x y : List Inst) (m : UMem) :
    runBlock base (x ++ y) m = runBlock base y (runBlock base x m) := by
  simp [runBlock]

theorem apart_of {base : Nat → Nat} {cs seen : List CCopy}
    (hs : ∀ c ∈ cs, c ∈ seen) (ha : CopiesApart base seen) : CopiesApart base cs :=
  fun c hc c' hc' => ha c (hs c hc) c' (hs c' hc')

theorem coalesce_step (base : Nat → Nat) (t : CopyTarget) (rest : List Inst) (c : CCopy)
    (seen : List CCopy)
    (ih : ∀ (set : CopySet) (mn mo : UMem), SetInv set → (∀ x ∈ set.copies, x ∈ c :: seen) →
      Refines (par base set.copies mn) mo →
      Refines (runBlock base (coalesce t set rest) mn) (runBlock base rest mo))
    (set : CopySet) (mn mo : UMem) (hi : SetInv set) (hsub : ∀ x ∈ set.copies, x ∈ seen)
    (hap : CopiesApart base seen)
    (hc : ∀ c' ∈ c :: seen, ∀ a, (c.reads base a → ¬ c'.writes base a) ∧
      (c'.reads base a → ¬ c.writes base a))
    (hr : Refines (par base set.copies mn) mo) :
    Refines (runBlock base (match set.mergeWith c with
      | some set => coalesce t set rest
      | none =>
        set.generate t ++
          (match CopySet.mergeWith {} c with
            | some set => coalesce t set rest
            | none => coalesce t {} rest)) mn)
      (runBlock base rest (c.exec base mo)) := by
  cases hm : set.mergeWith c with
  | some set' =>
    simp only
    refine ih set' mn _ (merge_inv set set' c hi hm).1 ?_ ?_
    · intro x hx
      rcases merge_mem set set' c hi hm x hx with rfl | hx
      · simp
      · exact List.mem_cons_of_mem _ (hsub x hx)
    · rw [merge_par base set set' c hi hm
        (fun x hx a => (hc x (List.mem_cons_of_mem _ (hsub x hx)) a).1) mn]
      exact c.exec_mono base hr
  | none =>
    obtain ⟨s0, hs0⟩ := merge_empty c
    simp only [hs0]
    rw [runBlock_append]
    refine ih s0 _ _ (merge_inv {} s0 c SetInv.init hs0).1 ?_ ?_
    · intro x hx
      rcases merge_mem {} s0 c SetInv.init hs0 x hx with rfl | hx
      · simp
      · simp [CopySet.copies] at hx
    · rw [merge_par base {} s0 c SetInv.init hs0 (fun x hx => by simp [CopySet.copies] at hx), par_nil]
      exact c.exec_mono base ((generate_spec base t set hi (apart_of hsub hap) mn).trans hr)

theorem coalesce_spec (base : Nat → Nat) (t : CopyTarget) (is : List Inst) (seen : List CCopy)
    (set : CopySet) (mn mo : UMem) (hok : BlockOK base seen is) (hi : SetInv set)
    (hsub : ∀ x ∈ set.copies, x ∈ seen) (hap : CopiesApart base seen)
    (hr : Refines (par base set.copies mn) mo) :
    Refines (runBlock base (coalesce t set is) mn) (runBlock base is mo) := by
  induction is generalizing seen set mn mo with
  | nil =>
    simp only [coalesce]
    exact (generate_spec base t set hi (apart_of hsub hap) mn).trans hr
  | cons i rest ih =>
    have hap' : ∀ c : CCopy, (∀ c' ∈ c :: seen, ∀ a, (c.reads base a → ¬ c'.writes base a) ∧
        (c'.reads base a → ¬ c.writes base a)) → CopiesApart base (c :: seen) := by
      intro c hc x hx y hy a h1 h2
      rcases List.mem_cons.1 hx with rfl | hx'
      · exact (hc y hy a).1 h1 h2
      · rcases List.mem_cons.1 hy with rfl | hy'
        · exact (hc x hx a).2 h1 h2
        · exact hap x hx' y hy' a h1 h2
    cases i with
    | copy c =>
      simp only [coalesce]
      exact coalesce_step base t rest c seen
        (fun set mn mo h1 h2 h3 => ih (c :: seen) set mn mo hok.2 h1 h2 (hap' c hok.1) h3)
        set mn mo hi hsub hap hok.1 hr
    | loadStore c mid =>
      obtain ⟨hmid, h1, h2⟩ := hok
      have hrun : runBlock base (.loadStore c mid :: rest) mo =
          runBlock base rest (c.exec base (mid.foldl (fun m o => o.eff m) mo)) := by
        rw [← loadStore_exec base c mid mo (fun o ho => ⟨(hmid o ho).1, (hmid o ho).2.1⟩)]
        rfl
      rw [hrun]
      simp only [coalesce]
      rw [runBlock_append, run_others]
      refine coalesce_step base t rest c seen
        (fun set mn mo g1 g2 g3 => ih (c :: seen) set mn mo h2 g1 g2 (hap' c h1) g3)
        set _ _ hi hsub hap h1 ?_
      rw [par_comms base set.copies mid
        (fun o ho => ⟨(hmid o ho).1, fun c' hc' => (hmid o ho).2.2 c' (hsub c' hc')⟩)]
      exact others_mono base mid (fun o ho => (hmid o ho).1) hr
    | other o =>
      obtain ⟨h1, h2, h3⟩ := hok
      simp only [coalesce]
      split
      · rename_i hre
        refine ih seen set (o.eff mn) (o.eff mo) h3 hi hsub hap ?_
        rw [reorder_spec base set o hi h1 hre (fun c hc => h2 c (hsub c hc)) mn]
        exact h1.mono _ _ hr
      · rw [runBlock_append]
        refine ih seen {} _ (o.eff mo) h3 SetInv.init (by simp [CopySet.copies]) hap ?_
        rw [par_nil]
        exact h1.mono _ _ ((generate_spec base t set hi (apart_of hsub hap) mn).trans hr)

/-- A coalesced block leaves the memory of the original block, except for undefined bytes. -/
theorem C35_block_partial (base : Nat → Nat) (t : CopyTarget) (is : List Inst) (m : UMem)
    (hok : BlockOK base [] is) :
    Refines (runBlock base (coalesce t {} is) m) (runBlock base is m) :=
  coalesce_spec base t is [] {} m m hok SetInv.init (by simp [CopySet.copies])
    (fun c hc => by simp at hc) (by rw [par_nil]; exact Refines.refl m)

theorem copies_ok (base : Nat → Nat) (cs seen : List CCopy)
    (h : ∀ c ∈ cs, ∀ c' ∈ cs ++ seen, ∀ a, (c.reads base a → ¬ c'.writes base a) ∧
      (c'.reads base a → ¬ c.writes base a)) : BlockOK base seen (cs.map .copy) := by
  induction cs generalizing seen with
  | nil => trivial
  | cons c cs ih =>
    refine ⟨fun c' hc' => h c (by simp) c' ?_, ih (c :: seen) ?_⟩
    · simp only [List.mem_cons, List.mem_append] at hc' ⊢
      rcases hc' with h | h
      · exact .inl (.inl h)
      · exact .inr h
    · intro x hx y hy
      refine h x (by simp [hx]) y ?_
      simp only [List.mem_cons, List.mem_append] at hy ⊢
      rcases hy with h | h | h
      · exact .inl (.inr h)
      · exact .inl (.inl h)
      · exact .inr h

/-- Every sequence of copies and poisons in which no copy reads what the sequence writes. -/
theorem C35_copies_partial (base : Nat → Nat) (t : CopyTarget) (cs : List CCopy) (m : UMem)
    (h : ∀ c ∈ cs, ∀ c' ∈ cs, ∀ a, c.reads base a → ¬ c'.writes base a) :
    Refines (runBlock base (coalesce t {} (cs.map .copy)) m) (runBlock base (cs.map .copy) m) :=
  C35_block_partial base t _ m (copies_ok base cs [] (fun c hc c' hc' a => by
    simp only [List.append_nil] at hc'
    exact ⟨h c hc c' hc' a, h c' hc' c hc a⟩))

/-! ## Examples -/

namespace Sample

def tgt : CopyTarget := ⟨64, fun _ _ _ => true⟩
def rootAt : Nat → Nat := fun r => 1000 * r

/-- Four fields copied out of order, with padding between them. -/
def fieldCopies : List CCopy :=
  [⟨some 0, 1, 4, 4, 4⟩, ⟨some 0, 1, 0, 0, 4⟩, ⟨some 0, 1, 8, 8, 3⟩, ⟨none, 1, 0, 11, 1⟩, ⟨some 0, 1, 16, 16, 8⟩]

theorem fieldCopies_ok : ∀ c ∈ fieldCopies, ∀ c' ∈ fieldCopies, ∀ a, c.reads rootAt a →
    ¬ c'.writes rootAt a := by
  have h : ∀ c ∈ fieldCopies, (∀ r, c.src = some r → r = 0) ∧ c.dst = 1 ∧ c.srcOff + c.len ≤ 24 := by
    decide +kernel
  intro c hc c' hc' a hr hw
  obtain ⟨r, hr1, hr2, hr3⟩ := hr
  have h1 := h c hc
  have h2 := h c' hc'
  have := h1.1 r hr1
  subst this
  simp only [CCopy.writes, h2.2.1, rootAt] at hw hr2 hr3
  omega

example (m : UMem) : Refines (runBlock rootAt (coalesce tgt {} (fieldCopies.map .copy)) m)
    (runBlock rootAt (fieldCopies.map .copy) m) :=
  C35_copies_partial rootAt tgt fieldCopies m fieldCopies_ok

def copiesOf : List Inst → List CCopy
  | [] => []
  | .copy c :: r => c :: copiesOf r
  | _ :: r => copiesOf r

/-- The three fields become one copy of 11 bytes, extended to nothing (the byte after the poison is not
written), and the last field stays. -/
example : copiesOf (coalesce tgt {} (fieldCopies.map .copy)) =
    [⟨some 0, 1, 0, 0, 11⟩, ⟨some 0, 1, 16, 16, 8⟩] := by decide +kernel

/-- With more padding the copy is extended over it. -/
example : copiesOf (coalesce tgt {} ([⟨some 0, 1, 0, 0, 3⟩, ⟨none, 1, 0, 3, 5⟩].map .copy)) =
    [⟨some 0, 1, 0, 0, 4⟩] := by decide +kernel

/-- An instruction that stores one byte. -/
def store (at_ : Nat) (v : UInt8) : Other where
  reads := fun _ => False
  writes := fun a => a = at_
  eff := fun m a => if a = at_ then some v else m a
  term := false
  mods := fun r n => decide (rootAt r ≤ at_ ∧ at_ < rootAt r + n)
  refs := fun _ _ => false

theorem store_ok (x : Nat) (v : UInt8) : (store x v).OK rootAt := by
  constructor
  · intro m a h; simp only [store] at h ⊢; simp [h]
  · intro m m' a _ h; simp only [store]; rw [h]
  · intro m m' h a
    simp only [store]
    split
    · exact .inr rfl
    · exact h a
  · intro r n a h h1 h2
    simp only [store] at h ⊢
    subst h; simp [h1, h2]
  · intro r n a h; exact h.elim

/-- A store elsewhere, between copies: the theorem applies and the copies are merged over it. -/
def storeBlock : List Inst :=
  [.copy ⟨some 0, 1, 0, 0, 4⟩, .other (store 2000 7), .loadStore ⟨some 0, 1, 4, 4, 4⟩ [store 2001 8]]

theorem storeBlock_ok : BlockOK rootAt [] storeBlock := by
  have hrw : ∀ c c' : CCopy, c.src = some 0 → c'.dst = 1 → c.srcOff + c.len ≤ 8 → ∀ a,
      c.reads rootAt a → ¬ c'.writes rootAt a := by
    intro c c' h1 h2 h3 a ⟨r, hr, h4, h5⟩ hw
    rw [h1] at hr
    simp only [Option.some.injEq] at hr
    subst hr
    simp only [CCopy.writes, h2, rootAt] at hw h4 h5
    omega
  refine ⟨?_, store_ok _ _, ?_, ?_, ?_, trivial⟩
  · intro c' hc' a
    simp only [List.mem_cons, List.not_mem_nil, or_false] at hc'
    subst hc'
    exact ⟨hrw _ _ rfl rfl (by simp) a, hrw _ _ rfl rfl (by simp) a⟩
  · intro c hc a hw
    simp only [List.mem_cons, List.not_mem_nil, or_false] at hc
    subst hc
    simp only [CCopy.writes, rootAt, store] at hw ⊢
    omega
  · intro o ho
    simp only [List.mem_cons, List.not_mem_nil, or_false] at ho
    subst ho
    refine ⟨store_ok _ _, ?_, ?_⟩
    · intro a ⟨r, hr, h1, h2⟩
      simp only [Option.some.injEq] at hr
      subst hr
      simp only [rootAt, store] at h1 h2 ⊢
      omega
    · intro c' hc' a
      simp only [List.mem_cons, List.not_mem_nil, or_false] at hc'
      subst hc'
      refine ⟨fun hw => ⟨?_, fun h => h.elim⟩, fun ⟨r, hr, h1, h2⟩ => ?_⟩
      · simp only [CCopy.writes, rootAt, store] at hw ⊢; omega
      · simp only [Option.some.injEq] at hr
        subst hr
        simp only [rootAt, store] at h1 h2 ⊢
        omega
  · intro c' hc' a
    simp only [List.mem_cons, List.not_mem_nil, or_false] at hc'
    rcases hc' with rfl | rfl
    · exact ⟨hrw _ _ rfl rfl (by simp) a, hrw _ _ rfl rfl (by simp) a⟩
    · exact ⟨hrw _ _ rfl rfl (by simp) a, hrw _ _ rfl rfl (by simp) a⟩

example (m : UMem) : Refines (runBlock rootAt (coalesce tgt {} storeBlock) m)
    (runBlock rootAt storeBlock m) := C35_block_partial rootAt tgt storeBlock m storeBlock_ok

example : copiesOf (coalesce tgt {} storeBlock) = [⟨some 0, 1, 0, 0, 8⟩] := by decide +kernel

end Sample

/-! ## What the code gets wrong -/

/-- `matchMemcpy` (92-115) does not ask whether the regions alias: a copy that reads what an earlier one wrote
is put before it when its destination is lower. -/
theorem C35_violated_alias : ∃ (cs : List CCopy) (m : UMem),
    ¬ Refines (runBlock Sample.rootAt (coalesce Sample.tgt {} (cs.map .copy)) m)
      (runBlock Sample.rootAt (cs.map .copy) m) := by
  refine ⟨[⟨some 1, 1, 0, 8, 4⟩, ⟨some 1, 1, 8, 4, 4⟩],
    fun a => if a = 1000 then some 1 else some 0, fun h => ?_⟩
  have := h 1004
  revert this
  decide +kernel

/-- `canReorderWith` (177-192) does not ask whether the instruction writes a destination of the set: a later
store is undone by the copy that is moved after it. -/
theorem C35_violated_overwrite : ∃ (is : List Inst) (m : UMem),
    ¬ Refines (runBlock Sample.rootAt (coalesce Sample.tgt {} is) m) (runBlock Sample.rootAt is m) := by
  refine ⟨[.copy ⟨some 0, 1, 0, 0, 4⟩, .other (Sample.store 1000 7)], fun _ => some 0, fun h => ?_⟩
  have := h 1000
  revert this
  decide +kernel

/-- `matchLoadAndStore` (117-161) skips what is between the load and the store: a store to the loaded bytes
comes before the copy. -/
theorem C35_violated_between : ∃ (is : List Inst) (m : UMem),
    ¬ Refines (runBlock Sample.rootAt (coalesce Sample.tgt {} is) m) (runBlock Sample.rootAt is m) := by
  refine ⟨[.loadStore ⟨some 0, 1, 0, 0, 4⟩ [Sample.store 0 7]], fun _ => some 0, fun h => ?_⟩
  have := h 1000
  revert this
  decide +kernel

end PJ
