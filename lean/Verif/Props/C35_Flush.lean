import Verif.Props.C35_Coalesce
/-!
# C35: copy coalescing preserves memory when stores follow a poison

In the blocks the code generator makes, a struct is poisoned before its fields are stored, so other
instructions do overwrite what an earlier "copy" (the poison) has written, which `BlockOK` forbids.  Here the
copies that may still wait in the set are followed more closely: a copy that overlaps a waiting one makes the
set be written out.  The alias analysis has to be right only about the parts of memory that it can be asked about.
-/
namespace PJ

/-! ## Specification -/

/-- Two copies that write a byte in common. -/
def CCopy.over (c c' : CCopy) : Bool :=
  c.dst == c'.dst && decide (0 < c.len) && decide (0 < c'.len) && decide (c.dstOff < c'.dstOff + c'.len) &&
    decide (c'.dstOff < c.dstOff + c.len)

/-- The copies that can wait in the set after `c`, the latest first, given those that could wait before. -/
def waiting (c : CCopy) (seen : List CCopy) : List CCopy := c :: seen.takeWhile (fun c' => !c.over c')

/-- As `Other.OK`, with an alias analysis that is sound for the locations `ask`. -/
structure Other.OKIn (base : Nat → Nat) (ask : Nat → Nat → Prop) (o : Other) : Prop where
  frame : ∀ m a, ¬ o.writes a → o.eff m a = m a
  dep : ∀ m m' a, (∀ x, o.reads x → m x = m' x) → m a = m' a → o.eff m a = o.eff m' a
  mono : ∀ m m', Refines m' m → Refines (o.eff m') (o.eff m)
  mods : ∀ r n a, ask r n → o.writes a → base r ≤ a → a < base r + n → o.mods r n = true
  refs : ∀ r n a, ask r n → o.reads a → base r ≤ a → a < base r + n → o.refs r n = true

/-- A copy that ends where the alias analysis can be asked. -/
def CCopy.Asked (ask : Nat → Nat → Prop) (c : CCopy) : Prop :=
  (∀ r, c.src = some r → ask r (c.srcOff + c.len)) ∧ ask c.dst (c.dstOff + c.len)

/-- What is assumed of a block, given the copies that may be waiting.  As `BlockOK`, but another instruction
may also overwrite what waits if only poisons wait (then the flag is set), and while that is so the next copy
that is not a poison must overlap the latest of them. -/
def FlushOK (base : Nat → Nat) (ask : Nat → Nat → Prop) : Bool → List CCopy → List Inst → Prop
  | _, _, [] => True
  | b, seen, .copy c :: r =>
    (∀ c' ∈ c :: seen, ∀ a, (c.reads base a → ¬ c'.writes base a) ∧ (c'.reads base a → ¬ c.writes base a)) ∧
    (b = true → c.src = none ∨ waiting c seen = [c]) ∧ c.Asked ask ∧
      FlushOK base ask (b && c.src.isNone) (waiting c seen) r
  | b, seen, .loadStore c mid :: r =>
    (∀ o ∈ mid, o.OK base ∧ (∀ a, c.reads base a → ¬ o.writes a) ∧
      ∀ c' ∈ seen, ∀ a, (c'.writes base a → ¬ o.writes a ∧ ¬ o.reads a) ∧ (c'.reads base a → ¬ o.writes a)) ∧
    (∀ c' ∈ c :: seen, ∀ a, (c.reads base a → ¬ c'.writes base a) ∧ (c'.reads base a → ¬ c.writes base a)) ∧
    (b = true → c.src = none ∨ waiting c seen = [c]) ∧ c.Asked ask ∧
      FlushOK base ask (b && c.src.isNone) (waiting c seen) r
  | b, seen, .other o :: r =>
    o.OKIn base ask ∧
    (((∀ c ∈ seen, ∀ a, c.writes base a → ¬ o.writes a) ∧ FlushOK base ask b seen r) ∨
     ((∀ c ∈ seen, c.src = none) ∧ FlushOK base ask true seen r))

/-! ## Waiting copies -/

/-- What waits in the set is a beginning of what may wait. -/
def Waits (s : CopySet) (seen : List CCopy) : Prop :=
  ∃ p q, seen = p ++ q ∧ (∀ x ∈ s.copies, x ∈ p) ∧ (∀ x ∈ p, 0 < x.len → x ∈ s.copies)

theorem Waits.mem {s : CopySet} {seen : List CCopy} (h : Waits s seen) : ∀ x ∈ s.copies, x ∈ seen := by
  obtain ⟨p, q, rfl, h1, _⟩ := h
  exact fun x hx => List.mem_append_left _ (h1 x hx)

theorem Waits.init (seen : List CCopy) : Waits {} seen :=
  ⟨[], seen, rfl, by simp [CopySet.copies], by simp⟩

theorem copies_chain (s : CopySet) (hi : SetInv s) :
    s.copies.Pairwise (fun x y => x.dstOff + x.len ≤ y.dstOff) := by
  simp only [CopySet.copies]
  cases s.dst with
  | none => simp
  | some d =>
    simp only [List.pairwise_map]
    exact hi.chain

/-- A copy that overlaps a waiting one is not merged. -/
theorem merge_over (s s' : CopySet) (c x : CCopy) (hi : SetInv s) (h : s.mergeWith c = some s')
    (hx : x ∈ s.copies) : c.over x = false := by
  cases ho : c.over x with
  | false => rfl
  | true =>
    simp only [CCopy.over, Bool.and_eq_true, decide_eq_true_eq] at ho
    obtain ⟨⟨⟨⟨-, h1⟩, h2⟩, h3⟩, h4⟩ := ho
    obtain ⟨hi', hm⟩ := merge_inv s s' c hi h
    rcases hm with ⟨lo, hs, e1, e2, -⟩ | ⟨-, e2⟩
    · have hc := copies_chain s' hi'
      rw [e2] at hc
      rw [e1] at hx
      obtain ⟨-, g1, g2⟩ := List.pairwise_append.1 hc
      rcases List.mem_append.1 hx with hx | hx
      · have := g2 x hx c (by simp)
        omega
      · have := (List.pairwise_cons.1 g1).1 x hx
        omega
    · omega

theorem merge_mem' (s s' : CopySet) (c : CCopy) (hi : SetInv s) (h : s.mergeWith c = some s') :
    (∀ x ∈ s.copies, x ∈ s'.copies) ∧ (0 < c.len → c ∈ s'.copies) := by
  rcases (merge_inv s s' c hi h).2 with ⟨lo, hs, h1, h2, _⟩ | ⟨h1, h2⟩
  · rw [h1, h2]
    simp only [List.mem_append, List.mem_cons]
    exact ⟨fun x hx => by rcases hx with hx | hx <;> simp [hx], fun _ => by simp⟩
  · rw [h1]
    exact ⟨fun _ h => h, fun h => by omega⟩

/-- Merging into the empty set. -/
theorem Waits.one {s : CopySet} {c : CCopy} (h : CopySet.mergeWith {} c = some s) (seen : List CCopy) :
    Waits s (waiting c seen) := by
  refine ⟨[c], _, rfl, fun x hx => ?_, fun x hx hl => ?_⟩
  · rcases merge_mem {} s c SetInv.init h x hx with rfl | hx
    · simp
    · simp [CopySet.copies] at hx
  · simp only [List.mem_singleton] at hx
    subst hx
    exact (merge_mem' {} s x SetInv.init h).2 hl

theorem Waits.merge {s s' : CopySet} {c : CCopy} {seen : List CCopy} (hi : SetInv s) (hw : Waits s seen)
    (h : s.mergeWith c = some s') : Waits s' (waiting c seen) := by
  obtain ⟨p, q, rfl, h1, h2⟩ := hw
  have hp : ∀ x ∈ p, (!c.over x) = true := by
    intro x hx
    by_cases hl : 0 < x.len
    · simp [merge_over s s' c x hi h (h2 x hx hl)]
    · simp [CCopy.over, hl]
  refine ⟨c :: p, q.takeWhile (fun c' => !c.over c'), ?_, fun x hx => ?_, fun x hx hl => ?_⟩
  · simp only [waiting, List.takeWhile_append_of_pos hp, List.cons_append]
  · rcases merge_mem s s' c hi h x hx with rfl | hx
    · simp
    · exact List.mem_cons_of_mem _ (h1 x hx)
  · rcases List.mem_cons.1 hx with rfl | hx
    · exact (merge_mem' s s' x hi h).2 hl
    · exact (merge_mem' s s' c hi h).1 x (h2 x hx hl)

theorem waiting_sub (c : CCopy) (seen : List CCopy) : ∀ x ∈ waiting c seen, x ∈ c :: seen := by
  intro x hx
  simp only [waiting, List.mem_cons] at hx ⊢
  rcases hx with hx | hx
  · exact .inl hx
  · exact .inr ((List.takeWhile_sublist _).mem hx)

/-! ## Only poisons wait -/

theorem genLoop_poison (t : CopyTarget) (src : Option Nat) (p : Piece) (rest : List Piece)
    (h : ∀ x ∈ p :: rest, x.poison = true) : ∀ x ∈ genLoop t src p rest, x.poison = true := by
  induction rest generalizing p with
  | nil => simpa [genLoop] using h
  | cons q rest ih =>
    simp only [genLoop]
    split
    · refine ih _ (fun x hx => ?_)
      rcases List.mem_cons.1 hx with rfl | hx
      · exact h p (by simp)
      · exact h x (by simp [hx])
    · intro x hx
      rcases List.mem_cons.1 hx with rfl | hx
      · simp [extendPiece, h p (by simp)]
      · exact ih q (fun y hy => h y (List.mem_cons_of_mem _ hy)) x hx

theorem generate_poison (t : CopyTarget) (s : CopySet) (h : ∀ x ∈ s.copies, x.src = none) :
    s.generate t = [] := by
  simp only [CopySet.generate]
  cases hst : s.starts with
  | nil => rfl
  | cons p rest =>
    simp only [List.filterMap_eq_nil_iff]
    intro x hx
    cases hs : s.src with
    | none => simp
    | some r =>
      cases hd : s.dst with
      | none => simp
      | some d =>
        have hp : ∀ y ∈ p :: rest, y.poison = true := by
          intro y hy
          have := h (y.toCopy s.src d) (by
            simp only [CopySet.copies, hd, hst]
            exact List.mem_map_of_mem hy)
          cases hy' : y.poison with
          | true => rfl
          | false => simp [Piece.toCopy, hy', hs] at this
        simp [genLoop_poison t s.src p rest hp x hx]

theorem par_poison (base : Nat → Nat) (cs : List CCopy) (h : ∀ x ∈ cs, x.src = none) {mn mo : UMem}
    (hr : Refines (par base cs mn) mo) : Refines mn mo := by
  intro a
  rcases hr a with hr | hr
  · exact .inl hr
  · simp only [par] at hr
    cases hf : cs.find? (CCopy.hits base a) with
    | none => rw [hf] at hr; exact .inr hr
    | some c =>
      rw [hf] at hr
      simp only [CCopy.val, h c (List.mem_of_find?_eq_some hf)] at hr
      exact .inl hr.symm

theorem exec_poison (base : Nat → Nat) (c : CCopy) (h : c.src = none) {mn mo : UMem} (hr : Refines mn mo) :
    Refines mn (c.exec base mo) := by
  intro a
  simp only [CCopy.exec, h]
  split
  · exact .inl rfl
  · exact hr a

/-! ## What the alias analysis is asked -/

/-- The locations the set asks about. -/
structure Asks (ask : Nat → Nat → Prop) (s : CopySet) : Prop where
  src : ∀ r, s.src = some r → ask r s.loadEnd
  noSrc : s.src = none → s.loadEnd = 0
  dst : ∀ d, s.dst = some d → ask d s.storeEnd
  noDst : s.dst = none → s.storeEnd = 0 ∧ s.src = none

theorem Asks.init (ask : Nat → Nat → Prop) : Asks ask {} := by constructor <;> simp

theorem max_cases {p : Nat → Prop} {a b : Nat} (ha : p a) (hb : p b) : p (max a b) := by
  rcases Nat.le_total a b with h | h
  · rwa [Nat.max_eq_right h]
  · rwa [Nat.max_eq_left h]

theorem merge_ends {s s' : CopySet} {c : CCopy} (h : s.mergeWith c = some s') :
    (s.dst = none → s'.src = c.src) ∧ (s.src = none → s'.src = c.src ∨ s.dst = none) ∧
    (s.dst ≠ none → s.src ≠ none → s'.src = s.src ∧ (c.src ≠ none → s.src = c.src)) ∧
    s'.dst = some c.dst ∧ (s.dst ≠ none → s.dst = some c.dst) ∧
    s'.loadEnd = (if c.src = none then s.loadEnd else max s.loadEnd (c.srcOff + c.len)) ∧
    s'.storeEnd = max s.storeEnd (c.dstOff + c.len) := by
  simp only [CopySet.mergeWith] at h
  generalize hs0 : (if s.dst = none then c.src else s.src) = s0 at h
  generalize hd0 : (if s.dst = none then some c.dst else s.dst) = d0 at h
  by_cases hroots : (s0 ≠ none ∧ c.src ≠ none ∧ s0 ≠ c.src) ∨ d0 ≠ some c.dst
  · rw [if_pos hroots] at h
    simp at h
  · rw [if_neg hroots] at h
    obtain ⟨-, rfl⟩ := ite_none_some h
    simp only
    clear h
    cases hd : s.dst <;> cases hs : s.src <;> cases hc : c.src <;> subst hs0 hd0 <;> simp_all

theorem Asks.merge {ask : Nat → Nat → Prop} {s s' : CopySet} {c : CCopy} (ha : Asks ask s) (hc : c.Asked ask)
    (h : s.mergeWith c = some s') : Asks ask s' := by
  obtain ⟨h1, h2, h3, h4, h5, h6, h7⟩ := merge_ends h
  have hnd : ∀ d, s'.dst = some d → ask d s'.storeEnd := by
    intro d hd
    rw [h4] at hd
    simp only [Option.some.injEq] at hd
    subst hd
    rw [h7]
    cases hd : s.dst with
    | none =>
      rw [(ha.noDst hd).1, Nat.zero_max]
      exact hc.2
    | some d =>
      have := h5 (by simp [hd])
      rw [hd] at this
      simp only [Option.some.injEq] at this
      subst this
      exact max_cases (ha.dst _ hd) hc.2
  cases hs : s.src with
  | none =>
    have hsrc : s'.src = c.src := (h2 hs).elim id h1
    refine ⟨fun r hr => ?_, fun hn => ?_, hnd, by simp [h4]⟩
    · rw [hsrc] at hr
      rw [h6, if_neg (by simp [hr]), ha.noSrc hs, Nat.zero_max]
      exact hc.1 r hr
    · rw [hsrc] at hn
      rw [h6, if_pos hn, ha.noSrc hs]
  | some q =>
    have hd : s.dst ≠ none := fun hd => by simp [(ha.noDst hd).2] at hs
    obtain ⟨g1, g2⟩ := h3 hd (by simp [hs])
    refine ⟨fun r hr => ?_, fun hn => by simp [g1, hs] at hn, hnd, by simp [h4]⟩
    rw [g1] at hr
    rw [h6]
    split
    · exact ha.src r hr
    · rename_i hcs
      exact max_cases (ha.src r hr) (hc.1 r ((g2 hcs).symm.trans hr))

open Classical in
/-- The same instruction with an alias analysis that is always sound. -/
noncomputable def Other.patch (ask : Nat → Nat → Prop) (o : Other) : Other :=
  { o with
    mods := fun r n => if ask r n then o.mods r n else true
    refs := fun r n => if ask r n then o.refs r n else true }

theorem Other.OKIn.patch {base : Nat → Nat} {ask : Nat → Nat → Prop} {o : Other} (h : o.OKIn base ask) :
    (o.patch ask).OK base where
  frame := h.frame
  dep := h.dep
  mono := h.mono
  mods := fun r n a h1 h2 h3 => by
    simp only [Other.patch]
    split
    · rename_i hh; exact h.mods r n a hh h1 h2 h3
    · rfl
  refs := fun r n a h1 h2 h3 => by
    simp only [Other.patch]
    split
    · rename_i hh; exact h.refs r n a hh h1 h2 h3
    · rfl

theorem reorder_patch {ask : Nat → Nat → Prop} {s : CopySet} (ha : Asks ask s) (o : Other) :
    s.canReorderWith (o.patch ask) = s.canReorderWith o := by
  simp only [CopySet.canReorderWith]
  cases hd : s.dst with
  | none => rfl
  | some d =>
    cases hs : s.src with
    | none => simp [Other.patch, ha.dst d hd]
    | some r => simp [Other.patch, ha.dst d hd, ha.src r hs]

/-! ## The block -/

/-- The state of the pass and of the memories. -/
structure FInv (base : Nat → Nat) (ask : Nat → Nat → Prop) (b : Bool) (seen : List CCopy) (set : CopySet) (mn mo : UMem) : Prop where
  inv : SetInv set
  asks : Asks ask set
  waits : Waits set seen
  apart : CopiesApart base seen
  poison : b = true → ∀ x ∈ seen, x.src = none
  soft : b = true → Refines mn mo
  hard : b = false → Refines (par base set.copies mn) mo

/-- The set can be written out. -/
theorem FInv.flush {base : Nat → Nat} {ask : Nat → Nat → Prop} {b : Bool} {seen : List CCopy} {set : CopySet} {mn mo : UMem}
    (h : FInv base ask b seen set mn mo) (t : CopyTarget) :
    Refines (runBlock base (set.generate t) mn) mo := by
  cases b with
  | true =>
    rw [generate_poison t set (fun x hx => h.poison rfl x (h.waits.mem x hx))]
    exact h.soft rfl
  | false =>
    exact (generate_spec base t set h.inv (apart_of h.waits.mem h.apart) mn).trans (h.hard rfl)

theorem flush_step (base : Nat → Nat) (ask : Nat → Nat → Prop) (t : CopyTarget) (rest : List Inst) (c : CCopy) (b : Bool)
    (seen : List CCopy)
    (ih : ∀ (set : CopySet) (mn mo : UMem), FInv base ask (b && c.src.isNone) (waiting c seen) set mn mo →
      Refines (runBlock base (coalesce t set rest) mn) (runBlock base rest mo))
    (set : CopySet) (mn mo : UMem) (hI : FInv base ask b seen set mn mo)
    (hc : ∀ c' ∈ c :: seen, ∀ a, (c.reads base a → ¬ c'.writes base a) ∧
      (c'.reads base a → ¬ c.writes base a))
    (hb : b = true → c.src = none ∨ waiting c seen = [c]) (hca : c.Asked ask) :
    Refines (runBlock base (match set.mergeWith c with
      | some set => coalesce t set rest
      | none =>
        set.generate t ++
          (match CopySet.mergeWith {} c with
            | some set => coalesce t set rest
            | none => coalesce t {} rest)) mn)
      (runBlock base rest (c.exec base mo)) := by
  have hap : CopiesApart base (waiting c seen) := by
    intro x hx y hy a h1 h2
    have hx := waiting_sub c seen x hx
    have hy := waiting_sub c seen y hy
    rcases List.mem_cons.1 hx with rfl | hx'
    · exact (hc y hy a).1 h1 h2
    · rcases List.mem_cons.1 hy with rfl | hy'
      · exact (hc x hx a).2 h1 h2
      · exact hI.apart x hx' y hy' a h1 h2
  have hpo : (b && c.src.isNone) = true → ∀ x ∈ waiting c seen, x.src = none := by
    intro h x hx
    simp only [Bool.and_eq_true, Option.isNone_iff_eq_none] at h
    rcases List.mem_cons.1 (waiting_sub c seen x hx) with rfl | hx
    · exact h.2
    · exact hI.poison h.1 x hx
  cases hm : set.mergeWith c with
  | some set' =>
    simp only
    refine ih set' mn _ ⟨(merge_inv set set' c hI.inv hm).1, hI.asks.merge hca hm, hI.waits.merge hI.inv hm, hap, hpo, fun h => ?_,
      fun h => ?_⟩
    · simp only [Bool.and_eq_true, Option.isNone_iff_eq_none] at h
      exact exec_poison base c h.2 (hI.soft h.1)
    · rw [merge_par base set set' c hI.inv hm
        (fun x hx a => (hc x (List.mem_cons_of_mem _ (hI.waits.mem x hx)) a).1) mn]
      cases hbb : b with
      | false => exact c.exec_mono base (hI.hard hbb)
      | true =>
        -- the next copy overlaps what waits, so nothing waits
        have hsn : c.src ≠ none := by
          intro hn
          rw [hbb, hn] at h
          simp at h
        have hone := (hb hbb).resolve_left hsn
        have hemp : set.copies = [] := by
          obtain ⟨p, q, rfl, h1, h2⟩ := hI.waits
          cases p with
          | nil => exact List.eq_nil_iff_forall_not_mem.2 (fun x hx => by simpa using h1 x hx)
          | cons y ys =>
            exfalso
            simp only [waiting, List.cons_append, List.takeWhile_cons, List.cons.injEq, true_and] at hone
            split at hone
            · simp at hone
            · rename_i hov
              have hov : c.over y = true := by simpa using hov
              have hyl : 0 < y.len := by
                simp only [CCopy.over, Bool.and_eq_true, decide_eq_true_eq] at hov
                exact hov.1.1.2
              have := merge_over set set' c y hI.inv hm (h2 y (by simp) hyl)
              rw [hov] at this
              simp at this
        rw [hemp]
        exact c.exec_mono base (hI.soft hbb)
  | none =>
    obtain ⟨s0, hs0⟩ := merge_empty c
    simp only [hs0]
    rw [runBlock_append]
    refine ih s0 _ _ ⟨(merge_inv {} s0 c SetInv.init hs0).1, (Asks.init ask).merge hca hs0, Waits.one hs0 seen, hap, hpo, fun h => ?_,
      fun h => ?_⟩
    · simp only [Bool.and_eq_true, Option.isNone_iff_eq_none] at h
      exact exec_poison base c h.2 (hI.flush t)
    · rw [merge_par base {} s0 c SetInv.init hs0 (fun x hx => by simp [CopySet.copies] at hx), par_nil]
      exact c.exec_mono base (hI.flush t)

theorem flush_spec (base : Nat → Nat) (ask : Nat → Nat → Prop) (t : CopyTarget) (is : List Inst) (b : Bool) (seen : List CCopy)
    (set : CopySet) (mn mo : UMem) (hok : FlushOK base ask b seen is) (hI : FInv base ask b seen set mn mo) :
    Refines (runBlock base (coalesce t set is) mn) (runBlock base is mo) := by
  induction is generalizing b seen set mn mo with
  | nil => exact hI.flush t
  | cons i rest ih =>
    cases i with
    | copy c =>
      simp only [coalesce]
      exact flush_step base ask t rest c b seen (fun set mn mo h => ih _ _ set mn mo hok.2.2.2 h) set mn mo hI
        hok.1 hok.2.1 hok.2.2.1
    | loadStore c mid =>
      obtain ⟨hmid, h1, h2, h4, h3⟩ := hok
      have hrun : runBlock base (.loadStore c mid :: rest) mo =
          runBlock base rest (c.exec base (mid.foldl (fun m o => o.eff m) mo)) := by
        rw [← loadStore_exec base c mid mo (fun o ho => ⟨(hmid o ho).1, (hmid o ho).2.1⟩)]
        rfl
      rw [hrun]
      simp only [coalesce]
      rw [runBlock_append, run_others]
      refine flush_step base ask t rest c b seen (fun set mn mo h => ih _ _ set mn mo h3 h) set _ _
        ⟨hI.inv, hI.asks, hI.waits, hI.apart, hI.poison, fun h => ?_, fun h => ?_⟩ h1 h2 h4
      · exact others_mono base mid (fun o ho => (hmid o ho).1) (hI.soft h)
      · rw [par_comms base set.copies mid
          (fun o ho => ⟨(hmid o ho).1, fun c' hc' => (hmid o ho).2.2 c' (hI.waits.mem c' hc')⟩)]
        exact others_mono base mid (fun o ho => (hmid o ho).1) (hI.hard h)
    | other o =>
      obtain ⟨h1, h2⟩ := hok
      have hset : ∀ b', FlushOK base ask b' seen rest → (b' = true → ∀ x ∈ seen, x.src = none) →
          Refines (runBlock base (set.generate t ++ .other o :: coalesce t {} rest) mn)
            (runBlock base (.other o :: rest) mo) := by
        intro b' hok' hpo
        rw [runBlock_append]
        refine ih b' seen {} _ (o.eff mo) hok'
          ⟨SetInv.init, Asks.init ask, Waits.init seen, hI.apart, hpo, fun _ => ?_, fun _ => ?_⟩
        · exact h1.mono _ _ (hI.flush t)
        · rw [par_nil]
          exact h1.mono _ _ (hI.flush t)
      simp only [coalesce]
      rcases h2 with ⟨hw, hok⟩ | ⟨hp, hok⟩
      · split
        · rename_i hre
          refine ih b seen set (o.eff mn) (o.eff mo) hok
            ⟨hI.inv, hI.asks, hI.waits, hI.apart, hI.poison, fun h => h1.mono _ _ (hI.soft h), fun h => ?_⟩
          have := reorder_spec base set (o.patch ask) hI.inv h1.patch ((reorder_patch hI.asks o).trans hre)
            (fun c hc => hw c (hI.waits.mem c hc)) mn
          rw [show par base set.copies (o.eff mn) = o.eff (par base set.copies mn) from this]
          exact h1.mono _ _ (hI.hard h)
        · exact hset b hok hI.poison
      · split
        · refine ih true seen set (o.eff mn) (o.eff mo) hok
            ⟨hI.inv, hI.asks, hI.waits, hI.apart, fun _ => hp, fun _ => ?_, fun h => by simp at h⟩
          refine h1.mono _ _ ?_
          cases hb : b with
          | true => exact hI.soft hb
          | false => exact par_poison base set.copies (fun x hx => hp x (hI.waits.mem x hx)) (hI.hard hb)
        · exact hset true hok (fun _ => hp)

/-- A coalesced block leaves the memory of the original block, except for undefined bytes, also when
instructions store into what an earlier poison has covered. -/
theorem C35_flush_partial (base : Nat → Nat) (ask : Nat → Nat → Prop) (t : CopyTarget) (is : List Inst) (m : UMem)
    (hok : FlushOK base ask false [] is) :
    Refines (runBlock base (coalesce t {} is) m) (runBlock base is m) :=
  flush_spec base ask t is false [] {} m m hok
    ⟨SetInv.init, Asks.init ask, Waits.init [], fun c hc => by simp at hc, fun h => by simp at h, fun _ => Refines.refl m,
      fun _ => Refines.refl m⟩

/-- Every block that meets the assumption of `C35_block_partial` meets this one. -/
theorem FlushOK.of_block (base : Nat → Nat) (is : List Inst) (seen seen' : List CCopy)
    (hs : ∀ x ∈ seen, x ∈ seen') (h : BlockOK base seen' is) :
    FlushOK base (fun _ _ => True) false seen is := by
  have hsub : ∀ c : CCopy, ∀ x ∈ c :: seen, x ∈ c :: seen' := by
    intro c x hx
    rcases List.mem_cons.1 hx with rfl | hx
    · simp
    · exact List.mem_cons_of_mem _ (hs x hx)
  induction is generalizing seen seen' with
  | nil => trivial
  | cons i rest ih =>
    have ih' : ∀ c : CCopy, BlockOK base (c :: seen') rest →
        FlushOK base (fun _ _ => True) false (waiting c seen) rest := by
      intro c hc
      have hw : ∀ x ∈ waiting c seen, x ∈ c :: seen' := fun x hx => hsub c x (waiting_sub c seen x hx)
      refine ih _ _ hw hc (fun d x hx => ?_)
      rcases List.mem_cons.1 hx with rfl | hx
      · simp
      · exact List.mem_cons_of_mem _ (hw x hx)
    cases i with
    | copy c => exact ⟨fun c' hc' => h.1 c' (hsub c c' hc'), fun hb => by simp at hb, ⟨fun _ _ => trivial, trivial⟩, ih' c h.2⟩
    | loadStore c mid =>
      exact ⟨fun o ho => ⟨(h.1 o ho).1, (h.1 o ho).2.1, fun c' hc' => (h.1 o ho).2.2 c' (hs c' hc')⟩,
        fun c' hc' => h.2.1 c' (hsub c c' hc'), fun hb => by simp at hb, ⟨fun _ _ => trivial, trivial⟩, ih' c h.2.2⟩
    | other o =>
      exact ⟨⟨h.1.frame, h.1.dep, h.1.mono, fun r n a _ => h.1.mods r n a, fun r n a _ => h.1.refs r n a⟩, .inl ⟨fun c hc => h.2.1 c (hs c hc), ih seen seen' hs h.2.2 hsub⟩⟩

/-! A poison of 4 bytes at 200, a store of zero at 200, and a copy from 100 to 202: `BlockOK` excludes this. -/
namespace C35

def zero : Other where
  reads := fun _ => False
  writes := fun a => a = 200
  eff := fun m a => if a = 200 then some 0 else m a
  term := false
  mods := fun r _ => r == 1
  refs := fun _ _ => false

def roots : Nat → Nat := fun r => if r = 0 then 100 else 200

theorem zero_ok : zero.OKIn roots (fun r n => r ≤ 1 ∧ n ≤ 4) where
  frame := fun m a h => by simp only [zero] at h ⊢; rw [if_neg h]
  dep := fun m m' a _ h => by simp only [zero]; rw [h]
  mono := fun m m' h a => by
    simp only [zero]
    split
    · exact .inr rfl
    · exact h a
  mods := fun r n a h1 h2 h3 h4 => by
    simp only [zero, roots] at h2 h3 h4 ⊢
    split at h4 <;> simp <;> omega
  refs := fun r n a _ h => by simp [zero] at h

def poisoned : List Inst := [.copy ⟨none, 1, 0, 0, 4⟩, .other zero, .copy ⟨some 0, 1, 0, 2, 2⟩]

example (t : CopyTarget) (m : UMem) :
    Refines (runBlock roots (coalesce t {} poisoned) m) (runBlock roots poisoned m) := by
  refine C35_flush_partial roots (fun r n => r ≤ 1 ∧ n ≤ 4) t poisoned m ⟨?_, by simp, ?_, zero_ok, .inr ⟨?_, ?_, ?_, ?_, trivial⟩⟩
  · intro c' h a
    simp only [List.mem_singleton] at h
    subst h
    simp [CCopy.reads]
  · exact ⟨by simp, by simp⟩
  · simp [waiting]
  · intro c' h a
    simp only [waiting, List.takeWhile_nil, List.mem_cons, List.not_mem_nil, or_false] at h
    rcases h with rfl | rfl <;> simp [CCopy.reads, CCopy.writes, roots] <;> omega
  · intro _
    right
    rfl
  · exact ⟨by simp, by simp⟩

end C35

end PJ
