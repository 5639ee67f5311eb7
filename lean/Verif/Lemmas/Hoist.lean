import Verif.Spec.Schema
import Verif.Props.C24_Intern
/-!
# The loop of vector hoisting
-/
namespace PJ

mutual
/-- A split halves the number of vectors that can be split: both versions have one less. -/
theorem splitFirst_eligible : ∀ (t : Ty) (s : Split), splitFirst t = some s →
    eligible s.short + 1 = eligible t ∧ eligible s.long + 1 = eligible t
  | .vector e l, s, h => by
    simp only [splitFirst] at h
    split at h
    · cases h
    · rename_i hn
      cases h
      simp [eligible, bareVec, hn]
  | .struct fs sz al, s, h => by
    simp only [splitFirst] at h
    split at h
    · rename_i n short long path hs
      cases h
      simp only [eligible]
      exact splitFields_eligible fs n short long path hs
    · cases h
  | .int _ _ _, s, h => by simp [splitFirst] at h
  | .float _ _, s, h => by simp [splitFirst] at h
  | .unit, s, h => by simp [splitFirst] at h
  | .variant _ _, s, h => by simp [splitFirst] at h
  | .array _ _ _ _, s, h => by simp [splitFirst] at h
termination_by structural t => t
theorem splitFields_eligible : ∀ (fs : Fields) (n : Nat) (short long : Fields) (path : Path),
    splitFields fs = some (n, short, long, path) →
    eligibleFields short + 1 = eligibleFields fs ∧ eligibleFields long + 1 = eligibleFields fs
  | .nil, n, short, long, path, h => by simp [splitFields] at h
  | .cons c o t r, n, short, long, path, h => by
    simp only [splitFields] at h
    split at h
    · rename_i s hs
      cases h
      have := splitFirst_eligible t s hs
      simp only [eligibleFields]
      omega
    · split at h
      · rename_i k s l p hs
        cases h
        have := splitFields_eligible r _ _ _ _ hs
        simp only [eligibleFields]
        omega
      · cases h
termination_by structural fs => fs
end

mutual
theorem splitFirst_none : ∀ t : Ty, splitFirst t = none → eligible t = 0
  | .vector e l, h => by
    simp only [splitFirst] at h
    split at h
    · rename_i hn; simp [eligible, hn]
    · cases h
  | .struct fs sz al, h => by
    simp only [splitFirst] at h
    split at h
    · cases h
    · rename_i hs
      simp only [eligible]
      exact splitFields_none fs hs
  | .int _ _ _, h => by simp [eligible]
  | .float _ _, h => by simp [eligible]
  | .unit, h => by simp [eligible]
  | .variant _ _, h => by simp [eligible]
  | .array _ _ _ _, h => by simp [eligible]
termination_by structural t => t
theorem splitFields_none : ∀ fs : Fields, splitFields fs = none → eligibleFields fs = 0
  | .nil, h => by simp [eligibleFields]
  | .cons c o t r, h => by
    simp only [splitFields] at h
    split at h
    · cases h
    · rename_i h1
      split at h
      · cases h
      · rename_i h2
        simp only [eligibleFields, splitFirst_none t h1, splitFields_none r h2]
termination_by structural fs => fs
end

/-- The long version of a term. -/
def Term.longOf (t : Term) (s : Split) : Term :=
  { t with ty := s.long, attrs := t.attrs ++ [.split false s.len s.path] }

/-- The short version of a term. -/
def Term.shortOf (t : Term) (s : Split) (tag : Nat) : Term :=
  { t with ty := s.short, tag := tag, attrs := t.attrs ++ [.split true s.len s.path] }

theorem splitTerms_some {tag : Nat} : ∀ {ts l : List Term} {s : Term}, splitTerms tag ts = some (l, s) →
    ∃ pre t post sp, ts = pre ++ t :: post ∧ splitFirst t.ty = some sp ∧
      l = pre ++ t.longOf sp :: post ∧ s = t.shortOf sp tag
  | [], l, s, h => by simp [splitTerms] at h
  | t :: r, l, s, h => by
    simp only [splitTerms] at h
    split at h
    · rename_i sp hsp
      cases h
      exact ⟨[], t, r, sp, rfl, hsp, rfl, rfl⟩
    · split at h
      · rename_i l' s' hs
        cases h
        obtain ⟨pre, t', post, sp, rfl, h2, rfl, rfl⟩ := splitTerms_some hs
        exact ⟨t :: pre, t', post, sp, rfl, h2, rfl, rfl⟩
      · cases h

theorem splitTerms_none {tag : Nat} : ∀ {ts : List Term}, splitTerms tag ts = none →
    ∀ t ∈ ts, splitFirst t.ty = none
  | [], _, t, ht => by cases ht
  | x :: r, h, t, ht => by
    simp only [splitTerms] at h
    split at h
    · cases h
    · rename_i h1
      split at h
      · cases h
      · rename_i h2
        rcases List.mem_cons.1 ht with rfl | ht
        · exact h1
        · exact splitTerms_none h2 t ht

theorem internTerms_perm (ts : List Term) (d : Nat) : (internTerms ts d).1.Perm ts := by
  have h := ((C24_sorted (fun t : Term => t.ty.size == 0) (ts.map fun t => (nameBytes t.name, t)) d).1).map (·.2)
  rw [List.map_map] at h
  have he : ts.map ((fun x => x.2) ∘ fun t : Term => (nameBytes t.name, t)) = ts := by
    rw [show ((fun x => x.2) ∘ fun t : Term => (nameBytes t.name, t)) = id from rfl, List.map_id]
  rw [he] at h
  exact h

theorem internTerms_dflt (ts : List Term) (d : Nat) (hd : d < ts.length) :
    (internTerms ts d).1[(internTerms ts d).2]? = ts[d]? := by
  have h := C24_default (fun t : Term => t.ty.size == 0) (ts.map fun t => (nameBytes t.name, t)) d
    (by simpa using hd)
  simp only [internTerms, List.getElem?_map]
  rw [h, List.getElem?_map]
  cases ts[d]? <;> rfl

theorem find?_insertTerm {β} {p : (Str × β) × Nat → Bool}
    (hp : ∀ x y, p x = true → p y = true → Str.less y.1.1 x.1.1 = false) (x : (Str × β) × Nat) :
    ∀ l, (insertTerm x l).find? p = (x :: l).find? p
  | [] => rfl
  | y :: ys => by
    simp only [insertTerm]
    split
    · rename_i hl
      rw [List.find?_cons, find?_insertTerm hp x ys]
      simp only [List.find?_cons]
      cases hx : p x <;> cases hy : p y <;> simp
      rw [hp x y hx hy] at hl
      cases hl
    · rfl

theorem find?_sortTerms {β} {p : (Str × β) × Nat → Bool}
    (hp : ∀ x y, p x = true → p y = true → Str.less y.1.1 x.1.1 = false) :
    ∀ l, (sortTerms l).find? p = l.find? p
  | [] => rfl
  | x :: xs => by
    rw [sortTerms, find?_insertTerm hp, List.find?_cons, List.find?_cons, find?_sortTerms hp xs]

theorem find?_congr_mem {α} {p q : α → Bool} : ∀ {l : List α}, (∀ x ∈ l, p x = q x) → l.find? p = l.find? q
  | [], _ => rfl
  | x :: xs, h => by
    rw [List.find?_cons, List.find?_cons, h x (by simp), find?_congr_mem fun y hy => h y (by simp [hy])]

theorem find?_zipIdx {α} {p : α → Bool} : ∀ (l : List α) (k : Nat),
    ((l.zipIdx k).find? (fun x => p x.1)).map (·.1) = l.find? p
  | [], _ => rfl
  | x :: xs, k => by
    simp only [List.zipIdx_cons, List.find?_cons]
    cases hx : p x
    · exact find?_zipIdx xs (k + 1)
    · rfl

/-- The first term of a name stays the first one. -/
theorem internTerms_first (ts : List Term) (d : Nat) (c : Comp) :
    (internTerms ts d).1.find? (fun t => t.name == c) = ts.find? (fun t => t.name == c) := by
  simp only [internTerms, internVariant, List.find?_map]
  have h1 := find?_sortTerms (p := fun x : (Str × Term) × Nat => x.1.2.name == c &&
      x.1.1 == nameBytes c) (fun x y hx hy => by
    simp only [Bool.and_eq_true, beq_iff_eq] at hx hy
    rw [hx.2, hy.2]; exact Str.less_irrefl _) (ts.map fun t => (nameBytes t.name, t)).zipIdx
  have h2 : ∀ x ∈ (ts.map fun t => (nameBytes t.name, t)).zipIdx,
      (x.1.2.name == c && x.1.1 == nameBytes c) = (x.1.2.name == c) := by
    intro x hx
    have := List.fst_mem_of_mem_zipIdx hx
    obtain ⟨t, _, ht⟩ := List.mem_map.1 this
    rw [← ht]
    by_cases hc : t.name = c
    · simp [hc]
    · have : (t.name == c) = false := by simpa using hc
      simp [this]
  have h3 := sortTerms_perm (ts.map fun t => (nameBytes t.name, t)).zipIdx
  rw [find?_congr_mem h2, find?_congr_mem fun x hx => h2 x (h3.mem_iff.1 hx)] at h1
  have h4 := find?_zipIdx (p := fun x : Str × Term => x.2.name == c)
    (ts.map fun t => (nameBytes t.name, t)) 0
  rw [List.find?_map] at h4
  have h5 := congrArg (Option.map (fun x : (Str × Term) × Nat => x.1)) h1
  rw [h4] at h5
  have h6 := congrArg (Option.map (fun x : Str × Term => x.2)) h5
  simp only [Option.map_map, Function.comp_def, Option.map_id'] at h6 ⊢
  exact h6

/-- One round: a term is replaced by its long version, and the short version with a new tag is added;
the default index follows its term. -/
structure Step (x y : List Term × Nat) where
  pre : List Term
  t : Term
  post : List Term
  sp : Split
  src : x.1 = pre ++ t :: post
  split : splitFirst t.ty = some sp
  perm : y.1.Perm (pre ++ t.longOf sp :: post ++ [t.shortOf sp (freeTag (x.1.map (·.tag)))])
  dflt : x.2 < x.1.length →
    y.1[y.2]? = (pre ++ t.longOf sp :: post ++ [t.shortOf sp (freeTag (x.1.map (·.tag)))])[x.2]?
  first : ∀ c, y.1.find? (fun t => t.name == c) =
    (pre ++ t.longOf sp :: post ++ [t.shortOf sp (freeTag (x.1.map (·.tag)))]).find? (fun t => t.name == c)

theorem hoistOnce_step {x y : List Term × Nat} (h : hoistOnce x = some y) : Nonempty (Step x y) := by
  unfold hoistOnce at h
  split at h
  · rename_i l s hs
    cases h
    obtain ⟨pre, t, post, sp, h1, h2, rfl, rfl⟩ := splitTerms_some hs
    refine ⟨⟨pre, t, post, sp, h1, h2, internTerms_perm _ _, fun hd => internTerms_dflt _ _ ?_,
      internTerms_first _ _⟩⟩
    rw [h1] at hd
    simp only [List.length_append, List.length_cons] at hd ⊢
    omega
  · cases h

theorem rounds_perm {a b : List Term} (h : a.Perm b) : rounds a = rounds b := by
  unfold rounds
  exact (h.map _).sum_nat

theorem rounds_append (a b : List Term) : rounds (a ++ b) = rounds a + rounds b := by
  simp [rounds]

theorem rounds_cons (t : Term) (b : List Term) : rounds (t :: b) = (2 ^ eligible t.ty - 1) + rounds b := by
  simp [rounds]

theorem Step.rounds {x y : List Term × Nat} (h : Step x y) : rounds y.1 + 1 = rounds x.1 := by
  rw [rounds_perm h.perm, h.src]
  obtain ⟨h1, h2⟩ := splitFirst_eligible _ _ h.split
  simp only [rounds_append, rounds_cons]
  have e1 : eligible (h.t.longOf h.sp).ty = eligible h.sp.long := rfl
  have e2 : ∀ g, eligible (h.t.shortOf h.sp g).ty = eligible h.sp.short := fun _ => rfl
  rw [e1, e2]
  have e3 : eligible h.sp.short = eligible h.sp.long := by omega
  rw [e3, ← h2, Nat.pow_succ]
  have : PJ.rounds [] = 0 := rfl
  have := Nat.two_pow_pos (eligible h.sp.long)
  omega

theorem Step.length {x y : List Term × Nat} (h : Step x y) : y.1.length = x.1.length + 1 := by
  rw [h.perm.length_eq, h.src]; simp; omega

/-- The loop stops after at most `rounds` rounds. -/
theorem hoistN_done : ∀ (n : Nat) (x : List Term × Nat), rounds x.1 ≤ n → hoistOnce (hoistN n x) = none
  | 0, x, h => by
    simp only [hoistN]
    cases hx : hoistOnce x with
    | none => rfl
    | some y =>
      obtain ⟨s⟩ := hoistOnce_step hx
      have := s.rounds
      omega
  | n + 1, x, h => by
    simp only [hoistN]
    split
    · rename_i y hy
      obtain ⟨s⟩ := hoistOnce_step hy
      have := s.rounds
      exact hoistN_done n y (by omega)
    · rename_i hx; exact hx

theorem hoistN_stable : ∀ (n : Nat) (x : List Term × Nat), rounds x.1 ≤ n → hoistN n x = hoist x
  | n, x, h => by
    unfold hoist
    have key : ∀ (k m : Nat) (x : List Term × Nat), rounds x.1 ≤ k → rounds x.1 ≤ m → hoistN k x = hoistN m x := by
      intro k
      induction k with
      | zero =>
        intro m x hk hm
        have hx := hoistN_done 0 x hk
        simp only [hoistN] at hx ⊢
        cases m with
        | zero => rfl
        | succ m => simp only [hoistN, hx]
      | succ k ih =>
        intro m x hk hm
        cases hx : hoistOnce x with
        | none =>
          cases m with
          | zero => simp only [hoistN, hx]
          | succ m => simp only [hoistN, hx]
        | some y =>
          obtain ⟨s⟩ := hoistOnce_step hx
          have := s.rounds
          cases m with
          | zero => omega
          | succ m =>
            simp only [hoistN, hx]
            exact ih m y (by omega) (by omega)
    exact key n _ x h (Nat.le_refl _)

/-- Whatever every round preserves holds in the end. -/
theorem hoistN_inv {P : List Term × Nat → Prop} (h : ∀ x y, Step x y → P x → P y) :
    ∀ (n : Nat) (x : List Term × Nat), P x → P (hoistN n x)
  | 0, x, hx => hx
  | n + 1, x, hx => by
    simp only [hoistN]
    split
    · rename_i y hy
      obtain ⟨s⟩ := hoistOnce_step hy
      exact hoistN_inv h n y (h x y s hx)
    · exact hx

theorem hoist_inv {P : List Term × Nat → Prop} (h : ∀ x y, Step x y → P x → P y) (x : List Term × Nat)
    (hx : P x) : P (hoist x) := hoistN_inv h _ x hx

theorem nodup_subset_length {l l' : List Nat} (hn : l.Nodup) (h : ∀ x ∈ l, x ∈ l') :
    l.length ≤ l'.length := by
  induction l generalizing l' with
  | nil => simp
  | cons a l ih =>
    have ha : a ∈ l' := h a (by simp)
    have hn' := List.nodup_cons.1 hn
    have := ih (l' := l'.erase a) hn'.2 (fun x hx => by
      refine (List.mem_erase_of_ne ?_).2 (h x (by simp [hx]))
      intro e; subst e; exact hn'.1 hx)
    rw [List.length_erase_of_mem ha] at this
    have := List.length_pos_of_mem ha
    simp only [List.length_cons]
    omega

theorem freeTagFrom_spec (tags : List Nat) : ∀ (n g : Nat),
    g ≤ freeTagFrom tags n g ∧ freeTagFrom tags n g ≤ g + n ∧
    (∀ k, g ≤ k → k < freeTagFrom tags n g → k ∈ tags) ∧
    (freeTagFrom tags n g < g + n → freeTagFrom tags n g ∉ tags)
  | 0, g => by simp only [freeTagFrom]; exact ⟨by omega, by omega, fun k h1 h2 => by omega, by omega⟩
  | n + 1, g => by
    simp only [freeTagFrom]
    split
    · rename_i hg
      obtain ⟨h1, h2, h3, h4⟩ := freeTagFrom_spec tags n (g + 1)
      refine ⟨by omega, by omega, fun k hk1 hk2 => ?_, fun h => h4 (by omega)⟩
      rcases Nat.eq_or_lt_of_le hk1 with rfl | hk
      · exact hg
      · exact h3 k hk hk2
    · rename_i hg
      exact ⟨by omega, by omega, fun k h1 h2 => by omega, fun _ => hg⟩

theorem freeTag_spec (tags : List Nat) :
    1 ≤ freeTag tags ∧ freeTag tags ≤ tags.length + 1 ∧ freeTag tags ∉ tags := by
  obtain ⟨h1, h2, h3, h4⟩ := freeTagFrom_spec tags tags.length 1
  refine ⟨h1, by unfold freeTag; omega, fun hmem => ?_⟩
  unfold freeTag at hmem
  rcases Nat.lt_or_ge (freeTagFrom tags tags.length 1) (1 + tags.length) with hlt | hge
  · exact h4 hlt hmem
  · have he : freeTagFrom tags tags.length 1 = 1 + tags.length := by omega
    rw [he] at hmem h3
    have := nodup_subset_length (l := List.range' 1 (tags.length + 1)) (l' := tags) (List.nodup_range' 1)
      (fun x hx => by
        have := List.mem_range'_1.1 hx
        rcases Nat.lt_or_ge x (1 + tags.length) with h | h
        · exact h3 x this.1 h
        · have : x = 1 + tags.length := by omega
          rw [this]; exact hmem)
    simp at this
    omega

theorem Step.tags {x y : List Term × Nat} (h : Step x y) (hn : (x.1.map (·.tag)).Nodup) :
    (y.1.map (·.tag)).Nodup := by
  have hp := h.perm.map (·.tag)
  rw [hp.nodup_iff]
  have hfree := (freeTag_spec (x.1.map (·.tag))).2.2
  have he : (h.pre ++ h.t.longOf h.sp :: h.post).map (·.tag) = x.1.map (·.tag) := by
    rw [h.src]; simp [Term.longOf]
  rw [List.map_append, he, List.nodup_append]
  refine ⟨hn, by simp, fun a ha b hb => ?_⟩
  simp only [List.map_cons, List.map_nil, List.mem_singleton, Term.shortOf] at hb
  subst hb
  intro e; subst e
  exact hfree ha

end PJ
