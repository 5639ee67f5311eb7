import Verif.Lemmas.CostSim
import Verif.Lemmas.FrameX
import Verif.Spec.Layout
/-!
# Rounded sizes

A rounded size of a source type with a maximum size is a constant, and it is not below the exact size.
-/
namespace PJ

mutual
/-- No term of the destination type was split by vector hoisting. -/
def Ty.noSplit : Ty → Prop
  | .struct fs _ _ => fs.noSplit
  | .variant ts _ => ts.noSplit
  | .array e _ _ _ => e.noSplit
  | .vector e _ => e.noSplit
  | _ => True
def Fields.noSplit : Fields → Prop
  | .nil => True
  | .cons _ _ t r => t.noSplit ∧ r.noSplit
def Terms.noSplit : Terms → Prop
  | .nil => True
  | .cons _ _ as t r => (∀ a ∈ as, ∃ d, a = .undef d) ∧ t.noSplit ∧ r.noSplit
end

theorem szCond_noSplit (ru ru' : Bool) (S S' : Mem) (sty sty' : Ty) (sa sa' : Nat) : ∀ as : List Attr,
    (∀ a ∈ as, ∃ d, a = .undef d) → szCond ru S sty sa as = szCond ru' S' sty' sa' as
  | [], _ => rfl
  | a :: r, h => by
    obtain ⟨d, rfl⟩ := h a List.mem_cons_self
    simp only [szCond]
    rw [szCond_noSplit ru ru' S S' sty sty' sa sa' r fun a ha => h a (List.mem_cons_of_mem _ ha)]

theorem sumTo_congr {f g : Nat → Option Nat} (h : ∀ i, f i = g i) : ∀ n i, sumTo f n i = sumTo g n i
  | 0, _ => rfl
  | n + 1, i => by simp only [sumTo, h i, sumTo_congr h n (i + 1)]

theorem costCopy_congr {f g : Nat → Option Nat} (h : ∀ a b, f a = g b) (ss ss' sw si n : Nat) :
    costCopy f ss sw si n = costCopy g ss' sw si n := sumTo_congr (fun _ => h _ _) _ _

theorem costVec_congr {S S' : Mem} {f g : Nat → Option Nat} (h : ∀ a b, f a = g b) (dl sl : VecL)
    (len : Option Nat) (sa sa' : Nat) : costVec S f dl sl len sa = costVec S' g dl sl len sa' := by
  unfold costVec
  cases len with
  | none => rfl
  | some n =>
    simp only
    rw [costCopy_congr h (sa + sl.inlOff) (sa' + sl.inlOff),
      costCopy_congr h (sa + sl.inlOff) (sa' + sl.inlOff),
      costCopy_congr h (sa + sl.inlOff) (sa' + sl.inlOff),
      costCopy_congr h (sa + sl.parOff) (sa' + sl.parOff),
      costCopy_congr h (sa + sl.parOff) (sa' + sl.parOff),
      costCopy_congr h (sa + sl.parOff) (sa' + sl.parOff),
      costCopy_congr h (sa + sl.parOff) (sa' + sl.parOff),
      costCopy_congr h (refStart S sl sa) (refStart S' sl sa'),
      costCopy_congr h (refStart S sl sa) (refStart S' sl sa'),
      costCopy_congr h (refStart S sl sa) (refStart S' sl sa'),
      costCopy_congr h (refStart S sl sa) (refStart S' sl sa')]

theorem hasMax_find {fs : Fields} {c : Comp} {o : Nat} {t : Ty} (h : fs.hasMax = true)
    (hf : fs.findLast c = some (o, t)) : t.hasMax = true := by
  induction fs using Fields.rec (motive_1 := fun _ => True) (motive_3 := fun _ => True) with
  | nil => simp [Fields.findLast] at hf
  | cons d o' t' r _ ih =>
    simp only [Fields.hasMax, Bool.and_eq_true] at h
    simp only [Fields.findLast] at hf
    split at hf
    · rename_i x hx
      cases hf
      exact ih h.2 hx
    · split at hf
      · cases hf; exact h.1
      · cases hf
  | _ => trivial

mutual
/-- The rounded size of a source with a maximum size does not look at memory. -/
theorem cost_const (S S' : Mem) : ∀ (t src : Ty) (path path' : Path) (sa sa' : Nat), src.hasMax = true →
    cost true S t src path sa = cost true S' t src path' sa'
  | .unit, src, path, path', sa, sa', h => by simp only [cost]
  | .int _ _ _, src, path, path', sa, sa', h => by cases src <;> simp only [cost]
  | .float _ _, src, path, path', sa, sa', h => by cases src <;> simp only [cost]
  | .struct dfs _ _, src, path, path', sa, sa', h => by
    cases src with
    | struct sfs _ _ =>
      simp only [Ty.hasMax] at h
      simp only [cost]
      rw [costFields_const S S' dfs true sfs path path' sa sa' h,
        costFields_const S S' dfs false sfs path path' sa sa' h]
    | _ => simp only [cost]
  | .variant dts dl, src, path, path', sa, sa', h => by
    cases src with
    | variant sts sl => simp [Ty.hasMax] at h
    | _ => simp only [cost]
  | .array de dn _ _, src, path, path', sa, sa', h => by
    cases src with
    | array se sn sesz _ =>
      simp only [Ty.hasMax] at h
      simp only [cost]
      exact sumTo_congr (fun i => cost_const S S' de se [] [] _ _ h) _ _
    | _ => simp only [cost]
  | .vector de dl, src, path, path', sa, sa', h => by
    cases src with
    | vector se sl =>
      simp only [Ty.hasMax, Bool.and_eq_true] at h
      simp only [cost]
      have hl : szLength true S se sl sa = szLength true S' se sl sa' := by
        unfold szLength
        cases hm : sl.maxLen with
        | none => simp [hm] at h
        | some m => simp [h.2]
      rw [hl]
      exact costVec_congr (fun a b => cost_const S S' de se [] [] a b h.2) dl sl _ sa sa'
    | _ => simp only [cost]
termination_by structural t => t
theorem costFields_const (S S' : Mem) : ∀ (fs : Fields) (out : Bool) (sfs : Fields) (path path' : Path)
    (sa sa' : Nat), sfs.hasMax = true →
    costFields true S fs out sfs path sa = costFields true S' fs out sfs path' sa'
  | .nil, out, sfs, path, path', sa, sa', h => by simp only [costFields]
  | .cons n o t r, out, sfs, path, path', sa, sa', h => by
    simp only [costFields]
    rw [costFields_const S S' r out sfs path path' sa sa' h]
    congr 1
    split
    · cases hf : sfs.findLast n with
      | none => rfl
      | some x =>
        obtain ⟨so, sty⟩ := x
        exact cost_const S S' t sty _ _ _ _ (hasMax_find h hf)
    · rfl
termination_by structural fs => fs
end

/-! ## The comparison -/

theorem plus_some {a b : Option Nat} {c : Nat} (h : plus a b = some c) :
    ∃ x y, a = some x ∧ b = some y ∧ c = x + y := by
  cases a with
  | none => cases h
  | some x =>
    cases b with
    | none => cases h
    | some y => simp only [plus, Option.bind_some, Option.map_some, Option.some.injEq] at h; exact ⟨x, y, rfl, rfl, h.symm⟩

theorem sumTo_le {f g : Nat → Option Nat} (h : ∀ i a b, f i = some a → g i = some b → a ≤ b) :
    ∀ n i a b, sumTo f n i = some a → sumTo g n i = some b → a ≤ b
  | 0, _, a, b, ha, hb => by simp only [sumTo, Option.some.injEq] at ha hb; omega
  | n + 1, i, a, b, ha, hb => by
    obtain ⟨x, y, h1, h2, rfl⟩ := plus_some (a := f i) (b := sumTo f n (i + 1)) ha
    obtain ⟨x', y', h1', h2', rfl⟩ := plus_some (a := g i) (b := sumTo g n (i + 1)) hb
    have := h i x x' h1 h1'
    have := sumTo_le h n (i + 1) y y' h2 h2'
    omega

theorem sumTo_bound {f : Nat → Option Nat} {k : Nat} (h : ∀ i a, f i = some a → a ≤ k) :
    ∀ n i a, sumTo f n i = some a → a ≤ n * k
  | 0, _, a, ha => by simp only [sumTo, Option.some.injEq] at ha; omega
  | n + 1, i, a, ha => by
    obtain ⟨x, y, h1, h2, rfl⟩ := plus_some (a := f i) (b := sumTo f n (i + 1)) ha
    have := h i x h1
    have := sumTo_bound h n (i + 1) y h2
    rw [Nat.add_mul]
    omega

theorem sumTo_const {o : Option Nat} : ∀ n i a, sumTo (fun _ => o) n i = some a →
    a = n * o.getD 0 ∧ (0 < n → o.isSome = true)
  | 0, _, a, ha => by simp only [sumTo, Option.some.injEq] at ha; exact ⟨by omega, by omega⟩
  | n + 1, i, a, ha => by
    obtain ⟨x, y, h1, h2, rfl⟩ := plus_some (a := o) (b := sumTo (fun _ => o) n (i + 1)) ha
    have := (sumTo_const n (i + 1) y h2).1
    subst h1
    simp only [Option.getD_some] at this ⊢
    refine ⟨?_, fun _ => rfl⟩
    rw [Nat.add_mul]
    omega

/-- The bytes of the out-of-line elements themselves. -/
def outBytes (dl : VecL) (copy : Nat) : Nat := if dl.isInl copy then 0 else dl.elemW * (copy - dl.ppl)

theorem outBytes_mono {dl : VecL} {a b : Nat} (h : a ≤ b) : outBytes dl a ≤ outBytes dl b := by
  unfold outBytes
  split
  · exact Nat.zero_le _
  · rename_i h1
    split
    · rename_i h2
      simp only [VecL.isInl, Bool.and_eq_true, decide_eq_true_eq] at h1 h2
      omega
    · exact Nat.mul_le_mul_left _ (by omega)

theorem copyLength_mono {dl : VecL} {a b : Nat} (h : a ≤ b) : copyLength dl a ≤ copyLength dl b := by
  unfold copyLength
  cases dl.maxLen with
  | none => exact h
  | some m => simp only; split <;> split <;> omega

theorem loopCount_sub {a b : Nat} (ha : a < 2 ^ 63) (hb : b < 2 ^ 63) : loopCount (sub64 a b) = a - b := by
  unfold loopCount sub64 W64
  split <;> omega

/-- Loops over `n` elements in total that cost `c` in total. -/
inductive Parts (f : Nat → Option Nat) (w : Nat) : Nat → Nat → Prop
  | nil : Parts f w 0 0
  | cons {a b n x m y : Nat} (h : sumTo (fun i => f (elemAt a w (b + i))) n 0 = some x)
    (r : Parts f w m y) : Parts f w (n + m) (x + y)

theorem Parts.cast {f : Nat → Option Nat} {w n m x : Nat} (h : Parts f w n x) (e : n = m) :
    Parts f w m x := e ▸ h

/-- How many elements the copy loops of the four code paths transfer. -/
theorem costVec_split {S : Mem} {f : Nat → Option Nat} {dl sl : VecL} {n sa c esz eal esz' eal' : Nat}
    (hd : VecLayout dl esz eal) (hs : VecLayout sl esz' eal') (hc : VecCompat dl sl) (hn : n < 2 ^ 63)
    (h : costVec S f dl sl (some n) sa = some c) :
    ∃ x, Parts f sl.elemW (copyLength dl n) x ∧ c = outBytes dl (copyLength dl n) + x := by
  have hcl : copyLength dl n ≤ n := by unfold copyLength; cases dl.maxLen <;> simp only <;> (try split) <;> omega
  have hdp := hd.ppl
  have hdm := hd.min
  have hsp := hs.ppl
  have hsm := hs.min
  unfold costVec at h
  simp only at h
  split at h
  · split at h
    · rename_i hi hd'
      unfold costCopy at h
      rw [loopCount_eq (by omega)] at h
      exact ⟨c, .cons h .nil, by simp [outBytes, hd']⟩
    · rename_i hi hd'
      have hout := (isInl_false (l := dl) (n := copyLength dl n)).1 (by simpa using hd')
      obtain ⟨x, y, h1, h2, rfl⟩ := plus_some h
      obtain ⟨z, w, h3, h4, rfl⟩ := plus_some h2
      unfold costCopy at h3 h4
      rw [loopCount_eq (by omega)] at h3
      rw [loopCount_sub (by omega) (by omega)] at h4
      have hp := Parts.cons h3 (.cons h4 .nil)
      refine ⟨_, hp.cast (by omega), ?_⟩
      · simp only [Option.some.injEq] at h1
        rw [sub64_eq (by omega) (by unfold W64; omega)] at h1
        simp [outBytes, hd', ← h1]
  · rename_i hi
    have hsout := (isInl_false (l := sl) (n := n)).1 (by simpa using hi)
    split at h
    · rename_i hd'
      obtain ⟨z, w, h3, h4, rfl⟩ := plus_some h
      unfold costCopy at h3 h4
      have hmin : min sl.ppl dl.maxBound ≤ copyLength dl n := by
        unfold copyLength VecL.maxBound
        cases dl.maxLen with
        | none => simp only; omega
        | some m => simp only; split <;> omega
      rw [loopCount_eq (by omega)] at h3
      rw [loopCount_sub (by omega) (by omega)] at h4
      have hp := Parts.cons h3 (.cons h4 .nil)
      refine ⟨_, hp.cast (by omega), ?_⟩
      · simp [outBytes, hd']
    · rename_i hd'
      have hout := (isInl_false (l := dl) (n := copyLength dl n)).1 (by simpa using hd')
      obtain ⟨x, y, h1, h2, rfl⟩ := plus_some h
      simp only [Option.some.injEq] at h1
      rw [sub64_eq (by omega) (by unfold W64; omega)] at h1
      split at h2
      · obtain ⟨z, w, h3, h4, rfl⟩ := plus_some h2
        obtain ⟨u, v, h5, h6, rfl⟩ := plus_some h4
        unfold costCopy at h3 h5 h6
        rw [loopCount_eq (by omega)] at h3 h5
        rw [loopCount_sub (by omega) (by omega)] at h6
        have hp := Parts.cons h3 (.cons h5 (.cons h6 .nil))
        refine ⟨_, hp.cast (by omega), ?_⟩
        · simp [outBytes, hd', ← h1]
      · have hpc : sl.ppl ≤ copyLength dl n := by
          rcases hc with hc | hc
          · unfold copyLength
            unfold VecL.maxBound at hc
            cases hm : dl.maxLen with
            | none => simp only; omega
            | some m => rw [hm] at hc; simp only at hc ⊢; split <;> omega
          · exfalso
            have : copyLength dl n ≤ dl.maxBound := by
              unfold copyLength VecL.maxBound
              cases dl.maxLen with
              | none => simp only; omega
              | some m => simp only; split <;> omega
            omega
        obtain ⟨z, w, h3, h4, rfl⟩ := plus_some h2
        obtain ⟨u, v, h5, h6, rfl⟩ := plus_some h4
        unfold costCopy at h3 h5 h6
        rw [loopCount_eq (by omega)] at h3 h5
        rw [loopCount_sub (by omega) (by omega)] at h6
        have hp := Parts.cons h3 (.cons h5 (.cons h6 .nil))
        refine ⟨_, hp.cast (by omega), ?_⟩
        · simp [outBytes, hd', ← h1]

theorem parts_bound {f : Nat → Option Nat} {w k : Nat} (h : ∀ a x, f a = some x → x ≤ k) :
    ∀ {n x : Nat}, Parts f w n x → x ≤ n * k
  | _, _, .nil => by simp
  | _, _, .cons h1 h2 => by
    have := sumTo_bound (fun i a ha => h _ a ha) _ _ _ h1
    have := parts_bound h h2
    rw [Nat.add_mul]
    omega

theorem parts_const {o : Option Nat} {w : Nat} :
    ∀ {n x : Nat}, Parts (fun _ => o) w n x → x = n * o.getD 0 ∧ (0 < n → o.isSome = true)
  | _, _, .nil => by simp
  | _, _, .cons (n := n) h1 h2 => by
    have h1 := sumTo_const _ _ _ h1
    have h2 := parts_const h2
    rw [Nat.add_mul]
    refine ⟨by omega, fun h => ?_⟩
    rcases Nat.eq_zero_or_pos n with h0 | h0
    · exact h2.2 (by omega)
    · exact h1.2 h0

theorem parts_zero {f : Nat → Option Nat} {w : Nat} : ∀ {n x : Nat}, Parts f w n x → n = 0 → x = 0
  | _, _, .nil, _ => rfl
  | _, _, .cons (n := n) (m := m) h1 h2, h => by
    have h0 : n = 0 := by omega
    subst h0
    simp only [sumTo, Option.some.injEq] at h1
    have := parts_zero h2 (by omega)
    omega

theorem plus_le {a b a' b' : Option Nat} {c c' : Nat}
    (h1 : ∀ x y, a = some x → a' = some y → x ≤ y) (h2 : ∀ x y, b = some x → b' = some y → x ≤ y)
    (h : plus a b = some c) (h' : plus a' b' = some c') : c ≤ c' := by
  obtain ⟨x, y, e1, e2, rfl⟩ := plus_some h
  obtain ⟨x', y', e1', e2', rfl⟩ := plus_some h'
  have := h1 x x' e1 e1'
  have := h2 y y' e2 e2'
  omega

theorem costCopy_le {f g : Nat → Option Nat} (h : ∀ i a b, f i = some a → g i = some b → a ≤ b)
    (ss sw si n : Nat) : ∀ a b, costCopy f ss sw si n = some a → costCopy g ss sw si n = some b → a ≤ b :=
  sumTo_le (fun _ => h _) _ _

theorem some_le {n : Nat} : ∀ x y, (some n) = some x → (some n) = some y → x ≤ y := by
  intro x y h1 h2
  cases h1; cases h2; exact Nat.le_refl _

/-- The same length, element by element. -/
theorem costVec_le {S : Mem} {f g : Nat → Option Nat}
    (h : ∀ i a b, f i = some a → g i = some b → a ≤ b) (dl sl : VecL) (len : Option Nat) (sa a b : Nat)
    (ha : costVec S f dl sl len sa = some a) (hb : costVec S g dl sl len sa = some b) : a ≤ b := by
  unfold costVec at ha hb
  cases len with
  | none => cases ha
  | some n =>
    simp only at ha hb
    split at ha
    · rename_i h1
      rw [if_pos h1] at hb
      split at ha
      · rename_i h2
        rw [if_pos h2] at hb
        exact costCopy_le h _ _ _ _ a b ha hb
      · rename_i h2
        rw [if_neg h2] at hb
        exact plus_le some_le (fun x y hx hy => plus_le (costCopy_le h _ _ _ _) (costCopy_le h _ _ _ _) hx hy) ha hb
    · rename_i h1
      rw [if_neg h1] at hb
      split at ha
      · rename_i h2
        rw [if_pos h2] at hb
        exact plus_le (costCopy_le h _ _ _ _) (costCopy_le h _ _ _ _) ha hb
      · rename_i h2
        rw [if_neg h2] at hb
        refine plus_le some_le (fun x y hx hy => ?_) ha hb
        split at hx
        · rename_i h3
          rw [if_pos h3] at hy
          exact plus_le (costCopy_le h _ _ _ _) (fun x y hx hy => plus_le (costCopy_le h _ _ _ _)
            (costCopy_le h _ _ _ _) hx hy) hx hy
        · rename_i h3
          rw [if_neg h3] at hy
          exact plus_le (costCopy_le h _ _ _ _) (fun x y hx hy => plus_le (costCopy_le h _ _ _ _)
            (costCopy_le h _ _ _ _) hx hy) hx hy

/-- The maximum length instead of the actual one. -/
theorem costVec_round {S : Mem} {f : Nat → Option Nat} {o : Option Nat}
    (h : ∀ i a b, f i = some a → o = some b → a ≤ b) {dl sl : VecL} {n m sa a b esz eal esz' eal' : Nat}
    (hd : VecLayout dl esz eal) (hs : VecLayout sl esz' eal') (hc : VecCompat dl sl) (hm : m < 2 ^ 63)
    (hn : n ≤ m) (ha : costVec S f dl sl (some n) sa = some a)
    (hb : costVec S (fun _ => o) dl sl (some m) sa = some b) : a ≤ b := by
  obtain ⟨x, hx, rfl⟩ := costVec_split hd hs hc (by omega) ha
  obtain ⟨y, hy, rfl⟩ := costVec_split hd hs hc hm hb
  have hcl := copyLength_mono (dl := dl) hn
  have ho := outBytes_mono (dl := dl) hcl
  obtain ⟨rfl, hsome⟩ := parts_const hy
  rcases Nat.eq_zero_or_pos (copyLength dl m) with h0 | h0
  · have : copyLength dl n = 0 := by omega
    rw [this] at hx
    have := parts_zero hx rfl
    omega
  · obtain ⟨k, rfl⟩ := Option.isSome_iff_exists.1 (hsome h0)
    have := parts_bound (fun i a ha => h i a k ha rfl) hx
    have := Nat.mul_le_mul_right k hcl
    simp only [Option.getD_some]
    omega

theorem cost_unit (ru : Bool) (S : Mem) (t : Ty) (path : Path) (sa : Nat) :
    cost ru S t .unit path sa = some 0 := by cases t <;> simp only [cost]

theorem lengthOp_max {S : Mem} {l : VecL} {a n m : Nat} (h : lengthOp S l a = some n)
    (hm : l.maxLen = some m) : n ≤ m := by
  unfold lengthOp at h
  rw [hm] at h
  simp only at h
  split at h
  · cases h; omega
  · split at h
    · cases h
    · split at h
      · rename_i hle; cases h; exact hle
      · cases h

set_option maxHeartbeats 1000000 in
mutual
/-- The exact size is at most the rounded one. -/
theorem cost_le (S : Mem) : ∀ (t src : Ty) (path : Path) (sa a b : Nat), WF t → WF src → Tame t src →
    t.noSplit → cost false S t src path sa = some a → cost true S t src path sa = some b → a ≤ b
  | .unit, src, path, sa, a, b, _, _, _, _, ha, hb => by
    simp only [cost, Option.some.injEq] at ha hb; omega
  | .int _ _ _, src, path, sa, a, b, _, _, _, _, ha, hb => by
    cases src <;> simp only [cost, Option.some.injEq] at ha hb <;> first | omega | cases ha
  | .float _ _, src, path, sa, a, b, _, _, _, _, ha, hb => by
    cases src <;> simp only [cost, Option.some.injEq] at ha hb <;> first | omega | cases ha
  | .struct dfs _ _, src, path, sa, a, b, hwt, hws, hc, hn, ha, hb => by
    cases src with
    | unit => simp only [cost, Option.some.injEq] at ha hb; omega
    | struct sfs _ _ =>
      simp only [cost] at ha hb
      simp only [WF] at hwt hws
      simp only [Tame] at hc
      simp only [Ty.noSplit] at hn
      exact plus_le (fun x y hx hy => costFields_le S dfs true sfs path sa x y hwt.1 hws.1 hc hn hx hy)
        (fun x y hx hy => costFields_le S dfs false sfs path sa x y hwt.1 hws.1 hc hn hx hy) ha hb
    | _ => simp only [cost] at ha; cases ha
  | .variant dts dl, src, path, sa, a, b, hwt, hws, hc, hn, ha, hb => by
    cases src with
    | unit => simp only [cost, Option.some.injEq] at ha hb; omega
    | variant sts sl =>
      simp only [cost] at ha hb
      simp only [WF] at hwt hws
      simp only [Tame] at hc
      simp only [Ty.noSplit] at hn
      split at ha
      · rename_i hf
        rw [if_pos hf] at hb
        simp only [Option.some.injEq] at ha hb; omega
      · rename_i hf
        rw [if_neg hf] at hb
        cases hsel : selectTerm S sts sl path sa with
        | none => rw [hsel] at ha; cases ha
        | some o =>
          rw [hsel] at ha hb
          cases o with
          | none =>
            simp only at ha hb
            exact costAt_unit_le S dts dl dl.dflt _ a b hn ha hb
          | some t =>
            simp only at ha hb
            have htm := selectTerm_mem hsel
            have hcc := hc t htm
            have hwt' := terms_WF sts hws.1 t htm
            split at ha
            · rename_i hnm
              rw [if_pos hnm] at hb hcc
              exact costNamed_le S dts dl t.name t.ty _ a b hwt.1 hwt' hcc hn ha hb
            · rename_i hnm
              rw [if_neg hnm] at hb hcc
              exact costAt_le S dts dl dl.dflt t.ty _ a b hwt.1 hwt' hcc hn ha hb
    | _ => simp only [cost] at ha; cases ha
  | .array de dn _ _, src, path, sa, a, b, hwt, hws, hc, hn, ha, hb => by
    cases src with
    | unit => simp only [cost, Option.some.injEq] at ha hb; omega
    | array se sn sesz _ =>
      simp only [cost] at ha hb
      simp only [WF] at hwt hws
      simp only [Tame] at hc
      simp only [Ty.noSplit] at hn
      exact sumTo_le (fun i x y hx hy => cost_le S de se [] _ x y hwt.1 hws.1 hc hn hx hy) _ _ a b ha hb
    | _ => simp only [cost] at ha; cases ha
  | .vector de dl, src, path, sa, a, b, hwt, hws, hc, hn, ha, hb => by
    cases src with
    | unit => simp only [cost, Option.some.injEq] at ha hb; omega
    | vector se sl =>
      simp only [cost] at ha hb
      simp only [WF] at hwt hws
      simp only [Tame] at hc
      simp only [Ty.noSplit] at hn
      rw [szLength_false] at ha
      have ih : ∀ i x y, cost false S de se [] i = some x → cost true S de se [] i = some y → x ≤ y :=
        fun i x y hx hy => cost_le S de se [] i x y hwt.1 hws.1 hc.1 hn hx hy
      have hplain : szLength true S se sl sa = lengthOp S sl sa → a ≤ b := by
        intro h
        rw [h] at hb
        exact costVec_le ih dl sl _ sa a b ha hb
      cases hm : sl.maxLen with
      | none => exact hplain (by unfold szLength; rw [hm])
      | some m =>
        cases hh : se.hasMax with
        | false => exact hplain (by unfold szLength; rw [hm]; simp [hh])
        | true =>
          have hl : szLength true S se sl sa = some m := by unfold szLength; rw [hm]; simp [hh]
          rw [hl] at hb
          cases hlen : lengthOp S sl sa with
          | none => rw [hlen] at ha; simp [costVec] at ha
          | some n =>
            rw [hlen] at ha
            have hconst : ∀ i, cost true S de se [] i = cost true S de se [] 0 :=
              fun i => cost_const S S de se [] [] i 0 hh
            have hfun : cost true S de se [] = fun _ => cost true S de se [] 0 := funext hconst
            rw [hfun] at hb
            refine costVec_round (fun i x y hx hy => ih i x y hx ((hconst i).trans hy)) hwt.2 hws.2 hc.2
              (hws.2.max m hm).2.2.1 (lengthOp_max hlen hm) ha hb
    | _ => simp only [cost] at ha; cases ha
termination_by structural t => t
theorem costFields_le (S : Mem) : ∀ (fs : Fields) (out : Bool) (sfs : Fields) (path : Path)
    (sa a b : Nat), WFFields fs → WFFields sfs → TameFields fs sfs → fs.noSplit →
    costFields false S fs out sfs path sa = some a → costFields true S fs out sfs path sa = some b → a ≤ b
  | .nil, out, sfs, path, sa, a, b, _, _, _, _, ha, hb => by
    simp only [costFields, Option.some.injEq] at ha hb; omega
  | .cons n o t r, out, sfs, path, sa, a, b, hwt, hws, hc, hn, ha, hb => by
    simp only [costFields] at ha hb
    simp only [WFFields] at hwt
    simp only [TameFields] at hc
    simp only [Fields.noSplit] at hn
    refine plus_le (fun x y hx hy => ?_)
      (fun x y hx hy => costFields_le S r out sfs path sa x y hwt.2 hws hc.2 hn.2 hx hy) ha hb
    split at hx
    · rename_i hto
      rw [if_pos hto] at hy
      have hc1 := hc.1
      cases hf : sfs.findLast n with
      | none => rw [hf] at hx hy; exact some_le x y hx hy
      | some z =>
        obtain ⟨so, sty⟩ := z
        rw [hf] at hx hy hc1
        exact cost_le S t sty _ _ x y hwt.1 (findLast_WF sfs n so sty hws hf) hc1 hn.1 hx hy
    · rename_i hto
      rw [if_neg hto] at hy
      exact some_le x y hx hy
termination_by structural fs => fs
theorem costNamed_le (S : Mem) : ∀ (ts : Terms) (l : VarL) (n : Comp) (sty : Ty)
    (sa a b : Nat), WFTerms ts → WF sty → TameNamed ts n sty → ts.noSplit →
    costNamed false S ts l n sty sa = some a → costNamed true S ts l n sty sa = some b → a ≤ b
  | .nil, l, n, sty, sa, a, b, _, _, _, _, ha, hb => by
    simp only [costNamed, Option.some.injEq] at ha hb; omega
  | .cons m g as t r, l, n, sty, sa, a, b, hwt, hws, hc, hn, ha, hb => by
    simp only [costNamed] at ha hb
    simp only [WFTerms] at hwt
    simp only [TameNamed] at hc
    simp only [Terms.noSplit] at hn
    rw [szCond_noSplit true false S S sty sty sa sa as hn.1] at hb
    split at ha
    · rename_i hnm
      rw [if_pos hnm] at hb
      cases hcnd : szCond false S sty sa as with
      | none => rw [hcnd] at ha; cases ha
      | some q =>
        rw [hcnd] at ha hb
        cases q with
        | true =>
          exact plus_le some_le (fun x y hx hy => cost_le S t sty [] sa x y hwt.1 hws (hc.1 hnm) hn.2.1 hx hy)
            ha hb
        | false => exact costNamed_le S r l n sty sa a b hwt.2 hws hc.2 hn.2.2 ha hb
    · rename_i hnm
      rw [if_neg hnm] at hb
      exact costNamed_le S r l n sty sa a b hwt.2 hws hc.2 hn.2.2 ha hb
termination_by structural ts => ts
theorem costAt_le (S : Mem) : ∀ (ts : Terms) (l : VarL) (i : Nat) (sty : Ty)
    (sa a b : Nat), WFTerms ts → WF sty → TameAt ts i sty → ts.noSplit →
    costAt false S ts l i sty sa = some a → costAt true S ts l i sty sa = some b → a ≤ b
  | .nil, l, i, sty, sa, a, b, _, _, _, _, ha, hb => by simp only [costAt] at ha; cases ha
  | .cons m g as t r, l, 0, sty, sa, a, b, hwt, hws, hc, hn, ha, hb => by
    simp only [costAt] at ha hb
    simp only [WFTerms] at hwt
    simp only [TameAt] at hc
    simp only [Terms.noSplit] at hn
    rw [szCond_noSplit true false S S sty sty sa sa as hn.1] at hb
    cases hcnd : szCond false S sty sa as with
    | none => rw [hcnd] at ha; cases ha
    | some q =>
      rw [hcnd] at ha hb
      cases q with
      | true =>
        exact plus_le some_le (fun x y hx hy => cost_le S t sty [] sa x y hwt.1 hws hc hn.2.1 hx hy) ha hb
      | false => exact some_le a b ha hb
  | .cons m g as t r, l, i + 1, sty, sa, a, b, hwt, hws, hc, hn, ha, hb => by
    simp only [costAt] at ha hb
    simp only [WFTerms] at hwt
    simp only [TameAt] at hc
    simp only [Terms.noSplit] at hn
    exact costAt_le S r l i sty sa a b hwt.2 hws hc hn.2.2 ha hb
termination_by structural ts => ts
theorem costAt_unit_le (S : Mem) : ∀ (ts : Terms) (l : VarL) (i sa a b : Nat), ts.noSplit →
    costAt false S ts l i .unit sa = some a → costAt true S ts l i .unit sa = some b → a ≤ b
  | .nil, l, i, sa, a, b, _, ha, hb => by simp only [costAt] at ha; cases ha
  | .cons m g as t r, l, 0, sa, a, b, hn, ha, hb => by
    simp only [costAt, cost_unit] at ha hb
    simp only [Terms.noSplit] at hn
    rw [szCond_noSplit true false S S .unit .unit sa sa as hn.1] at hb
    rw [ha] at hb
    cases hb; exact Nat.le_refl _
  | .cons m g as t r, l, i + 1, sa, a, b, hn, ha, hb => by
    simp only [costAt] at ha hb
    simp only [Terms.noSplit] at hn
    exact costAt_unit_le S r l i sa a b hn.2.2 ha hb
termination_by structural ts => ts
end

end PJ
