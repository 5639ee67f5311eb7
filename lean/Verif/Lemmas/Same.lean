import Verif.Lemmas.Round
import Verif.Lemmas.MainTri
/-!
# Rounded sizes of values that differ in bounded parts only
-/
namespace PJ

mutual
/-- Two values of a type agree in everything that has no maximum size: the terms of variants and the
lengths of vectors without a maximum size.  Bounded vectors may be anything. -/
def Ty.same : Ty → Val → Val → Prop
  | .struct fs _ _, v, v' => ∃ vs vs', v = .struct vs ∧ v' = .struct vs' ∧ fs.same vs vs'
  | .variant ts _, v, v' => ∃ c p p', v = .variant c p ∧ v' = .variant c p' ∧ ts.same c p p'
  | .array e _ _ _, v, v' => ∃ l l', v = .arr l ∧ v' = .arr l' ∧
    ∀ (i : Nat) x y, l[i]? = some x → l'[i]? = some y → e.same x y
  | .vector e l, v, v' => (l.maxLen.isSome = true ∧ e.hasMax = true) ∨
    ∃ xs ys, v = .vec xs ∧ v' = .vec ys ∧ xs.length = ys.length ∧
      ∀ (i : Nat) x y, xs[i]? = some x → ys[i]? = some y → e.same x y
  | _, _, _ => True
def Fields.same : Fields → List (Comp × Val) → List (Comp × Val) → Prop
  | .nil, _, _ => True
  | .cons c _ t r, vs, vs' =>
    (∀ v v', vs.lookup c = some v → vs'.lookup c = some v' → t.same v v') ∧ r.same vs vs'
def Terms.same : Terms → Comp → Val → Val → Prop
  | .nil, _, _, _ => True
  | .cons n _ _ t r, c, p, p' => (n = c → t.same p p') ∧ r.same c p p'
end

mutual
/-- The terms of every variant have distinct names. -/
def Ty.termNames : Ty → Prop
  | .struct fs _ _ => fs.termNames
  | .variant ts _ => (ts.toList.map (·.name)).Nodup ∧ ts.termNames
  | .array e _ _ _ => e.termNames
  | .vector e _ => e.termNames
  | _ => True
def Fields.termNames : Fields → Prop
  | .nil => True
  | .cons _ _ t r => t.termNames ∧ r.termNames
def Terms.termNames : Terms → Prop
  | .nil => True
  | .cons _ _ _ t r => t.termNames ∧ r.termNames
end

theorem find_same {c : Comp} {o : Nat} {t : Ty} {vs vs' : List (Comp × Val)} {v v' : Val} :
    ∀ (fs : Fields), fs.same vs vs' → fs.find c = some (o, t) → vs.lookup c = some v →
    vs'.lookup c = some v' → t.same v v'
  | .nil, _, h, _, _ => by simp [Fields.find] at h
  | .cons n o' t' r, hs, h, h1, h2 => by
    simp only [Fields.same] at hs
    simp only [Fields.find] at h
    split at h
    · rename_i hn
      cases h
      subst hn
      exact hs.1 v v' h1 h2
    · exact find_same r hs.2 h h1 h2

theorem find_termNames {c : Comp} {o : Nat} {t : Ty} : ∀ (fs : Fields), fs.termNames →
    fs.find c = some (o, t) → t.termNames
  | .nil, _, h => by simp [Fields.find] at h
  | .cons n o' t' r, hs, h => by
    simp only [Fields.termNames] at hs
    simp only [Fields.find] at h
    split at h
    · cases h; exact hs.1
    · exact find_termNames r hs.2 h

theorem terms_same {c : Comp} {p p' : Val} : ∀ (ts : Terms), ts.same c p p' →
    ∀ t ∈ ts.toList, t.name = c → t.ty.same p p'
  | .nil, _, t, ht, _ => by simp [Terms.toList] at ht
  | .cons n g as ty r, hs, t, ht, hn => by
    simp only [Terms.same] at hs
    simp only [Terms.toList, List.mem_cons] at ht
    rcases ht with rfl | ht
    · exact hs.1 hn
    · exact terms_same r hs.2 t ht hn

theorem terms_termNames : ∀ (ts : Terms), ts.termNames → ∀ t ∈ ts.toList, t.ty.termNames
  | .nil, _, t, ht => by simp [Terms.toList] at ht
  | .cons n g as ty r, hs, t, ht => by
    simp only [Terms.termNames] at hs
    simp only [Terms.toList, List.mem_cons] at ht
    rcases ht with rfl | ht
    · exact hs.1
    · exact terms_termNames r hs.2 t ht

theorem nodup_map_inj {α β} {f : α → β} {l : List α} (h : (l.map f).Nodup) {x y : α} (hx : x ∈ l)
    (hy : y ∈ l) (he : f x = f y) : x = y := by
  induction l with
  | nil => cases hx
  | cons z l ih =>
    simp only [List.map_cons, List.nodup_cons, List.mem_map, not_exists, not_and] at h
    rcases List.mem_cons.1 hx with rfl | hx'
    · rcases List.mem_cons.1 hy with rfl | hy'
      · rfl
      · exact absurd he.symm (h.1 y hy')
    · rcases List.mem_cons.1 hy with rfl | hy'
      · exact absurd he (h.1 x hx')
      · exact ih h.2 hx' hy'

theorem sumTo_congr_lt {f g : Nat → Option Nat} : ∀ n i, (∀ j, i ≤ j → j < i + n → f j = g j) →
    sumTo f n i = sumTo g n i
  | 0, _, _ => rfl
  | n + 1, i, h => by
    simp only [sumTo]
    rw [h i (by omega) (by omega), sumTo_congr_lt n (i + 1) (fun j h1 h2 => h j (by omega) (by omega))]

theorem loopCount_le' (n : Nat) : loopCount n ≤ n := by unfold loopCount; split <;> omega

theorem costCopy_same {f g : Nat → Option Nat} {ss ss' w si k : Nat}
    (h : ∀ i, si ≤ i → i < si + k → f (elemAt ss w i) = g (elemAt ss' w i)) {n : Nat}
    (hn : loopCount n ≤ k) : costCopy f ss w si n = costCopy g ss' w si n := by
  unfold costCopy
  refine sumTo_congr_lt _ _ fun j _ hj => h _ (by omega) (by omega)

theorem costVec_same {S S' : Mem} {f g : Nat → Option Nat} {dl sl : VecL} {n sa sa' : Nat}
    {esz eal esz' eal' : Nat}
    (hd : VecLayout dl esz eal) (hs : VecLayout sl esz' eal') (hc : VecCompat dl sl)
    (hn : n < 2 ^ 63)
    (h : ∀ i, i < n → f (vecElemAddr S sl sa n i) = g (vecElemAddr S' sl sa' n i)) :
    costVec S f dl sl (some n) sa = costVec S' g dl sl (some n) sa' := by
  have hcl : copyLength dl n ≤ n := by unfold copyLength; cases dl.maxLen <;> simp only <;> (try split) <;> omega
  have hdp := hd.ppl
  have hdm := hd.min
  have hsp := hs.ppl
  have hsm := hs.min
  unfold costVec
  simp only
  by_cases hi : sl.isInl n = true
  · simp only [if_pos hi]
    have hin : ∀ i, i < n → f (elemAt (sa + sl.inlOff) sl.elemW i) = g (elemAt (sa' + sl.inlOff) sl.elemW i) := by
      intro i hlt
      have := h i hlt
      simpa only [vecElemAddr, if_pos hi] using this
    by_cases hd' : dl.isInl (copyLength dl n) = true
    · simp only [if_pos hd']
      exact costCopy_same (k := n) (fun i _ hl => hin i (by omega))
        (Nat.le_trans (loopCount_le' _) hcl)
    · simp only [if_neg hd']
      have hout := (isInl_false (l := dl) (n := copyLength dl n)).1 (by simpa using hd')
      rw [costCopy_same (f := f) (g := g) (ss := sa + sl.inlOff) (ss' := sa' + sl.inlOff) (si := 0)
          (k := dl.ppl) (n := dl.ppl) (fun i _ hl => hin i (by omega)) (loopCount_le' _),
        costCopy_same (f := f) (g := g) (ss := sa + sl.inlOff) (ss' := sa' + sl.inlOff) (si := dl.ppl)
          (k := copyLength dl n - dl.ppl)
          (n := sub64 (copyLength dl n) dl.ppl) (fun i _ hl => hin i (by omega))
          (by rw [loopCount_sub (by omega) (by omega)]; omega)]
  · simp only [if_neg hi]
    have hsout := (isInl_false (l := sl) (n := n)).1 (by simpa using hi)
    have hpar : ∀ i, i < sl.ppl → f (elemAt (sa + sl.parOff) sl.elemW i) = g (elemAt (sa' + sl.parOff) sl.elemW i) := by
      intro i hlt
      have := h i (by omega)
      simpa only [vecElemAddr, if_neg hi, if_pos hlt] using this
    have href : ∀ i, i < n - sl.ppl → f (elemAt (refStart S sl sa) sl.elemW i) =
        g (elemAt (refStart S' sl sa') sl.elemW i) := by
      intro i hlt
      have := h (sl.ppl + i) (by omega)
      have hnl : ¬ sl.ppl + i < sl.ppl := by omega
      simpa only [vecElemAddr, if_neg hi, if_neg hnl, Nat.add_sub_cancel_left] using this
    have hcp : ∀ {m}, m ≤ sl.ppl → costCopy f (sa + sl.parOff) sl.elemW 0 m =
        costCopy g (sa' + sl.parOff) sl.elemW 0 m := fun {m} hm =>
      costCopy_same (k := m) (fun i _ hl => hpar i (by omega)) (loopCount_le' _)
    have hcr : ∀ {si m}, si + loopCount m ≤ n - sl.ppl → costCopy f (refStart S sl sa) sl.elemW si m =
        costCopy g (refStart S' sl sa') sl.elemW si m := fun {si m} hm =>
      costCopy_same (k := loopCount m) (fun i _ hl => href i (by omega)) (Nat.le_refl _)
    by_cases hd' : dl.isInl (copyLength dl n) = true
    · simp only [if_pos hd']
      have hmin : min sl.ppl dl.maxBound ≤ copyLength dl n := by
        unfold copyLength VecL.maxBound
        cases dl.maxLen with
        | none => simp only; omega
        | some m => simp only; split <;> omega
      have hd2 := hd'
      simp only [VecL.isInl, Bool.and_eq_true, decide_eq_true_eq] at hd2
      rw [hcp (by omega), hcr]
      rw [loopCount_sub (by omega) (by omega)]
      by_cases hq : sl.ppl ≤ dl.maxBound
      · omega
      · have : copyLength dl n ≤ dl.maxBound := by
          unfold copyLength VecL.maxBound
          cases dl.maxLen with
          | none => simp only; omega
          | some m => simp only; split <;> omega
        omega
    · simp only [if_neg hd']
      have hout := (isInl_false (l := dl) (n := copyLength dl n)).1 (by simpa using hd')
      by_cases hp : sl.ppl ≤ dl.ppl
      · simp only [if_pos hp]
        rw [hcp (Nat.le_refl _), hcr (m := dl.ppl - sl.ppl), hcr (m := sub64 (copyLength dl n) dl.ppl)]
        · rw [loopCount_sub (by omega) (by omega)]; omega
        · have := loopCount_le' (dl.ppl - sl.ppl); omega
      · simp only [if_neg hp]
        have hpc : sl.ppl ≤ copyLength dl n := by
          rcases hc with hc | hc
          · unfold copyLength
            unfold VecL.maxBound at hc
            cases hm : dl.maxLen with
            | none => simp only; omega
            | some m => rw [hm] at hc; simp only at hc ⊢; split <;> omega
          · exfalso
            have : copyLength dl n ≤ dl.maxBound := by
              unfold copyLength VecL.maxBound
              cases dl.maxLen with
              | none => simp only; omega
              | some m => simp only; split <;> omega
            omega
        rw [hcp (by omega), hcr (m := sub64 (copyLength dl n) sl.ppl),
          costCopy_same (f := f) (g := g) (ss := sa + sl.parOff) (ss' := sa' + sl.parOff) (si := dl.ppl)
          (k := sl.ppl - dl.ppl) (fun i _ hl => hpar i (by omega)) (loopCount_le' _)]
        rw [loopCount_sub (by omega) (by omega)]; omega

/-- The length of a vector as the rounded size function sees it. -/
theorem szLength_same {S S' : Mem} {e : Ty} {l : VecL} {a a' : Nat} {x x' : Val}
    (h : readVal S (.vector e l) a = some x) (h' : readVal S' (.vector e l) a' = some x')
    (hs : (Ty.vector e l).same x x') : szLength true S e l a = szLength true S' e l a' := by
  have hrd : ∀ {S a x}, readVal S (.vector e l) a = some x → ∃ xs, x = .vec xs ∧
      lengthOp S l a = some xs.length := by
    intro S a x h
    simp only [readVal] at h
    split at h
    · cases h
    · rename_i n hn
      split at h
      · split at h
        · rename_i vs hvs
          cases h
          obtain ⟨e1, _⟩ := collect_some hvs
          exact ⟨vs, rfl, by rw [hn, e1]⟩
        · cases h
      · cases h
  obtain ⟨xs, rfl, h1⟩ := hrd h
  obtain ⟨ys, rfl, h2⟩ := hrd h'
  simp only [Ty.same] at hs
  unfold szLength
  cases hm : l.maxLen with
  | none =>
    simp only [hm, Option.isSome_none, Bool.false_eq_true, false_and, false_or] at hs
    obtain ⟨_, _, e1, e2, e3, _⟩ := hs
    cases e1; cases e2
    simp only [h1, h2, e3]
  | some m =>
    cases hh : e.hasMax with
    | true => simp
    | false =>
      simp only [hm, hh, Option.isSome_some, Bool.false_eq_true, and_false, false_or] at hs
      obtain ⟨_, _, e1, e2, e3, _⟩ := hs
      cases e1; cases e2
      simp [h1, h2, e3]

theorem szProj_same {S S' : Mem} : ∀ (p : Path) (sty : Ty) (sa sa' : Nat) (v v' : Val), WF sty →
    readVal S sty sa = some v → readVal S' sty sa' = some v' → sty.same v v' →
    match szProj sty sa p with
    | none => szProj sty sa' p = none
    | some (e, l, a) => ∃ a', szProj sty sa' p = some (e, l, a') ∧
        szLength true S e l a = szLength true S' e l a'
  | [], sty, sa, sa', v, v', _, _, _, _ => by cases sty <;> simp only [szProj]
  | [c], sty, sa, sa', v, v', _, h, h', hs => by
    cases sty with
    | vector e l => simp only [szProj]; exact ⟨sa', rfl, szLength_same h h' hs⟩
    | _ => simp only [szProj]
  | c :: d :: p, sty, sa, sa', v, v', hw, h, h', hs => by
    cases sty with
    | struct sfs _ _ =>
      simp only [szProj]
      simp only [WF] at hw
      simp only [Ty.same] at hs
      obtain ⟨vs, vs', rfl, rfl, hs⟩ := hs
      have hr : readFields S sfs sa = some vs := by
        simp only [readVal] at h; split at h
        · rename_i h1; cases h; exact h1
        · cases h
      have hr' : readFields S' sfs sa' = some vs' := by
        simp only [readVal] at h'; split at h'
        · rename_i h1; cases h'; exact h1
        · cases h'
      cases hf : sfs.find c with
      | none => simp
      | some z =>
        obtain ⟨o, t⟩ := z
        have r1 := readFields_find sfs vs c hr
        have r2 := readFields_find sfs vs' c hr'
        rw [hf] at r1 r2
        obtain ⟨x, hx, hx'⟩ := r1
        obtain ⟨y, hy, hy'⟩ := r2
        have hwf : WF t := by
          rw [← find_eq_findLast sfs hw.2.names] at hf
          exact findLast_WF sfs c o t hw.1 hf
        exact szProj_same (d :: p) t _ _ x y hwf hx' hy' (find_same sfs hs hf hx hy)
    | _ => simp only [szProj]

/-- The conditions of split terms only look at lengths. -/
theorem szCond_same {S S' : Mem} {sty : Ty} {sa sa' : Nat} {v v' : Val} (hw : WF sty)
    (h : readVal S sty sa = some v) (h' : readVal S' sty sa' = some v') (hs : sty.same v v') :
    ∀ as : List Attr, szCond true S sty sa as = szCond true S' sty sa' as
  | [] => rfl
  | .undef d :: r => by simp only [szCond, szCond_same hw h h' hs r]
  | .split inl n p :: r => by
    have := szProj_same p sty sa sa' v v' hw h h' hs
    simp only [szCond, szCond_same hw h h' hs r]
    cases hp : szProj sty sa p with
    | none => rw [hp] at this; simp only at this; rw [this]
    | some z =>
      obtain ⟨e, l, a⟩ := z
      rw [hp] at this
      obtain ⟨a', h1, h2⟩ := this
      rw [h1]
      simp only [h2]

set_option maxHeartbeats 1000000 in
mutual
theorem cost_same (S S' : Mem) : ∀ (t src : Ty) (sa sa' : Nat) (v v' : Val), WF t → WF src →
    Tame t src → src.termNames → readVal S src sa = some v → readVal S' src sa' = some v' →
    src.same v v' → cost true S t src [] sa = cost true S' t src [] sa'
  | .unit, src, sa, sa', v, v', _, _, _, _, _, _, _ => by simp only [cost]
  | .int _ _ _, src, sa, sa', v, v', _, _, _, _, _, _, _ => by cases src <;> simp only [cost]
  | .float _ _, src, sa, sa', v, v', _, _, _, _, _, _, _ => by cases src <;> simp only [cost]
  | .struct dfs _ _, src, sa, sa', v, v', hwt, hws, hc, hu, hv, hv', hs => by
    cases src with
    | struct sfs _ _ =>
      simp only [cost]
      simp only [WF] at hwt hws
      simp only [Tame] at hc
      simp only [Ty.termNames] at hu
      simp only [Ty.same] at hs
      obtain ⟨vs, vs', rfl, rfl, hs⟩ := hs
      have hr : readFields S sfs sa = some vs := by
        simp only [readVal] at hv; split at hv
        · rename_i h; cases hv; exact h
        · cases hv
      have hr' : readFields S' sfs sa' = some vs' := by
        simp only [readVal] at hv'; split at hv'
        · rename_i h; cases hv'; exact h
        · cases hv'
      rw [costFields_same S S' dfs true sfs sa sa' vs vs' hwt.1 hws.1 hws.2.names hc hu hr hr' hs,
        costFields_same S S' dfs false sfs sa sa' vs vs' hwt.1 hws.1 hws.2.names hc hu hr hr' hs]
    | _ => simp only [cost]
  | .variant dts dl, src, sa, sa', v, v', hwt, hws, hc, hu, hv, hv', hs => by
    cases src with
    | variant sts sl =>
      simp only [cost]
      simp only [WF] at hwt hws
      simp only [Tame] at hc
      simp only [Ty.termNames] at hu
      simp only [Ty.same] at hs
      simp only [readVal] at hv hv'
      obtain ⟨t, p, h1, h2, h3, rfl⟩ := selectTerm_read hws.2 hv
      obtain ⟨t', p', h1', h2', h3', rfl⟩ := selectTerm_read hws.2 hv'
      obtain ⟨c, q, q', e1, e2, hs⟩ := hs
      cases e1
      have : t' = t ∧ p' = q' := by
        simp only [Val.variant.injEq] at e2
        exact ⟨nodup_map_inj hu.1 h2' h2 e2.1, e2.2⟩
      obtain ⟨rfl, rfl⟩ := this
      rw [h1, h1']
      simp only
      have hcc := hc t' h2
      have hwt' := terms_WF sts hws.1 t' h2
      have hss := terms_same sts hs t' h2 rfl
      have hun := terms_termNames sts hu.2 t' h2
      by_cases hf : enumFast dts sts dl sl = true
      · rw [if_pos hf, if_pos hf]
      · rw [if_neg hf, if_neg hf]
        by_cases hnm : dts.hasName t'.name = true
        · rw [if_pos hnm] at hcc
          rw [if_pos hnm, if_pos hnm]
          exact costNamed_same S S' dts dl t'.name t'.ty _ _ p p' hwt.1 hwt' hcc hun h3 h3' hss
        · rw [if_neg hnm] at hcc
          rw [if_neg hnm, if_neg hnm]
          exact costAt_same S S' dts dl dl.dflt t'.ty _ _ p p' hwt.1 hwt' hcc hun h3 h3' hss
    | _ => simp only [cost]
  | .array de dn _ _, src, sa, sa', v, v', hwt, hws, hc, hu, hv, hv', hs => by
    cases src with
    | array se sn sesz _ =>
      simp only [cost]
      simp only [WF] at hwt hws
      simp only [Tame] at hc
      simp only [Ty.termNames] at hu
      simp only [Ty.same] at hs
      obtain ⟨l, l', rfl, rfl, hs⟩ := hs
      have hr : collect (fun i => readVal S se (elemAt sa sesz i)) 0 sn = some l := by
        simp only [readVal] at hv; split at hv
        · rename_i h; cases hv; exact h
        · cases hv
      have hr' : collect (fun i => readVal S' se (elemAt sa' sesz i)) 0 sn = some l' := by
        simp only [readVal] at hv'; split at hv'
        · rename_i h; cases hv'; exact h
        · cases hv'
      obtain ⟨hl1, hl2⟩ := collect_some hr
      obtain ⟨hl1', hl2'⟩ := collect_some hr'
      refine sumTo_congr_lt _ _ fun j _ hj => ?_
      have hj' : j < sn := by omega
      have e1 := hl2 j hj'
      have e2 := hl2' j hj'
      simp only [Nat.zero_add] at e1 e2
      have hx : l[j]? = some l[j] := by simp
      have hx' : l'[j]? = some l'[j] := by simp
      exact cost_same S S' de se _ _ _ _ hwt.1 hws.1 hc hu (e1.trans hx) (e2.trans hx') (hs j _ _ hx hx')
    | _ => simp only [cost]
  | .vector de dl, src, sa, sa', v, v', hwt, hws, hc, hu, hv, hv', hs => by
    cases src with
    | vector se sl =>
      by_cases hmx : sl.maxLen.isSome = true ∧ se.hasMax = true
      · exact cost_const S S' _ _ _ _ _ _ (by simp [Ty.hasMax, hmx.1, hmx.2])
      simp only [cost]
      simp only [WF] at hwt hws
      simp only [Tame] at hc
      simp only [Ty.termNames] at hu
      simp only [Ty.same] at hs
      rcases hs with hs | hs
      · exact absurd hs hmx
      have hl : ∀ S sa, szLength true S se sl sa = lengthOp S sl sa := by
        intro S sa
        unfold szLength
        cases hm : sl.maxLen with
        | none => rfl
        | some m =>
          rw [hm] at hmx
          simp only [Option.isSome_some, true_and] at hmx
          simp [hmx]
      rw [hl, hl]
      obtain ⟨xs, ys, rfl, rfl, hlen, hs⟩ := hs
      have hrd : ∀ {S sa} {xs : List Val}, readVal S (.vector se sl) sa = some (.vec xs) →
          lengthOp S sl sa = some xs.length ∧ xs.length < 2 ^ 63 ∧
          ∀ j, j < xs.length → readVal S se (vecElemAddr S sl sa xs.length j) = xs[j]? := by
        intro S sa xs h
        simp only [readVal] at h
        split at h
        · cases h
        · rename_i n hn
          split at h
          · rename_i hlt
            split at h
            · rename_i vs hvs
              cases h
              obtain ⟨e1, e2⟩ := collect_some hvs
              subst e1
              exact ⟨hn, hlt, fun j hj => by simpa using e2 j hj⟩
            · cases h
          · cases h
      obtain ⟨a1, a2, a3⟩ := hrd hv
      obtain ⟨b1, b2, b3⟩ := hrd hv'
      rw [a1, b1, ← hlen]
      rw [← hlen] at b3
      refine costVec_same hwt.2 hws.2 hc.2 a2 fun j hj => ?_
      have hx : xs[j]? = some xs[j] := by simp
      have hx' : ys[j]? = some (ys[j]'(by omega)) := by simp
      exact cost_same S S' de se _ _ _ _ hwt.1 hws.1 hc.1 hu ((a3 j hj).trans hx)
        ((b3 j hj).trans hx') (hs j _ _ hx hx')
    | _ => simp only [cost]
termination_by structural t => t
theorem costFields_same (S S' : Mem) : ∀ (fs : Fields) (out : Bool) (sfs : Fields) (sa sa' : Nat)
    (vs vs' : List (Comp × Val)), WFFields fs → WFFields sfs → (sfs.toList.map (·.1)).Nodup →
    TameFields fs sfs → sfs.termNames → readFields S sfs sa = some vs →
    readFields S' sfs sa' = some vs' → sfs.same vs vs' →
    costFields true S fs out sfs [] sa = costFields true S' fs out sfs [] sa'
  | .nil, out, sfs, sa, sa', vs, vs', _, _, _, _, _, _, _, _ => by simp only [costFields]
  | .cons n o t r, out, sfs, sa, sa', vs, vs', hwt, hws, hnd, hc, hu, hv, hv', hs => by
    simp only [costFields]
    simp only [WFFields] at hwt
    simp only [TameFields] at hc
    rw [costFields_same S S' r out sfs sa sa' vs vs' hwt.2 hws hnd hc.2 hu hv hv' hs]
    congr 1
    by_cases hto : t.hasOut = out
    · simp only [if_pos hto]
      have hc1 := hc.1
      cases hf : sfs.findLast n with
      | none => rfl
      | some z =>
        obtain ⟨so, sty⟩ := z
        rw [hf] at hc1
        simp only at hc1 ⊢
        have hwf := findLast_WF sfs n so sty hws hf
        rw [find_eq_findLast sfs hnd] at hf
        have r1 := readFields_find sfs vs n hv
        have r2 := readFields_find sfs vs' n hv'
        rw [hf] at r1 r2
        obtain ⟨x, hx, hx'⟩ := r1
        obtain ⟨y, hy, hy'⟩ := r2
        have hi : Path.into [] n = [] := by simp [Path.into, Path.startsWith]
        rw [hi]
        exact cost_same S S' t sty _ _ x y hwt.1 hwf hc1 (find_termNames sfs hu hf) hx' hy'
          (find_same sfs hs hf hx hy)
    · simp only [if_neg hto]
termination_by structural fs => fs
theorem costNamed_same (S S' : Mem) : ∀ (ts : Terms) (l : VarL) (n : Comp) (sty : Ty)
    (sa sa' : Nat) (v v' : Val), WFTerms ts → WF sty → TameNamed ts n sty → sty.termNames →
    readVal S sty sa = some v → readVal S' sty sa' = some v' → sty.same v v' →
    costNamed true S ts l n sty sa = costNamed true S' ts l n sty sa'
  | .nil, l, n, sty, sa, sa', v, v', _, _, _, _, _, _, _ => by simp only [costNamed]
  | .cons m g as t r, l, n, sty, sa, sa', v, v', hwt, hws, hc, hu, hv, hv', hs => by
    simp only [costNamed]
    simp only [WFTerms] at hwt
    simp only [TameNamed] at hc
    rw [szCond_same hws hv hv' hs as,
      costNamed_same S S' r l n sty sa sa' v v' hwt.2 hws hc.2 hu hv hv' hs]
    by_cases hnm : m = n
    · rw [cost_same S S' t sty sa sa' v v' hwt.1 hws (hc.1 hnm) hu hv hv' hs]
    · rw [if_neg hnm, if_neg hnm]
termination_by structural ts => ts
theorem costAt_same (S S' : Mem) : ∀ (ts : Terms) (l : VarL) (i : Nat) (sty : Ty)
    (sa sa' : Nat) (v v' : Val), WFTerms ts → WF sty → TameAt ts i sty → sty.termNames →
    readVal S sty sa = some v → readVal S' sty sa' = some v' → sty.same v v' →
    costAt true S ts l i sty sa = costAt true S' ts l i sty sa'
  | .nil, l, i, sty, sa, sa', v, v', _, _, _, _, _, _, _ => by simp only [costAt]
  | .cons m g as t r, l, 0, sty, sa, sa', v, v', hwt, hws, hc, hu, hv, hv', hs => by
    simp only [costAt]
    simp only [WFTerms] at hwt
    simp only [TameAt] at hc
    rw [szCond_same hws hv hv' hs as,
      cost_same S S' t sty sa sa' v v' hwt.1 hws hc hu hv hv' hs]
  | .cons m g as t r, l, i + 1, sty, sa, sa', v, v', hwt, hws, hc, hu, hv, hv', hs => by
    simp only [costAt]
    simp only [WFTerms] at hwt
    simp only [TameAt] at hc
    exact costAt_same S S' r l i sty sa sa' v v' hwt.2 hws hc hu hv hv' hs
termination_by structural ts => ts
end

end PJ
