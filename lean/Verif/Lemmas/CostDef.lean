import Verif.Lemmas.HoistCost
import Verif.Lemmas.PlanOut
/-!
# When the size functions have a result
-/
namespace PJ

mutual
/-- Kinds agree wherever the source is transcoded, and conditions ask for vectors of the source. -/
def Kin : Ty → Ty → Prop
  | .unit, _ => True
  | .int _ _ _, src =>
    match src with
    | .unit => True
    | .int _ _ _ => True
    | _ => False
  | .float _ _, src =>
    match src with
    | .unit => True
    | .float _ _ => True
    | _ => False
  | .struct dfs _ _, src =>
    match src with
    | .unit => True
    | .struct sfs _ _ => KinFields dfs sfs
    | _ => False
  | .variant dts dl, src =>
    match src with
    | .unit => True
    | .variant sts _ =>
      ∀ t ∈ sts.toList, if dts.hasName t.name then KinNamed dts t.name t.ty else KinAt dts dl.dflt t.ty
    | _ => False
  | .array de _ _ _, src =>
    match src with
    | .unit => True
    | .array se _ _ _ => Kin de se
    | _ => False
  | .vector de _, src =>
    match src with
    | .unit => True
    | .vector se _ => Kin de se
    | _ => False
def KinFields : Fields → Fields → Prop
  | .nil, _ => True
  | .cons c _ t r, sfs =>
    (match sfs.findLast c with
    | some (_, sty) => Kin t sty
    | none => True) ∧ KinFields r sfs
def KinNamed : Terms → Comp → Ty → Prop
  | .nil, _, _ => True
  | .cons n _ as t r, c, sty =>
    (n = c → Kin t sty ∧ ∀ b n p, Attr.split b n p ∈ as → sty.vecAt p) ∧ KinNamed r c sty
def KinAt : Terms → Nat → Ty → Prop
  | .nil, _, _ => False
  | .cons _ _ as t _, 0, sty => Kin t sty ∧ ∀ b n p, Attr.split b n p ∈ as → sty.vecAt p
  | .cons _ _ _ _ r, i + 1, sty => KinAt r i sty
end

theorem KinNamed_iff {c : Comp} {ty : Ty} : ∀ {ts : Terms}, KinNamed ts c ty ↔
    ∀ t ∈ ts.toList, t.name = c → Kin t.ty ty ∧ ∀ b n p, Attr.split b n p ∈ t.attrs → ty.vecAt p
  | .nil => by simp [KinNamed, Terms.toList]
  | .cons n g as t r => by
    simp only [KinNamed, Terms.toList, List.forall_mem_cons, KinNamed_iff (ts := r)]

mutual
theorem rel_kin (q : VecL → Prop) : ∀ (h t : Ty), Rel q h t → Plain h → WF h → Kin t h
  | .int _ _ _, t, hr, _, _ => by obtain ⟨al, rfl⟩ := hr; simp [Kin]
  | .float _ _, t, hr, _, _ => by obtain ⟨al, rfl⟩ := hr; simp [Kin]
  | .unit, t, hr, _, _ => by simp only [Rel] at hr; subst hr; simp [Kin]
  | .struct fs _ _, t, hr, hp, hh => by
    obtain ⟨fs', sz, al, rfl, hr⟩ := hr
    simp only [Kin]
    exact relFields_kin q fs fs' fs hr hp hh.1 (fun c o t ht => findLast_mem hh.2.names ht)
  | .variant ts hl, t, hr, hp, hh => by
    obtain ⟨ts', l, rfl, h1, h2, h3, h4, _⟩ := hr
    simp only [Plain] at hp
    simp only [WF] at hh
    have hc := relTerms_kin q ts ts' (fun u hu => (h1 u hu).2) hp.2 hh.1
    simp only [Kin]
    intro u hu
    rw [if_pos (h2 u hu)]
    refine KinNamed_iff.2 fun t ht hn => ⟨hc u hu t ht hn, fun b n p ha => ?_⟩
    rcases (h3 t ht (fun e => by rw [e] at ha; cases ha)).2 _ ha with ⟨d, hd⟩ | ⟨b', n', p', hd, hv⟩
    · cases hd
    · cases hd; exact hv u hu hn.symm
  | .array e n _ _, t, hr, hp, hh => by
    obtain ⟨e', esz, al, rfl, hr⟩ := hr
    simp only [Kin]
    exact rel_kin q e e' hr hp hh.1
  | .vector e hl, t, hr, hp, hh => by
    obtain ⟨e', l, rfl, h1, h2, h3⟩ := hr
    simp only [Kin]
    exact rel_kin q e e' h1 hp hh.1
termination_by structural h => h
theorem relFields_kin (q : VecL → Prop) : ∀ (hfs fs hall : Fields), RelFields q hfs fs → PlainFields hfs →
    WFFields hfs → (∀ c o t, (c, o, t) ∈ hfs.toList → hall.findLast c = some (o, t)) → KinFields fs hall
  | .nil, fs, hall, h, _, _, _ => by
    simp only [RelFields] at h; subst h; simp [KinFields]
  | .cons c o t r, fs, hall, h, hp, hh, ha => by
    obtain ⟨o', t', r', rfl, h1, h2⟩ := h
    have c1 := rel_kin q t t' h1 hp.1 hh.1
    have d1 := relFields_kin q r r' hall h2 hp.2 hh.2 (fun c o t ht => ha c o t (by simp [Fields.toList, ht]))
    have e1 := ha c o t (by simp [Fields.toList])
    simp only [KinFields]
    refine ⟨?_, d1⟩
    rw [e1]; exact c1
termination_by structural hfs => hfs
theorem relTerms_kin (q : VecL → Prop) : ∀ (ts ts' : Terms), (∀ u ∈ ts'.toList, RelNamed q ts u.name u.ty) →
    PlainTerms ts → WFTerms ts → ∀ t ∈ ts.toList, ∀ u ∈ ts'.toList, u.name = t.name → Kin u.ty t.ty
  | .nil, ts', _, _, _, t, ht, _, _, _ => by simp [Terms.toList] at ht
  | .cons n g as ty r, ts', h, hp, hh, t, ht, u, hu, hn => by
    simp only [Terms.toList, List.mem_cons] at ht
    rcases ht with rfl | ht
    · exact rel_kin q ty u.ty ((h u hu).1 hn.symm) hp.2.1 hh.1
    · exact relTerms_kin q r ts' (fun u hu => (h u hu).2) hp.2.2 hh.2 t ht u hu hn
termination_by structural ts => ts
end

/-! ## Conditions -/

theorem vecAt_mem {p : Path} {c : Comp} : ∀ fs : Fields, fs.vecAt c p → c ∈ fs.toList.map (·.1)
  | .nil, h => h.elim
  | .cons d o t r, h => by
    simp only [Fields.toList, List.map_cons, List.mem_cons]
    rcases h with ⟨rfl, _⟩ | h
    · exact Or.inl rfl
    · exact Or.inr (vecAt_mem r h)

theorem vecAt_find {p : Path} {c : Comp} : ∀ (fs : Fields), (fs.toList.map (·.1)).Nodup → fs.vecAt c p →
    ∃ o t, fs.find c = some (o, t) ∧ t.vecAt p
  | .nil, _, h => h.elim
  | .cons d o t r, hn, h => by
    simp only [Fields.toList, List.map_cons, List.nodup_cons] at hn
    rcases h with ⟨rfl, h⟩ | h
    · exact ⟨o, t, by simp [Fields.find], h⟩
    · obtain ⟨o', t', h1, h2⟩ := vecAt_find r hn.2 h
      have hne : d ≠ c := by
        rintro rfl
        exact hn.1 (vecAt_mem r h)
      exact ⟨o', t', by simp only [Fields.find]; rw [if_neg hne]; exact h1, h2⟩

theorem readVal_length {S : Mem} {e : Ty} {l : VecL} {a : Nat} {v : Val} (h : readVal S (.vector e l) a = some v) :
    ∃ xs, v = .vec xs ∧ lengthOp S l a = some xs.length ∧ xs.length < 2 ^ 63 ∧
      ∀ j, j < xs.length → readVal S e (vecElemAddr S l a xs.length j) = xs[j]? := by
  simp only [readVal] at h
  split at h
  · cases h
  · rename_i n hn
    split at h
    · rename_i hlt
      split at h
      · rename_i vs hvs
        cases h
        obtain ⟨e1, e2⟩ := collect_some hvs
        subst e1
        exact ⟨vs, rfl, hn, hlt, fun j hj => by simpa using e2 j hj⟩
      · cases h
    · cases h

theorem szLength_some (ru : Bool) {S : Mem} {e : Ty} {l : VecL} {a : Nat} {v : Val}
    (h : readVal S (.vector e l) a = some v) : ∃ k, szLength ru S e l a = some k := by
  obtain ⟨xs, _, h1, _⟩ := readVal_length h
  unfold szLength
  cases l.maxLen with
  | none => exact ⟨_, h1⟩
  | some m =>
    simp only
    split
    · exact ⟨_, rfl⟩
    · exact ⟨_, h1⟩

theorem szProj_def (ru : Bool) {S : Mem} : ∀ (p : Path) (sty : Ty) (sa : Nat) (v : Val), WF sty →
    readVal S sty sa = some v → sty.vecAt p →
    ∃ e l a k, szProj sty sa p = some (e, l, a) ∧ szLength ru S e l a = some k
  | [], sty, sa, v, _, _, hv => by cases sty <;> exact hv.elim
  | [c], sty, sa, v, _, h, hv => by
    cases sty with
    | vector e l =>
      obtain ⟨k, hk⟩ := szLength_some ru h
      exact ⟨e, l, sa, k, rfl, hk⟩
    | _ => exact hv.elim
  | c :: d :: p, sty, sa, v, hw, h, hv => by
    cases sty with
    | struct sfs _ _ =>
      simp only [WF] at hw
      obtain ⟨o, t, hf, ht⟩ := vecAt_find sfs hw.2.names hv
      simp only [szProj, hf]
      simp only [readVal] at h
      split at h
      · rename_i vs hr
        cases h
        have r1 := readFields_find sfs vs c hr
        rw [hf] at r1
        obtain ⟨x, hx, hx'⟩ := r1
        have hwf : WF t := by
          rw [← find_eq_findLast sfs hw.2.names] at hf
          exact findLast_WF sfs c o t hw.1 hf
        exact szProj_def ru (d :: p) t _ x hwf hx' ht
      · cases h
    | _ => exact hv.elim

theorem szCond_def (ru : Bool) {S : Mem} {sty : Ty} {sa : Nat} {v : Val} (hw : WF sty)
    (h : readVal S sty sa = some v) : ∀ as : List Attr, (∀ b n p, Attr.split b n p ∈ as → sty.vecAt p) →
    ∃ b, szCond ru S sty sa as = some b
  | [], _ => ⟨true, rfl⟩
  | .undef d :: r, ha => by
    obtain ⟨b, hb⟩ := szCond_def ru hw h r fun b n p hm => ha b n p (by simp [hm])
    exact ⟨_, by simp only [szCond, hb, Option.map_some]; rfl⟩
  | .split i n p :: r, ha => by
    obtain ⟨b, hb⟩ := szCond_def ru hw h r fun b n p hm => ha b n p (by simp [hm])
    obtain ⟨e, l, a, k, h1, h2⟩ := szProj_def ru p sty sa v hw h (ha i n p (by simp))
    exact ⟨_, by simp only [szCond, h1, h2, hb, Option.map_some]; rfl⟩

/-! ## Sums -/

theorem plus_def {a b : Option Nat} (ha : ∃ x, a = some x) (hb : ∃ x, b = some x) : ∃ x, plus a b = some x := by
  obtain ⟨x, rfl⟩ := ha
  obtain ⟨y, rfl⟩ := hb
  exact ⟨_, rfl⟩

theorem sumTo_def {f : Nat → Option Nat} : ∀ n i, (∀ j, i ≤ j → j < i + n → ∃ x, f j = some x) →
    ∃ x, sumTo f n i = some x
  | 0, _, _ => ⟨0, rfl⟩
  | n + 1, i, h => by
    obtain ⟨x, hx⟩ := h i (by omega) (by omega)
    obtain ⟨y, hy⟩ := sumTo_def n (i + 1) (fun j h1 h2 => h j (by omega) (by omega))
    exact ⟨x + y, by simp only [sumTo, hx, hy, Option.bind_some, Option.map_some]⟩

theorem costVec_total {S : Mem} {f : Nat → Option Nat} {dl sl : VecL} {n sa : Nat} (h : ∀ a, ∃ x, f a = some x) :
    ∃ x, costVec S f dl sl (some n) sa = some x := by
  have hc : ∀ ss w si m, ∃ x, costCopy f ss w si m = some x := fun ss w si m => sumTo_def _ _ fun j _ _ => h _
  unfold costVec
  simp only
  split
  · split
    · exact hc _ _ _ _
    · exact plus_def ⟨_, rfl⟩ (plus_def (hc _ _ _ _) (hc _ _ _ _))
  · split
    · exact plus_def (hc _ _ _ _) (hc _ _ _ _)
    · refine plus_def ⟨_, rfl⟩ ?_
      split <;> exact plus_def (hc _ _ _ _) (plus_def (hc _ _ _ _) (hc _ _ _ _))

theorem costVec_def {S : Mem} {f : Nat → Option Nat} {dl sl : VecL} {n sa : Nat} {esz eal esz' eal' : Nat}
    (hd : VecLayout dl esz eal) (hs : VecLayout sl esz' eal') (hc : VecCompat dl sl) (hn : n < 2 ^ 63)
    (h : ∀ i, i < n → ∃ x, f (vecElemAddr S sl sa n i) = some x) :
    ∃ x, costVec S f dl sl (some n) sa = some x := by
  rw [costVec_same (S := S) (S' := S) (f := f) (g := fun a => some ((f a).getD 0)) (sa := sa) (sa' := sa) hd hs hc hn
    (fun i hi => by obtain ⟨x, hx⟩ := h i hi; rw [hx]; rfl)]
  exact costVec_total fun a => ⟨_, rfl⟩

/-! ## The size functions -/

mutual
theorem cost_max_def (S : Mem) : ∀ (t src : Ty) (path : Path) (sa : Nat), Kin t src → src.hasMax = true →
    ∃ k, cost true S t src path sa = some k
  | .unit, src, path, sa, _, _ => ⟨0, by simp only [cost]⟩
  | .int _ _ _, src, path, sa, hk, _ => by
    cases src <;> first | (simp only [Kin] at hk; done) | exact ⟨0, by simp only [cost]⟩
  | .float _ _, src, path, sa, hk, _ => by
    cases src <;> first | (simp only [Kin] at hk; done) | exact ⟨0, by simp only [cost]⟩
  | .struct dfs _ _, src, path, sa, hk, hm => by
    cases src with
    | unit => exact ⟨0, by simp only [cost]⟩
    | struct sfs _ _ =>
      simp only [Kin] at hk
      simp only [Ty.hasMax] at hm
      simp only [cost]
      exact plus_def (costFields_max_def S dfs true sfs path sa hk hm) (costFields_max_def S dfs false sfs path sa hk hm)
    | _ => simp only [Kin] at hk
  | .variant dts dl, src, path, sa, hk, hm => by
    cases src with
    | unit => exact ⟨0, by simp only [cost]⟩
    | variant sts sl => simp [Ty.hasMax] at hm
    | _ => simp only [Kin] at hk
  | .array de dn _ _, src, path, sa, hk, hm => by
    cases src with
    | unit => exact ⟨0, by simp only [cost]⟩
    | array se sn sesz _ =>
      simp only [Kin] at hk
      simp only [Ty.hasMax] at hm
      simp only [cost]
      exact sumTo_def _ _ fun j _ _ => cost_max_def S de se [] _ hk hm
    | _ => simp only [Kin] at hk
  | .vector de dl, src, path, sa, hk, hm => by
    cases src with
    | unit => exact ⟨0, by simp only [cost]⟩
    | vector se sl =>
      simp only [Kin] at hk
      simp only [Ty.hasMax, Bool.and_eq_true] at hm
      simp only [cost]
      obtain ⟨m, hmm⟩ := Option.isSome_iff_exists.1 hm.1
      have hl : szLength true S se sl sa = some m := by
        unfold szLength
        rw [hmm]
        simp [hm.2]
      rw [hl]
      exact costVec_total fun a => cost_max_def S de se [] a hk hm.2
    | _ => simp only [Kin] at hk
termination_by structural t => t
theorem costFields_max_def (S : Mem) : ∀ (fs : Fields) (out : Bool) (sfs : Fields) (path : Path) (sa : Nat),
    KinFields fs sfs → sfs.hasMax = true → ∃ k, costFields true S fs out sfs path sa = some k
  | .nil, out, sfs, path, sa, _, _ => ⟨0, by simp only [costFields]⟩
  | .cons n o t r, out, sfs, path, sa, hk, hm => by
    simp only [costFields]
    simp only [KinFields] at hk
    refine plus_def ?_ (costFields_max_def S r out sfs path sa hk.2 hm)
    have hk1 := hk.1
    split
    · cases hf : sfs.findLast n with
      | none => exact ⟨0, rfl⟩
      | some z =>
        obtain ⟨so, sty⟩ := z
        rw [hf] at hk1
        exact cost_max_def S t sty _ _ hk1 (hasMax_find hm hf)
    · exact ⟨0, rfl⟩
termination_by structural fs => fs
end

set_option maxHeartbeats 1000000 in
mutual
/-- The size functions have a result on every object that has a value. -/
theorem cost_def (ru : Bool) (S : Mem) : ∀ (t src : Ty) (sa : Nat) (v : Val), WF t → WF src → Tame t src →
    Kin t src → readVal S src sa = some v → ∃ k, cost ru S t src [] sa = some k
  | .unit, src, sa, v, _, _, _, _, _ => ⟨0, by simp only [cost]⟩
  | .int _ _ _, src, sa, v, _, _, _, hk, _ => by
    cases src <;> first | (simp only [Kin] at hk; done) | exact ⟨0, by simp only [cost]⟩
  | .float _ _, src, sa, v, _, _, _, hk, _ => by
    cases src <;> first | (simp only [Kin] at hk; done) | exact ⟨0, by simp only [cost]⟩
  | .struct dfs _ _, src, sa, v, hwt, hws, hc, hk, hv => by
    cases src with
    | unit => exact ⟨0, by simp only [cost]⟩
    | struct sfs _ _ =>
      simp only [Kin] at hk
      simp only [WF] at hwt hws
      simp only [Tame] at hc
      simp only [cost]
      simp only [readVal] at hv
      split at hv
      · rename_i vs hr
        exact plus_def (costFields_def ru S dfs true sfs sa vs hwt.1 hws.1 hws.2.names hc hk hr)
          (costFields_def ru S dfs false sfs sa vs hwt.1 hws.1 hws.2.names hc hk hr)
      · cases hv
    | _ => simp only [Kin] at hk
  | .variant dts dl, src, sa, v, hwt, hws, hc, hk, hv => by
    cases src with
    | unit => exact ⟨0, by simp only [cost]⟩
    | variant sts sl =>
      simp only [Kin] at hk
      simp only [WF] at hwt hws
      simp only [Tame] at hc
      simp only [cost]
      simp only [readVal] at hv
      obtain ⟨t, p, h1, h2, h3, rfl⟩ := selectTerm_read hws.2 hv
      split
      · exact ⟨0, rfl⟩
      · rw [h1]
        simp only
        have hcc := hc t h2
        have hkk := hk t h2
        have hwt' := terms_WF sts hws.1 t h2
        by_cases hnm : dts.hasName t.name = true
        · rw [if_pos hnm] at hcc hkk ⊢
          exact costNamed_def ru S dts dl t.name t.ty _ p hwt.1 hwt' hcc hkk h3
        · rw [if_neg hnm] at hcc hkk ⊢
          exact costAt_def ru S dts dl dl.dflt t.ty _ p hwt.1 hwt' hcc hkk h3
    | _ => simp only [Kin] at hk
  | .array de dn _ _, src, sa, v, hwt, hws, hc, hk, hv => by
    cases src with
    | unit => exact ⟨0, by simp only [cost]⟩
    | array se sn sesz _ =>
      simp only [Kin] at hk
      simp only [WF] at hwt hws
      simp only [Tame] at hc
      simp only [cost]
      simp only [readVal] at hv
      split at hv
      · rename_i l hr
        obtain ⟨hl1, hl2⟩ := collect_some hr
        refine sumTo_def _ _ fun j _ hj => ?_
        have e1 := hl2 j (by omega)
        simp only [Nat.zero_add] at e1
        have hx : l[j]? = some (l[j]'(by omega)) := by simp
        exact cost_def ru S de se _ _ hwt.1 hws.1 hc hk (e1.trans hx)
      · cases hv
    | _ => simp only [Kin] at hk
  | .vector de dl, src, sa, v, hwt, hws, hc, hk, hv => by
    cases src with
    | unit => exact ⟨0, by simp only [cost]⟩
    | vector se sl =>
      by_cases hmx : ru = true ∧ sl.maxLen.isSome = true ∧ se.hasMax = true
      · obtain ⟨rfl, h1, h2⟩ := hmx
        exact cost_max_def S _ _ _ _ hk (by simp [Ty.hasMax, h1, h2])
      simp only [Kin] at hk
      simp only [WF] at hwt hws
      simp only [Tame] at hc
      simp only [cost]
      obtain ⟨xs, rfl, a1, a2, a3⟩ := readVal_length hv
      have hl : szLength ru S se sl sa = some xs.length := by
        unfold szLength
        cases hm : sl.maxLen with
        | none => exact a1
        | some m =>
          rw [hm] at hmx
          simp only [Option.isSome_some, true_and] at hmx
          simp only
          rw [if_neg (by rw [Bool.and_eq_true]; exact hmx)]
          exact a1
      rw [hl]
      refine costVec_def hwt.2 hws.2 hc.2 a2 fun j hj => ?_
      have hx : xs[j]? = some xs[j] := by simp
      exact cost_def ru S de se _ _ hwt.1 hws.1 hc.1 hk ((a3 j hj).trans hx)
    | _ => simp only [Kin] at hk
termination_by structural t => t
theorem costFields_def (ru : Bool) (S : Mem) : ∀ (fs : Fields) (out : Bool) (sfs : Fields) (sa : Nat)
    (vs : List (Comp × Val)), WFFields fs → WFFields sfs → (sfs.toList.map (·.1)).Nodup → TameFields fs sfs →
    KinFields fs sfs → readFields S sfs sa = some vs → ∃ k, costFields ru S fs out sfs [] sa = some k
  | .nil, out, sfs, sa, vs, _, _, _, _, _, _ => ⟨0, by simp only [costFields]⟩
  | .cons n o t r, out, sfs, sa, vs, hwt, hws, hnd, hc, hk, hv => by
    simp only [costFields]
    simp only [WFFields] at hwt
    simp only [TameFields] at hc
    simp only [KinFields] at hk
    refine plus_def ?_ (costFields_def ru S r out sfs sa vs hwt.2 hws hnd hc.2 hk.2 hv)
    have hc1 := hc.1
    have hk1 := hk.1
    split
    · cases hf : sfs.findLast n with
      | none => exact ⟨0, rfl⟩
      | some z =>
        obtain ⟨so, sty⟩ := z
        rw [hf] at hc1 hk1
        simp only at hc1 ⊢
        have hwf := findLast_WF sfs n so sty hws hf
        rw [find_eq_findLast sfs hnd] at hf
        have r1 := readFields_find sfs vs n hv
        rw [hf] at r1
        obtain ⟨x, hx, hx'⟩ := r1
        rw [into_nil]
        exact cost_def ru S t sty _ x hwt.1 hwf hc1 hk1 hx'
    · exact ⟨0, rfl⟩
termination_by structural fs => fs
theorem costNamed_def (ru : Bool) (S : Mem) : ∀ (ts : Terms) (l : VarL) (n : Comp) (sty : Ty) (sa : Nat) (v : Val),
    WFTerms ts → WF sty → TameNamed ts n sty → KinNamed ts n sty → readVal S sty sa = some v →
    ∃ k, costNamed ru S ts l n sty sa = some k
  | .nil, l, n, sty, sa, v, _, _, _, _, _ => ⟨0, by simp only [costNamed]⟩
  | .cons m g as t r, l, n, sty, sa, v, hwt, hws, hc, hk, hv => by
    simp only [costNamed]
    simp only [WFTerms] at hwt
    simp only [TameNamed] at hc
    simp only [KinNamed] at hk
    have hrest := costNamed_def ru S r l n sty sa v hwt.2 hws hc.2 hk.2 hv
    split
    · rename_i hnm
      obtain ⟨b, hb⟩ := szCond_def ru hws hv as (hk.1 hnm).2
      rw [hb]
      cases b with
      | true => exact plus_def ⟨_, rfl⟩ (cost_def ru S t sty sa v hwt.1 hws (hc.1 hnm) (hk.1 hnm).1 hv)
      | false => exact hrest
    · exact hrest
termination_by structural ts => ts
theorem costAt_def (ru : Bool) (S : Mem) : ∀ (ts : Terms) (l : VarL) (i : Nat) (sty : Ty) (sa : Nat) (v : Val),
    WFTerms ts → WF sty → TameAt ts i sty → KinAt ts i sty → readVal S sty sa = some v →
    ∃ k, costAt ru S ts l i sty sa = some k
  | .nil, l, i, sty, sa, v, _, _, _, hk, _ => by simp only [KinAt] at hk
  | .cons m g as t r, l, 0, sty, sa, v, hwt, hws, hc, hk, hv => by
    simp only [costAt]
    simp only [WFTerms] at hwt
    simp only [TameAt] at hc
    simp only [KinAt] at hk
    obtain ⟨b, hb⟩ := szCond_def ru hws hv as hk.2
    rw [hb]
    cases b with
    | true => exact plus_def ⟨_, rfl⟩ (cost_def ru S t sty sa v hwt.1 hws hc hk.1 hv)
    | false => exact ⟨0, rfl⟩
  | .cons m g as t r, l, i + 1, sty, sa, v, hwt, hws, hc, hk, hv => by
    simp only [costAt]
    simp only [WFTerms] at hwt
    simp only [TameAt] at hc
    simp only [KinAt] at hk
    exact costAt_def ru S r l i sty sa v hwt.2 hws hc hk hv
termination_by structural ts => ts
end

end PJ
