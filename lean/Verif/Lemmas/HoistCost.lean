import Verif.Lemmas.Chosen
import Verif.Lemmas.Same
/-!
# Rounded sizes of protocols with split terms
-/
namespace PJ

theorem szCond_append (ru : Bool) (S : Mem) (sty : Ty) (sa : Nat) (a : Attr) : ∀ as : List Attr,
    szCond ru S sty sa (as ++ [a]) = match szCond ru S sty sa as, szCond ru S sty sa [a] with
      | some b, some b' => some (b && b')
      | _, _ => none
  | [] => by
    simp only [List.nil_append]
    cases h : szCond ru S sty sa [a] <;> simp [szCond]
  | .undef d :: r => by
    simp only [List.cons_append, szCond]
    rw [szCond_append ru S sty sa a r]
    cases szCond ru S sty sa r <;> cases szCond ru S sty sa [a] <;> simp [Bool.and_assoc]
  | .split inl n p :: r => by
    simp only [List.cons_append, szCond]
    rw [szCond_append ru S sty sa a r]
    cases szProj sty sa p with
    | none => rfl
    | some z =>
      simp only
      cases szLength ru S z.1 z.2.1 z.2.2 with
      | none => rfl
      | some len => cases szCond ru S sty sa r <;> cases szCond ru S sty sa [a] <;> simp [Bool.and_assoc]

/-- What a true condition says about a split attribute. -/
theorem szCond_mem {ru : Bool} {S : Mem} {sty : Ty} {sa : Nat} {inl : Bool} {n : Nat} {p : Path} :
    ∀ {as : List Attr}, szCond ru S sty sa as = some true → Attr.split inl n p ∈ as →
    ∃ e l a k, szProj sty sa p = some (e, l, a) ∧ szLength ru S e l a = some k ∧ inl = decide (k ≤ n)
  | [], _, hm => by cases hm
  | .undef d :: r, h, hm => by
    simp only [szCond] at h
    have hm : Attr.split inl n p ∈ r := by simpa using hm
    cases hr : szCond ru S sty sa r with
    | none => rw [hr] at h; cases h
    | some b =>
      rw [hr] at h
      simp only [Option.map_some, Option.some.injEq, Bool.and_eq_true] at h
      exact szCond_mem (by rw [hr, h.2]) hm
  | .split i m q :: r, h, hm => by
    simp only [szCond] at h
    cases hp : szProj sty sa q with
    | none => rw [hp] at h; cases h
    | some z =>
      obtain ⟨e, l, a⟩ := z
      rw [hp] at h
      simp only at h
      cases hl : szLength ru S e l a with
      | none => rw [hl] at h; cases h
      | some k =>
        rw [hl] at h
        simp only at h
        cases hr : szCond ru S sty sa r with
        | none => rw [hr] at h; cases h
        | some b =>
          rw [hr] at h
          simp only [Option.map_some, Option.some.injEq, Bool.and_eq_true] at h
          rcases List.mem_cons.1 hm with he | hm
          · cases he
            refine ⟨e, l, a, k, hp, hl, ?_⟩
            have := h.1
            cases inl with
            | true => simp only [if_true, decide_eq_true_eq] at this; rw [decide_eq_true this]
            | false =>
              simp only [Bool.false_eq_true, if_false, decide_eq_true_eq] at this
              rw [decide_eq_false (by omega)]
          · exact szCond_mem (by rw [hr, h.2]) hm

/-- Rounding makes lengths longer. -/
theorem szLength_round {S : Mem} {e : Ty} {l : VecL} {a k k' : Nat} (h : szLength false S e l a = some k)
    (h' : szLength true S e l a = some k') : k ≤ k' := by
  rw [szLength_false] at h
  unfold szLength at h'
  cases hm : l.maxLen with
  | none => rw [hm] at h'; simp only at h'; rw [h] at h'; cases h'; omega
  | some m =>
    rw [hm] at h'
    simp only at h'
    split at h'
    · cases h'; exact lengthOp_max h hm
    · rw [h] at h'; cases h'; omega

theorem szLength_def {S : Mem} {e : Ty} {l : VecL} {a k : Nat} (h : szLength false S e l a = some k) :
    ∃ k', szLength true S e l a = some k' ∧ k ≤ k' := by
  have h1 := h
  rw [szLength_false] at h1
  cases h' : szLength true S e l a with
  | some k' => exact ⟨k', rfl, szLength_round h h'⟩
  | none =>
    unfold szLength at h'
    cases hm : l.maxLen with
    | none => rw [hm] at h'; simp only at h'; rw [h1] at h'; cases h'
    | some m =>
      rw [hm] at h'
      simp only at h'
      split at h'
      · cases h'
      · rw [h1] at h'; cases h'

/-- A condition about long vectors only stays true. -/
theorem szCond_long {S : Mem} {sty : Ty} {sa : Nat} : ∀ {as : List Attr},
    (∀ a ∈ as, (∃ d, a = .undef d) ∨ ∃ n p, a = .split false n p) →
    szCond false S sty sa as = some true → szCond true S sty sa as = some true
  | [], _, _ => rfl
  | a :: r, ha, h => by
    have hr := ha a (by simp)
    have hrest : ∀ x ∈ r, (∃ d, x = .undef d) ∨ ∃ n p, x = .split false n p := fun x hx => ha x (by simp [hx])
    rcases hr with ⟨d, rfl⟩ | ⟨n, p, rfl⟩
    · simp only [szCond] at h ⊢
      cases hq : szCond false S sty sa r with
      | none => rw [hq] at h; cases h
      | some b =>
        rw [hq] at h
        simp only [Option.map_some, Option.some.injEq, Bool.and_eq_true] at h
        rw [szCond_long hrest (by rw [hq, h.2]), h.1]
        rfl
    · simp only [szCond] at h ⊢
      cases hp : szProj sty sa p with
      | none => rw [hp] at h; cases h
      | some z =>
        obtain ⟨e, l, a⟩ := z
        rw [hp] at h
        simp only at h ⊢
        cases hl : szLength false S e l a with
        | none => rw [hl] at h; cases h
        | some k =>
          rw [hl] at h
          simp only at h
          obtain ⟨k', hl', hle⟩ := szLength_def hl
          rw [hl']
          simp only
          cases hq : szCond false S sty sa r with
          | none => rw [hq] at h; cases h
          | some b =>
            rw [hq] at h
            simp only [Bool.false_eq_true, if_false, Option.map_some, Option.some.injEq, Bool.and_eq_true,
              decide_eq_true_eq] at h
            rw [szCond_long hrest (by rw [hq, h.2])]
            simp only [Bool.false_eq_true, if_false, Option.map_some, Bool.and_true, Option.some.injEq,
              decide_eq_true_eq]
            omega

/-- The terms of a laid out variant that hoisting made from a schema. -/
structure Family (ts : List Term) (d : Nat) : Prop where
  made : ∃ base : Comp → Ty, ∀ u ∈ ts, Sch (base u.name) ∧ (layout (base u.name)).noSplit ∧
    ∃ σ, u.ty = layout (choose σ (base u.name)) ∧
      ∀ p n, elig (base u.name) p = some n → ∃ b, σ p = some b ∧ Attr.split b n p ∈ u.attrs
  covers : ∀ u ∈ ts, ∀ (ru : Bool) (S : Mem) (sty : Ty) (sa : Nat),
    ∃ u' ∈ ts, u'.name = u.name ∧ szCond ru S sty sa u'.attrs ≠ some false
  dflt : ∀ u, ts[d]? = some u → ∀ a ∈ u.attrs, (∃ x, a = .undef x) ∨ ∃ n p, a = .split false n p

mutual
/-- Split terms occur at most in a variant reached through struct fields, and there as hoisting makes
them. -/
def Ty.hoisted : Ty → Prop
  | .struct fs _ _ => fs.hoisted
  | .variant ts l => ts.noSplit ∨ Family ts.toList l.dflt
  | .array e _ _ _ => e.noSplit
  | .vector e _ => e.noSplit
  | _ => True
def Fields.hoisted : Fields → Prop
  | .nil => True
  | .cons _ _ t r => t.hoisted ∧ r.hoisted
end

theorem costNamed_cases {ru : Bool} {S : Mem} {l : VarL} {c : Comp} {sty : Ty} {sa : Nat} :
    ∀ {ts : Terms} {a : Nat}, costNamed ru S ts l c sty sa = some a →
    (∃ u ∈ ts.toList, u.name = c ∧ szCond ru S sty sa u.attrs = some true ∧
      ∃ x, cost ru S u.ty sty [] sa = some x ∧ a = (if l.outline then u.ty.size else 0) + x) ∨
    (a = 0 ∧ ∀ u ∈ ts.toList, u.name = c → szCond ru S sty sa u.attrs = some false)
  | .nil, a, h => by
    simp only [costNamed, Option.some.injEq] at h
    exact Or.inr ⟨h.symm, by simp [Terms.toList]⟩
  | .cons n g as t r, a, h => by
    simp only [costNamed] at h
    have hrest : costNamed ru S r l c sty sa = some a →
        (n = c → szCond ru S sty sa as = some false) →
        (∃ u ∈ (Terms.cons n g as t r).toList, u.name = c ∧ szCond ru S sty sa u.attrs = some true ∧
          ∃ x, cost ru S u.ty sty [] sa = some x ∧ a = (if l.outline then u.ty.size else 0) + x) ∨
        (a = 0 ∧ ∀ u ∈ (Terms.cons n g as t r).toList, u.name = c → szCond ru S sty sa u.attrs = some false) := by
      intro h hc
      rcases costNamed_cases h with ⟨u, hu, h1⟩ | ⟨h1, h2⟩
      · exact Or.inl ⟨u, by simp [Terms.toList, hu], h1⟩
      · refine Or.inr ⟨h1, fun u hu hn => ?_⟩
        simp only [Terms.toList, List.mem_cons] at hu
        rcases hu with rfl | hu
        · exact hc hn
        · exact h2 u hu hn
    split at h
    · rename_i hn
      cases hcnd : szCond ru S sty sa as with
      | none => rw [hcnd] at h; cases h
      | some q =>
        rw [hcnd] at h
        cases q with
        | true =>
          simp only at h
          obtain ⟨x, y, e1, e2, rfl⟩ := plus_some h
          cases e1
          exact Or.inl ⟨⟨n, g, as, t⟩, by simp [Terms.toList], hn, hcnd, y, e2, rfl⟩
        | false => exact hrest h fun _ => hcnd
    · rename_i hn
      exact hrest h fun e => absurd e hn

theorem costAt_cases {ru : Bool} {S : Mem} {l : VarL} {sty : Ty} {sa : Nat} :
    ∀ {ts : Terms} {i a : Nat}, costAt ru S ts l i sty sa = some a →
    ∃ u, ts.toList[i]? = some u ∧ ((szCond ru S sty sa u.attrs = some false ∧ a = 0) ∨
      (szCond ru S sty sa u.attrs = some true ∧
        ∃ x, cost ru S u.ty sty [] sa = some x ∧ a = (if l.outline then u.ty.size else 0) + x))
  | .nil, i, a, h => by simp only [costAt] at h; cases h
  | .cons n g as t r, 0, a, h => by
    simp only [costAt] at h
    refine ⟨⟨n, g, as, t⟩, by simp [Terms.toList], ?_⟩
    cases hcnd : szCond ru S sty sa as with
    | none => rw [hcnd] at h; cases h
    | some q =>
      rw [hcnd] at h
      cases q with
      | true =>
        simp only at h
        obtain ⟨x, y, e1, e2, rfl⟩ := plus_some h
        cases e1
        exact Or.inr ⟨rfl, y, e2, rfl⟩
      | false => simp only [Option.some.injEq] at h; exact Or.inl ⟨rfl, h.symm⟩
  | .cons n g as t r, i + 1, a, h => by
    simp only [costAt] at h
    obtain ⟨u, h1, h2⟩ := costAt_cases h
    exact ⟨u, by simpa [Terms.toList] using h1, h2⟩

theorem tameNamed_mem {c : Comp} {sty : Ty} : ∀ {ts : Terms}, TameNamed ts c sty → ∀ u ∈ ts.toList, u.name = c →
    Tame u.ty sty
  | .nil, _, u, hu, _ => by simp [Terms.toList] at hu
  | .cons n g as t r, h, u, hu, hn => by
    simp only [TameNamed] at h
    simp only [Terms.toList, List.mem_cons] at hu
    rcases hu with rfl | hu
    · exact h.1 hn
    · exact tameNamed_mem h.2 u hu hn

theorem tameAt_get {sty : Ty} : ∀ {ts : Terms} {i : Nat}, TameAt ts i sty → ∀ u, ts.toList[i]? = some u →
    Tame u.ty sty
  | .nil, _, _, u, hu => by simp [Terms.toList] at hu
  | .cons n g as t r, 0, h, u, hu => by
    simp only [TameAt] at h
    simp only [Terms.toList, List.getElem?_cons_zero, Option.some.injEq] at hu
    subst hu; exact h
  | .cons n g as t r, i + 1, h, u, hu => by
    simp only [TameAt] at h
    simp only [Terms.toList, List.getElem?_cons_succ] at hu
    exact tameAt_get h u hu

theorem Family.named_le {S : Mem} {ts : Terms} {l : VarL} {d : Nat} (f : Family ts.toList d) {c : Comp} {sty : Ty}
    {sa a b : Nat} (hw : WFTerms ts) (hws : WF sty) (hc : TameNamed ts c sty)
    (ha : costNamed false S ts l c sty sa = some a) (hb : costNamed true S ts l c sty sa = some b) : a ≤ b := by
  rcases costNamed_cases ha with ⟨u, hu, hun, hcu, x, hx, rfl⟩ | ⟨rfl, _⟩
  · rcases costNamed_cases hb with ⟨u', hu', hun', hcu', x', hx', rfl⟩ | ⟨_, hno⟩
    · obtain ⟨base, hbase⟩ := f.made
      obtain ⟨hsch, hns, σ, e1, h1⟩ := hbase u hu
      obtain ⟨_, _, σ', e2, h2⟩ := hbase u' hu'
      rw [hun] at hsch hns e1 h1
      rw [hun'] at e2 h2
      have hch : Chosen S (base c) σ σ' sty sa := by
        intro p n hp
        obtain ⟨q, hq, hm⟩ := h1 p n hp
        obtain ⟨q', hq', hm'⟩ := h2 p n hp
        obtain ⟨e, lv, ad, k, g1, g2, g3⟩ := szCond_mem hcu hm
        obtain ⟨e', lv', ad', k', g1', g2', g3'⟩ := szCond_mem hcu' hm'
        rw [g1] at g1'
        cases g1'
        exact ⟨e, lv, ad, k, k', g1, g2, g2', by rw [hq, g3], by rw [hq', g3']⟩
      have hwu := terms_WF ts hw u hu
      have hwu' := terms_WF ts hw u' hu'
      have htu := tameNamed_mem hc u hu hun
      have htu' := tameNamed_mem hc u' hu' hun'
      rw [e1] at hwu htu hx ⊢
      rw [e2] at hwu' htu' hx' ⊢
      have := choose_le S (base c) σ σ' sty sa x x' hsch hwu hwu' hws htu htu' hns hch hx hx'
      split <;> omega
    · obtain ⟨u', hu', hn', hne⟩ := f.covers u hu true S sty sa
      exact absurd (hno u' hu' (hn'.trans hun)) hne
  · exact Nat.zero_le _

theorem Family.at_le {S : Mem} {ts : Terms} {l : VarL} {d : Nat} (f : Family ts.toList d) {sty : Ty}
    {sa a b : Nat} (hw : WFTerms ts) (hws : WF sty) (hc : TameAt ts d sty)
    (ha : costAt false S ts l d sty sa = some a) (hb : costAt true S ts l d sty sa = some b) : a ≤ b := by
  obtain ⟨u, hu, h1⟩ := costAt_cases ha
  obtain ⟨u', hu', h2⟩ := costAt_cases hb
  rw [hu] at hu'
  cases hu'
  rcases h1 with ⟨_, rfl⟩ | ⟨hcu, x, hx, rfl⟩
  · exact Nat.zero_le _
  · have hlong := szCond_long (f.dflt u hu) hcu
    rcases h2 with ⟨h2, _⟩ | ⟨_, x', hx', rfl⟩
    · rw [hlong] at h2; cases h2
    · have hmem := List.mem_of_getElem? hu
      obtain ⟨base, hbase⟩ := f.made
      obtain ⟨_, hns, σ, e1, _⟩ := hbase u hmem
      have := cost_le S u.ty sty [] sa x x' (terms_WF ts hw u hmem) hws (tameAt_get hc u hu)
        (by rw [e1]; exact choose_noSplit _ σ hns) hx hx'
      omega

theorem Family.unit_le {S : Mem} {ts : Terms} {l : VarL} {d : Nat} (f : Family ts.toList d)
    {sa a b : Nat} (ha : costAt false S ts l d .unit sa = some a) (hb : costAt true S ts l d .unit sa = some b) :
    a ≤ b := by
  obtain ⟨u, hu, h1⟩ := costAt_cases ha
  obtain ⟨u', hu', h2⟩ := costAt_cases hb
  rw [hu] at hu'
  cases hu'
  rcases h1 with ⟨_, rfl⟩ | ⟨hcu, x, hx, rfl⟩
  · exact Nat.zero_le _
  · have hlong := szCond_long (f.dflt u hu) hcu
    rcases h2 with ⟨h2, _⟩ | ⟨_, x', hx', rfl⟩
    · rw [hlong] at h2; cases h2
    · rw [cost_unit] at hx hx'
      cases hx; cases hx'
      exact Nat.le_refl _

mutual
/-- `cost_le` for planned protocols. -/
theorem cost_hoisted_le (S : Mem) : ∀ (t src : Ty) (path : Path) (sa a b : Nat), WF t → WF src → Tame t src →
    t.hoisted → cost false S t src path sa = some a → cost true S t src path sa = some b → a ≤ b
  | .unit, src, path, sa, a, b, h1, h2, h3, _, ha, hb => cost_le S _ src path sa a b h1 h2 h3 trivial ha hb
  | .int _ _ _, src, path, sa, a, b, h1, h2, h3, _, ha, hb => cost_le S _ src path sa a b h1 h2 h3 trivial ha hb
  | .float _ _, src, path, sa, a, b, h1, h2, h3, _, ha, hb => cost_le S _ src path sa a b h1 h2 h3 trivial ha hb
  | .array _ _ _ _, src, path, sa, a, b, h1, h2, h3, hn, ha, hb => cost_le S _ src path sa a b h1 h2 h3 hn ha hb
  | .vector _ _, src, path, sa, a, b, h1, h2, h3, hn, ha, hb => cost_le S _ src path sa a b h1 h2 h3 hn ha hb
  | .struct dfs _ _, src, path, sa, a, b, hwt, hws, hc, hn, ha, hb => by
    cases src with
    | unit => simp only [cost, Option.some.injEq] at ha hb; omega
    | struct sfs _ _ =>
      simp only [cost] at ha hb
      simp only [WF] at hwt hws
      simp only [Tame] at hc
      simp only [Ty.hoisted] at hn
      exact plus_le (fun x y hx hy => costFields_hoisted_le S dfs true sfs path sa x y hwt.1 hws.1 hc hn hx hy)
        (fun x y hx hy => costFields_hoisted_le S dfs false sfs path sa x y hwt.1 hws.1 hc hn hx hy) ha hb
    | _ => simp only [cost] at ha; cases ha
  | .variant dts dl, src, path, sa, a, b, hwt, hws, hc, hn, ha, hb => by
    simp only [Ty.hoisted] at hn
    rcases hn with hn | f
    · exact cost_le S _ src path sa a b hwt hws hc hn ha hb
    cases src with
    | unit => simp only [cost, Option.some.injEq] at ha hb; omega
    | variant sts sl =>
      simp only [cost] at ha hb
      simp only [WF] at hwt hws
      simp only [Tame] at hc
      split at ha
      · rename_i hf
        rw [if_pos hf] at hb
        simp only [Option.some.injEq] at ha hb; omega
      · rename_i hf
        rw [if_neg hf] at hb
        cases hsel : selectTerm S sts sl path sa with
        | none => rw [hsel] at ha; cases ha
        | some o =>
          rw [hsel] at ha hb
          cases o with
          | none => exact f.unit_le ha hb
          | some t =>
            simp only at ha hb
            have htm := selectTerm_mem hsel
            have hcc := hc t htm
            have hwt' := terms_WF sts hws.1 t htm
            split at ha
            · rename_i hnm
              rw [if_pos hnm] at hb hcc
              exact f.named_le hwt.1 hwt' hcc ha hb
            · rename_i hnm
              rw [if_neg hnm] at hb hcc
              exact f.at_le hwt.1 hwt' hcc ha hb
    | _ => simp only [cost] at ha; cases ha
termination_by structural t => t
theorem costFields_hoisted_le (S : Mem) : ∀ (fs : Fields) (out : Bool) (sfs : Fields) (path : Path)
    (sa a b : Nat), WFFields fs → WFFields sfs → TameFields fs sfs → fs.hoisted →
    costFields false S fs out sfs path sa = some a → costFields true S fs out sfs path sa = some b → a ≤ b
  | .nil, out, sfs, path, sa, a, b, _, _, _, _, ha, hb => by
    simp only [costFields, Option.some.injEq] at ha hb; omega
  | .cons n o t r, out, sfs, path, sa, a, b, hwt, hws, hc, hn, ha, hb => by
    simp only [costFields] at ha hb
    simp only [WFFields] at hwt
    simp only [TameFields] at hc
    simp only [Fields.hoisted] at hn
    refine plus_le (fun x y hx hy => ?_)
      (fun x y hx hy => costFields_hoisted_le S r out sfs path sa x y hwt.2 hws hc.2 hn.2 hx hy) ha hb
    split at hx
    · rename_i hto
      rw [if_pos hto] at hy
      have hc1 := hc.1
      cases hf : sfs.findLast n with
      | none => rw [hf] at hx hy; exact some_le x y hx hy
      | some z =>
        obtain ⟨so, sty⟩ := z
        rw [hf] at hx hy hc1
        exact cost_hoisted_le S t sty _ _ x y hwt.1 (findLast_WF sfs n so sty hws hf) hc1 hn.1 hx hy
    · rename_i hto
      rw [if_neg hto] at hy
      exact some_le x y hx hy
termination_by structural fs => fs
end

/-! ## Planned protocols are of this kind -/

mutual
theorem plain_noSplit : ∀ t : Ty, Plain t → (layout t).noSplit
  | .unit, _ => trivial
  | .int _ _ _, _ => trivial
  | .float _ _, _ => trivial
  | .struct fs _ _, h => by simp only [layout, Ty.noSplit]; exact plainFields_noSplit fs 0 h
  | .variant ts _, h => by simp only [layout, Ty.noSplit]; exact plainTerms_noSplit ts h.2
  | .array e _ _ _, h => by simp only [layout, Ty.noSplit]; exact plain_noSplit e h
  | .vector e _, h => by simp only [layout, Ty.noSplit]; exact plain_noSplit e h
termination_by structural t => t
theorem plainFields_noSplit : ∀ (fs : Fields) (off : Nat), PlainFields fs → (layoutFields fs off 1).1.noSplit
  | .nil, _, _ => by simp [layoutFields, Fields.noSplit]
  | .cons _ _ t r, off, h => by
    rw [layoutFields_cons]
    exact ⟨plain_noSplit t h.1, plainFields_noSplit r _ h.2⟩
termination_by structural fs => fs
theorem plainTerms_noSplit : ∀ ts : Terms, PlainTerms ts → (layoutTerms ts).noSplit
  | .nil, _ => by simp [layoutTerms, Terms.noSplit]
  | .cons _ _ as t r, h => by
    simp only [layoutTerms, Terms.noSplit]
    exact ⟨by rw [h.1]; simp, plain_noSplit t h.2.1, plainTerms_noSplit r h.2.2⟩
termination_by structural ts => ts
end

mutual
theorem noSplit_hoisted : ∀ t : Ty, t.noSplit → t.hoisted
  | .unit, _ => trivial
  | .int _ _ _, _ => trivial
  | .float _ _, _ => trivial
  | .struct fs _ _, h => by simp only [Ty.hoisted]; exact noSplitF_hoisted fs h
  | .variant ts _, h => Or.inl h
  | .array e _ _ _, h => h
  | .vector e _, h => h
termination_by structural t => t
theorem noSplitF_hoisted : ∀ fs : Fields, fs.noSplit → fs.hoisted
  | .nil, _ => trivial
  | .cons _ _ t r, h => ⟨noSplit_hoisted t h.1, noSplitF_hoisted r h.2⟩
termination_by structural fs => fs
end

mutual
theorem tryOutline_plain : ∀ (t : Ty) (path : Path) (t' : Ty), tryOutline t path = some t' → Plain t → Plain t'
  | .variant ts l, path, t', ho, h => by
    simp only [tryOutline] at ho
    split at ho
    · cases ho
    · cases ho; exact h
  | .struct fs sz al, path, t', ho, h => by
    simp only [tryOutline] at ho
    split at ho
    · cases ho
    · split at ho
      · rename_i fs' hfs
        cases ho
        exact tryOutlineFields_plain fs path fs' hfs h
      · cases ho
  | .int _ _ _, path, t', ho, _ => by simp [tryOutline] at ho
  | .float _ _, path, t', ho, _ => by simp [tryOutline] at ho
  | .unit, path, t', ho, _ => by simp [tryOutline] at ho
  | .array _ _ _ _, path, t', ho, _ => by simp [tryOutline] at ho
  | .vector _ _, path, t', ho, _ => by simp [tryOutline] at ho
termination_by structural t => t
theorem tryOutlineFields_plain : ∀ (fs : Fields) (path : Path) (fs' : Fields),
    tryOutlineFields fs path = some fs' → PlainFields fs → PlainFields fs'
  | .nil, path, fs', ho, _ => by simp [tryOutlineFields] at ho
  | .cons c o t r, path, fs', ho, h => by
    simp only [tryOutlineFields] at ho
    split at ho
    · rename_i t' ht
      cases ho
      exact ⟨tryOutline_plain t _ t' ht h.1, h.2⟩
    · split at ho
      · rename_i r' hr
        cases ho
        exact ⟨h.1, tryOutlineFields_plain r path r' hr h.2⟩
      · cases ho
termination_by structural fs => fs
end

/-- What hoisting makes of a list of terms, before layout. -/
structure Family0 (x y : List Term × Nat) : Prop where
  made : ∀ u ∈ y.1, ∃ t ∈ x.1, u.name = t.name ∧ ∃ σ, u.ty = choose σ t.ty ∧
    ∀ p n b, elig t.ty p = some n → σ p = some b → Attr.split b n p ∈ u.attrs
  covers : ∀ u ∈ y.1, ∀ (ru : Bool) (S : Mem) (sty : Ty) (sa : Nat),
    ∃ u' ∈ y.1, u'.name = u.name ∧ szCond ru S sty sa u'.attrs ≠ some false
  dflt : y.2 < y.1.length ∧ ∀ u, y.1[y.2]? = some u → ∀ a ∈ u.attrs, ∃ n p, a = .split false n p

theorem Step.family {x y z : List Term × Nat} (s : Step y z) (hs : ∀ t ∈ x.1, Sch t.ty) (f : Family0 x y) :
    Family0 x z := by
  have hmt : s.t ∈ y.1 := (s.mem_src _).2 (Or.inr (Or.inl rfl))
  obtain ⟨t, ht, hn, σ, hty, hat⟩ := f.made s.t hmt
  obtain ⟨e1, e2, e3, e4⟩ := split_choose t.ty σ s.sp (hs t ht) (by rw [← hty]; exact s.split)
  have hmem : ∀ b, ∀ p n b', elig t.ty p = some n → upd σ s.sp.path b p = some b' →
      Attr.split b' n p ∈ s.t.attrs ++ [.split b s.sp.len s.sp.path] := by
    intro b p n b' hp hu
    simp only [upd] at hu
    split at hu
    · rename_i hpp
      subst hpp
      rw [hp] at e3
      cases e3
      cases hu
      simp
    · exact List.mem_append_left _ (hat p n b' hp hu)
  refine ⟨fun u hu => ?_, fun u hu ru S sty sa => ?_, ?_⟩
  · rcases (s.mem u).1 hu with hu | rfl | hu | rfl
    · exact f.made u ((s.mem_src u).2 (Or.inl hu))
    · exact ⟨t, ht, hn, upd σ s.sp.path false, e2, hmem false⟩
    · exact f.made u ((s.mem_src u).2 (Or.inr (Or.inr hu)))
    · exact ⟨t, ht, hn, upd σ s.sp.path true, e1, hmem true⟩
  · have hold : ∃ u0 ∈ y.1, u0.name = u.name := by
      rcases (s.mem u).1 hu with hu | rfl | hu | rfl
      · exact ⟨u, (s.mem_src u).2 (Or.inl hu), rfl⟩
      · exact ⟨s.t, hmt, rfl⟩
      · exact ⟨u, (s.mem_src u).2 (Or.inr (Or.inr hu)), rfl⟩
      · exact ⟨s.t, hmt, rfl⟩
    obtain ⟨u0, hu0, hn0⟩ := hold
    obtain ⟨u1, hu1, hn1, hc1⟩ := f.covers u0 hu0 ru S sty sa
    rcases (s.mem_src u1).1 hu1 with h | rfl | h
    · exact ⟨u1, (s.mem u1).2 (Or.inl h), hn1.trans hn0, hc1⟩
    · have hL : s.t.longOf s.sp ∈ z.1 := (s.mem _).2 (Or.inr (Or.inl rfl))
      have hS : s.t.shortOf s.sp (freeTag (y.1.map (·.tag))) ∈ z.1 := (s.mem _).2 (Or.inr (Or.inr (Or.inr rfl)))
      by_cases hl : szCond ru S sty sa (s.t.longOf s.sp).attrs = some false
      · refine ⟨_, hS, hn1.trans hn0, fun hsh => hc1 ?_⟩
        simp only [Term.longOf] at hl
        simp only [Term.shortOf] at hsh
        rw [szCond_append] at hl hsh
        cases hA : szCond ru S sty sa s.t.attrs with
        | none => rw [hA] at hl; cases hl
        | some b =>
          cases b with
          | false => rfl
          | true =>
            exfalso
            rw [hA] at hl hsh
            simp only [szCond] at hl hsh
            cases hp : szProj sty sa s.sp.path with
            | none => rw [hp] at hl; cases hl
            | some q =>
              obtain ⟨e, l, a⟩ := q
              rw [hp] at hl hsh
              simp only at hl hsh
              cases hk : szLength ru S e l a with
              | none => rw [hk] at hl; cases hl
              | some k =>
                rw [hk] at hl hsh
                simp only [Option.map_some, Bool.and_true, Bool.true_and, Bool.false_eq_true, if_false, if_true,
                  Option.some.injEq, decide_eq_false_iff_not] at hl hsh
                omega
      · exact ⟨_, hL, hn1.trans hn0, hl⟩
    · exact ⟨u1, (s.mem u1).2 (Or.inr (Or.inr (Or.inl h))), hn1.trans hn0, hc1⟩
  · obtain ⟨hlt, hd⟩ := f.dflt
    have hz := s.dflt hlt
    have hsrc := s.src
    have hlt' := hlt
    rw [hsrc] at hlt'
    rw [List.append_assoc] at hz
    have hget : ∃ u, z.1[z.2]? = some u ∧ ∀ a ∈ u.attrs, ∃ n p, a = .split false n p := by
      rw [hsrc] at hd
      rcases Nat.lt_or_ge y.2 s.pre.length with hp | hp
      · rw [List.getElem?_append_left hp] at hz hd
        exact ⟨_, by rw [hz, List.getElem?_eq_getElem hp], hd _ (List.getElem?_eq_getElem hp)⟩
      · rw [List.getElem?_append_right hp] at hz hd
        cases hk : y.2 - s.pre.length with
        | zero =>
          rw [hk] at hz hd
          simp only [List.cons_append, List.getElem?_cons_zero] at hz hd
          refine ⟨_, hz, fun a ha => ?_⟩
          simp only [Term.longOf, List.mem_append, List.mem_singleton] at ha
          rcases ha with ha | ha
          · exact hd _ rfl a ha
          · exact ⟨_, _, ha⟩
        | succ k =>
          rw [hk] at hz hd
          simp only [List.cons_append, List.getElem?_cons_succ] at hz hd
          have hkl : k < s.post.length := by
            simp only [List.length_append, List.length_cons] at hlt'
            omega
          rw [List.getElem?_append_left hkl] at hz
          exact ⟨_, by rw [hz, List.getElem?_eq_getElem hkl], hd _ (List.getElem?_eq_getElem hkl)⟩
    obtain ⟨u, hu, ha⟩ := hget
    refine ⟨(List.getElem?_eq_some_iff.1 hu).1, fun u' hu' => ?_⟩
    rw [hu] at hu'
    cases hu'
    exact ha

theorem hoist_family {ts : Terms} {l : VarL} (hs : Sch (.variant ts l)) (hp : Plain (.variant ts l)) :
    Family (layoutTerms (Terms.ofList (hoist (ts.toList, l.dflt)).1)).toList (hoist (ts.toList, l.dflt)).2 := by
  simp only [Sch] at hs
  obtain ⟨hnd, hpl⟩ := hp
  have hpl := PlainTerms_iff.1 hpl
  have hsch := SchTerms_iff.1 hs.2.2.2.2
  have f : Family0 (ts.toList, l.dflt) (hoist (ts.toList, l.dflt)) :=
    hoist_inv (P := Family0 (ts.toList, l.dflt)) (fun _ _ s f => s.family hsch f) _
      ⟨fun u hu => ⟨u, hu, rfl, fun _ => none, (choose_none _).symm, fun _ _ _ _ h => by cases h⟩,
        fun u hu ru S sty sa => ⟨u, hu, rfl, by rw [(hpl u hu).1]; simp [szCond]⟩,
        hs.1, fun u hu a ha => by
          rw [(hpl u (List.mem_of_getElem? hu)).1] at ha
          cases ha⟩
  have hdone := hoistN_done _ (ts.toList, l.dflt) (Nat.le_refl _)
  have helig : ∀ u ∈ (hoist (ts.toList, l.dflt)).1, eligible u.ty = 0 := by
    intro u hu
    refine splitFirst_none _ ?_
    change hoistOnce (hoist (ts.toList, l.dflt)) = none at hdone
    unfold hoistOnce at hdone
    split at hdone
    · cases hdone
    · rename_i h; exact splitTerms_none h u hu
  rw [layoutTerms_toList, toList_ofList]
  refine ⟨⟨fun c => ((ts.toList.find? fun t => t.name == c).map (·.ty)).getD .unit, fun u hu => ?_⟩,
    fun u hu ru S sty sa => ?_, fun u hu a ha => ?_⟩
  · obtain ⟨u0, hu0, rfl⟩ := List.mem_map.1 hu
    obtain ⟨t, ht, hn, σ, hty, hat⟩ := f.made u0 hu0
    have hfind : ts.toList.find? (fun t => t.name == u0.name) = some t := by
      cases hf : ts.toList.find? (fun t => t.name == u0.name) with
      | none =>
        have := List.find?_eq_none.1 hf t ht
        simp [hn] at this
      | some t' =>
        have h1 := List.find?_some hf
        simp only [beq_iff_eq] at h1
        rw [nodup_map_inj hnd (List.mem_of_find?_eq_some hf) ht (h1.trans hn)]
    simp only [hfind, Option.map_some, Option.getD_some]
    refine ⟨hsch t ht, plain_noSplit _ (hpl t ht).2, σ, by rw [hty], fun p n hp => ?_⟩
    obtain ⟨b, hb⟩ := Option.isSome_iff_exists.1
      (choose_complete t.ty σ (by rw [← hty]; exact helig u0 hu0) p n hp)
    exact ⟨b, hb, hat p n b hp hb⟩
  · obtain ⟨u0, hu0, rfl⟩ := List.mem_map.1 hu
    obtain ⟨u1, hu1, h1, h2⟩ := f.covers u0 hu0 ru S sty sa
    exact ⟨_, List.mem_map.2 ⟨u1, hu1, rfl⟩, h1, h2⟩
  · rw [List.getElem?_map] at hu
    obtain ⟨u0, hu0, rfl⟩ := Option.map_eq_some_iff.1 hu
    exact Or.inr (f.dflt.2 u0 hu0 a ha)

mutual
theorem findHoist_hoisted : ∀ (t t' : Ty), findHoist t = some t' → Sch t → Plain t → (layout t').hoisted
  | .variant ts l, t', h, hs, hp => by
    simp only [findHoist, Option.some.injEq] at h
    subst h
    simp only [layout, Ty.hoisted]
    refine Or.inr ?_
    have := hoist_family hs hp
    unfold layoutVar
    split <;> exact this
  | .struct fs sz al, t', h, hs, hp => by
    simp only [findHoist] at h
    split at h
    · rename_i fs' hf
      cases h
      simp only [layout, Ty.hoisted]
      exact findHoistFields_hoisted fs fs' hf hs.2 hp 0
    · cases h
  | .int _ _ _, t', h, _, _ => by simp [findHoist] at h
  | .float _ _, t', h, _, _ => by simp [findHoist] at h
  | .unit, t', h, _, _ => by simp [findHoist] at h
  | .array _ _ _ _, t', h, _, _ => by simp [findHoist] at h
  | .vector _ _, t', h, _, _ => by simp [findHoist] at h
termination_by structural t => t
theorem findHoistFields_hoisted : ∀ (fs fs' : Fields), findHoistFields fs = some fs' → SchFields fs →
    PlainFields fs → ∀ off, (layoutFields fs' off 1).1.hoisted
  | .nil, fs', h, _, _, _ => by simp [findHoistFields] at h
  | .cons c o t r, fs', h, hs, hp, off => by
    simp only [findHoistFields] at h
    split at h
    · rename_i t' ht
      cases h
      rw [layoutFields_cons]
      exact ⟨findHoist_hoisted t t' ht hs.1 hp.1, noSplitF_hoisted _ (plainFields_noSplit r _ hp.2)⟩
    · split at h
      · rename_i r' hr
        cases h
        rw [layoutFields_cons]
        exact ⟨noSplit_hoisted _ (plain_noSplit t hp.1), findHoistFields_hoisted r r' hr hs.2 hp.2 _⟩
      · cases h
termination_by structural fs => fs
end

mutual
theorem setOut_hoisted (d : Nat) : ∀ t : Ty, t.hoisted → (setOut d t).hoisted
  | .variant ts l, h => by
    simp only [setOut]
    split <;> exact h
  | .struct fs _ _, h => by simp only [setOut, Ty.hoisted]; exact setOutFields_hoisted d fs h
  | .int _ _ _, h => h
  | .float _ _, h => h
  | .unit, h => h
  | .array _ _ _ _, h => h
  | .vector _ _, h => h
termination_by structural t => t
theorem setOutFields_hoisted (d : Nat) : ∀ fs : Fields, fs.hoisted → (setOutFields d fs).hoisted
  | .nil, h => h
  | .cons _ _ t r, h => ⟨setOut_hoisted d t h.1, setOutFields_hoisted d r h.2⟩
termination_by structural fs => fs
end

theorem plan_hoisted (t : Ty) (path : Path) (p : Proto) (hs : Sch t) (hp : Plain t) (h : plan t path = some p) :
    p.head.hoisted := by
  unfold plan at h
  split at h
  · cases h
    have key : ∀ t1 : Ty, Sch t1 → Plain t1 → (layout ((findHoist t1).getD t1)).hoisted := by
      intro t1 h1 h2
      cases hf : findHoist t1 with
      | none => exact noSplit_hoisted _ (plain_noSplit t1 h2)
      | some t2 => exact findHoist_hoisted t1 t2 hf h1 h2
    have hlay : (layout (prepare t path)).hoisted := by
      unfold prepare
      cases ho : tryOutline t path with
      | none => exact key t hs hp
      | some t1 => exact key t1 ((tryOutline_sch t path t1 ho).1 hs) (tryOutline_plain t path t1 ho hp)
    unfold genOffset
    split
    · exact hlay
    · exact setOut_hoisted _ _ hlay
  · cases h

end PJ
