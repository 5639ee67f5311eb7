import Verif.Lemmas.PlanCtxHoist
/-!
# Wire layout in a context
-/
namespace PJ

/-! ## Extending a context -/

/-- Every type of one context is in the other with the same data. -/
def Ext (ctx ctx' : Ctx) : Prop := ∀ q d, ctx q = some d → ctx' q = some d

theorem Ext.trans {a b c : Ctx} (h : Ext a b) (g : Ext b c) : Ext a c := fun q d hd => g q d (h q d hd)

theorem treeFields_imp {step step' : Ref → Option Ty} : ∀ {fs : List (FieldD Ref)} {x : Fields},
    (∀ f ∈ fs, ∀ t, step f.ty = some t → step' f.ty = some t) → treeFields step fs = some x → treeFields step' fs = some x
  | [], _, _, h => h
  | f :: fs, x, hi, h => by
    obtain ⟨t, r, h1, h2, rfl⟩ := treeFields_cons h
    have hr := treeFields_imp (fun g hg => hi g (by simp [hg])) h2
    have h1' := hi f (by simp) t h1
    simp only [treeFields, h1', hr]

theorem treeTerms_imp {step step' : Ref → Option Ty} : ∀ {fs : List (TermD Ref Attr)} {x : Terms},
    (∀ f ∈ fs, ∀ t, step f.ty = some t → step' f.ty = some t) → treeTerms step fs = some x → treeTerms step' fs = some x
  | [], _, _, h => h
  | f :: fs, x, hi, h => by
    obtain ⟨t, r, h1, h2, rfl⟩ := treeTerms_cons h
    have hr := treeTerms_imp (fun g hg => hi g (by simp [hg])) h2
    have h1' := hi f (by simp) t h1
    simp only [treeTerms, h1', hr]

theorem tree_ext {ctx ctx' : Ctx} (e : Ext ctx ctx') : ∀ {n : Nat} {r : Ref} {t : Ty}, tree ctx n r = some t →
    tree ctx' n r = some t
  | 0, _, _, h => by simp [tree] at h
  | n + 1, r, t, h => by
    cases r with
    | int | float | unit => simpa [tree] using h
    | array | vector =>
      simp only [tree, Option.map_eq_some_iff] at h ⊢
      obtain ⟨u, hu, rfl⟩ := h
      exact ⟨u, tree_ext e hu, rfl⟩
    | nom k =>
      rw [tree_nom] at h ⊢
      cases hd : ctx k with
      | none => rw [hd] at h; cases h
      | some d =>
        rw [hd] at h
        rw [e k d hd]
        simp only [Option.bind_some] at h ⊢
        cases d with
        | struct =>
          simp only [treeData, Option.map_eq_some_iff] at h ⊢
          obtain ⟨x, hx, rfl⟩ := h
          exact ⟨x, treeFields_imp (fun _ _ _ h => tree_ext e h) hx, rfl⟩
        | inl | out =>
          simp only [treeData, Option.map_eq_some_iff] at h ⊢
          obtain ⟨x, hx, rfl⟩ := h
          exact ⟨x, treeTerms_imp (fun _ _ _ h => tree_ext e h) hx, rfl⟩

theorem nodes_ext {ctx ctx' : Ctx} (e : Ext ctx ctx') : ∀ {n : Nat} {r : Ref}, Nodes ctx n r → Nodes ctx' n r
  | 0, _, _ => trivial
  | n + 1, r, ⟨h1, h2⟩ => by
    have : ∀ k, r = .nom k → ctx' k = ctx k := by
      rintro k rfl
      obtain ⟨d, hd, -⟩ := NodeOK_nom.1 h1
      rw [hd, e k d hd]
    exact ⟨NodeOK_agree this h1, fun c hc => nodes_ext e (h2 c (by rw [← kids_agree this]; exact hc))⟩

/-! ## The data of a laid out type -/

/-- The type with the numbers of a tree. -/
def stamp : Ref → Ty → Ref
  | .int _ _ _, .int w s a => .int w s a
  | .float _ _, .float w a => .float w a
  | .array e _ _ _, .array te n es al => .array (stamp e te) n es al
  | .vector e _, .vector te l => .vector (stamp e te) l
  | r, _ => r

def stampFields : List (FieldD Ref) → Fields → List (FieldD Ref)
  | f :: fs, .cons _ o t r => ⟨f.name, o, stamp f.ty t⟩ :: stampFields fs r
  | _, _ => []

def stampTerms : List (TermD Ref Attr) → Terms → List (TermD Ref Attr)
  | f :: fs, .cons _ _ _ t r => { f with ty := stamp f.ty t } :: stampTerms fs r
  | _, _ => []

def stampData : Data → Ty → Data
  | .struct fs _ _, .struct x sz al => .struct (stampFields fs x) sz al
  | .inl ts _, .variant x l =>
    .inl (stampTerms ts x)
      { dflt := l.dflt, termOff := l.termOff, termSize := l.termSize, tagOff := l.tagOff, tagW := l.tagW,
        size := l.size, align := l.align }
  | .out ts _, .variant x l =>
    .out (stampTerms ts x)
      { dflt := l.dflt, tagW := l.tagW, tagAlign := l.align, termOff := l.termOff, termAlign := l.termAlign }
  | d, _ => d

theorem stamp_nom (k : Key) (t : Ty) : stamp (.nom k) t = .nom k := by cases t <;> rfl

theorem stampTerms_names {step : Ref → Option Ty} : ∀ {ts : List (TermD Ref Attr)} {x : Terms}, treeTerms step ts = some x →
    (stampTerms ts (layoutTerms x)).map (·.name) = ts.map (·.name) ∧
      (layoutTerms x).toList.map (·.tag) = ts.map (·.tag)
  | [], x, h => by
    simp only [treeTerms, Option.some.injEq] at h
    subst h
    exact ⟨rfl, rfl⟩
  | f :: fs, x, h => by
    obtain ⟨t, r, h1, h2, rfl⟩ := treeTerms_cons h
    have := stampTerms_names h2
    simp only [layoutTerms, stampTerms, Terms.toList, List.map_cons, this.1, this.2, and_self]

theorem interned_names {ts us : List (TermD Ref Attr)} {d : Nat} (h : us.map (·.name) = ts.map (·.name)) (hi : Interned ts d) :
    Interned us d := by
  have hl : us.length = ts.length := by simpa using congrArg List.length h
  refine ⟨?_, by rw [hl]; exact hi.2⟩
  have h1 : (ts.map (·.name)).Pairwise fun a b => Str.less (b.map Char.toNat) (a.map Char.toNat) = false :=
    List.pairwise_map.2 hi.1
  rw [← h] at h1
  exact List.pairwise_map.1 h1

/-- All data of the wire domain is that of the laid out tree. -/
def Canon (int wire : Ctx) : Prop := ∀ k d, wire k = some d →
  ∃ d0 m t, int k = some d0 ∧ tree int m (.nom k) = some t ∧ d = stampData d0 (layout t)

/-- What layout does with a type. -/
def LaysOut (int : Ctx) (n : Nat) (r : Ref) (t : Ty) : Prop := ∀ wire, Canon int wire →
  (t.planDef = true → ∃ wire', layoutC int n r wire = some (stamp r (layout t), wire') ∧ Canon int wire' ∧ Ext wire wire' ∧
    tree wire' n (stamp r (layout t)) = some (layout t) ∧ Nodes wire' n (stamp r (layout t))) ∧
  (t.planDef = false → layoutC int n r wire = none)

theorem layFields_spec {int : Ctx} {n : Nat} : ∀ (fs : List (FieldD Ref)) (x : Fields) (wire : Ctx) (off al : Nat),
    treeFields (tree int n) fs = some x → (∀ f ∈ fs, ∀ t, tree int n f.ty = some t → LaysOut int n f.ty t) → Canon int wire →
    (x.planDef = true → ∃ wire', layFields (layoutC int n) fs wire off al =
          some (stampFields fs (layoutFields x off al).1, (layoutFields x off al).2.1, (layoutFields x off al).2.2, wire') ∧
        Canon int wire' ∧ Ext wire wire' ∧
        treeFields (tree wire' n) (stampFields fs (layoutFields x off al).1) = some (layoutFields x off al).1 ∧
        ∀ f ∈ stampFields fs (layoutFields x off al).1, Nodes wire' n f.ty) ∧
    (x.planDef = false → layFields (layoutC int n) fs wire off al = none)
  | [], x, wire, off, al, h, _, hc => by
    simp only [treeFields, Option.some.injEq] at h
    subst h
    simp only [Fields.planDef]
    refine ⟨fun _ => ?_, fun h => by simp at h⟩
    exact ⟨wire, rfl, hc, fun _ _ h => h, rfl, by simp [stampFields]⟩
  | f :: fs, x, wire, off, al, h, ih, hc => by
    obtain ⟨t, r, h1, h2, rfl⟩ := treeFields_cons h
    have hf := ih f (by simp) t h1 wire hc
    simp only [Fields.planDef, layFields]
    cases hp : t.planDef with
    | false =>
      rw [hp] at hf
      replace hf := hf.2 rfl
      simp [hf]
    | true =>
      rw [hp] at hf
      replace hf := hf.1 rfl
      obtain ⟨w1, e1, e2, e3, e4, e5⟩ := hf
      simp only [e1, refAlign_tree e4, refSize_tree e4, Bool.true_and]
      have hr := layFields_spec fs r w1 (roundUp off (layout t).align + (layout t).size) (max al (layout t).align) h2
        (fun g hg => ih g (by simp [hg])) e2
      cases hq : r.planDef with
      | false =>
        rw [hq] at hr
        replace hr := hr.2 rfl
        simp [hr]
      | true =>
        rw [hq] at hr
        replace hr := hr.1 rfl
        obtain ⟨w2, g1, g2, g3, g4, g5⟩ := hr
        refine ⟨fun _ => ?_, fun h => by simp at h⟩
        simp only [g1, layoutFields, stampFields]
        refine ⟨w2, rfl, g2, e3.trans g3, ?_, ?_⟩
        · have e4' := tree_ext g3 e4
          simp only [treeFields, e4', g4]
        · intro g hg
          rcases List.mem_cons.1 hg with rfl | hg
          · exact nodes_ext g3 e5
          · exact g5 g hg

theorem layTerms_spec {int : Ctx} {n : Nat} : ∀ (ts : List (TermD Ref Attr)) (x : Terms) (wire : Ctx) (sz al : Nat),
    treeTerms (tree int n) ts = some x → (∀ f ∈ ts, ∀ t, tree int n f.ty = some t → LaysOut int n f.ty t) → Canon int wire →
    (x.planDef = true → ∃ wire', layTerms (layoutC int n) ts wire sz al =
          some (stampTerms ts (layoutTerms x), (layoutTerms x).toList.foldl (fun s t => max s t.ty.size) sz,
            (layoutTerms x).toList.foldl (fun a t => roundUp a t.ty.align) al, wire') ∧
        Canon int wire' ∧ Ext wire wire' ∧
        treeTerms (tree wire' n) (stampTerms ts (layoutTerms x)) = some (layoutTerms x) ∧
        ∀ f ∈ stampTerms ts (layoutTerms x), Nodes wire' n f.ty) ∧
    (x.planDef = false → layTerms (layoutC int n) ts wire sz al = none)
  | [], x, wire, sz, al, h, _, hc => by
    simp only [treeTerms, Option.some.injEq] at h
    subst h
    simp only [Terms.planDef]
    refine ⟨fun _ => ?_, fun h => by simp at h⟩
    exact ⟨wire, rfl, hc, fun _ _ h => h, rfl, by simp [stampTerms]⟩
  | f :: fs, x, wire, sz, al, h, ih, hc => by
    obtain ⟨t, r, h1, h2, rfl⟩ := treeTerms_cons h
    have hf := ih f (by simp) t h1 wire hc
    simp only [Terms.planDef, layTerms]
    cases hp : t.planDef with
    | false =>
      rw [hp] at hf
      replace hf := hf.2 rfl
      simp [hf]
    | true =>
      rw [hp] at hf
      replace hf := hf.1 rfl
      obtain ⟨w1, e1, e2, e3, e4, e5⟩ := hf
      simp only [e1, refAlign_tree e4, refSize_tree e4, Bool.true_and]
      have hr := layTerms_spec fs r w1 (max sz (layout t).size) (roundUp al (layout t).align) h2
        (fun g hg => ih g (by simp [hg])) e2
      cases hq : r.planDef with
      | false =>
        rw [hq] at hr
        replace hr := hr.2 rfl
        simp [hr]
      | true =>
        rw [hq] at hr
        replace hr := hr.1 rfl
        obtain ⟨w2, g1, g2, g3, g4, g5⟩ := hr
        refine ⟨fun _ => ?_, fun h => by simp at h⟩
        simp only [g1, layoutTerms, stampTerms, Terms.toList, List.foldl_cons]
        refine ⟨w2, rfl, g2, e3.trans g3, ?_, ?_⟩
        · have e4' := tree_ext g3 e4
          simp only [treeTerms, e4', g4]
        · intro g hg
          rcases List.mem_cons.1 hg with rfl | hg
          · exact nodes_ext g3 e5
          · exact g5 g hg

theorem stampData_kind (d : Data) (t : Ty) : (stampData d t).kind = d.kind := by
  cases d <;> cases t <;> rfl

/-- Writing the data of the laid out tree. -/
theorem Canon.write {int wire : Ctx} (hc : Canon int wire) {n : Nat} {k : Key} {d0 : Data} {t : Ty} (hd : int k = some d0)
    (ht : tree int (n + 1) (.nom k) = some t) (hk : d0.kind = k.kind) (hi : (stampData d0 (layout t)).interned)
    (htree : treeData (tree wire n) (stampData d0 (layout t)) = some (layout t))
    (hnodes : ∀ c ∈ (stampData d0 (layout t)).kids, Nodes wire n c) :
    Canon int (setTypeData wire k (stampData d0 (layout t))) ∧ Ext wire (setTypeData wire k (stampData d0 (layout t))) ∧
    tree (setTypeData wire k (stampData d0 (layout t))) (n + 1) (.nom k) = some (layout t) ∧
    Nodes (setTypeData wire k (stampData d0 (layout t))) (n + 1) (.nom k) := by
  have hself : setTypeData wire k (stampData d0 (layout t)) k = some (stampData d0 (layout t)) := setTypeData_self hi
  have hext : Ext wire (setTypeData wire k (stampData d0 (layout t))) := fun q d hq => by
    by_cases e : q = k
    · subst e
      obtain ⟨d1, m, u, h1, h2, rfl⟩ := hc q d hq
      rw [hd] at h1
      cases h1
      rw [tree_det h2 ht]
      exact hself
    · rw [setTypeData_ne e]
      exact hq
  refine ⟨fun q d hq => ?_, hext, ?_, NodeOK_nom.2 ⟨_, hself, (stampData_kind _ _).trans hk, hi⟩, fun c hcm => ?_⟩
  · by_cases e : q = k
    · subst e
      rw [hself] at hq
      cases hq
      exact ⟨d0, n + 1, t, hd, ht, rfl⟩
    · rw [setTypeData_ne e] at hq
      exact hc q d hq
  · rw [tree_nom, hself]
    simp only [Option.bind_some]
    rw [treeData_congr (step := tree wire n)]
    · exact htree
    · intro c hcm
      obtain ⟨u, hu⟩ := treeData_mem htree c hcm
      rw [hu, tree_ext hext hu]
  · simp only [kids, hself] at hcm
    exact nodes_ext hext (hnodes c hcm)

theorem layoutC_spec (int : Ctx) : ∀ (n : Nat) (r : Ref) (t : Ty), tree int n r = some t → Nodes int n r → LaysOut int n r t
  | 0, _, _, h, _ => by simp [tree] at h
  | n + 1, r, t, h, hn => by
    intro wire hc
    cases r with
    | int w s a =>
      simp only [tree, Option.some.injEq] at h
      subst h
      simp only [Ty.planDef]
      refine ⟨fun _ => ?_, fun h => by simp at h⟩
      exact ⟨wire, rfl, hc, fun _ _ h => h, rfl, hn.1, by simp [kids, layout, stamp]⟩
    | float w a =>
      simp only [tree, Option.some.injEq] at h
      subst h
      simp only [Ty.planDef]
      refine ⟨fun _ => ?_, fun h => by simp at h⟩
      exact ⟨wire, rfl, hc, fun _ _ h => h, rfl, hn.1, by simp [kids, layout, stamp]⟩
    | unit =>
      simp only [tree, Option.some.injEq] at h
      subst h
      simp only [Ty.planDef]
      refine ⟨fun _ => ?_, fun h => by simp at h⟩
      exact ⟨wire, rfl, hc, fun _ _ h => h, rfl, hn.1, by simp [kids, stamp]⟩
    | array e len es al =>
      simp only [tree, Option.map_eq_some_iff] at h
      obtain ⟨u, hu, rfl⟩ := h
      have he := layoutC_spec int n e u hu (hn.2 e (by simp [kids])) wire hc
      simp only [Ty.planDef, layoutC]
      cases hp : u.planDef with
      | false =>
        rw [hp] at he
        replace he := he.2 rfl
        simp [he]
      | true =>
        rw [hp] at he
        replace he := he.1 rfl
        obtain ⟨w1, e1, e2, e3, e4, e5⟩ := he
        refine ⟨fun _ => ?_, fun h => by simp at h⟩
        simp only [e1, refAlign_tree e4, refSize_tree e4, layout, stamp]
        refine ⟨w1, rfl, e2, e3, by simp only [tree, e4, Option.map_some], ?_, ?_⟩
        · exact trivial
        · intro c hcm
          simp only [kids, List.mem_singleton] at hcm
          subst hcm
          exact e5
    | vector e l =>
      simp only [tree, Option.map_eq_some_iff] at h
      obtain ⟨u, hu, rfl⟩ := h
      have he := layoutC_spec int n e u hu (hn.2 e (by simp [kids])) wire hc
      simp only [Ty.planDef, layoutC]
      cases hp : u.planDef with
      | false =>
        rw [hp] at he
        replace he := he.2 rfl
        simp [he]
      | true =>
        rw [hp] at he
        replace he := he.1 rfl
        obtain ⟨w1, e1, e2, e3, e4, e5⟩ := he
        simp only [e1, refAlign_tree e4, refSize_tree e4, layout, stamp, Bool.and_true]
        by_cases hz : (layout u).size = 0
        · simp [hz]
        · have hz' : ((layout u).size != 0) = true := by simp [hz]
          refine ⟨fun _ => ?_, fun h => by simp [hz] at h⟩
          simp only [hz, if_false]
          refine ⟨w1, rfl, e2, e3, by simp only [tree, e4, Option.map_some], ?_, ?_⟩
          · exact trivial
          · intro c hcm
            simp only [kids, List.mem_singleton] at hcm
            subst hcm
            exact e5
    | nom k =>
      obtain ⟨d, hd, hkd, hint⟩ := NodeOK_nom.1 hn.1
      have h0 := h
      rw [tree_nom, hd] at h
      simp only [Option.bind_some] at h
      have hkids : kids int (.nom k) = d.kids := by simp only [kids, hd]
      simp only [layoutC, hd, stamp_nom]
      cases d with
      | struct fs sz al =>
        simp only [treeData, Option.map_eq_some_iff] at h
        obtain ⟨x, hx, rfl⟩ := h
        have hf := layFields_spec fs x wire 0 1 hx (fun f hf t ht => layoutC_spec int n f.ty t ht
          (hn.2 _ (by rw [hkids]; exact List.mem_map_of_mem (f := (·.ty)) hf))) hc
        simp only [Ty.planDef]
        cases hp : x.planDef with
        | false =>
          rw [hp] at hf
          replace hf := hf.2 rfl
          simp [hf]
        | true =>
          rw [hp] at hf
          replace hf := hf.1 rfl
          obtain ⟨w1, e1, e2, e3, e4, e5⟩ := hf
          refine ⟨fun _ => ?_, fun h => by simp at h⟩
          simp only [e1]
          obtain ⟨g1, g2, g3, g4⟩ := e2.write hd h0 hkd trivial (by
            simp only [layout, stampData, treeData, e4, Option.map_some]) (by
            intro c hcm
            simp only [layout, stampData, Data.kids] at hcm
            obtain ⟨f, hf, rfl⟩ := List.mem_map.1 hcm
            exact e5 f hf)
          exact ⟨_, rfl, g1, e3.trans g2, g3, g4⟩
      | inl ts d =>
        simp only [treeData, Option.map_eq_some_iff] at h
        obtain ⟨x, hx, rfl⟩ := h
        have hf := layTerms_spec ts x wire 0 1 hx (fun f hf t ht => layoutC_spec int n f.ty t ht
          (hn.2 _ (by rw [hkids]; exact List.mem_map_of_mem (f := (·.ty)) hf))) hc
        have hnm := stampTerms_names hx
        have htx : x.toList.map (·.tag) = ts.map (·.tag) := by
          obtain ⟨zs, rfl, hz, -⟩ := treeTerms_pairs hx
          rw [hz]
          simp [TPair.term]
        simp only [Ty.planDef, htx]
        cases hp : x.planDef with
        | false =>
          rw [hp] at hf
          replace hf := hf.2 rfl
          simp [hf]
        | true =>
          rw [hp] at hf
          replace hf := hf.1 rfl
          obtain ⟨w1, e1, e2, e3, e4, e5⟩ := hf
          cases hw : computeTagWidth (ts.map (·.tag)) with
          | none => simp [e1]
          | some w =>
            refine ⟨fun _ => ?_, fun h => by simp at h⟩
            simp only [e1]
            obtain ⟨g1, g2, g3, g4⟩ := e2.write hd h0 hkd (by
                simp only [layout, stampData, Data.interned, layoutVar, InlD.l, Bool.false_eq_true, if_false]
                exact interned_names hnm.1 hint) (by
              simp only [layout, stampData, treeData, e4, Option.map_some]
              simp only [layoutVar, InlD.l, Bool.false_eq_true, if_false]) (by
              intro c hcm
              simp only [layout, stampData, Data.kids] at hcm
              obtain ⟨f, hf, rfl⟩ := List.mem_map.1 hcm
              exact e5 f hf)
            refine ⟨_, ?_, g1, e3.trans g2, g3, g4⟩
            simp only [layout, stampData, layoutVar, InlD.l, Bool.false_eq_true, if_false, hnm.2, hw, Option.getD_some, maxSize,
              maxAlign]
      | out ts d =>
        simp only [treeData, Option.map_eq_some_iff] at h
        obtain ⟨x, hx, rfl⟩ := h
        have hf := layTerms_spec ts x wire 0 1 hx (fun f hf t ht => layoutC_spec int n f.ty t ht
          (hn.2 _ (by rw [hkids]; exact List.mem_map_of_mem (f := (·.ty)) hf))) hc
        have hnm := stampTerms_names hx
        have htx : x.toList.map (·.tag) = ts.map (·.tag) := by
          obtain ⟨zs, rfl, hz, -⟩ := treeTerms_pairs hx
          rw [hz]
          simp [TPair.term]
        simp only [Ty.planDef, htx]
        cases hp : x.planDef with
        | false =>
          rw [hp] at hf
          replace hf := hf.2 rfl
          simp [hf]
        | true =>
          rw [hp] at hf
          replace hf := hf.1 rfl
          obtain ⟨w1, e1, e2, e3, e4, e5⟩ := hf
          cases hw : computeTagWidth (ts.map (·.tag)) with
          | none => simp [e1]
          | some w =>
            refine ⟨fun _ => ?_, fun h => by simp at h⟩
            simp only [e1]
            obtain ⟨g1, g2, g3, g4⟩ := e2.write hd h0 hkd (by
                simp only [layout, stampData, Data.interned, layoutVar, OutD.l, if_true]
                exact interned_names hnm.1 hint) (by
              simp only [layout, stampData, treeData, e4, Option.map_some]
              simp only [layoutVar, OutD.l, if_true]) (by
              intro c hcm
              simp only [layout, stampData, Data.kids] at hcm
              obtain ⟨f, hf, rfl⟩ := List.mem_map.1 hcm
              exact e5 f hf)
            refine ⟨_, ?_, g1, e3.trans g2, g3, g4⟩
            simp only [layout, stampData, layoutVar, OutD.l, if_true, hnm.2, hw, Option.getD_some, maxAlign]

end PJ
