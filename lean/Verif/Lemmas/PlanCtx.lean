import Verif.Spec.PlanCtx
import Verif.Model.PlanCtx
import Verif.Lemmas.Unreflect
/-!
# Types in a context and their trees
-/
namespace PJ

/-! ## Trees -/

theorem treeFields_cons {step : Ref → Option Ty} {f : FieldD Ref} {fs : List (FieldD Ref)} {x : Fields}
    (h : treeFields step (f :: fs) = some x) :
    ∃ t r, step f.ty = some t ∧ treeFields step fs = some r ∧ x = .cons f.name f.off t r := by
  simp only [treeFields] at h
  split at h
  · rename_i t r h1 h2
    exact ⟨t, r, h1, h2, by cases h; rfl⟩
  · cases h

theorem treeTerms_cons {step : Ref → Option Ty} {f : TermD Ref Attr} {fs : List (TermD Ref Attr)} {x : Terms}
    (h : treeTerms step (f :: fs) = some x) :
    ∃ t r, step f.ty = some t ∧ treeTerms step fs = some r ∧ x = .cons f.name f.tag f.attrs t r := by
  simp only [treeTerms] at h
  split at h
  · rename_i t r h1 h2
    exact ⟨t, r, h1, h2, by cases h; rfl⟩
  · cases h

theorem treeFields_congr {step step' : Ref → Option Ty} : ∀ {fs : List (FieldD Ref)},
    (∀ f ∈ fs, step' f.ty = step f.ty) → treeFields step' fs = treeFields step fs
  | [], _ => rfl
  | f :: fs, h => by
    simp only [treeFields, h f (by simp), treeFields_congr (fs := fs) fun g hg => h g (by simp [hg])]

theorem treeTerms_congr {step step' : Ref → Option Ty} : ∀ {fs : List (TermD Ref Attr)},
    (∀ f ∈ fs, step' f.ty = step f.ty) → treeTerms step' fs = treeTerms step fs
  | [], _ => rfl
  | f :: fs, h => by
    simp only [treeTerms, h f (by simp), treeTerms_congr (fs := fs) fun g hg => h g (by simp [hg])]

theorem treeFields_mem {step : Ref → Option Ty} : ∀ {fs : List (FieldD Ref)} {x : Fields},
    treeFields step fs = some x → ∀ f ∈ fs, ∃ t, step f.ty = some t
  | [], _, _, f, hf => by cases hf
  | g :: fs, x, h, f, hf => by
    obtain ⟨t, r, h1, h2, -⟩ := treeFields_cons h
    rcases List.mem_cons.1 hf with rfl | hf
    · exact ⟨t, h1⟩
    · exact treeFields_mem h2 f hf

theorem treeTerms_mem {step : Ref → Option Ty} : ∀ {fs : List (TermD Ref Attr)} {x : Terms},
    treeTerms step fs = some x → ∀ f ∈ fs, ∃ t, step f.ty = some t
  | [], _, _, f, hf => by cases hf
  | g :: fs, x, h, f, hf => by
    obtain ⟨t, r, h1, h2, -⟩ := treeTerms_cons h
    rcases List.mem_cons.1 hf with rfl | hf
    · exact ⟨t, h1⟩
    · exact treeTerms_mem h2 f hf

/-- Layout of an inline variant. -/
def InlD.l (d : InlD) : VarL :=
  { outline := false, dflt := d.dflt, termOff := d.termOff, termSize := d.termSize,
    tagOff := d.tagOff, tagW := d.tagW, size := d.size, align := d.align, termAlign := 0 }

/-- Layout of an outline variant. -/
def OutD.l (d : OutD) : VarL :=
  { outline := true, dflt := d.dflt, termOff := d.termOff, termSize := 0,
    tagOff := 0, tagW := d.tagW, size := d.tagW, align := d.tagAlign, termAlign := d.termAlign }

/-- The tree of a nominal type, given those of its parts. -/
def treeData (step : Ref → Option Ty) : Data → Option Ty
  | .struct fs size al => (treeFields step fs).map fun fs => .struct fs size al
  | .inl ts d => (treeTerms step ts).map fun ts => .variant ts d.l
  | .out ts d => (treeTerms step ts).map fun ts => .variant ts d.l

theorem tree_nom {ctx : Ctx} {n : Nat} {k : Key} : tree ctx (n + 1) (.nom k) = (ctx k).bind (treeData (tree ctx n)) := by
  simp only [tree]
  cases ctx k with
  | none => rfl
  | some d => cases d <;> rfl

theorem treeData_congr {step step' : Ref → Option Ty} {d : Data} (h : ∀ c ∈ d.kids, step' c = step c) :
    treeData step' d = treeData step d := by
  cases d with
  | struct fs s a =>
    simp only [treeData]
    rw [treeFields_congr fun f hf => h _ (List.mem_map_of_mem hf)]
  | inl ts d =>
    simp only [treeData]
    rw [treeTerms_congr fun f hf => h _ (List.mem_map_of_mem hf)]
  | out ts d =>
    simp only [treeData]
    rw [treeTerms_congr fun f hf => h _ (List.mem_map_of_mem hf)]

theorem treeData_mem {step : Ref → Option Ty} {d : Data} {t : Ty} (h : treeData step d = some t) :
    ∀ c ∈ d.kids, ∃ t, step c = some t := by
  intro c hc
  cases d with
  | struct fs s a =>
    simp only [treeData, Option.map_eq_some_iff] at h
    obtain ⟨x, h, -⟩ := h
    obtain ⟨f, hf, rfl⟩ := List.mem_map.1 hc
    exact treeFields_mem h f hf
  | inl ts d =>
    simp only [treeData, Option.map_eq_some_iff] at h
    obtain ⟨x, h, -⟩ := h
    obtain ⟨f, hf, rfl⟩ := List.mem_map.1 hc
    exact treeTerms_mem h f hf
  | out ts d =>
    simp only [treeData, Option.map_eq_some_iff] at h
    obtain ⟨x, h, -⟩ := h
    obtain ⟨f, hf, rfl⟩ := List.mem_map.1 hc
    exact treeTerms_mem h f hf

theorem tree_nom_some {ctx : Ctx} {n : Nat} {k : Key} {t : Ty} (h : tree ctx n (.nom k) = some t) :
    ∃ m d, n = m + 1 ∧ ctx k = some d ∧ treeData (tree ctx m) d = some t := by
  cases n with
  | zero => simp [tree] at h
  | succ m =>
    rw [tree_nom, Option.bind_eq_some_iff] at h
    obtain ⟨d, h1, h2⟩ := h
    exact ⟨m, d, rfl, h1, h2⟩

/-- The parts of a type with a tree have trees. -/
theorem tree_kids {ctx : Ctx} {n : Nat} {r : Ref} {t : Ty} (h : tree ctx (n + 1) r = some t) :
    ∀ c ∈ kids ctx r, ∃ u, tree ctx n c = some u := by
  intro c hc
  cases r with
  | int | float | unit => simp [kids] at hc
  | array e len esz al =>
    simp only [kids, List.mem_singleton] at hc
    subst hc
    simp only [tree, Option.map_eq_some_iff] at h
    obtain ⟨u, h, -⟩ := h
    exact ⟨u, h⟩
  | vector e l =>
    simp only [kids, List.mem_singleton] at hc
    subst hc
    simp only [tree, Option.map_eq_some_iff] at h
    obtain ⟨u, h, -⟩ := h
    exact ⟨u, h⟩
  | nom k =>
    obtain ⟨m, d, hm, hd, ht⟩ := tree_nom_some h
    cases hm
    simp only [kids, hd] at hc
    exact treeData_mem ht c hc

theorem tree_eq_of {ctx ctx' : Ctx} {n : Nat} {r : Ref} (hk : ∀ k, r = .nom k → ctx' k = ctx k)
    (h : ∀ c ∈ kids ctx r, tree ctx' n c = tree ctx n c) : tree ctx' (n + 1) r = tree ctx (n + 1) r := by
  cases r with
  | int | float | unit => simp [tree]
  | array e len esz al => simp only [tree, h e (by simp [kids])]
  | vector e l => simp only [tree, h e (by simp [kids])]
  | nom k =>
    rw [tree_nom, tree_nom, hk k rfl]
    cases hd : ctx k with
    | none => rfl
    | some d =>
      simp only [Option.bind_some]
      exact treeData_congr fun c hc => h c (by simpa only [kids, hd] using hc)

theorem tree_mono {ctx : Ctx} : ∀ {n : Nat} {r : Ref} {t : Ty}, tree ctx n r = some t →
    ∀ {m : Nat}, n ≤ m → tree ctx m r = some t
  | 0, r, t, h, _, _ => by simp [tree] at h
  | n + 1, r, t, h, m, hm => by
    obtain ⟨m, rfl⟩ : ∃ k, m = k + 1 := ⟨m - 1, by omega⟩
    have hk := tree_kids h
    have ih : ∀ c ∈ kids ctx r, tree ctx m c = tree ctx n c := fun c hc => by
      obtain ⟨u, hu⟩ := hk c hc
      rw [hu, tree_mono hu (by omega)]
    cases r with
    | int | float | unit => exact h
    | array e len esz al => simp only [tree, ih e (by simp [kids])] at h ⊢; exact h
    | vector e l => simp only [tree, ih e (by simp [kids])] at h ⊢; exact h
    | nom k =>
      rw [tree_nom] at h ⊢
      cases hd : ctx k with
      | none => rw [hd] at h; cases h
      | some d =>
        rw [hd] at h
        simp only [Option.bind_some] at h ⊢
        rw [← h]
        exact treeData_congr fun c hc => ih c (by simpa only [kids, hd] using hc)

theorem tree_det {ctx : Ctx} {n m : Nat} {r : Ref} {t u : Ty} (h : tree ctx n r = some t) (g : tree ctx m r = some u) :
    t = u := by
  have h1 := tree_mono h (Nat.le_max_left n m)
  have h2 := tree_mono g (Nat.le_max_right n m)
  rw [h1] at h2
  exact Option.some.inj h2

/-! ## Uses -/

theorem uses_self {ctx : Ctx} {n : Nat} {k : Key} : uses ctx (n + 1) k (.nom k) ≠ 0 := by
  simp [uses]

theorem sum_ne_zero {l : List Nat} : l.sum ≠ 0 ↔ ∃ x ∈ l, x ≠ 0 := by
  induction l with
  | nil => simp
  | cons a l ih =>
    simp only [List.sum_cons, List.mem_cons, exists_eq_or_imp, ← ih]
    omega

theorem le_sum_map {α} {f : α → Nat} {l : List α} {x : α} (h : x ∈ l) : f x ≤ (l.map f).sum := by
  induction l with
  | nil => cases h
  | cons a l ih =>
    simp only [List.map_cons, List.sum_cons]
    rcases List.mem_cons.1 h with rfl | h
    · omega
    · have := ih h; omega

theorem uses_kid {ctx : Ctx} {n : Nat} {k : Key} {r c : Ref} (hc : c ∈ kids ctx r) :
    uses ctx n k c ≤ uses ctx (n + 1) k r := by
  have := le_sum_map (f := uses ctx n k) hc
  simp only [uses]
  omega

theorem uses_kid_ne {ctx : Ctx} {n : Nat} {k : Key} {r c : Ref} (hc : c ∈ kids ctx r) (h : uses ctx n k c ≠ 0) :
    uses ctx (n + 1) k r ≠ 0 := by
  have := uses_kid (n := n) (k := k) hc
  omega

/-- A type depends on the nominal types it uses. -/
theorem tree_agree {ctx ctx' : Ctx} : ∀ (n : Nat) (r : Ref), (∀ k, uses ctx n k r ≠ 0 → ctx' k = ctx k) →
    tree ctx' n r = tree ctx n r
  | 0, r, _ => by simp [tree]
  | n + 1, r, h =>
    tree_eq_of (fun k hk => h k (by rw [hk]; exact uses_self)) fun c hc =>
      tree_agree n c fun k hk => h k (uses_kid_ne hc hk)

theorem kids_agree {ctx ctx' : Ctx} {r : Ref} (h : ∀ k, r = .nom k → ctx' k = ctx k) : kids ctx' r = kids ctx r := by
  cases r with
  | nom k => simp only [kids, h k rfl]
  | _ => rfl

theorem uses_agree {ctx ctx' : Ctx} {q : Key} : ∀ (n : Nat) (r : Ref), (∀ k, uses ctx n k r ≠ 0 → ctx' k = ctx k) →
    uses ctx' n q r = uses ctx n q r
  | 0, r, _ => by simp [uses]
  | n + 1, r, h => by
    have hk : kids ctx' r = kids ctx r := kids_agree fun k hk => h k (by rw [hk]; exact uses_self)
    have hm : (kids ctx r).map (uses ctx' n q) = (kids ctx r).map (uses ctx n q) :=
      List.map_congr_left fun c hc => uses_agree n c fun k hk => h k (uses_kid_ne hc hk)
    simp only [uses, hk, hm]

theorem uses_reach {ctx : Ctx} {k : Key} : ∀ {n : Nat} {r : Ref}, uses ctx n k r ≠ 0 → Reach ctx r (.nom k)
  | 0, r, h => by simp [uses] at h
  | n + 1, r, h => by
    simp only [uses] at h
    by_cases hr : r = .nom k
    · subst hr; exact .refl _
    · simp only [hr, if_false, Nat.zero_add] at h
      obtain ⟨x, hx, hne⟩ := sum_ne_zero.1 h
      obtain ⟨c, hc, rfl⟩ := List.mem_map.1 hx
      exact .step hc (uses_reach hne)

theorem reach_uses {ctx : Ctx} {k : Key} {r x : Ref} (h : Reach ctx r x) (hx : x = .nom k) :
    ∀ {n : Nat} {t : Ty}, tree ctx n r = some t → uses ctx n k r ≠ 0 := by
  induction h with
  | refl r =>
    intro n t ht
    subst hx
    cases n with
    | zero => simp [tree] at ht
    | succ n => exact uses_self
  | step hc _ ih =>
    intro n t ht
    cases n with
    | zero => simp [tree] at ht
    | succ n =>
      obtain ⟨u, hu⟩ := tree_kids ht _ hc
      exact uses_kid_ne hc (ih hx hu)

/-! ## Well made nodes -/

/-- All nodes up to a depth are well made. -/
def Nodes (ctx : Ctx) : Nat → Ref → Prop
  | 0, _ => True
  | n + 1, r => NodeOK ctx r ∧ ∀ c ∈ kids ctx r, Nodes ctx n c

theorem WFRef.nodes {ctx : Ctx} : ∀ (n : Nat) {r : Ref}, WFRef ctx r → Nodes ctx n r
  | 0, _, _ => trivial
  | n + 1, _, .mk _ h hs => ⟨h, fun c hc => WFRef.nodes n (hs c hc)⟩

theorem Nodes.wf {ctx : Ctx} : ∀ {n : Nat} {r : Ref} {t : Ty}, Nodes ctx n r → tree ctx n r = some t → WFRef ctx r
  | 0, _, _, _, h => by simp [tree] at h
  | n + 1, r, t, h, ht => .mk r h.1 fun c hc => by
    obtain ⟨u, hu⟩ := tree_kids ht c hc
    exact Nodes.wf (h.2 c hc) hu

theorem NodeOK_agree {ctx ctx' : Ctx} {r : Ref} (h : ∀ k, r = .nom k → ctx' k = ctx k) (hn : NodeOK ctx r) :
    NodeOK ctx' r := by
  cases r with
  | nom k => simpa only [NodeOK, h k rfl] using hn
  | _ => exact hn

theorem nodes_agree {ctx ctx' : Ctx} : ∀ (n : Nat) (r : Ref), (∀ k, uses ctx n k r ≠ 0 → ctx' k = ctx k) →
    Nodes ctx n r → Nodes ctx' n r
  | 0, _, _, _ => trivial
  | n + 1, r, h, hn => by
    have hk : ∀ k, r = .nom k → ctx' k = ctx k := fun k hk => h k (by rw [hk]; exact uses_self)
    refine ⟨NodeOK_agree hk hn.1, fun c hc => ?_⟩
    rw [kids_agree hk] at hc
    exact nodes_agree n c (fun k hk => h k (uses_kid_ne hc hk)) (hn.2 c hc)

/-- `setTypeData` of a type that is interned already. -/
def Data.interned : Data → Prop
  | .struct _ _ _ => True
  | .inl ts d => Interned ts d.dflt
  | .out ts d => Interned ts d.dflt

def Data.kind : Data → NKind
  | .struct _ _ _ => .struct
  | .inl _ _ => .inl
  | .out _ _ => .out

theorem NodeOK_nom {ctx : Ctx} {k : Key} : NodeOK ctx (.nom k) ↔ ∃ d, ctx k = some d ∧ d.kind = k.kind ∧ d.interned := by
  obtain ⟨kind, name⟩ := k
  simp only [NodeOK]
  cases hd : ctx ⟨kind, name⟩ with
  | none => cases kind <;> simp
  | some d => cases kind <;> cases d <;> simp [Data.kind, Data.interned]

theorem setTypeData_self {ctx : Ctx} {k : Key} {d : Data} (h : d.interned) : setTypeData ctx k d k = some d := by
  cases d with
  | struct => simp [setTypeData]
  | inl ts d =>
    have := internTermsD_id ts d.dflt h
    simp [setTypeData, this]
  | out ts d =>
    have := internTermsD_id ts d.dflt h
    simp [setTypeData, this]

theorem setTypeData_ne {ctx : Ctx} {k k' : Key} {d : Data} (h : k' ≠ k) : setTypeData ctx k d k' = ctx k' := by
  simp [setTypeData, h]

theorem refSize_tree {ctx : Ctx} {n : Nat} {r : Ref} {t : Ty} (h : tree ctx n r = some t) : refSize ctx r = t.size := by
  cases n with
  | zero => simp [tree] at h
  | succ n =>
    cases r with
    | int | float | unit => simp only [tree, Option.some.injEq] at h; subst h; rfl
    | array | vector =>
      simp only [tree, Option.map_eq_some_iff] at h
      obtain ⟨u, -, rfl⟩ := h
      rfl
    | nom k =>
      obtain ⟨m, d, -, hd, h⟩ := tree_nom_some h
      simp only [refSize, hd]
      cases d <;> simp only [treeData, Option.map_eq_some_iff] at h <;> obtain ⟨u, -, rfl⟩ := h <;> rfl

theorem refAlign_tree {ctx : Ctx} {n : Nat} {r : Ref} {t : Ty} (h : tree ctx n r = some t) :
    refAlign ctx r = t.align := by
  cases n with
  | zero => simp [tree] at h
  | succ n =>
    cases r with
    | int | float | unit => simp only [tree, Option.some.injEq] at h; subst h; rfl
    | array | vector =>
      simp only [tree, Option.map_eq_some_iff] at h
      obtain ⟨u, -, rfl⟩ := h
      rfl
    | nom k =>
      obtain ⟨m, d, -, hd, h⟩ := tree_nom_some h
      simp only [refAlign, hd]
      cases d <;> simp only [treeData, Option.map_eq_some_iff] at h <;> obtain ⟨u, -, rfl⟩ := h <;> rfl

/-! ## ConvertInternal -/

theorem convertC_spec (host : Ctx) : ∀ (n : Nat) (r : Ref) (int : Ctx) (t : Ty), tree host n r = some t →
    Nodes host n r → (∀ k, uses host n k r ≠ 0 → k.kind ≠ .out) →
    ∃ int', convertC host n r int = some int' ∧ (∀ k, uses host n k r ≠ 0 → int' k = host k) ∧
      ∀ k, int' k = int k ∨ int' k = host k
  | 0, _, _, _, h, _, _ => by simp [tree] at h
  | n + 1, r, int, t, h, hn, ho => by
    have hk := tree_kids h
    have all : ∀ (l : List Ref), (∀ c ∈ l, c ∈ kids host r) → ∀ int, ∃ int',
        convertAll (convertC host n) l int = some int' ∧
          (∀ c ∈ l, ∀ k, uses host n k c ≠ 0 → int' k = host k) ∧ ∀ k, int' k = int k ∨ int' k = host k := by
      intro l
      induction l with
      | nil => intro _ int; exact ⟨int, rfl, by simp, fun k => Or.inl rfl⟩
      | cons c l ih =>
        intro hl int
        obtain ⟨u, hu⟩ := hk c (hl c (by simp))
        obtain ⟨i1, h1, h2, h3⟩ := convertC_spec host n c int u hu (hn.2 c (hl c (by simp)))
          fun k hk => ho k (uses_kid_ne (hl c (by simp)) hk)
        obtain ⟨i2, g1, g2, g3⟩ := ih (fun c hc => hl c (by simp [hc])) i1
        refine ⟨i2, by simp only [convertAll, h1, g1], fun c' hc' k hne => ?_, fun k => ?_⟩
        · rcases List.mem_cons.1 hc' with rfl | hc'
          · rcases g3 k with g | g
            · rw [g, h2 k hne]
            · exact g
          · exact g2 c' hc' k hne
        · rcases g3 k with g | g
          · rw [g]; exact h3 k
          · exact Or.inr g
    have one : ∀ e, kids host r = [e] → (∀ k, r ≠ .nom k) → ∃ int', convertC host n e int = some int' ∧
        (∀ k, uses host (n + 1) k r ≠ 0 → int' k = host k) ∧ ∀ k, int' k = int k ∨ int' k = host k := by
      intro e he hr
      obtain ⟨u, hu⟩ := hk e (by rw [he]; simp)
      obtain ⟨i1, h1, h2, h3⟩ := convertC_spec host n e int u hu (hn.2 e (by rw [he]; simp))
        fun k hk => ho k (uses_kid_ne (by rw [he]; simp) hk)
      exact ⟨i1, h1, fun k hu => h2 k (by simpa [uses, he, hr k] using hu), h3⟩
    cases r with
    | int | float | unit => exact ⟨int, rfl, fun k hu => by simp [uses, kids] at hu, fun k => Or.inl rfl⟩
    | array e => exact one e rfl (by simp)
    | vector e => exact one e rfl (by simp)
    | nom k =>
      obtain ⟨d, hd, hkd, hint⟩ := NodeOK_nom.1 hn.1
      have hko := ho k uses_self
      obtain ⟨i1, h1, h2, h3⟩ := all d.kids (by simp [kids, hd]) (setTypeData int k d)
      refine ⟨i1, ?_, fun q hq => ?_, fun q => ?_⟩
      · simp only [convertC, hd]
        cases d with
        | out => exact absurd hkd.symm hko
        | struct => exact h1
        | inl => exact h1
      · by_cases hqk : q = k
        · subst hqk
          rcases h3 q with h | h
          · rw [h, setTypeData_self hint, hd]
          · exact h
        · simp only [uses, kids, hd, Ref.nom.injEq, Ne.symm hqk, if_false, Nat.zero_add] at hq
          obtain ⟨x, hx, hne⟩ := sum_ne_zero.1 hq
          obtain ⟨c, hc, rfl⟩ := List.mem_map.1 hx
          exact h2 c hc q hne
      · rcases h3 q with h | h
        · by_cases hqk : q = k
          · subst hqk
            right
            rw [h, setTypeData_self hint, hd]
          · left
            rw [h, setTypeData_ne hqk]
        · exact Or.inr h

end PJ
