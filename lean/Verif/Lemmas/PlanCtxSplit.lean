import Verif.Lemmas.PlanCtxOut
import Verif.Lemmas.Hoist
/-!
# Splitting vectors in a context
-/
namespace PJ

/-- Different structs and types give different names. -/
def AddrInj (addr : Ref → Comp) : Prop :=
  ∀ k r k' r', k.name ≠ [] → k'.name ≠ [] → splitKey addr k r = splitKey addr k' r' → k.name = k'.name ∧ r = r'

/-- A name that `get_struct` gives. -/
def IsSplit (addr : Ref → Comp) (q : Key) : Prop := ∃ k r, k.name ≠ [] ∧ q = splitKey addr k r

/-- The field at which a struct is split. -/
def First (ctx : Ctx) (fs : List (FieldD Ref)) (i : Nat) : Prop :=
  (∃ f m t s, fs[i]? = some f ∧ tree ctx m f.ty = some t ∧ splitFirst t = some s) ∧
    ∀ j g, j < i → fs[j]? = some g → ∃ m t, tree ctx m g.ty = some t ∧ splitFirst t = none

/-- All nominal types of a type are in a set. -/
def RefIn (ctx : Ctx) (L : Key → Prop) (r : Ref) : Prop := ∀ q, Reach ctx r (.nom q) → L q

/-- A set of types none of which will be changed any more. -/
structure Live (addr : Ref → Comp) (ctx : Ctx) (L : Key → Prop) : Prop where
  closed : ∀ k, L k → RefIn ctx L (.nom k)
  name : ∀ k, L k → k.kind = .struct → k.name ≠ []
  gen : ∀ k r, k.kind = .struct → k.name ≠ [] → L (splitKey addr k r) →
    L k ∧ ∃ fs sz al i, ctx k = some (.struct fs sz al) ∧ First ctx fs i ∧
      ctx (splitKey addr k r) = some (.struct (withField fs i r) sz al)

theorem First.unique {ctx : Ctx} {fs : List (FieldD Ref)} {i j : Nat} (h : First ctx fs i) (g : First ctx fs j) : i = j := by
  have key : ∀ {i j}, First ctx fs i → First ctx fs j → ¬ i < j := by
    intro i j ⟨⟨f, m, t, s, h1, h2, h3⟩, _⟩ ⟨_, g⟩ hij
    obtain ⟨m', t', e1, e2⟩ := g i f hij h1
    cases tree_det h2 e1
    rw [h3] at e2
    cases e2
  have := key h g
  have := key g h
  omega

theorem reach_agree {ctx ctx' : Ctx} {r x : Ref} (g : Reach ctx' r x) :
    (∀ q, Reach ctx r (.nom q) → ctx' q = ctx q) → Reach ctx r x := by
  induction g with
  | refl r => intro _; exact .refl r
  | @step r c x hc _ ih =>
    intro h
    have hk : kids ctx' r = kids ctx r := kids_agree fun k hk => h k (by rw [hk]; exact .refl _)
    rw [hk] at hc
    exact .step hc (ih fun q hq => h q (.step hc hq))

section
variable {ctx ctx' : Ctx} {L : Key → Prop} {r : Ref}

theorem RefIn.kid {c : Ref} (h : RefIn ctx L r) (hc : c ∈ kids ctx r) : RefIn ctx L c :=
  fun q hq => h q (.step hc hq)

theorem RefIn.reach {x : Ref} (h : RefIn ctx L r) (e : ∀ q, L q → ctx' q = ctx q) (g : Reach ctx' r x) : Reach ctx r x :=
  reach_agree g fun q hq => e q (h q hq)

theorem RefIn.mono {L' : Key → Prop} (h : RefIn ctx L r) (e : ∀ q, L q → ctx' q = ctx q) (hl : ∀ q, L q → L' q) :
    RefIn ctx' L' r := fun q hq => hl q (h q (h.reach e hq))

theorem RefIn.tree (h : RefIn ctx L r) (e : ∀ q, L q → ctx' q = ctx q) (n : Nat) : tree ctx' n r = tree ctx n r :=
  tree_agree n r fun k hk => e k (h k (uses_reach hk))

theorem RefIn.nodes (h : RefIn ctx L r) (e : ∀ q, L q → ctx' q = ctx q) {n : Nat} (hn : Nodes ctx n r) : Nodes ctx' n r :=
  nodes_agree n r (fun k hk => e k (h k (uses_reach hk))) hn
end

theorem First.mono {ctx ctx' : Ctx} {L : Key → Prop} {fs : List (FieldD Ref)} {i : Nat} (h : First ctx fs i)
    (hf : ∀ f ∈ fs, RefIn ctx L f.ty) (e : ∀ q, L q → ctx' q = ctx q) : First ctx' fs i := by
  obtain ⟨⟨f, m, t, s, h1, h2, h3⟩, g⟩ := h
  refine ⟨⟨f, m, t, s, h1, by rw [(hf f (List.mem_of_getElem? h1)).tree e]; exact h2, h3⟩, fun j g' hj hg => ?_⟩
  obtain ⟨m, t, e1, e2⟩ := g j g' hj hg
  exact ⟨m, t, by rw [(hf g' (List.mem_of_getElem? hg)).tree e]; exact e1, e2⟩

theorem splitKey_name (addr : Ref → Comp) (k : Key) (r : Ref) : (splitKey addr k r).name ≠ [] := by
  simp [splitKey, mapLast]

theorem mem_withField {fs : List (FieldD Ref)} {i : Nat} {r : Ref} {g : FieldD Ref} (h : g ∈ withField fs i r) :
    g.ty = r ∨ g ∈ fs := by
  unfold withField at h
  induction fs generalizing i with
  | nil => simp at h
  | cons a l ih =>
    cases i with
    | zero =>
      simp only [List.modify_zero_cons, List.mem_cons] at h
      rcases h with rfl | h
      · exact Or.inl rfl
      · exact Or.inr (by simp [h])
    | succ i =>
      simp only [List.modify_succ_cons, List.mem_cons] at h
      rcases h with rfl | h
      · exact Or.inr (by simp)
      · rcases ih h with h | h
        · exact Or.inl h
        · exact Or.inr (by simp [h])

/-- `get_struct` changes no live type. -/
theorem Live.write {addr : Ref → Comp} (hinj : AddrInj addr) {ctx : Ctx} {L : Key → Prop} (h : Live addr ctx L)
    {k : Key} {fs : List (FieldD Ref)} {sz al i : Nat} {inner : Ref} (hks : k.kind = .struct) (hk : L k)
    (hd : ctx k = some (.struct fs sz al)) (hf : First ctx fs i) (hi : RefIn ctx L inner) :
    ∃ ctx1 L1, getStruct addr ctx k i inner = some (.nom (splitKey addr k inner), ctx1) ∧ Live addr ctx1 L1 ∧
      (∀ q, L q → L1 q) ∧ (∀ q, L q → ctx1 q = ctx q) ∧ L1 (splitKey addr k inner) ∧
      ctx1 (splitKey addr k inner) = some (.struct (withField fs i inner) sz al) ∧
      (∀ q, ctx1 q ≠ ctx q → q = splitKey addr k inner) ∧ ∀ q, L1 q → L q ∨ q = splitKey addr k inner := by
  have hfs : ∀ f ∈ fs, RefIn ctx L f.ty := fun f hf =>
    (h.closed k hk).kid (by simp only [kids, hd]; exact List.mem_map_of_mem (f := (·.ty)) hf)
  have hg : getStruct addr ctx k i inner = some (.nom (splitKey addr k inner),
      setTypeData ctx (splitKey addr k inner) (.struct (withField fs i inner) sz al)) := by
    simp only [getStruct, hd]
  by_cases hx : L (splitKey addr k inner)
  · obtain ⟨_, fs', sz', al', i', e1, e2, e3⟩ := h.gen k inner hks (h.name k hk hks) hx
    rw [hd] at e1
    cases e1
    cases hf.unique e2
    have he : setTypeData ctx (splitKey addr k inner) (.struct (withField fs i inner) sz al) = ctx := by
      funext q
      by_cases e : q = splitKey addr k inner
      · subst e; rw [setTypeData_self (by trivial), e3]
      · exact setTypeData_ne e
    rw [he] at hg
    exact ⟨ctx, L, hg, h, fun _ h => h, fun _ _ => rfl, hx, e3, fun q hq => absurd rfl hq, fun q hq => Or.inl hq⟩
  · generalize hc : setTypeData ctx (splitKey addr k inner) (.struct (withField fs i inner) sz al) = ctx1 at hg
    have hself : ctx1 (splitKey addr k inner) = some (.struct (withField fs i inner) sz al) := by
      subst hc; exact setTypeData_self (by trivial)
    have hne : ∀ q, q ≠ splitKey addr k inner → ctx1 q = ctx q := fun q hq => by subst hc; exact setTypeData_ne hq
    have he : ∀ q, L q → ctx1 q = ctx q := fun q hq => hne q fun e => hx (e ▸ hq)
    refine ⟨ctx1, fun q => L q ∨ q = splitKey addr k inner, hg, ⟨?_, ?_, ?_⟩, fun _ h => Or.inl h, he, Or.inr rfl, hself,
      fun q hq => Decidable.byContradiction fun e => hq (hne q e), fun q hq => hq⟩
    · rintro q (hq | rfl)
      · exact (h.closed q hq).mono he fun _ h => Or.inl h
      · intro y hy
        generalize hY : Ref.nom y = Y at hy
        cases hy with
        | refl => cases hY; exact Or.inr rfl
        | step hcm ht =>
          subst hY
          simp only [kids, hself, Data.kids] at hcm
          obtain ⟨g, hgm, rfl⟩ := List.mem_map.1 hcm
          have hin : RefIn ctx L g.ty := by
            rcases mem_withField hgm with e | e
            · rw [e]; exact hi
            · exact hfs g e
          exact Or.inl (hin y (hin.reach he ht))
    · rintro q (hq | rfl)
      · exact h.name q hq
      · exact fun _ => splitKey_name _ _ _
    · rintro k' r' hks' hn' (hq | hq)
      · obtain ⟨g1, fs', sz', al', i', e1, e2, e3⟩ := h.gen k' r' hks' hn' hq
        refine ⟨Or.inl g1, fs', sz', al', i', by rw [he k' g1]; exact e1, e2.mono (fun f hf =>
          (h.closed k' g1).kid (by simp only [kids, e1]; exact List.mem_map_of_mem (f := (·.ty)) hf)) he,
          by rw [he _ hq]; exact e3⟩
      · obtain ⟨e1, e2⟩ := hinj _ _ _ _ hn' (h.name k hk hks) hq
        obtain ⟨kk, kn⟩ := k
        obtain ⟨kk', kn'⟩ := k'
        simp only at hks hks' e1
        subst hks hks' e1 e2
        exact ⟨Or.inl hk, fs, sz, al, i, by rw [he _ hk]; exact hd, hf.mono hfs he, hself⟩

/-- What splitting does. -/
structure Splits (addr : Ref → Comp) (ctx : Ctx) (L : Key → Prop) (m : Nat) (sc : SplitC) (ctx' : Ctx) (L' : Key → Prop)
    (s : Split) : Prop where
  live : Live addr ctx' L'
  sub : ∀ q, L q → L' q
  ext : ∀ q, L q → ctx' q = ctx q
  new : ∀ q, L' q → L q ∨ IsSplit addr q
  frame : ∀ q, ctx' q ≠ ctx q → IsSplit addr q
  short : RefIn ctx' L' sc.short ∧ tree ctx' m sc.short = some s.short ∧ Nodes ctx' m sc.short
  long : RefIn ctx' L' sc.long ∧ tree ctx' m sc.long = some s.long ∧ Nodes ctx' m sc.long
  len : sc.len = s.len
  path : sc.path = s.path

theorem splitFields_spec (addr : Ref → Comp) (ctx : Ctx) (L : Key → Prop) (m n : Nat) :
    ∀ (fs : List (FieldD Ref)) (tfs : Fields) (j : Nat),
    treeFields (tree ctx m) fs = some tfs →
    (∀ f ∈ fs, ∀ u, tree ctx m f.ty = some u →
      match splitFirst u with
      | none => splitC addr n ctx f.ty = none
      | some s => ∃ sc ctx' L', splitC addr n ctx f.ty = some (sc, ctx') ∧ Splits addr ctx L m sc ctx' L' s) →
    match splitFields tfs with
    | none => firstField (fun f => (splitC addr n ctx f.ty).map fun x => (f.name, x)) fs j = none
    | some (len, short, long, path) => ∃ pre f post sc ctx' L' s u, fs = pre ++ f :: post ∧
        firstField (fun f => (splitC addr n ctx f.ty).map fun x => (f.name, x)) fs j =
          some (j + pre.length, f.name, sc, ctx') ∧
        Splits addr ctx L m sc ctx' L' s ∧ s.len = len ∧ Path.expand s.path f.name = path ∧
        tree ctx m f.ty = some u ∧ splitFirst u = some s ∧
        (∀ g ∈ pre, ∃ u, tree ctx m g.ty = some u ∧ splitFirst u = none) ∧
        ∀ (step' : Ref → Option Ty) (r : Ref), (∀ g ∈ pre ++ post, step' g.ty = tree ctx m g.ty) →
          (step' r = some s.short → treeFields step' (pre ++ { f with ty := r } :: post) = some short) ∧
          (step' r = some s.long → treeFields step' (pre ++ { f with ty := r } :: post) = some long)
  | [], tfs, j, h, _ => by
    simp only [treeFields, Option.some.injEq] at h
    subst h
    simp [splitFields, firstField]
  | f :: fs, tfs, j, h, ih => by
    obtain ⟨t, r, h1, h2, rfl⟩ := treeFields_cons h
    have hf := ih f (by simp) t h1
    have hr := splitFields_spec addr ctx L m n fs r (j + 1) h2 fun g hg => ih g (by simp [hg])
    simp only [splitFields]
    cases ht : splitFirst t with
    | some s =>
      rw [ht] at hf
      obtain ⟨sc, ctx', L', g1, g2⟩ := hf
      refine ⟨[], f, fs, sc, ctx', L', s, t, rfl, by simp [firstField, g1], g2, rfl, rfl, h1, ht, by simp,
        fun step' r0 e2 => ?_⟩
      have : treeFields step' fs = treeFields (tree ctx m) fs := treeFields_congr fun g hg => e2 g (by simpa using hg)
      constructor <;> intro e1 <;> simp [treeFields, e1, this, h2]
    | none =>
      rw [ht] at hf
      simp only at hf
      cases hx : splitFields r with
      | none =>
        rw [hx] at hr
        simp only at hr
        simp [firstField, hf, hr]
      | some y =>
        obtain ⟨len, short, long, path⟩ := y
        rw [hx] at hr
        obtain ⟨pre, g, post, sc, ctx', L', s, u, e0, e1, e2, e3, e4, e5, e6, e7, e8⟩ := hr
        refine ⟨f :: pre, g, post, sc, ctx', L', s, u, by rw [e0]; rfl, ?_, e2, e3, e4, e5, e6, ?_, fun step' r0 s2 => ?_⟩
        · simp only [firstField, hf, Option.map_none, e1, List.length_cons]
          congr 2
          omega
        · intro g' hg'
          rcases List.mem_cons.1 hg' with rfl | hg'
          · exact ⟨t, h1, ht⟩
          · exact e7 g' hg'
        · have := e8 step' r0 fun g hg => s2 g (by simpa using Or.inr (by simpa using hg))
          have hs : step' f.ty = some t := by rw [s2 f (by simp), h1]
          constructor
          · intro s1
            simp only [List.cons_append, treeFields, hs, this.1 s1]
          · intro s1
            simp only [List.cons_append, treeFields, hs, this.2 s1]

theorem splitC_spec {addr : Ref → Comp} (hinj : AddrInj addr) : ∀ (m n : Nat) (ctx : Ctx) (L : Key → Prop) (r : Ref)
    (t : Ty), m ≤ n → Live addr ctx L → RefIn ctx L r → tree ctx m r = some t → Nodes ctx m r →
    match splitFirst t with
    | none => splitC addr n ctx r = none
    | some s => ∃ sc ctx' L', splitC addr n ctx r = some (sc, ctx') ∧ Splits addr ctx L m sc ctx' L' s
  | 0, _, _, _, _, _, _, _, _, h, _ => by simp [tree] at h
  | m + 1, n, ctx, L, r, t, hmn, hl, hr, h, hn => by
    obtain ⟨n, rfl⟩ : ∃ k, n = k + 1 := ⟨n - 1, by omega⟩
    cases r with
    | int | float | unit =>
      simp only [tree, Option.some.injEq] at h
      subst h
      simp [splitFirst, splitC]
    | array =>
      simp only [tree, Option.map_eq_some_iff] at h
      obtain ⟨u, -, rfl⟩ := h
      simp [splitFirst, splitC]
    | vector e l =>
      simp only [tree, Option.map_eq_some_iff] at h
      obtain ⟨u, hu, rfl⟩ := h
      simp only [splitFirst, splitC]
      by_cases hc : l.wireMin = 0 ∨ l.maxLen = some l.wireMin
      · simp [hc]
      · simp only [hc, if_false]
        have hb : ∀ a b, bareVecC ctx e a b = bareVec u a b := fun a b => by
          simp only [bareVecC, bareVec, refSize_tree hu, refAlign_tree hu]
        have hnv : ∀ l', RefIn ctx L (.vector e l') ∧ Nodes ctx (m + 1) (.vector e l') := fun l' =>
          ⟨fun q hq => by
            generalize hQ : Ref.nom q = Q at hq
            cases hq with
            | refl => cases hQ
            | step hc ht =>
              subst hQ
              exact hr q (.step (by simpa only [kids] using hc) ht),
           trivial, hn.2⟩
        refine ⟨_, ctx, L, rfl, ⟨hl, fun _ h => h, fun _ _ => rfl, fun q hq => Or.inl hq, fun q hq => absurd rfl hq,
          ⟨(hnv _).1, ?_, (hnv _).2⟩, ⟨(hnv _).1, ?_, (hnv _).2⟩, rfl, rfl⟩⟩
        · simp only [tree, hu, Option.map_some, hb]
        · simp only [tree, hu, Option.map_some, hb]
    | nom key =>
      obtain ⟨d, hd, hkd, hint⟩ := NodeOK_nom.1 hn.1
      rw [tree_nom, hd] at h
      simp only [Option.bind_some] at h
      cases d with
      | inl | out =>
        simp only [treeData, Option.map_eq_some_iff] at h
        obtain ⟨x, hx, rfl⟩ := h
        simp [splitFirst, splitC, hd]
      | struct fs sz al =>
        simp only [treeData, Option.map_eq_some_iff] at h
        obtain ⟨x, hx, rfl⟩ := h
        have hkids : ∀ f ∈ fs, f.ty ∈ kids ctx (.nom key) := fun f hf => by
          simp only [kids, hd]; exact List.mem_map_of_mem (f := (·.ty)) hf
        have hLk : L key := hr key (.refl _)
        have hfs : ∀ f ∈ fs, RefIn ctx L f.ty := fun f hf => hr.kid (hkids f hf)
        have key0 := splitFields_spec addr ctx L m n fs x 0 hx fun f hf u hu =>
          splitC_spec hinj m n ctx L f.ty u (by omega) hl (hfs f hf) hu (hn.2 _ (hkids f hf))
        simp only [splitFirst, splitC, hd]
        cases hs : splitFields x with
        | none => rw [hs] at key0; simp only at key0; simp [key0]
        | some y =>
          obtain ⟨len, short, long, path⟩ := y
          rw [hs] at key0
          obtain ⟨pre, f, post, sc, ctx1, L1, s, u, e0, e1, e2, e3, e4, e5, e6, e7, e8⟩ := key0
          have hfirst : First ctx fs pre.length := by
            refine ⟨⟨f, m, u, s, by rw [e0]; simp, e5, e6⟩, fun j g hj hg => ?_⟩
            have : g ∈ pre := by
              rw [e0, List.getElem?_append_left hj] at hg
              exact List.mem_of_getElem? hg
            obtain ⟨u, h1, h2⟩ := e7 g this
            exact ⟨m, u, h1, h2⟩
          have hd1 : ctx1 key = some (.struct fs sz al) := by rw [e2.ext key hLk]; exact hd
          obtain ⟨ctx2, L2, a1, a2, a3, a4, a5, a6, a7, a8⟩ := e2.live.write hinj (inner := sc.short) hkd.symm
            (e2.sub key hLk) hd1 (hfirst.mono hfs e2.ext) e2.short.1
          have hfs1 : ∀ f ∈ fs, RefIn ctx1 L1 f.ty := fun f hf => (hfs f hf).mono e2.ext e2.sub
          obtain ⟨ctx3, L3, b1, b2, b3, b4, b5, b6, b7, b8⟩ := a2.write hinj (k := key) (fs := fs) (sz := sz) (al := al)
            (inner := sc.long) hkd.symm (a3 key (e2.sub key hLk)) (by rw [a4 key (e2.sub key hLk)]; exact hd1)
            ((hfirst.mono hfs e2.ext).mono hfs1 a4) (e2.long.1.mono a4 a3)
          have hsplit : ∀ r, IsSplit addr (splitKey addr key r) := fun r => ⟨key, r, hl.name key hLk hkd.symm, rfl⟩
          have x13 : ∀ q, L1 q → ctx3 q = ctx1 q := fun q hq => by rw [b4 q (a3 q hq), a4 q hq]
          have x03 : ∀ q, L q → ctx3 q = ctx q := fun q hq => by rw [x13 q (e2.sub q hq), e2.ext q hq]
          simp only [e1, Nat.zero_add, a1, b1]
          have hshort : ctx3 (splitKey addr key sc.short) = some (.struct (withField fs pre.length sc.short) sz al) := by
            rw [b4 _ a5]; exact a6
          have hrest : ∀ g ∈ pre ++ post, g ∈ fs := fun g hg => by rw [e0]; simp at hg ⊢; grind
          have htree : ∀ g ∈ pre ++ post, tree ctx3 m g.ty = tree ctx m g.ty := fun g hg =>
            (hfs g (hrest g hg)).tree x03 m
          have build : ∀ inner, RefIn ctx1 L1 inner → Nodes ctx1 m inner →
              ctx3 (splitKey addr key inner) = some (.struct (withField fs pre.length inner) sz al) →
              (∀ X, treeFields (tree ctx3 m) (pre ++ { f with ty := inner } :: post) = some X →
                tree ctx3 (m + 1) (.nom (splitKey addr key inner)) = some (.struct X sz al)) ∧
              Nodes ctx3 (m + 1) (.nom (splitKey addr key inner)) := by
            intro inner hi hni hc
            refine ⟨fun X hX => ?_, NodeOK_nom.2 ⟨_, hc, rfl, trivial⟩, fun c hcm => ?_⟩
            · rw [tree_nom, hc]
              simp only [Option.bind_some, treeData]
              rw [e0, withField_split, hX]
              rfl
            · simp only [kids, hc, Data.kids] at hcm
              obtain ⟨g, hg, rfl⟩ := List.mem_map.1 hcm
              rcases mem_withField hg with e | e
              · rw [e]; exact hi.nodes x13 hni
              · exact (hfs g e).nodes x03 (hn.2 _ (hkids g e))
          have tS : tree ctx3 m sc.short = some s.short := by rw [e2.short.1.tree x13]; exact e2.short.2.1
          have tL : tree ctx3 m sc.long = some s.long := by rw [e2.long.1.tree x13]; exact e2.long.2.1
          obtain ⟨s1, s2⟩ := build sc.short e2.short.1 e2.short.2.2 hshort
          obtain ⟨l1, l2⟩ := build sc.long e2.long.1 e2.long.2.2 b6
          refine ⟨_, ctx3, L3, rfl, ⟨b2, fun q hq => b3 q (a3 q (e2.sub q hq)), x03, fun q hq => ?_, fun q hq => ?_,
            ⟨b2.closed _ (b3 _ a5), s1 _ ((e8 _ _ htree).1 tS), s2⟩, ⟨b2.closed _ b5, l1 _ ((e8 _ _ htree).2 tL), l2⟩,
            by rw [← e3]; exact e2.len, by rw [← e4]; simp only [e2.path]⟩⟩
          · rcases b8 q hq with h | h
            · rcases a8 q h with h | h
              · exact e2.new q h
              · exact Or.inr (h ▸ hsplit _)
            · exact Or.inr (h ▸ hsplit _)
          · by_cases h3 : ctx3 q = ctx2 q
            · by_cases h2 : ctx2 q = ctx1 q
              · exact e2.frame q (by rw [← h2, ← h3]; exact hq)
              · rw [a7 q h2]; exact hsplit _
            · rw [b7 q h3]; exact hsplit _

end PJ
