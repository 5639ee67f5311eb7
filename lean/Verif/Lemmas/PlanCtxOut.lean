import Verif.Lemmas.PlanCtx
import Verif.Lemmas.PlanOut
/-!
# Outlining in a context
-/
namespace PJ

theorem withField_split (pre : List (FieldD Ref)) (f : FieldD Ref) (post : List (FieldD Ref)) (r : Ref) :
    withField (pre ++ f :: post) pre.length r = pre ++ { f with ty := r } :: post := by
  unfold withField
  induction pre with
  | nil => rfl
  | cons a l ih => simp [List.modify_succ_cons, ih]

theorem firstVariant_agree {ctx ctx' : Ctx} : ∀ (n : Nat) (r : Ref), (∀ k, uses ctx n k r ≠ 0 → ctx' k = ctx k) →
    firstVariant n ctx' r = firstVariant n ctx r
  | 0, _, _ => by simp [firstVariant]
  | n + 1, r, h => by
    cases r with
    | nom k =>
      simp only [firstVariant, h k uses_self]
      cases hd : ctx k with
      | none => rfl
      | some d =>
        cases d with
        | struct fs s a =>
          have : ∀ f ∈ fs, firstVariant n ctx' f.ty = firstVariant n ctx f.ty := fun f hf =>
            firstVariant_agree n f.ty fun q hq =>
              h q (uses_kid_ne (by simp only [kids, hd]; exact List.mem_map_of_mem (f := (·.ty)) hf) hq)
          simp only
          clear hd h
          induction fs with
          | nil => rfl
          | cons f fs ih =>
            simp only [List.findSome?_cons, this f (by simp), ih fun g hg => this g (by simp [hg])]
        | inl => rfl
        | out => rfl
    | _ => simp [firstVariant]

theorem onPath_uses {ctx : Ctx} : ∀ {n : Nat} {r : Ref} {path : Path} {k : Key}, k ∈ onPath ctx n r path →
    uses ctx n k r ≠ 0
  | 0, _, _, _, h => by simp [onPath] at h
  | n + 1, r, [], k, h => by cases r <;> simp [onPath] at h
  | n + 1, r, c :: p, k, h => by
    cases r with
    | nom q =>
      simp only [onPath] at h
      split at h
      · rename_i fs s a hd
        rcases List.mem_cons.1 h with rfl | h
        · exact uses_self
        · obtain ⟨f, hf, hk⟩ := List.mem_flatMap.1 h
          split at hk
          · exact uses_kid_ne (by simp only [kids, hd]; exact List.mem_map_of_mem (f := (·.ty)) hf) (onPath_uses hk)
          · cases hk
      · cases h
    | _ => simp [onPath] at h

/-- Structs do not have outline variants as their parts. -/
theorem noOut_kinds {ctx : Ctx} : ∀ {n : Nat} {r : Ref} {t : Ty}, tree ctx n r = some t → Nodes ctx n r → t.noOut →
    ∀ k, uses ctx n k r ≠ 0 → k.kind ≠ .out
  | 0, _, _, h, _, _, _, _ => by simp [tree] at h
  | n + 1, r, t, h, hn, ho, k, hu => by
    have sub : ∀ c ∈ kids ctx r, (∀ u, tree ctx n c = some u → u.noOut) → uses ctx n k c ≠ 0 → k.kind ≠ .out :=
      fun c hc hc' hne => by
        obtain ⟨u, hu⟩ := tree_kids h c hc
        exact noOut_kinds hu (hn.2 c hc) (hc' u hu) k hne
    have parts : ∀ c ∈ kids ctx r, ∀ u, tree ctx n c = some u → u.noOut := by
      intro c hc u hu'
      cases r with
      | int | float | unit => simp [kids] at hc
      | array e | vector e =>
        simp only [kids, List.mem_singleton] at hc
        subst hc
        simp only [tree, hu', Option.map_some, Option.some.injEq] at h
        subst h
        exact ho
      | nom q =>
        obtain ⟨m, d, hm, hd, ht⟩ := tree_nom_some h
        cases hm
        simp only [kids, hd] at hc
        cases d with
        | struct fs s a =>
          simp only [treeData, Option.map_eq_some_iff] at ht
          obtain ⟨x, hx, rfl⟩ := ht
          simp only [Ty.noOut] at ho
          clear h hd sub
          simp only [Data.kids] at hc
          induction fs generalizing x with
          | nil => simp at hc
          | cons f fs ih =>
            obtain ⟨t1, r1, h1, h2, rfl⟩ := treeFields_cons hx
            rcases List.mem_cons.1 hc with rfl | hc
            · rw [h1] at hu'; cases hu'; exact ho.1
            · exact ih hc _ h2 ho.2
        | inl ts d | out ts d =>
          simp only [treeData, Option.map_eq_some_iff] at ht
          obtain ⟨x, hx, rfl⟩ := ht
          simp only [Ty.noOut] at ho
          replace ho := ho.2
          clear h hd sub
          simp only [Data.kids] at hc
          induction ts generalizing x with
          | nil => simp at hc
          | cons f fs ih =>
            obtain ⟨t1, r1, h1, h2, rfl⟩ := treeTerms_cons hx
            rcases List.mem_cons.1 hc with rfl | hc
            · rw [h1] at hu'; cases hu'; exact ho.1
            · exact ih hc _ h2 ho.2
    simp only [uses] at hu
    by_cases hr : r = .nom k
    · subst hr
      obtain ⟨d, hd, hkd, -⟩ := NodeOK_nom.1 hn.1
      intro hko
      rw [hko] at hkd
      rw [tree_nom, hd] at h
      cases d with
      | struct => cases hkd
      | inl => cases hkd
      | out ts d =>
        simp only [Option.bind_some, treeData, Option.map_eq_some_iff] at h
        obtain ⟨x, -, rfl⟩ := h
        simp [Ty.noOut, OutD.l] at ho
    · simp only [hr, if_false, Nat.zero_add] at hu
      obtain ⟨x, hx, hne⟩ := sum_ne_zero.1 hu
      obtain ⟨c, hc, rfl⟩ := List.mem_map.1 hx
      exact sub c hc (parts c hc) hne

/-- What outlining does. -/
structure OutlinesTo (ctx ctx' : Ctx) (n : Nat) (r r' : Ref) (path : Path) (t' : Ty) : Prop where
  tree : tree ctx' n r' = some t'
  nodes : Nodes ctx' n r'
  frame : ∀ k, ctx' k ≠ ctx k → k.kind = .out ∨ k ∈ onPath ctx n r path
  uses : ∀ k, k.kind ≠ .out → uses ctx' n k r' ≤ uses ctx n k r
  outs : ∀ k, k.kind = .out → PJ.uses ctx' n k r' ≤ 1
  isSome : (firstVariant n ctx' r').isSome
  first : ∀ v, firstVariant n ctx' r' = some v → v.kind = .out ∨ firstVariant n ctx r = some v

theorem findSome_replace {F G : Ref → Option Key} {f : FieldD Ref} {r' : Ref} {post : List (FieldD Ref)}
    (hs : (F r').isSome) (hf : ∀ v, F r' = some v → v.kind = .out ∨ G f.ty = some v) :
    ∀ {pre : List (FieldD Ref)}, (∀ g ∈ pre, F g.ty = G g.ty) →
    ((pre ++ { f with ty := r' } :: post).findSome? fun g => F g.ty).isSome ∧
    ∀ v, (pre ++ { f with ty := r' } :: post).findSome? (fun g => F g.ty) = some v →
      v.kind = .out ∨ (pre ++ f :: post).findSome? (fun g => G g.ty) = some v
  | [], _ => by
    obtain ⟨w, hw⟩ := Option.isSome_iff_exists.1 hs
    simp only [List.nil_append, List.findSome?_cons, hw, Option.isSome_some, Option.some.injEq, true_and]
    rintro v rfl
    rcases hf _ hw with h | h
    · exact Or.inl h
    · right; simp [h]
  | a :: pre, h => by
    have ih := findSome_replace hs hf (post := post) (pre := pre) fun g hg => h g (by simp [hg])
    simp only [List.cons_append, List.findSome?_cons, h a (by simp)]
    cases G a.ty with
    | some w => exact ⟨rfl, fun v hv => Or.inr hv⟩
    | none => exact ih

theorem outlineFields_spec (ctx : Ctx) (n : Nat) (path : Path) : ∀ (fs : List (FieldD Ref)) (tfs : Fields) (j : Nat),
    treeFields (tree ctx n) fs = some tfs →
    (∀ f ∈ fs, ∀ u, tree ctx n f.ty = some u →
      match tryOutline u (path.into f.name) with
      | none => outlineC n ctx f.ty (path.into f.name) = none
      | some u' => ∃ r' ctx', outlineC n ctx f.ty (path.into f.name) = some (r', ctx') ∧
          OutlinesTo ctx ctx' n f.ty r' (path.into f.name) u') →
    match tryOutlineFields tfs path with
    | none => firstField (fun f => outlineC n ctx f.ty (path.into f.name)) fs j = none
    | some tfs' => ∃ pre f post r' ctx' u', fs = pre ++ f :: post ∧
        firstField (fun f => outlineC n ctx f.ty (path.into f.name)) fs j = some (j + pre.length, r', ctx') ∧
        OutlinesTo ctx ctx' n f.ty r' (path.into f.name) u' ∧
        ∀ step' : Ref → Option Ty, step' r' = some u' → (∀ g ∈ pre ++ post, step' g.ty = tree ctx n g.ty) →
          treeFields step' (pre ++ { f with ty := r' } :: post) = some tfs'
  | [], tfs, j, h, _ => by
    simp only [treeFields, Option.some.injEq] at h
    subst h
    simp [tryOutlineFields, firstField]
  | f :: fs, tfs, j, h, ih => by
    obtain ⟨t, r, h1, h2, rfl⟩ := treeFields_cons h
    have hf := ih f (by simp) t h1
    have hr := outlineFields_spec ctx n path fs r (j + 1) h2 fun g hg => ih g (by simp [hg])
    simp only [tryOutlineFields]
    cases ht : tryOutline t (path.into f.name) with
    | some t' =>
      rw [ht] at hf
      obtain ⟨r', ctx', g1, g2⟩ := hf
      refine ⟨[], f, fs, r', ctx', t', rfl, by simp [firstField, g1], g2, fun step' e1 e2 => ?_⟩
      have : treeFields step' fs = treeFields (tree ctx n) fs := treeFields_congr fun g hg => e2 g (by simpa using hg)
      simp [treeFields, e1, this, h2]
    | none =>
      rw [ht] at hf
      simp only at hf
      cases hx : tryOutlineFields r path with
      | none =>
        rw [hx] at hr
        simp only at hr
        simp [firstField, hf, hr]
      | some r2 =>
        rw [hx] at hr
        obtain ⟨pre, g, post, r', ctx', u', e0, e1, e2, e3⟩ := hr
        refine ⟨f :: pre, g, post, r', ctx', u', by rw [e0]; rfl, ?_, e2, fun step' s1 s2 => ?_⟩
        · simp only [firstField, hf, e1, List.length_cons]
          congr 2
          omega
        · have := e3 step' s1 fun g hg => s2 g (by simpa using Or.inr (by simpa using hg))
          have hs : step' f.ty = some t := by rw [s2 f (by simp), h1]
          simp only [List.cons_append, treeFields, hs, this]

theorem outlineC_spec : ∀ (n : Nat) (ctx : Ctx) (r : Ref) (path : Path) (t : Ty), tree ctx n r = some t →
    Nodes ctx n r → (∀ k, uses ctx n k r ≠ 0 → k.kind ≠ .out) →
    (∀ k ∈ onPath ctx n r path, uses ctx n k r ≤ 1) →
    match tryOutline t path with
    | none => outlineC n ctx r path = none
    | some t' => ∃ r' ctx', outlineC n ctx r path = some (r', ctx') ∧ OutlinesTo ctx ctx' n r r' path t'
  | 0, _, _, _, _, h, _, _, _ => by simp [tree] at h
  | n + 1, ctx, r, path, t, h, hn, ho, hp => by
    cases r with
    | int | float | unit =>
      simp only [tree, Option.some.injEq] at h
      subst h
      simp [tryOutline, outlineC]
    | array | vector =>
      simp only [tree, Option.map_eq_some_iff] at h
      obtain ⟨u, -, rfl⟩ := h
      simp [tryOutline, outlineC]
    | nom key =>
      obtain ⟨d, hd, hkd, hint⟩ := NodeOK_nom.1 hn.1
      have h' := h
      rw [tree_nom, hd] at h
      simp only [Option.bind_some] at h
      have hkids : kids ctx (.nom key) = d.kids := by simp only [kids, hd]
      have hkey : key.kind ≠ .out := ho key uses_self
      by_cases hpath : path = []
      · subst hpath
        cases d <;> simp only [treeData, Option.map_eq_some_iff] at h <;> obtain ⟨x, hx, rfl⟩ := h <;>
          simp [tryOutline, outlineC]
      cases d with
      | out => exact absurd hkd.symm hkey
      | inl ts d =>
        simp only [treeData, Option.map_eq_some_iff] at h
        obtain ⟨x, hx, rfl⟩ := h
        simp only [tryOutline, hpath, InlD.l, outlineC, hd, if_false, Bool.false_eq_true, or_self]
        generalize hD : (Data.out ts { dflt := d.dflt, tagW := d.tagW, tagAlign := 0, termOff := 0, termAlign := 0 })
          = D
        have hDi : D.interned := by subst hD; exact hint
        have hself : setTypeData ctx (outlineKey key) D (outlineKey key) = some D := setTypeData_self hDi
        have hagree : ∀ c ∈ ts.map (·.ty), ∀ k, uses ctx n k c ≠ 0 → setTypeData ctx (outlineKey key) D k = ctx k :=
          fun c hc k hu => setTypeData_ne fun e => ho k (uses_kid_ne (by rw [hkids]; exact hc) hu) (by rw [e]; rfl)
        have hk' : kids (setTypeData ctx (outlineKey key) D) (.nom (outlineKey key)) = ts.map (·.ty) := by
          simp only [kids, hself]; subst hD; rfl
        refine ⟨_, _, rfl, ⟨?_, ⟨?_, ?_⟩, ?_, ?_, ?_, ?_, ?_⟩⟩
        · rw [tree_nom, hself]
          simp only [Option.bind_some]
          subst hD
          simp only [treeData]
          rw [treeTerms_congr fun f hf => tree_agree n f.ty (hagree f.ty (List.mem_map_of_mem hf)), hx]
          rfl
        · exact NodeOK_nom.2 ⟨D, hself, by subst hD; rfl, hDi⟩
        · intro c hc
          rw [hk'] at hc
          exact nodes_agree n c (hagree c hc) (hn.2 c (by rw [hkids]; exact hc))
        · intro k hk
          by_cases e : k = outlineKey key
          · left; rw [e]; rfl
          · exact absurd (setTypeData_ne e) hk
        · intro k hk
          simp only [uses, hk', hkids]
          rw [List.map_congr_left fun c hc => uses_agree n c (hagree c hc)]
          have : ¬ outlineKey key = k := fun e => hk (by rw [← e]; rfl)
          simp [this, Data.kids]
        · intro k hk
          simp only [uses, hk']
          rw [List.map_congr_left fun c hc => uses_agree n c (hagree c hc)]
          have : (List.map (fun c => uses ctx n k c) (ts.map (·.ty))).sum = 0 := by
            apply Decidable.byContradiction
            intro hne
            obtain ⟨y, hy, hne⟩ := sum_ne_zero.1 hne
            obtain ⟨c, hc, rfl⟩ := List.mem_map.1 hy
            exact ho k (uses_kid_ne (by rw [hkids]; exact hc) hne) hk
          rw [this]
          split <;> omega
        · simp only [firstVariant, hself]
          subst hD
          rfl
        · intro v hv
          simp only [firstVariant, hself] at hv
          subst hD
          simp only [Option.some.injEq] at hv
          left; rw [← hv]; rfl
      | struct fs sz al =>
        simp only [treeData, Option.map_eq_some_iff] at h
        obtain ⟨x, hx, rfl⟩ := h
        simp only [tryOutline, hpath, if_false, outlineC, hd]
        obtain ⟨c, p, rfl⟩ : ∃ c p, path = c :: p := by
          cases path with
          | nil => exact absurd rfl hpath
          | cons c p => exact ⟨c, p, rfl⟩
        have hmem : ∀ f ∈ fs, f.ty ∈ kids ctx (.nom key) := fun f hf => by
          rw [hkids]; exact List.mem_map_of_mem (f := (·.ty)) hf
        have hon : ∀ f ∈ fs, ∀ k ∈ onPath ctx n f.ty (Path.into (c :: p) f.name),
            k ∈ onPath ctx (n + 1) (.nom key) (c :: p) := by
          intro f hf k hk
          simp only [onPath, hd]
          refine List.mem_cons_of_mem _ (List.mem_flatMap.2 ⟨f, hf, ?_⟩)
          by_cases e : f.name = c
          · rw [e] at hk
            simpa [e, Path.into, Path.startsWith, Path.narrow] using hk
          · have : Path.into (c :: p) f.name = [] := by
              simp [Path.into, Path.startsWith, Ne.symm e]
            rw [this] at hk
            cases n with
            | zero => simp [onPath] at hk
            | succ m => cases hr : f.ty <;> rw [hr] at hk <;> simp [onPath] at hk
        have hself0 : key ∈ onPath ctx (n + 1) (.nom key) (c :: p) := by simp [onPath, hd]
        have hus : ∀ q, PJ.uses ctx (n + 1) q (.nom key) =
            (if key = q then 1 else 0) + (fs.map fun f => PJ.uses ctx n q f.ty).sum := by
          intro q
          simp only [PJ.uses, hkids, Data.kids, List.map_map, Ref.nom.injEq]
          rfl
        have hzero : ∀ f ∈ fs, PJ.uses ctx n key f.ty = 0 := by
          intro f hf
          have h1 := hp key hself0
          rw [hus key] at h1
          have h2 := le_sum_map (f := fun f : FieldD Ref => PJ.uses ctx n key f.ty) hf
          simp only [if_true] at h1
          omega
        have key0 := outlineFields_spec ctx n (c :: p) fs x 0 hx fun f hf u hu => by
          have := outlineC_spec n ctx f.ty (Path.into (c :: p) f.name) u hu (hn.2 _ (hmem f hf))
            (fun k hk => ho k (uses_kid_ne (hmem f hf) hk))
            (fun k hk => Nat.le_trans (uses_kid (hmem f hf)) (hp k (hon f hf k hk)))
          exact this
        cases hto : tryOutlineFields x (c :: p) with
        | none => rw [hto] at key0; simp only at key0; simp [key0]
        | some x' =>
          rw [hto] at key0
          obtain ⟨pre, f, post, r', ctx1, u', e0, e1, e2, e3⟩ := key0
          have hfm : f ∈ fs := by rw [e0]; simp
          have hsub : ∀ g ∈ pre ++ post, g ∈ fs := fun g hg => by rw [e0]; simp at hg ⊢; grind
          have hk1 : ctx1 key = ctx key := by
            apply Decidable.byContradiction
            intro hne
            rcases e2.frame key hne with h | h
            · exact hkey h
            · exact onPath_uses h (hzero f hfm)
          have hset : setField ctx1 key (0 + pre.length) r' =
              some (setTypeData ctx1 key (.struct (pre ++ { f with ty := r' } :: post) sz al)) := by
            simp only [setField, hk1, hd, Nat.zero_add]
            rw [e0, withField_split]
          generalize hD : Data.struct (pre ++ { f with ty := r' } :: post) sz al = D at hset
          have hDi : D.interned := by subst hD; trivial
          have hself : setTypeData ctx1 key D key = some D := setTypeData_self hDi
          have hsum : ∀ q, (fs.map fun f => PJ.uses ctx n q f.ty).sum =
              PJ.uses ctx n q f.ty + ((pre ++ post).map fun f => PJ.uses ctx n q f.ty).sum := by
            intro q
            rw [e0]
            simp only [List.map_append, List.map_cons, List.sum_append, List.sum_cons]
            omega
          have hside : ∀ g ∈ pre ++ post, ∀ k, PJ.uses ctx n k g.ty ≠ 0 → setTypeData ctx1 key D k = ctx k := by
            intro g hg k hu
            rw [setTypeData_ne fun e => hu (by rw [e]; exact hzero g (hsub g hg))]
            apply Decidable.byContradiction
            intro hne
            rcases e2.frame k hne with h | h
            · exact ho k (uses_kid_ne (hmem g (hsub g hg)) hu) h
            · have h1 := hp k (hon f hfm k h)
              have h2 := onPath_uses h
              rw [hus k, hsum k] at h1
              have h3 := le_sum_map (f := fun f : FieldD Ref => PJ.uses ctx n k f.ty) hg
              omega
          have hmain : ∀ k, PJ.uses ctx1 n k r' ≠ 0 → setTypeData ctx1 key D k = ctx1 k := by
            intro k hu
            refine setTypeData_ne fun e => hu ?_
            have := e2.uses key hkey
            have := hzero f hfm
            rw [e]
            omega
          have hk' : kids (setTypeData ctx1 key D) (.nom key) = (pre ++ { f with ty := r' } :: post).map (·.ty) := by
            simp only [kids, hself]; subst hD; rfl
          have hus' : ∀ q, PJ.uses (setTypeData ctx1 key D) (n + 1) q (.nom key) = (if key = q then 1 else 0) +
              (PJ.uses ctx1 n q r' + ((pre ++ post).map fun f => PJ.uses ctx n q f.ty).sum) := by
            intro q
            simp only [PJ.uses, hk', Ref.nom.injEq, List.map_map]
            congr 1
            have h1 : PJ.uses (setTypeData ctx1 key D) n q r' = PJ.uses ctx1 n q r' := uses_agree n r' hmain
            have h2 : ∀ g ∈ pre ++ post, PJ.uses (setTypeData ctx1 key D) n q g.ty = PJ.uses ctx n q g.ty :=
              fun g hg => uses_agree n g.ty (hside g hg)
            rw [← List.map_congr_left (f := fun g : FieldD Ref => PJ.uses (setTypeData ctx1 key D) n q g.ty) h2, ← h1]
            simp only [List.map_append, List.map_cons, List.sum_append, List.sum_cons, Function.comp_def]
            omega
          simp only [e1, hset, Option.map_some]
          refine ⟨_, _, rfl, ⟨?_, ⟨?_, ?_⟩, ?_, ?_, ?_, ?_, ?_⟩⟩
          · rw [tree_nom, hself]
            simp only [Option.bind_some]
            subst hD
            simp only [treeData]
            rw [e3 (tree _ n) (by rw [tree_agree n r' hmain]; exact e2.tree)
              fun g hg => tree_agree n g.ty (hside g hg)]
            rfl
          · exact NodeOK_nom.2 ⟨D, hself, by subst hD; exact hkd, hDi⟩
          · intro c' hc'
            rw [hk'] at hc'
            obtain ⟨g, hg, rfl⟩ := List.mem_map.1 hc'
            rcases List.mem_append.1 hg with hg | hg
            · have hg' : g ∈ pre ++ post := by simp [hg]
              exact nodes_agree n _ (hside g hg') (hn.2 _ (hmem g (hsub g hg')))
            · rcases List.mem_cons.1 hg with rfl | hg
              · exact nodes_agree n _ hmain e2.nodes
              · have hg' : g ∈ pre ++ post := by simp [hg]
                exact nodes_agree n _ (hside g hg') (hn.2 _ (hmem g (hsub g hg')))
          · intro k hk
            by_cases e : k = key
            · right; rw [e]; exact hself0
            · rw [setTypeData_ne e] at hk
              rcases e2.frame k hk with h | h
              · exact Or.inl h
              · exact Or.inr (hon f hfm k h)
          · intro k hk
            have := e2.uses k hk
            rw [hus', hus, hsum]
            omega
          · intro k hk
            have := e2.outs k hk
            rw [hus']
            have h1 : ¬ key = k := fun e => hkey (by rw [e]; exact hk)
            have h2 : ((pre ++ post).map fun f => PJ.uses ctx n k f.ty).sum = 0 := by
              apply Decidable.byContradiction
              intro hne
              obtain ⟨y, hy, hne⟩ := sum_ne_zero.1 hne
              obtain ⟨g, hg, rfl⟩ := List.mem_map.1 hy
              exact ho k (uses_kid_ne (hmem g (hsub g hg)) hne) hk
            rw [h2]
            simp only [h1, if_false]
            omega
          · have := (findSome_replace (post := post) (by rw [firstVariant_agree n r' hmain]; exact e2.isSome)
              (by rw [firstVariant_agree n r' hmain]; exact e2.first)
              (pre := pre) fun g hg => firstVariant_agree n g.ty (hside g (by simp [hg]))).1
            simp only [firstVariant, hself]
            subst hD
            exact this
          · have := (findSome_replace (post := post) (by rw [firstVariant_agree n r' hmain]; exact e2.isSome)
              (by rw [firstVariant_agree n r' hmain]; exact e2.first)
              (pre := pre) fun g hg => firstVariant_agree n g.ty (hside g (by simp [hg]))).2
            simp only [firstVariant, hself, hd]
            subst hD
            rw [e0]
            exact this

end PJ
