import Verif.Lemmas.PlanCtxOff
import Verif.Props.C18_Hoist
/-!
# Planning in a context
-/
namespace PJ

/-! ## Names -/

theorem SuffixFree.inj {addr : Ref → Comp} (h : SuffixFree addr) : AddrInj addr := by
  intro k r k' r' hk hk' e
  simp only [splitKey, Key.mk.injEq, mapLast, true_and] at e
  have h1 : k.name = k.name.dropLast ++ [k.name.getLastD []] := by
    rw [List.getLastD_eq_getLast?, List.getLast?_eq_some_getLast hk]
    exact (List.dropLast_concat_getLast hk).symm
  have h2 : k'.name = k'.name.dropLast ++ [k'.name.getLastD []] := by
    rw [List.getLastD_eq_getLast?, List.getLast?_eq_some_getLast hk']
    exact (List.dropLast_concat_getLast hk').symm
  obtain ⟨e1, e2⟩ := List.append_inj' e rfl
  simp only [List.cons.injEq, and_true] at e2
  have hr : r = r' := by
    rcases List.append_eq_append_iff.1 e2 with ⟨a, _, ha⟩ | ⟨a, _, ha⟩
    · exact h _ _ _ ha
    · exact (h _ _ _ ha).symm
  subst hr
  have := List.append_cancel_right e2
  exact ⟨by rw [h1, h2, e1, this], rfl⟩

theorem Named.notSplit {addr : Ref → Comp} {q : Key} (h : Named addr q) : ¬ IsSplit addr q := by
  rintro ⟨k, r, -, rfl⟩
  exact h.2 r (k.name.getLastD []) (by simp [splitKey, mapLast])

/-! ## Depth -/

theorem uses_stable {ctx : Ctx} {k : Key} : ∀ {n : Nat} {r : Ref} {t : Ty}, tree ctx n r = some t → ∀ {m : Nat}, n ≤ m →
    uses ctx m k r = uses ctx n k r
  | 0, _, _, h, _, _ => by simp [tree] at h
  | n + 1, r, t, h, m, hm => by
    obtain ⟨m, rfl⟩ : ∃ j, m = j + 1 := ⟨m - 1, by omega⟩
    simp only [uses]
    congr 2
    apply List.map_congr_left
    intro c hc
    obtain ⟨u, hu⟩ := tree_kids h c hc
    exact uses_stable hu (by omega)

theorem onPath_stable {ctx : Ctx} : ∀ {n : Nat} {r : Ref} {t : Ty} {path : Path}, tree ctx n r = some t → ∀ {m : Nat}, n ≤ m →
    onPath ctx m r path = onPath ctx n r path
  | 0, _, _, _, h, _, _ => by simp [tree] at h
  | n + 1, r, t, [], h, m, hm => by
    obtain ⟨m, rfl⟩ : ∃ j, m = j + 1 := ⟨m - 1, by omega⟩
    cases r <;> simp [onPath]
  | n + 1, r, t, c :: p, h, m, hm => by
    obtain ⟨m, rfl⟩ : ∃ j, m = j + 1 := ⟨m - 1, by omega⟩
    cases r with
    | nom k =>
      simp only [onPath]
      cases hd : ctx k with
      | none => rfl
      | some d =>
        cases d with
        | struct fs sz al =>
          simp only
          congr 1
          have : ∀ f ∈ fs, (if f.name = c then onPath ctx m f.ty p else []) =
              (if f.name = c then onPath ctx n f.ty p else []) := fun f hf => by
            obtain ⟨u, hu⟩ := tree_kids h f.ty (by simp only [kids, hd]; exact List.mem_map_of_mem (f := (·.ty)) hf)
            rw [onPath_stable hu (by omega)]
          rw [List.flatMap_def, List.flatMap_def, List.map_congr_left this]
        | inl | out => rfl
    | _ => simp [onPath]

theorem firstVariant_stable {ctx : Ctx} : ∀ {n : Nat} {r : Ref} {t : Ty}, tree ctx n r = some t → ∀ {m : Nat}, n ≤ m →
    firstVariant m ctx r = firstVariant n ctx r
  | 0, _, _, h, _, _ => by simp [tree] at h
  | n + 1, r, t, h, m, hm => by
    obtain ⟨m, rfl⟩ : ∃ j, m = j + 1 := ⟨m - 1, by omega⟩
    cases r with
    | nom k =>
      simp only [firstVariant]
      cases hd : ctx k with
      | none => rfl
      | some d =>
        cases d with
        | struct fs sz al =>
          have : ∀ f ∈ fs, firstVariant m ctx f.ty = firstVariant n ctx f.ty := fun f hf => by
            obtain ⟨u, hu⟩ := tree_kids h f.ty (by simp only [kids, hd]; exact List.mem_map_of_mem (f := (·.ty)) hf)
            exact firstVariant_stable hu (by omega)
          simp only
          clear hd h
          induction fs with
          | nil => rfl
          | cons f fs ih =>
            simp only [List.findSome?_cons, this f (by simp), ih fun g hg => this g (by simp [hg])]
        | inl | out => rfl
    | _ => simp [firstVariant]

theorem onPath_agree {ctx ctx' : Ctx} : ∀ (n : Nat) (r : Ref) (path : Path), (∀ k, uses ctx n k r ≠ 0 → ctx' k = ctx k) →
    onPath ctx' n r path = onPath ctx n r path
  | 0, _, _, _ => by simp [onPath]
  | n + 1, r, [], _ => by cases r <;> simp [onPath]
  | n + 1, r, c :: p, h => by
    cases r with
    | nom k =>
      simp only [onPath, h k uses_self]
      cases hd : ctx k with
      | none => rfl
      | some d =>
        cases d with
        | struct fs sz al =>
          simp only
          congr 1
          have : ∀ f ∈ fs, (if f.name = c then onPath ctx' n f.ty p else []) =
              (if f.name = c then onPath ctx n f.ty p else []) := fun f hf => by
            have hk : f.ty ∈ kids ctx (.nom k) := by simp only [kids, hd]; exact List.mem_map_of_mem (f := (·.ty)) hf
            rw [onPath_agree n f.ty p fun q hq => h q (uses_kid_ne hk hq)]
          rw [List.flatMap_def, List.flatMap_def, List.map_congr_left this]
        | inl | out => rfl
    | _ => simp [onPath]

theorem firstVariant_reach {ctx : Ctx} : ∀ {n : Nat} {r : Ref} {v : Key}, firstVariant n ctx r = some v → Reach ctx r (.nom v)
  | 0, _, _, h => by simp [firstVariant] at h
  | n + 1, r, v, h => by
    cases r with
    | nom k =>
      simp only [firstVariant] at h
      cases hd : ctx k with
      | none => rw [hd] at h; cases h
      | some d =>
        rw [hd] at h
        cases d with
        | struct fs sz al =>
          simp only at h
          obtain ⟨f, hf, hv⟩ := List.exists_of_findSome?_eq_some h
          exact .step (by simp only [kids, hd]; exact List.mem_map_of_mem (f := (·.ty)) hf) (firstVariant_reach hv)
        | inl | out =>
          simp only [Option.some.injEq] at h
          subst h
          exact .refl _
    | _ => simp [firstVariant] at h

theorem le_sum_two {α} {f : α → Nat} {x y : α} (hne : x ≠ y) : ∀ {l : List α}, x ∈ l → y ∈ l → f x + f y ≤ (l.map f).sum
  | [], h, _ => by cases h
  | a :: l, hx, hy => by
    simp only [List.map_cons, List.sum_cons]
    rcases List.mem_cons.1 hx with rfl | hx1
    · rcases List.mem_cons.1 hy with rfl | hy1
      · exact absurd rfl hne
      · have := le_sum_map (f := f) hy1
        omega
    · rcases List.mem_cons.1 hy with rfl | hy1
      · have := le_sum_map (f := f) hx1
        omega
      · have := le_sum_two (f := f) hne hx1 hy1
        omega

/-- A struct that is on the path and in the first variant is used twice. -/
theorem path_first {ctx : Ctx} : ∀ {n : Nat} {r : Ref} {t : Ty} {path : Path} {k v : Key}, tree ctx n r = some t →
    k ∈ onPath ctx n r path → firstVariant n ctx r = some v → Reach ctx (.nom v) (.nom k) → 2 ≤ uses ctx n k r
  | 0, _, _, _, _, _, h, _, _, _ => by simp [tree] at h
  | n + 1, r, t, [], k, v, h, hp, _, _ => by cases r <;> simp [onPath] at hp
  | n + 1, r, t, c :: p, k, v, h, hp, hv, hr => by
    cases r with
    | nom q =>
      simp only [onPath] at hp
      simp only [firstVariant] at hv
      cases hd : ctx q with
      | none => rw [hd] at hp; cases hp
      | some d =>
        rw [hd] at hp hv
        cases d with
        | struct fs sz al =>
          simp only at hp hv
          obtain ⟨g, hg, hgv⟩ := List.exists_of_findSome?_eq_some hv
          have hmem : ∀ f ∈ fs, f.ty ∈ kids ctx (.nom q) := fun f hf => by
            simp only [kids, hd]; exact List.mem_map_of_mem (f := (·.ty)) hf
          obtain ⟨u, hu⟩ := tree_kids h g.ty (hmem g hg)
          have hgk : uses ctx n k g.ty ≠ 0 := reach_uses ((firstVariant_reach hgv).trans hr) rfl hu
          have hsum : uses ctx (n + 1) k (.nom q) =
              (if q = k then 1 else 0) + (fs.map fun f => uses ctx n k f.ty).sum := by
            simp only [uses, kids, hd, Data.kids, List.map_map, Ref.nom.injEq]
            rfl
          have h1 := le_sum_map (f := fun f : FieldD Ref => uses ctx n k f.ty) hg
          rcases List.mem_cons.1 hp with rfl | hp
          · rw [hsum, if_pos rfl]
            omega
          · obtain ⟨f, hf, hfp⟩ := List.mem_flatMap.1 hp
            split at hfp
            · obtain ⟨w, hw⟩ := tree_kids h f.ty (hmem f hf)
              by_cases e : f = g
              · subst e
                have := path_first hw hfp hgv hr
                have h2 := uses_kid (n := n) (k := k) (hmem f hf)
                omega
              · have h2 : uses ctx n k f.ty ≠ 0 := onPath_uses hfp
                have h3 := le_sum_two (f := fun f : FieldD Ref => uses ctx n k f.ty) e hf hg
                rw [hsum]
                omega
            · cases hfp
        | inl | out => cases hp
    | _ => simp [onPath] at hp

/-! ## Nothing to split -/

mutual
theorem splitFirst_vecIn : ∀ (t : Ty) (s : Split), splitFirst t = some s →
    ∃ l, VecIn l t ∧ ¬ (l.wireMin = 0 ∨ l.maxLen = some l.wireMin)
  | .vector e l, s, h => by
    simp only [splitFirst] at h
    split at h
    · cases h
    · exact ⟨l, .here e l, by assumption⟩
  | .struct fs sz al, s, h => by
    simp only [splitFirst] at h
    split at h
    · rename_i n short long path hs
      obtain ⟨x, hx, l, h1, h2⟩ := splitFields_vecIn fs _ hs
      exact ⟨l, .field hx rfl h1, h2⟩
    · cases h
  | .int _ _ _, _, h => by simp [splitFirst] at h
  | .float _ _, _, h => by simp [splitFirst] at h
  | .unit, _, h => by simp [splitFirst] at h
  | .variant _ _, _, h => by simp [splitFirst] at h
  | .array _ _ _ _, _, h => by simp [splitFirst] at h
theorem splitFields_vecIn : ∀ (fs : Fields) (y : Nat × Fields × Fields × Path), splitFields fs = some y →
    ∃ x ∈ fs.toList, ∃ l, VecIn l x.2.2 ∧ ¬ (l.wireMin = 0 ∨ l.maxLen = some l.wireMin)
  | .nil, _, h => by simp [splitFields] at h
  | .cons n o t r, y, h => by
    simp only [splitFields] at h
    split at h
    · rename_i s hs
      obtain ⟨l, h1, h2⟩ := splitFirst_vecIn t s hs
      exact ⟨(n, o, t), by simp [Fields.toList], l, h1, h2⟩
    · split at h
      · rename_i hs
        obtain ⟨x, hx, l, h1, h2⟩ := splitFields_vecIn r _ hs
        exact ⟨x, by simp [Fields.toList, hx], l, h1, h2⟩
      · cases h
end

end PJ
