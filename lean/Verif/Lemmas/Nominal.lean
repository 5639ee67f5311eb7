import Verif.Model.Nominal
/-!
# Outlining in nominal types of which no struct is used twice
-/
namespace PJ

/-- The names in the unfolding of a type. -/
def nrefs : Nat → NEnv → NTy → List Comp
  | 0, _, _ => []
  | _ + 1, _, .leaf => []
  | fuel + 1, env, .ref n =>
    n :: match env.lookup n with
      | some (.struct fs) => fs.flatMap fun f => nrefs fuel env f.2
      | _ => []

/-- The structs in the unfolding of a type, as often as they are used. -/
def nstructs : Nat → NEnv → NTy → List Comp
  | 0, _, _ => []
  | _ + 1, _, .leaf => []
  | fuel + 1, env, .ref n =>
    match env.lookup n with
    | some (.struct fs) => n :: fs.flatMap fun f => nstructs fuel env f.2
    | _ => []

theorem nstructs_sub : ∀ {fuel : Nat} {env : NEnv} {t : NTy} {m : Comp}, m ∈ nstructs fuel env t →
    ∃ fs, env.lookup m = some (.struct fs)
  | 0, _, _, _, h => by simp [nstructs] at h
  | _ + 1, _, .leaf, _, h => by simp [nstructs] at h
  | fuel + 1, env, .ref n, m, h => by
    simp only [nstructs] at h
    split at h
    · rename_i fs he
      rcases List.mem_cons.1 h with rfl | h
      · exact ⟨_, he⟩
      · obtain ⟨f, _, h⟩ := List.mem_flatMap.1 h
        exact nstructs_sub h
    · cases h

theorem nrefs_struct : ∀ {fuel : Nat} {env : NEnv} {t : NTy} {m : Comp} {fs : List (Comp × NTy)},
    m ∈ nrefs fuel env t → env.lookup m = some (.struct fs) → m ∈ nstructs fuel env t
  | 0, _, _, _, _, h, _ => by simp [nrefs] at h
  | _ + 1, _, .leaf, _, _, h, _ => by simp [nrefs] at h
  | fuel + 1, env, .ref n, m, fs, h, hm => by
    simp only [nrefs, List.mem_cons] at h
    simp only [nstructs]
    rcases h with rfl | h
    · rw [hm]; exact List.mem_cons_self
    · split at h
      · rename_i gs he
        obtain ⟨f, hf, h⟩ := List.mem_flatMap.1 h
        exact List.mem_cons_of_mem _ (List.mem_flatMap.2 ⟨f, hf, nrefs_struct h hm⟩)
      · cases h

theorem flatMap_ext {α β : Type} {g g' : α → List β} : ∀ {l : List α}, (∀ a ∈ l, g a = g' a) →
    l.flatMap g = l.flatMap g'
  | [], _ => rfl
  | a :: l, h => by
    rw [List.flatMap_cons, List.flatMap_cons, h a List.mem_cons_self,
      flatMap_ext fun b hb => h b (List.mem_cons_of_mem _ hb)]

theorem map_mapIdx {α β γ : Type} (f : Nat → α → β) (g : β → γ) (l : List α) :
    (l.mapIdx f).map g = l.mapIdx fun i a => g (f i a) := by
  apply List.ext_getElem?
  intro j
  simp
  rfl

/-- Definitions of other names do not matter. -/
theorem nrefs_congr : ∀ {fuel : Nat} {env env' : NEnv} {t : NTy},
    (∀ m ∈ nrefs fuel env t, env'.lookup m = env.lookup m) →
    nrefs fuel env' t = nrefs fuel env t ∧ outPaths fuel env' t = outPaths fuel env t
  | 0, _, _, _, _ => ⟨rfl, rfl⟩
  | _ + 1, _, _, .leaf, _ => ⟨rfl, rfl⟩
  | fuel + 1, env, env', .ref n, h => by
    have hn := h n (by simp [nrefs])
    simp only [nrefs, outPaths, hn]
    cases he : env.lookup n with
    | none => exact ⟨rfl, rfl⟩
    | some d =>
      cases d with
      | variant o => exact ⟨rfl, rfl⟩
      | struct fs =>
        have hf : ∀ f ∈ fs, nrefs fuel env' f.2 = nrefs fuel env f.2 ∧
            outPaths fuel env' f.2 = outPaths fuel env f.2 := by
          intro f hf
          refine nrefs_congr fun m hm => h m ?_
          simp only [nrefs, he, List.mem_cons]
          exact .inr (List.mem_flatMap.2 ⟨f, hf, hm⟩)
        simp only
        constructor
        · congr 1
          rw [flatMap_ext fun f h => (hf f h).1]
        · exact flatMap_ext fun f h => by rw [(hf f h).2]

theorem mem_replaceField {fs : List (Comp × NTy)} {i : Nat} {t : NTy} {x : Comp × NTy}
    (h : x ∈ replaceField fs i t) : ∃ j f, fs[j]? = some f ∧ x.1 = f.1 ∧ (j = i → x.2 = t) ∧ (j ≠ i → x = f) := by
  unfold replaceField at h
  rw [List.mem_mapIdx] at h
  obtain ⟨j, hj, rfl⟩ := h
  refine ⟨j, fs[j], by simp [hj], ?_, ?_, ?_⟩
  · split <;> rfl
  · intro h; simp [h]
  · intro h; simp [h]

theorem replaceField_map (fs : List (Comp × NTy)) (i : Nat) (t : NTy) :
    (replaceField fs i t).map (·.1) = fs.map (·.1) := by
  unfold replaceField
  rw [map_mapIdx]
  apply List.ext_getElem?
  intro j
  rw [List.getElem?_mapIdx, List.getElem?_map]
  cases fs[j]? with
  | none => rfl
  | some x => simp only [Option.map_some]; split <;> rfl

theorem flatMap_one {α β : Type} {g : Nat → α → List β} {x : β} : ∀ {l : List α} {i k : Nat} {a : α},
    l[i]? = some a → g (k + i) a = [x] → (∀ j b, l[j]? = some b → j ≠ i → g (k + j) b = []) →
    (l.mapIdx fun j b => g (k + j) b).flatten = [x]
  | [], i, k, a, h, _, _ => by simp at h
  | b :: l, 0, k, a, h, h1, h2 => by
    simp only [List.getElem?_cons_zero, Option.some.injEq] at h
    subst h
    rw [List.mapIdx_cons, List.flatten_cons, h1]
    suffices (l.mapIdx fun j b => g (k + (j + 1)) b).flatten = [] by rw [this]; rfl
    rw [List.flatten_eq_nil_iff]
    intro y hy
    rw [List.mem_mapIdx] at hy
    obtain ⟨j, hj, rfl⟩ := hy
    exact h2 (j + 1) _ (by simp [hj]) (by omega)
  | b :: l, i + 1, k, a, h, h1, h2 => by
    rw [List.mapIdx_cons, List.flatten_cons, h2 0 b rfl (by omega), List.nil_append]
    have := flatMap_one (l := l) (i := i) (k := k + 1) (a := a) (g := g) (x := x) (by simpa using h)
      (by rw [← h1]; congr 1; omega) (fun j c hj hne => by
        have := h2 (j + 1) c (by simpa using hj) (by omega)
        rw [← this]; congr 1; omega)
    rw [← this]
    congr 2
    funext j c
    congr 1; omega

/-- What outlining does to the definitions and to the type. -/
structure Outlined (fuel : Nat) (env : NEnv) (t : NTy) (path : Path) (t' : NTy) (env' : NEnv) : Prop where
  /-- Only structs of the type are redefined. -/
  other : ∀ m, m ∉ nstructs fuel env t → (∀ k, m ≠ outlineName k) → env'.lookup m = env.lookup m
  refs : ∀ m ∈ nrefs fuel env' t', m ∈ nrefs fuel env t ∨ ∃ k, m = outlineName k
  out : ∃ q c r, path = q ++ c :: r ∧ outPaths fuel env' t' = [q]

theorem nodup_flatMap_disj {α β : Type} {g : α → List β} : ∀ {l : List α} {i j : Nat} {a b : α},
    (l.flatMap g).Nodup → l[i]? = some a → l[j]? = some b → i ≠ j → ∀ m ∈ g a, m ∉ g b
  | [], i, j, a, b, _, h, _, _ => by simp at h
  | x :: l, i, j, a, b, hn, ha, hb, hne => by
    rw [List.flatMap_cons, List.nodup_append] at hn
    intro m hm hm'
    cases i with
    | zero =>
      cases j with
      | zero => exact hne rfl
      | succ j =>
        simp only [List.getElem?_cons_zero, Option.some.injEq, List.getElem?_cons_succ] at ha hb
        subst ha
        exact hn.2.2 m hm m (List.mem_flatMap.2 ⟨b, List.mem_of_getElem? hb, hm'⟩) rfl
    | succ i =>
      cases j with
      | zero =>
        simp only [List.getElem?_cons_zero, Option.some.injEq, List.getElem?_cons_succ] at ha hb
        subst hb
        exact hn.2.2 m hm' m (List.mem_flatMap.2 ⟨a, List.mem_of_getElem? ha, hm⟩) rfl
      | succ j =>
        simp only [List.getElem?_cons_succ] at ha hb
        exact nodup_flatMap_disj hn.2.1 ha hb (by omega) m hm hm'

theorem nodup_flatMap_mem {α β : Type} {g : α → List β} {l : List α} {a : α}
    (h : (l.flatMap g).Nodup) (ha : a ∈ l) : (g a).Nodup := by
  induction l with
  | nil => cases ha
  | cons x l ih =>
    rw [List.flatMap_cons, List.nodup_append] at h
    rcases List.mem_cons.1 ha with rfl | ha
    · exact h.1
    · exact ih h.2.1 ha

theorem tryOutlineN_spec : ∀ (fuel : Nat) (env : NEnv) (t : NTy) (path : Path) (t' : NTy) (env' : NEnv),
    tryOutlineN fuel env t path = some (t', env') → (nstructs fuel env t).Nodup →
    (∀ m ∈ nrefs fuel env t, ∀ k, m ≠ outlineName k) → outPaths fuel env t = [] →
    Outlined fuel env t path t' env'
  | 0, _, _, _, _, _, h, _, _, _ => by simp [tryOutlineN] at h
  | _ + 1, _, .leaf, _, _, _, h, _, _, _ => by simp [tryOutlineN] at h
  | fuel + 1, env, .ref n, path, t', env', h, hnd, hfr, hop => by
    simp only [tryOutlineN] at h
    split at h
    · cases h
    rename_i hp
    cases he : env.lookup n with
    | none => rw [he] at h; cases h
    | some d =>
    rw [he] at h
    cases d with
    | variant o =>
      cases o with
      | true => cases h
      | false =>
        simp only [Option.some.injEq, Prod.mk.injEq] at h
        obtain ⟨rfl, rfl⟩ := h
        refine ⟨fun m _ hm => ?_, fun m hm => ?_, ?_⟩
        · rw [List.lookup_cons]
          have : (m == outlineName n) = false := by simpa using hm n
          rw [this]
        · simp only [nrefs, List.lookup_cons, beq_self_eq_true, List.mem_singleton] at hm
          exact .inr ⟨n, hm⟩
        · cases path with
          | nil => exact absurd rfl hp
          | cons c r => exact ⟨[], c, r, rfl, by simp [outPaths]⟩
    | struct fs =>
      simp only at h
      obtain ⟨i, hi, h⟩ := List.exists_of_findSome?_eq_some h
      cases hf : fs[i]? with
      | none => rw [hf] at h; cases h
      | some f =>
      rw [hf] at h
      simp only at h
      cases ht : tryOutlineN fuel env f.2 (path.into f.1) with
      | none => rw [ht] at h; cases h
      | some x =>
      obtain ⟨u, env1⟩ := x
      rw [ht] at h
      simp only [Option.some.injEq, Prod.mk.injEq] at h
      obtain ⟨rfl, rfl⟩ := h
      simp only [nstructs, he, List.nodup_cons] at hnd
      simp only [nrefs, he, List.mem_cons] at hfr
      simp only [outPaths, he, List.flatMap_eq_nil_iff, List.map_eq_nil_iff] at hop
      have hfm := List.mem_of_getElem? hf
      obtain ⟨io, ir, q, c, r, iq, ip⟩ := tryOutlineN_spec fuel env f.2 _ u env1 ht (nodup_flatMap_mem (g := fun f => nstructs fuel env f.2) hnd.2 hfm)
        (fun m hm => hfr m (.inr (List.mem_flatMap.2 ⟨f, hfm, hm⟩))) (hop f hfm)
      have hn := hfr n (.inl rfl)
      -- `n` is not below
      have hnot : ∀ g ∈ fs, n ∉ nrefs fuel env g.2 := fun g hg hm =>
        hnd.1 (List.mem_flatMap.2 ⟨g, hg, nrefs_struct hm he⟩)
      -- the field itself
      have hu : nrefs fuel ((n, .struct (replaceField fs i u)) :: env1) u = nrefs fuel env1 u ∧
          outPaths fuel ((n, .struct (replaceField fs i u)) :: env1) u = outPaths fuel env1 u := by
        refine nrefs_congr fun m hm => ?_
        rw [List.lookup_cons]
        have : (m == n) = false := by
          rw [beq_eq_false_iff_ne]
          rintro rfl
          rcases ir m hm with h | ⟨k, h⟩
          · exact hnot f hfm h
          · exact hn k h
        rw [this]
      -- the other fields
      have hg : ∀ j g, fs[j]? = some g → j ≠ i →
          nrefs fuel ((n, .struct (replaceField fs i u)) :: env1) g.2 = nrefs fuel env g.2 ∧
          outPaths fuel ((n, .struct (replaceField fs i u)) :: env1) g.2 = outPaths fuel env g.2 := by
        intro j g hgj hne
        have hgm := List.mem_of_getElem? hgj
        refine nrefs_congr fun m hm => ?_
        rw [List.lookup_cons]
        have : (m == n) = false := by
          rw [beq_eq_false_iff_ne]
          rintro rfl
          exact hnot g hgm hm
        rw [this]
        refine io m (fun hs => ?_) (hfr m (.inr (List.mem_flatMap.2 ⟨g, hgm, hm⟩)))
        obtain ⟨gs, hgs⟩ := nstructs_sub hs
        exact nodup_flatMap_disj (g := fun f => nstructs fuel env f.2) hnd.2 hf hgj (fun h => hne h.symm) m hs (nrefs_struct hm hgs)
      refine ⟨fun m hm hk => ?_, fun m hm => ?_, f.1 :: q, c, r, ?_, ?_⟩
      · simp only [nstructs, he, List.mem_cons, not_or] at hm
        rw [List.lookup_cons]
        have : (m == n) = false := by simpa using hm.1
        rw [this]
        exact io m (fun h => hm.2 (List.mem_flatMap.2 ⟨f, hfm, h⟩)) hk
      · simp only [nrefs, List.lookup_cons, beq_self_eq_true, List.mem_cons] at hm
        simp only [nrefs, he, List.mem_cons]
        rcases hm with rfl | hm
        · exact .inl (.inl rfl)
        · obtain ⟨x, hx, hm⟩ := List.mem_flatMap.1 hm
          obtain ⟨j, g, hgj, _, h1, h2⟩ := mem_replaceField hx
          by_cases hji : j = i
          · rw [h1 hji, hu.1] at hm
            rcases ir m hm with h | h
            · exact .inl (.inr (List.mem_flatMap.2 ⟨f, hfm, h⟩))
            · exact .inr h
          · rw [h2 hji, (hg j g hgj hji).1] at hm
            exact .inl (.inr (List.mem_flatMap.2 ⟨g, List.mem_of_getElem? hgj, hm⟩))
      · unfold Path.into at iq
        split at iq
        · rename_i hs
          cases path with
          | nil => exact absurd rfl hp
          | cons d p =>
            simp only [Path.startsWith, Path.narrow] at hs iq
            simp at hs
            subst hs
            simp [← iq]
        · simp at iq
      · simp only [outPaths, List.lookup_cons, beq_self_eq_true]
        rw [List.flatMap_def]
        unfold replaceField
        rw [map_mapIdx]
        have := flatMap_one (l := fs) (i := i) (k := 0) (a := f) (x := f.1 :: q)
          (g := fun j b => (outPaths fuel ((n, .struct (replaceField fs i u)) :: env1) (if j = i then (b.1, u) else b).2).map
            ((if j = i then (b.1, u) else b).1 :: ·)) hf (by simp [hu.2, ip]) (fun j b hj hne => by
              simp [hne, (hg j b hj hne).2, hop b (List.mem_of_getElem? hj)])
        simp only [Nat.zero_add] at this
        exact this

/-- Variants, and names without a definition, are left alone, apart from the name of the new variant. -/
theorem tryOutlineN_defs : ∀ (fuel : Nat) (env : NEnv) (t : NTy) (path : Path) (t' : NTy) (env' : NEnv),
    tryOutlineN fuel env t path = some (t', env') → ∃ n, env.lookup n = some (.variant false) ∧
      ∀ m, m ≠ outlineName n →
        (∀ o, env.lookup m = some (.variant o) → env'.lookup m = some (.variant o)) ∧
        (env.lookup m = none → env'.lookup m = none) ∧
        (∀ fs, env.lookup m = some (.struct fs) →
          ∃ gs, env'.lookup m = some (.struct gs) ∧ gs.map (·.1) = fs.map (·.1))
  | 0, _, _, _, _, _, h => by simp [tryOutlineN] at h
  | _ + 1, _, .leaf, _, _, _, h => by simp [tryOutlineN] at h
  | fuel + 1, env, .ref n, path, t', env', h => by
    simp only [tryOutlineN] at h
    split at h
    · cases h
    rename_i hp
    cases he : env.lookup n with
    | none => rw [he] at h; cases h
    | some d =>
    rw [he] at h
    cases d with
    | variant o =>
      cases o with
      | true => cases h
      | false =>
        simp only [Option.some.injEq, Prod.mk.injEq] at h
        obtain ⟨rfl, rfl⟩ := h
        refine ⟨n, he, fun m hm => ?_⟩
        rw [List.lookup_cons]
        have : (m == outlineName n) = false := by simpa using hm
        rw [this]
        exact ⟨fun _ h => h, fun h => h, fun fs h => ⟨fs, h, rfl⟩⟩
    | struct fs =>
      simp only at h
      obtain ⟨i, hi, h⟩ := List.exists_of_findSome?_eq_some h
      cases hf : fs[i]? with
      | none => rw [hf] at h; cases h
      | some f =>
      rw [hf] at h
      simp only at h
      cases ht : tryOutlineN fuel env f.2 (path.into f.1) with
      | none => rw [ht] at h; cases h
      | some x =>
      obtain ⟨u, env1⟩ := x
      rw [ht] at h
      simp only [Option.some.injEq, Prod.mk.injEq] at h
      obtain ⟨rfl, rfl⟩ := h
      obtain ⟨k, hk, ih⟩ := tryOutlineN_defs fuel env f.2 _ u env1 ht
      refine ⟨k, hk, fun m hm => ?_⟩
      rw [List.lookup_cons]
      cases hmn : m == n with
      | false => exact ih m hm
      | true =>
        have : m = n := by simpa using hmn
        subst this
        rw [he]
        refine ⟨fun o h => by simp at h, fun h => by simp at h, fun gs h => ?_⟩
        simp only [Option.some.injEq, NDef.struct.injEq] at h
        subst h
        exact ⟨_, rfl, replaceField_map fs i u⟩

end PJ
