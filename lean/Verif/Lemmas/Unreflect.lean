import Verif.Lemmas.Reflect
/-!
# Unreflection
-/
namespace PJ

attribute [local irreducible] i32

/-! ## Interning sorted terms -/

theorem insertTerm_head {β} (x : (Str × β) × Nat) (l : List ((Str × β) × Nat))
    (h : ∀ y ∈ l, y.1.1.less x.1.1 = false) : insertTerm x l = x :: l := by
  cases l with
  | nil => rfl
  | cons y ys => simp [insertTerm, h y (by simp)]

theorem sortTerms_sorted_id {β} (l : List ((Str × β) × Nat))
    (h : l.Pairwise (fun a b => b.1.1.less a.1.1 = false)) : sortTerms l = l := by
  induction l with
  | nil => rfl
  | cons x xs ih =>
    have hc := List.pairwise_cons.1 h
    rw [sortTerms, ih hc.2, insertTerm_head x xs hc.1]

theorem pairwise_zipIdx {α} (R : α → α → Prop) (l : List α) (k : Nat) (h : l.Pairwise R) :
    (l.zipIdx k).Pairwise (fun a b => R a.1 b.1) := by
  induction l generalizing k with
  | nil => simp
  | cons x xs ih =>
    have hc := List.pairwise_cons.1 h
    simp only [List.zipIdx_cons]
    refine List.pairwise_cons.2 ⟨?_, ih _ hc.2⟩
    intro y hy
    exact hc.1 _ (List.fst_mem_of_mem_zipIdx hy)

theorem findIdx_zipIdx {α} (l : List α) (k d : Nat) (h : k + d < k + l.length) :
    (l.zipIdx k).findIdx (fun p => p.2 == k + d) = d := by
  induction l generalizing k d with
  | nil => simp only [List.length_nil] at h; omega
  | cons x xs ih =>
    simp only [List.zipIdx_cons, List.findIdx_cons]
    cases d with
    | zero => simp
    | succ d =>
      have : (k == k + (d + 1)) = false := by simp
      rw [this]
      simp only [List.length_cons] at h
      have := ih (k + 1) d (by omega)
      rw [show k + (d + 1) = k + 1 + d by omega]
      simp [this]

theorem internTermsD_id (ts : List (TermD Ref Attr)) (d : Nat) (h : Interned ts d) :
    internTermsD ts d = (ts, d) := by
  obtain ⟨h1, h2⟩ := h
  have hs := sortTerms_sorted_id (List.zipIdx (ts.map fun t => (t.name.map Char.toNat, t)))
    (pairwise_zipIdx (fun a b : Str × TermD Ref Attr => Str.less b.1 a.1 = false) _ 0
      (List.pairwise_map.2 h1))
  have hf := findIdx_zipIdx (ts.map fun t => (t.name.map Char.toNat, t)) 0 d (by simpa using h2)
  simp only [Nat.zero_add] at hf
  simp only [internTermsD, internVariant, hs, hf]
  congr 1
  rw [List.map_map, show ((fun x : Str × TermD Ref Attr => x.2) ∘ fun x : (Str × TermD Ref Attr) × Nat
    => x.1) = (fun x => x.2) ∘ Prod.fst from rfl, ← List.map_map, List.zipIdx_map_fst, List.map_map]
  exact List.map_id' ts

theorem Interned.forget {ts : List (TermD Ref Attr)} {d : Nat} (h : Interned ts d) :
    Interned (ts.map fun t => { t with ty := t.ty.forget }) d :=
  ⟨List.pairwise_map.2 h.1, by simpa using h.2⟩

/-! ## One entry -/

theorem unreflect_attr (a : Attr) : unreflectAttr (reflectAttr a) = a := by
  cases a with
  | undef d => cases d <;> rfl
  | split => rfl

theorem zip_fields (fs : List (FieldD Ref)) (is : List Int) (pos : Nat) (h : is.length = fs.length) :
    (fs.zipWith (fun f i => (⟨f.name, f.off, relative pos i⟩ : FieldD Int)) is).zipWith
      (fun f r => (⟨f.name, f.off, r⟩ : FieldD Ref)) ((fs.map (·.ty)).map Ref.forget) =
    fs.map fun f => { f with ty := f.ty.forget } := by
  induction fs generalizing is with
  | nil => simp
  | cons f fs ih =>
    cases is with
    | nil => simp at h
    | cons i is =>
      have := ih is (by simpa using h)
      simp only [List.zipWith_cons_cons, List.map_cons, this]

theorem zip_terms (fs : List (TermD Ref Attr)) (is : List Int) (pos : Nat)
    (h : is.length = fs.length) :
    (fs.zipWith (fun t i => (⟨t.name, t.tag, t.attrs.map reflectAttr, relative pos i⟩ :
        TermD Int PAttr)) is).zipWith
      (fun t r => (⟨t.name, t.tag, t.attrs.map unreflectAttr, r⟩ : TermD Ref Attr))
      ((fs.map (·.ty)).map Ref.forget) =
    fs.map fun f => { f with ty := f.ty.forget } := by
  induction fs generalizing is with
  | nil => simp
  | cons f fs ih =>
    cases is with
    | nil => simp at h
    | cons i is =>
      have := ih is (by simpa using h)
      simp only [List.zipWith_cons_cons, List.map_cons, this]
      congr 2
      rw [List.map_map]
      simp [Function.comp_def, unreflect_attr]

/-- The context after making a type. -/
def remade (ctx : Ctx) (c : Ctx) : Ref → Ctx
  | .nom k => fun k' => if k' = k then (ctx k).map Data.forget else c k'
  | _ => c

theorem build_entry (ctx c : Ctx) (r : Ref) (is : List Int) (pos : Nat) (e : PNode)
    (hn : NodeOK ctx r) (hl : is.length = (kids ctx r).length) (he : entry ctx r is pos = some e) :
    build c e ((kids ctx r).map Ref.forget) = some (r.forget, remade ctx c r) := by
  cases r with
  | int | unit =>
    simp only [entry, Option.some.injEq] at he
    subst he; rfl
  | float w al =>
    simp only [entry, Option.some.injEq] at he
    subst he
    rcases hn with rfl | rfl <;> rfl
  | array e n esz al =>
    match is, hl with
    | [i], _ =>
      simp only [entry, Option.some.injEq] at he
      subst he; rfl
  | vector e l =>
    match is, hl with
    | [i], _ =>
      simp only [entry, Option.some.injEq] at he
      subst he; rfl
  | nom k =>
    obtain ⟨kind, name⟩ := k
    simp only [NodeOK] at hn
    simp only [entry] at he
    simp only [kids] at hl ⊢
    split at hn
    · rename_i hd
      simp only [hd, Option.some.injEq, Data.kids] at he hl ⊢
      subst he
      simp only [build, Option.some.injEq, Prod.mk.injEq, zip_fields _ _ _ (by simpa using hl)]
      exact ⟨rfl, by simp only [remade, hd]; rfl⟩
    · rename_i hd
      simp only [hd, Option.some.injEq, Data.kids] at he hl ⊢
      subst he
      simp only [build, Option.some.injEq, Prod.mk.injEq, zip_terms _ _ _ (by simpa using hl)]
      refine ⟨rfl, ?_⟩
      funext k'
      simp only [setTypeData, remade, hd, internTermsD_id _ _ hn.forget]
      rfl
    · rename_i hd
      simp only [hd, Option.some.injEq, Data.kids] at he hl ⊢
      subst he
      simp only [build, Option.some.injEq, Prod.mk.injEq, zip_terms _ _ _ (by simpa using hl)]
      refine ⟨rfl, ?_⟩
      funext k'
      simp only [setTypeData, remade, hd, internTermsD_id _ _ hn.forget]
      rfl
    · exact hn.elim

theorem zipWith_kids (fs : List (FieldD Ref)) (is : List Int) (pos : Nat)
    (h : is.length = fs.length) :
    (fs.zipWith (fun f i => (⟨f.name, f.off, relative pos i⟩ : FieldD Int)) is).map (·.ty) =
      is.map (relative pos) := by
  induction fs generalizing is with
  | nil => cases is with
    | nil => rfl
    | cons => simp at h
  | cons f fs ih =>
    cases is with
    | nil => simp at h
    | cons i is => simp [ih is (by simpa using h)]

theorem zipWith_kids' (fs : List (TermD Ref Attr)) (is : List Int) (pos : Nat)
    (h : is.length = fs.length) :
    (fs.zipWith (fun t i => (⟨t.name, t.tag, t.attrs.map reflectAttr, relative pos i⟩ :
        TermD Int PAttr)) is).map (·.ty) = is.map (relative pos) := by
  induction fs generalizing is with
  | nil => cases is with
    | nil => rfl
    | cons => simp at h
  | cons f fs ih =>
    cases is with
    | nil => simp at h
    | cons i is => simp [ih is (by simpa using h)]

theorem entry_kids (ctx : Ctx) (r : Ref) (is : List Int) (pos : Nat) (e : PNode)
    (hl : is.length = (kids ctx r).length) (he : entry ctx r is pos = some e) :
    e.kids = is.map (relative pos) := by
  cases r with
  | int | unit | float =>
    simp only [entry, Option.some.injEq] at he
    subst he
    simp only [kids, List.length_nil, List.length_eq_zero_iff] at hl
    subst hl; rfl
  | array e n esz al =>
    match is, hl with
    | [i], _ =>
      simp only [entry, Option.some.injEq] at he
      subst he; rfl
  | vector e l =>
    match is, hl with
    | [i], _ =>
      simp only [entry, Option.some.injEq] at he
      subst he; rfl
  | nom k =>
    simp only [entry] at he
    simp only [kids] at hl
    split at he
    · simp at he
    all_goals
      rename_i hd
      simp only [hd, Option.some.injEq, Data.kids] at he hl
      subst he
      simp only [PNode.kids]
      first
        | exact zipWith_kids _ _ _ (by simpa using hl)
        | exact zipWith_kids' _ _ _ (by simpa using hl)

theorem relative_nat (pos k : Nat) (h1 : pos < 2 ^ 31) (h2 : k < 2 ^ 31) :
    relative pos (i32 (k : Nat)) = (k : Int) - pos := by
  simp only [relative]
  rw [i32_small k h2, i32_small pos h1, i32_sub k pos h2 h1]

theorem map_relative (ks : List Nat) (j : Nat) (h : ∀ k ∈ ks, k < j) (hj : j < 2 ^ 31) :
    (ks.map fun k => i32 (k : Nat)).map (relative j) = ks.map fun (k : Nat) => (k : Int) - j := by
  induction ks with
  | nil => rfl
  | cons k ks ih =>
    rw [List.map_cons, List.map_cons, List.map_cons, ih (fun k hk => h k (by simp [hk])),
      relative_nat j k hj (Nat.lt_trans (h k (by simp)) hj)]

/-! ## The whole pool -/

/-- A context that has only correct definitions. -/
def Part (ctx c : Ctx) : Prop := ∀ k, c k = none ∨ c k = (ctx k).map Data.forget

/-- The definitions of everything inside a type are there. -/
def Has (ctx c : Ctx) (r : Ref) : Prop := ∀ k, Reach ctx r (.nom k) → c k = (ctx k).map Data.forget

theorem reach_nom {ctx : Ctx} {r : Ref} {k : Key} (h : Reach ctx r (.nom k)) :
    r = .nom k ∨ ∃ c ∈ kids ctx r, Reach ctx c (.nom k) := by
  cases h with
  | refl => exact .inl rfl
  | step hk ht => exact .inr ⟨_, hk, ht⟩

theorem unreflectAll_step (ctx : Ctx) (pool : List PNode) (rs : List Ref) (fuel : Nat) (j : Nat)
    (hj : j < 2 ^ 31)
    (ih : ∀ k < j, ∀ r, rs[k]? = some r → ∀ c, Part ctx c →
      ∃ c', unreflect pool fuel k c = some (r.forget, c') ∧ Part ctx c' ∧ Has ctx c' r ∧
        ∀ q, c q ≠ none → c' q = c q)
    (ks : List Nat) (l : List Ref) (hks : ∀ k ∈ ks, k < j)
    (hl : ks.map (fun k => rs[k]?) = l.map some) (c : Ctx) (hc : Part ctx c) :
    ∃ c', unreflectAll (unreflect pool fuel) j (ks.map fun (k : Nat) => (k : Int) - j) c =
        some (l.map Ref.forget, c') ∧ Part ctx c' ∧ (∀ r ∈ l, Has ctx c' r) ∧
        ∀ q, c q ≠ none → c' q = c q := by
  induction ks generalizing l c with
  | nil =>
    have : l = [] := by simpa using hl
    subst this
    exact ⟨c, by simp [unreflectAll], hc, by simp, fun _ _ => rfl⟩
  | cons k ks ih2 =>
    cases l with
    | nil => simp at hl
    | cons r l =>
      simp only [List.map_cons, List.cons.injEq] at hl
      have hkj := hks k (by simp)
      obtain ⟨c1, a1, a2, a3, a4⟩ := ih k hkj r hl.1 c hc
      obtain ⟨c2, b1, b2, b3, b4⟩ := ih2 l (fun k hk => hks k (by simp [hk])) hl.2 c1 a2
      refine ⟨c2, ?_, b2, ?_, ?_⟩
      · have hi : i32 ((j : Int) + ((k : Int) - j)) = k := by
          rw [show (j : Int) + ((k : Int) - j) = (k : Nat) by omega]
          exact i32_small k (by omega)
        simp only [List.map_cons, unreflectAll, hi, a1, b1]
      · intro x hx
        rcases List.mem_cons.1 hx with rfl | hx
        · intro q hq
          have h1 := a3 q hq
          cases hd : ctx q with
          | none =>
            rcases b2 q with h | h
            · rw [h]; rfl
            · rw [h, hd]
          | some d =>
            rw [b4 q (by rw [h1, hd]; simp), h1, hd]
        · exact b3 x hx
      · intro q hq
        have := a4 q hq
        rw [b4 q (by rw [this]; exact hq), this]

theorem unreflect_inv (ctx : Ctx) (s : RState) (rs : List Ref) (hi : RInv ctx s rs)
    (hn : ∀ r ∈ rs, NodeOK ctx r) (hlen : rs.length < 2 ^ 31) (j : Nat) :
    ∀ fuel, j < fuel → ∀ r, rs[j]? = some r → ∀ c, Part ctx c →
      ∃ c', unreflect s.pool fuel j c = some (r.forget, c') ∧ Part ctx c' ∧ Has ctx c' r ∧
        ∀ q, c q ≠ none → c' q = c q := by
  induction j using Nat.strongRecOn with
  | ind j ih =>
    intro fuel hf r hr c hc
    match fuel, hf with
    | fuel + 1, hf =>
      have hjl := lt_of_getElem? hr
      obtain ⟨ks, h1, h2, h3, h4⟩ := hi.desc j r hr
      obtain ⟨e, he⟩ := Option.isSome_iff_exists.1 h3
      rw [he] at h4
      have hkl : (ks.map fun k => i32 (k : Nat)).length = (kids ctx r).length := by
        have := congrArg List.length h2
        simpa using this
      have hek : e.kids = ks.map fun (k : Nat) => (k : Int) - j := by
        rw [entry_kids ctx r _ j e hkl he, map_relative ks j h1 (Nat.lt_trans hjl hlen)]
      obtain ⟨c1, a1, a2, a3, a4⟩ := unreflectAll_step ctx s.pool rs fuel j (Nat.lt_trans hjl hlen)
        (fun k hk r hr c hc => ih k hk fuel (by omega) r hr c hc) ks (kids ctx r) h1 h2 c hc
      have hb := build_entry ctx c1 r _ j e (hn r (List.mem_of_getElem? hr)) hkl he
      have hp : poolAt s.pool (j : Int) = some e := by simp [poolAt, h4]
      have hsame : ∀ q, c1 q ≠ none → remade ctx c1 r q = c1 q := by
        intro q hq
        cases r with
        | nom k =>
          simp only [remade]
          split
          · rename_i hqk
            subst hqk
            rcases a2 q with h | h
            · exact absurd h hq
            · exact h.symm
          · rfl
        | _ => rfl
      refine ⟨remade ctx c1 r, by simp only [unreflect, hp, hek, a1, hb], ?_, ?_, ?_⟩
      · intro q
        cases r with
        | nom k =>
          simp only [remade]
          split
          · rename_i hqk
            subst hqk; exact .inr rfl
          · exact a2 q
        | _ => exact a2 q
      · intro q hq
        rcases reach_nom hq with hq | ⟨x, hx, hq⟩
        · subst hq
          simp [remade]
        · have h5 := a3 x hx q hq
          cases hd : ctx q with
          | none =>
            have : remade ctx c1 r q = none ∨ remade ctx c1 r q = (ctx q).map Data.forget := by
              cases r with
              | nom k =>
                simp only [remade]
                split
                · rename_i hqk
                  subst hqk; exact .inr rfl
                · exact .inr h5
              | _ => exact .inr h5
            rcases this with h | h
            · rw [h]; rfl
            · rw [h, hd]
          | some d => rw [hsame q (by rw [h5, hd]; simp), h5, hd]
      · intro q hq
        have := a4 q hq
        rw [hsame q (by rw [this]; exact hq), this]

/-! ## `reflect` terminates -/

theorem entry_some (ctx : Ctx) (r : Ref) (is : List Int) (pos : Nat) (hn : NodeOK ctx r)
    (hl : is.length = (kids ctx r).length) : ∃ e, entry ctx r is pos = some e := by
  cases r with
  | int | unit | float => exact ⟨_, rfl⟩
  | array e n esz al =>
    match is, hl with
    | [i], _ => exact ⟨_, rfl⟩
  | vector e l =>
    match is, hl with
    | [i], _ => exact ⟨_, rfl⟩
  | nom k =>
    simp only [NodeOK] at hn
    simp only [entry]
    split at hn
    · rename_i hd; rw [hd]; exact ⟨_, rfl⟩
    · rename_i hd; rw [hd]; exact ⟨_, rfl⟩
    · rename_i hd; rw [hd]; exact ⟨_, rfl⟩
    · exact hn.elim

theorem reflectAll_total (ctx : Ctx) (l : List Ref)
    (h : ∀ c ∈ l, ∃ n, ∀ fuel, n ≤ fuel → ∀ s, ∃ o, reflect ctx fuel c s = some o) :
    ∃ n, ∀ fuel, n ≤ fuel → ∀ s, ∃ is s', reflectAll (reflect ctx fuel) l s = some (is, s') ∧
      is.length = l.length := by
  induction l with
  | nil => exact ⟨0, fun fuel _ s => ⟨[], s, by simp [reflectAll], rfl⟩⟩
  | cons r l ih =>
    obtain ⟨n1, h1⟩ := h r (by simp)
    obtain ⟨n2, h2⟩ := ih (fun c hc => h c (by simp [hc]))
    refine ⟨max n1 n2, fun fuel hf s => ?_⟩
    obtain ⟨⟨i, s1⟩, h3⟩ := h1 fuel (by omega) s
    obtain ⟨is, s2, h4, h5⟩ := h2 fuel (by omega) s1
    exact ⟨i :: is, s2, by simp [reflectAll, h3, h4], by simp [h5]⟩

theorem reflect_total (ctx : Ctx) (r : Ref) (wf : WFRef ctx r) :
    ∃ n, ∀ fuel, n ≤ fuel → ∀ s, ∃ o, reflect ctx fuel r s = some o := by
  induction wf with
  | mk r node _ ih =>
    obtain ⟨n, h⟩ := reflectAll_total ctx (kids ctx r) ih
    refine ⟨n + 1, fun fuel hf s => ?_⟩
    match fuel, hf with
    | fuel + 1, hf =>
      simp only [reflect]
      split
      · exact ⟨_, rfl⟩
      · obtain ⟨is, s', h1, h2⟩ := h fuel (by omega) s
        obtain ⟨e, he⟩ := entry_some ctx r is s'.pool.length node h2
        simp only [h1, he]
        exact ⟨_, rfl⟩

end PJ
