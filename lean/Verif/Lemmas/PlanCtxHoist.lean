import Verif.Lemmas.PlanCtxSplit
import Verif.Props.C24_Intern
/-!
# Hoisting vectors in a context
-/
namespace PJ

/-! ## Terms and their trees -/

/-- A term and the tree of its type. -/
abbrev TPair := TermD Ref Attr × Ty

def TPair.term (z : TPair) : Term := ⟨z.1.name, z.1.tag, z.1.attrs, z.2⟩

theorem treeTerms_pairs {step : Ref → Option Ty} : ∀ {ts : List (TermD Ref Attr)} {x : Terms},
    treeTerms step ts = some x → ∃ zs : List TPair, ts = zs.map (·.1) ∧ x.toList = zs.map TPair.term ∧
      ∀ z ∈ zs, step z.1.ty = some z.2
  | [], x, h => by
    simp only [treeTerms, Option.some.injEq] at h
    subst h
    exact ⟨[], rfl, rfl, by simp⟩
  | t :: ts, x, h => by
    obtain ⟨u, r, h1, h2, rfl⟩ := treeTerms_cons h
    obtain ⟨zs, e1, e2, e3⟩ := treeTerms_pairs h2
    refine ⟨(t, u) :: zs, by simp [e1], by simp [Terms.toList, e2, TPair.term], fun z hz => ?_⟩
    rcases List.mem_cons.1 hz with rfl | hz
    · exact h1
    · exact e3 z hz

theorem pairs_treeTerms {step : Ref → Option Ty} : ∀ {zs : List TPair}, (∀ z ∈ zs, step z.1.ty = some z.2) →
    treeTerms step (zs.map (·.1)) = some (Terms.ofList (zs.map TPair.term))
  | [], _ => rfl
  | z :: zs, h => by
    have hz := h z (by simp)
    have hr := pairs_treeTerms (step := step) (zs := zs) fun y hy => h y (by simp [hy])
    simp only [List.map_cons, treeTerms, hz, hr, Terms.ofList, TPair.term]

theorem sortTerms_map {β γ} (f : β → γ) (l : List ((Str × β) × Nat)) :
    sortTerms (l.map fun p => ((p.1.1, f p.1.2), p.2)) = (sortTerms l).map fun p => ((p.1.1, f p.1.2), p.2) := by
  have ins : ∀ (x : (Str × β) × Nat) (l : List ((Str × β) × Nat)),
      insertTerm ((x.1.1, f x.1.2), x.2) (l.map fun p => ((p.1.1, f p.1.2), p.2)) =
        (insertTerm x l).map fun p => ((p.1.1, f p.1.2), p.2) := by
    intro x l
    induction l with
    | nil => rfl
    | cons y ys ih =>
      simp only [List.map_cons, insertTerm]
      split
      · simp [ih]
      · rfl
  induction l with
  | nil => rfl
  | cons x xs ih => simp only [List.map_cons, sortTerms, ih, ins]

theorem internVariant_map {β γ} (u : β → Bool) (u' : γ → Bool) (f : β → γ) (l : List (Str × β)) (d : Nat) :
    (internVariant u' (l.map fun p => (p.1, f p.2)) d).1 = (internVariant u l d).1.map (fun p => (p.1, f p.2)) ∧
    (internVariant u' (l.map fun p => (p.1, f p.2)) d).2.1 = (internVariant u l d).2.1 := by
  have hz : (l.map fun p => (p.1, f p.2)).zipIdx = l.zipIdx.map fun p => ((p.1.1, f p.1.2), p.2) := by
    rw [List.zipIdx_map]
    rfl
  simp only [internVariant, hz, sortTerms_map, List.map_map, List.findIdx_map]
  exact ⟨rfl, rfl⟩

/-- Interning does the same to terms and trees of terms. -/
theorem intern_pairs (zs : List TPair) (d : Nat) (hd : d < zs.length) : ∃ (zi : List TPair) (di : Nat),
    internTermsD (zs.map (·.1)) d = (zi.map (·.1), di) ∧ internTerms (zs.map TPair.term) d = (zi.map TPair.term, di) ∧
      (∀ z ∈ zi, z ∈ zs) ∧ Interned (zi.map (·.1)) di := by
  let l : List (Str × TPair) := zs.map fun z => (nameBytes z.1.name, z)
  let r := internVariant (fun _ : TPair => false) l d
  have h1 := internVariant_map (fun _ : TPair => false) (fun _ : TermD Ref Attr => false) (fun z => z.1) l d
  have h2 := internVariant_map (fun _ : TPair => false) (fun t : Term => t.ty.size == 0) TPair.term l d
  have e1 : (l.map fun p => (p.1, p.2.1)) = (zs.map (·.1)).map fun t => (t.name.map Char.toNat, t) := by
    simp [l, nameBytes]
  have e2 : (l.map fun p => (p.1, TPair.term p.2)) = (zs.map TPair.term).map fun t => (nameBytes t.name, t) := by
    simp [l, TPair.term]
  rw [e1] at h1
  rw [e2] at h2
  have hs := C24_sorted (fun _ : TPair => false) l d
  have hdf := C24_default (fun _ : TPair => false) l d (by simpa [l] using hd)
  have hmem : ∀ p ∈ r.1, p.1 = nameBytes p.2.1.name ∧ p.2 ∈ zs := fun p hp => by
    have := (hs.1.mem_iff).1 hp
    obtain ⟨z, hz, rfl⟩ := List.mem_map.1 this
    exact ⟨rfl, hz⟩
  refine ⟨r.1.map (·.2), r.2.1, ?_, ?_, ?_, ?_, ?_⟩
  · simp only [internTermsD]
    rw [h1.1, h1.2]
    simp [r]
  · simp only [internTerms]
    rw [h2.1, h2.2]
    simp [r]
  · intro z hz
    obtain ⟨p, hp, rfl⟩ := List.mem_map.1 hz
    exact (hmem p hp).2
  · rw [List.map_map, List.pairwise_map]
    refine (List.Pairwise.imp_of_mem ?_ hs.2)
    intro a b ha hb h
    rw [(hmem a ha).1, (hmem b hb).1] at h
    exact h
  · have : r.2.1 < r.1.length := by
      apply Decidable.byContradiction
      intro hn
      have h3 : r.1[r.2.1]? = none := List.getElem?_eq_none (by omega)
      have h4 : l[d]? = none := hdf.symm.trans h3
      have : d < l.length := by simpa [l] using hd
      rw [List.getElem?_eq_getElem this] at h4
      cases h4
    simpa using this

/-- Terms of a live set with their trees. -/
def TermsOK (ctx : Ctx) (L : Key → Prop) (m : Nat) (zs : List TPair) : Prop :=
  ∀ z ∈ zs, RefIn ctx L z.1.ty ∧ tree ctx m z.1.ty = some z.2 ∧ Nodes ctx m z.1.ty

theorem TermsOK.mono {ctx ctx' : Ctx} {L L' : Key → Prop} {m : Nat} {zs : List TPair} (h : TermsOK ctx L m zs)
    (e : ∀ q, L q → ctx' q = ctx q) (hl : ∀ q, L q → L' q) : TermsOK ctx' L' m zs := fun z hz => by
  obtain ⟨h1, h2, h3⟩ := h z hz
  exact ⟨h1.mono e hl, by rw [h1.tree e]; exact h2, h1.nodes e h3⟩

theorem Live.agree {addr : Ref → Comp} {ctx ctx' : Ctx} {L : Key → Prop} (h : Live addr ctx L)
    (e : ∀ q, L q → ctx' q = ctx q) : Live addr ctx' L := by
  refine ⟨fun k hk => (h.closed k hk).mono e fun _ h => h, h.name, fun k r hks hn hq => ?_⟩
  obtain ⟨g1, fs', sz', al', i', e1, e2, e3⟩ := h.gen k r hks hn hq
  exact ⟨g1, fs', sz', al', i', by rw [e k g1]; exact e1, e2.mono (fun f hf =>
    (h.closed k g1).kid (by simp only [kids, e1]; exact List.mem_map_of_mem (f := (·.ty)) hf)) e,
    by rw [e _ hq]; exact e3⟩

theorem splitTerms_spec {addr : Ref → Comp} (hinj : AddrInj addr) (m n tag : Nat) (ctx : Ctx) (L : Key → Prop)
    (hmn : m ≤ n) (hl : Live addr ctx L) : ∀ (zs : List TPair), TermsOK ctx L m zs →
    match splitTerms tag (zs.map TPair.term) with
    | none => splitTermsC (splitC addr n ctx) tag (zs.map (·.1)) = none
    | some (l, s) => ∃ zl z0 ctx' L', splitTermsC (splitC addr n ctx) tag (zs.map (·.1)) = some (zl.map (·.1), z0.1, ctx') ∧
        l = zl.map TPair.term ∧ s = TPair.term z0 ∧ Live addr ctx' L' ∧ (∀ q, L q → L' q) ∧ (∀ q, L q → ctx' q = ctx q) ∧
        (∀ q, L' q → L q ∨ IsSplit addr q) ∧ (∀ q, ctx' q ≠ ctx q → IsSplit addr q) ∧ TermsOK ctx' L' m (zl ++ [z0])
  | [], _ => by simp [splitTerms, splitTermsC]
  | z :: zs, h => by
    obtain ⟨g1, g2, g3⟩ := h z (by simp)
    have hz := splitC_spec hinj m n ctx L z.1.ty z.2 hmn hl g1 g2 g3
    have hr := splitTerms_spec hinj m n tag ctx L hmn hl zs fun z hz => h z (by simp [hz])
    simp only [List.map_cons, splitTerms, splitTermsC]
    rw [show (TPair.term z).ty = z.2 from rfl]
    cases hs : splitFirst z.2 with
    | some s =>
      rw [hs] at hz
      obtain ⟨sc, ctx', L', e1, e2⟩ := hz
      simp only [e1]
      refine ⟨({ z.1 with ty := sc.long, attrs := z.1.attrs ++ [.split false sc.len sc.path] }, s.long) :: zs,
        ({ z.1 with ty := sc.short, tag := tag, attrs := z.1.attrs ++ [.split true sc.len sc.path] }, s.short),
        ctx', L', rfl, ?_, ?_, e2.live, e2.sub, e2.ext, e2.new, e2.frame, ?_⟩
      · simp [TPair.term, e2.len, e2.path]
      · simp [TPair.term, e2.len, e2.path]
      · intro y hy
        simp only [List.cons_append, List.mem_cons, List.mem_append, List.not_mem_nil, or_false] at hy
        rcases hy with rfl | hy | rfl
        · exact e2.long
        · exact (TermsOK.mono (fun z hz => h z (by simp [hz])) e2.ext e2.sub) y hy
        · exact e2.short
    | none =>
      rw [hs] at hz
      simp only at hz
      simp only [hz]
      cases ht : splitTerms tag (zs.map TPair.term) with
      | none => rw [ht] at hr; simp only at hr; simp [hr]
      | some y =>
        obtain ⟨l, s⟩ := y
        rw [ht] at hr
        obtain ⟨zl, z0, ctx', L', e1, e2, e3, e4, e5, e6, e7, e8, e9⟩ := hr
        simp only [e1]
        refine ⟨z :: zl, z0, ctx', L', rfl, by simp [e2], e3, e4, e5, e6, e7, e8, ?_⟩
        intro y hy
        rcases List.mem_cons.1 hy with rfl | hy
        · exact (TermsOK.mono (zs := [y]) (fun z hz => h z (by simp at hz; simp [hz])) e6 e5) y (by simp)
        · exact e9 y hy

/-! ## Rounds -/

/-- One of the two kinds of variants. -/
structure VarMk (mk : List (TermD Ref Attr) → Nat → Data) (l : VarL) : Prop where
  once : ∀ addr n (ctx : Ctx) v ts d, ctx v = some (mk ts d) → hoistOnceC addr n ctx v =
    (splitTermsC (splitC addr n ctx) (freeTag (ts.map (·.tag))) ts).map fun x => setTypeData x.2.2 v (mk (x.1 ++ [x.2.1]) d)
  set : ∀ ctx v ts d, setTypeData ctx v (mk ts d) v = some (mk (internTermsD ts d).1 (internTermsD ts d).2)
  tree : ∀ step ts d, treeData step (mk ts d) = (treeTerms step ts).map fun x => .variant x { l with dflt := d }
  kids : ∀ ts d, (mk ts d).kids = ts.map (·.ty)
  kind : ∀ ts d ts' d', (mk ts d).kind = (mk ts' d').kind
  interned : ∀ ts d, (mk ts d).interned ↔ Interned ts d

theorem varMk_inl (d : InlD) : VarMk (fun ts k => .inl ts { d with dflt := k }) d.l := by
  refine ⟨fun addr n ctx v ts d h => ?_, fun ctx v ts d => ?_, fun step ts d => rfl, fun ts d => rfl, fun _ _ _ _ => rfl,
    fun _ _ => Iff.rfl⟩
  · simp only [hoistOnceC, h]
    cases splitTermsC (splitC addr n ctx) (freeTag (ts.map (·.tag))) ts <;> rfl
  · simp [setTypeData]

theorem varMk_out (d : OutD) : VarMk (fun ts k => .out ts { d with dflt := k }) d.l := by
  refine ⟨fun addr n ctx v ts d h => ?_, fun ctx v ts d => ?_, fun step ts d => rfl, fun ts d => rfl, fun _ _ _ _ => rfl,
    fun _ _ => Iff.rfl⟩
  · simp only [hoistOnceC, h]
    cases splitTermsC (splitC addr n ctx) (freeTag (ts.map (·.tag))) ts <;> rfl
  · simp [setTypeData]

theorem hoist_step (x y : List Term × Nat) (h : hoistOnce x = some y) : hoist x = hoist y := by
  obtain ⟨s⟩ := hoistOnce_step h
  have hr := s.rounds
  rw [← hoistN_stable (rounds x.1 + 1) x (by omega)]
  simp only [hoistN, h]
  exact hoistN_stable _ y (by omega)

theorem hoist_stop (x : List Term × Nat) (h : hoistOnce x = none) : hoist x = x := by
  rw [← hoistN_stable (rounds x.1 + 1) x (by omega)]
  simp only [hoistN, h]

theorem isSplit_kind {addr : Ref → Comp} {q : Key} (h : IsSplit addr q) : q.kind = .struct := by
  obtain ⟨k, r, -, rfl⟩ := h
  rfl

theorem hoistLoop_spec {addr : Ref → Comp} (hinj : AddrInj addr) {mk : List (TermD Ref Attr) → Nat → Data} {l : VarL}
    (hmk : VarMk mk l) (m n : Nat) (hmn : m ≤ n) (v : Key) (hv : v.kind ≠ .struct) :
    ∀ (j : Nat) (ctx : Ctx) (L : Key → Prop) (zs : List TPair) (d : Nat), rounds (zs.map TPair.term) < j →
    Live addr ctx L → ¬ L v → ctx v = some (mk (zs.map (·.1)) d) → Interned (zs.map (·.1)) d → TermsOK ctx L m zs →
    ∃ (ctx' : Ctx) (zs' : List TPair) (d' : Nat), hoistLoopC addr n j ctx v = some ctx' ∧ ctx' v = some (mk (zs'.map (·.1)) d') ∧
      (zs'.map TPair.term, d') = hoist (zs.map TPair.term, d) ∧ Interned (zs'.map (·.1)) d' ∧
      (∀ z ∈ zs', tree ctx' m z.1.ty = some z.2 ∧ Nodes ctx' m z.1.ty) ∧
      ∀ q, ctx' q ≠ ctx q → q = v ∨ IsSplit addr q
  | 0, _, _, _, _, h, _, _, _, _, _ => by omega
  | j + 1, ctx, L, zs, d, hj, hl, hLv, hc, hint, ht => by
    have hst := splitTerms_spec hinj m n (freeTag ((zs.map TPair.term).map (·.tag))) ctx L hmn hl zs ht
    have htags : (zs.map (·.1)).map (·.tag) = (zs.map TPair.term).map (·.tag) := by simp [TPair.term]
    have ho := hmk.once addr n ctx v _ _ hc
    rw [htags] at ho
    simp only [hoistLoopC]
    cases hs : splitTerms (freeTag ((zs.map TPair.term).map (·.tag))) (zs.map TPair.term) with
    | none =>
      rw [hs] at hst
      simp only at hst
      rw [hst] at ho
      simp only [Option.map_none] at ho
      simp only [ho]
      have : hoistOnce (zs.map TPair.term, d) = none := by simp only [hoistOnce, hs]
      exact ⟨ctx, zs, d, rfl, hc, (hoist_stop _ this).symm, hint, fun z hz => (ht z hz).2, fun q hq => absurd rfl hq⟩
    | some y =>
      obtain ⟨tl, s⟩ := y
      rw [hs] at hst
      obtain ⟨zl, z0, ctx1, L1, e1, rfl, rfl, e4, e5, e6, e7, e8, e9⟩ := hst
      rw [e1] at ho
      simp only [Option.map_some] at ho
      have hlen : d < (zl ++ [z0]).length := by
        obtain ⟨pre, t, post, sp, g1, _, g2, _⟩ := splitTerms_some hs
        have h1 := congrArg List.length g1
        have h2 := congrArg List.length g2
        have h3 := hint.2
        simp only [List.length_map, List.length_append, List.length_cons] at h1 h2 h3 ⊢
        omega
      obtain ⟨zi, di, i1, i2, i3, i4⟩ := intern_pairs (zl ++ [z0]) d hlen
      have hD : zl.map (·.1) ++ [z0.1] = (zl ++ [z0]).map (·.1) := by simp
      rw [hD] at ho
      have hL1v : ¬ L1 v := fun h => by
        rcases e7 v h with h | h
        · exact hLv h
        · exact hv (isSplit_kind h)
      generalize hC : setTypeData ctx1 v (mk ((zl ++ [z0]).map (·.1)) d) = ctx2 at ho
      have hself : ctx2 v = some (mk (zi.map (·.1)) di) := by
        subst hC
        rw [hmk.set, i1]
      have hne : ∀ q, q ≠ v → ctx2 q = ctx1 q := fun q hq => by subst hC; exact setTypeData_ne hq
      have hagree : ∀ q, L1 q → ctx2 q = ctx1 q := fun q hq => hne q fun e => hL1v (e ▸ hq)
      have honce : hoistOnce (zs.map TPair.term, d) = some (zi.map TPair.term, di) := by
        simp only [hoistOnce, hs]
        rw [← i2]
        simp
      have hrd : rounds (zi.map TPair.term) < j := by
        obtain ⟨st⟩ := hoistOnce_step honce
        have := st.rounds
        simp only at this
        omega
      obtain ⟨ctx', zs', d', f1, f2, f3, f4, f5, f6⟩ := hoistLoop_spec hinj hmk m n hmn v hv j ctx2 L1 zi di hrd
        (e4.agree hagree) hL1v hself i4 ((TermsOK.mono (fun z hz => e9 z (i3 z hz)) hagree fun _ h => h))
      simp only [ho]
      refine ⟨ctx', zs', d', f1, f2, by rw [f3, hoist_step _ _ honce], f4, f5, fun q hq => ?_⟩
      by_cases h1 : ctx' q = ctx2 q
      · by_cases h2 : q = v
        · exact Or.inl h2
        · exact Or.inr (e8 q (by rw [← hne q h2, ← h1]; exact hq))
      · exact f6 q h1

/-! ## The first variant -/

mutual
/-- The number of rounds for the first variant. -/
def hoistRounds : Ty → Option Nat
  | .variant ts _ => some (rounds ts.toList)
  | .struct fs _ _ => hoistRoundsFields fs
  | _ => none
def hoistRoundsFields : Fields → Option Nat
  | .nil => none
  | .cons _ _ t r =>
    match hoistRounds t with
    | some k => some k
    | none => hoistRoundsFields r
end

/-- What there is to know about the first variant. -/
structure FirstVar (ctx : Ctx) (n : Nat) (r : Ref) (t : Ty) (v : Key) (m : Nat) (tv : Ty) : Prop where
  lt : m < n
  kind : v.kind ≠ .struct
  tree : tree ctx (m + 1) (.nom v) = some tv
  nodes : Nodes ctx (m + 1) (.nom v)
  uses : ∀ q, uses ctx (m + 1) q (.nom v) ≤ uses ctx n q r
  rounds : hoistRounds t = hoistRounds tv
  after : ∀ ctx' tv', (∀ q, q ≠ v → PJ.uses ctx n q r ≠ 0 → ctx' q = ctx q) →
    (PJ.uses ctx n v r ≤ 1 ∨ ctx' v = ctx v) → PJ.tree ctx' (m + 1) (.nom v) = some tv' → Nodes ctx' (m + 1) (.nom v) →
    findHoist tv = some tv' → ∃ t', findHoist t = some t' ∧ PJ.tree ctx' n r = some t' ∧ Nodes ctx' n r

theorem firstFields_spec (ctx : Ctx) (n : Nat) : ∀ (fs : List (FieldD Ref)) (tfs : Fields),
    treeFields (tree ctx n) fs = some tfs →
    (∀ f ∈ fs, ∀ u, tree ctx n f.ty = some u →
      match firstVariant n ctx f.ty with
      | none => findHoist u = none ∧ hoistRounds u = none
      | some v => ∃ m tv, FirstVar ctx n f.ty u v m tv) →
    match fs.findSome? fun f => firstVariant n ctx f.ty with
    | none => findHoistFields tfs = none ∧ hoistRoundsFields tfs = none
    | some v => ∃ pre f post u m tv, fs = pre ++ f :: post ∧ FirstVar ctx n f.ty u v m tv ∧
        hoistRoundsFields tfs = hoistRounds u ∧
        ∀ (step' : Ref → Option Ty) (u' : Ty), findHoist u = some u' → step' f.ty = some u' →
          (∀ g ∈ pre ++ post, step' g.ty = tree ctx n g.ty) →
          ∃ tfs', findHoistFields tfs = some tfs' ∧ treeFields step' fs = some tfs'
  | [], tfs, h, _ => by
    simp only [treeFields, Option.some.injEq] at h
    subst h
    exact ⟨rfl, rfl⟩
  | f :: fs, tfs, h, ih => by
    obtain ⟨t, r, h1, h2, rfl⟩ := treeFields_cons h
    have hf := ih f (by simp) t h1
    have hr := firstFields_spec ctx n fs r h2 fun g hg => ih g (by simp [hg])
    simp only [List.findSome?_cons, findHoistFields, hoistRoundsFields]
    cases hv : firstVariant n ctx f.ty with
    | some v =>
      rw [hv] at hf
      obtain ⟨m, tv, g⟩ := hf
      refine ⟨[], f, fs, t, m, tv, rfl, g, ?_, fun step' u' e1 e2 e3 => ?_⟩
      · rw [g.rounds]
        have : ∃ k, hoistRounds tv = some k := by
          have ht := g.tree
          obtain ⟨d, hd, hkd, -⟩ := NodeOK_nom.1 g.nodes.1
          rw [tree_nom, hd] at ht
          simp only [Option.bind_some] at ht
          cases d with
          | struct => exact absurd hkd.symm g.kind
          | inl | out =>
            simp only [treeData, Option.map_eq_some_iff] at ht
            obtain ⟨x, -, rfl⟩ := ht
            exact ⟨_, rfl⟩
        obtain ⟨k, hk⟩ := this
        simp [hk]
      · have : treeFields step' fs = treeFields (tree ctx n) fs := treeFields_congr fun g hg => e3 g (by simpa using hg)
        simp only [e1]
        exact ⟨_, rfl, by simp [treeFields, e2, this, h2]⟩
    | none =>
      rw [hv] at hf
      simp only at hf
      simp only [hf.1, hf.2]
      cases hx : fs.findSome? fun f => firstVariant n ctx f.ty with
      | none =>
        rw [hx] at hr
        simp only at hr
        simp [hr.1, hr.2]
      | some v =>
        rw [hx] at hr
        obtain ⟨pre, g, post, u, m, tv, e0, e1, e2, e3⟩ := hr
        refine ⟨f :: pre, g, post, u, m, tv, by rw [e0]; rfl, e1, e2, fun step' u' s1 s2 s3 => ?_⟩
        obtain ⟨tfs', a1, a2⟩ := e3 step' u' s1 s2 fun g hg => s3 g (by simpa using Or.inr (by simpa using hg))
        have hs : step' f.ty = some t := by rw [s3 f (by simp), h1]
        exact ⟨_, by rw [a1], by simp only [treeFields, hs, a2]⟩

theorem firstVariant_spec : ∀ (n : Nat) (ctx : Ctx) (r : Ref) (t : Ty), tree ctx n r = some t → Nodes ctx n r →
    match firstVariant n ctx r with
    | none => findHoist t = none ∧ hoistRounds t = none
    | some v => ∃ m tv, FirstVar ctx n r t v m tv
  | 0, _, _, _, h, _ => by simp [tree] at h
  | n + 1, ctx, r, t, h, hn => by
    cases r with
    | int | float | unit =>
      simp only [tree, Option.some.injEq] at h
      subst h
      exact ⟨rfl, rfl⟩
    | array | vector =>
      simp only [tree, Option.map_eq_some_iff] at h
      obtain ⟨u, -, rfl⟩ := h
      exact ⟨rfl, rfl⟩
    | nom key =>
      obtain ⟨d, hd, hkd, hint⟩ := NodeOK_nom.1 hn.1
      have h0 := h
      rw [tree_nom, hd] at h
      simp only [Option.bind_some] at h
      simp only [firstVariant, hd]
      have hkids : kids ctx (.nom key) = d.kids := by simp only [kids, hd]
      cases d with
      | inl | out =>
        simp only
        refine ⟨n, t, by omega, by rw [← hkd]; simp [Data.kind], h0, hn, fun q => Nat.le_refl _, rfl,
          fun ctx' tv' _ _ g1 g2 g3 => ⟨tv', g3, g1, g2⟩⟩
      | struct fs sz al =>
        simp only [treeData, Option.map_eq_some_iff] at h
        obtain ⟨x, hx, rfl⟩ := h
        have hmem : ∀ f ∈ fs, f.ty ∈ kids ctx (.nom key) := fun f hf => by
          rw [hkids]; exact List.mem_map_of_mem (f := (·.ty)) hf
        have key0 := firstFields_spec ctx n fs x hx fun f hf u hu =>
          firstVariant_spec n ctx f.ty u hu (hn.2 _ (hmem f hf))
        simp only [findHoist, hoistRounds]
        cases hv : fs.findSome? fun f => firstVariant n ctx f.ty with
        | none =>
          rw [hv] at key0
          simp only at key0
          simp [key0.1, key0.2]
        | some v =>
          rw [hv] at key0
          obtain ⟨pre, f, post, u, m, tv, e0, e1, e2, e3⟩ := key0
          have hfm : f ∈ fs := by rw [e0]; simp
          have hsub : ∀ g ∈ pre ++ post, g ∈ fs := fun g hg => by rw [e0]; simp at hg ⊢; grind
          refine ⟨m, tv, by have := e1.lt; omega, e1.kind, e1.tree, e1.nodes,
            fun q => Nat.le_trans (e1.uses q) (uses_kid (hmem f hfm)), by rw [hoistRounds, e2, e1.rounds],
            fun ctx' tv' a1 a2 a3 a4 a5 => ?_⟩
          have hvu : PJ.uses ctx n v f.ty ≠ 0 := by
            have := e1.uses v
            have : PJ.uses ctx (m + 1) v (.nom v) ≠ 0 := uses_self
            omega
          have hside : ∀ g ∈ pre ++ post, ∀ q, PJ.uses ctx n q g.ty ≠ 0 → ctx' q = ctx q := by
            intro g hg q hq
            by_cases e : q = v
            · rcases a2 with a2 | a2
              · exfalso
                subst e
                have h1 : PJ.uses ctx (n + 1) q (.nom key) =
                    (if key = q then 1 else 0) + (fs.map fun f => PJ.uses ctx n q f.ty).sum := by
                  simp only [PJ.uses, hkids, Data.kids, List.map_map, Ref.nom.injEq]
                  rfl
                have h2 : (fs.map fun f => PJ.uses ctx n q f.ty).sum =
                    PJ.uses ctx n q f.ty + ((pre ++ post).map fun f => PJ.uses ctx n q f.ty).sum := by
                  rw [e0]
                  simp only [List.map_append, List.map_cons, List.sum_append, List.sum_cons]
                  omega
                have h3 := le_sum_map (f := fun f : FieldD Ref => PJ.uses ctx n q f.ty) hg
                omega
              · rw [e]; exact a2
            · exact a1 q e (uses_kid_ne (hmem g (hsub g hg)) hq)
          obtain ⟨u', b1, b2, b3⟩ := e1.after ctx' tv' (fun q hq hu => a1 q hq (uses_kid_ne (hmem f hfm) hu))
            (a2.imp (fun a => Nat.le_trans (uses_kid (hmem f hfm)) a) id) a3 a4 a5
          obtain ⟨x', c1, c2⟩ := e3 (PJ.tree ctx' n) u' b1 b2 fun g hg => tree_agree n g.ty (hside g hg)
          have hkey : ctx' key = ctx key := a1 key (fun e => e1.kind (by rw [← e, ← hkd]; rfl)) uses_self
          refine ⟨.struct x' sz al, by simp only [findHoist, c1], ?_, ⟨NodeOK_nom.2 ⟨_, hkey.trans hd, hkd, trivial⟩, fun c hc => ?_⟩⟩
          · rw [tree_nom, hkey, hd]
            simp only [Option.bind_some, treeData, c2, Option.map_some]
          · simp only [kids, hkey, hd, Data.kids] at hc
            obtain ⟨g, hg, rfl⟩ := List.mem_map.1 hc
            by_cases hgf : g ∈ pre ++ post
            · exact nodes_agree n _ (hside g hgf) (hn.2 _ (hmem g hg))
            · have : g = f := by rw [e0] at hg; simp at hg hgf; grind
              rw [this]; exact b3

theorem hoistC_spec {addr : Ref → Comp} (hinj : AddrInj addr) (n : Nat) (ctx : Ctx) (r : Ref) (t : Ty)
    (h : tree ctx n r = some t) (hn : Nodes ctx n r)
    (hnames : ∀ q, uses ctx n q r ≠ 0 → q.kind = .struct → q.name ≠ [] ∧ ¬ IsSplit addr q)
    (hfirst : ∀ v, firstVariant n ctx r = some v → uses ctx n v r ≤ 1 ∨
      ∀ m ts l, tree ctx m (.nom v) = some (.variant ts l) → hoistOnce (ts.toList, l.dflt) = none)
    (hr : ∀ k, hoistRounds t = some k → k < n) :
    ∃ ctx', hoistC addr n ctx r = some ctx' ∧ tree ctx' n r = some ((findHoist t).getD t) ∧ Nodes ctx' n r := by
  have hs := firstVariant_spec n ctx r t h hn
  simp only [hoistC]
  cases hv : firstVariant n ctx r with
  | none =>
    rw [hv] at hs
    simp only at hs
    exact ⟨ctx, rfl, by rw [hs.1]; exact h, hn⟩
  | some v =>
    rw [hv] at hs
    obtain ⟨m, tv, f⟩ := hs
    simp only
    -- the variant
    have : ∃ mk l ts d, VarMk mk l ∧ ctx v = some (mk ts d) ∧ (mk ts d).kind = v.kind ∧ Interned ts d := by
      obtain ⟨d, hd, hkd, hint⟩ := NodeOK_nom.1 f.nodes.1
      cases d with
      | struct => exact absurd hkd.symm f.kind
      | inl ts d => exact ⟨_, _, ts, d.dflt, varMk_inl d, hd, hkd, hint⟩
      | out ts d => exact ⟨_, _, ts, d.dflt, varMk_out d, hd, hkd, hint⟩
    obtain ⟨mk, l, ts, d, hmk, hd, hkd, hint⟩ := this
    have htv := f.tree
    rw [tree_nom, hd] at htv
    simp only [Option.bind_some, hmk.tree, Option.map_eq_some_iff] at htv
    obtain ⟨x, hx, rfl⟩ := htv
    obtain ⟨zs, rfl, hxz, hzs⟩ := treeTerms_pairs hx
    have hk : kids ctx (.nom v) = (zs.map (·.1)).map (·.ty) := by simp only [kids, hd, hmk.kids]
    have hwf : WFRef ctx (.nom v) := f.nodes.wf f.tree
    let L : Key → Prop := fun q => ∃ c ∈ kids ctx (.nom v), Reach ctx c (.nom q)
    have hLu : ∀ q, L q → uses ctx n q r ≠ 0 := by
      rintro q ⟨c, hc, hq⟩
      have h1 := reach_uses (.step hc hq) rfl f.tree
      have h2 := f.uses q
      omega
    have hlive : Live addr ctx L := by
      refine ⟨fun k ⟨c, hc, hk⟩ q hq => ⟨c, hc, hk.trans hq⟩, fun k hk hks => (hnames k (hLu k hk) hks).1,
        fun k q hks hn hq => ?_⟩
      exact absurd ⟨k, q, hn, rfl⟩ (hnames _ (hLu _ hq) rfl).2
    have hLv : ¬ L v := fun ⟨c, hc, hq⟩ => hwf.acyclic c hc hq
    have hterms : TermsOK ctx L m zs := fun z hz => by
      have hc : z.1.ty ∈ kids ctx (.nom v) := by rw [hk]; simp only [List.map_map]; exact List.mem_map_of_mem (f := (·.ty) ∘ (·.1)) hz
      exact ⟨fun q hq => ⟨_, hc, hq⟩, hzs z hz, f.nodes.2 _ hc⟩
    have hrounds : rounds (zs.map TPair.term) < n := hr _ (by rw [f.rounds, hoistRounds, hxz])
    obtain ⟨ctx', zs', d', a1, a2, a3, a4, a5, a6⟩ := hoistLoop_spec hinj hmk m n (by have := f.lt; omega) v f.kind n ctx L
      zs d hrounds hlive hLv hd hint hterms
    refine ⟨ctx', a1, ?_⟩
    have htree' : tree ctx' (m + 1) (.nom v) = some (.variant (Terms.ofList (zs'.map TPair.term)) { l with dflt := d' }) := by
      rw [tree_nom, a2]
      simp only [Option.bind_some, hmk.tree]
      rw [pairs_treeTerms fun z hz => (a5 z hz).1]
      rfl
    have hnodes' : Nodes ctx' (m + 1) (.nom v) := by
      refine ⟨NodeOK_nom.2 ⟨_, a2, (hmk.kind _ _ _ _).trans hkd, (hmk.interned _ _).2 a4⟩, fun c hc => ?_⟩
      simp only [kids, a2, hmk.kids, List.map_map] at hc
      obtain ⟨z, hz, rfl⟩ := List.mem_map.1 hc
      exact (a5 z hz).2
    have hfh : findHoist (.variant x { l with dflt := d }) =
        some (.variant (Terms.ofList (zs'.map TPair.term)) { l with dflt := d' }) := by
      simp only [findHoist, hxz, ← a3]
    have hframe : ∀ q, q ≠ v → uses ctx n q r ≠ 0 → ctx' q = ctx q := fun q hq hu => by
      apply Decidable.byContradiction
      intro hne
      rcases a6 q hne with h | h
      · exact hq h
      · exact (hnames q hu (isSplit_kind h)).2 h
    have hor : uses ctx n v r ≤ 1 ∨ ctx' v = ctx v := by
      rcases hfirst v hv with h1 | h1
      · exact Or.inl h1
      · right
        have h2 := h1 _ _ _ f.tree
        rw [hxz] at h2
        have hst := splitTerms_spec hinj m n (freeTag ((zs.map TPair.term).map (·.tag))) ctx L
          (by have := f.lt; omega) hlive zs hterms
        have h3 : splitTerms (freeTag ((zs.map TPair.term).map (·.tag))) (zs.map TPair.term) = none := by
          simp only [hoistOnce] at h2
          split at h2
          · cases h2
          · rename_i h3; exact h3
        rw [h3] at hst
        simp only at hst
        have ho := hmk.once addr n ctx v _ _ hd
        have htags : (zs.map (·.1)).map (·.tag) = (zs.map TPair.term).map (·.tag) := by simp [TPair.term]
        rw [htags, hst] at ho
        simp only [Option.map_none] at ho
        have hn1 : n = (n - 1) + 1 := by have := f.lt; omega
        rw [hn1] at a1
        simp only [hoistLoopC] at a1
        rw [← hn1, ho] at a1
        simp only [Option.some.injEq] at a1
        rw [← a1]
    obtain ⟨t', b1, b2, b3⟩ := f.after ctx' _ hframe hor htree' hnodes' hfh
    exact ⟨by rw [b1]; exact b2, b3⟩

end PJ
