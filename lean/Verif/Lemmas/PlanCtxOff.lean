import Verif.Lemmas.PlanCtxLayout
import Verif.Lemmas.PlanOut
/-!
# The offset of the outlined terms in a context
-/
namespace PJ

theorem hasOutC_spec {ctx : Ctx} : ∀ {n : Nat} {r : Ref} {t : Ty}, tree ctx n r = some t → hasOutC n ctx r = t.hasOut
  | 0, _, _, h => by simp [tree] at h
  | n + 1, r, t, h => by
    cases r with
    | int | float | unit =>
      simp only [tree, Option.some.injEq] at h
      subst h
      rfl
    | array | vector =>
      simp only [tree, Option.map_eq_some_iff] at h
      obtain ⟨u, hu, rfl⟩ := h
      rfl
    | nom k =>
      rw [tree_nom] at h
      simp only [hasOutC]
      cases hd : ctx k with
      | none => rw [hd] at h; cases h
      | some d =>
        rw [hd] at h
        simp only [Option.bind_some] at h
        cases d with
        | struct fs sz al =>
          simp only [treeData, Option.map_eq_some_iff] at h
          obtain ⟨x, hx, rfl⟩ := h
          have : ∀ (fs : List (FieldD Ref)) (x : Fields), treeFields (tree ctx n) fs = some x →
              (fs.any fun f => hasOutC n ctx f.ty) = x.hasOut := by
            intro fs
            induction fs with
            | nil =>
              intro x hx
              simp only [treeFields, Option.some.injEq] at hx
              subst hx
              rfl
            | cons f fs ih =>
              intro x hx
              obtain ⟨t, r, h1, h2, rfl⟩ := treeFields_cons hx
              simp only [List.any_cons, ih r h2, hasOutC_spec h1, Fields.hasOut]
          exact this fs x hx
        | inl ts d =>
          simp only [treeData, Option.map_eq_some_iff] at h
          obtain ⟨x, hx, rfl⟩ := h
          rfl
        | out ts d =>
          simp only [treeData, Option.map_eq_some_iff] at h
          obtain ⟨x, hx, rfl⟩ := h
          rfl

/-- Nothing to do in a type without an outline variant. -/
theorem runOff_none {n : Nat} {r : Ref} {t : Ty} {s : OffState} (h : tree s.wire n r = some t) (ho : t.hasOut = false) :
    runOff n r s = s := by
  cases n with
  | zero => simp [tree] at h
  | succ n =>
    have hh := hasOutC_spec h
    cases r with
    | nom k =>
      simp only [runOff]
      rw [ho] at hh
      cases hd : s.wire k with
      | none => rfl
      | some d =>
        cases d with
        | struct => simp [hh]
        | inl => rfl
        | out => simp only [hasOutC, hd] at hh; cases hh
    | _ => rfl

theorem offFields_none {n : Nat} {s : OffState} : ∀ {fs : List (FieldD Ref)} {x : Fields} {reached : Bool} {off : Nat},
    treeFields (tree s.wire n) fs = some x → x.hasOut = false →
    offFields (runOff n) fs s reached off = (s, if !reached && s.outline.isSome then x.nextOff off else off)
  | [], x, reached, off, h, _ => by
    simp only [treeFields, Option.some.injEq] at h
    subst h
    simp [offFields, Fields.nextOff]
  | f :: fs, x, reached, off, h, ho => by
    obtain ⟨t, r, h1, h2, rfl⟩ := treeFields_cons h
    simp only [Fields.hasOut, Bool.or_eq_false_iff] at ho
    simp only [offFields, runOff_none h1 ho.1]
    split
    · rw [offFields_none h2 ho.2]
      simp [Fields.nextOff]
    · rename_i hc
      rw [offFields_none h2 ho.2]
      simp [hc]

/-- The types with another `term_offset` of an outline variant. -/
def putOff (wire : Ctx) (o : Key) (D : Nat) : Ctx := fun q =>
  if q = o then
    match wire o with
    | some (.out ts d) => some (.out ts { d with termOff := D })
    | x => x
  else wire q

theorem putOff_ne {wire : Ctx} {o q : Key} {D : Nat} (h : q ≠ o) : putOff wire o D q = wire q := by simp [putOff, h]

theorem putOff_self {wire : Ctx} {o : Key} {D : Nat} {ts : List (TermD Ref Attr)} {d : OutD} (h : wire o = some (.out ts d)) :
    putOff wire o D o = some (.out ts { d with termOff := D }) := by simp [putOff, h]

theorem incOff_put {wire : Ctx} {o : Key} {D w : Nat} {ts : List (TermD Ref Attr)} {d : OutD}
    (h : wire o = some (.out ts d)) (hi : Interned ts d.dflt) :
    incOff ⟨some o, putOff wire o D⟩ w = ⟨some o, putOff wire o (D + w)⟩ := by
  simp only [incOff, putOff_self h]
  congr 1
  funext q
  by_cases e : q = o
  · subst e
    rw [putOff_self h, setTypeData_self (d := .out ts { d with termOff := D + w }) hi]
  · rw [setTypeData_ne e, putOff_ne e, putOff_ne e]

theorem putOff_id {wire : Ctx} {o : Key} {ts : List (TermD Ref Attr)} {d : OutD} (h : wire o = some (.out ts d)) :
    putOff wire o d.termOff = wire := by
  funext q
  by_cases e : q = o
  · subst e; rw [putOff_self h, h]
  · exact putOff_ne e

/-- The outline variant of a type. -/
structure OutKey (wire : Ctx) (o : Key) (a : Nat) (ts : List (TermD Ref Attr)) (d : OutD) : Prop where
  kind : o.kind = .out
  data : wire o = some (.out ts d)
  interned : Interned ts d.dflt
  align : d.termAlign = a

theorem put_noOut {wire : Ctx} {o : Key} {D n : Nat} {r : Ref} {t : Ty} (hk : o.kind = .out) (h : tree wire n r = some t)
    (hn : Nodes wire n r) (ho : t.noOut) : tree (putOff wire o D) n r = some t ∧ Nodes (putOff wire o D) n r := by
  have : ∀ k, uses wire n k r ≠ 0 → putOff wire o D k = wire k := fun k hu => putOff_ne fun e =>
    noOut_kinds h hn ho k hu (e ▸ hk)
  exact ⟨by rw [tree_agree n r this, h], nodes_agree n r this hn⟩

theorem put_noOutFields {wire : Ctx} {o : Key} {D n : Nat} (hk : o.kind = .out) : ∀ {fs : List (FieldD Ref)} {x : Fields},
    treeFields (tree wire n) fs = some x → (∀ f ∈ fs, Nodes wire n f.ty) → x.noOut →
    treeFields (tree (putOff wire o D) n) fs = some x ∧ ∀ f ∈ fs, Nodes (putOff wire o D) n f.ty
  | [], _, h, _, _ => ⟨h, by simp⟩
  | f :: fs, x, h, hn, ho => by
    obtain ⟨t, r, h1, h2, rfl⟩ := treeFields_cons h
    obtain ⟨g1, g2⟩ := put_noOut (D := D) hk h1 (hn f (by simp)) ho.1
    obtain ⟨g3, g4⟩ := put_noOutFields (D := D) hk h2 (fun g hg => hn g (by simp [hg])) ho.2
    refine ⟨by simp only [treeFields, g1, g3], fun g hg => ?_⟩
    rcases List.mem_cons.1 hg with rfl | hg
    · exact g2
    · exact g4 g hg

theorem put_noOutTerms {wire : Ctx} {o : Key} {D n : Nat} (hk : o.kind = .out) : ∀ {fs : List (TermD Ref Attr)} {x : Terms},
    treeTerms (tree wire n) fs = some x → (∀ f ∈ fs, Nodes wire n f.ty) → x.noOut →
    treeTerms (tree (putOff wire o D) n) fs = some x ∧ ∀ f ∈ fs, Nodes (putOff wire o D) n f.ty
  | [], _, h, _, _ => ⟨h, by simp⟩
  | f :: fs, x, h, hn, ho => by
    obtain ⟨t, r, h1, h2, rfl⟩ := treeTerms_cons h
    obtain ⟨g1, g2⟩ := put_noOut (D := D) hk h1 (hn f (by simp)) ho.1
    obtain ⟨g3, g4⟩ := put_noOutTerms (D := D) hk h2 (fun g hg => hn g (by simp [hg])) ho.2
    refine ⟨by simp only [treeTerms, g1, g3], fun g hg => ?_⟩
    rcases List.mem_cons.1 hg with rfl | hg
    · exact g2
    · exact g4 g hg

/-- What is done to a type with an outline variant. -/
structure RunsOff (wire : Ctx) (n : Nat) (r : Ref) (t : Ty) (o : Key) (d : Nat) (a : Nat) (ts : List (TermD Ref Attr))
    (dd : OutD) : Prop where
  key : OutKey wire o a ts dd
  run : runOff n r ⟨none, wire⟩ = ⟨some o, putOff wire o d⟩
  dist : outDist t = some (d, a)
  tree : ∀ D, tree (putOff wire o D) n r = some (setOut D t)
  nodes : ∀ D, Nodes (putOff wire o D) n r

theorem offFields_some {wire : Ctx} {n : Nat} : ∀ {fs : List (FieldD Ref)} {x : Fields} (sz : Nat),
    treeFields (tree wire n) fs = some x → (∀ f ∈ fs, Nodes wire n f.ty) → OutOneFields x → x.hasOut = true →
    (∀ f ∈ fs, ∀ t, tree wire n f.ty = some t → OutOne t → t.hasOut = true →
      ∃ o d a ts dd, RunsOff wire n f.ty t o d a ts dd) →
    ∃ o d a ts dd off, OutKey wire o a ts dd ∧
      offFields (runOff n) fs ⟨none, wire⟩ false sz = (⟨some o, putOff wire o d⟩, off) ∧
      outDistFields x sz = some (d + (sz - off), a) ∧
      ∀ D, treeFields (tree (putOff wire o D) n) fs = some (setOutFields D x) ∧ ∀ f ∈ fs, Nodes (putOff wire o D) n f.ty
  | [], x, sz, h, _, _, ho, _ => by
    simp only [treeFields, Option.some.injEq] at h
    subst h
    cases ho
  | f :: fs, x, sz, h, hn, h1, ho, ih => by
    obtain ⟨t, r, e1, e2, rfl⟩ := treeFields_cons h
    obtain ⟨g1, g2⟩ := h1
    simp only [offFields, Option.isSome_none, Bool.and_false, Bool.false_eq_true, if_false, outDistFields]
    cases ht : t.hasOut with
    | true =>
      rw [ht] at g1
      simp only [if_true] at g1
      obtain ⟨o, d, a, ts, dd, k⟩ := ih f (by simp) t e1 g1.1 ht
      have hno : r.noOut := outOne_noOutFields r g2 g1.2
      have hr := fun D => put_noOutFields (D := D) k.key.kind e2 (fun g hg => hn g (by simp [hg])) hno
      refine ⟨o, d, a, ts, dd, r.nextOff sz, k.key, ?_, by simp only [k.dist], fun D => ?_⟩
      · rw [k.run, offFields_none (hr d).1 g1.2]
        simp
      · have hst := k.tree D
        refine ⟨by simp only [treeFields, hst, (hr D).1, setOutFields, setOutFields_none D r g1.2], fun g hg => ?_⟩
        rcases List.mem_cons.1 hg with rfl | hg
        · exact k.nodes D
        · exact (hr D).2 g hg
    | false =>
      rw [ht] at g1
      simp only [Bool.false_eq_true, if_false] at g1
      simp only [Fields.hasOut, ht, Bool.false_or] at ho
      obtain ⟨o, d, a, ts, dd, off, k1, k2, k3, k4⟩ := offFields_some sz e2 (fun g hg => hn g (by simp [hg])) g2 ho
        fun g hg => ih g (by simp [hg])
      refine ⟨o, d, a, ts, dd, off, k1, ?_, by simp only [outDist_none t ht, k3], fun D => ?_⟩
      · rw [runOff_none (s := ⟨none, wire⟩) e1 ht]
        exact k2
      · obtain ⟨p1, p2⟩ := put_noOut (D := D) k1.kind e1 (hn f (by simp)) g1
        have hk4 := (k4 D).1
        refine ⟨by simp only [treeFields, p1, hk4, setOutFields, setOut_none D t ht], fun g hg => ?_⟩
        rcases List.mem_cons.1 hg with rfl | hg
        · exact p2
        · exact (k4 D).2 g hg

theorem runOff_some {wire : Ctx} : ∀ {n : Nat} {r : Ref} {t : Ty}, tree wire n r = some t → Nodes wire n r → OutOne t →
    t.hasOut = true → ∃ o d a ts dd, RunsOff wire n r t o d a ts dd
  | 0, _, _, h, _, _, _ => by simp [tree] at h
  | n + 1, r, t, h, hn, h1, ho => by
    have hh := hasOutC_spec h
    cases r with
    | int | float | unit =>
      simp only [tree, Option.some.injEq] at h
      subst h
      cases ho
    | array | vector =>
      simp only [tree, Option.map_eq_some_iff] at h
      obtain ⟨u, hu, rfl⟩ := h
      cases ho
    | nom k =>
      obtain ⟨d, hd, hkd, hint⟩ := NodeOK_nom.1 hn.1
      rw [tree_nom, hd] at h
      simp only [Option.bind_some] at h
      have hkids : kids wire (.nom k) = d.kids := by simp only [kids, hd]
      cases d with
      | struct fs sz al =>
        simp only [treeData, Option.map_eq_some_iff] at h
        obtain ⟨x, hx, rfl⟩ := h
        have hmem : ∀ f ∈ fs, Nodes wire n f.ty := fun f hf =>
          hn.2 _ (by rw [hkids]; exact List.mem_map_of_mem (f := (·.ty)) hf)
        obtain ⟨o, d, a, ts, dd, off, g1, g2, g3, g4⟩ := offFields_some sz hx hmem h1 ho fun f hf t ht h1 ho =>
          runOff_some ht (hmem f hf) h1 ho
        have hko : k ≠ o := fun e => by
          have := g1.kind
          rw [← e, ← hkd] at this
          cases this
        refine ⟨o, d + (sz - off), a, ts, dd, g1, ?_, g3, fun D => ?_, fun D => ⟨NodeOK_nom.2 ⟨_, ?_, hkd, hint⟩, ?_⟩⟩
        · rw [ho] at hh
          simp only [runOff, hd, hh, if_true, g2]
          exact incOff_put g1.data g1.interned
        · rw [tree_nom, putOff_ne hko, hd]
          simp only [Option.bind_some, treeData, (g4 D).1, Option.map_some, setOut]
        · rw [putOff_ne hko, hd]
        · intro c hc
          simp only [kids, putOff_ne hko, hd, Data.kids] at hc
          obtain ⟨f, hf, rfl⟩ := List.mem_map.1 hc
          exact (g4 D).2 f hf
      | inl ts d =>
        simp only [treeData, Option.map_eq_some_iff] at h
        obtain ⟨x, hx, rfl⟩ := h
        cases ho
      | out ts d =>
        simp only [treeData, Option.map_eq_some_iff] at h
        obtain ⟨x, hx, rfl⟩ := h
        have hmem : ∀ f ∈ ts, Nodes wire n f.ty := fun f hf =>
          hn.2 _ (by rw [hkids]; exact List.mem_map_of_mem (f := (·.ty)) hf)
        have hko : k.kind = .out := hkd.symm
        have ht := fun D => put_noOutTerms (D := D) hko hx hmem h1
        refine ⟨k, d.termOff + d.tagW, d.termAlign, ts, d, ⟨hko, hd, hint, rfl⟩, ?_, rfl, fun D => ?_,
          fun D => ⟨NodeOK_nom.2 ⟨_, putOff_self hd, hkd, hint⟩, ?_⟩⟩
        · simp only [runOff, hd]
          have := incOff_put (D := d.termOff) (w := d.tagW) hd hint
          rw [putOff_id hd] at this
          exact this
        · rw [tree_nom, putOff_self hd]
          simp only [Option.bind_some, treeData, (ht D).1, Option.map_some, setOut, OutD.l, if_true]
        · intro c hc
          simp only [kids, putOff_self hd, Data.kids] at hc
          obtain ⟨f, hf, rfl⟩ := List.mem_map.1 hc
          exact (ht D).2 f hf

theorem genOffsetC_spec {wire : Ctx} {n : Nat} {r : Ref} {t : Ty} (h : tree wire n r = some t) (hn : Nodes wire n r)
    (h1 : OutOne t) : ∃ wire', genOffsetC n r wire = (wire', (genOffset t).bufOff) ∧
      tree wire' n r = some (genOffset t).head ∧ Nodes wire' n r := by
  simp only [genOffsetC]
  unfold genOffset
  cases ho : t.hasOut with
  | false =>
    rw [runOff_none (s := ⟨none, wire⟩) h ho, outDist_none t ho]
    exact ⟨wire, rfl, h, hn⟩
  | true =>
    obtain ⟨o, d, a, ts, dd, k⟩ := runOff_some h hn h1 ho
    rw [k.run, k.dist]
    have hs : refSize (putOff wire o d) r = t.size := by rw [refSize_tree (k.tree d), setOut_size]
    simp only [putOff_self k.key.data, hs, k.key.align, incOff_put k.key.data k.key.interned]
    exact ⟨_, rfl, k.tree _, k.nodes _⟩

end PJ
