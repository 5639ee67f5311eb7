import Verif.Lemmas.VariantOrder
import Verif.Lemmas.StraightSame
/-!
# The code for a variant and its wire format
-/
namespace PJ

mutual
/-- There is code both ways between a type and its wire format. -/
theorem rel_lower {F : Nat → Nat → Nat → Nat} {A : Aliasing} {sa da : Nat} {q : VecL → Prop} : ∀ (h t : Ty), Rel q h t → h.straight →
    WF h → WF t → ∀ s d, (∃ is, lower F A sa da h t s d = some is) ∧ ∃ is, lower F A sa da t h s d = some is
  | .int w sg al, t, hr, _, hh, _, s, d => by
    obtain ⟨al', rfl⟩ := hr
    simp only [WF] at hh
    have : ¬ w = 0 := by omega
    simp [lower, this]
  | .float w al, t, hr, _, hh, _, s, d => by
    obtain ⟨al', rfl⟩ := hr
    simp only [WF] at hh
    simp [lower, hh]
  | .unit, t, hr, _, _, _, s, d => by
    simp only [Rel] at hr
    subst hr
    simp [lower]
  | .struct fs _ _, t, hr, hs, hh, hw, s, d => by
    obtain ⟨fs', sz, al, rfl, hr⟩ := hr
    simp only [Ty.straight] at hs
    obtain ⟨⟨x, hx⟩, y, hy⟩ := relFields_lower (F := F) (A := A) (sa := sa) (da := da) fs fs' fs fs' hr hs hh.1 hw.1
      (fun c o t ht => findLast_mem hh.2.names ht) (fun c o t ht => findLast_mem hw.2.names ht) s d
    simp [lower, hx, hy]
  | .variant _ _, _, _, hs, _, _, _, _ => by simp [Ty.straight] at hs
  | .array _ _ _ _, _, _, hs, _, _, _, _ => by simp [Ty.straight] at hs
  | .vector _ _, _, _, hs, _, _, _, _ => by simp [Ty.straight] at hs
theorem relFields_lower {F : Nat → Nat → Nat → Nat} {A : Aliasing} {sa da : Nat} {q : VecL → Prop} : ∀ (hfs fs hall wall : Fields),
    RelFields q hfs fs → hfs.straight → WFFields hfs → WFFields fs → (∀ c o t, (c, o, t) ∈ hfs.toList → hall.findLast c = some (o, t)) →
    (∀ c o t, (c, o, t) ∈ fs.toList → wall.findLast c = some (o, t)) → ∀ s d,
    (∃ is, lowerFields F A sa da hfs wall s d = some is) ∧ ∃ is, lowerFields F A sa da fs hall s d = some is
  | .nil, fs, hall, wall, h, _, _, _, _, _, s, d => by
    simp only [RelFields] at h
    subst h
    simp [lowerFields]
  | .cons c o t r, fs, hall, wall, h, hs, hh, hw, ha, hb, s, d => by
    obtain ⟨o', t', r', rfl, h1, h2⟩ := h
    obtain ⟨⟨x, hx⟩, -⟩ := rel_lower (F := F) (A := A) (sa := sa) (da := da) t t' h1 hs.1 hh.1 hw.1 (s + o') (d + o)
    obtain ⟨-, y, hy⟩ := rel_lower (F := F) (A := A) (sa := sa) (da := da) t t' h1 hs.1 hh.1 hw.1 (s + o) (d + o')
    obtain ⟨⟨z, hz⟩, u, hu⟩ := relFields_lower (F := F) (A := A) (sa := sa) (da := da) r r' hall wall h2 hs.2 hh.2 hw.2
      (fun c o t ht => ha c o t (by simp [Fields.toList, ht]))
      (fun c o t ht => hb c o t (by simp [Fields.toList, ht])) s d
    simp [lowerFields, ha c o t (by simp [Fields.toList]), hb c o' t' (by simp [Fields.toList]), hx, hy, hz, hu]
end

theorem pickNamed_plain {c : Comp} : ∀ {ts : Terms}, (∀ t ∈ ts.toList, t.attrs = []) → ts.hasName c = true →
    ∃ t, pickNamed ts c = some (some t)
  | .nil, _, h => by simp [Terms.hasName, Terms.toList] at h
  | .cons n g as t r, ha, h => by
    simp only [Terms.toList, List.forall_mem_cons] at ha
    simp only [pickNamed]
    by_cases hn : n = c
    · rw [if_pos hn, ha.1]
      exact ⟨_, rfl⟩
    · rw [if_neg hn]
      refine pickNamed_plain ha.2 ?_
      simpa [Terms.hasName, Terms.toList, hn] using h

theorem pickAt_plain : ∀ {ts : Terms} {i : Nat}, (∀ t ∈ ts.toList, t.attrs = []) → i < ts.toList.length →
    ∃ t, pickAt ts i = some (some t)
  | .nil, _, _, h => by simp [Terms.toList] at h
  | .cons n g as t r, 0, ha, _ => by
    simp only [Terms.toList, List.forall_mem_cons] at ha
    simp [pickAt, ha.1, unitCond]
  | .cons n g as t r, i + 1, ha, h => by
    simp only [Terms.toList, List.forall_mem_cons, List.length_cons] at ha h
    simp only [pickAt]
    exact pickAt_plain ha.2 (by omega)

theorem mapM_defined {α β} {f : α → Option β} : ∀ {l : List α}, (∀ a ∈ l, ∃ b, f a = some b) → ∃ r, l.mapM f = some r
  | [], _ => ⟨[], by simp⟩
  | x :: l, h => by
    simp only [List.forall_mem_cons] at h
    obtain ⟨b, hb⟩ := h.1
    obtain ⟨r, hr⟩ := mapM_defined h.2
    exact ⟨b :: r, by rw [List.mapM_cons, hb, hr]; rfl⟩

theorem lowerVariant_defined {F : Nat → Nat → Nat → Nat} {A : Aliasing} {sa da : Nat} {dts sts : Terms} {dl sl : VarL}
    (hwt : WF (.variant dts dl)) (hws : WF (.variant sts sl)) (hd : dl.outline = false) (hs : sl.outline = false)
    (hf : enumFast dts sts dl sl = false) (hst : ∀ t ∈ dts.toList, t.ty.straight) (ha : ∀ t ∈ dts.toList, t.attrs = [])
    (hn : ∀ t ∈ sts.toList, dts.hasName t.name = true)
    (hl : ∀ t ∈ sts.toList, ∀ u ∈ dts.toList, u.name = t.name → ∃ is, lower F A sa da u.ty t.ty sl.termOff dl.termOff = some is) :
    ∃ f, lowerVariant F A sa da dts dl sts sl = some f := by
  simp only [WF] at hwt hws
  have h1 : ¬ sl.tagW = 0 := by have := hws.2.tagW; omega
  have h2 : ¬ dl.tagW = 0 := by have := hwt.2.tagW; omega
  obtain ⟨u, hu⟩ := pickAt_plain ha hwt.2.dflt
  obtain ⟨x, hx⟩ : ∃ x, lower F A sa da u.ty .unit sl.termOff dl.termOff = some x := by
    have hw := wfTerms_mem hwt.1 u (pickAt_mem hu)
    have hstr := hst u (pickAt_mem hu)
    obtain ⟨is, h⟩ := straight_dflt (A := A) (sa := sa) (da := da) u.ty dl.termOff hstr hw
    revert hstr h
    cases u.ty <;> intro hstr h
    all_goals first
      | (simp [Ty.straight] at hstr; done)
      | exact ⟨is, by simpa [lower] using h⟩
      | exact ⟨[], by simp [lower]⟩
  obtain ⟨bs, hbs⟩ := mapM_defined (l := sts.toList)
    (f := fun t => (pickTerm dts dl t.name).bind (lowerTerm F A sa da dl sl t.ty)) (fun t ht => by
      obtain ⟨u, hu⟩ := pickNamed_plain ha (hn t ht)
      have hp : pickTerm dts dl t.name = some (some u) := by simp only [pickTerm, hn t ht, if_true, hu]
      obtain ⟨is, hi⟩ := hl t ht u (pickTerm_mem hp) (pickNamed_name hu)
      exact ⟨_, by rw [hp]; simp [lowerTerm, h2, hi]; rfl⟩)
  simp only [lowerVariant, hd, hs, hf, hu, Option.bind_some, lowerTerm, h2, if_false, hx, Option.map_some, hbs]
  simp [h1]

mutual
theorem straight_noVec : ∀ (t : Ty), t.straight → ¬ t.hasVec
  | .unit, _, h => h
  | .int _ _ _, _, h => h
  | .float _ _, _, h => h
  | .struct fs _ _, hs, h => by
    simp only [Ty.straight] at hs
    exact straight_noVecFields fs hs h
  | .variant _ _, hs, _ => by simp [Ty.straight] at hs
  | .array _ _ _ _, hs, _ => by simp [Ty.straight] at hs
  | .vector _ _, hs, _ => by simp [Ty.straight] at hs
theorem straight_noVecFields : ∀ (fs : Fields), fs.straight → ¬ fs.hasVec
  | .nil, _, h => h
  | .cons _ _ t r, hs, h => h.elim (straight_noVec t hs.1) (straight_noVecFields r hs.2)
end

theorem plainTerms_attrs : ∀ {ts : Terms}, PlainTerms ts → ∀ t ∈ ts.toList, t.attrs = []
  | .nil, _, t, h => by simp [Terms.toList] at h
  | .cons n g as ty r, hp, t, h => by
    simp only [PlainTerms] at hp
    simp only [Terms.toList, List.mem_cons] at h
    rcases h with rfl | h
    · exact hp.1
    · exact plainTerms_attrs hp.2.2 t h

/-- What a variant and its wire format have in common. -/
structure SameVar (q : VecL → Prop) (hts ts : Terms) : Prop where
  rel : ∀ h ∈ hts.toList, ∀ u ∈ ts.toList, h.name = u.name → Rel q h.ty u.ty
  there : ∀ h ∈ hts.toList, ts.hasName h.name = true
  back : ∀ u ∈ ts.toList, hts.hasName u.name = true
  straight : ∀ u ∈ ts.toList, u.ty.straight
  attrs : ∀ u ∈ ts.toList, u.attrs = []

theorem rel_same {q : VecL → Prop} {hts ts : Terms} {hl l : VarL} (hr : Rel q (.variant hts hl) (.variant ts l))
    (hs : ∀ h ∈ hts.toList, h.ty.straight) : SameVar q hts ts := by
  obtain ⟨ts', l', e, h1, h2, h3, -, -⟩ := hr
  cases e
  have hrel : ∀ h ∈ hts.toList, ∀ u ∈ ts.toList, h.name = u.name → Rel q h.ty u.ty :=
    fun h hh u hu e => RelNamed_iff.1 (h1 u hu).2 h hh e
  have hst : ∀ u ∈ ts.toList, u.ty.straight := by
    intro u hu
    obtain ⟨h, hh, e⟩ := hasName_iff.1 (h1 u hu).1
    exact rel_straight _ _ (hrel h hh u hu e) (hs h hh)
  refine ⟨hrel, h2, fun u hu => (h1 u hu).1, hst, fun u hu => ?_⟩
  by_cases ha : u.attrs = []
  · exact ha
  · exact (straight_noVec _ (hst u hu) (h3 u hu ha).1).elim

/-- The value of a variant depends on its bytes only. -/
theorem readTerm_straight (m m' : Mem) (raw : Nat) : ∀ (ts : Terms) (a a' : Nat), (∀ t ∈ ts.toList, t.ty.straight) → WFTerms ts →
    (∀ t ∈ ts.toList, ∀ i, i < t.ty.size → m' (a' + i) = m (a + i)) → readTerm m' ts raw a' = readTerm m ts raw a
  | .nil, _, _, _, _, _ => rfl
  | .cons n g as t r, a, a', hs, hw, h => by
    simp only [Terms.toList, List.forall_mem_cons] at hs h
    simp only [readTerm, readVal_straight m m' t a a' hs.1 hw.1 h.1, readTerm_straight m m' raw r a a' hs.2 hw.2 h.2]

theorem readVal_variant (m m' : Mem) (ts : Terms) (l : VarL) (a a' : Nat) (hs : ∀ t ∈ ts.toList, t.ty.straight)
    (hw : WF (.variant ts l)) (ho : l.outline = false) (h : ∀ i, i < l.size → m' (a' + i) = m (a + i)) :
    readVal m' (.variant ts l) a' = readVal m (.variant ts l) a := by
  simp only [WF] at hw
  have ht : readN m' (a' + l.tagOff) l.tagW = readN m (a + l.tagOff) l.tagW := by
    refine readN_congr fun i hi => ?_
    have := hw.2.tagIn
    rw [Nat.add_assoc, Nat.add_assoc]
    exact h _ (by omega)
  simp only [readVal, ht]
  refine readTerm_straight m m' _ ts _ _ hs hw.1 fun t htm i hi => ?_
  have := hw.2.inside ho t htm
  rw [Nat.add_assoc, Nat.add_assoc]
  exact h _ (by omega)

end PJ
