import Verif.Spec.Evolve
import Verif.Lemmas.PlanOut
import Verif.Lemmas.AnyType
import Verif.Lemmas.Tight
/-!
# Evolved schemas are convertible
-/
namespace PJ

theorem EvolvesNamed_iff {c : Comp} {ty : Ty} : ∀ {ts : Terms}, EvolvesNamed ts c ty ↔
    ∀ t ∈ ts.toList, t.name = c → Evolves t.ty ty
  | .nil => by simp [EvolvesNamed, Terms.toList]
  | .cons n g as t r => by
    simp only [EvolvesNamed, Terms.toList, List.forall_mem_cons, EvolvesNamed_iff (ts := r)]

/-! ## Sizes -/

mutual
theorem rel_bytes (q : VecL → Prop) : ∀ h t : Ty, Rel q h t → WF t → h.bytes = true → 0 < t.size
  | .int w s _, t, hr, _, hb => by
    obtain ⟨al, rfl⟩ := hr
    simp only [Ty.bytes, bne_iff_ne] at hb; simp only [Ty.size]; omega
  | .float w _, t, hr, _, hb => by
    obtain ⟨al, rfl⟩ := hr
    simp only [Ty.bytes, bne_iff_ne] at hb; simp only [Ty.size]; omega
  | .unit, t, _, _, hb => by simp [Ty.bytes] at hb
  | .struct fs _ _, t, hr, hw, hb => by
    obtain ⟨fs', sz, al, rfl, hr⟩ := hr
    obtain ⟨x, hx, hs⟩ := relFields_bytes q fs fs' hr hw.1 hb
    have := hw.2.inside x hx
    simp only [Ty.size]; omega
  | .variant ts _, t, hr, hw, _ => by
    obtain ⟨ts', l, rfl, _⟩ := hr
    have h1 := hw.2.tagW
    have h2 := hw.2.tagIn
    simp only [Ty.size]; omega
  | .array e n _ _, t, hr, hw, hb => by
    obtain ⟨e', esz, al, rfl, hr⟩ := hr
    simp only [Ty.bytes, Bool.and_eq_true, bne_iff_ne] at hb
    have h1 := rel_bytes q e e' hr hw.1 hb.2
    have h2 := hw.2
    simp only [Ty.size]
    exact Nat.mul_pos (by omega) (by omega)
  | .vector e _, t, hr, hw, _ => by
    obtain ⟨e', l, rfl, _⟩ := hr
    have h1 := hw.2.lenSize
    have h2 := hw.2.lenIn
    simp only [Ty.size]; omega
termination_by structural h => h
theorem relFields_bytes (q : VecL → Prop) : ∀ hfs fs : Fields, RelFields q hfs fs → WFFields fs →
    hfs.bytes = true → ∃ x ∈ fs.toList, 0 < x.2.2.size
  | .nil, fs, _, _, hb => by simp [Fields.bytes] at hb
  | .cons c o t r, fs, hr, hw, hb => by
    obtain ⟨o', t', r', rfl, h1, h2⟩ := hr
    simp only [Fields.bytes, Bool.or_eq_true] at hb
    rcases hb with hb | hb
    · exact ⟨(c, o', t'), by simp [Fields.toList], rel_bytes q t t' h1 hw.1 hb⟩
    · obtain ⟨x, hx, hs⟩ := relFields_bytes q r r' h2 hw.2 hb
      exact ⟨x, by simp [Fields.toList, hx], hs⟩
termination_by structural hfs => hfs
end

mutual
theorem size_bytes : ∀ t : Ty, WF t → t.bytes = true → 0 < t.size
  | .int w s _, _, hb => by
    simp only [Ty.bytes, bne_iff_ne] at hb; simp only [Ty.size]; omega
  | .float w _, _, hb => by
    simp only [Ty.bytes, bne_iff_ne] at hb; simp only [Ty.size]; omega
  | .unit, _, hb => by simp [Ty.bytes] at hb
  | .struct fs _ _, hw, hb => by
    obtain ⟨x, hx, hs⟩ := size_bytesFields fs hw.1 hb
    have := hw.2.inside x hx
    simp only [Ty.size]; omega
  | .variant ts _, hw, _ => by
    have h1 := hw.2.tagW
    have h2 := hw.2.tagIn
    simp only [Ty.size]; omega
  | .array e n _ _, hw, hb => by
    simp only [Ty.bytes, Bool.and_eq_true, bne_iff_ne] at hb
    have h1 := size_bytes e hw.1 hb.2
    have h2 := hw.2
    simp only [Ty.size]
    exact Nat.mul_pos (by omega) (by omega)
  | .vector e _, hw, _ => by
    have h1 := hw.2.lenSize
    have h2 := hw.2.lenIn
    simp only [Ty.size]; omega
termination_by structural t => t
theorem size_bytesFields : ∀ fs : Fields, WFFields fs → fs.bytes = true → ∃ x ∈ fs.toList, 0 < x.2.2.size
  | .nil, _, hb => by simp [Fields.bytes] at hb
  | .cons c o t r, hw, hb => by
    simp only [Fields.bytes, Bool.or_eq_true] at hb
    rcases hb with hb | hb
    · exact ⟨(c, o, t), by simp [Fields.toList], size_bytes t hw.1 hb⟩
    · obtain ⟨x, hx, hs⟩ := size_bytesFields r hw.2 hb
      exact ⟨x, by simp [Fields.toList, hx], hs⟩
termination_by structural fs => fs
end

theorem isEnum_bytes {ts : Terms} (hw : WFTerms ts) (he : ts.isEnum = true) : ∀ t ∈ ts.toList, t.ty.bytes = false := by
  intro t ht
  cases hb : t.ty.bytes
  · rfl
  · exfalso
    have h6 := size_bytes _ (WFTerms_iff.1 hw t ht) hb
    have h7 := List.all_eq_true.1 he t ht
    simp only [beq_iff_eq] at h7
    omega

/-- The terms of an enum made by planning have no content in the schema, either. -/
theorem rel_isEnum {q : VecL → Prop} {hts ts : Terms} (hw : WFTerms ts) (he : ts.isEnum = true)
    (h1 : ∀ u ∈ ts.toList, hts.hasName u.name = true ∧ RelNamed q hts u.name u.ty)
    (h2 : ∀ h ∈ hts.toList, ts.hasName h.name = true) : ∀ t ∈ hts.toList, t.ty.bytes = false := by
  intro s hs
  obtain ⟨u, hu, hn'⟩ := hasName_iff.1 (h2 s hs)
  have h5 := RelNamed_iff.1 (h1 u hu).2 s hs hn'.symm
  cases hb : s.ty.bytes
  · rfl
  · exfalso
    have h6 := rel_bytes _ _ _ h5 (WFTerms_iff.1 hw u hu) hb
    have h7 := List.all_eq_true.1 he u hu
    simp only [beq_iff_eq] at h7
    omega

/-! ## Compatibility -/

theorem relFields_mem (q : VecL → Prop) : ∀ {hfs fs : Fields} {x : Comp × Nat × Ty}, RelFields q hfs fs →
    x ∈ fs.toList → ∃ y ∈ hfs.toList, y.1 = x.1 ∧ Rel q y.2.2 x.2.2
  | .nil, fs, x, h, hx => by
    simp only [RelFields] at h; subst h; simp [Fields.toList] at hx
  | .cons c o t r, fs, x, h, hx => by
    obtain ⟨o', t', r', rfl, h1, h2⟩ := h
    simp only [Fields.toList, List.mem_cons] at hx
    rcases hx with rfl | hx
    · exact ⟨(c, o, t), by simp [Fields.toList], rfl, h1⟩
    · obtain ⟨y, hy, e1, e2⟩ := relFields_mem q h2 hx
      exact ⟨y, by simp [Fields.toList, hy], e1, e2⟩

theorem exactMatch_sub {a b : Terms} {la lb : VarL} (hn : (b.toList.map (·.name)).Nodup)
    (h : ∀ t ∈ a.toList, ∃ u ∈ b.toList, u.name = t.name ∧ u.tag = t.tag) :
    exactMatch (enumTy a la) (enumTy b lb) = true := by
  have hn' : ((enumTy b lb).terms.map (·.1)).Nodup := by
    simp only [enumTy, List.map_map]; exact hn
  unfold exactMatch
  rw [List.all_eq_true]
  intro x hx
  rw [tagOf_eq _ hn']
  obtain ⟨t, ht, rfl⟩ := List.mem_map.1 hx
  obtain ⟨u, hu, e1, e2⟩ := h t ht
  have hx' : (u.name, u.tag) ∈ (enumTy b lb).terms := List.mem_map.2 ⟨u, hu, rfl⟩
  rw [e1, e2] at hx'
  rw [find?_unique (fun t : Comp × Nat => t.1) _ hn' _ hx']
  simp

theorem foldl_max_le {l : List Nat} {b a : Nat} (hb : a ≤ b) (h : ∀ x ∈ l, x ≤ b) : l.foldl max a ≤ b := by
  induction l generalizing a with
  | nil => exact hb
  | cons x l ih =>
    simp only [List.foldl_cons]
    have := h x (by simp)
    exact ih (by omega) fun y hy => h y (by simp [hy])

theorem PlainFields_iff : ∀ {fs : Fields}, PlainFields fs ↔ ∀ x ∈ fs.toList, Plain x.2.2
  | .nil => by simp [PlainFields, Fields.toList]
  | .cons n o t r => by simp [PlainFields, Fields.toList, PlainFields_iff (fs := r)]

theorem mem_of_find {c : Comp} {o : Nat} {t : Ty} : ∀ {fs : Fields}, fs.find c = some (o, t) →
    (c, o, t) ∈ fs.toList
  | .nil, h => by simp [Fields.find] at h
  | .cons n o' t' r, h => by
    simp only [Fields.find] at h
    simp only [Fields.toList, List.mem_cons]
    split at h
    · rename_i e
      cases h; subst e; exact Or.inl rfl
    · exact Or.inr (mem_of_find h)

theorem enumEvolves_compat {dts sts wts : Terms} {dl wl : VarL} (hd : (dts.toList.map (·.name)).Nodup)
    (hs : (sts.toList.map (·.name)).Nodup) (ht : wts.tagsOf = sts.tagsOf) (hw : VarLayout wts.toList wl)
    (he : enumFast dts wts dl wl = true) (h : EnumEvolves dts dl.dflt sts) : EnumCompat dts wts dl wl := by
  have hn : (wts.toList.map (·.name)).Nodup := by rw [names_of_tags ht]; exact hs
  have htags : wts.toList.map (·.tag) = sts.toList.map (·.tag) := by
    have := congrArg (List.map Prod.snd) ht
    simp only [Terms.tagsOf, List.map_map] at this
    exact this
  refine ⟨hd, hn, ?_⟩
  have hsame : wts.tagsOf = dts.tagsOf → exactMatch (enumTy wts wl) (enumTy dts dl) = true :=
    fun e => exactMatch_same e hd
  rcases h with h | h | ⟨h1, h2⟩
  · refine Or.inl (exactMatch_sub hd fun t ht' => ?_)
    have hm : (t.name, t.tag) ∈ sts.tagsOf := by
      rw [← ht]; exact List.mem_map.2 ⟨t, ht', rfl⟩
    obtain ⟨s, hs', e⟩ := List.mem_map.1 hm
    simp only [Prod.mk.injEq] at e
    obtain ⟨u, hu, e1, e2⟩ := h s hs'
    exact ⟨u, hu, by rw [e1, e.1], by rw [e2, e.2]⟩
  · simp only [enumFast, Bool.and_eq_true, Bool.or_eq_true, beq_iff_eq, decide_eq_true_eq] at he
    rcases he.2 with e | e
    · exact Or.inl (hsame e)
    · rw [htags] at e
      have : wts.toList.length = sts.toList.length := by
        simpa using congrArg List.length htags
      omega
  · refine Or.inr ⟨?_, h1⟩
    have e : tableSize (enumTy wts wl) = (sts.toList.map (·.tag)).foldl max 0 + 1 := by
      simp only [tableSize, enumTy, List.map_map]
      rw [← htags]; rfl
    rw [e]
    refine h2 wl.tagW hw.tagW.1 ?_
    have hpos : 0 < 256 ^ wl.tagW := Nat.pow_pos (by omega)
    have : (sts.toList.map (·.tag)).foldl max 0 ≤ 256 ^ wl.tagW - 1 := by
      refine foldl_max_le (by omega) fun x hx => ?_
      rw [← htags] at hx
      obtain ⟨t, ht', rfl⟩ := List.mem_map.1 hx
      have := (hw.tagLt t ht').1
      omega
    omega

theorem compatAt_iff {ty : Ty} : ∀ {ts : Terms} {i : Nat}, CompatAt ts i ty ↔
    ∀ t, ts.toList[i]? = some t → Compat t.ty ty
  | .nil, i => by simp [CompatAt, Terms.toList]
  | .cons n g as t r, 0 => by simp [CompatAt, Terms.toList]
  | .cons n g as t r, i + 1 => by simp [CompatAt, Terms.toList, compatAt_iff (ts := r)]

theorem evolvesAt_iff {ty : Ty} : ∀ {ts : Terms} {i : Nat}, EvolvesAt ts i ty ↔
    ∀ t, ts.toList[i]? = some t → Evolves t.ty ty
  | .nil, i => by simp [EvolvesAt, Terms.toList]
  | .cons n g as t r, 0 => by simp [EvolvesAt, Terms.toList]
  | .cons n g as t r, i + 1 => by simp [EvolvesAt, Terms.toList, evolvesAt_iff (ts := r)]

set_option maxHeartbeats 1000000 in
mutual
/-- The receiver can decode what the planner makes of the sender's schema. -/
theorem evolves_compat : ∀ d h t : Ty, Evolves d h → Rel Laid h t → Plain d → d.noOut → WF d → Plain h → WF t →
    Compat d t
  | .unit, h, t, _, _, _, _, _, _, _ => by simp [Compat]
  | .int _ _ _, h, t, _, _, _, _, _, _, _ => by simp [Compat]
  | .float _ _, h, t, _, _, _, _, _, _, _ => by simp [Compat]
  | .struct dfs dsz dal, h, t, he, hr, hp, hn, hwd, hph, hw => by
    cases h <;> simp only [Evolves] at he
    · simp only [Rel] at hr; subst hr; exact compat_unit _ (noOut_hasOut _ hn)
    · obtain ⟨fs', sz, al, rfl, hr⟩ := hr
      simp only [Compat]
      exact evolvesFields_compat dfs _ fs' he hr hp hn hwd.1 hph hw.1 hw.2.names
  | .variant dts dl, h, t, he, hr, hp, hn, hwd, hph, hw => by
    cases h <;> simp only [Evolves] at he
    · simp only [Rel] at hr; subst hr; exact compat_unit _ (noOut_hasOut _ hn)
    · rename_i sts sl
      obtain ⟨wts, wl, rfl, h1, h2, h3, h4, _⟩ := hr
      simp only [Plain] at hp hph
      simp only [WF] at hw hwd
      simp only [Ty.noOut] at hn
      obtain ⟨he1, he2⟩ := he
      have htr : TermsRel Laid sts wts.toList := ⟨h1, fun a ha => hasName_iff.1 (h2 a ha), h3, h4⟩
      simp only [Compat]
      refine ⟨fun hf => ?_, fun u hu => ?_⟩
      · have he' : wts.isEnum = true ∧ dts.isEnum = true := by
          simp only [enumFast, Bool.and_eq_true] at hf; exact ⟨hf.1.2, hf.1.1.2⟩
        have ht := enum_tags hw.1 htr he'.1
        exact enumEvolves_compat hp.1 hph.1 ht hw.2 hf
          (he1 (isEnum_bytes hwd.1 he'.2) (rel_isEnum hw.1 he'.1 h1 h2))
      · obtain ⟨s, hs, hn'⟩ := hasName_iff.1 (h1 u hu).1
        have hrel := RelNamed_iff.1 (h1 u hu).2 s hs hn'
        obtain ⟨g1, g2⟩ := he2 s hs
        have hps := PlainTerms_iff.1 hph.2 s hs
        have hwu := terms_WF _ hw.1 u hu
        split
        · refine CompatNamed_iff.2 fun x hx hnx => ?_
          exact evolvesTerms_compat dts x s.ty u.ty hx hp.2 hn.2 hwd.1
            (EvolvesNamed_iff.1 g1 x hx (by rw [hnx, hn'])) hrel hps.2 hwu
        · rename_i hno
          refine compatAt_iff.2 fun x hx => ?_
          have hnb : dts.hasName s.name = false := by
            rw [hn']; simpa using hno
          exact evolvesTerms_compat dts x s.ty u.ty (List.mem_of_getElem? hx) hp.2 hn.2 hwd.1
            (evolvesAt_iff.1 (g2 hnb) x hx) hrel hps.2 hwu
  | .array de _ _ _, h, t, he, hr, hp, hn, hwd, hph, hw => by
    cases h <;> simp only [Evolves] at he
    · simp only [Rel] at hr; subst hr; exact compat_unit _ (noOut_hasOut _ hn)
    · obtain ⟨e', esz, al, rfl, hr⟩ := hr
      simp only [Compat]
      exact evolves_compat de _ e' he hr hp hn hwd.1 hph hw.1
  | .vector de dl, h, t, he, hr, hp, hn, hwd, hph, hw => by
    cases h <;> simp only [Evolves] at he
    · simp only [Rel] at hr; subst hr; exact compat_unit _ (noOut_hasOut _ hn)
    · obtain ⟨e', l, rfl, h1, h2, h3⟩ := hr
      simp only [WF] at hw hwd
      simp only [Compat]
      refine ⟨evolves_compat de _ e' he.1 h1 hp hn hwd.1 hph hw.1, Or.inl ?_⟩
      obtain ⟨r1, r2, r3, r4⟩ := h2
      have h4 := hw.2.ppl
      unfold Laid at h3
      unfold VecL.maxBound
      cases hm : dl.maxLen with
      | none => simp only; omega
      | some m => have := he.2 m hm; simp only; omega
termination_by structural d => d
theorem evolvesFields_compat : ∀ dfs sfs wfs : Fields, EvolvesFields dfs sfs → RelFields Laid sfs wfs →
    PlainFields dfs → dfs.noOut → WFFields dfs → PlainFields sfs → WFFields wfs → (wfs.toList.map (·.1)).Nodup →
    CompatFields dfs wfs
  | .nil, _, _, _, _, _, _, _, _, _, _ => by simp [CompatFields]
  | .cons c o t r, sfs, wfs, he, hr, hp, hn, hwd, hps, hw, hnd => by
    simp only [EvolvesFields] at he
    simp only [CompatFields]
    refine ⟨?_, evolvesFields_compat r sfs wfs he.2 hr hp.2 hn.2 hwd.2 hps hw hnd⟩
    split
    · rename_i o' ty hf
      have hmem : (c, o', ty) ∈ wfs.toList := by
        rw [find_eq_findLast wfs hnd] at hf; exact mem_of_find hf
      obtain ⟨y, hy, e1, e2⟩ := relFields_mem _ hr hmem
      exact evolves_compat t y.2.2 ty (he.1 y hy e1) e2 hp.1 hn.1 hwd.1 (PlainFields_iff.1 hps y hy)
        (WFFields_iff.1 hw _ hmem)
    · exact noOut_hasOut t hn.1
termination_by structural dfs => dfs
theorem evolvesTerms_compat : ∀ (dts : Terms) (x : Term) (sty wty : Ty), x ∈ dts.toList → PlainTerms dts →
    dts.noOut → WFTerms dts → Evolves x.ty sty → Rel Laid sty wty → Plain sty → WF wty → Compat x.ty wty
  | .nil, x, _, _, hx, _, _, _, _, _, _, _ => by simp [Terms.toList] at hx
  | .cons n g as t r, x, sty, wty, hx, hp, hn, hwd, he, hr, hps, hw => by
    simp only [Terms.toList, List.mem_cons] at hx
    rcases hx with rfl | hx
    · exact evolves_compat t sty wty he hr hp.2.1 hn.1 hwd.1 hps hw
    · exact evolvesTerms_compat r x sty wty hx hp.2.2 hn.2 hwd.2 he hr hps hw
termination_by structural dts => dts
end

/-! ## Conversions are defined -/

theorem wrapInt_range (w : Nat) (s : Sign) (x : Int) : InRange w s (wrapInt w s x) := by
  have hpos : (0 : Int) < ((256 ^ w : Nat) : Int) := by
    have : 0 < 256 ^ w := Nat.pow_pos (by omega)
    omega
  have h1 := Int.emod_nonneg x (Int.ne_of_gt hpos)
  have h2 := Int.emod_lt_of_pos x hpos
  exact intValue_inRange _ _ _ (by omega)

theorem filter_plain {ts : Terms} {t : Term} (hn : (ts.toList.map (·.name)).Nodup) (hp : PlainTerms ts)
    (ht : t ∈ ts.toList) {p : Val} (hf : Fits t.ty p) {l : VarL} : Fits (.variant ts l) (.variant t.name p) := by
  refine ⟨t.name, p, rfl, FitsTerms_iff.2 fun u hu hn' => ?_,
    filter_name hn (fun u hu => (PlainTerms_iff.1 hp u hu).1) t ht rfl p⟩
  have := name_unique hn hu ht hn'
  subst this
  rw [(PlainTerms_iff.1 hp u hu).1]
  exact ⟨rfl, fun _ => hf⟩

mutual
/-- Every schema type has a default value. -/
theorem dfltVal_fits : ∀ t : Ty, Plain t → WF t → ∃ v, dfltVal t = some v ∧ Fits t v
  | .int w s _, _, _ => by
    refine ⟨_, rfl, 0, rfl, ?_⟩
    have : 0 < 256 ^ w := Nat.pow_pos (by omega)
    unfold InRange
    split <;> omega
  | .float w _, _, _ => ⟨_, rfl, _, rfl⟩
  | .unit, _, _ => ⟨_, rfl, rfl⟩
  | .struct fs _ _, hp, hw => by
    obtain ⟨vs, h1, h2⟩ := dfltFieldsVal_fits fs hp hw.1
    exact ⟨.struct vs, by simp only [dfltVal, h1], vs, rfl, h2⟩
  | .variant ts l, hp, hw => by
    obtain ⟨t, ht, p, h1, h2⟩ := dfltTermVal_fits ts l.dflt hp.2 hw.1 hw.2.dflt
    exact ⟨_, h1, filter_plain hp.1 hp.2 ht h2⟩
  | .array e n _ _, hp, hw => by
    obtain ⟨v, h1, h2⟩ := dfltVal_fits e hp hw.1
    refine ⟨.arr (List.replicate n v), by simp only [dfltVal, h1], _, rfl, by simp, fun x hx => ?_⟩
    rw [List.eq_of_mem_replicate hx]; exact h2
  | .vector e l, _, _ => ⟨_, rfl, [], rfl, by simp, by simp, by simp⟩
termination_by structural t => t
theorem dfltFieldsVal_fits : ∀ fs : Fields, PlainFields fs → WFFields fs →
    ∃ vs, dfltFieldsVal fs = some vs ∧ FitsFields fs vs
  | .nil, _, _ => ⟨[], rfl, rfl⟩
  | .cons c o t r, hp, hw => by
    obtain ⟨v, h1, h2⟩ := dfltVal_fits t hp.1 hw.1
    obtain ⟨vs, h3, h4⟩ := dfltFieldsVal_fits r hp.2 hw.2
    exact ⟨(c, v) :: vs, by simp only [dfltFieldsVal, h1, h3], v, vs, rfl, h2, h4⟩
termination_by structural fs => fs
theorem dfltTermVal_fits : ∀ (ts : Terms) (i : Nat), PlainTerms ts → WFTerms ts → i < ts.toList.length →
    ∃ t ∈ ts.toList, ∃ p, dfltTermVal ts i = some (.variant t.name p) ∧ Fits t.ty p
  | .nil, i, _, _, hi => by simp [Terms.toList] at hi
  | .cons n g as t r, 0, hp, hw, _ => by
    obtain ⟨v, h1, h2⟩ := dfltVal_fits t hp.2.1 hw.1
    refine ⟨⟨n, g, as, t⟩, by simp [Terms.toList], v, ?_, h2⟩
    simp only [dfltTermVal, hp.1, attrsAllow, h1]
  | .cons n g as t r, i + 1, hp, hw, hi => by
    simp only [Terms.toList, List.length_cons] at hi
    obtain ⟨u, hu, p, h1, h2⟩ := dfltTermVal_fits r i hp.2.2 hw.2 (by omega)
    exact ⟨u, by simp [Terms.toList, hu], p, by simp only [dfltTermVal, h1], h2⟩
termination_by structural ts => ts
end

theorem conv_unit (F : Nat → Nat → Nat → Nat) (t : Ty) : conv F t .unit = dfltVal t := by
  cases t <;> simp [conv, dfltVal]

theorem mapAll_defined {f : Val → Option Val} {P : Val → Prop} : ∀ {l : List Val},
    (∀ x ∈ l, ∃ y, f x = some y ∧ P y) → ∃ l', mapAll f l = some l' ∧ l'.length = l.length ∧ ∀ y ∈ l', P y
  | [], _ => ⟨[], rfl, rfl, by simp⟩
  | x :: l, h => by
    obtain ⟨y, h1, h2⟩ := h x (by simp)
    obtain ⟨l', h3, h4, h5⟩ := mapAll_defined (l := l) fun z hz => h z (by simp [hz])
    refine ⟨y :: l', by simp only [mapAll, h1, h3], by simp [h4], fun z hz => ?_⟩
    rcases List.mem_cons.1 hz with rfl | hz
    · exact h2
    · exact h5 z hz

theorem fitsFields_get : ∀ {fs : Fields} {vs : List (Comp × Val)} {c : Comp} {v : Val}, FitsFields fs vs →
    vs.lookup c = some v → ∃ x ∈ fs.toList, x.1 = c ∧ Fits x.2.2 v
  | .nil, vs, c, v, h, hl => by
    simp only [FitsFields] at h; subst h; simp at hl
  | .cons d o t r, vs, c, v, h, hl => by
    obtain ⟨w, rest, rfl, h1, h2⟩ := h
    simp only [List.lookup_cons] at hl
    split at hl
    · rename_i e
      cases hl
      exact ⟨(d, o, t), by simp [Fields.toList], by simpa using (beq_iff_eq.1 e).symm, h1⟩
    · obtain ⟨x, hx, h3⟩ := fitsFields_get h2 hl
      exact ⟨x, by simp [Fields.toList, hx], h3⟩

theorem convNamed_plain (F : Nat → Nat → Nat → Nat) {c : Comp} {p : Val} : ∀ {ts : Terms} {u : Term},
    (ts.toList.map (·.name)).Nodup → PlainTerms ts → u ∈ ts.toList → u.name = c →
    convNamed F ts c p = (conv F u.ty p).map (.variant c)
  | .nil, u, _, _, hu, _ => by simp [Terms.toList] at hu
  | .cons n g as t r, u, hn, hp, hu, hc => by
    simp only [Terms.toList, List.map_cons, List.nodup_cons] at hn
    simp only [Terms.toList, List.mem_cons] at hu
    simp only [convNamed]
    rcases hu with rfl | hu
    · simp only at hc
      rw [if_pos hc, hp.1]
      simp only [attrsAllow]
      cases conv F t p <;> simp [hc]
    · rw [if_neg fun e => hn.1 (List.mem_map.2 ⟨u, hu, by rw [hc, e]⟩)]
      exact convNamed_plain F hn.2 hp.2.2 hu hc

theorem convAt_plain (F : Nat → Nat → Nat → Nat) {p : Val} : ∀ {ts : Terms} {i : Nat} {u : Term},
    PlainTerms ts → ts.toList[i]? = some u → convAt F ts i p = (conv F u.ty p).map (.variant u.name)
  | .nil, i, u, _, hu => by simp [Terms.toList] at hu
  | .cons n g as t r, 0, u, hp, hu => by
    simp only [Terms.toList, List.getElem?_cons_zero, Option.some.injEq] at hu
    subst hu
    simp only [convAt, hp.1, attrsAllow]
    cases conv F t p <;> rfl
  | .cons n g as t r, i + 1, u, hp, hu => by
    simp only [Terms.toList, List.getElem?_cons_succ] at hu
    simp only [convAt]
    exact convAt_plain F hp.2.2 hu

mutual
/-- A receiver sees a value of its own schema. -/
theorem evolves_conv (F : Nat → Nat → Nat → Nat) : ∀ (d h : Ty) (v : Val), Evolves d h → Plain d → WF d →
    Plain h → Fits h v → ∃ x, conv F d v = some x ∧ Fits d x
  | .unit, h, v, _, _, _, _, _ => ⟨.unit, by simp [conv], rfl⟩
  | .int w s al, h, v, he, hp, hw, _, hf => by
    cases h <;> simp only [Evolves] at he
    · obtain ⟨x, rfl, _⟩ := hf
      exact ⟨.int (wrapInt w s x), by simp only [conv], _, rfl, wrapInt_range ..⟩
    · simp only [Fits] at hf; subst hf
      rw [conv_unit]; exact dfltVal_fits _ hp hw
  | .float w al, h, v, he, hp, hw, hph, hf => by
    cases h <;> simp only [Evolves] at he
    · rename_i sw sal
      obtain ⟨x, rfl⟩ := hf
      exact ⟨.float w (if sw = w then x else F sw w x % 256 ^ w), by simp only [conv], _, rfl⟩
    · simp only [Fits] at hf; subst hf
      rw [conv_unit]; exact dfltVal_fits _ hp hw
  | .struct dfs sz al, h, v, he, hp, hw, hph, hf => by
    cases h <;> simp only [Evolves] at he
    · simp only [Fits] at hf; subst hf
      rw [conv_unit]; exact dfltVal_fits _ hp hw
    · obtain ⟨vs, rfl, hf⟩ := hf
      obtain ⟨ws, h1, h2⟩ := evolvesFields_conv F dfs _ vs he hp hw.1 hph hf
      exact ⟨.struct ws, by simp only [conv, h1], ws, rfl, h2⟩
  | .variant dts dl, h, v, he, hp, hw, hph, hf => by
    cases h <;> simp only [Evolves] at he
    · simp only [Fits] at hf; subst hf
      rw [conv_unit]; exact dfltVal_fits _ hp hw
    · rename_i sts sl
      obtain ⟨c, p, rfl, hf, hl⟩ := hf
      simp only [Plain] at hp hph
      simp only [WF] at hw
      obtain ⟨s, hs'⟩ := List.length_eq_one_iff.1 hl
      have hmem : s ∈ sts.toList.filter fun t => decide (t.name = c ∧ attrsAllow p t.attrs = some true) := by
        rw [hs']; simp
      obtain ⟨hs, h2⟩ := List.mem_filter.1 hmem
      obtain ⟨hc, ha⟩ := of_decide_eq_true h2
      have hfs := (FitsTerms_iff.1 hf s hs hc).2 ha
      obtain ⟨g1, g2⟩ := he.2 s hs
      have hps := (PlainTerms_iff.1 hph.2 s hs).2
      by_cases hn : dts.hasName c = true
      · obtain ⟨u, hu, hun⟩ := hasName_iff.1 hn
        obtain ⟨x, h3, h4⟩ := evolvesTerms_conv F dts u s.ty p hu
          (EvolvesNamed_iff.1 g1 u hu (by rw [hun, hc])) hp.2 hw.1 hps hfs
        refine ⟨.variant c x, ?_, by rw [← hun]; exact filter_plain hp.1 hp.2 hu h4⟩
        simp only [conv, hn, if_true]
        rw [convNamed_plain F hp.1 hp.2 hu hun, h3]; rfl
      · have hn' : dts.hasName s.name = false := by rw [hc]; simpa using hn
        obtain ⟨u, hu⟩ : ∃ u, dts.toList[dl.dflt]? = some u := ⟨_, List.getElem?_eq_getElem hw.2.dflt⟩
        have hum := List.mem_of_getElem? hu
        obtain ⟨x, h3, h4⟩ := evolvesTerms_conv F dts u s.ty p hum (evolvesAt_iff.1 (g2 hn') u hu) hp.2 hw.1 hps hfs
        refine ⟨.variant u.name x, ?_, filter_plain hp.1 hp.2 hum h4⟩
        simp only [conv, hn, if_false, Bool.false_eq_true]
        rw [convAt_plain F hp.2 hu, h3]; rfl
  | .array de n esz al, h, v, he, hp, hw, hph, hf => by
    cases h <;> simp only [Evolves] at he
    · simp only [Fits] at hf; subst hf
      rw [conv_unit]; exact dfltVal_fits _ hp hw
    · obtain ⟨xs, rfl, hl, hx⟩ := hf
      obtain ⟨ws, h1, h2, h3⟩ := mapAll_defined (f := conv F de) (P := Fits de) (l := xs.take n)
        fun x hx' => evolves_conv F de _ x he hp hw.1 hph (hx x (List.mem_of_mem_take hx'))
      simp only [conv, h1]
      rw [List.length_take] at h2
      split
      · obtain ⟨y, h4, h5⟩ := dfltVal_fits de hp hw.1
        simp only [h4]
        refine ⟨_, rfl, _, rfl, by simp; omega, fun x hx => ?_⟩
        rcases List.mem_append.1 hx with hx | hx
        · exact h3 x hx
        · rw [List.eq_of_mem_replicate hx]; exact h5
      · exact ⟨_, rfl, _, rfl, by omega, h3⟩
  | .vector de dl, h, v, he, hp, hw, hph, hf => by
    cases h <;> simp only [Evolves] at he
    · simp only [Fits] at hf; subst hf
      rw [conv_unit]; exact dfltVal_fits _ hp hw
    · obtain ⟨xs, rfl, hl, _, hx⟩ := hf
      have hcut : ∀ x ∈ cutTo dl.maxLen xs, x ∈ xs := by
        intro x hx'
        unfold cutTo at hx'
        split at hx'
        · exact hx'
        · exact List.mem_of_mem_take hx'
      obtain ⟨ws, h1, h2, h3⟩ := mapAll_defined (f := conv F de) (P := Fits de) (l := cutTo dl.maxLen xs)
        fun x hx' => evolves_conv F de _ x he.1 hp hw.1 hph (hx x (hcut x hx'))
      refine ⟨.vec ws, by simp only [conv, h1], ws, rfl, ?_, fun m hm => ?_, h3⟩
      · rw [h2]
        unfold cutTo
        split
        · exact hl
        · rw [List.length_take]; omega
      · rw [h2, hm]
        simp only [cutTo, List.length_take]
        omega
termination_by structural d => d
theorem evolvesFields_conv (F : Nat → Nat → Nat → Nat) : ∀ (dfs sfs : Fields) (vs : List (Comp × Val)),
    EvolvesFields dfs sfs → PlainFields dfs → WFFields dfs → PlainFields sfs → FitsFields sfs vs →
    ∃ ws, convFields F dfs vs = some ws ∧ FitsFields dfs ws
  | .nil, _, _, _, _, _, _, _ => ⟨[], rfl, rfl⟩
  | .cons c o t r, sfs, vs, he, hp, hw, hps, hf => by
    simp only [EvolvesFields] at he
    obtain ⟨ws, h1, h2⟩ := evolvesFields_conv F r sfs vs he.2 hp.2 hw.2 hps hf
    cases hl : vs.lookup c with
    | none =>
      obtain ⟨w, h3, h4⟩ := dfltVal_fits t hp.1 hw.1
      exact ⟨(c, w) :: ws, by simp only [convFields, hl, h1, h3], w, ws, rfl, h4, h2⟩
    | some v =>
      obtain ⟨x, hx, hxc, hxf⟩ := fitsFields_get hf hl
      obtain ⟨w, h3, h4⟩ := evolves_conv F t x.2.2 v (he.1 x hx hxc) hp.1 hw.1 (PlainFields_iff.1 hps x hx) hxf
      exact ⟨(c, w) :: ws, by simp only [convFields, hl, h1, h3], w, ws, rfl, h4, h2⟩
termination_by structural dfs => dfs
theorem evolvesTerms_conv (F : Nat → Nat → Nat → Nat) : ∀ (dts : Terms) (u : Term) (sty : Ty) (v : Val),
    u ∈ dts.toList → Evolves u.ty sty → PlainTerms dts → WFTerms dts → Plain sty → Fits sty v →
    ∃ x, conv F u.ty v = some x ∧ Fits u.ty x
  | .nil, u, _, _, hu, _, _, _, _, _ => by simp [Terms.toList] at hu
  | .cons n g as t r, u, sty, v, hu, he, hp, hw, hps, hf => by
    simp only [Terms.toList, List.mem_cons] at hu
    rcases hu with rfl | hu
    · exact evolves_conv F t sty v he hp.2.1 hw.1 hps hf
    · exact evolvesTerms_conv F r u sty v hu he hp.2.2 hw.2 hps hf
termination_by structural dts => dts
end

/-! ## There and back -/

theorem wrapInt_back {w w' : Nat} {s s' : Sign} {x : Int} (hw : w ≤ w') (h : InRange w s x) :
    wrapInt w s (wrapInt w' s' x) = x := by
  have key : (wrapInt w' s' x) % ((256 ^ w : Nat) : Int) = x % ((256 ^ w : Nat) : Int) := by
    obtain ⟨k, rfl⟩ := Nat.exists_eq_add_of_le hw
    have hd : ((256 ^ w : Nat) : Int) ∣ ((256 ^ (w + k) : Nat) : Int) :=
      Int.natCast_dvd_natCast.2 ⟨256 ^ k, Nat.pow_add ..⟩
    have hpos : (0 : Int) < ((256 ^ (w + k) : Nat) : Int) := by
      have : 0 < 256 ^ (w + k) := Nat.pow_pos (by omega)
      omega
    have h1 := Int.emod_nonneg x (Int.ne_of_gt hpos)
    have h2 := Int.emod_lt_of_pos x hpos
    have hc : ((x % ((256 ^ (w + k) : Nat) : Int)).toNat : Int) = x % ((256 ^ (w + k) : Nat) : Int) := by omega
    unfold wrapInt intValue toSigned
    split
    · split
      · rw [hc, Int.emod_emod_of_dvd _ hd]
      · rw [hc, Int.sub_emod, Int.emod_emod_of_dvd _ hd, Int.emod_eq_zero_of_dvd hd]
        simp
    · rw [hc, Int.emod_emod_of_dvd _ hd]
  rw [show wrapInt w s (wrapInt w' s' x) = wrapInt w s x by unfold wrapInt; rw [← key]; rfl]
  exact wrapInt_inRange h

theorem convFields_get (F : Nat → Nat → Nat → Nat) {vs : List (Comp × Val)} : ∀ {fs : Fields}
    {ws : List (Comp × Val)} {x : Comp × Nat × Ty} {v : Val}, (fs.toList.map (·.1)).Nodup →
    convFields F fs vs = some ws → x ∈ fs.toList → vs.lookup x.1 = some v →
    ∃ w, ws.lookup x.1 = some w ∧ conv F x.2.2 v = some w
  | .nil, ws, x, v, _, _, hx, _ => by simp [Fields.toList] at hx
  | .cons c o t r, ws, x, v, hn, h, hx, hl => by
    simp only [Fields.toList, List.map_cons, List.nodup_cons] at hn
    simp only [Fields.toList, List.mem_cons] at hx
    simp only [convFields] at h
    split at h
    · rename_i w ws' h1 h2
      cases h
      rcases hx with rfl | hx
      · simp only at hl
        simp only [hl] at h1
        exact ⟨w, by simp, h1⟩
      · obtain ⟨y, h3, h4⟩ := convFields_get F hn.2 h2 hx hl
        refine ⟨y, ?_, h4⟩
        have : ¬ x.1 = c := fun e => hn.1 (List.mem_map.2 ⟨x, hx, e⟩)
        rw [List.lookup_cons]
        rw [beq_false_of_ne this]; exact h3
    · cases h

theorem lookup_of_mem {c : Comp} {v : Val} : ∀ {vs : List (Comp × Val)}, (vs.map (·.1)).Nodup → (c, v) ∈ vs →
    vs.lookup c = some v
  | [], _, h => by cases h
  | (d, w) :: vs, hn, h => by
    simp only [List.map_cons, List.nodup_cons] at hn
    rcases List.mem_cons.1 h with h | h
    · cases h; simp
    · have : ¬ c = d := fun e => hn.1 (List.mem_map.2 ⟨(c, v), h, e⟩)
      rw [List.lookup_cons]
      rw [beq_false_of_ne this]; exact lookup_of_mem hn.2 h

theorem mapAll_back {f g : Val → Option Val} : ∀ {l l' : List Val},
    (∀ x ∈ l, ∀ y, f x = some y → g y = some x) → mapAll f l = some l' → mapAll g l' = some l
  | [], l', _, h => by simp only [mapAll, Option.some.injEq] at h; subst h; rfl
  | x :: l, l', hg, h => by
    simp only [mapAll] at h
    split at h
    · rename_i y ys h1 h2
      cases h
      simp only [mapAll, hg x (by simp) y h1, mapAll_back (fun z hz => hg z (by simp [hz])) h2]
    · cases h

theorem mapAll_len {f : Val → Option Val} : ∀ {l l' : List Val}, mapAll f l = some l' → l'.length = l.length
  | [], l', h => by simp only [mapAll, Option.some.injEq] at h; subst h; rfl
  | x :: l, l', h => by
    simp only [mapAll] at h
    split at h
    · rename_i y ys h1 h2
      cases h
      simp [mapAll_len h2]
    · cases h

mutual
theorem kept_back (F : Nat → Nat → Nat → Nat) : ∀ (o n : Ty) (v x : Val), Kept o n → Plain o → Plain n →
    WF o → WF n → Fits o v → conv F n v = some x → conv F o x = some v
  | .unit, n, v, x, _, _, _, _, _, hf, _ => by
    simp only [Fits] at hf; subst hf; simp [conv]
  | .int w s al, n, v, x, hk, _, _, _, _, hf, hc => by
    obtain ⟨w', s', al', rfl, hw⟩ := hk
    obtain ⟨i, rfl, hi⟩ := hf
    simp only [conv, Option.some.injEq] at hc
    subst hc
    simp only [conv, wrapInt_back hw hi]
  | .float w al, n, v, x, hk, _, _, _, _, hf, hc => by
    obtain ⟨al', rfl⟩ := hk
    obtain ⟨b, rfl⟩ := hf
    simp only [conv, if_true, Option.some.injEq] at hc
    subst hc
    simp [conv]
  | .struct fs _ _, n, v, x, hk, hpo, hpn, hwo, hwn, hf, hc => by
    obtain ⟨nfs, sz, al, rfl, hk⟩ := hk
    obtain ⟨vs, rfl, hf⟩ := hf
    simp only [conv] at hc
    split at hc
    · rename_i ws hws
      cases hc
      simp only [WF] at hwo hwn
      simp only [conv]
      rw [keptFields_back F fs nfs vs vs ws hk hpo hpn hwo.1 hwn.1 hwn.2.names hf ?_ hws]
      intro c v hm
      have hnd : (vs.map (·.1)).Nodup := by rw [FitsFields_keys hf]; exact hwo.2.names
      exact lookup_of_mem hnd hm
    · cases hc
  | .variant ts l, n, v, x, hk, hpo, hpn, hwo, hwn, hf, hc => by
    obtain ⟨nts, nl, rfl, hk⟩ := hk
    obtain ⟨c, p, rfl, hf, hl⟩ := hf
    simp only [Plain] at hpo hpn
    simp only [WF] at hwo hwn
    obtain ⟨s, hs'⟩ := List.length_eq_one_iff.1 hl
    have hmem : s ∈ ts.toList.filter fun t => decide (t.name = c ∧ attrsAllow p t.attrs = some true) := by
      rw [hs']; simp
    obtain ⟨hs, h2⟩ := List.mem_filter.1 hmem
    obtain ⟨hsc, ha⟩ := of_decide_eq_true h2
    have hfs := (FitsTerms_iff.1 hf s hs hsc).2 ha
    obtain ⟨u, hu, hun, hb⟩ := keptTerms_back F ts nts s hk hpo.2 hpn.2 hwo.1 hwn.1 hs
    have hnm : nts.hasName c = true := hasName_iff.2 ⟨u, hu, by rw [hun, hsc]⟩
    have hno : ts.hasName c = true := hasName_iff.2 ⟨s, hs, hsc⟩
    simp only [conv, hnm, if_true] at hc
    rw [convNamed_plain F hpn.1 hpn.2 hu (by rw [hun, hsc])] at hc
    cases hw : conv F u.ty p with
    | none => rw [hw] at hc; cases hc
    | some w =>
      rw [hw] at hc
      cases hc
      simp only [conv, hno, if_true]
      rw [convNamed_plain F hpo.1 hpo.2 hs hsc, hb p w hfs hw]; rfl
  | .array e k _ _, n, v, x, hk, hpo, hpn, hwo, hwn, hf, hc => by
    obtain ⟨ne, nk, esz, al, rfl, hle, hk⟩ := hk
    obtain ⟨xs, rfl, hl, hx⟩ := hf
    simp only [WF] at hwo hwn
    simp only [conv] at hc
    rw [List.take_of_length_le (by omega)] at hc
    split at hc
    · cases hc
    · rename_i ws hws
      have hlen := mapAll_len hws
      have hb := mapAll_back (g := conv F e) (fun z hz y hy =>
        kept_back F e ne z y hk hpo hpn hwo.1 hwn.1 (hx z hz) hy) hws
      split at hc
      · split at hc
        · cases hc
          simp only [conv]
          rw [List.take_append_of_le_length (by omega), List.take_of_length_le (by omega), hb]
          simp only [List.length_append, List.length_replicate]
          rw [if_neg (by omega)]
        · cases hc
      · cases hc
        simp only [conv]
        rw [List.take_of_length_le (by omega), hb]
        simp only
        rw [if_neg (by omega)]
  | .vector e l, n, v, x, hk, hpo, hpn, hwo, hwn, hf, hc => by
    obtain ⟨ne, nl, rfl, hk, hm⟩ := hk
    obtain ⟨xs, rfl, hl, hlm, hx⟩ := hf
    simp only [WF] at hwo hwn
    have hcut : cutTo nl.maxLen xs = xs := by
      unfold cutTo
      split
      · rfl
      · rename_i m' hm'
        obtain ⟨m, h1, h2⟩ := hm m' hm'
        have := hlm m h1
        exact List.take_of_length_le (by omega)
    simp only [conv, hcut] at hc
    split at hc
    · rename_i ws hws
      cases hc
      have hlen := mapAll_len hws
      have hb := mapAll_back (g := conv F e) (fun z hz y hy =>
        kept_back F e ne z y hk hpo hpn hwo.1 hwn.1 (hx z hz) hy) hws
      have hcut' : cutTo l.maxLen ws = ws := by
        unfold cutTo
        split
        · rfl
        · rename_i m hm'
          have := hlm m hm'
          exact List.take_of_length_le (by omega)
      simp only [conv, hcut', hb]
    · cases hc
termination_by structural o => o
theorem keptFields_back (F : Nat → Nat → Nat → Nat) : ∀ (fs nfs : Fields) (vs all ws : List (Comp × Val)),
    KeptFields fs nfs → PlainFields fs → PlainFields nfs → WFFields fs → WFFields nfs →
    (nfs.toList.map (·.1)).Nodup → FitsFields fs vs → (∀ c v, (c, v) ∈ vs → all.lookup c = some v) →
    convFields F nfs all = some ws → convFields F fs ws = some vs
  | .nil, nfs, vs, all, ws, _, _, _, _, _, _, hf, _, _ => by
    simp only [FitsFields] at hf; subst hf; rfl
  | .cons c o t r, nfs, vs, all, ws, hk, hpo, hpn, hwo, hwn, hnd, hf, ha, hc => by
    obtain ⟨v, rest, rfl, h1, h2⟩ := hf
    simp only [KeptFields] at hk
    obtain ⟨⟨x, hx, rfl, hkx⟩, hk'⟩ := hk
    have h3 := keptFields_back F r nfs rest all ws hk' hpo.2 hpn hwo.2 hwn hnd h2
      (fun c v hm => ha c v (by simp [hm])) hc
    obtain ⟨w, h4, h5⟩ := convFields_get F hnd hc hx (ha x.1 v (by simp))
    have h6 := kept_back F t x.2.2 v w hkx hpo.1 (PlainFields_iff.1 hpn x hx) hwo.1 (WFFields_iff.1 hwn x hx) h1 h5
    simp only [convFields, h4, h6, h3]
termination_by structural fs => fs
theorem keptTerms_back (F : Nat → Nat → Nat → Nat) : ∀ (ts nts : Terms) (s : Term), KeptTerms ts nts →
    PlainTerms ts → PlainTerms nts → WFTerms ts → WFTerms nts → s ∈ ts.toList →
    ∃ u ∈ nts.toList, u.name = s.name ∧
      ∀ p x, Fits s.ty p → conv F u.ty p = some x → conv F s.ty x = some p
  | .nil, _, s, _, _, _, _, _, hs => by simp [Terms.toList] at hs
  | .cons n g as t r, nts, s, hk, hpo, hpn, hwo, hwn, hs => by
    simp only [KeptTerms] at hk
    simp only [Terms.toList, List.mem_cons] at hs
    rcases hs with rfl | hs
    · obtain ⟨⟨u, hu, hun, hku⟩, _⟩ := hk
      exact ⟨u, hu, hun, fun p x hf hc => kept_back F t u.ty p x hku hpo.2.1 (PlainTerms_iff.1 hpn u hu).2 hwo.1
        (terms_WF _ hwn u hu) hf hc⟩
    · exact keptTerms_back F r nts s hk.2 hpo.2.2 hpn hwo.2 hwn hs
termination_by structural ts => ts
end

end PJ
