import Verif.Lemmas.AnyLayout
import Verif.Lemmas.Tight
/-!
# The terms decoding into an `Any` uses

Vector hoisting gives a variant several terms of one name; reflection drops their attributes, so that the
transcoder always takes the first one.  `lead host t` is `t` with these terms only.
-/
namespace PJ

/-- The first term for every name. -/
def leadTerms : Terms → List Term → Terms
  | .nil, _ => .nil
  | .cons n _ _ _ r, ts =>
    match ts.find? (fun t => t.name == n) with
    | some u => .cons u.name u.tag u.attrs u.ty (leadTerms r ts)
    | none => leadTerms r ts

mutual
def lead : Ty → Ty → Ty
  | .struct hfs _ _, t =>
    match t with
    | .struct fs sz al => .struct (leadFields hfs fs) sz al
    | t => t
  | .variant hts hl, t =>
    match t with
    | .variant ts l => .variant (leadTerms hts ts.toList) { l with dflt := hl.dflt }
    | t => t
  | .int _ _ _, t => t
  | .float _ _, t => t
  | .unit, t => t
  | .array _ _ _ _, t => t
  | .vector _ _, t => t
def leadFields : Fields → Fields → Fields
  | .nil, fs => fs
  | .cons _ _ h hr, fs =>
    match fs with
    | .cons c o t r => .cons c o (lead h t) (leadFields hr r)
    | .nil => .nil
end

theorem LeadTerms.cons {n : Comp} {g : Nat} {as : List Attr} {t : Ty} {r : Terms} {ts : List Term}
    (h : LeadTerms (Terms.cons n g as t r).toList ts) :
    (∃ u, ts.find? (fun t => t.name == n) = some u ∧ u.name = n ∧ u.tag = g ∧ u.ty.bare = t.bare ∧ u ∈ ts) ∧
    LeadTerms r.toList ts := by
  refine ⟨?_, fun x hx => h x (by simp [Terms.toList, hx])⟩
  obtain ⟨u, h1, h2, h3⟩ := h ⟨n, g, as, t⟩ (by simp [Terms.toList])
  exact ⟨u, h1, by simpa using List.find?_some h1, h2, h3, List.mem_of_find?_eq_some h1⟩

theorem leadTerms_mem : ∀ (hts : Terms) (ts : List Term), ∀ u ∈ (leadTerms hts ts).toList, u ∈ ts
  | .nil, ts, u, hu => by simp [leadTerms, Terms.toList] at hu
  | .cons n _ _ _ r, ts, u, hu => by
    simp only [leadTerms] at hu
    split at hu
    · rename_i x hx
      simp only [Terms.toList, List.mem_cons] at hu
      rcases hu with rfl | hu
      · exact List.mem_of_find?_eq_some hx
      · exact leadTerms_mem r ts u hu
    · exact leadTerms_mem r ts u hu

theorem leadTerms_eq_bare : ∀ (hts : Terms) (ts : List Term), LeadTerms hts.toList ts → (∀ t ∈ ts, t.attrs = []) →
    (leadTerms hts ts).bare = hts.bare
  | .nil, _, _, _ => rfl
  | .cons n g as t r, ts, h, ha => by
    obtain ⟨⟨u, h1, h2, h3, h4, h5⟩, hr⟩ := h.cons
    simp only [leadTerms, h1, Terms.bare, h2, h3, h4, leadTerms_eq_bare r ts hr ha]

theorem leadTerms_find : ∀ (hts : Terms) (ts : List Term), LeadTerms hts.toList ts → ∀ h ∈ hts.toList,
    (leadTerms hts ts).toList.find? (fun t => t.name == h.name) = ts.find? (fun t => t.name == h.name)
  | .nil, _, _, h, hh => by simp [Terms.toList] at hh
  | .cons n g as t r, ts, hl, h, hh => by
    obtain ⟨⟨u, h1, h2, h3, h4, h5⟩, hr⟩ := hl.cons
    simp only [leadTerms, h1, Terms.toList, List.find?_cons]
    by_cases hn : n = h.name
    · have : (u.name == n) = true := by simpa using h2
      simp only [← hn, h1, this]
    · have : (u.name == h.name) = false := by simpa [h2] using hn
      simp only [this]
      simp only [Terms.toList, List.mem_cons] at hh
      rcases hh with rfl | hh
      · exact absurd rfl hn
      · exact leadTerms_find r ts hr h hh

theorem leadTerms_self : ∀ (hts ts : Terms) (all : List Term),
    hts.toList.map (·.name) = ts.toList.map (·.name) →
    (∀ u ∈ ts.toList, all.find? (fun t => t.name == u.name) = some u) → leadTerms hts all = ts
  | .nil, ts, _, he, _ => by cases ts <;> simp [Terms.toList] at he; rfl
  | .cons n g as t r, ts, all, he, hf => by
    cases ts with
    | nil => simp [Terms.toList] at he
    | cons n' g' as' t' r' =>
      simp only [Terms.toList, List.map_cons, List.cons.injEq] at he
      obtain ⟨rfl, he⟩ := he
      have h1 := hf ⟨n, g', as', t'⟩ (by simp [Terms.toList])
      simp only at h1
      simp only [leadTerms, h1, leadTerms_self r r' all he fun u hu => hf u (by simp [Terms.toList, hu])]

/-! ## What stays -/

mutual
theorem reflectable_leads : ∀ (h t : Ty), Leads h t → Leads h (reflectable t)
  | .int _ _ _, t, hl => by simp only [Leads] at hl ⊢; rw [reflectable_bare, hl]
  | .float _ _, t, hl => by simp only [Leads] at hl ⊢; rw [reflectable_bare, hl]
  | .unit, t, hl => by simp only [Leads] at hl ⊢; rw [reflectable_bare, hl]
  | .array _ _ _ _, t, hl => by simp only [Leads] at hl ⊢; rw [reflectable_bare, hl]
  | .vector _ _, t, hl => by simp only [Leads] at hl ⊢; rw [reflectable_bare, hl]
  | .struct hfs _ _, t, hl => by
    obtain ⟨fs, sz, al, rfl, hl⟩ := hl
    exact ⟨_, _, _, rfl, reflectableFields_leads hfs fs 0 1 hl⟩
  | .variant hts _, t, hl => by
    obtain ⟨ts, l, rfl, hl, hu⟩ := hl
    refine ⟨_, _, rfl, ?_⟩
    rw [reflectableTerms_toList]
    exact ⟨hl.map _ (fun _ => rfl) (fun _ => rfl) fun t => reflectable_bare t.ty,
      hu.map _ fun t => reflectable_bare t.ty⟩
termination_by structural h => h
theorem reflectableFields_leads : ∀ (hfs fs : Fields) (off al : Nat), LeadsFields hfs fs →
    LeadsFields hfs (reflectableFields fs off al).1
  | .nil, fs, off, al, hl => by simp only [LeadsFields] at hl; subst hl; rfl
  | .cons c o h hr, fs, off, al, hl => by
    obtain ⟨o', t, r, rfl, h1, h2⟩ := hl
    exact ⟨_, _, _, rfl, reflectable_leads h t h1, reflectableFields_leads hr r _ _ h2⟩
termination_by structural hfs => hfs
end

theorem NoAttrsTerms_iff : ∀ {ts : Terms}, NoAttrsTerms ts ↔ ∀ t ∈ ts.toList, t.attrs = [] ∧ NoAttrs t.ty
  | .nil => by simp [NoAttrsTerms, Terms.toList]
  | .cons n g as t r => by simp [NoAttrsTerms, Terms.toList, NoAttrsTerms_iff (ts := r), and_assoc]

theorem DynTerms_iff : ∀ {ts : Terms}, DynTerms ts ↔ ∀ t ∈ ts.toList, Dyn t.ty
  | .nil => by simp [DynTerms, Terms.toList]
  | .cons n g as t r => by simp [DynTerms, Terms.toList, DynTerms_iff (ts := r)]

mutual
theorem lead_bare : ∀ (h t : Ty), Leads h t → NoAttrs t → (lead h t).bare = h.bare
  | .int _ _ _, t, hl, _ => hl
  | .float _ _, t, hl, _ => hl
  | .unit, t, hl, _ => hl
  | .array _ _ _ _, t, hl, _ => hl
  | .vector _ _, t, hl, _ => hl
  | .struct hfs _ _, t, hl, hn => by
    obtain ⟨fs, sz, al, rfl, hl⟩ := hl
    simp only [lead, Ty.bare, leadFields_bare hfs fs hl hn]
  | .variant hts _, t, hl, hn => by
    obtain ⟨ts, l, rfl, hl, hun⟩ := hl
    simp only [lead, Ty.bare, leadTerms_eq_bare hts _ hl fun t ht => (NoAttrsTerms_iff.1 hn t ht).1]
termination_by structural h => h
theorem leadFields_bare : ∀ (hfs fs : Fields), LeadsFields hfs fs → NoAttrsFields fs →
    (leadFields hfs fs).bare = hfs.bare
  | .nil, fs, hl, _ => by simp only [LeadsFields] at hl; subst hl; rfl
  | .cons c o h hr, fs, hl, hn => by
    obtain ⟨o', t, r, rfl, h1, h2⟩ := hl
    simp only [leadFields, Fields.bare, lead_bare h t h1 hn.1, leadFields_bare hr r h2 hn.2]
termination_by structural hfs => hfs
end

mutual
theorem lead_keeps : ∀ (h t : Ty), (lead h t).size = t.size ∧ (lead h t).align = t.align ∧
    (lead h t).hasOut = t.hasOut ∧ (NoAttrs t → NoAttrs (lead h t)) ∧ (Dyn t → Dyn (lead h t)) ∧
    (t.noOut → (lead h t).noOut)
  | .int _ _ _, t => ⟨rfl, rfl, rfl, id, id, id⟩
  | .float _ _, t => ⟨rfl, rfl, rfl, id, id, id⟩
  | .unit, t => ⟨rfl, rfl, rfl, id, id, id⟩
  | .array _ _ _ _, t => ⟨rfl, rfl, rfl, id, id, id⟩
  | .vector _ _, t => ⟨rfl, rfl, rfl, id, id, id⟩
  | .struct hfs _ _, t => by
    cases t with
    | struct fs sz al =>
      obtain ⟨h1, h2, h3, h4⟩ := leadFields_keeps hfs fs
      exact ⟨rfl, rfl, h1, h2, h3, h4⟩
    | _ => exact ⟨rfl, rfl, rfl, id, id, id⟩
  | .variant hts hl, t => by
    cases t with
    | variant ts l =>
      have hm := leadTerms_mem hts ts.toList
      refine ⟨rfl, rfl, rfl, fun h => ?_, fun h => ?_, fun h => ?_⟩
      · exact NoAttrsTerms_iff.2 fun u hu => NoAttrsTerms_iff.1 h u (hm u hu)
      · exact ⟨h.1, h.2.1, DynTerms_iff.2 fun u hu => DynTerms_iff.1 h.2.2 u (hm u hu)⟩
      · exact ⟨h.1, noOut_of_terms fun u hu => terms_noOut ts h.2 u (hm u hu)⟩
    | _ => exact ⟨rfl, rfl, rfl, id, id, id⟩
termination_by structural h => h
theorem leadFields_keeps : ∀ (hfs fs : Fields), (leadFields hfs fs).hasOut = fs.hasOut ∧
    (NoAttrsFields fs → NoAttrsFields (leadFields hfs fs)) ∧ (DynFields fs → DynFields (leadFields hfs fs)) ∧
    (fs.noOut → (leadFields hfs fs).noOut)
  | .nil, fs => ⟨rfl, id, id, id⟩
  | .cons _ _ h hr, fs => by
    cases fs with
    | nil => exact ⟨rfl, id, id, id⟩
    | cons c o t r =>
      obtain ⟨_, _, g1, g2, g3, g4⟩ := lead_keeps h t
      obtain ⟨h1, h2, h3, h4⟩ := leadFields_keeps hr r
      simp only [leadFields]
      exact ⟨by simp only [Fields.hasOut, g1, h1], fun h => ⟨g2 h.1, h2 h.2⟩, fun h => ⟨g3 h.1, h3 h.2⟩,
        fun h => ⟨g4 h.1, h4 h.2⟩⟩
termination_by structural hfs => hfs
end

theorem leadFields_layout : ∀ (hfs fs : Fields),
    (leadFields hfs fs).toList.map (fun x => (x.1, x.2.1, x.2.2.size)) =
      fs.toList.map fun x => (x.1, x.2.1, x.2.2.size)
  | .nil, fs => rfl
  | .cons _ _ h hr, fs => by
    cases fs with
    | nil => rfl
    | cons c o t r =>
      simp only [leadFields, Fields.toList, List.map_cons, (lead_keeps h t).1, leadFields_layout hr r]

/-- Only names, offsets and sizes matter. -/
theorem FieldsLayout.of_map {l l' : List (Comp × Nat × Ty)} {sz : Nat}
    (he : l'.map (fun x => (x.1, x.2.1, x.2.2.size)) = l.map fun x => (x.1, x.2.1, x.2.2.size))
    (h : FieldsLayout l sz) : FieldsLayout l' sz := by
  have h1 : ∀ y ∈ l.map (fun x => (x.1, x.2.1, x.2.2.size)), y.2.1 + y.2.2 ≤ sz := by
    intro y hy
    obtain ⟨x, hx, rfl⟩ := List.mem_map.1 hy
    exact h.inside x hx
  have h2 : (l.map (fun x => (x.1, x.2.1, x.2.2.size))).Pairwise fun x y => Disj x.2.1 x.2.2 y.2.1 y.2.2 :=
    List.pairwise_map.2 h.disj
  have h3 : ((l.map (fun x => (x.1, x.2.1, x.2.2.size))).map (·.1)).Nodup := by
    rw [List.map_map]; exact h.names
  rw [← he] at h1 h2 h3
  refine ⟨fun x hx => h1 _ (List.mem_map_of_mem (f := fun x : Comp × Nat × Ty => (x.1, x.2.1, x.2.2.size)) hx),
    List.pairwise_map.1 h2, ?_⟩
  rw [List.map_map] at h3; exact h3

mutual
theorem lead_wf : ∀ (h t : Ty), Leads h t → NoAttrs t → WF h → WF t → WF (lead h t)
  | .int _ _ _, t, _, _, _, hw => hw
  | .float _ _, t, _, _, _, hw => hw
  | .unit, t, _, _, _, hw => hw
  | .array _ _ _ _, t, _, _, _, hw => hw
  | .vector _ _, t, _, _, _, hw => hw
  | .struct hfs _ _, t, hl, hn, hh, hw => by
    obtain ⟨fs, sz, al, rfl, hl⟩ := hl
    exact ⟨leadFields_wf hfs fs hl hn hh.1 hw.1, hw.2.of_map (leadFields_layout hfs fs)⟩
  | .variant hts vl, t, hl, hn, hh, hw => by
    obtain ⟨ts, l, rfl, hl, hun⟩ := hl
    simp only [WF] at hh hw
    have hm := leadTerms_mem hts ts.toList
    have hb := leadTerms_eq_bare hts _ hl fun t ht => (NoAttrsTerms_iff.1 hn t ht).1
    have ht : (leadTerms hts ts.toList).toList.map (·.tag) = hts.toList.map (·.tag) := by
      have := congrArg (List.map Prod.snd) (bare_tags hb)
      simp only [Terms.tagsOf, List.map_map] at this
      exact this
    refine ⟨WFTerms_iff.2 fun u hu => WFTerms_iff.1 hw.1 u (hm u hu), ?_⟩
    have hv := hw.2
    refine ⟨hv.tagW, by rw [ht]; exact hh.2.tags, fun u hu => hv.tagLt u (hm u hu), ?_, hv.tagIn,
      fun ho u hu => hv.inside ho u (hm u hu), fun ho u hu => hv.disj ho u (hm u hu)⟩
    have := congrArg List.length ht
    simp only [List.length_map] at this
    rw [this]
    exact hh.2.dflt
termination_by structural h => h
theorem leadFields_wf : ∀ (hfs fs : Fields), LeadsFields hfs fs → NoAttrsFields fs → WFFields hfs → WFFields fs →
    WFFields (leadFields hfs fs)
  | .nil, fs, _, _, _, hw => hw
  | .cons c o h hr, fs, hl, hn, hh, hw => by
    obtain ⟨o', t, r, rfl, h1, h2⟩ := hl
    exact ⟨lead_wf h t h1 hn.1 hh.1 hw.1, leadFields_wf hr r h2 hn.2 hh.2 hw.2⟩
termination_by structural hfs => hfs
end

/-! ## Reading -/

theorem Terms.enum_iff : ∀ {ts : Terms}, ts.enum = true ↔ ∀ t ∈ ts.toList, t.ty.isUnit = true
  | .nil => by simp [Terms.enum, Terms.toList]
  | .cons n g as t r => by simp [Terms.enum, Terms.toList, Terms.enum_iff (ts := r)]

theorem leadTerms_enum {hts ts : Terms} (hl : LeadTerms hts.toList ts.toList) (hu : LeadUnits hts.toList ts.toList) :
    (leadTerms hts ts.toList).enum = ts.enum := by
  rw [Bool.eq_iff_iff, Terms.enum_iff, Terms.enum_iff]
  constructor
  · intro h
    refine hu fun x hx => ?_
    obtain ⟨u, h1, _, h3⟩ := hl x hx
    rw [← leadTerms_find hts _ hl x hx] at h1
    rw [← bare_isUnit, ← h3, bare_isUnit]
    exact h u (List.mem_of_find?_eq_some h1)
  · exact fun h u hu => h u (leadTerms_mem hts _ u hu)

theorem anyTyTerm_some {m : Mem} {enum : Bool} {raw a : Nat} {x : AVal} : ∀ {ts : Terms}, anyTyTerm m enum ts raw a = some x →
    ∃ u ∈ ts.toList, u.tag = raw ∧ ∃ y, anyTy m u.ty a = some y ∧ x = .variant enum raw u.name y
  | .nil, h => by simp [anyTyTerm] at h
  | .cons n g as t r, h => by
    simp only [anyTyTerm] at h
    split at h
    · rename_i hg
      split at h
      · rename_i v hv
        cases h
        exact ⟨⟨n, g, as, t⟩, by simp [Terms.toList], hg, v, hv, rfl⟩
      · cases h
    · obtain ⟨u, hu, h1⟩ := anyTyTerm_some (ts := r) h
      exact ⟨u, by simp [Terms.toList, hu], h1⟩

theorem anyTyTerm_of {m : Mem} {enum : Bool} {raw a : Nat} {u : Term} {y : AVal} : ∀ {ts : Terms}, (ts.toList.map (·.tag)).Nodup →
    u ∈ ts.toList → u.tag = raw → anyTy m u.ty a = some y → anyTyTerm m enum ts raw a = some (.variant enum raw u.name y)
  | .nil, _, h, _, _ => by simp [Terms.toList] at h
  | .cons n g as t r, hn, h, hg, hy => by
    simp only [Terms.toList, List.map_cons, List.nodup_cons] at hn
    simp only [Terms.toList, List.mem_cons] at h
    simp only [anyTyTerm]
    rcases h with rfl | h
    · simp only at hg hy
      simp only [if_pos hg, hy]
    · have : g ≠ raw := fun he => hn.1 (List.mem_map.2 ⟨u, h, by rw [hg, he]⟩)
      rw [if_neg this]
      exact anyTyTerm_of hn.2 h hg hy

mutual
theorem anyTy_lead (m : Mem) : ∀ (h t : Ty) (a : Nat) (x : AVal), Leads h t → WF t → anyTy m (lead h t) a = some x →
    anyTy m t a = some x
  | .int _ _ _, t, _, _, _, _, hx => hx
  | .float _ _, t, _, _, _, _, hx => hx
  | .unit, t, _, _, _, _, hx => hx
  | .array _ _ _ _, t, _, _, _, _, hx => hx
  | .vector _ _, t, _, _, _, _, hx => hx
  | .struct hfs _ _, t, a, x, hl, hw, hx => by
    obtain ⟨fs, sz, al, rfl, hl⟩ := hl
    simp only [lead, anyTy] at hx ⊢
    split at hx
    · rename_i vs hvs
      cases hx
      simp only [anyTyFields_lead m hfs fs a vs hl hw.1 hvs]
    · cases hx
  | .variant hts vl, t, a, x, hl, hw, hx => by
    obtain ⟨ts, l, rfl, hl, hun⟩ := hl
    simp only [lead, anyTy, leadTerms_enum hl hun] at hx ⊢
    split at hx
    · cases hx
    · rename_i ho
      rw [if_neg ho]
      split at hx
      · rename_i ha
        rw [if_pos ha]
        obtain ⟨u, hu, h1, y, h2, rfl⟩ := anyTyTerm_some hx
        exact anyTyTerm_of hw.2.tags (leadTerms_mem hts _ u hu) h1 h2
      · cases hx
termination_by structural h => h
theorem anyTyFields_lead (m : Mem) : ∀ (hfs fs : Fields) (a : Nat) (vs : List (Comp × AVal)), LeadsFields hfs fs →
    WFFields fs → anyTyFields m (leadFields hfs fs) a = some vs → anyTyFields m fs a = some vs
  | .nil, fs, _, _, _, _, hx => hx
  | .cons c o h hr, fs, a, vs, hl, hw, hx => by
    obtain ⟨o', t, r, rfl, h1, h2⟩ := hl
    simp only [leadFields, anyTyFields] at hx ⊢
    split at hx
    · rename_i v rest hv hrest
      cases hx
      simp only [anyTy_lead m h t _ v h1 hw.1 hv, anyTyFields_lead m hr r a rest h2 hw.2 hrest]
    · cases hx
termination_by structural hfs => hfs
end

/-! ## Size of the out-of-line data -/

theorem finNamed_first {l : VarL} {c : Comp} {x : Val} {p : Nat} {u : Term} : ∀ {ts : Terms},
    (∀ t ∈ ts.toList, t.attrs = []) → ts.toList.find? (fun t => t.name == c) = some u →
    finNamed ts l c x p = fin u.ty x (if l.outline then p + u.ty.size else p)
  | .nil, _, h => by simp [Terms.toList] at h
  | .cons n g as t r, ha, h => by
    have has : as = [] := ha ⟨n, g, as, t⟩ (by simp [Terms.toList])
    subst has
    simp only [Terms.toList, List.find?_cons] at h
    simp only [finNamed]
    by_cases hn : n = c
    · have : (n == c) = true := by simpa using hn
      simp only [this, Option.some.injEq] at h
      subst h
      simp only [if_pos hn, attrsAllow]
    · have : (n == c) = false := by simpa using hn
      simp only [this] at h
      rw [if_neg hn]
      exact finNamed_first (fun t ht => ha t (by simp [Terms.toList, ht])) h

theorem find_hasName {ts : Terms} {c : Comp} {u : Term} (h : ts.toList.find? (fun t => t.name == c) = some u) :
    ts.hasName c = true :=
  hasName_iff.2 ⟨u, List.mem_of_find?_eq_some h, by simpa using List.find?_some h⟩

theorem FitsFields_lookup : ∀ {fs : Fields} {vs : List (Comp × Val)}, FitsFields fs vs → (fs.toList.map (·.1)).Nodup →
    ∀ x ∈ fs.toList, ∃ v, vs.lookup x.1 = some v ∧ Fits x.2.2 v
  | .nil, vs, _, _, x, hx => by simp [Fields.toList] at hx
  | .cons c o t r, vs, h, hn, x, hx => by
    obtain ⟨v, rest, rfl, h1, h2⟩ := h
    simp only [Fields.toList, List.map_cons, List.nodup_cons] at hn
    simp only [Fields.toList, List.mem_cons] at hx
    rcases hx with rfl | hx
    · exact ⟨v, by simp, h1⟩
    · obtain ⟨w, h3, h4⟩ := FitsFields_lookup h2 hn.2 x hx
      refine ⟨w, ?_, h4⟩
      have : (x.1 == c) = false := by
        simp only [beq_eq_false_iff_ne, ne_eq]
        intro he
        exact hn.1 (by rw [← he]; exact List.mem_map.2 ⟨x, hx, rfl⟩)
      simp only [List.lookup_cons, this, h3]

mutual
theorem fin_lead : ∀ (h t : Ty) (v : Val) (p : Nat), Leads h t → NoAttrs t → WF h → Fits h v →
    fin (lead h t) v p = fin t v p
  | .int _ _ _, t, _, _, _, _, _, _ => rfl
  | .float _ _, t, _, _, _, _, _, _ => rfl
  | .unit, t, _, _, _, _, _, _ => rfl
  | .array _ _ _ _, t, _, _, _, _, _, _ => rfl
  | .vector _ _, t, _, _, _, _, _, _ => rfl
  | .struct hfs _ _, t, v, p, hl, hn, hh, hf => by
    obtain ⟨fs, sz, al, rfl, hl⟩ := hl
    obtain ⟨vs, rfl, hf⟩ := hf
    have := FitsFields_lookup hf hh.2.names
    simp only [lead, fin, finFields_lead hfs fs _ vs _ hl hn hh.1 this]
  | .variant hts vl, t, v, p, hl, hn, hh, hf => by
    obtain ⟨ts, l, rfl, hl, hun⟩ := hl
    obtain ⟨c, x, rfl, h1, h2⟩ := hf
    obtain ⟨h0, hm, hc⟩ := filter_one h2
    have hc := (of_decide_eq_true hc).1
    subst hc
    obtain ⟨u, hu, _⟩ := hl h0 hm
    have hu' := leadTerms_find hts _ hl h0 hm
    rw [hu] at hu'
    have ha : ∀ t ∈ ts.toList, t.attrs = [] := fun t ht => (NoAttrsTerms_iff.1 hn t ht).1
    simp only [lead, fin, find_hasName hu, find_hasName hu', if_true, finNamed_first ha hu,
      finNamed_first (fun t ht => ha t (leadTerms_mem hts _ t ht)) hu']
termination_by structural h => h
theorem finFields_lead : ∀ (hfs fs : Fields) (out : Bool) (vs : List (Comp × Val)) (p : Nat), LeadsFields hfs fs →
    NoAttrsFields fs → WFFields hfs → (∀ x ∈ hfs.toList, ∃ v, vs.lookup x.1 = some v ∧ Fits x.2.2 v) →
    finFields (leadFields hfs fs) out vs p = finFields fs out vs p
  | .nil, fs, _, _, _, _, _, _, _ => rfl
  | .cons c o h hr, fs, out, vs, p, hl, hn, hh, hv => by
    obtain ⟨o', t, r, rfl, h1, h2⟩ := hl
    obtain ⟨v, hv1, hv2⟩ := hv (c, o, h) (by simp [Fields.toList])
    simp only at hv1 hv2
    simp only [leadFields, finFields, hv1, fin_lead h t v _ h1 hn.1 hh.1 hv2, (lead_keeps h t).2.2.1]
    exact finFields_lead hr r out vs _ h2 hn.2 hh.2 fun x hx => hv x (by simp [Fields.toList, hx])
termination_by structural hfs => hfs
end

/-! ## Transcoding -/

theorem xNamed_first {E : Env} {l : VarL} {c : Comp} {sty : Ty} {sa da : Nat} {st : St} {u : Term} : ∀ {ts : Terms},
    (∀ t ∈ ts.toList, t.attrs = []) → ts.toList.find? (fun t => t.name == c) = some u →
    xNamed E ts l c sty sa da st =
      (beginTerm l da u.tag u.ty.size st).bind (xcode E u.ty sty [] [] sa (da + l.termOff))
  | .nil, _, h => by simp [Terms.toList] at h
  | .cons n g as t r, ha, h => by
    have has : as = [] := ha ⟨n, g, as, t⟩ (by simp [Terms.toList])
    subst has
    simp only [Terms.toList, List.find?_cons] at h
    simp only [xNamed]
    by_cases hn : n = c
    · have : (n == c) = true := by simpa using hn
      simp only [this, Option.some.injEq] at h
      subst h
      simp only [if_pos hn, termCond]
    · have : (n == c) = false := by simpa using hn
      simp only [this] at h
      rw [if_neg hn]
      exact xNamed_first (fun t ht => ha t (by simp [Terms.toList, ht])) h

theorem readFields_all {m : Mem} {a : Nat} : ∀ {fs : Fields} {vs : List (Comp × Val)}, readFields m fs a = some vs →
    ∀ x ∈ fs.toList, ∃ v, readVal m x.2.2 (a + x.2.1) = some v
  | .nil, _, _, x, hx => by simp [Fields.toList] at hx
  | .cons c o t r, vs, h, x, hx => by
    simp only [readFields] at h
    split at h
    · rename_i v rest hv hr
      simp only [Fields.toList, List.mem_cons] at hx
      rcases hx with rfl | hx
      · exact ⟨v, hv⟩
      · exact readFields_all hr x hx
    · cases h

mutual
/-- Decoding into the reflectable type only uses the first terms. -/
theorem xcode_lead (E : Env) : ∀ (h w : Ty) (sa da : Nat) (st : St) (v : Val), Leads h w → Rel Laid h w → Plain h →
    WF w → readVal E.S w sa = some v →
    xcode E (lead h (reflectable w)) w [] [] sa da st = xcode E (reflectable w) w [] [] sa da st
  | .int _ _ _, w, _, _, _, _, _, _, _, _, _ => rfl
  | .float _ _, w, _, _, _, _, _, _, _, _, _ => rfl
  | .unit, w, _, _, _, _, _, _, _, _, _ => rfl
  | .array _ _ _ _, w, _, _, _, _, _, _, _, _, _ => rfl
  | .vector _ _, w, _, _, _, _, _, _, _, _, _ => rfl
  | .struct hfs _ _, w, sa, da, st, v, hl, hr, hp, hw, hv => by
    obtain ⟨fs, sz, al, rfl, hl⟩ := hl
    obtain ⟨fs', sz', al', he, hr⟩ := hr
    cases he
    simp only [readVal] at hv
    split at hv
    · rename_i vs hvs
      cases hv
      have hall := readFields_all hvs
      have key := fun out st => xFields_lead E hfs fs 0 1 out fs sa da st hl hr hp hw.1 fun c o t ht =>
        ⟨findLast_mem hw.2.names ht, hall (c, o, t) ht⟩
      simp only [reflectable, lead, xcode, key]
      congr 1
      funext st
      exact key false st
    · cases hv
  | .variant hts vl, w, sa, da, st, v, hl, hr, hp, hw, hv => by
    obtain ⟨ts, l, rfl, hl, hun⟩ := hl
    obtain ⟨ts', l', he, h1, h2, h3, h4, _⟩ := hr
    cases he
    simp only [Plain] at hp
    simp only [WF] at hw
    have htr : TermsRel Laid hts ts.toList := ⟨h1, fun a ha => hasName_iff.1 (h2 a ha), h3, h4⟩
    have hlr : LeadTerms hts.toList (reflectableTerms ts).toList := by
      rw [reflectableTerms_toList]
      exact hl.map _ (fun _ => rfl) (fun _ => rfl) fun t => reflectable_bare t.ty
    have ha : ∀ t ∈ (reflectableTerms ts).toList, t.attrs = [] := fun t ht =>
      (NoAttrsTerms_iff.1 (reflectableTerms_noAttrs ts) t ht).1
    simp only [reflectable, lead, xcode]
    by_cases hen : ts.isEnum = true
    · have ht := enum_tags hw.1 htr hen
      have hrt : (reflectableTerms ts).tagsOf = ts.tagsOf := by
        unfold Terms.tagsOf
        rw [reflectableTerms_toList, List.map_map]; rfl
      have hnd : ((reflectableTerms ts).toList.map (·.name)).Nodup := by
        rw [names_of_tags (hrt.trans ht)]; exact hp.1
      have hself : leadTerms hts (reflectableTerms ts).toList = reflectableTerms ts :=
        leadTerms_self _ _ _ (names_of_tags (hrt.trans ht)).symm fun u hu => find?_unique (fun t : Term => t.name) _ hnd u hu
      have hex : ∀ la lb, exactMatch (enumTy ts la) (enumTy (reflectableTerms ts) lb) = true := fun la lb =>
        exactMatch_same hrt.symm hnd
      rw [hself]
      by_cases hf : enumFast (reflectableTerms ts) ts (anyVar (reflectableTerms ts).toList l.dflt l.tagW) l = true
      · have hf' : enumFast (reflectableTerms ts) ts
            { anyVar (reflectableTerms ts).toList l.dflt l.tagW with dflt := vl.dflt } l = true := hf
        simp only [if_pos hf, if_pos hf', xEnum, copyTag, hex, if_true]
        rfl
      · have hf' : ¬ enumFast (reflectableTerms ts) ts
            { anyVar (reflectableTerms ts).toList l.dflt l.tagW with dflt := vl.dflt } l = true := hf
        obtain ⟨t, p, hsel, htm, _, rfl⟩ := selectTerm_read hw.2 hv
        obtain ⟨h0, hm, hc⟩ := hasName_iff.1 (h1 t htm).1
        obtain ⟨u, hu, _⟩ := hlr h0 hm
        rw [hc] at hu
        simp only [if_neg hf, if_neg hf', handlerMap, hsel, find_hasName hu, if_true, xNamed_first ha hu]
        rfl
    · have hf : ∀ a b c, enumFast a ts b c = false := by
        intro a b c
        simp only [Bool.not_eq_true] at hen
        simp [enumFast, hen]
      obtain ⟨t, p, hsel, htm, _, rfl⟩ := selectTerm_read hw.2 hv
      obtain ⟨h0, hm, hc⟩ := hasName_iff.1 (h1 t htm).1
      obtain ⟨u, hu, _⟩ := hlr h0 hm
      have hu' := leadTerms_find hts _ hlr h0 hm
      rw [hu] at hu'
      rw [hc] at hu hu'
      simp only [hf, Bool.false_eq_true, if_false, handlerMap, hsel, find_hasName hu, find_hasName hu', if_true,
        xNamed_first ha hu, xNamed_first (fun t ht => ha t (leadTerms_mem hts _ t ht)) hu']
      rfl
termination_by structural h => h
theorem xFields_lead (E : Env) : ∀ (hfs wfs : Fields) (off al : Nat) (out : Bool) (sall : Fields) (sa da : Nat) (st : St),
    LeadsFields hfs wfs → RelFields Laid hfs wfs → PlainFields hfs → WFFields wfs →
    (∀ c o t, (c, o, t) ∈ wfs.toList → sall.findLast c = some (o, t) ∧ ∃ v, readVal E.S t (sa + o) = some v) →
    xFields E (leadFields hfs (reflectableFields wfs off al).1) out sall [] [] sa da st =
      xFields E (reflectableFields wfs off al).1 out sall [] [] sa da st
  | .nil, wfs, _, _, _, _, _, _, _, _, _, _, _, _ => rfl
  | .cons c o h hr, wfs, off, al, out, sall, sa, da, st, hl, hrel, hp, hw, hs => by
    obtain ⟨o', w, r, rfl, h1, h2⟩ := hl
    obtain ⟨o2, w2, r2, he, g1, g2⟩ := hrel
    cases he
    obtain ⟨f1, v, f2⟩ := hs c o' w (by simp [Fields.toList])
    have ih := fun st => xFields_lead E hr r (roundUp off (reflectable w).align + (reflectable w).size)
      (max al (reflectable w).align) out sall sa da st h2 g2 hp.2 hw.2
      fun c o t ht => hs c o t (by simp [Fields.toList, ht])
    have hx := fun da st => xcode_lead E h w (sa + o') da st v h1 g1 hp.1 hw.1 f2
    simp only [reflectableFields, leadFields, xFields, f1, (lead_keeps h (reflectable w)).2.2.1]
    have e1 : Path.into [] c = [] := rfl
    have e2 : Handlers.into [] c = [] := rfl
    simp only [e1, e2, hx]
    congr 1
    funext st
    exact ih st
termination_by structural hfs => hfs
end

end PJ
