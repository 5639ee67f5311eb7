import Verif.Lemmas.Rel
import Verif.Spec.Any
/-!
# What of a type stays through planning and reflection

`Ty.bare` is a type without its layout and without the attributes of its terms.  `Leads host t`: the
first term of a name in (the outermost variants of) `t` is the term of the host variant.
-/
namespace PJ

/-- Lengths only. -/
def bareVecL (maxLen : Option Nat) : VecL :=
  { minLen := 0, maxLen := maxLen, wireMin := 0, ppl := 0, lenOff := 0, lenSize := 0, refOff := 0,
    refSize := 0, mode := .offset, inlOff := 0, parOff := 0, elemW := 0, size := 0, align := 0 }

def bareVarL : VarL :=
  { outline := false, dflt := 0, termOff := 0, termSize := 0, tagOff := 0, tagW := 0, size := 0, align := 0,
    termAlign := 0 }

mutual
def Ty.bare : Ty → Ty
  | .int w s _ => .int w s 0
  | .float w _ => .float w 0
  | .unit => .unit
  | .struct fs _ _ => .struct fs.bare 0 0
  | .variant ts _ => .variant ts.bare bareVarL
  | .array e n _ _ => .array e.bare n 0 0
  | .vector e l => .vector e.bare (bareVecL l.maxLen)
def Fields.bare : Fields → Fields
  | .nil => .nil
  | .cons n _ t r => .cons n 0 t.bare r.bare
def Terms.bare : Terms → Terms
  | .nil => .nil
  | .cons n g _ t r => .cons n g [] t.bare r.bare
end

theorem Terms.bare_toList : ∀ ts : Terms,
    ts.bare.toList = ts.toList.map fun t => { t with attrs := [], ty := t.ty.bare }
  | .nil => rfl
  | .cons n g as t r => by simp only [Terms.bare, Terms.toList, List.map_cons, Terms.bare_toList r]

/-! ## Steps that keep it -/

mutual
theorem reflectable_bare : ∀ t : Ty, (reflectable t).bare = t.bare
  | .int _ _ _ => rfl
  | .float _ _ => rfl
  | .unit => rfl
  | .struct fs _ _ => by simp only [reflectable, Ty.bare, reflectableFields_bare fs 0 1]
  | .variant ts _ => by simp only [reflectable, Ty.bare, reflectableTerms_bare ts]
  | .array e _ _ _ => by simp only [reflectable, Ty.bare, reflectable_bare e]
  | .vector e l => by simp only [reflectable, Ty.bare, reflectable_bare e, anyVec]
termination_by structural t => t
theorem reflectableFields_bare : ∀ (fs : Fields) (off al : Nat), (reflectableFields fs off al).1.bare = fs.bare
  | .nil, _, _ => rfl
  | .cons _ _ t r, off, al => by
    simp only [reflectableFields, Fields.bare, reflectable_bare t, reflectableFields_bare r]
termination_by structural fs => fs
theorem reflectableTerms_bare : ∀ ts : Terms, (reflectableTerms ts).bare = ts.bare
  | .nil => rfl
  | .cons _ _ _ t r => by simp only [reflectableTerms, Terms.bare, reflectable_bare t, reflectableTerms_bare r]
termination_by structural ts => ts
end

mutual
theorem layout_bare : ∀ t : Ty, (layout t).bare = t.bare
  | .int _ _ _ => rfl
  | .float _ _ => rfl
  | .unit => rfl
  | .struct fs _ _ => by simp only [layout, Ty.bare, layoutFields_bare fs 0 1]
  | .variant ts _ => by simp only [layout, Ty.bare, layoutTerms_bare ts]
  | .array e _ _ _ => by simp only [layout, Ty.bare, layout_bare e]
  | .vector e l => by simp only [layout, Ty.bare, layout_bare e, layoutVec]
termination_by structural t => t
theorem layoutFields_bare : ∀ (fs : Fields) (off al : Nat), (layoutFields fs off al).1.bare = fs.bare
  | .nil, _, _ => rfl
  | .cons _ _ t r, off, al => by
    simp only [layoutFields, Fields.bare, layout_bare t, layoutFields_bare r]
termination_by structural fs => fs
theorem layoutTerms_bare : ∀ ts : Terms, (layoutTerms ts).bare = ts.bare
  | .nil => rfl
  | .cons _ _ _ t r => by simp only [layoutTerms, Terms.bare, layout_bare t, layoutTerms_bare r]
termination_by structural ts => ts
end

mutual
theorem setOut_bare (d : Nat) : ∀ t : Ty, (setOut d t).bare = t.bare
  | .variant ts l => by simp only [setOut]; split <;> rfl
  | .struct fs _ _ => by simp only [setOut, Ty.bare, setOutFields_bare d fs]
  | .int _ _ _ => rfl
  | .float _ _ => rfl
  | .unit => rfl
  | .array _ _ _ _ => rfl
  | .vector _ _ => rfl
termination_by structural t => t
theorem setOutFields_bare (d : Nat) : ∀ fs : Fields, (setOutFields d fs).bare = fs.bare
  | .nil => rfl
  | .cons _ _ t r => by simp only [setOutFields, Fields.bare, setOut_bare d t, setOutFields_bare d r]
termination_by structural fs => fs
end

mutual
theorem tryOutline_bare : ∀ (t : Ty) (path : Path) (t' : Ty), tryOutline t path = some t' → t'.bare = t.bare
  | .variant ts l, path, t', h => by
    simp only [tryOutline] at h
    split at h
    · cases h
    · cases h; rfl
  | .struct fs sz al, path, t', h => by
    simp only [tryOutline] at h
    split at h
    · cases h
    · split at h
      · rename_i fs' hf
        cases h
        simp only [Ty.bare, tryOutlineFields_bare fs path fs' hf]
      · cases h
  | .int _ _ _, _, _, h => by simp [tryOutline] at h
  | .float _ _, _, _, h => by simp [tryOutline] at h
  | .unit, _, _, h => by simp [tryOutline] at h
  | .array _ _ _ _, _, _, h => by simp [tryOutline] at h
  | .vector _ _, _, _, h => by simp [tryOutline] at h
termination_by structural t => t
theorem tryOutlineFields_bare : ∀ (fs : Fields) (path : Path) (fs' : Fields),
    tryOutlineFields fs path = some fs' → fs'.bare = fs.bare
  | .nil, _, _, h => by simp [tryOutlineFields] at h
  | .cons n o t r, path, fs', h => by
    simp only [tryOutlineFields] at h
    split at h
    · rename_i t' ht
      cases h
      simp only [Fields.bare, tryOutline_bare t _ t' ht]
    · split at h
      · rename_i r' hr
        cases h
        simp only [Fields.bare, tryOutlineFields_bare r path r' hr]
      · cases h
termination_by structural fs => fs
end

mutual
theorem split_long_bare : ∀ (t : Ty) (s : Split), splitFirst t = some s → s.long.bare = t.bare
  | .vector e l, s, h => by
    simp only [splitFirst] at h
    split at h
    · cases h
    · cases h; rfl
  | .struct fs sz al, s, h => by
    simp only [splitFirst] at h
    split at h
    · rename_i n short long path hf
      cases h
      simp only [Ty.bare, splitFields_long_bare fs n short long path hf]
    · cases h
  | .int _ _ _, _, h => by simp [splitFirst] at h
  | .float _ _, _, h => by simp [splitFirst] at h
  | .unit, _, h => by simp [splitFirst] at h
  | .array _ _ _ _, _, h => by simp [splitFirst] at h
  | .variant _ _, _, h => by simp [splitFirst] at h
termination_by structural t => t
theorem splitFields_long_bare : ∀ (fs : Fields) (n : Nat) (short long : Fields) (path : Path),
    splitFields fs = some (n, short, long, path) → long.bare = fs.bare
  | .nil, _, _, _, _, h => by simp [splitFields] at h
  | .cons c o t r, n, short, long, path, h => by
    simp only [splitFields] at h
    split at h
    · rename_i s ht
      cases h
      simp only [Fields.bare, split_long_bare t s ht]
    · split at h
      · rename_i hr
        cases h
        simp only [Fields.bare, splitFields_long_bare r _ _ _ _ hr]
      · cases h
termination_by structural fs => fs
end

/-! ## The first term of a name -/

/-- For every term `h` the first term of its name has the same tag and the same type. -/
def LeadTerms (hts : List Term) (ts : List Term) : Prop :=
  ∀ h ∈ hts, ∃ u, ts.find? (fun t => t.name == h.name) = some u ∧ u.tag = h.tag ∧ u.ty.bare = h.ty.bare

/-- There is nothing but units if there was nothing but units. -/
def LeadUnits (hts : List Term) (ts : List Term) : Prop :=
  (∀ h ∈ hts, h.ty.isUnit = true) → ∀ t ∈ ts, t.ty.isUnit = true

theorem bare_isUnit (t : Ty) : t.bare.isUnit = t.isUnit := by cases t <;> rfl

mutual
def Leads : Ty → Ty → Prop
  | .struct hfs _ _, t => ∃ fs sz al, t = .struct fs sz al ∧ LeadsFields hfs fs
  | .variant hts _, t => ∃ ts l, t = .variant ts l ∧ LeadTerms hts.toList ts.toList ∧ LeadUnits hts.toList ts.toList
  | .int w s al, t => t.bare = (Ty.int w s al).bare
  | .float w al, t => t.bare = (Ty.float w al).bare
  | .unit, t => t.bare = Ty.unit.bare
  | .array e n esz al, t => t.bare = (Ty.array e n esz al).bare
  | .vector e l, t => t.bare = (Ty.vector e l).bare
def LeadsFields : Fields → Fields → Prop
  | .nil, fs => fs = .nil
  | .cons c _ h hr, fs => ∃ o t r, fs = .cons c o t r ∧ Leads h t ∧ LeadsFields hr r
end

theorem leadTerms_bare {hts ts : Terms} (h : ts.bare = hts.bare) (hn : (hts.toList.map (·.name)).Nodup) :
    LeadTerms hts.toList ts.toList := by
  intro x hx
  have hl := congrArg Terms.toList h
  rw [Terms.bare_toList, Terms.bare_toList] at hl
  have hf := find?_unique (fun t : Term => t.name) hts.toList hn x hx
  have h1 : (ts.bare.toList.find? (fun t => t.name == x.name)) =
      (hts.bare.toList.find? (fun t => t.name == x.name)) := by rw [h]
  rw [Terms.bare_toList, Terms.bare_toList, List.find?_map, List.find?_map] at h1
  have h2 : hts.toList.find? ((fun t : Term => t.name == x.name) ∘
      fun t : Term => ({ t with attrs := [], ty := t.ty.bare } : Term)) = some x := hf
  rw [h2] at h1
  cases h3 : ts.toList.find? (fun t => t.name == x.name) with
  | none =>
    have h4 : ts.toList.find? ((fun t : Term => t.name == x.name) ∘
      fun t : Term => ({ t with attrs := [], ty := t.ty.bare } : Term)) = none := h3
    rw [h4] at h1; cases h1
  | some u =>
    have h4 : ts.toList.find? ((fun t : Term => t.name == x.name) ∘
      fun t : Term => ({ t with attrs := [], ty := t.ty.bare } : Term)) = some u := h3
    rw [h4] at h1
    simp only [Option.map_some, Option.some.injEq, Term.mk.injEq] at h1
    exact ⟨u, rfl, h1.2.1, h1.2.2.2⟩

theorem leadUnits_bare {hts ts : Terms} (h : ts.bare = hts.bare) : LeadUnits hts.toList ts.toList := by
  intro hu t ht
  have hl := congrArg Terms.toList h
  rw [Terms.bare_toList, Terms.bare_toList] at hl
  have h1 : ({ t with attrs := [], ty := t.ty.bare } : Term) ∈
      hts.toList.map fun t => ({ t with attrs := [], ty := t.ty.bare } : Term) := by
    rw [← hl]; exact List.mem_map.2 ⟨t, ht, rfl⟩
  obtain ⟨x, hx, he⟩ := List.mem_map.1 h1
  have h2 : x.ty.bare = t.ty.bare := congrArg Term.ty he
  rw [← bare_isUnit, ← h2, bare_isUnit]
  exact hu x hx

mutual
theorem bare_leads : ∀ (h t : Ty), Plain h → t.bare = h.bare → Leads h t
  | .int _ _ _, _, _, he => he
  | .float _ _, _, _, he => he
  | .unit, _, _, he => he
  | .array _ _ _ _, _, _, he => he
  | .vector _ _, _, _, he => he
  | .struct hfs _ _, t, hp, he => by
    cases t <;> simp only [Ty.bare, reduceCtorEq, Ty.struct.injEq, and_true] at he
    exact ⟨_, _, _, rfl, bareFields_leads hfs _ hp he⟩
  | .variant hts hl, t, hp, he => by
    cases t <;> simp only [Ty.bare, reduceCtorEq, Ty.variant.injEq, and_true] at he
    exact ⟨_, _, rfl, leadTerms_bare he hp.1, leadUnits_bare he⟩
termination_by structural h => h
theorem bareFields_leads : ∀ (hfs fs : Fields), PlainFields hfs → fs.bare = hfs.bare → LeadsFields hfs fs
  | .nil, fs, _, he => by cases fs <;> simp only [Fields.bare, reduceCtorEq] at he; rfl
  | .cons c o h hr, fs, hp, he => by
    cases fs <;> simp only [Fields.bare, reduceCtorEq, Fields.cons.injEq, true_and] at he
    obtain ⟨rfl, h1, h2⟩ := he
    exact ⟨_, _, _, rfl, bare_leads h _ hp.1 h1, bareFields_leads hr _ hp.2 h2⟩
termination_by structural hfs => hfs
end

/-! ## Hoisting -/

theorem Step.lead {x y : List Term × Nat} (s : Step x y) {hts : List Term} (h : LeadTerms hts x.1) :
    LeadTerms hts y.1 := by
  intro a ha
  obtain ⟨u, h1, h2, h3⟩ := h a ha
  rw [s.first]
  rw [s.src] at h1
  rw [List.append_assoc, List.find?_append]
  rw [List.find?_append] at h1
  cases hp : s.pre.find? (fun t => t.name == a.name) with
  | some w =>
    rw [hp] at h1
    simp only [Option.some_or, Option.some.injEq] at h1
    exact ⟨u, by simp [h1], h2, h3⟩
  | none =>
    rw [hp] at h1
    simp only [Option.none_or] at h1 ⊢
    simp only [List.cons_append, List.find?_cons] at h1 ⊢
    by_cases hn : s.t.name = a.name
    · have e1 : (s.t.name == a.name) = true := by simpa using hn
      have e2 : ((s.t.longOf s.sp).name == a.name) = true := e1
      rw [e1] at h1
      rw [e2]
      simp only [Option.some.injEq] at h1
      subst h1
      exact ⟨_, rfl, h2, by rw [← h3]; exact split_long_bare _ _ s.split⟩
    · have e1 : (s.t.name == a.name) = false := by simpa using hn
      have e2 : ((s.t.longOf s.sp).name == a.name) = false := e1
      rw [e1] at h1
      rw [e2]
      simp only at h1 ⊢
      rw [List.find?_append, h1]
      exact ⟨u, rfl, h2, h3⟩

theorem split_notUnit {t : Ty} {sp : Split} (h : splitFirst t = some sp) : t.isUnit = false := by
  cases t <;> first | rfl | (simp [splitFirst] at h)

theorem Step.units {x y : List Term × Nat} (s : Step x y) {hts : List Term} (h : LeadUnits hts x.1) :
    LeadUnits hts y.1 := by
  intro hu
  have := h hu s.t (by rw [s.src]; simp)
  rw [split_notUnit s.split] at this
  cases this

mutual
theorem findHoist_leads : ∀ (t t' h : Ty), findHoist t = some t' → Plain h → t.bare = h.bare → Leads h t'
  | .variant ts l, t', h, hh, hp, he => by
    simp only [findHoist, Option.some.injEq] at hh
    subst hh
    cases h <;> simp only [Ty.bare, reduceCtorEq, Ty.variant.injEq, and_true] at he
    refine ⟨_, _, rfl, ?_⟩
    rw [toList_ofList]
    exact hoist_inv (P := fun x => LeadTerms _ x.1 ∧ LeadUnits _ x.1) (fun x y s h => ⟨s.lead h.1, s.units h.2⟩)
      (ts.toList, l.dflt) ⟨leadTerms_bare he hp.1, leadUnits_bare he⟩
  | .struct fs sz al, t', h, hh, hp, he => by
    simp only [findHoist] at hh
    split at hh
    · rename_i fs' hf
      cases hh
      cases h <;> simp only [Ty.bare, reduceCtorEq, Ty.struct.injEq, and_true] at he
      exact ⟨_, _, _, rfl, findHoistFields_leads fs fs' _ hf hp he⟩
    · cases hh
  | .int _ _ _, t', h, hh, _, _ => by simp [findHoist] at hh
  | .float _ _, t', h, hh, _, _ => by simp [findHoist] at hh
  | .unit, t', h, hh, _, _ => by simp [findHoist] at hh
  | .array _ _ _ _, t', h, hh, _, _ => by simp [findHoist] at hh
  | .vector _ _, t', h, hh, _, _ => by simp [findHoist] at hh
termination_by structural t => t
theorem findHoistFields_leads : ∀ (fs fs' hfs : Fields), findHoistFields fs = some fs' → PlainFields hfs →
    fs.bare = hfs.bare → LeadsFields hfs fs'
  | .nil, fs', hfs, hh, _, _ => by simp [findHoistFields] at hh
  | .cons c o t r, fs', hfs, hh, hp, he => by
    cases hfs <;> simp only [Fields.bare, reduceCtorEq, Fields.cons.injEq, true_and] at he
    obtain ⟨rfl, h1, h2⟩ := he
    simp only [findHoistFields] at hh
    split at hh
    · rename_i t' ht
      cases hh
      exact ⟨_, _, _, rfl, findHoist_leads t t' _ ht hp.1 h1, bareFields_leads _ r hp.2 h2⟩
    · split at hh
      · rename_i r' hr'
        cases hh
        exact ⟨_, _, _, rfl, bare_leads _ t hp.1 h1, findHoistFields_leads r r' _ hr' hp.2 h2⟩
      · cases hh
termination_by structural fs => fs
end

/-! ## Layout -/

theorem LeadTerms.map {hts ts : List Term} (h : LeadTerms hts ts) (f : Term → Term) (h1 : ∀ t, (f t).name = t.name)
    (h2 : ∀ t, (f t).tag = t.tag) (h3 : ∀ t, (f t).ty.bare = t.ty.bare) : LeadTerms hts (ts.map f) := by
  intro a ha
  obtain ⟨u, g1, g2, g3⟩ := h a ha
  refine ⟨f u, ?_, by rw [h2, g2], by rw [h3, g3]⟩
  rw [List.find?_map]
  have : ((fun t : Term => t.name == a.name) ∘ f) = fun t => t.name == a.name := by
    funext t; simp only [Function.comp, h1]
  rw [this, g1]; rfl

theorem LeadUnits.map {hts ts : List Term} (h : LeadUnits hts ts) (f : Term → Term)
    (h3 : ∀ t, (f t).ty.bare = t.ty.bare) : LeadUnits hts (ts.map f) := by
  intro hu t ht
  obtain ⟨x, hx, rfl⟩ := List.mem_map.1 ht
  rw [← bare_isUnit, h3, bare_isUnit]
  exact h hu x hx

mutual
theorem layout_leads : ∀ (h t : Ty), Leads h t → Leads h (layout t)
  | .int _ _ _, t, hl => by simp only [Leads] at hl ⊢; rw [layout_bare, hl]
  | .float _ _, t, hl => by simp only [Leads] at hl ⊢; rw [layout_bare, hl]
  | .unit, t, hl => by simp only [Leads] at hl ⊢; rw [layout_bare, hl]
  | .array _ _ _ _, t, hl => by simp only [Leads] at hl ⊢; rw [layout_bare, hl]
  | .vector _ _, t, hl => by simp only [Leads] at hl ⊢; rw [layout_bare, hl]
  | .struct hfs _ _, t, hl => by
    obtain ⟨fs, sz, al, rfl, hl⟩ := hl
    exact ⟨_, _, _, rfl, layoutFields_leads hfs fs 0 1 hl⟩
  | .variant hts _, t, hl => by
    obtain ⟨ts, l, rfl, hl, hu⟩ := hl
    refine ⟨_, _, rfl, ?_⟩
    rw [layoutTerms_toList]
    exact ⟨hl.map _ (fun _ => rfl) (fun _ => rfl) fun t => layout_bare t.ty, hu.map _ fun t => layout_bare t.ty⟩
termination_by structural h => h
theorem layoutFields_leads : ∀ (hfs fs : Fields) (off al : Nat), LeadsFields hfs fs →
    LeadsFields hfs (layoutFields fs off al).1
  | .nil, fs, off, al, hl => by simp only [LeadsFields] at hl; subst hl; rfl
  | .cons c o h hr, fs, off, al, hl => by
    obtain ⟨o', t, r, rfl, h1, h2⟩ := hl
    exact ⟨_, _, _, rfl, layout_leads h t h1, layoutFields_leads hr r _ _ h2⟩
termination_by structural hfs => hfs
end

mutual
theorem setOut_leads (d : Nat) : ∀ (h t : Ty), Leads h t → Leads h (setOut d t)
  | .int _ _ _, t, hl => by simp only [Leads] at hl ⊢; rw [setOut_bare, hl]
  | .float _ _, t, hl => by simp only [Leads] at hl ⊢; rw [setOut_bare, hl]
  | .unit, t, hl => by simp only [Leads] at hl ⊢; rw [setOut_bare, hl]
  | .array _ _ _ _, t, hl => by simp only [Leads] at hl ⊢; rw [setOut_bare, hl]
  | .vector _ _, t, hl => by simp only [Leads] at hl ⊢; rw [setOut_bare, hl]
  | .struct hfs _ _, t, hl => by
    obtain ⟨fs, sz, al, rfl, hl⟩ := hl
    exact ⟨_, _, _, rfl, setOutFields_leads d hfs fs hl⟩
  | .variant hts _, t, hl => by
    obtain ⟨ts, l, rfl, hl⟩ := hl
    simp only [setOut]
    split <;> exact ⟨_, _, rfl, hl⟩
termination_by structural h => h
theorem setOutFields_leads (d : Nat) : ∀ (hfs fs : Fields), LeadsFields hfs fs → LeadsFields hfs (setOutFields d fs)
  | .nil, fs, hl => by simp only [LeadsFields] at hl; subst hl; rfl
  | .cons c o h hr, fs, hl => by
    obtain ⟨o', t, r, rfl, h1, h2⟩ := hl
    exact ⟨_, _, _, rfl, setOut_leads d h t h1, setOutFields_leads d hr r h2⟩
termination_by structural hfs => hfs
end

/-- In the planned type the first term of a name is the term of the host type. -/
theorem plan_leads (t : Ty) (path : Path) (p : Proto) (hp : Plain t) (h : plan t path = some p) :
    Leads t p.head := by
  unfold plan at h
  split at h
  · cases h
    have h1 : ((tryOutline t path).getD t).bare = t.bare := by
      cases ho : tryOutline t path with
      | none => rfl
      | some t1 => exact tryOutline_bare t path t1 ho
    have h2 : Leads t (prepare t path) := by
      unfold prepare
      simp only
      cases hf : findHoist ((tryOutline t path).getD t) with
      | none => exact bare_leads t _ hp h1
      | some t2 => exact findHoist_leads _ t2 t hf hp h1
    have h3 := layout_leads t _ h2
    unfold genOffset
    split
    · exact h3
    · exact setOut_leads _ t _ h3
  · cases h

end PJ
