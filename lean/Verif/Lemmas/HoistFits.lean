import Verif.Lemmas.FitsPlan
import Verif.Props.C18_Hoist
/-!
# Hoisting keeps schemas and values
-/
namespace PJ

mutual
theorem split_sch : ∀ (t : Ty) (s : Split), splitFirst t = some s → Sch t → Sch s.short ∧ Sch s.long
  | .vector e l, s, hs, h => by
    simp only [splitFirst] at hs
    split at hs
    · cases hs
    · rename_i hn
      cases hs
      simp only [Sch] at h
      refine ⟨⟨h.1, h.2.1, fun m hm => ?_⟩, ⟨h.1, by simp [bareVec], fun m hm => ?_⟩⟩
      · simp only [bareVec, Option.some.injEq] at hm ⊢
        omega
      · simp only [bareVec] at hm ⊢
        have := h.2.2 m hm
        omega
  | .struct fs sz al, s, hs, h => by
    simp only [splitFirst] at hs
    split at hs
    · rename_i n short long path hf
      cases hs
      simp only [Sch] at h
      obtain ⟨h1, h2, h3, h4⟩ := splitFields_sch fs n short long path hf h.2
      simp only [Sch]
      rw [h3, h4]
      exact ⟨⟨h.1, h1⟩, ⟨h.1, h2⟩⟩
    · cases hs
  | .int _ _ _, s, hs, h => by simp [splitFirst] at hs
  | .float _ _, s, hs, h => by simp [splitFirst] at hs
  | .unit, s, hs, h => by simp [splitFirst] at hs
  | .array _ _ _ _, s, hs, h => by simp [splitFirst] at hs
  | .variant _ _, s, hs, h => by simp [splitFirst] at hs
termination_by structural t => t
theorem splitFields_sch : ∀ (fs : Fields) (n : Nat) (short long : Fields) (path : Path),
    splitFields fs = some (n, short, long, path) → SchFields fs → SchFields short ∧ SchFields long ∧
    short.toList.map (·.1) = fs.toList.map (·.1) ∧ long.toList.map (·.1) = fs.toList.map (·.1)
  | .nil, n, short, long, path, hs, h => by simp [splitFields] at hs
  | .cons c o t r, n, short, long, path, hs, h => by
    simp only [splitFields] at hs
    split at hs
    · rename_i s ht
      cases hs
      obtain ⟨h1, h2⟩ := split_sch t s ht h.1
      exact ⟨⟨h1, h.2⟩, ⟨h2, h.2⟩, rfl, rfl⟩
    · split at hs
      · rename_i k a b q hr
        cases hs
        obtain ⟨h1, h2, h3, h4⟩ := splitFields_sch r _ _ _ _ hr h.2
        refine ⟨⟨h.1, h1⟩, ⟨h.1, h2⟩, ?_, ?_⟩
        · simp only [Fields.toList, List.map_cons, h3]
        · simp only [Fields.toList, List.map_cons, h4]
      · cases hs
termination_by structural fs => fs
end

theorem Step.sch {x y : List Term × Nat} (s : Step x y) (h : ∀ t ∈ x.1, Sch t.ty) : ∀ t ∈ y.1, Sch t.ty := by
  intro u hu
  have ht := split_sch _ _ s.split (h _ ((s.mem_src _).2 (Or.inr (Or.inl rfl))))
  rcases (s.mem u).1 hu with hu | rfl | hu | rfl
  · exact h u ((s.mem_src u).2 (Or.inl hu))
  · exact ht.2
  · exact h u ((s.mem_src u).2 (Or.inr (Or.inr hu)))
  · exact ht.1

/-! ## Values -/

theorem attrsAllow_append (v : Val) (a : Attr) : ∀ as : List Attr,
    attrsAllow v (as ++ [a]) = match attrsAllow v as, attrsAllow v [a] with
      | some b, some b' => some (b && b')
      | _, _ => none
  | [] => by
    simp only [List.nil_append, attrsAllow]
    cases attrsAllow v [a] <;> simp
  | .undef d :: r => by
    simp only [List.cons_append, attrsAllow]
    rw [attrsAllow_append v a r]
    cases attrsAllow v r <;> cases attrsAllow v [a] <;> simp [Bool.and_assoc]
  | .split inl n p :: r => by
    simp only [List.cons_append, attrsAllow]
    rw [attrsAllow_append v a r]
    cases lenAt p v <;> cases attrsAllow v r <;> cases attrsAllow v [a] <;> simp [Bool.and_assoc]

/-- The payload fits into exactly one term of the name. -/
structure FitsOne (l : List Term) (c : Comp) (p : Val) : Prop where
  shp : ∀ t ∈ l, t.name = c → Shp t.ty p
  def_ : ∀ t ∈ l, t.name = c → (attrsAllow p t.attrs).isSome = true
  fits : ∀ t ∈ l, t.name = c → attrsAllow p t.attrs = some true → Fits t.ty p
  one : (l.filter fun t => decide (t.name = c ∧ attrsAllow p t.attrs = some true)).length = 1

theorem FitsOne.perm {l l' : List Term} {c : Comp} {p : Val} (h : l'.Perm l) (f : FitsOne l c p) :
    FitsOne l' c p :=
  ⟨fun t ht => f.shp t (h.mem_iff.1 ht), fun t ht => f.def_ t (h.mem_iff.1 ht),
    fun t ht => f.fits t (h.mem_iff.1 ht), by rw [(h.filter _).length_eq]; exact f.one⟩

theorem Step.fitsOne {x y : List Term × Nat} (s : Step x y) (hs : ∀ t ∈ x.1, Sch t.ty) {c : Comp} {p : Val}
    (f : FitsOne x.1 c p) : FitsOne y.1 c p := by
  refine FitsOne.perm s.perm ?_
  have hmt : s.t ∈ x.1 := (s.mem_src _).2 (Or.inr (Or.inl rfl))
  have hpre : ∀ u ∈ s.pre, u ∈ x.1 := fun u hu => (s.mem_src u).2 (Or.inl hu)
  have hpost : ∀ u ∈ s.post, u ∈ x.1 := fun u hu => (s.mem_src u).2 (Or.inr (Or.inr hu))
  have hcase : ∀ {Q : Term → Prop}, (∀ u ∈ x.1, Q u) → Q (s.t.longOf s.sp) →
      Q (s.t.shortOf s.sp (freeTag (x.1.map (·.tag)))) →
      ∀ u ∈ s.pre ++ s.t.longOf s.sp :: s.post ++ [s.t.shortOf s.sp (freeTag (x.1.map (·.tag)))], Q u := by
    intro Q h1 h2 h3 u hu
    simp only [List.mem_append, List.mem_cons, List.not_mem_nil, or_false] at hu
    rcases hu with (hu | rfl | hu) | rfl
    · exact h1 u (hpre u hu)
    · exact h2
    · exact h1 u (hpost u hu)
    · exact h3
  by_cases hc : s.t.name = c
  · have hv := split_val _ _ p s.split (hs _ hmt) (f.shp _ hmt hc)
    obtain ⟨n, hn⟩ := hv.len
    have hd := f.def_ _ hmt hc
    obtain ⟨b, hb⟩ := Option.isSome_iff_exists.1 hd
    have hal : attrsAllow p (s.t.attrs ++ [.split false s.sp.len s.sp.path]) =
        some (b && decide (s.sp.len < n)) := by
      rw [attrsAllow_append, hb]; simp [attrsAllow, hn]
    have has : attrsAllow p (s.t.attrs ++ [.split true s.sp.len s.sp.path]) =
        some (b && decide (n ≤ s.sp.len)) := by
      rw [attrsAllow_append, hb]; simp [attrsAllow, hn]
    refine ⟨?_, ?_, ?_, ?_⟩
    · exact hcase (Q := fun t => t.name = c → Shp t.ty p) f.shp (fun _ => hv.shpL) (fun _ => hv.shpS)
    · exact hcase (Q := fun t => t.name = c → (attrsAllow p t.attrs).isSome = true) f.def_
        (fun _ => by simp only [Term.longOf, hal]; rfl) (fun _ => by simp only [Term.shortOf, has]; rfl)
    · refine hcase (Q := fun t => t.name = c → attrsAllow p t.attrs = some true → Fits t.ty p) f.fits
        (fun _ ha => ?_) (fun _ ha => ?_)
      · simp only [Term.longOf, hal, Option.some.injEq, Bool.and_eq_true, decide_eq_true_eq] at ha
        exact hv.long (f.fits _ hmt hc (by rw [hb, ha.1]))
      · simp only [Term.shortOf, has, Option.some.injEq, Bool.and_eq_true, decide_eq_true_eq] at ha
        exact hv.short n hn ha.2 (f.fits _ hmt hc (by rw [hb, ha.1]))
    · have := f.one
      rw [s.src] at this
      simp only [List.filter_append, List.filter_cons, List.filter_nil, List.length_append] at this ⊢
      have e1 : (decide ((s.t.longOf s.sp).name = c ∧ attrsAllow p (s.t.longOf s.sp).attrs = some true)) =
          (b && decide (s.sp.len < n)) := by
        simp only [Term.longOf, hc, hal, true_and]
        cases b <;> by_cases h : s.sp.len < n <;> simp [h]
      have e2 : ∀ g, (decide ((s.t.shortOf s.sp g).name = c ∧
          attrsAllow p (s.t.shortOf s.sp g).attrs = some true)) = (b && decide (n ≤ s.sp.len)) := by
        intro g
        simp only [Term.shortOf, hc, has, true_and]
        cases b <;> by_cases h : n ≤ s.sp.len <;> simp [h]
      have e3 : (decide (s.t.name = c ∧ attrsAllow p s.t.attrs = some true)) = b := by
        simp only [hc, hb, true_and]; cases b <;> simp
      rw [e1, e2]
      rw [e3] at this
      cases b with
      | false => simpa using this
      | true =>
        simp only [if_true, Bool.true_and, List.length_cons] at this ⊢
        by_cases h : s.sp.len < n
        · rw [decide_eq_true h, decide_eq_false (by omega)]
          simp only [if_true, Bool.false_eq_true, if_false, List.length_cons, List.length_nil]
          omega
        · rw [decide_eq_false h, decide_eq_true (by omega)]
          simp only [if_true, Bool.false_eq_true, if_false, List.length_cons, List.length_nil]
          omega
  · refine ⟨?_, ?_, ?_, ?_⟩
    · exact hcase (Q := fun t => t.name = c → Shp t.ty p) f.shp (fun h => absurd h hc) (fun h => absurd h hc)
    · exact hcase (Q := fun t => t.name = c → (attrsAllow p t.attrs).isSome = true) f.def_
        (fun h => absurd h hc) (fun h => absurd h hc)
    · exact hcase (Q := fun t => t.name = c → attrsAllow p t.attrs = some true → Fits t.ty p) f.fits
        (fun h => absurd h hc) (fun h => absurd h hc)
    · have := f.one
      rw [s.src] at this
      simp only [List.filter_append, List.filter_cons, List.filter_nil, List.length_append] at this ⊢
      have e1 : (decide ((s.t.longOf s.sp).name = c ∧ attrsAllow p (s.t.longOf s.sp).attrs = some true)) =
          false := by simp [Term.longOf, hc]
      have e2 : ∀ g, (decide ((s.t.shortOf s.sp g).name = c ∧
          attrsAllow p (s.t.shortOf s.sp g).attrs = some true)) = false := by
        intro g; simp [Term.shortOf, hc]
      have e3 : (decide (s.t.name = c ∧ attrsAllow p s.t.attrs = some true)) = false := by simp [hc]
      rw [e1, e2]
      rw [e3] at this
      simpa using this

theorem hoist_fitsOne (x : List Term × Nat) (hs : ∀ t ∈ x.1, Sch t.ty) {c : Comp} {p : Val}
    (f : FitsOne x.1 c p) : FitsOne (hoist x).1 c p :=
  (hoist_inv (P := fun x => (∀ t ∈ x.1, Sch t.ty) ∧ FitsOne x.1 c p)
    (fun _ _ s h => ⟨s.sch h.1, s.fitsOne h.1 h.2⟩) x ⟨hs, f⟩).2

theorem toList_ofList : ∀ l : List Term, (Terms.ofList l).toList = l
  | [] => rfl
  | t :: r => by simp [Terms.ofList, Terms.toList, toList_ofList r]

theorem fitsOne_plain {ts : Terms} {l : VarL} {c : Comp} {p : Val} (hp : ∀ t ∈ ts.toList, t.attrs = [])
    (h : Fits (.variant ts l) (.variant c p)) : FitsOne ts.toList c p := by
  obtain ⟨c', p', he, h1, h2⟩ := h
  cases he
  have h1 := FitsTerms_iff.1 h1
  refine ⟨fun t ht hc => fits_shp _ _ ((h1 t ht hc).2 (by rw [hp t ht]; rfl)), fun t ht hc => (h1 t ht hc).1,
    fun t ht hc => (h1 t ht hc).2, h2⟩

mutual
/-- No attributes in the variants that are reached through struct fields. -/
def Bare : Ty → Prop
  | .struct fs _ _ => BareFields fs
  | .variant ts _ => ∀ t ∈ ts.toList, t.attrs = []
  | _ => True
def BareFields : Fields → Prop
  | .nil => True
  | .cons _ _ t r => Bare t ∧ BareFields r
end

mutual
theorem findHoist_fits : ∀ (t t' : Ty) (v : Val), findHoist t = some t' → Sch t → Bare t → Fits t v → Fits t' v
  | .variant ts l, t', v, hh, hs, hb, h => by
    simp only [findHoist, Option.some.injEq] at hh
    subst hh
    simp only [Sch] at hs
    have h' := h
    obtain ⟨c, p, rfl, _⟩ := h'
    have := hoist_fitsOne (ts.toList, l.dflt) (SchTerms_iff.1 hs.2.2.2.2) (fitsOne_plain hb h)
    refine ⟨c, p, rfl, FitsTerms_iff.2 ?_, ?_⟩
    · rw [toList_ofList]
      exact fun t ht hc => ⟨this.def_ t ht hc, this.fits t ht hc⟩
    · rw [toList_ofList]; exact this.one
  | .struct fs sz al, t', v, hh, hs, hb, h => by
    simp only [findHoist] at hh
    split at hh
    · rename_i fs' hf
      cases hh
      obtain ⟨vs, rfl, h⟩ := h
      exact ⟨vs, rfl, findHoistFields_fits fs fs' vs hf hs.2 hb h⟩
    · cases hh
  | .int _ _ _, t', v, hh, _, _, h => by simp [findHoist] at hh
  | .float _ _, t', v, hh, _, _, h => by simp [findHoist] at hh
  | .unit, t', v, hh, _, _, h => by simp [findHoist] at hh
  | .array _ _ _ _, t', v, hh, _, _, h => by simp [findHoist] at hh
  | .vector _ _, t', v, hh, _, _, h => by simp [findHoist] at hh
termination_by structural t => t
theorem findHoistFields_fits : ∀ (fs fs' : Fields) (vs : List (Comp × Val)), findHoistFields fs = some fs' →
    SchFields fs → BareFields fs → FitsFields fs vs → FitsFields fs' vs
  | .nil, fs', vs, hh, _, _, h => by simp [findHoistFields] at hh
  | .cons c o t r, fs', vs, hh, hs, hb, h => by
    obtain ⟨v, rest, rfl, h1, h2⟩ := h
    simp only [findHoistFields] at hh
    split at hh
    · rename_i t' ht
      cases hh
      exact ⟨v, rest, rfl, findHoist_fits t t' v ht hs.1 hb.1 h1, h2⟩
    · split at hh
      · rename_i r' hr
        cases hh
        exact ⟨v, rest, rfl, h1, findHoistFields_fits r r' rest hr hs.2 hb.2 h2⟩
      · cases hh
termination_by structural fs => fs
end

/-! ## Schemas -/

mutual
/-- The tags of the terms that hoisting can create are below 2^63. -/
def Small : Ty → Prop
  | .struct fs _ _ => SmallFields fs
  | .variant ts _ => ts.toList.length + rounds ts.toList < 2 ^ 63
  | _ => True
def SmallFields : Fields → Prop
  | .nil => True
  | .cons _ _ t r => Small t ∧ SmallFields r
end

theorem hoist_sch {ts : List Term} {d : Nat} (h1 : d < ts.length) (h2 : (ts.map (·.tag)).Nodup)
    (h0 : ∃ t ∈ ts, t.tag ≠ 0) (h3 : ∀ t ∈ ts, t.tag < 2 ^ 63) (h4 : ∀ t ∈ ts, Sch t.ty)
    (hsm : ts.length + rounds ts < 2 ^ 63) :
    (hoist (ts, d)).2 < (hoist (ts, d)).1.length ∧ ((hoist (ts, d)).1.map (·.tag)).Nodup ∧
    (∃ t ∈ (hoist (ts, d)).1, t.tag ≠ 0) ∧ (∀ t ∈ (hoist (ts, d)).1, t.tag < 2 ^ 63) ∧ ∀ t ∈ (hoist (ts, d)).1, Sch t.ty := by
  have := hoist_inv (P := fun x => x.1.length + rounds x.1 = ts.length + rounds ts ∧
      (∀ t ∈ x.1, t.tag < 2 ^ 63) ∧ ∀ t ∈ x.1, Sch t.ty)
    (fun x y s h => by
      obtain ⟨g1, g2, g3⟩ := h
      have e1 := s.length
      have e2 := s.rounds
      refine ⟨by omega, fun u hu => ?_, s.sch g3⟩
      have hmt := g2 s.t ((s.mem_src _).2 (Or.inr (Or.inl rfl)))
      rcases (s.mem u).1 hu with hu | rfl | hu | rfl
      · exact g2 u ((s.mem_src u).2 (Or.inl hu))
      · exact hmt
      · exact g2 u ((s.mem_src u).2 (Or.inr (Or.inr hu)))
      · have := freeTag_spec (x.1.map (·.tag))
        simp only [List.length_map] at this
        simp only [Term.shortOf]
        omega) (ts, d) ⟨rfl, h3, h4⟩
  refine ⟨?_, C18_tags (ts, d) h2, ?_, this.2.1, this.2.2⟩
  rotate_left
  · obtain ⟨t, ht, hne⟩ := h0
    obtain ⟨u, hu, _, he⟩ := C18_kept (ts, d) t ht
    exact ⟨u, hu, by rw [he]; exact hne⟩
  obtain ⟨u, hu, _⟩ := C18_default (ts, d) ts[d] (List.getElem?_eq_getElem h1)
  exact (List.getElem?_eq_some_iff.1 hu).1

mutual
theorem findHoist_sch : ∀ (t t' : Ty), findHoist t = some t' → Small t → Sch t → Sch t'
  | .variant ts l, t', hh, hsm, h => by
    simp only [findHoist, Option.some.injEq] at hh
    subst hh
    simp only [Sch, SchTerms_iff] at h ⊢
    rw [toList_ofList]
    exact hoist_sch h.1 h.2.1 h.2.2.1 h.2.2.2.1 h.2.2.2.2 hsm
  | .struct fs sz al, t', hh, hsm, h => by
    simp only [findHoist] at hh
    split at hh
    · rename_i fs' hf
      cases hh
      simp only [Sch] at h ⊢
      obtain ⟨h1, h2⟩ := findHoistFields_sch fs fs' hf hsm h.2
      exact ⟨by rw [h2]; exact h.1, h1⟩
    · cases hh
  | .int _ _ _, t', hh, _, _ => by simp [findHoist] at hh
  | .float _ _, t', hh, _, _ => by simp [findHoist] at hh
  | .unit, t', hh, _, _ => by simp [findHoist] at hh
  | .array _ _ _ _, t', hh, _, _ => by simp [findHoist] at hh
  | .vector _ _, t', hh, _, _ => by simp [findHoist] at hh
termination_by structural t => t
theorem findHoistFields_sch : ∀ (fs fs' : Fields), findHoistFields fs = some fs' → SmallFields fs →
    SchFields fs → SchFields fs' ∧ fs'.toList.map (·.1) = fs.toList.map (·.1)
  | .nil, fs', hh, _, _ => by simp [findHoistFields] at hh
  | .cons c o t r, fs', hh, hsm, h => by
    simp only [findHoistFields] at hh
    split at hh
    · rename_i t' ht
      cases hh
      exact ⟨⟨findHoist_sch t t' ht hsm.1 h.1, h.2⟩, rfl⟩
    · split at hh
      · rename_i r' hr
        cases hh
        obtain ⟨h1, h2⟩ := findHoistFields_sch r r' hr hsm.2 h.2
        exact ⟨⟨h.1, h1⟩, by simp only [Fields.toList, List.map_cons, h2]⟩
      · cases hh
termination_by structural fs => fs
end

mutual
theorem tryOutline_sch : ∀ (t : Ty) (path : Path) (t' : Ty), tryOutline t path = some t' →
    (Sch t → Sch t') ∧ (Small t → Small t') ∧ (Bare t → Bare t')
  | .variant ts l, path, t', ho => by
    simp only [tryOutline] at ho
    split at ho
    · cases ho
    · cases ho
      exact ⟨fun h => h, fun h => h, fun h => h⟩
  | .struct fs sz al, path, t', ho => by
    simp only [tryOutline] at ho
    split at ho
    · cases ho
    · split at ho
      · rename_i fs' hfs
        cases ho
        obtain ⟨h1, h2, h3, h4⟩ := tryOutlineFields_sch fs path fs' hfs
        simp only [Sch, Small, Bare]
        rw [h4]
        exact ⟨fun h => ⟨h.1, h1 h.2⟩, h2, h3⟩
      · cases ho
  | .int _ _ _, path, t', ho => by simp [tryOutline] at ho
  | .float _ _, path, t', ho => by simp [tryOutline] at ho
  | .unit, path, t', ho => by simp [tryOutline] at ho
  | .array _ _ _ _, path, t', ho => by simp [tryOutline] at ho
  | .vector _ _, path, t', ho => by simp [tryOutline] at ho
termination_by structural t => t
theorem tryOutlineFields_sch : ∀ (fs : Fields) (path : Path) (fs' : Fields),
    tryOutlineFields fs path = some fs' → (SchFields fs → SchFields fs') ∧
    (SmallFields fs → SmallFields fs') ∧ (BareFields fs → BareFields fs') ∧
    fs'.toList.map (·.1) = fs.toList.map (·.1)
  | .nil, path, fs', ho => by simp [tryOutlineFields] at ho
  | .cons c o t r, path, fs', ho => by
    simp only [tryOutlineFields] at ho
    split at ho
    · rename_i t' ht
      cases ho
      obtain ⟨h1, h2, h3⟩ := tryOutline_sch t _ t' ht
      exact ⟨fun h => ⟨h1 h.1, h.2⟩, fun h => ⟨h2 h.1, h.2⟩, fun h => ⟨h3 h.1, h.2⟩, rfl⟩
    · split at ho
      · rename_i r' hr
        cases ho
        obtain ⟨h1, h2, h3, h4⟩ := tryOutlineFields_sch r path r' hr
        exact ⟨fun h => ⟨h.1, h1 h.2⟩, fun h => ⟨h.1, h2 h.2⟩, fun h => ⟨h.1, h3 h.2⟩,
          by simp only [Fields.toList, List.map_cons, h4]⟩
      · cases ho
termination_by structural fs => fs
end

mutual
theorem plain_bare : ∀ t : Ty, Plain t → Bare t
  | .struct fs _ _, h => plain_bareFields fs h
  | .variant _ _, h => fun t ht => (PlainTerms_iff.1 h.2 t ht).1
  | .int _ _ _, _ => trivial
  | .float _ _, _ => trivial
  | .unit, _ => trivial
  | .array _ _ _ _, _ => trivial
  | .vector _ _, _ => trivial
termination_by structural t => t
theorem plain_bareFields : ∀ fs : Fields, PlainFields fs → BareFields fs
  | .nil, _ => trivial
  | .cons _ _ t r, h => ⟨plain_bare t h.1, plain_bareFields r h.2⟩
termination_by structural fs => fs
end

/-- The prepared type is a schema and takes the values. -/
theorem prepare_ok (t : Ty) (path : Path) (hs : Sch t) (hsm : Small t) (hp : Plain t) :
    Sch (prepare t path) ∧ ∀ v, Fits t v → Fits (prepare t path) v := by
  have key : ∀ t1 : Ty, Sch t1 → Small t1 → Bare t1 → Sch ((findHoist t1).getD t1) ∧
      ∀ v, Fits t1 v → Fits ((findHoist t1).getD t1) v := by
    intro t1 h1 h2 h3
    cases hf : findHoist t1 with
    | none => exact ⟨h1, fun v h => h⟩
    | some t2 =>
      exact ⟨findHoist_sch t1 t2 hf h2 h1, fun v h => findHoist_fits t1 t2 v hf h1 h3 h⟩
  unfold prepare
  cases ho : tryOutline t path with
  | none => exact key t hs hsm (plain_bare t hp)
  | some t1 =>
    obtain ⟨g1, g2, g3⟩ := tryOutline_sch t path t1 ho
    obtain ⟨k1, k2⟩ := key t1 (g1 hs) (g2 hsm) (g3 (plain_bare t hp))
    exact ⟨k1, fun v h => k2 v (tryOutline_fits t path t1 v ho h)⟩

end PJ
