import Verif.Lemmas.Sender
import Verif.Lemmas.HoistCost
/-!
# Sending with the protocol of another schema
-/
namespace PJ

/-! ## The values have what the encoder looks at -/

theorem tyOf_fits : ∀ {fs : Fields} {vs : List (Comp × Val)} (c : Comp), FitsFields fs vs →
    Fits (fs.tyOf c) ((vs.lookup c).getD .unit)
  | .nil, vs, c, h => by
    simp only [FitsFields] at h; subst h; simp [Fields.tyOf, Fields.find, Fits]
  | .cons d o t r, vs, c, h => by
    obtain ⟨w, rest, rfl, h1, h2⟩ := h
    have ih := tyOf_fits c h2
    simp only [Fields.tyOf, Fields.find, List.lookup_cons] at ih ⊢
    by_cases hc : d = c
    · subst hc; simpa using h1
    · have : (c == d) = false := by simpa using fun e : c = d => hc e.symm
      rw [if_neg hc, this]
      exact ih

/-- A value of a type without fields has no parts. -/
theorem fits_parts {s : Ty} {v : Val} (h : Fits s v) : FitsFields s.fields v.parts := by
  cases s <;> simp only [Ty.fields]
  case struct fs sz al =>
    obtain ⟨vs, rfl, h⟩ := h
    exact h
  case int => obtain ⟨x, rfl, _⟩ := h; rfl
  case float => obtain ⟨x, rfl⟩ := h; rfl
  case unit => simp only [Fits] at h; subst h; rfl
  case variant => obtain ⟨c, p, rfl, _⟩ := h; rfl
  case array => obtain ⟨l, rfl, _⟩ := h; rfl
  case vector => obtain ⟨l, rfl, _⟩ := h; rfl

mutual
theorem vecsIn_of : ∀ (t s : Ty) (v : Val), VecsIn t s → Fits s v → VecsOf t v
  | .vector _ l, s, v, h, hf => by
    intro hl
    obtain ⟨e, l', rfl⟩ := h hl
    obtain ⟨xs, rfl, _⟩ := hf
    exact ⟨xs, rfl⟩
  | .struct fs _ _, s, v, h, hf => vecsInFields_of fs s.fields v.parts h (fits_parts hf)
  | .int _ _ _, _, _, _, _ => trivial
  | .float _ _, _, _, _, _ => trivial
  | .unit, _, _, _, _ => trivial
  | .array _ _ _ _, _, _, _, _ => trivial
  | .variant _ _, _, _, _, _ => trivial
termination_by structural t => t
theorem vecsInFields_of : ∀ (fs sfs : Fields) (vs : List (Comp × Val)), VecsInFields fs sfs → FitsFields sfs vs →
    VecsOfFields fs vs
  | .nil, _, _, _, _ => trivial
  | .cons c _ t r, sfs, vs, h, hf =>
    ⟨vecsIn_of t _ _ h.1 (tyOf_fits c hf), vecsInFields_of r sfs vs h.2 hf⟩
termination_by structural fs => fs
end

mutual
theorem supplied_fed : ∀ (t s : Ty) (v : Val), Supplied t s → Plain s → Fits s v → Fed t v
  | .struct fs _ _, s, v, h, hp, hf => by
    simp only [Supplied] at h
    simp only [Fed]
    refine suppliedFields_fed fs s.fields v.parts h ?_ (fits_parts hf)
    cases s <;> first | exact hp | trivial
  | .variant ts l, s, v, h, hp, hf => by
    cases s
    case variant sts sl =>
      obtain ⟨c, p, rfl, h1, h2⟩ := hf
      simp only [Supplied] at h
      simp only [Fed]
      simp only [Plain] at hp
      obtain ⟨u, hu⟩ : ∃ u, u ∈ sts.toList.filter fun t : Term =>
          decide (t.name = c ∧ attrsAllow p t.attrs = some true) :=
        List.exists_mem_of_length_pos (by rw [h2]; omega)
      obtain ⟨hus, hd⟩ := List.mem_filter.1 hu
      simp only [decide_eq_true_eq] at hd
      obtain ⟨rfl, ha⟩ := hd
      obtain ⟨g1, g2⟩ := h u hus
      have hfu := (FitsTerms_iff.1 h1 u hus rfl).2 ha
      exact ⟨fun t ht hn => vecsIn_of _ _ _ (g1 t ht hn) hfu, g2⟩
    case int => obtain ⟨x, rfl, _⟩ := hf; exact h
    case float => obtain ⟨x, rfl⟩ := hf; exact h
    case unit => simp only [Fits] at hf; subst hf; exact h
    case struct => obtain ⟨x, rfl, _⟩ := hf; exact h
    case array => obtain ⟨l, rfl, _⟩ := hf; exact h
    case vector => obtain ⟨l, rfl, _⟩ := hf; exact h
  | .int _ _ _, _, _, _, _, _ => by simp [Fed]
  | .float _ _, _, _, _, _, _ => by simp [Fed]
  | .unit, _, _, _, _, _ => by simp [Fed]
  | .array _ _ _ _, _, _, _, _, _ => by simp [Fed]
  | .vector _ _, _, _, _, _, _ => by simp [Fed]
termination_by structural t => t
theorem suppliedFields_fed : ∀ (fs sfs : Fields) (vs : List (Comp × Val)), SuppliedFields fs sfs →
    PlainFields sfs → FitsFields sfs vs → FedFields fs vs
  | .nil, _, _, _, _, _ => by simp [FedFields]
  | .cons c _ t r, sfs, vs, h, hp, hf => by
    simp only [SuppliedFields] at h
    simp only [FedFields]
    rcases h with h | h
    · exact Or.inl ⟨h.1, suppliedFields_fed r sfs vs h.2 hp hf⟩
    · refine Or.inr ⟨h.1, supplied_fed t _ _ h.2 ?_ (tyOf_fits c hf)⟩
      unfold Fields.tyOf
      split
      · rename_i hfd
        exact PlainFields_iff.1 hp _ (mem_of_find hfd)
      · trivial
termination_by structural fs => fs
end

mutual
theorem tryOutline_still : ∀ (t : Ty) (path : Path) (t' : Ty), tryOutline t path = some t' → (t'.still ↔ t.still)
  | .variant ts l, path, t', ho => by
    simp only [tryOutline] at ho
    split at ho
    · cases ho
    · cases ho; simp [Ty.still]
  | .struct fs sz al, path, t', ho => by
    simp only [tryOutline] at ho
    split at ho
    · cases ho
    · split at ho
      · rename_i fs' hfs
        cases ho
        exact tryOutlineFields_still fs path fs' hfs
      · cases ho
  | .int _ _ _, path, t', ho => by simp [tryOutline] at ho
  | .float _ _, path, t', ho => by simp [tryOutline] at ho
  | .unit, path, t', ho => by simp [tryOutline] at ho
  | .array _ _ _ _, path, t', ho => by simp [tryOutline] at ho
  | .vector _ _, path, t', ho => by simp [tryOutline] at ho
termination_by structural t => t
theorem tryOutlineFields_still : ∀ (fs : Fields) (path : Path) (fs' : Fields),
    tryOutlineFields fs path = some fs' → (fs'.still ↔ fs.still)
  | .nil, path, fs', ho => by simp [tryOutlineFields] at ho
  | .cons c o t r, path, fs', ho => by
    simp only [tryOutlineFields] at ho
    split at ho
    · rename_i t' ht
      cases ho
      simp only [Fields.still, tryOutline_still t _ t' ht]
    · split at ho
      · rename_i r' hr
        cases ho
        simp only [Fields.still, tryOutlineFields_still r path r' hr]
      · cases ho
termination_by structural fs => fs
end

mutual
theorem tryOutline_fed : ∀ (t : Ty) (path : Path) (t' : Ty) (v : Val), tryOutline t path = some t' → Fed t v →
    Fed t' v
  | .variant ts l, path, t', v, ho, h => by
    simp only [tryOutline] at ho
    split at ho
    · cases ho
    · cases ho
      cases v <;> simp only [Fed] at h ⊢ <;> exact h
  | .struct fs sz al, path, t', v, ho, h => by
    simp only [tryOutline] at ho
    split at ho
    · cases ho
    · split at ho
      · rename_i fs' hfs
        cases ho
        simp only [Fed] at h ⊢
        exact tryOutlineFields_fed fs path fs' v.parts hfs h
      · cases ho
  | .int _ _ _, path, t', v, ho, _ => by simp [tryOutline] at ho
  | .float _ _, path, t', v, ho, _ => by simp [tryOutline] at ho
  | .unit, path, t', v, ho, _ => by simp [tryOutline] at ho
  | .array _ _ _ _, path, t', v, ho, _ => by simp [tryOutline] at ho
  | .vector _ _, path, t', v, ho, _ => by simp [tryOutline] at ho
termination_by structural t => t
theorem tryOutlineFields_fed : ∀ (fs : Fields) (path : Path) (fs' : Fields) (vs : List (Comp × Val)),
    tryOutlineFields fs path = some fs' → FedFields fs vs → FedFields fs' vs
  | .nil, path, fs', vs, ho, _ => by simp [tryOutlineFields] at ho
  | .cons c o t r, path, fs', vs, ho, h => by
    simp only [tryOutlineFields] at ho
    simp only [FedFields] at h
    split at ho
    · rename_i t' ht
      cases ho
      simp only [FedFields, tryOutline_still t _ t' ht]
      rcases h with h | h
      · exact Or.inl h
      · exact Or.inr ⟨h.1, tryOutline_fed t _ t' _ ht h.2⟩
    · split at ho
      · rename_i r' hr
        cases ho
        simp only [FedFields]
        rcases h with h | h
        · exact Or.inl ⟨h.1, tryOutlineFields_fed r path r' vs hr h.2⟩
        · exact Or.inr h
      · cases ho
termination_by structural fs => fs
end

/-- Encoding with a planned protocol keeps what the schema it was made from can take. -/
theorem conv_plan (F : Nat → Nat → Nat → Nat) (h : Ty) (path : Path) (p : Proto) (v : Val) (hs : Sch h)
    (hpl : Plain h) (hp : plan h path = some p) (hf : Fed h v) : conv F p.head v = conv F h v := by
  have hh : conv F p.head v = conv F (prepare h path) v := by
    unfold plan at hp
    split at hp
    · cases hp
      unfold genOffset
      split
      · exact conv_layout F _ v
      · simp only [conv_setOut]; exact conv_layout F _ v
    · cases hp
  rw [hh]
  unfold prepare
  have key : ∀ t1, Sch t1 → Plain t1 → Fed t1 v → conv F ((findHoist t1).getD t1) v = conv F t1 v := by
    intro t1 h1 h2 h3
    cases hf : findHoist t1 with
    | none => rfl
    | some t2 => exact conv_findHoist F t1 t2 v hf h1 h2 h3
  cases ho : tryOutline h path with
  | none => exact key h hs hpl hf
  | some t1 =>
    simp only [Option.getD_some]
    rw [key t1 ((tryOutline_sch h path t1 ho).1 hs) (tryOutline_plain h path t1 ho hpl)
      (tryOutline_fed h path t1 v ho hf), conv_tryOutline F h path t1 v ho]

/-! ## Where the outlined variant is -/

mutual
/-- A variant is outlined only if the path leads to it. -/
def OnPath : Ty → Path → Prop
  | .struct fs _ _, path => OnPathFields fs path
  | .variant ts l, path => (l.outline = true → path ≠ []) ∧ ts.noOut
  | .array e _ _ _, _ => e.noOut
  | .vector e _, _ => e.noOut
  | _, _ => True
def OnPathFields : Fields → Path → Prop
  | .nil, _ => True
  | .cons c _ t r, path => OnPath t (path.into c) ∧ OnPathFields r path
end

mutual
theorem noOut_onPath : ∀ (t : Ty) (path : Path), t.noOut → OnPath t path
  | .struct fs _ _, path, h => noOut_onPathFields fs path h
  | .variant _ _, _, h => ⟨fun ho => (by rw [h.1] at ho; cases ho), h.2⟩
  | .array _ _ _ _, _, h => h
  | .vector _ _, _, h => h
  | .int _ _ _, _, _ => trivial
  | .float _ _, _, _ => trivial
  | .unit, _, _ => trivial
termination_by structural t => t
theorem noOut_onPathFields : ∀ (fs : Fields) (path : Path), fs.noOut → OnPathFields fs path
  | .nil, _, _ => trivial
  | .cons _ _ t r, path, h => ⟨noOut_onPath t _ h.1, noOut_onPathFields r path h.2⟩
termination_by structural fs => fs
end

mutual
theorem tryOutline_onPath : ∀ (t : Ty) (path : Path) (t' : Ty), tryOutline t path = some t' → t.noOut →
    OnPath t' path
  | .variant ts l, path, t', ho, hn => by
    simp only [tryOutline] at ho
    split at ho
    · cases ho
    · rename_i hc
      cases ho
      exact ⟨fun _ hp => hc (Or.inl hp), hn.2⟩
  | .struct fs sz al, path, t', ho, hn => by
    simp only [tryOutline] at ho
    split at ho
    · cases ho
    · split at ho
      · rename_i fs' hfs
        cases ho
        exact tryOutlineFields_onPath fs path fs' hfs hn
      · cases ho
  | .int _ _ _, path, t', ho, _ => by simp [tryOutline] at ho
  | .float _ _, path, t', ho, _ => by simp [tryOutline] at ho
  | .unit, path, t', ho, _ => by simp [tryOutline] at ho
  | .array _ _ _ _, path, t', ho, _ => by simp [tryOutline] at ho
  | .vector _ _, path, t', ho, _ => by simp [tryOutline] at ho
termination_by structural t => t
theorem tryOutlineFields_onPath : ∀ (fs : Fields) (path : Path) (fs' : Fields),
    tryOutlineFields fs path = some fs' → fs.noOut → OnPathFields fs' path
  | .nil, path, fs', ho, _ => by simp [tryOutlineFields] at ho
  | .cons c o t r, path, fs', ho, hn => by
    simp only [tryOutlineFields] at ho
    split at ho
    · rename_i t' ht
      cases ho
      exact ⟨tryOutline_onPath t _ t' ht hn.1, noOut_onPathFields r path hn.2⟩
    · split at ho
      · rename_i r' hr
        cases ho
        exact ⟨noOut_onPath t _ hn.1, tryOutlineFields_onPath r path r' hr hn.2⟩
      · cases ho
termination_by structural fs => fs
end

mutual
theorem findHoist_onPath : ∀ (t t' : Ty) (path : Path), findHoist t = some t' → OnPath t path → OnPath t' path
  | .variant ts l, t', path, hh, h => by
    simp only [findHoist, Option.some.injEq] at hh
    subst hh
    exact ⟨h.1, noOut_of_terms (by
      rw [toList_ofList]; exact hoist_noOut (ts.toList, l.dflt) (terms_noOut _ h.2))⟩
  | .struct fs sz al, t', path, hh, h => by
    simp only [findHoist] at hh
    split at hh
    · rename_i fs' hf
      cases hh
      exact findHoistFields_onPath fs fs' path hf h
    · cases hh
  | .int _ _ _, t', path, hh, _ => by simp [findHoist] at hh
  | .float _ _, t', path, hh, _ => by simp [findHoist] at hh
  | .unit, t', path, hh, _ => by simp [findHoist] at hh
  | .array _ _ _ _, t', path, hh, _ => by simp [findHoist] at hh
  | .vector _ _, t', path, hh, _ => by simp [findHoist] at hh
termination_by structural t => t
theorem findHoistFields_onPath : ∀ (fs fs' : Fields) (path : Path), findHoistFields fs = some fs' →
    OnPathFields fs path → OnPathFields fs' path
  | .nil, fs', path, hh, _ => by simp [findHoistFields] at hh
  | .cons c o t r, fs', path, hh, h => by
    simp only [findHoistFields] at hh
    split at hh
    · rename_i t' ht
      cases hh
      exact ⟨findHoist_onPath t t' _ ht h.1, h.2⟩
    · split at hh
      · rename_i r' hr
        cases hh
        exact ⟨h.1, findHoistFields_onPath r r' path hr h.2⟩
      · cases hh
termination_by structural fs => fs
end

mutual
theorem layout_onPath : ∀ (t : Ty) (path : Path), OnPath t path → OnPath (layout t) path
  | .variant ts l, path, h => by
    simp only [layout, OnPath, layoutVar]
    refine ⟨fun ho => ?_, layoutTerms_out ts h.2⟩
    split at ho
    · rename_i hl; exact h.1 hl
    · cases ho
  | .struct fs _ _, path, h => layoutFields_onPath fs 0 path h
  | .array e _ _ _, _, h => (layout_out e).1 h
  | .vector e _, _, h => (layout_out e).1 h
  | .int _ _ _, _, _ => trivial
  | .float _ _, _, _ => trivial
  | .unit, _, _ => trivial
termination_by structural t => t
theorem layoutFields_onPath : ∀ (fs : Fields) (off : Nat) (path : Path), OnPathFields fs path →
    OnPathFields (layoutFields fs off 1).1 path
  | .nil, _, _, _ => trivial
  | .cons c o t r, off, path, h => by
    rw [layoutFields_cons]
    exact ⟨layout_onPath t _ h.1, layoutFields_onPath r _ path h.2⟩
termination_by structural fs => fs
end

mutual
theorem setOut_onPath (d : Nat) : ∀ (t : Ty) (path : Path), OnPath t path → OnPath (setOut d t) path
  | .variant ts l, path, h => by
    simp only [setOut]
    split <;> exact h
  | .struct fs _ _, path, h => setOutFields_onPath d fs path h
  | .array _ _ _ _, _, h => h
  | .vector _ _, _, h => h
  | .int _ _ _, _, _ => trivial
  | .float _ _, _, _ => trivial
  | .unit, _, _ => trivial
termination_by structural t => t
theorem setOutFields_onPath (d : Nat) : ∀ (fs : Fields) (path : Path), OnPathFields fs path →
    OnPathFields (setOutFields d fs) path
  | .nil, _, _ => trivial
  | .cons _ _ t r, path, h => ⟨setOut_onPath d t _ h.1, setOutFields_onPath d r path h.2⟩
termination_by structural fs => fs
end

theorem plan_onPath (h : Ty) (path : Path) (p : Proto) (hn : h.noOut) (hp : plan h path = some p) :
    OnPath p.head path := by
  have key : OnPath (prepare h path) path := by
    unfold prepare
    have key : ∀ t1, OnPath t1 path → OnPath ((findHoist t1).getD t1) path := by
      intro t1 h1
      cases hf : findHoist t1 with
      | none => exact h1
      | some t2 => exact findHoist_onPath t1 t2 path hf h1
    cases ho : tryOutline h path with
    | none => exact key h (noOut_onPath h path hn)
    | some t1 => exact key t1 (tryOutline_onPath h path t1 ho hn)
  unfold plan at hp
  split at hp
  · cases hp
    unfold genOffset
    split
    · exact layout_onPath _ path key
    · exact setOut_onPath _ _ path (layout_onPath _ path key)
  · cases hp

mutual
/-- A type without content has no variant at the path. -/
theorem led_none (q : VecL → Prop) : ∀ (h t : Ty) (path : Path), Rel q h t → Led h path .unit → OnPath t path →
    t.hasOut = false
  | .struct fs _ _, t, path, hr, hl, ho => by
    obtain ⟨fs', sz, al, rfl, hr⟩ := hr
    exact ledFields_none q fs fs' path hr hl ho
  | .variant ts l, t, path, hr, hl, ho => by
    obtain ⟨ts', l', rfl, _⟩ := hr
    rcases hl with rfl | ⟨_, _, hl⟩
    · cases hc : l'.outline
      · exact hc
      · exact absurd rfl (ho.1 hc)
    · cases hl
  | .int _ _ _, t, path, hr, _, _ => by obtain ⟨al, rfl⟩ := hr; rfl
  | .float _ _, t, path, hr, _, _ => by obtain ⟨al, rfl⟩ := hr; rfl
  | .unit, t, path, hr, _, _ => by simp only [Rel] at hr; subst hr; rfl
  | .array _ _ _ _, t, path, hr, _, _ => by obtain ⟨_, _, _, rfl, _⟩ := hr; rfl
  | .vector _ _, t, path, hr, _, _ => by obtain ⟨_, _, rfl, _⟩ := hr; rfl
termination_by structural h => h
theorem ledFields_none (q : VecL → Prop) : ∀ (hfs fs : Fields) (path : Path), RelFields q hfs fs →
    LedFields hfs path .nil → OnPathFields fs path → fs.hasOut = false
  | .nil, fs, path, hr, _, _ => by simp only [RelFields] at hr; subst hr; rfl
  | .cons c o t r, fs, path, hr, hl, ho => by
    obtain ⟨o', t', r', rfl, h1, h2⟩ := hr
    simp only [Fields.hasOut, Bool.or_eq_false_iff]
    exact ⟨led_none q t t' _ h1 hl.1 ho.1, ledFields_none q r r' path h2 hl.2 ho.2⟩
termination_by structural hfs => hfs
end

mutual
theorem led_given (q : VecL → Prop) : ∀ (h t : Ty) (path : Path) (s : Ty), Rel q h t → Led h path s →
    OnPath t path → WF s → OutGiven t s
  | .struct fs sz0 al0, t, path, s, hr, hl, ho, hw => by
    have hr0 := hr
    obtain ⟨fs', sz, al, rfl, hr⟩ := hr
    cases s <;> simp only [OutGiven]
    · exact led_none q (.struct fs sz0 al0) _ path hr0 hl ho
    · exact ledFields_given q fs fs' path _ hr hl ho hw.1 hw.2.names
  | .variant ts l, t, path, s, hr, hl, ho, hw => by
    obtain ⟨ts', l', rfl, _⟩ := hr
    cases s <;> simp only [OutGiven]
    · rcases hl with rfl | ⟨_, _, hl⟩
      · cases hc : l'.outline
        · rfl
        · exact absurd rfl (ho.1 hc)
      · cases hl
    · intro u _
      split
      · exact noOut_givenNamed _ _ _ ho.2
      · exact noOut_givenAt _ _ _ ho.2
  | .int _ _ _, t, path, s, hr, _, _, _ => by obtain ⟨al, rfl⟩ := hr; simp [OutGiven]
  | .float _ _, t, path, s, hr, _, _, _ => by obtain ⟨al, rfl⟩ := hr; simp [OutGiven]
  | .unit, t, path, s, hr, _, _, _ => by simp only [Rel] at hr; subst hr; simp [OutGiven]
  | .array _ _ _ _, t, path, s, hr, _, ho, _ => by
    obtain ⟨_, _, _, rfl, _⟩ := hr; exact noOut_given _ _ ho
  | .vector _ _, t, path, s, hr, _, ho, _ => by
    obtain ⟨_, _, rfl, _⟩ := hr; exact noOut_given _ _ ho
termination_by structural h => h
theorem ledFields_given (q : VecL → Prop) : ∀ (hfs fs : Fields) (path : Path) (sfs : Fields), RelFields q hfs fs →
    LedFields hfs path sfs → OnPathFields fs path → WFFields sfs → (sfs.toList.map (·.1)).Nodup →
    OutGivenFields fs sfs
  | .nil, fs, path, sfs, hr, _, _, _, _ => by simp only [RelFields] at hr; subst hr; simp [OutGivenFields]
  | .cons c o t r, fs, path, sfs, hr, hl, ho, hw, hn => by
    obtain ⟨o', t', r', rfl, h1, h2⟩ := hr
    simp only [OutGivenFields]
    refine ⟨?_, ledFields_given q r r' path sfs h2 hl.2 ho.2 hw hn⟩
    have hl1 := hl.1
    simp only [Fields.tyOf] at hl1
    rw [find_eq_findLast sfs hn]
    split
    · rename_i o'' sty hf
      rw [hf] at hl1
      exact led_given q t t' _ sty h1 hl1 ho.1 (WFFields_iff.1 hw _ (mem_of_find hf))
    · rename_i hf
      rw [hf] at hl1
      exact led_none q t t' _ h1 hl1 ho.1
termination_by structural hfs => hfs
end

/-! ## Compatibility -/

theorem OutGivenNamed_iff {c : Comp} {ty : Ty} : ∀ {ts : Terms}, OutGivenNamed ts c ty ↔
    ∀ t ∈ ts.toList, t.name = c → OutGiven t.ty ty
  | .nil => by simp [OutGivenNamed, Terms.toList]
  | .cons n g as t r => by
    simp only [OutGivenNamed, Terms.toList, List.forall_mem_cons, OutGivenNamed_iff (ts := r)]

theorem outGivenAt_iff {ty : Ty} : ∀ {ts : Terms} {i : Nat}, OutGivenAt ts i ty ↔
    ∀ t, ts.toList[i]? = some t → OutGiven t.ty ty
  | .nil, i => by simp [OutGivenAt, Terms.toList]
  | .cons n g as t r, 0 => by simp [OutGivenAt, Terms.toList]
  | .cons n g as t r, i + 1 => by simp [OutGivenAt, Terms.toList, outGivenAt_iff (ts := r)]

theorem enumEvolves_encode {hts sts wts : Terms} {hl sl wl : VarL} (hh : (hts.toList.map (·.name)).Nodup)
    (hs : (sts.toList.map (·.name)).Nodup) (ht : wts.tagsOf = hts.tagsOf) (hw : VarLayout sts.toList sl)
    (hd : DfltRel hts.toList hl.dflt wts.toList wl.dflt)
    (he : enumFast wts sts wl sl = true) (h : EnumEvolves hts hl.dflt sts) : EnumCompat wts sts wl sl := by
  have hn : (wts.toList.map (·.name)).Nodup := by rw [names_of_tags ht]; exact hh
  refine ⟨hn, hs, ?_⟩
  rcases h with h | h | ⟨h1, h2⟩
  · refine Or.inl (exactMatch_sub hn fun t ht' => ?_)
    obtain ⟨u, hu, e1, e2⟩ := h t ht'
    have hm : (u.name, u.tag) ∈ wts.tagsOf := by
      rw [ht]; exact List.mem_map.2 ⟨u, hu, rfl⟩
    obtain ⟨x, hx, e⟩ := List.mem_map.1 hm
    simp only [Prod.mk.injEq] at e
    exact ⟨x, hx, by rw [e.1, e1], by rw [e.2, e2]⟩
  · simp only [enumFast, Bool.and_eq_true, Bool.or_eq_true, beq_iff_eq, decide_eq_true_eq] at he
    rcases he.2 with e | e
    · exact Or.inl (exactMatch_same e hn)
    · omega
  · refine Or.inr ⟨?_, ?_⟩
    · have e : tableSize (enumTy sts sl) = (sts.toList.map (·.tag)).foldl max 0 + 1 := by
        simp only [tableSize, enumTy, List.map_map]
        rfl
      rw [e]
      refine h2 sl.tagW hw.tagW.1 ?_
      have hpos : 0 < 256 ^ sl.tagW := Nat.pow_pos (by omega)
      have : (sts.toList.map (·.tag)).foldl max 0 ≤ 256 ^ sl.tagW - 1 := by
        refine foldl_max_le (by omega) fun x hx => ?_
        obtain ⟨t, ht', rfl⟩ := List.mem_map.1 hx
        have := (hw.tagLt t ht').1
        omega
      omega
    · obtain ⟨a, u, e1, e2, _, e3⟩ := hd
      rw [e2]
      rw [e1] at h1
      simp only [Option.map_some, Option.some.injEq] at h1 ⊢
      omega

set_option maxHeartbeats 1000000 in
mutual
/-- What the planner makes of a schema can be sent by the types the schema can take. -/
theorem evolves_encode (q : VecL → Prop) : ∀ h t s : Ty, Evolves h s → Rel q h t → OutGiven t s → Plain h →
    Plain s → s.noPart → WF t → WF s → Compat t s
  | .unit, t, s, _, hr, _, _, _, _, _, _ => by simp only [Rel] at hr; subst hr; simp [Compat]
  | .int _ _ _, t, s, _, hr, _, _, _, _, _, _ => by obtain ⟨al, rfl⟩ := hr; simp [Compat]
  | .float _ _, t, s, _, hr, _, _, _, _, _, _ => by obtain ⟨al, rfl⟩ := hr; simp [Compat]
  | .struct hfs _ _, t, s, he, hr, hg, hp, hps, hn, hw, hws => by
    obtain ⟨fs', sz, al, rfl, hr⟩ := hr
    cases s <;> simp only [Evolves] at he <;> simp only [OutGiven] at hg <;> simp only [Compat]
    · exact hg
    · exact evolvesFields_encode q hfs fs' _ he hr hg hp hps hn hw.1 hws.1 hws.2.names
  | .variant hts hl, t, s, he, hr, hg, hp, hps, hn, hw, hws => by
    obtain ⟨wts, wl, rfl, h1, h2, h3, h4, h5⟩ := hr
    cases s <;> simp only [Evolves] at he <;> simp only [OutGiven] at hg <;> simp only [Compat]
    · exact hg
    · rename_i sts sl
      simp only [Plain] at hp hps
      simp only [WF] at hw hws
      simp only [Ty.noPart] at hn
      obtain ⟨he1, he2⟩ := he
      have htr : TermsRel q hts wts.toList := ⟨h1, fun a ha => hasName_iff.1 (h2 a ha), h3, h4⟩
      refine ⟨fun hf => ?_, fun u hu => ?_⟩
      · have he' : wts.isEnum = true ∧ sts.isEnum = true := by
          simp only [enumFast, Bool.and_eq_true] at hf; exact ⟨hf.1.1.2, hf.1.2⟩
        have ht := enum_tags hw.1 htr he'.1
        exact enumEvolves_encode hp.1 hps.1 ht hws.2 h5 hf
          (he1 (rel_isEnum hw.1 he'.1 h1 h2) (isEnum_bytes hws.1 he'.2))
      · have hgu := hg u hu
        obtain ⟨g1, g2⟩ := he2 u hu
        have hpu := (PlainTerms_iff.1 hps.2 u hu).2
        have hnu := noPart_mem hn hu
        have hwu := terms_WF _ hws.1 u hu
        split
        · rename_i hc
          rw [if_pos hc] at hgu
          refine CompatNamed_iff.2 fun x hx hnx => ?_
          obtain ⟨y, hy, hny⟩ := hasName_iff.1 (h1 x hx).1
          exact evolvesTerms_encode q hts y x.ty u.ty hy
            (EvolvesNamed_iff.1 g1 y hy (by rw [hny, hnx])) (RelNamed_iff.1 (h1 x hx).2 y hy hny)
            (OutGivenNamed_iff.1 hgu x hx hnx) hp.2 hpu hnu (terms_WF _ hw.1 x hx) hwu
        · rename_i hc
          rw [if_neg hc] at hgu
          refine compatAt_iff.2 fun x hx => ?_
          have hxm := List.mem_of_getElem? hx
          have hnb : hts.hasName u.name = false := by
            cases hb : hts.hasName u.name
            · rfl
            · obtain ⟨y, hy, hny⟩ := hasName_iff.1 hb
              have := h2 y hy
              rw [hny] at this
              exact absurd this hc
          obtain ⟨y, x', e1, e2, e3, _⟩ := h5
          rw [hx] at e2
          cases e2
          have hy := List.mem_of_getElem? e1
          exact evolvesTerms_encode q hts y x.ty u.ty hy (evolvesAt_iff.1 (g2 hnb) y e1)
            (RelNamed_iff.1 (h1 x hxm).2 y hy e3.symm) (outGivenAt_iff.1 hgu x hx) hp.2 hpu hnu
            (terms_WF _ hw.1 x hxm) hwu
  | .array he0 _ _ _, t, s, he, hr, hg, hp, hps, hn, hw, hws => by
    obtain ⟨e', esz, al, rfl, hr⟩ := hr
    cases s <;> simp only [Evolves] at he <;> simp only [OutGiven] at hg <;> simp only [Compat]
    exact evolves_encode q he0 e' _ he hr hg hp hps hn hw.1 hws.1
  | .vector he0 hl, t, s, he, hr, hg, hp, hps, hn, hw, hws => by
    obtain ⟨e', l, rfl, h1, h2, h3⟩ := hr
    cases s <;> simp only [Evolves] at he <;> simp only [OutGiven] at hg <;> simp only [Compat]
    refine ⟨evolves_encode q he0 e' _ he.1 h1 hg hp hps hn.2 hw.1 hws.1, Or.inl ?_⟩
    rw [hn.1]; omega
termination_by structural h => h
theorem evolvesFields_encode (q : VecL → Prop) : ∀ hfs wfs sfs : Fields, EvolvesFields hfs sfs →
    RelFields q hfs wfs → OutGivenFields wfs sfs → PlainFields hfs → PlainFields sfs → sfs.noPart → WFFields wfs →
    WFFields sfs → (sfs.toList.map (·.1)).Nodup → CompatFields wfs sfs
  | .nil, wfs, sfs, _, hr, _, _, _, _, _, _, _ => by simp only [RelFields] at hr; subst hr; simp [CompatFields]
  | .cons c o t r, wfs, sfs, he, hr, hg, hp, hps, hn, hw, hws, hnd => by
    obtain ⟨o', t', r', rfl, h1, h2⟩ := hr
    simp only [EvolvesFields] at he
    simp only [OutGivenFields] at hg
    simp only [CompatFields]
    refine ⟨?_, evolvesFields_encode q r r' sfs he.2 h2 hg.2 hp.2 hps hn hw.2 hws hnd⟩
    have hg1 := hg.1
    split
    · rename_i o'' ty hf
      rw [hf] at hg1
      have hmem : (c, o'', ty) ∈ sfs.toList := mem_of_find (by rw [← find_eq_findLast sfs hnd]; exact hf)
      exact evolves_encode q t t' ty (he.1 _ hmem rfl) h1 hg1 hp.1 (PlainFields_iff.1 hps _ hmem)
        (noPart_findLast hn hf) hw.1 (WFFields_iff.1 hws _ hmem)
    · rename_i hf
      rw [hf] at hg1
      exact hg1
termination_by structural hfs => hfs
theorem evolvesTerms_encode (q : VecL → Prop) : ∀ (hts : Terms) (y : Term) (wty sty : Ty), y ∈ hts.toList →
    Evolves y.ty sty → Rel q y.ty wty → OutGiven wty sty → PlainTerms hts → Plain sty → sty.noPart → WF wty →
    WF sty → Compat wty sty
  | .nil, y, _, _, hy, _, _, _, _, _, _, _, _ => by simp [Terms.toList] at hy
  | .cons n g as t r, y, wty, sty, hy, he, hr, hg, hp, hps, hn, hw, hws => by
    simp only [Terms.toList, List.mem_cons] at hy
    rcases hy with rfl | hy
    · exact evolves_encode q t wty sty he hr hg hp.2.1 hps hn hw hws
    · exact evolvesTerms_encode q r y wty sty hy he hr hg hp.2.2 hps hn hw hws
termination_by structural hts => hts
end

end PJ
