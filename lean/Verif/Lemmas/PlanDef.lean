import Verif.Lemmas.PlanOut
/-!
# When planning is defined
-/
namespace PJ

mutual
theorem layout_bytes : ∀ t : Ty, WF (layout t) → t.bytes = true → 0 < (layout t).size
  | .int w s _, h, hb => by simp only [Ty.bytes, bne_iff_ne] at hb; simp only [layout, Ty.size]; omega
  | .float w _, h, hb => by simp only [Ty.bytes, bne_iff_ne] at hb; simp only [layout, Ty.size]; omega
  | .unit, _, hb => by simp [Ty.bytes] at hb
  | .struct fs _ _, h, hb => by
    simp only [layout] at h
    simp only [layout, Ty.size]
    exact layoutFields_bytes fs 0 h.1 hb
  | .variant ts l, h, _ => by
    simp only [layout] at h
    have := h.2.tagIn
    have := h.2.tagW
    simp only [layout, Ty.size]; omega
  | .array e n _ _, h, hb => by
    simp only [Ty.bytes, Bool.and_eq_true, bne_iff_ne] at hb
    simp only [layout] at h
    have h1 := layout_bytes e h.1 hb.2
    have h2 := h.2
    have h3 : 0 < roundUp (layout e).size (layout e).align := by omega
    simp only [layout, Ty.size]
    exact Nat.mul_pos (by omega) h3
  | .vector e l, h, _ => by
    simp only [layout] at h
    have := h.2.lenIn
    have := h.2.lenSize
    show 0 < (layoutVec (layout e).size (layout e).align l).size
    omega
termination_by structural t => t
theorem layoutFields_bytes : ∀ (fs : Fields) (off : Nat), WFFields (layoutFields fs off 1).1 → fs.bytes = true →
    off < (layoutFields fs off 1).2.1
  | .nil, off, _, hb => by simp [Fields.bytes] at hb
  | .cons c o t r, off, h, hb => by
    rw [layoutFields_cons] at h ⊢
    simp only [Fields.bytes, Bool.or_eq_true] at hb
    simp only at h ⊢
    rcases hb with hb | hb
    · have h1 := layout_bytes t h.1 hb
      have h2 := layoutFields_size r (off + (layout t).size)
      omega
    · have h2 := layoutFields_bytes r _ h.2 hb
      omega
termination_by structural fs => fs
end

mutual
theorem planDef_of : ∀ t : Ty, Sch t → Elems t → t.planDef = true
  | .int _ _ _, _, _ => rfl
  | .float _ _, _, _ => rfl
  | .unit, _, _ => rfl
  | .struct fs _ _, h, he => planDefFields_of fs h.2 he
  | .variant ts l, h, he => by
    simp only [Sch] at h
    simp only [Ty.planDef, Bool.and_eq_true]
    refine ⟨?_, planDefTerms_of ts h.2.2.2.2 he⟩
    obtain ⟨x, hx, hne⟩ := h.2.2.1
    obtain ⟨w, hw, _⟩ := C17_tag_fits_partial (ts.toList.map (·.tag))
      (fun t ht => by
        obtain ⟨x, hx, rfl⟩ := List.mem_map.1 ht
        have := h.2.2.2.1 x hx
        omega) ⟨_, List.mem_map_of_mem hx, hne⟩
    rw [hw]; rfl
  | .array e _ _ _, h, he => planDef_of e h he
  | .vector e l, h, he => by
    simp only [Ty.planDef, Bool.and_eq_true, bne_iff_ne]
    have hd := planDef_of e h.1 he.2
    have := layout_bytes e (layout_WF e h.1 hd) he.1
    exact ⟨by omega, hd⟩
termination_by structural t => t
theorem planDefFields_of : ∀ fs : Fields, SchFields fs → ElemsFields fs → fs.planDef = true
  | .nil, _, _ => rfl
  | .cons _ _ t r, h, he => by
    simp only [Fields.planDef, Bool.and_eq_true]
    exact ⟨planDef_of t h.1 he.1, planDefFields_of r h.2 he.2⟩
termination_by structural fs => fs
theorem planDefTerms_of : ∀ ts : Terms, SchTerms ts → ElemsTerms ts → ts.planDef = true
  | .nil, _, _ => rfl
  | .cons _ _ _ t r, h, he => by
    simp only [Terms.planDef, Bool.and_eq_true]
    exact ⟨planDef_of t h.1 he.1, planDefTerms_of r h.2 he.2⟩
termination_by structural ts => ts
end

theorem ElemsTerms_iff : ∀ {ts : Terms}, ElemsTerms ts ↔ ∀ t ∈ ts.toList, Elems t.ty
  | .nil => by simp [ElemsTerms, Terms.toList]
  | .cons n g as t r => by simp [ElemsTerms, Terms.toList, ElemsTerms_iff (ts := r)]

mutual
theorem tryOutline_elems : ∀ (t : Ty) (path : Path) (t' : Ty), tryOutline t path = some t' → Elems t → Elems t'
  | .variant ts l, path, t', ho, h => by
    simp only [tryOutline] at ho
    split at ho
    · cases ho
    · cases ho; exact h
  | .struct fs sz al, path, t', ho, h => by
    simp only [tryOutline] at ho
    split at ho
    · cases ho
    · split at ho
      · rename_i fs' hfs
        cases ho
        exact tryOutlineFields_elems fs path fs' hfs h
      · cases ho
  | .int _ _ _, path, t', ho, _ => by simp [tryOutline] at ho
  | .float _ _, path, t', ho, _ => by simp [tryOutline] at ho
  | .unit, path, t', ho, _ => by simp [tryOutline] at ho
  | .array _ _ _ _, path, t', ho, _ => by simp [tryOutline] at ho
  | .vector _ _, path, t', ho, _ => by simp [tryOutline] at ho
termination_by structural t => t
theorem tryOutlineFields_elems : ∀ (fs : Fields) (path : Path) (fs' : Fields),
    tryOutlineFields fs path = some fs' → ElemsFields fs → ElemsFields fs'
  | .nil, path, fs', ho, _ => by simp [tryOutlineFields] at ho
  | .cons c o t r, path, fs', ho, h => by
    simp only [tryOutlineFields] at ho
    split at ho
    · rename_i t' ht
      cases ho
      exact ⟨tryOutline_elems t _ t' ht h.1, h.2⟩
    · split at ho
      · rename_i r' hr
        cases ho
        exact ⟨h.1, tryOutlineFields_elems r path r' hr h.2⟩
      · cases ho
termination_by structural fs => fs
end

mutual
theorem split_elems : ∀ (t : Ty) (s : Split), splitFirst t = some s → Elems t → Elems s.short ∧ Elems s.long
  | .vector e l, s, hs, h => by
    simp only [splitFirst] at hs
    split at hs
    · cases hs
    · cases hs; exact ⟨h, h⟩
  | .struct fs sz al, s, hs, h => by
    simp only [splitFirst] at hs
    split at hs
    · rename_i hf
      cases hs
      exact splitFields_elems fs _ _ _ _ hf h
    · cases hs
  | .int _ _ _, s, hs, _ => by simp [splitFirst] at hs
  | .float _ _, s, hs, _ => by simp [splitFirst] at hs
  | .unit, s, hs, _ => by simp [splitFirst] at hs
  | .array _ _ _ _, s, hs, _ => by simp [splitFirst] at hs
  | .variant _ _, s, hs, _ => by simp [splitFirst] at hs
termination_by structural t => t
theorem splitFields_elems : ∀ (fs : Fields) (n : Nat) (short long : Fields) (path : Path),
    splitFields fs = some (n, short, long, path) → ElemsFields fs → ElemsFields short ∧ ElemsFields long
  | .nil, n, short, long, path, hs, _ => by simp [splitFields] at hs
  | .cons c o t r, n, short, long, path, hs, h => by
    simp only [splitFields] at hs
    split at hs
    · rename_i s ht
      cases hs
      obtain ⟨h1, h2⟩ := split_elems t s ht h.1
      exact ⟨⟨h1, h.2⟩, ⟨h2, h.2⟩⟩
    · split at hs
      · rename_i hr
        cases hs
        obtain ⟨h1, h2⟩ := splitFields_elems r _ _ _ _ hr h.2
        exact ⟨⟨h.1, h1⟩, ⟨h.1, h2⟩⟩
      · cases hs
termination_by structural fs => fs
end

theorem hoist_elems (x : List Term × Nat) (h : ∀ t ∈ x.1, Elems t.ty) : ∀ t ∈ (hoist x).1, Elems t.ty :=
  hoist_inv (P := fun x => ∀ t ∈ x.1, Elems t.ty) (fun x y s h u hu => by
    obtain ⟨h1, h2⟩ := split_elems _ _ s.split (h _ ((s.mem_src _).2 (Or.inr (Or.inl rfl))))
    rcases (s.mem u).1 hu with hu | rfl | hu | rfl
    · exact h u ((s.mem_src u).2 (Or.inl hu))
    · exact h2
    · exact h u ((s.mem_src u).2 (Or.inr (Or.inr hu)))
    · exact h1) x h

mutual
theorem findHoist_elems : ∀ (t t' : Ty), findHoist t = some t' → Elems t → Elems t'
  | .variant ts l, t', hh, h => by
    simp only [findHoist, Option.some.injEq] at hh
    subst hh
    refine ElemsTerms_iff.2 ?_
    rw [toList_ofList]
    exact hoist_elems (ts.toList, l.dflt) (ElemsTerms_iff.1 h)
  | .struct fs sz al, t', hh, h => by
    simp only [findHoist] at hh
    split at hh
    · rename_i fs' hf
      cases hh
      exact findHoistFields_elems fs fs' hf h
    · cases hh
  | .int _ _ _, t', hh, _ => by simp [findHoist] at hh
  | .float _ _, t', hh, _ => by simp [findHoist] at hh
  | .unit, t', hh, _ => by simp [findHoist] at hh
  | .array _ _ _ _, t', hh, _ => by simp [findHoist] at hh
  | .vector _ _, t', hh, _ => by simp [findHoist] at hh
termination_by structural t => t
theorem findHoistFields_elems : ∀ (fs fs' : Fields), findHoistFields fs = some fs' → ElemsFields fs →
    ElemsFields fs'
  | .nil, fs', hh, _ => by simp [findHoistFields] at hh
  | .cons c o t r, fs', hh, h => by
    simp only [findHoistFields] at hh
    split at hh
    · rename_i t' ht
      cases hh
      exact ⟨findHoist_elems t t' ht h.1, h.2⟩
    · split at hh
      · rename_i r' hr
        cases hh
        exact ⟨h.1, findHoistFields_elems r r' hr h.2⟩
      · cases hh
termination_by structural fs => fs
end

/-- Planning a schema without empty vector elements is defined. -/
theorem plan_defined (t : Ty) (path : Path) (hs : Sch t) (hsm : Small t) (hp : Plain t) (he : Elems t) :
    ∃ p, plan t path = some p := by
  have h1 := (prepare_ok t path hs hsm hp).1
  have h2 : Elems (prepare t path) := by
    have key : ∀ t1 : Ty, Elems t1 → Elems ((findHoist t1).getD t1) := by
      intro t1 h
      cases hf : findHoist t1 with
      | none => exact h
      | some t2 => exact findHoist_elems t1 t2 hf h
    unfold prepare
    cases ho : tryOutline t path with
    | none => exact key t he
    | some t1 => exact key t1 (tryOutline_elems t path t1 ho he)
  exact ⟨_, if_pos (planDef_of _ h1 h2)⟩

end PJ
