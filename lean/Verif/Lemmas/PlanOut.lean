import Verif.Lemmas.Rel
/-!
# The outlined variant of a planned protocol
-/
namespace PJ

mutual
/-- At most one outline variant, reached through struct fields only. -/
def OutOne : Ty → Prop
  | .struct fs _ _ => OutOneFields fs
  | .variant ts _ => ts.noOut
  | .array e _ _ _ => e.noOut
  | .vector e _ => e.noOut
  | _ => True
def OutOneFields : Fields → Prop
  | .nil => True
  | .cons _ _ t r => (if t.hasOut then OutOne t ∧ r.hasOut = false else t.noOut) ∧ OutOneFields r
end

mutual
theorem noOut_outOne : ∀ t : Ty, t.noOut → OutOne t
  | .struct fs _ _, h => noOut_outOneFields fs h
  | .variant _ _, h => h.2
  | .array _ _ _ _, h => h
  | .vector _ _, h => h
  | .int _ _ _, _ => trivial
  | .float _ _, _ => trivial
  | .unit, _ => trivial
theorem noOut_outOneFields : ∀ fs : Fields, fs.noOut → OutOneFields fs
  | .nil, _ => trivial
  | .cons _ _ t r, h => by
    refine ⟨?_, noOut_outOneFields r h.2⟩
    rw [noOut_hasOut t h.1]
    exact h.1
termination_by structural fs => fs
end

mutual
theorem tryOutline_out : ∀ (t : Ty) (path : Path) (t' : Ty), tryOutline t path = some t' → t.noOut →
    OutOne t' ∧ t'.hasOut = true
  | .variant ts l, path, t', ho, hn => by
    simp only [tryOutline] at ho
    split at ho
    · cases ho
    · cases ho
      exact ⟨hn.2, rfl⟩
  | .struct fs sz al, path, t', ho, hn => by
    simp only [tryOutline] at ho
    split at ho
    · cases ho
    · split at ho
      · rename_i fs' hfs
        cases ho
        exact tryOutlineFields_out fs path fs' hfs hn
      · cases ho
  | .int _ _ _, path, t', ho, _ => by simp [tryOutline] at ho
  | .float _ _, path, t', ho, _ => by simp [tryOutline] at ho
  | .unit, path, t', ho, _ => by simp [tryOutline] at ho
  | .array _ _ _ _, path, t', ho, _ => by simp [tryOutline] at ho
  | .vector _ _, path, t', ho, _ => by simp [tryOutline] at ho
termination_by structural t => t
theorem tryOutlineFields_out : ∀ (fs : Fields) (path : Path) (fs' : Fields),
    tryOutlineFields fs path = some fs' → fs.noOut → OutOneFields fs' ∧ fs'.hasOut = true
  | .nil, path, fs', ho, _ => by simp [tryOutlineFields] at ho
  | .cons c o t r, path, fs', ho, hn => by
    simp only [tryOutlineFields] at ho
    split at ho
    · rename_i t' ht
      cases ho
      obtain ⟨h1, h2⟩ := tryOutline_out t _ t' ht hn.1
      refine ⟨⟨?_, noOut_outOneFields r hn.2⟩, ?_⟩
      · rw [if_pos h2]; exact ⟨h1, noOut_hasOutFields r hn.2⟩
      · simp only [Fields.hasOut, h2, Bool.true_or]
    · split at ho
      · rename_i r' hr
        cases ho
        obtain ⟨h1, h2⟩ := tryOutlineFields_out r path r' hr hn.2
        refine ⟨⟨?_, h1⟩, ?_⟩
        · rw [noOut_hasOut t hn.1]; exact hn.1
        · simp only [Fields.hasOut, h2, Bool.or_true]
      · cases ho
termination_by structural fs => fs
end

theorem noOut_of_terms : ∀ {ts : Terms}, (∀ t ∈ ts.toList, t.ty.noOut) → ts.noOut
  | .nil, _ => trivial
  | .cons n g as t r, h => ⟨h ⟨n, g, as, t⟩ (by simp [Terms.toList]),
      noOut_of_terms fun u hu => h u (by simp [Terms.toList, hu])⟩

mutual
theorem split_noOut : ∀ (t : Ty) (s : Split), splitFirst t = some s → t.noOut → s.short.noOut ∧ s.long.noOut
  | .vector e l, s, hs, h => by
    simp only [splitFirst] at hs
    split at hs
    · cases hs
    · cases hs; exact ⟨h, h⟩
  | .struct fs sz al, s, hs, h => by
    simp only [splitFirst] at hs
    split at hs
    · rename_i hf
      cases hs
      exact splitFields_noOut fs _ _ _ _ hf h
    · cases hs
  | .int _ _ _, s, hs, _ => by simp [splitFirst] at hs
  | .float _ _, s, hs, _ => by simp [splitFirst] at hs
  | .unit, s, hs, _ => by simp [splitFirst] at hs
  | .array _ _ _ _, s, hs, _ => by simp [splitFirst] at hs
  | .variant _ _, s, hs, _ => by simp [splitFirst] at hs
termination_by structural t => t
theorem splitFields_noOut : ∀ (fs : Fields) (n : Nat) (short long : Fields) (path : Path),
    splitFields fs = some (n, short, long, path) → fs.noOut → short.noOut ∧ long.noOut
  | .nil, n, short, long, path, hs, _ => by simp [splitFields] at hs
  | .cons c o t r, n, short, long, path, hs, h => by
    simp only [splitFields] at hs
    split at hs
    · rename_i s ht
      cases hs
      obtain ⟨h1, h2⟩ := split_noOut t s ht h.1
      exact ⟨⟨h1, h.2⟩, ⟨h2, h.2⟩⟩
    · split at hs
      · rename_i hr
        cases hs
        obtain ⟨h1, h2⟩ := splitFields_noOut r _ _ _ _ hr h.2
        exact ⟨⟨h.1, h1⟩, ⟨h.1, h2⟩⟩
      · cases hs
termination_by structural fs => fs
end

theorem hoist_noOut (x : List Term × Nat) (h : ∀ t ∈ x.1, t.ty.noOut) : ∀ t ∈ (hoist x).1, t.ty.noOut :=
  hoist_inv (P := fun x => ∀ t ∈ x.1, t.ty.noOut) (fun x y s h u hu => by
    obtain ⟨h1, h2⟩ := split_noOut _ _ s.split (h _ ((s.mem_src _).2 (Or.inr (Or.inl rfl))))
    rcases (s.mem u).1 hu with hu | rfl | hu | rfl
    · exact h u ((s.mem_src u).2 (Or.inl hu))
    · exact h2
    · exact h u ((s.mem_src u).2 (Or.inr (Or.inr hu)))
    · exact h1) x h

mutual
theorem findHoist_out : ∀ (t t' : Ty), findHoist t = some t' →
    (t.noOut → t'.noOut) ∧ (OutOne t → OutOne t') ∧ t'.hasOut = t.hasOut
  | .variant ts l, t', hh => by
    simp only [findHoist, Option.some.injEq] at hh
    subst hh
    have key : ts.noOut → (Terms.ofList (hoist (ts.toList, l.dflt)).1).noOut := fun h =>
      noOut_of_terms (by rw [toList_ofList]; exact hoist_noOut (ts.toList, l.dflt) (terms_noOut _ h))
    exact ⟨fun h => ⟨h.1, key h.2⟩, fun h => key h, rfl⟩
  | .struct fs sz al, t', hh => by
    simp only [findHoist] at hh
    split at hh
    · rename_i fs' hf
      cases hh
      exact findHoistFields_out fs fs' hf
    · cases hh
  | .int _ _ _, t', hh => by simp [findHoist] at hh
  | .float _ _, t', hh => by simp [findHoist] at hh
  | .unit, t', hh => by simp [findHoist] at hh
  | .array _ _ _ _, t', hh => by simp [findHoist] at hh
  | .vector _ _, t', hh => by simp [findHoist] at hh
termination_by structural t => t
theorem findHoistFields_out : ∀ (fs fs' : Fields), findHoistFields fs = some fs' →
    (fs.noOut → fs'.noOut) ∧ (OutOneFields fs → OutOneFields fs') ∧ fs'.hasOut = fs.hasOut
  | .nil, fs', hh => by simp [findHoistFields] at hh
  | .cons c o t r, fs', hh => by
    simp only [findHoistFields] at hh
    split at hh
    · rename_i t' ht
      cases hh
      obtain ⟨h1, h2, h3⟩ := findHoist_out t t' ht
      refine ⟨fun h => ⟨h1 h.1, h.2⟩, fun h => ⟨?_, h.2⟩, by simp only [Fields.hasOut, h3]⟩
      have := h.1
      rw [h3]
      by_cases hc : t.hasOut = true
      · rw [if_pos hc] at this ⊢; exact ⟨h2 this.1, this.2⟩
      · rw [if_neg hc] at this ⊢; exact h1 this
    · split at hh
      · rename_i r' hr
        cases hh
        obtain ⟨h1, h2, h3⟩ := findHoistFields_out r r' hr
        refine ⟨fun h => ⟨h.1, h1 h.2⟩, fun h => ⟨?_, h2 h.2⟩, by simp only [Fields.hasOut, h3]⟩
        have := h.1
        rw [h3]
        exact this
      · cases hh
termination_by structural fs => fs
end

mutual
theorem layout_out : ∀ t : Ty, (t.noOut → (layout t).noOut) ∧ (OutOne t → OutOne (layout t)) ∧
    (layout t).hasOut = t.hasOut
  | .variant ts l => by
    have h := layoutTerms_out ts
    simp only [layout, Ty.noOut, OutOne, Ty.hasOut, layoutVar]
    refine ⟨fun hn => ⟨?_, h hn.2⟩, h, ?_⟩
    · rw [hn.1]; rfl
    · cases l.outline <;> rfl
  | .struct fs _ _ => layoutFields_out fs 0
  | .array e _ _ _ => ⟨(layout_out e).1, (layout_out e).1, rfl⟩
  | .vector e _ => ⟨(layout_out e).1, (layout_out e).1, rfl⟩
  | .int _ _ _ => ⟨fun h => h, fun h => h, rfl⟩
  | .float _ _ => ⟨fun h => h, fun h => h, rfl⟩
  | .unit => ⟨fun h => h, fun h => h, rfl⟩
termination_by structural t => t
theorem layoutFields_out : ∀ (fs : Fields) (off : Nat), (fs.noOut → (layoutFields fs off 1).1.noOut) ∧
    (OutOneFields fs → OutOneFields (layoutFields fs off 1).1) ∧
    (layoutFields fs off 1).1.hasOut = fs.hasOut
  | .nil, _ => ⟨fun h => h, fun h => h, rfl⟩
  | .cons c o t r, off => by
    rw [layoutFields_cons]
    obtain ⟨h1, h2, h3⟩ := layout_out t
    obtain ⟨g1, g2, g3⟩ := layoutFields_out r (off + (layout t).size)
    refine ⟨fun h => ⟨h1 h.1, g1 h.2⟩, fun h => ⟨?_, g2 h.2⟩, by simp only [Fields.hasOut, h3, g3]⟩
    have := h.1
    rw [h3, g3]
    by_cases hc : t.hasOut = true
    · rw [if_pos hc] at this ⊢; exact ⟨h2 this.1, this.2⟩
    · rw [if_neg hc] at this ⊢; exact h1 this
termination_by structural fs => fs
theorem layoutTerms_out : ∀ ts : Terms, ts.noOut → (layoutTerms ts).noOut
  | .nil, _ => trivial
  | .cons _ _ _ t r, h => ⟨(layout_out t).1 h.1, layoutTerms_out r h.2⟩
termination_by structural ts => ts
end

/-! ## Setting the offset -/

mutual
theorem setOut_none (d : Nat) : ∀ t : Ty, t.hasOut = false → setOut d t = t
  | .variant ts l, h => by simp only [Ty.hasOut] at h; simp [setOut, h]
  | .struct fs sz al, h => by simp only [setOut, setOutFields_none d fs h]
  | .int _ _ _, _ => rfl
  | .float _ _, _ => rfl
  | .unit, _ => rfl
  | .array _ _ _ _, _ => rfl
  | .vector _ _, _ => rfl
termination_by structural t => t
theorem setOutFields_none (d : Nat) : ∀ fs : Fields, fs.hasOut = false → setOutFields d fs = fs
  | .nil, _ => rfl
  | .cons c o t r, h => by
    simp only [Fields.hasOut, Bool.or_eq_false_iff] at h
    simp only [setOutFields, setOut_none d t h.1, setOutFields_none d r h.2]
termination_by structural fs => fs
end

theorem setOut_size (d : Nat) (t : Ty) : (setOut d t).size = t.size := by
  cases t <;> try rfl
  simp only [setOut]; split <;> rfl

theorem setOut_align (d : Nat) (t : Ty) : (setOut d t).align = t.align := by
  cases t <;> try rfl
  simp only [setOut]; split <;> rfl

theorem setOut_hasOut (d : Nat) (t : Ty) : (setOut d t).hasOut = t.hasOut := by
  suffices (∀ t : Ty, (setOut d t).hasOut = t.hasOut) ∧ (∀ fs : Fields, (setOutFields d fs).hasOut = fs.hasOut) from
    this.1 t
  refine ⟨fun t => ?_, fun fs => ?_⟩
  · exact Ty.rec (motive_1 := fun t => (setOut d t).hasOut = t.hasOut)
      (motive_2 := fun fs => (setOutFields d fs).hasOut = fs.hasOut) (motive_3 := fun _ => True)
      (fun _ _ _ => rfl) (fun _ _ => rfl) rfl (fun fs _ _ h => h)
      (fun ts l _ => by simp only [setOut]; split <;> rfl) (fun _ _ _ _ _ => rfl) (fun _ _ _ => rfl) rfl
      (fun c o t r h1 h2 => by simp only [setOutFields, Fields.hasOut, h1, h2]) trivial
      (fun _ _ _ _ _ _ _ => trivial) t
  · exact Fields.rec (motive_1 := fun t => (setOut d t).hasOut = t.hasOut)
      (motive_2 := fun fs => (setOutFields d fs).hasOut = fs.hasOut) (motive_3 := fun _ => True)
      (fun _ _ _ => rfl) (fun _ _ => rfl) rfl (fun fs _ _ h => h)
      (fun ts l _ => by simp only [setOut]; split <;> rfl) (fun _ _ _ _ _ => rfl) (fun _ _ _ => rfl) rfl
      (fun c o t r h1 h2 => by simp only [setOutFields, Fields.hasOut, h1, h2]) trivial
      (fun _ _ _ _ _ _ _ => trivial) fs

theorem setOutFields_toList (d : Nat) : ∀ fs : Fields,
    (setOutFields d fs).toList = fs.toList.map fun x => (x.1, x.2.1, setOut d x.2.2)
  | .nil => rfl
  | .cons c o t r => by simp [setOutFields, Fields.toList, setOutFields_toList d r]

mutual
theorem setOut_wf (d : Nat) : ∀ t : Ty, WF t → WF (setOut d t)
  | .variant ts l, h => by
    simp only [setOut]
    split
    · rename_i ho
      refine ⟨h.1, ?_⟩
      have h := h.2
      have key : ∀ {P : Prop}, l.outline = false → P := fun hf => by rw [ho] at hf; cases hf
      exact ⟨h.tagW, h.tags, h.tagLt, h.dflt, h.tagIn, fun hf => key hf, fun hf => key hf⟩
    · exact h
  | .struct fs sz al, h => by
    refine ⟨setOutFields_wf d fs h.1, ?_⟩
    have h := h.2
    constructor
    · intro x hx
      rw [setOutFields_toList] at hx
      obtain ⟨y, hy, rfl⟩ := List.mem_map.1 hx
      simp only [setOut_size]
      exact h.inside y hy
    · rw [setOutFields_toList, List.pairwise_map]
      simp only [setOut_size]
      exact h.disj
    · rw [setOutFields_toList, List.map_map]
      exact h.names
  | .int _ _ _, h => h
  | .float _ _, h => h
  | .unit, h => h
  | .array _ _ _ _, h => h
  | .vector _ _, h => h
termination_by structural t => t
theorem setOutFields_wf (d : Nat) : ∀ fs : Fields, WFFields fs → WFFields (setOutFields d fs)
  | .nil, h => h
  | .cons _ _ t r, h => ⟨setOut_wf d t h.1, setOutFields_wf d r h.2⟩
termination_by structural fs => fs
end

mutual
theorem setOut_reloc (d : Nat) : ∀ t : Ty, t.reloc → (setOut d t).reloc
  | .variant ts l, h => by
    simp only [setOut]
    split <;> exact h
  | .struct fs sz al, h => setOutFields_reloc d fs h
  | .int _ _ _, h => h
  | .float _ _, h => h
  | .unit, h => h
  | .array _ _ _ _, h => h
  | .vector _ _, h => h
termination_by structural t => t
theorem setOutFields_reloc (d : Nat) : ∀ fs : Fields, fs.reloc → (setOutFields d fs).reloc
  | .nil, h => h
  | .cons _ _ t r, h => ⟨setOut_reloc d t h.1, setOutFields_reloc d r h.2⟩
termination_by structural fs => fs
end

theorem layoutFields_nextOff : ∀ (fs : Fields) (off : Nat),
    (layoutFields fs off 1).1.nextOff (layoutFields fs off 1).2.1 = off
  | .nil, off => rfl
  | .cons c o t r, off => by rw [layoutFields_cons]; rfl

mutual
/-- The distance from the outline variant to the end of the type, and what it means for the payload. -/
theorem outDist_spec : ∀ t : Ty, OutOne t → t.hasOut = true →
    ∃ d, outDist (layout t) = some (d, 1) ∧ d ≤ (layout t).size ∧ ∀ D da ptr : Nat,
      ptr + d = da + (layout t).size + D → OutAt (setOut D (layout t)) da ptr
  | .variant ts l, hone, ho => by
    simp only [Ty.hasOut] at ho
    have ha := layoutTerms_align ts
    have hn := layoutTerms_out ts hone
    simp only [layout, layoutVar, ho, if_true, outDist, ha, setOut, Ty.size, OutAt]
    exact ⟨_, rfl, by omega, fun D da ptr h => ⟨fun _ => by omega, hn⟩⟩
  | .struct fs _ _, hone, ho => by
    obtain ⟨d, h1, h2, h3⟩ := outDistFields_spec fs 0 hone ho
    refine ⟨d, h1, by simp only [layout, Ty.size]; omega, fun D da ptr h => ?_⟩
    simp only [layout, setOut, OutAt]
    exact h3 D da ptr h
  | .int _ _ _, _, ho => by simp [Ty.hasOut] at ho
  | .float _ _, _, ho => by simp [Ty.hasOut] at ho
  | .unit, _, ho => by simp [Ty.hasOut] at ho
  | .array _ _ _ _, _, ho => by simp [Ty.hasOut] at ho
  | .vector _ _, _, ho => by simp [Ty.hasOut] at ho
termination_by structural t => t
theorem outDistFields_spec : ∀ (fs : Fields) (off : Nat), OutOneFields fs → fs.hasOut = true →
    ∃ d, outDistFields (layoutFields fs off 1).1 (layoutFields fs off 1).2.1 = some (d, 1) ∧
      d + off ≤ (layoutFields fs off 1).2.1 ∧ ∀ D da ptr : Nat,
      ptr + d = da + (layoutFields fs off 1).2.1 + D →
      OutAtFields (setOutFields D (layoutFields fs off 1).1) da ptr
  | .nil, off, _, ho => by simp [Fields.hasOut] at ho
  | .cons c o t r, off, hone, ho => by
    rw [layoutFields_cons]
    have hsz := layoutFields_size r (off + (layout t).size)
    have hno := layoutFields_nextOff r (off + (layout t).size)
    obtain ⟨l1, l2, l3⟩ := layout_out t
    obtain ⟨r1, r2, r3⟩ := layoutFields_out r (off + (layout t).size)
    have h1 := hone.1
    by_cases hc : t.hasOut = true
    · rw [if_pos hc] at h1
      obtain ⟨d, g1, g2, g3⟩ := outDist_spec t h1.1 hc
      have hrn : r.noOut := by
        have h2 := hone.2
        have h3 := h1.2
        exact outOne_noOutFields r h2 h3
      refine ⟨d + ((layoutFields r (off + (layout t).size) 1).2.1 - (off + (layout t).size)),
        by simp only [outDistFields, g1, hno], by simp only; omega, fun D da ptr h => ?_⟩
      simp only at h
      simp only [setOutFields, OutAtFields, setOut_hasOut, l3, hc, if_true]
      rw [setOutFields_none D _ (by rw [r3]; exact h1.2)]
      refine ⟨⟨g3 D (da + off) ptr (by omega), by rw [r3]; exact h1.2⟩, ?_⟩
      exact noOut_outAtFields _ _ _ (r1 hrn)
    · rw [if_neg hc] at h1
      have hc' : t.hasOut = false := by simpa using hc
      have hor : r.hasOut = true := by simpa [Fields.hasOut, hc'] using ho
      have hod : outDist (layout t) = none := outDist_none _ (by rw [l3]; exact hc')
      obtain ⟨d, g1, g2, g3⟩ := outDistFields_spec r (off + (layout t).size) hone.2 hor
      refine ⟨d, by simp only [outDistFields, hod]; exact g1, by simp only; omega, fun D da ptr h => ?_⟩
      simp only [setOutFields, OutAtFields, setOut_hasOut, l3, hc', Bool.false_eq_true, if_false]
      rw [setOut_none D _ (by rw [l3]; exact hc')]
      exact ⟨l1 h1, g3 D da ptr h⟩
termination_by structural fs => fs
theorem outOne_noOut : ∀ t : Ty, OutOne t → t.hasOut = false → t.noOut
  | .variant _ _, h, ho => ⟨ho, h⟩
  | .struct fs _ _, h, ho => outOne_noOutFields fs h ho
  | .int _ _ _, _, _ => trivial
  | .float _ _, _, _ => trivial
  | .unit, _, _ => trivial
  | .array _ _ _ _, h, _ => h
  | .vector _ _, h, _ => h
theorem outOne_noOutFields : ∀ fs : Fields, OutOneFields fs → fs.hasOut = false → fs.noOut
  | .nil, _, _ => trivial
  | .cons _ _ t r, h, ho => by
    simp only [Fields.hasOut, Bool.or_eq_false_iff] at ho
    have h1 := h.1
    rw [ho.1] at h1
    exact ⟨h1, outOne_noOutFields r h.2 ho.2⟩
termination_by structural fs => fs
theorem outDist_none : ∀ t : Ty, t.hasOut = false → outDist t = none
  | .variant ts l, h => by simp only [Ty.hasOut] at h; simp [outDist, h]
  | .struct fs sz _, h => outDistFields_none fs sz h
  | .int _ _ _, _ => rfl
  | .float _ _, _ => rfl
  | .unit, _ => rfl
  | .array _ _ _ _, _ => rfl
  | .vector _ _, _ => rfl
termination_by structural t => t
theorem outDistFields_none : ∀ (fs : Fields) (sz : Nat), fs.hasOut = false → outDistFields fs sz = none
  | .nil, _, _ => rfl
  | .cons c o t r, sz, h => by
    simp only [Fields.hasOut, Bool.or_eq_false_iff] at h
    simp only [outDistFields, outDist_none t h.1, outDistFields_none r sz h.2]
termination_by structural fs => fs
end

theorem prepare_out (t : Ty) (path : Path) (hn : t.noOut) : OutOne (prepare t path) := by
  unfold prepare
  have key : ∀ t1, OutOne t1 → OutOne ((findHoist t1).getD t1) := by
    intro t1 h1
    cases hf : findHoist t1 with
    | none => exact h1
    | some t2 => exact (findHoist_out t1 t2 hf).2.1 h1
  cases ho : tryOutline t path with
  | none => exact key t (noOut_outOne t hn)
  | some t1 => exact key t1 (tryOutline_out t path t1 ho hn).1

theorem genOffset_bufOff (t : Ty) (h : OutOne t) : (genOffset (layout t)).bufOff = 0 := by
  unfold genOffset
  cases ho : t.hasOut with
  | false => rw [outDist_none _ (by rw [(layout_out t).2.2]; exact ho)]
  | true =>
    obtain ⟨d, h1, _⟩ := outDist_spec t h ho
    rw [h1]
    simp [roundUp_one]

theorem genOffset_size (t : Ty) : (genOffset t).head.size = t.size := by
  unfold genOffset
  split
  · rfl
  · exact setOut_size _ _

theorem genOffset_out (t : Ty) (h : OutOne t) (buf : Nat) :
    OutAt (genOffset (layout t)).head buf (buf + (genOffset (layout t)).head.size +
      (genOffset (layout t)).bufOff) := by
  rw [genOffset_bufOff t h, genOffset_size]
  unfold genOffset
  cases ho : t.hasOut with
  | false =>
    rw [outDist_none _ (by rw [(layout_out t).2.2]; exact ho)]
    exact noOut_outAt _ _ _ ((layout_out t).1 (outOne_noOut t h ho))
  | true =>
    obtain ⟨d, h1, h2, h3⟩ := outDist_spec t h ho
    rw [h1]
    simp only [roundUp_one, Nat.sub_self]
    exact h3 _ _ _ (by omega)

/-- Everything about a planned protocol that the transcoding theorems need. -/
theorem plan_ok (t : Ty) (path : Path) (p : Proto) (hs : Sch t) (hsm : Small t) (hp : Plain t)
    (hn : t.noOut) (h : plan t path = some p) :
    p.OK ∧ p.bufOff = 0 ∧ Sch (prepare t path) ∧ Rel Laid t p.head ∧ (∀ v, Fits t v → Fits p.head v) := by
  unfold plan at h
  split at h
  · rename_i hd
    cases h
    obtain ⟨h1, h2⟩ := prepare_ok t path hs hsm hp
    have h3 := prepare_out t path hn
    have hwf := layout_WF _ h1 hd
    have hrl := layout_reloc (prepare t path)
    have hrel := layout_rel t _ (prepare_rel t path hs hp)
    refine ⟨⟨?_, ?_, genOffset_out _ h3⟩, genOffset_bufOff _ h3, h1, ?_, fun v hv => ?_⟩
    · unfold genOffset; split
      · exact hwf
      · exact setOut_wf _ _ hwf
    · unfold genOffset; split
      · exact hrl
      · exact setOut_reloc _ _ hrl
    · unfold genOffset; split
      · exact hrel
      · exact setOut_rel _ _ _ _ hrel
    · have := layout_fits _ v (h2 v hv)
      unfold genOffset; split
      · exact this
      · exact setOut_fits _ _ _ this
  · cases h

end PJ
