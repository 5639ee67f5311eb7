import Verif.Lemmas.PlanOut
import Verif.Spec.Sub
/-!
# Planned types are packed
-/
namespace PJ

mutual
/-- Alignment 1 everywhere, structs and arrays without gaps, tags right behind the longest term, inline
elements or reference right behind the length. -/
def Tight : Ty → Prop
  | .int _ _ al => al = 1
  | .float _ al => al = 1
  | .unit => True
  | .struct fs sz al => al = 1 ∧ Contig fs.toList 0 sz ∧ TightFields fs
  | .variant ts l => l.align = 1 ∧ (l.outline = true → l.termAlign = 1 ∧ l.tagOff = 0 ∧ l.size = l.tagW) ∧
    (l.outline = false → l.termOff = 0 ∧ l.tagOff = maxSize ts.toList ∧ l.size = l.tagOff + l.tagW) ∧ TightTerms ts
  | .array e _ esz al => al = 1 ∧ esz = e.size ∧ Tight e
  | .vector e l => (l.align = 1 ∧ l.elemW = e.size ∧ l.lenOff = 0 ∧ l.refOff = l.lenSize ∧
    l.inlOff = l.lenSize ∧ l.parOff = l.lenSize + 8) ∧ (0 < e.size ∧ l = layoutVec e.size 1 l) ∧ Tight e
def TightFields : Fields → Prop
  | .nil => True
  | .cons _ _ t r => Tight t ∧ TightFields r
def TightTerms : Terms → Prop
  | .nil => True
  | .cons _ _ _ t r => Tight t ∧ TightTerms r
end

theorem TightFields_iff : ∀ {fs : Fields}, TightFields fs ↔ ∀ x ∈ fs.toList, Tight x.2.2
  | .nil => by simp [TightFields, Fields.toList]
  | .cons n o t r => by simp [TightFields, Fields.toList, TightFields_iff (fs := r)]

theorem TightTerms_iff : ∀ {ts : Terms}, TightTerms ts ↔ ∀ x ∈ ts.toList, Tight x.ty
  | .nil => by simp [TightTerms, Terms.toList]
  | .cons n g as t r => by simp [TightTerms, Terms.toList, TightTerms_iff (ts := r)]

theorem WFFields_iff : ∀ {fs : Fields}, WFFields fs ↔ ∀ x ∈ fs.toList, WF x.2.2
  | .nil => by simp [WFFields, Fields.toList]
  | .cons n o t r => by simp [WFFields, Fields.toList, WFFields_iff (fs := r)]

theorem WFTerms_iff : ∀ {ts : Terms}, WFTerms ts ↔ ∀ x ∈ ts.toList, WF x.ty
  | .nil => by simp [WFTerms, Terms.toList]
  | .cons n g as t r => by simp [WFTerms, Terms.toList, WFTerms_iff (ts := r)]

theorem Sub.tight {u t : Ty} (h : Sub u t) : Tight t → Tight u := by
  induction h with
  | refl => exact id
  | field x hx _ ih => exact fun h => ih (TightFields_iff.1 h.2.2 x hx)
  | term x hx _ ih => exact fun h => ih (TightTerms_iff.1 h.2.2.2 x hx)
  | arr _ ih => exact fun h => ih h.2.2
  | vec _ ih => exact fun h => ih h.2.2

theorem Sub.wf {u t : Ty} (h : Sub u t) : WF t → WF u := by
  induction h with
  | refl => exact id
  | field x hx _ ih => exact fun h => ih (WFFields_iff.1 h.1 x hx)
  | term x hx _ ih => exact fun h => ih (WFTerms_iff.1 h.1 x hx)
  | arr _ ih => exact fun h => ih h.1
  | vec _ ih => exact fun h => ih h.1

theorem Tight.align : ∀ {t : Ty}, Tight t → t.align = 1
  | .int _ _ _, h => h
  | .float _ _, h => h
  | .unit, _ => rfl
  | .struct _ _ _, h => h.1
  | .variant _ l, h => by
    simp only [Ty.align]
    split
    · rw [h.1, (h.2.1 (by assumption)).1]; rfl
    · exact h.1
  | .array _ _ _ _, h => h.1
  | .vector _ _, h => h.1.1

mutual
theorem layout_tight : ∀ t : Ty, t.planDef = true → Tight (layout t)
  | .int _ _ _, _ => rfl
  | .float _ _, _ => rfl
  | .unit, _ => trivial
  | .struct fs _ _, hd => by
    simp only [layout]
    obtain ⟨h1, h2⟩ := layoutFields_tight fs 0 hd
    exact ⟨layoutFields_align fs 0, h1, h2⟩
  | .variant ts l, hd => by
    simp only [Ty.planDef, Bool.and_eq_true] at hd
    simp only [layout]
    have ha := layoutTerms_align ts
    refine ⟨?_, ?_, ?_, layoutTerms_tight ts hd.2⟩
    · unfold layoutVar; split
      · rfl
      · simp only [ha]; rfl
    · unfold layoutVar; split
      · intro; simp [ha]
      · intro h; simp at h
    · unfold layoutVar; split
      · intro h; simp at h
      · intro; simp [roundUp_one]
  | .array e n _ _, hd => by
    simp only [layout]
    refine ⟨layout_align e, ?_, layout_tight e hd⟩
    rw [layout_align, roundUp_one]
  | .vector e l, hd => by
    simp only [Ty.planDef, Bool.and_eq_true, bne_iff_ne] at hd
    simp only [layout, Tight]
    refine ⟨⟨?_, ?_⟩, ⟨by omega, ?_⟩, layout_tight e hd.2⟩
    · rw [layout_align]; exact layoutVec_align _ l
    · rw [layout_align]; simp [layoutVec, roundUp_one]
    · rw [layout_align]; rfl
termination_by structural t => t
theorem layoutFields_tight : ∀ (fs : Fields) (off : Nat), fs.planDef = true →
    Contig (layoutFields fs off 1).1.toList off (layoutFields fs off 1).2.1 ∧ TightFields (layoutFields fs off 1).1
  | .nil, off, _ => ⟨rfl, trivial⟩
  | .cons c o t r, off, hd => by
    simp only [Fields.planDef, Bool.and_eq_true] at hd
    rw [layoutFields_cons]
    obtain ⟨h1, h2⟩ := layoutFields_tight r (off + (layout t).size) hd.2
    exact ⟨⟨rfl, h1⟩, ⟨layout_tight t hd.1, h2⟩⟩
termination_by structural fs => fs
theorem layoutTerms_tight : ∀ ts : Terms, ts.planDef = true → TightTerms (layoutTerms ts)
  | .nil, _ => trivial
  | .cons _ _ _ t r, hd => by
    simp only [Terms.planDef, Bool.and_eq_true] at hd
    exact ⟨layout_tight t hd.1, layoutTerms_tight r hd.2⟩
termination_by structural ts => ts
end

theorem Contig_map (f : Ty → Ty) (hf : ∀ t, (f t).size = t.size) : ∀ (l : List (Comp × Nat × Ty)) (off e : Nat),
    Contig l off e → Contig (l.map fun x => (x.1, x.2.1, f x.2.2)) off e
  | [], _, _, h => h
  | x :: l, off, e, h => by
    refine ⟨h.1, ?_⟩
    simp only [hf]
    exact Contig_map f hf l _ e h.2

mutual
theorem setOut_tight (d : Nat) : ∀ t : Ty, Tight t → Tight (setOut d t)
  | .variant ts l, h => by
    simp only [setOut]
    split
    · rename_i ho
      refine ⟨h.1, h.2.1, fun hf => ?_, h.2.2.2⟩
      simp only [ho] at hf; cases hf
    · exact h
  | .struct fs sz al, h => by
    refine ⟨h.1, ?_, setOutFields_tight d fs h.2.2⟩
    rw [setOutFields_toList]
    exact Contig_map (setOut d) (setOut_size d) _ _ _ h.2.1
  | .int _ _ _, h => h
  | .float _ _, h => h
  | .unit, h => h
  | .array _ _ _ _, h => h
  | .vector _ _, h => h
termination_by structural t => t
theorem setOutFields_tight (d : Nat) : ∀ fs : Fields, TightFields fs → TightFields (setOutFields d fs)
  | .nil, h => h
  | .cons _ _ t r, h => ⟨setOut_tight d t h.1, setOutFields_tight d r h.2⟩
termination_by structural fs => fs
end

theorem plan_tight (t : Ty) (path : Path) (p : Proto) (h : plan t path = some p) : Tight p.head := by
  unfold plan at h
  split at h
  · rename_i hd
    cases h
    unfold genOffset
    split
    · exact layout_tight _ hd
    · exact setOut_tight _ _ (layout_tight _ hd)
  · cases h

end PJ
