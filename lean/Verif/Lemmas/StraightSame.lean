import Verif.Lemmas.StraightBare
import Verif.Lemmas.Rel
/-!
# Conversions between a type and its wire format
-/
namespace PJ

theorem rel_unit {q : VecL → Prop} {h t : Ty} (hr : Rel q h t) : t.blank = h.blank := by
  cases h with
  | int => obtain ⟨al, rfl⟩ := hr; rfl
  | float => obtain ⟨al, rfl⟩ := hr; rfl
  | unit => simp only [Rel] at hr; subst hr; rfl
  | struct => obtain ⟨_, _, _, rfl, _⟩ := hr; rfl
  | variant => obtain ⟨_, _, rfl, _⟩ := hr; rfl
  | array => obtain ⟨_, _, _, rfl, _⟩ := hr; rfl
  | vector => obtain ⟨_, _, rfl, _⟩ := hr; rfl

mutual
theorem rel_straight {q : VecL → Prop} : ∀ (h t : Ty), Rel q h t → h.straight → t.straight
  | .int _ _ _, t, hr, _ => by obtain ⟨al, rfl⟩ := hr; trivial
  | .float _ _, t, hr, _ => by obtain ⟨al, rfl⟩ := hr; trivial
  | .unit, t, hr, _ => by simp only [Rel] at hr; subst hr; trivial
  | .struct fs _ _, t, hr, hs => by
    obtain ⟨fs', sz, al, rfl, hr⟩ := hr
    simp only [Ty.straight] at hs ⊢
    exact relFields_straight fs fs' hr hs
  | .variant _ _, _, _, hs => by simp [Ty.straight] at hs
  | .array _ _ _ _, _, _, hs => by simp [Ty.straight] at hs
  | .vector _ _, _, _, hs => by simp [Ty.straight] at hs
theorem relFields_straight {q : VecL → Prop} : ∀ (hfs fs : Fields), RelFields q hfs fs → hfs.straight → fs.straight
  | .nil, fs, h, _ => by simp only [RelFields] at h; subst h; trivial
  | .cons c o t r, fs, h, hs => by
    obtain ⟨o', t', r', rfl, h1, h2⟩ := h
    exact ⟨rel_straight t t' h1 hs.1, relFields_straight r r' h2 hs.2⟩
end

mutual
theorem rel_starts {q : VecL → Prop} : ∀ (h t : Ty), Rel q h t → h.opens = true → WF h → WF t →
    starts h t = true ∧ starts t h = true
  | .int _ _ _, t, hr, _, _, _ => by obtain ⟨al, rfl⟩ := hr; simp [starts, plainCopy]
  | .float _ _, t, hr, _, _, _ => by obtain ⟨al, rfl⟩ := hr; simp [starts, plainCopy]
  | .unit, t, _, ho, _, _ => by simp [Ty.opens] at ho
  | .struct fs _ _, t, hr, ho, hh, hw => by
    obtain ⟨fs', sz, al, rfl, hr⟩ := hr
    simp only [starts]
    exact relFields_starts fs fs' fs fs' hr ho hh.1 hw.1
      (fun c o t ht => findLast_mem hh.2.names ht) (fun c o t ht => findLast_mem hw.2.names ht)
  | .variant _ _, _, _, ho, _, _ => by simp [Ty.opens] at ho
  | .array _ _ _ _, _, _, ho, _, _ => by simp [Ty.opens] at ho
  | .vector _ _, _, _, ho, _, _ => by simp [Ty.opens] at ho
theorem relFields_starts {q : VecL → Prop} : ∀ (hfs fs hall wall : Fields), RelFields q hfs fs → hfs.opens = true →
    WFFields hfs → WFFields fs → (∀ c o t, (c, o, t) ∈ hfs.toList → hall.findLast c = some (o, t)) →
    (∀ c o t, (c, o, t) ∈ fs.toList → wall.findLast c = some (o, t)) →
    startsFields hfs wall = true ∧ startsFields fs hall = true
  | .nil, fs, hall, wall, _, ho, _, _, _, _ => by simp [Fields.opens] at ho
  | .cons c o t r, fs, hall, wall, h, ho, hh, hw, ha, hb => by
    obtain ⟨o', t', r', rfl, h1, h2⟩ := h
    simp only [Fields.opens] at ho
    simp only [startsFields, rel_unit h1]
    split at ho
    · rename_i hu
      rw [if_pos hu, if_pos hu]
      exact relFields_starts r r' hall wall h2 ho hh.2 hw.2
        (fun c o t ht => ha c o t (by simp [Fields.toList, ht]))
        (fun c o t ht => hb c o t (by simp [Fields.toList, ht]))
    · rename_i hu
      rw [if_neg hu, if_neg hu, ha c o t (by simp [Fields.toList]), hb c o' t' (by simp [Fields.toList])]
      exact rel_starts t t' h1 ho hh.1 hw.1
end

mutual
theorem rel_inner {q : VecL → Prop} : ∀ (h t : Ty), Rel q h t → h.solid = true → WF h → WF t →
    inner h t = true ∧ inner t h = true
  | .int _ _ _, t, hr, _, _, _ => by obtain ⟨al, rfl⟩ := hr; simp [inner]
  | .float _ _, t, hr, _, _, _ => by obtain ⟨al, rfl⟩ := hr; simp [inner]
  | .unit, t, hr, _, _, _ => by simp only [Rel] at hr; subst hr; simp [inner]
  | .struct fs _ _, t, hr, ho, hh, hw => by
    obtain ⟨fs', sz, al, rfl, hr⟩ := hr
    simp only [Ty.solid, Bool.and_eq_true] at ho
    simp only [inner, Bool.and_eq_true]
    have h1 := relFields_starts fs fs' fs fs' hr ho.1 hh.1 hw.1
      (fun c o t ht => findLast_mem hh.2.names ht) (fun c o t ht => findLast_mem hw.2.names ht)
    have h2 := relFields_inner fs fs' fs fs' hr ho.2 hh.1 hw.1
      (fun c o t ht => findLast_mem hh.2.names ht) (fun c o t ht => findLast_mem hw.2.names ht)
    exact ⟨⟨h1.1, h2.1⟩, h1.2, h2.2⟩
  | .variant _ _, _, hr, _, _, _ => by obtain ⟨_, _, rfl, _⟩ := hr; simp [inner]
  | .array _ _ _ _, _, hr, _, _, _ => by obtain ⟨_, _, _, rfl, _⟩ := hr; simp [inner]
  | .vector _ _, _, hr, _, _, _ => by obtain ⟨_, _, rfl, _⟩ := hr; simp [inner]
theorem relFields_inner {q : VecL → Prop} : ∀ (hfs fs hall wall : Fields), RelFields q hfs fs → hfs.solid = true →
    WFFields hfs → WFFields fs → (∀ c o t, (c, o, t) ∈ hfs.toList → hall.findLast c = some (o, t)) →
    (∀ c o t, (c, o, t) ∈ fs.toList → wall.findLast c = some (o, t)) →
    innerFields hfs wall = true ∧ innerFields fs hall = true
  | .nil, fs, hall, wall, h, _, _, _, _, _ => by
    simp only [RelFields] at h; subst h; simp [innerFields]
  | .cons c o t r, fs, hall, wall, h, ho, hh, hw, ha, hb => by
    obtain ⟨o', t', r', rfl, h1, h2⟩ := h
    simp only [Fields.solid, Bool.and_eq_true] at ho
    obtain ⟨c1, c2⟩ := rel_inner t t' h1 ho.1 hh.1 hw.1
    obtain ⟨d1, d2⟩ := relFields_inner r r' hall wall h2 ho.2 hh.2 hw.2
      (fun c o t ht => ha c o t (by simp [Fields.toList, ht]))
      (fun c o t ht => hb c o t (by simp [Fields.toList, ht]))
    simp only [innerFields, ha c o t (by simp [Fields.toList]), hb c o' t' (by simp [Fields.toList]), c1, c2, d1, d2,
      Bool.and_self, and_self]
end

theorem rel_tidy {q : VecL → Prop} {h t : Ty} (hr : Rel q h t) (hf : h.full = true) (hh : WF h) (hw : WF t) :
    tidy h t = true ∧ tidy t h = true := by
  cases h with
  | struct fs _ _ =>
    obtain ⟨fs', sz, al, rfl, hr⟩ := hr
    simp only [tidy]
    exact relFields_inner fs fs' fs fs' hr hf hh.1 hw.1
      (fun c o t ht => findLast_mem hh.2.names ht) (fun c o t ht => findLast_mem hw.2.names ht)
  | int => obtain ⟨al, rfl⟩ := hr; simp [tidy]
  | float => obtain ⟨al, rfl⟩ := hr; simp [tidy]
  | unit => simp only [Rel] at hr; subst hr; simp [tidy]
  | variant => obtain ⟨_, _, rfl, _⟩ := hr; simp [tidy]
  | array => obtain ⟨_, _, _, rfl, _⟩ := hr; simp [tidy]
  | vector => obtain ⟨_, _, rfl, _⟩ := hr; simp [tidy]

mutual
/-- The value depends on the bytes of the object only. -/
theorem readVal_straight (m m' : Mem) : ∀ (t : Ty) (a a' : Nat), t.straight → WF t →
    (∀ i, i < t.size → m' (a' + i) = m (a + i)) → readVal m' t a' = readVal m t a
  | .int w s al, a, a', _, _, h => by
    simp only [Ty.size] at h
    simp only [readVal, readN_congr h]
  | .float w al, a, a', _, _, h => by
    simp only [Ty.size] at h
    simp only [readVal, readN_congr h]
  | .unit, _, _, _, _, _ => rfl
  | .struct fs sz _, a, a', hs, hw, h => by
    simp only [Ty.size] at h
    simp only [Ty.straight] at hs
    simp only [readVal, readFields_straight m m' fs a a' hs hw.1 (fun x hx i hi => by
      have := hw.2.inside x hx
      rw [Nat.add_assoc, Nat.add_assoc]
      exact h (x.2.1 + i) (by omega))]
  | .variant _ _, _, _, hs, _, _ => by simp [Ty.straight] at hs
  | .array _ _ _ _, _, _, hs, _, _ => by simp [Ty.straight] at hs
  | .vector _ _, _, _, hs, _, _ => by simp [Ty.straight] at hs
theorem readFields_straight (m m' : Mem) : ∀ (fs : Fields) (a a' : Nat), fs.straight → WFFields fs →
    (∀ x ∈ fs.toList, ∀ i, i < x.2.2.size → m' (a' + x.2.1 + i) = m (a + x.2.1 + i)) →
    readFields m' fs a' = readFields m fs a
  | .nil, _, _, _, _, _ => rfl
  | .cons c o t r, a, a', hs, hw, h => by
    simp only [Fields.toList, List.forall_mem_cons] at h
    simp only [readFields, readVal_straight m m' t (a + o) (a' + o) hs.1 hw.1 h.1,
      readFields_straight m m' r a a' hs.2 hw.2 h.2]
end

end PJ
