import Verif.Lemmas.Aligned
import Verif.Lemmas.HostGen
/-!
# Which types have an aligned layout
-/
namespace PJ

theorem IsAl.natAlign {w : Nat} (h : IsAl w) : natAlign w = w := by
  rcases h with rfl | rfl | rfl | rfl <;> rfl

theorem IsAl.dvd_of_le {a b : Nat} (ha : IsAl a) (hb : IsAl b) (h : a ≤ b) : a ∣ b := by
  unfold IsAl at *
  rcases ha with rfl | rfl | rfl | rfl <;> rcases hb with rfl | rfl | rfl | rfl <;> first | omega | decide

theorem describe_align_le_fields : ∀ (fs : SFields) (off : Nat), AcceptedFields fs → SafeFields fs → ∀ al, IsAl al →
    (cppFields fs off).2 ≤ al → ∀ x ∈ (describeFields fs off).toList, x.2.2.align ∣ x.2.1 ∧ x.2.2.align ∣ al
  | .nil, _, _, _, _, _, _, x, hx => by simp [describeFields, Fields.toList] at hx
  | .cons c t r, off, h, hs, al, hal, hle, x, hx => by
    simp only [cppFields] at hle
    simp only [describeFields, Fields.toList, List.mem_cons] at hx
    rcases hx with rfl | hx
    · have h1 := describe_align t h.1 hs.1
      have h2 := (cpp_good t h.1 hs.1).1
      exact ⟨Nat.dvd_trans h1.2 (roundUp_dvd _ _), Nat.dvd_trans h1.2 (h2.dvd_of_le hal (by omega))⟩
    · exact describe_align_le_fields r _ h.2 hs.2 al hal (by omega) x hx
termination_by structural fs => fs

theorem describe_align_le_terms : ∀ (ts : STerms), AcceptedTerms ts → SafeTerms ts → ∀ al, IsAl al →
    (cppUnion ts).2 ≤ al → ∀ x ∈ (describeTerms ts).toList, x.ty.align ∣ al
  | .nil, _, _, _, _, _, x, hx => by simp [describeTerms, Terms.toList] at hx
  | .cons c g t r, h, hs, al, hal, hle, x, hx => by
    simp only [cppUnion] at hle
    simp only [describeTerms, Terms.toList, List.mem_cons] at hx
    rcases hx with rfl | hx
    · have h1 := describe_align t h.1 hs.1
      have h2 := (cpp_good t h.1 hs.1).1
      exact Nat.dvd_trans h1.2 (h2.dvd_of_le hal (by omega))
    · exact describe_align_le_terms r h.2 hs.2 al hal (by omega) x hx
termination_by structural ts => ts

theorem describe_unit_align : ∀ ts : STerms, ts.hasValue = false → ∀ x ∈ (describeTerms ts).toList, x.ty.align = 1
  | .nil, _, x, hx => by simp [describeTerms, Terms.toList] at hx
  | .cons c g t r, h, x, hx => by
    simp only [STerms.hasValue, Bool.or_eq_false_iff, Bool.not_eq_false'] at h
    simp only [describeTerms, Terms.toList, List.mem_cons] at hx
    rcases hx with rfl | hx
    · cases t <;> simp [STy.isUnit] at h
      rfl
    · exact describe_unit_align r h.2 x hx
termination_by structural ts => ts

theorem ToldFields_of : ∀ {fs : Fields} {al : Nat}, (∀ x ∈ fs.toList, Told x.2.2 ∧ x.2.2.align ∣ x.2.1 ∧ x.2.2.align ∣ al) →
    ToldFields fs al
  | .nil, _, _ => trivial
  | .cons c o t r, al, h =>
    ⟨h (c, o, t) (by simp [Fields.toList]), ToldFields_of fun x hx => h x (by simp [Fields.toList, hx])⟩

theorem ToldTerms_of : ∀ {ts : Terms} {off al : Nat}, (∀ x ∈ ts.toList, Told x.ty ∧ x.ty.align ∣ off ∧ x.ty.align ∣ al) →
    ToldTerms ts off al
  | .nil, _, _, _ => trivial
  | .cons c g as t r, off, al, h =>
    ⟨h ⟨c, g, as, t⟩ (by simp [Terms.toList]), ToldTerms_of fun x hx => h x (by simp [Terms.toList, hx])⟩

mutual
/-- The described layout of every accepted type is aligned. -/
theorem describe_told : ∀ t : STy, Accepted t → Safe t → Told (describe t)
  | .int w s, _, _ => by simp only [describe, Told]
  | .float w, _, _ => by simp only [describe, Told]
  | .unit, _, _ => by simp only [describe, Told]
  | .struct fs, h, hs => by
    have hg := (cpp_good (.struct fs) h hs).1
    simp only [describe, Told]
    refine ToldFields_of fun x hx => ⟨describeFields_told fs 0 h.2 hs x hx, ?_⟩
    exact describe_align_le_fields fs 0 h.2 hs _ hg (by simp only [cpp]; omega) x hx
  | .variant ts d, h, hs => by
    have hg := (cpp_good (.variant ts d) h hs).1
    have hw := (safe_tagWidth hs).1
    simp only [describe, Told, Ty.align, Bool.false_eq_true, if_false]
    rw [hw.natAlign]
    refine ⟨⟨?_, ?_⟩, ToldTerms_of fun x hx => ⟨describeTerms_told ts h.2 hs.2.2 x hx, Nat.dvd_zero _, ?_⟩⟩
    · unfold cppTagOff
      split
      · exact roundUp_dvd _ _
      · exact Nat.dvd_zero _
    · refine hw.dvd_of_le hg ?_
      simp only [cpp]
      split <;> simp only <;> omega
    · by_cases hv : ts.hasValue = true
      · refine describe_align_le_terms ts h.2 hs.2.2 _ hg ?_ x hx
        simp only [cpp, hv, if_true]; omega
      · rw [describe_unit_align ts (by simpa using hv) x hx]
        exact Nat.one_dvd _
  | .array e n, h, hs => by
    have he := describe_align e h.2.2 hs.2
    have hg := cpp_good e h.2.2 hs.2
    simp only [describe, Told]
    refine ⟨describe_told e h.2.2 hs.2, fun hn => ⟨?_, ?_⟩⟩
    · rw [array_stride e h.2.2 hs.1]
      exact Nat.dvd_trans he.2 hg.2.1
    · simp only [cpp, hn, if_false]
      unfold wrapped
      split
      · rename_i hw
        have := STy.isWchar_eq hw
        subst this
        have := hs.1 2 .signless rfl
        omega
      · exact he.2
  | .vector e mn mx, h, hs => by
    have he := describe_align e h.2.2.2 hs.2.2.2
    simp only [describe, Told, spanL]
    refine ⟨describe_told e h.2.2.2 hs.2.2.2, by decide, fun _ => by decide, ?_, fun h => absurd rfl h, fun h => absurd rfl h⟩
    exact roundUp_dvd _ _
theorem describeFields_told : ∀ (fs : SFields) (off : Nat), AcceptedFields fs → SafeFields fs →
    ∀ x ∈ (describeFields fs off).toList, Told x.2.2
  | .nil, _, _, _, x, hx => by simp [describeFields, Fields.toList] at hx
  | .cons c t r, off, h, hs, x, hx => by
    simp only [describeFields, Fields.toList, List.mem_cons] at hx
    rcases hx with rfl | hx
    · exact describe_told t h.1 hs.1
    · exact describeFields_told r _ h.2 hs.2 x hx
theorem describeTerms_told : ∀ ts : STerms, AcceptedTerms ts → SafeTerms ts → ∀ x ∈ (describeTerms ts).toList, Told x.ty
  | .nil, _, _, x, hx => by simp [describeTerms, Terms.toList] at hx
  | .cons c g t r, h, hs, x, hx => by
    simp only [describeTerms, Terms.toList, List.mem_cons] at hx
    rcases hx with rfl | hx
    · exact describe_told t h.1 hs.1
    · exact describeTerms_told r h.2 hs.2 x hx
end

/-! ## Messages -/

mutual
/-- No tag of more than one byte; no length of more than one byte and no reference in use. -/
def Narrow : Ty → Prop
  | .struct fs _ _ => NarrowFields fs
  | .variant ts l => l.tagW ≤ 1 ∧ NarrowTerms ts
  | .array e _ _ _ => Narrow e
  | .vector e l => (l.lenSize ≤ 1 ∧ ¬ l.canOut) ∧ Narrow e
  | _ => True
def NarrowFields : Fields → Prop
  | .nil => True
  | .cons _ _ t r => Narrow t ∧ NarrowFields r
def NarrowTerms : Terms → Prop
  | .nil => True
  | .cons _ _ _ t r => Narrow t ∧ NarrowTerms r
end

theorem natAlign_one {w : Nat} (h : w ≤ 1) : natAlign w = 1 := by unfold natAlign; rw [if_pos h]

mutual
theorem Tight.told : ∀ {t : Ty}, Tight t → Narrow t → Told t
  | .int _ _ _, _, _ => trivial
  | .float _ _, _, _ => trivial
  | .unit, _, _ => trivial
  | .struct fs sz al, h, hn => ToldFields_of fun x hx =>
      have ht := TightFields_iff.1 h.2.2 x hx
      ⟨TightFields.told h.2.2 hn x hx, by rw [ht.align]; exact Nat.one_dvd _, by rw [ht.align]; exact Nat.one_dvd _⟩
  | .variant ts l, h, hn => by
    refine ⟨?_, ToldTerms_of fun x hx => ?_⟩
    · rw [natAlign_one hn.1]; exact ⟨Nat.one_dvd _, Nat.one_dvd _⟩
    · have ht := TightTerms_iff.1 h.2.2.2 x hx
      exact ⟨TightTerms.told h.2.2.2 hn.2 x hx, by rw [ht.align]; exact Nat.one_dvd _, by rw [ht.align]; exact Nat.one_dvd _⟩
  | .array e n esz al, h, hn => by
    have ht : e.align = 1 := Tight.align h.2.2
    simp only [Told]
    rw [ht]
    exact ⟨Tight.told h.2.2 hn, fun _ => ⟨Nat.one_dvd _, Nat.one_dvd _⟩⟩
  | .vector e l, h, hn => by
    have ht : e.align = 1 := Tight.align h.2.2
    simp only [Told]
    rw [ht, natAlign_one hn.1.1]
    exact ⟨Tight.told h.2.2 hn.2, ⟨Nat.one_dvd _, Nat.one_dvd _⟩, fun hc => absurd hc hn.1.2, Nat.one_dvd _,
      fun _ => ⟨Nat.one_dvd _, Nat.one_dvd _⟩, fun _ => Nat.one_dvd _⟩
theorem TightFields.told : ∀ {fs : Fields}, TightFields fs → NarrowFields fs → ∀ x ∈ fs.toList, Told x.2.2
  | .nil, _, _, x, hx => by simp [Fields.toList] at hx
  | .cons c o t r, h, hn, x, hx => by
    simp only [Fields.toList, List.mem_cons] at hx
    rcases hx with rfl | hx
    · exact Tight.told h.1 hn.1
    · exact TightFields.told h.2 hn.2 x hx
theorem TightTerms.told : ∀ {ts : Terms}, TightTerms ts → NarrowTerms ts → ∀ x ∈ ts.toList, Told x.ty
  | .nil, _, _, x, hx => by simp [Terms.toList] at hx
  | .cons c g as t r, h, hn, x, hx => by
    simp only [Terms.toList, List.mem_cons] at hx
    rcases hx with rfl | hx
    · exact Tight.told h.1 hn.1
    · exact TightTerms.told h.2 hn.2 x hx
end

mutual
/-- In a message every address is aligned enough for the elements of a vector. -/
theorem Tight.ptrs (S : Mem) : ∀ {t : Ty}, Tight t → ∀ path a, Ptrs S t path a
  | .int _ _ _, _, _, _ => trivial
  | .float _ _, _, _, _ => trivial
  | .unit, _, _, _ => trivial
  | .struct fs sz al, h, path, a => TightFields.ptrs S h.2.2 path a
  | .variant ts l, h, path, a => fun t _ => TightTerms.ptrs S h.2.2.2 t.name t.tag _
  | .array e n esz al, h, path, a => fun i _ => Tight.ptrs S h.2.2 [] _
  | .vector e l, h, path, a => fun n _ =>
    ⟨fun _ i _ => Tight.ptrs S h.2.2 [] _, fun _ => ⟨fun i _ => Tight.ptrs S h.2.2 [] _,
      fun _ => by rw [Tight.align h.2.2]; exact Nat.one_dvd _, fun i _ => Tight.ptrs S h.2.2 [] _⟩⟩
theorem TightFields.ptrs (S : Mem) : ∀ {fs : Fields}, TightFields fs → ∀ path a, PtrsFields S fs path a
  | .nil, _, _, _ => trivial
  | .cons _ _ _ _, h, path, a => ⟨Tight.ptrs S h.1 _ _, TightFields.ptrs S h.2 path a⟩
theorem TightTerms.ptrs (S : Mem) : ∀ {ts : Terms}, TightTerms ts → ∀ c g a, PtrsTerms S ts c g a
  | .nil, _, _, _, _ => trivial
  | .cons _ _ _ _ _, h, c, g, a => ⟨fun _ => Tight.ptrs S h.1 _ _, TightTerms.ptrs S h.2 c g a⟩
end

/-! ## Checks that are made -/

theorem Chk.load_ub {A : Chk} {a al : Nat} {r : Res} (hA : A.src = true) (h : A.load a al r ≠ .ub) : al ∣ a := by
  refine Nat.dvd_of_mod_eq_zero (Decidable.byContradiction fun hc => h ?_)
  simp [Chk.load, hA, hc]

theorem Chk.store_ub {A : Chk} {a al : Nat} {r : Res} (hA : A.dst = true) (h : A.store a al r ≠ .ub) : al ∣ a := by
  refine Nat.dvd_of_mod_eq_zero (Decidable.byContradiction fun hc => h ?_)
  simp [Chk.store, hA, hc]

theorem Chk.load_in {A : Chk} {a al : Nat} {r : Res} (h : A.load a al r ≠ .ub) : r ≠ .ub := by
  intro hr
  refine h ?_
  unfold Chk.load
  split
  · rfl
  · exact hr

theorem Chk.loadOpt_none {α : Type} {A : Chk} {a al : Nat} {r : Option α} (hA : A.src = true) (h : A.loadOpt a al r ≠ none) :
    al ∣ a := by
  refine Nat.dvd_of_mod_eq_zero (Decidable.byContradiction fun hc => h ?_)
  simp [Chk.loadOpt, hA, hc]

theorem Res.bind_ub {r : Res} {f : St → Res} (h : r.bind f ≠ .ub) : r ≠ .ub := fun hr => h (by rw [hr]; rfl)

theorem Res.bind_ok {r : Res} {f : St → Res} {s : St} (h : r.bind f = .ok s) : ∃ s', r = .ok s' ∧ f s' = .ok s := by
  cases r with
  | ok s' => exact ⟨s', rfl, h⟩
  | throw s' => cases h
  | ub => cases h

/-- A loop over elements behind a reference loads the reference. -/
theorem copyLoop_via {A : Chk} {l : VecL} {a ss sw si ds dw di n : Nat} {f : Nat → Nat → St → Res} {st s : St}
    (hA : A.src = true) (h : copyLoop (viaRef A l a f) ss sw si ds dw di n st = .ok s) (h0 : 0 < n) (h1 : n < 2 ^ 63) :
    natAlign l.refSize ∣ a + l.refOff := by
  unfold copyLoop at h
  rw [loopCount_eq h1] at h
  cases n with
  | zero => omega
  | succ n =>
    obtain ⟨s', hs, _⟩ := Res.bind_ok h
    exact Chk.load_ub hA (fun hu => Res.noConfusion (hs.symm.trans hu))

end PJ
