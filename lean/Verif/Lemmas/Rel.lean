import Verif.Lemmas.HoistFits
import Verif.Spec.Evolve
import Verif.Props.C09_StructEvolution
import Verif.Props.C11_EnumCopy
/-!
# Host type and planned type

`Rel` follows the planner from the host type to the wire type; it implies `Compat` in both directions.
-/
namespace PJ

mutual
/-- The path leads through struct fields to a vector. -/
def Ty.vecAt : Ty → Path → Prop
  | .vector _ _, [_] => True
  | .struct fs _ _, c :: c' :: p => fs.vecAt c (c' :: p)
  | _, _ => False
def Fields.vecAt : Fields → Comp → Path → Prop
  | .nil, _, _ => False
  | .cons d _ t r, c, p => (d = c ∧ t.vecAt p) ∨ r.vecAt c p
end

/-- The conditions of a term ask for the length of a vector of the host term. -/
def AttrsAt (ts : Terms) (c : Comp) (as : List Attr) : Prop :=
  ∀ a ∈ as, (∃ d, a = .undef d) ∨ ∃ b n p, a = .split b n p ∧ ∀ h ∈ ts.toList, h.name = c → h.ty.vecAt p

/-- Lengths of a host vector and of one made from it. -/
def VecRel (hl l : VecL) : Prop :=
  (∀ m, hl.maxLen = some m → l.wireMin ≤ m) ∧ l.wireMin < 2 ^ 63 ∧
  (l.maxLen = hl.maxLen ∨ (l.wireMin ≠ 0 ∧ l.maxLen = some l.wireMin)) ∧
  (l.wireMin = 0 ∨ l.wireMin = hl.wireMin)

/-- Names and tags. -/
def Terms.tagsOf (ts : Terms) : List (Comp × Nat) := ts.toList.map fun t => (t.name, t.tag)

/-- The default terms have the same name and the same tag. -/
def DfltRel (hts : List Term) (hd : Nat) (ts : List Term) (d : Nat) : Prop :=
  ∃ h u, hts[hd]? = some h ∧ ts[d]? = some u ∧ u.name = h.name ∧ u.tag = h.tag

mutual
/-- Host type and a type made from it; `q` holds of the vectors. -/
def Rel (q : VecL → Prop) : Ty → Ty → Prop
  | .int w s _, t => ∃ al, t = .int w s al
  | .float w _, t => ∃ al, t = .float w al
  | .unit, t => t = .unit
  | .struct fs _ _, t => ∃ fs' sz al, t = .struct fs' sz al ∧ RelFields q fs fs'
  | .variant ts hl, t => ∃ ts' l, t = .variant ts' l ∧
    (∀ u ∈ ts'.toList, ts.hasName u.name = true ∧ RelNamed q ts u.name u.ty) ∧
    (∀ h ∈ ts.toList, ts'.hasName h.name = true) ∧
    (∀ u ∈ ts'.toList, u.attrs ≠ [] → u.ty.hasVec ∧ AttrsAt ts u.name u.attrs) ∧
    ((∀ u ∈ ts'.toList, u.attrs = []) → ts'.tagsOf = ts.tagsOf) ∧
    DfltRel ts.toList hl.dflt ts'.toList l.dflt
  | .array e n _ _, t => ∃ e' esz al, t = .array e' n esz al ∧ Rel q e e'
  | .vector e hl, t => ∃ e' l, t = .vector e' l ∧ Rel q e e' ∧ VecRel hl l ∧ q l
def RelFields (q : VecL → Prop) : Fields → Fields → Prop
  | .nil, fs => fs = .nil
  | .cons c _ t r, fs => ∃ o t' r', fs = .cons c o t' r' ∧ Rel q t t' ∧ RelFields q r r'
def RelNamed (q : VecL → Prop) : Terms → Comp → Ty → Prop
  | .nil, _, _ => True
  | .cons n _ _ t r, c, ty => (n = c → Rel q t ty) ∧ RelNamed q r c ty
end

theorem RelNamed_iff {q : VecL → Prop} {c : Comp} {ty : Ty} : ∀ {ts : Terms}, RelNamed q ts c ty ↔
    ∀ t ∈ ts.toList, t.name = c → Rel q t.ty ty
  | .nil => by simp [RelNamed, Terms.toList]
  | .cons n g as t r => by
    simp only [RelNamed, Terms.toList, List.forall_mem_cons, RelNamed_iff (ts := r)]

theorem hasName_iff {ts : Terms} {c : Comp} : ts.hasName c = true ↔ ∃ t ∈ ts.toList, t.name = c := by
  simp [Terms.hasName]

theorem hasName_mem {ts : Terms} {t : Term} (h : t ∈ ts.toList) : ts.hasName t.name = true :=
  hasName_iff.2 ⟨t, h, rfl⟩

theorem name_unique {l : List Term} (h : (l.map (·.name)).Nodup) {t u : Term} (ht : t ∈ l) (hu : u ∈ l)
    (hn : t.name = u.name) : t = u := by
  obtain ⟨i, hi, rfl⟩ := List.mem_iff_getElem.1 ht
  obtain ⟨j, hj, rfl⟩ := List.mem_iff_getElem.1 hu
  have := (List.getElem_inj (xs := l.map (·.name)) (i := i) (j := j) (h₀ := by simpa using hi)
    (h₁ := by simpa using hj) h).1 (by simpa using hn)
  subst this; rfl

/-! ## Start -/

mutual
theorem rel_refl : ∀ t : Ty, Plain t → Sch t → Rel (fun _ => True) t t
  | .int w s al, _, _ => ⟨al, rfl⟩
  | .float w al, _, _ => ⟨al, rfl⟩
  | .unit, _, _ => rfl
  | .struct fs sz al, hp, hs => ⟨fs, sz, al, rfl, relFields_refl fs hp hs.2⟩
  | .variant ts l, hp, hs => by
    simp only [Plain] at hp
    simp only [Sch] at hs
    have hr := relTerms_refl ts hp.2 hs.2.2.2.2
    have ha := PlainTerms_iff.1 hp.2
    refine ⟨ts, l, rfl, fun u hu => ⟨hasName_mem hu, RelNamed_iff.2 fun t ht hn => ?_⟩,
      fun h hh => hasName_mem hh, fun u hu h => absurd (ha u hu).1 h, fun _ => rfl,
      _, _, List.getElem?_eq_getElem hs.1, List.getElem?_eq_getElem hs.1, rfl, rfl⟩
    have := name_unique hp.1 ht hu hn
    subst this
    exact hr t ht
  | .array e n esz al, hp, hs => ⟨e, esz, al, rfl, rel_refl e hp hs⟩
  | .vector e l, hp, hs => by
    simp only [Sch] at hs
    exact ⟨e, l, rfl, rel_refl e hp hs.1, ⟨fun m hm => (hs.2.2 m hm).2.2, hs.2.1, Or.inl rfl, Or.inr rfl⟩, trivial⟩
termination_by structural t => t
theorem relFields_refl : ∀ fs : Fields, PlainFields fs → SchFields fs → RelFields (fun _ => True) fs fs
  | .nil, _, _ => rfl
  | .cons _ o t r, hp, hs => ⟨o, t, r, rfl, rel_refl t hp.1 hs.1, relFields_refl r hp.2 hs.2⟩
termination_by structural fs => fs
theorem relTerms_refl : ∀ ts : Terms, PlainTerms ts → SchTerms ts →
    ∀ t ∈ ts.toList, Rel (fun _ => True) t.ty t.ty
  | .nil, _, _, t, ht => by simp [Terms.toList] at ht
  | .cons n g as ty r, hp, hs, t, ht => by
    simp only [Terms.toList, List.mem_cons] at ht
    rcases ht with rfl | ht
    · exact rel_refl ty hp.2.1 hs.1
    · exact relTerms_refl r hp.2.2 hs.2 t ht
termination_by structural ts => ts
end

/-! ## Outlining and offsets -/

mutual
theorem tryOutline_rel (q : VecL → Prop) : ∀ (t : Ty) (path : Path) (t' h : Ty), tryOutline t path = some t' →
    Rel q h t → Rel q h t'
  | .variant ts l, path, t', h, ho, hr => by
    simp only [tryOutline] at ho
    split at ho
    · cases ho
    · cases ho
      cases h <;> simp only [Rel, reduceCtorEq, false_and, exists_false] at hr
      obtain ⟨ts', l', he, h1⟩ := hr
      cases he
      exact ⟨ts, _, rfl, h1⟩
  | .struct fs sz al, path, t', h, ho, hr => by
    simp only [tryOutline] at ho
    split at ho
    · cases ho
    · split at ho
      · rename_i fs' hfs
        cases ho
        cases h <;> simp only [Rel, reduceCtorEq, false_and, exists_false] at hr
        obtain ⟨fs2, sz2, al2, he, h1⟩ := hr
        cases he
        exact ⟨fs', sz, al, rfl, tryOutlineFields_rel q fs path fs' _ hfs h1⟩
      · cases ho
  | .int _ _ _, path, t', h, ho, _ => by simp [tryOutline] at ho
  | .float _ _, path, t', h, ho, _ => by simp [tryOutline] at ho
  | .unit, path, t', h, ho, _ => by simp [tryOutline] at ho
  | .array _ _ _ _, path, t', h, ho, _ => by simp [tryOutline] at ho
  | .vector _ _, path, t', h, ho, _ => by simp [tryOutline] at ho
termination_by structural t => t
theorem tryOutlineFields_rel (q : VecL → Prop) : ∀ (fs : Fields) (path : Path) (fs' hfs : Fields),
    tryOutlineFields fs path = some fs' → RelFields q hfs fs → RelFields q hfs fs'
  | .nil, path, fs', hfs, ho, h => by simp [tryOutlineFields] at ho
  | .cons c o t r, path, fs', hfs, ho, h => by
    cases hfs with
    | nil => cases h
    | cons hc hO ht hr =>
      obtain ⟨o2, t2, r2, he, h1, h2⟩ := h
      cases he
      simp only [tryOutlineFields] at ho
      split at ho
      · rename_i t' ht'
        cases ho
        exact ⟨o, t', r, rfl, tryOutline_rel q t _ t' ht ht' h1, h2⟩
      · split at ho
        · rename_i r' hr'
          cases ho
          exact ⟨o, t, r', rfl, h1, tryOutlineFields_rel q r path r' hr hr' h2⟩
        · cases ho
termination_by structural fs => fs
end

mutual
theorem setOut_rel (q : VecL → Prop) (d : Nat) : ∀ (t h : Ty), Rel q h t → Rel q h (setOut d t)
  | .variant ts l, h, hr => by
    simp only [setOut]
    split
    · cases h <;> simp only [Rel, reduceCtorEq, false_and, exists_false] at hr
      obtain ⟨ts', l', he, h1⟩ := hr
      cases he
      exact ⟨ts, _, rfl, h1⟩
    · exact hr
  | .struct fs sz al, h, hr => by
    cases h <;> simp only [Rel, reduceCtorEq, false_and, exists_false] at hr
    obtain ⟨fs2, sz2, al2, he, h1⟩ := hr
    cases he
    exact ⟨_, sz, al, rfl, setOutFields_rel q d fs _ h1⟩
  | .int _ _ _, h, hr => hr
  | .float _ _, h, hr => hr
  | .unit, h, hr => hr
  | .array _ _ _ _, h, hr => hr
  | .vector _ _, h, hr => hr
termination_by structural t => t
theorem setOutFields_rel (q : VecL → Prop) (d : Nat) : ∀ (fs hfs : Fields),
    RelFields q hfs fs → RelFields q hfs (setOutFields d fs)
  | .nil, hfs, h => h
  | .cons c o t r, hfs, h => by
    cases hfs with
    | nil => cases h
    | cons hc hO ht hr =>
      obtain ⟨o2, t2, r2, he, h1, h2⟩ := h
      cases he
      exact ⟨o, _, _, rfl, setOut_rel q d t ht h1, setOutFields_rel q d r hr h2⟩
termination_by structural fs => fs
end

/-! ## Hoisting -/

mutual
theorem split_rel : ∀ (t : Ty) (s : Split) (h : Ty), splitFirst t = some s → Rel (fun _ => True) h t →
    Rel (fun _ => True) h s.short ∧ Rel (fun _ => True) h s.long ∧ s.short.hasVec ∧ s.long.hasVec ∧
      h.vecAt s.path
  | .vector e l, s, h, hs, hr => by
    simp only [splitFirst] at hs
    split at hs
    · cases hs
    · rename_i hn
      cases hs
      cases h <;> simp only [Rel, reduceCtorEq, false_and, exists_false] at hr
      obtain ⟨e', l', he, h1, ⟨h2, h3, h4, h5⟩, _⟩ := hr
      cases he
      refine ⟨⟨e, _, rfl, h1, ⟨fun m hm => ?_, ?_, ?_, h5⟩, trivial⟩,
        ⟨e, _, rfl, h1, ⟨fun m hm => ?_, ?_, ?_, Or.inl rfl⟩, trivial⟩, trivial, trivial, trivial⟩
      · exact h2 m hm
      · exact h3
      · exact Or.inr ⟨fun h => hn (Or.inl h), rfl⟩
      · simp [bareVec]
      · simp [bareVec]
      · simp only [bareVec]
        rcases h4 with h4 | h4
        · exact Or.inl h4
        · exact absurd (Or.inr h4.2) hn
  | .struct fs sz al, s, h, hs, hr => by
    simp only [splitFirst] at hs
    split at hs
    · rename_i n short long path hf
      cases hs
      cases h <;> simp only [Rel, reduceCtorEq, false_and, exists_false] at hr
      obtain ⟨fs2, sz2, al2, he, h1⟩ := hr
      cases he
      obtain ⟨g1, g2, g3, g4, c, c', p, rfl, g5⟩ := splitFields_rel fs n short long path _ hf h1
      exact ⟨⟨short, sz, al, rfl, g1⟩, ⟨long, sz, al, rfl, g2⟩, g3, g4, g5⟩
    · cases hs
  | .int _ _ _, s, h, hs, _ => by simp [splitFirst] at hs
  | .float _ _, s, h, hs, _ => by simp [splitFirst] at hs
  | .unit, s, h, hs, _ => by simp [splitFirst] at hs
  | .array _ _ _ _, s, h, hs, _ => by simp [splitFirst] at hs
  | .variant _ _, s, h, hs, _ => by simp [splitFirst] at hs
termination_by structural t => t
theorem splitFields_rel : ∀ (fs : Fields) (n : Nat) (short long : Fields) (path : Path) (hfs : Fields),
    splitFields fs = some (n, short, long, path) → RelFields (fun _ => True) hfs fs →
    RelFields (fun _ => True) hfs short ∧ RelFields (fun _ => True) hfs long ∧ short.hasVec ∧ long.hasVec ∧
      ∃ c c' p, path = c :: c' :: p ∧ hfs.vecAt c (c' :: p)
  | .nil, n, short, long, path, hfs, hs, h => by simp [splitFields] at hs
  | .cons c o t r, n, short, long, path, hfs, hs, h => by
    cases hfs with
    | nil => cases h
    | cons hc hO hty hr =>
      obtain ⟨o2, t2, r2, he, h1, h2⟩ := h
      cases he
      simp only [splitFields] at hs
      split at hs
      · rename_i s ht
        cases hs
        obtain ⟨g1, g2, g3, g4, g5⟩ := split_rel t s hty ht h1
        obtain ⟨d, p, hd⟩ := split_path ht
        rw [hd] at g5
        exact ⟨⟨o, _, _, rfl, g1, h2⟩, ⟨o, _, _, rfl, g2, h2⟩, Or.inl g3, Or.inl g4, _, d, p, by rw [hd]; rfl,
          Or.inl ⟨rfl, g5⟩⟩
      · split at hs
        · rename_i k a b q hr'
          cases hs
          obtain ⟨g1, g2, g3, g4, c1, c2, p, e1, g5⟩ := splitFields_rel r _ _ _ _ hr hr' h2
          exact ⟨⟨o, _, _, rfl, h1, g1⟩, ⟨o, _, _, rfl, h1, g2⟩, Or.inr g3, Or.inr g4, c1, c2, p, e1, Or.inr g5⟩
        · cases hs
termination_by structural fs => fs
end

/-- The part of `Rel` about the terms. -/
structure TermsRel (q : VecL → Prop) (ts : Terms) (l : List Term) : Prop where
  named : ∀ u ∈ l, ts.hasName u.name = true ∧ RelNamed q ts u.name u.ty
  all : ∀ h ∈ ts.toList, ∃ u ∈ l, u.name = h.name
  vec : ∀ u ∈ l, u.attrs ≠ [] → u.ty.hasVec ∧ AttrsAt ts u.name u.attrs
  tags : (∀ u ∈ l, u.attrs = []) → (l.map fun t => (t.name, t.tag)) = ts.tagsOf

theorem Step.rel {x y : List Term × Nat} (s : Step x y) {ts : Terms} (h : TermsRel (fun _ => True) ts x.1) :
    TermsRel (fun _ => True) ts y.1 := by
  have hat : ∀ b, AttrsAt ts s.t.name (s.t.attrs ++ [.split b s.sp.len s.sp.path]) := by
    have hmt : s.t ∈ x.1 := (s.mem_src _).2 (Or.inr (Or.inl rfl))
    intro b a ha
    rcases List.mem_append.1 ha with ha | ha
    · exact (h.vec _ hmt (fun e => by rw [e] at ha; cases ha)).2 a ha
    · simp only [List.mem_singleton] at ha
      exact Or.inr ⟨b, _, _, ha, fun h1 hh1 hn =>
        (split_rel _ _ _ s.split (RelNamed_iff.1 (h.named _ hmt).2 h1 hh1 hn)).2.2.2.2⟩
  have hmt : s.t ∈ x.1 := (s.mem_src _).2 (Or.inr (Or.inl rfl))
  have hpre : ∀ u ∈ s.pre, u ∈ x.1 := fun u hu => (s.mem_src u).2 (Or.inl hu)
  have hpost : ∀ u ∈ s.post, u ∈ x.1 := fun u hu => (s.mem_src u).2 (Or.inr (Or.inr hu))
  obtain ⟨n1, n2⟩ := h.named _ hmt
  obtain ⟨h0, hh0, hn0⟩ := hasName_iff.1 n1
  obtain ⟨_, _, v1, v2, _⟩ := split_rel _ _ h0.ty s.split (RelNamed_iff.1 n2 h0 hh0 hn0)
  refine ⟨fun u hu => ?_, fun a ha => ?_, fun u hu hattr => ?_, fun hall => ?_⟩
  · rcases (s.mem u).1 hu with hu | rfl | hu | rfl
    · exact h.named u (hpre u hu)
    · exact ⟨n1, RelNamed_iff.2 fun t ht hn => (split_rel _ _ _ s.split (RelNamed_iff.1 n2 t ht hn)).2.1⟩
    · exact h.named u (hpost u hu)
    · exact ⟨n1, RelNamed_iff.2 fun t ht hn => (split_rel _ _ _ s.split (RelNamed_iff.1 n2 t ht hn)).1⟩
  · obtain ⟨u, hu, hn⟩ := h.all a ha
    rcases (s.mem_src u).1 hu with hu | rfl | hu
    · exact ⟨u, (s.mem u).2 (Or.inl hu), hn⟩
    · exact ⟨_, (s.mem _).2 (Or.inr (Or.inl rfl)), hn⟩
    · exact ⟨u, (s.mem u).2 (Or.inr (Or.inr (Or.inl hu))), hn⟩
  · rcases (s.mem u).1 hu with hu | rfl | hu | rfl
    · exact h.vec u (hpre u hu) hattr
    · exact ⟨v2, hat false⟩
    · exact h.vec u (hpost u hu) hattr
    · exact ⟨v1, hat true⟩
  · have := hall _ ((s.mem _).2 (Or.inr (Or.inl rfl)))
    simp [Term.longOf] at this

mutual
theorem findHoist_rel : ∀ (t t' h : Ty), findHoist t = some t' → Rel (fun _ => True) h t →
    Rel (fun _ => True) h t'
  | .variant ts l, t', h, hh, hr => by
    simp only [findHoist, Option.some.injEq] at hh
    subst hh
    cases h <;> simp only [Rel, reduceCtorEq, false_and, exists_false] at hr
    obtain ⟨ts', l', he, h1, h2, h3, h4, hd, ud, h5, h6, h7, h8⟩ := hr
    cases he
    obtain ⟨u, g1, g2, g3⟩ := C18_default (ts.toList, l.dflt) ud h6
    have := hoist_inv (P := fun x => TermsRel (fun _ => True) _ x.1) (fun x y s h => s.rel h) (ts.toList, l.dflt)
      ⟨h1, fun a ha => hasName_iff.1 (h2 a ha), h3, h4⟩
    refine ⟨_, _, rfl, ?_, fun a ha => hasName_iff.2 ?_, ?_, ?_, hd, u, h5, ?_, g2.trans h7, g3.trans h8⟩
    · rw [toList_ofList]; exact this.named
    · rw [toList_ofList]; exact this.all a ha
    · rw [toList_ofList]; exact this.vec
    · unfold Terms.tagsOf; rw [toList_ofList]; exact this.tags
    · rw [toList_ofList]; exact g1
  | .struct fs sz al, t', h, hh, hr => by
    simp only [findHoist] at hh
    split at hh
    · rename_i fs' hf
      cases hh
      cases h <;> simp only [Rel, reduceCtorEq, false_and, exists_false] at hr
      obtain ⟨fs2, sz2, al2, he, h1⟩ := hr
      cases he
      exact ⟨fs', sz, al, rfl, findHoistFields_rel fs fs' _ hf h1⟩
    · cases hh
  | .int _ _ _, t', h, hh, _ => by simp [findHoist] at hh
  | .float _ _, t', h, hh, _ => by simp [findHoist] at hh
  | .unit, t', h, hh, _ => by simp [findHoist] at hh
  | .array _ _ _ _, t', h, hh, _ => by simp [findHoist] at hh
  | .vector _ _, t', h, hh, _ => by simp [findHoist] at hh
termination_by structural t => t
theorem findHoistFields_rel : ∀ (fs fs' hfs : Fields), findHoistFields fs = some fs' →
    RelFields (fun _ => True) hfs fs → RelFields (fun _ => True) hfs fs'
  | .nil, fs', hfs, hh, h => by simp [findHoistFields] at hh
  | .cons c o t r, fs', hfs, hh, h => by
    cases hfs with
    | nil => cases h
    | cons hc hO hty hr =>
      obtain ⟨o2, t2, r2, he, h1, h2⟩ := h
      cases he
      simp only [findHoistFields] at hh
      split at hh
      · rename_i t' ht
        cases hh
        exact ⟨o, t', r, rfl, findHoist_rel t t' hty ht h1, h2⟩
      · split at hh
        · rename_i r' hr'
          cases hh
          exact ⟨o, t, r', rfl, h1, findHoistFields_rel r r' hr hr' h2⟩
        · cases hh
termination_by structural fs => fs
end

/-! ## Layout -/

/-- What layout does to the lengths. -/
def Laid (l : VecL) : Prop := l.minLen = l.wireMin

mutual
theorem layout_hasVec : ∀ t : Ty, t.hasVec → (layout t).hasVec
  | .vector _ _, _ => trivial
  | .struct fs _ _, h => layoutFields_hasVec fs 0 h
  | .int _ _ _, h => h.elim
  | .float _ _, h => h.elim
  | .unit, h => h.elim
  | .array _ _ _ _, h => h.elim
  | .variant _ _, h => h.elim
termination_by structural t => t
theorem layoutFields_hasVec : ∀ (fs : Fields) (off : Nat), fs.hasVec → (layoutFields fs off 1).1.hasVec
  | .nil, _, h => h.elim
  | .cons _ _ t r, off, h => by
    rw [layoutFields_cons]
    rcases h with h | h
    · exact Or.inl (layout_hasVec t h)
    · exact Or.inr (layoutFields_hasVec r _ h)
termination_by structural fs => fs
end

mutual
theorem layout_rel : ∀ (h t : Ty), Rel (fun _ => True) h t → Rel Laid h (layout t)
  | .int w s _, t, hr => by obtain ⟨al, rfl⟩ := hr; exact ⟨_, rfl⟩
  | .float w _, t, hr => by obtain ⟨al, rfl⟩ := hr; exact ⟨_, rfl⟩
  | .unit, t, hr => by simp only [Rel] at hr; subst hr; rfl
  | .struct fs _ _, t, hr => by
    obtain ⟨fs', sz, al, rfl, hr⟩ := hr
    exact ⟨_, _, _, rfl, layoutFields_rel fs fs' 0 hr⟩
  | .variant ts _, t, hr => by
    obtain ⟨ts', l, rfl, h1, h2, h3, h4, hd, ud, h5, h6, h7, h8⟩ := hr
    have hmem : ∀ {Q : Term → Prop}, (∀ u ∈ ts'.toList, Q { u with ty := layout u.ty }) →
        ∀ u ∈ (layoutTerms ts').toList, Q u := by
      intro Q hQ u hu
      rw [layoutTerms_toList] at hu
      obtain ⟨u', hu', rfl⟩ := List.mem_map.1 hu
      exact hQ u' hu'
    refine ⟨_, _, rfl, ?_, fun a ha => ?_, ?_, fun hall => ?_, hd, { ud with ty := layout ud.ty }, h5, ?_, h7, h8⟩
    · exact hmem (Q := fun u => ts.hasName u.name = true ∧ RelNamed Laid ts u.name u.ty) fun u hu =>
        ⟨(h1 u hu).1, layoutNamed_rel ts u.name u.ty (h1 u hu).2⟩
    · obtain ⟨u, hu, hn⟩ := hasName_iff.1 (h2 a ha)
      refine hasName_iff.2 ⟨{ u with ty := layout u.ty }, ?_, hn⟩
      rw [layoutTerms_toList]
      exact List.mem_map_of_mem (f := fun t : Term => { t with ty := layout t.ty }) hu
    · exact hmem (Q := fun u => u.attrs ≠ [] → u.ty.hasVec ∧ AttrsAt ts u.name u.attrs) fun u hu ha =>
        ⟨layout_hasVec _ (h3 u hu ha).1, (h3 u hu ha).2⟩
    · rw [← h4 fun u hu => hall { u with ty := layout u.ty } (by
        rw [layoutTerms_toList]
        exact List.mem_map_of_mem (f := fun t : Term => { t with ty := layout t.ty }) hu)]
      unfold Terms.tagsOf
      rw [layoutTerms_toList, List.map_map]; rfl
    · rw [show (layoutVar (layoutTerms ts').toList l).dflt = l.dflt by unfold layoutVar; simp only; split <;> rfl,
        layoutTerms_toList, List.getElem?_map, h6]
      rfl
  | .array e n _ _, t, hr => by
    obtain ⟨e', esz, al, rfl, hr⟩ := hr
    exact ⟨_, _, _, rfl, layout_rel e e' hr⟩
  | .vector e hl, t, hr => by
    obtain ⟨e', l, rfl, h1, h2, _⟩ := hr
    exact ⟨_, _, rfl, layout_rel e e' h1, h2, rfl⟩
termination_by structural t => t
theorem layoutFields_rel : ∀ (hfs fs : Fields) (off : Nat), RelFields (fun _ => True) hfs fs →
    RelFields Laid hfs (layoutFields fs off 1).1
  | .nil, fs, off, h => by simp only [RelFields] at h; subst h; rfl
  | .cons c o t r, fs, off, h => by
    obtain ⟨o', t', r', rfl, h1, h2⟩ := h
    rw [layoutFields_cons]
    exact ⟨_, _, _, rfl, layout_rel t t' h1, layoutFields_rel r r' _ h2⟩
termination_by structural hfs => hfs
theorem layoutNamed_rel : ∀ (ts : Terms) (c : Comp) (ty : Ty), RelNamed (fun _ => True) ts c ty →
    RelNamed Laid ts c (layout ty)
  | .nil, _, _, _ => trivial
  | .cons _ _ _ t r, c, ty, h => ⟨fun hn => layout_rel t ty (h.1 hn), layoutNamed_rel r c ty h.2⟩
termination_by structural ts => ts
end

/-! ## Compatibility -/

mutual
theorem hasVec_size : ∀ t : Ty, t.hasVec → WF t → 0 < t.size
  | .vector e l, _, hw => by
    have := hw.2.lenIn
    have := hw.2.lenSize
    simp only [Ty.size]
    omega
  | .struct fs sz _, h, hw => by
    obtain ⟨x, hx, hs⟩ := hasVec_field fs h hw.1
    have := hw.2.inside x hx
    simp only [Ty.size]
    omega
  | .int _ _ _, h, _ => h.elim
  | .float _ _, h, _ => h.elim
  | .unit, h, _ => h.elim
  | .array _ _ _ _, h, _ => h.elim
  | .variant _ _, h, _ => h.elim
termination_by structural t => t
theorem hasVec_field : ∀ fs : Fields, fs.hasVec → WFFields fs → ∃ x ∈ fs.toList, 0 < x.2.2.size
  | .nil, h, _ => h.elim
  | .cons c o t r, h, hw => by
    rcases h with h | h
    · exact ⟨(c, o, t), by simp [Fields.toList], hasVec_size t h hw.1⟩
    · obtain ⟨x, hx, hs⟩ := hasVec_field r h hw.2
      exact ⟨x, by simp [Fields.toList, hx], hs⟩
termination_by structural fs => fs
end

theorem exactMatch_same {a b : Terms} {la lb : VarL} (h : a.tagsOf = b.tagsOf)
    (hn : (b.toList.map (·.name)).Nodup) : exactMatch (enumTy a la) (enumTy b lb) = true := by
  have hn' : ((enumTy b lb).terms.map (·.1)).Nodup := by
    simp only [enumTy, List.map_map]; exact hn
  unfold exactMatch
  rw [List.all_eq_true]
  intro x hx
  rw [tagOf_eq _ hn']
  have hx' : x ∈ (enumTy b lb).terms := by
    have e : (enumTy a la).terms = (enumTy b lb).terms := h
    rw [← e]; exact hx
  rw [find?_unique (fun t : Comp × Nat => t.1) _ hn' x hx']
  simp

theorem names_of_tags {a b : Terms} (h : a.tagsOf = b.tagsOf) :
    a.toList.map (·.name) = b.toList.map (·.name) := by
  have := congrArg (List.map Prod.fst) h
  simp only [Terms.tagsOf, List.map_map] at this
  exact this

/-- An enum on the wire has the terms of the host enum. -/
theorem enum_tags {q : VecL → Prop} {ts ts' : Terms} (hw : WFTerms ts') (hr : TermsRel q ts ts'.toList)
    (he : ts'.isEnum = true) : ts'.tagsOf = ts.tagsOf := by
  refine hr.tags fun u hu => ?_
  by_cases ha : u.attrs = []
  · exact ha
  · exfalso
    have h1 := hasVec_size _ (hr.vec u hu ha).1 (terms_WF _ hw u hu)
    have h2 := List.all_eq_true.1 he u hu
    simp only [beq_iff_eq] at h2
    omega

theorem CompatNamed_iff {c : Comp} {ty : Ty} : ∀ {ts : Terms}, CompatNamed ts c ty ↔
    ∀ t ∈ ts.toList, t.name = c → Compat t.ty ty
  | .nil => by simp [CompatNamed, Terms.toList]
  | .cons n g as t r => by
    simp only [CompatNamed, Terms.toList, List.forall_mem_cons, CompatNamed_iff (ts := r)]

theorem findLast_mem {c : Comp} {o : Nat} {t : Ty} {fs : Fields} (hn : (fs.toList.map (·.1)).Nodup)
    (h : (c, o, t) ∈ fs.toList) : fs.findLast c = some (o, t) := by
  rw [find_eq_findLast fs hn]; exact find_mem hn h

theorem vecCompat_dec {hl l : VecL} {esz eal hesz heal : Nat} (hr : VecRel hl l) (hq : Laid l)
    (hw : VecLayout l esz eal) (_ : VecLayout hl hesz heal) : VecCompat hl l := by
  refine Or.inl ?_
  have h1 := hw.ppl
  unfold Laid at hq
  obtain ⟨r1, r2, r3, _⟩ := hr
  unfold VecL.maxBound
  cases hm : hl.maxLen with
  | none => simp only; omega
  | some m => have := r1 m hm; simp only; omega

theorem vecCompat_enc {hl l : VecL} {esz eal hesz heal : Nat} (hr : VecRel hl l) (hq : Laid l)
    (_ : VecLayout l esz eal) (hh : VecLayout hl hesz heal) : VecCompat l hl := by
  unfold Laid at hq
  obtain ⟨r1, r2, r3, _⟩ := hr
  rcases r3 with r3 | ⟨r3, r4⟩
  · refine Or.inl ?_
    have h1 := hh.ppl
    have h2 := hh.min
    unfold VecL.maxBound
    rw [r3]
    cases hm : hl.maxLen with
    | none => simp only; omega
    | some m => have := (hh.max m hm).2.2.2; simp only; omega
  · refine Or.inr ⟨by omega, ?_⟩
    unfold VecL.maxBound
    rw [r4]
    simp only
    omega

set_option maxHeartbeats 1000000 in
mutual
theorem rel_compat : ∀ (h t : Ty), Rel Laid h t → Plain h → WF h → WF t → Compat h t ∧ Compat t h
  | .int _ _ _, t, hr, _, _, _ => by
    obtain ⟨al, rfl⟩ := hr; simp [Compat]
  | .float _ _, t, hr, _, _, _ => by
    obtain ⟨al, rfl⟩ := hr; simp [Compat]
  | .unit, t, hr, _, _, _ => by
    simp only [Rel] at hr; subst hr; simp [Compat]
  | .struct fs _ _, t, hr, hp, hh, hw => by
    obtain ⟨fs', sz, al, rfl, hr⟩ := hr
    simp only [Compat]
    exact relFields_compat fs fs' fs fs' hr hp hh.1 hw.1
      (fun c o t ht => findLast_mem hh.2.names ht) (fun c o t ht => findLast_mem hw.2.names ht)
  | .variant ts hl, t, hr, hp, hh, hw => by
    obtain ⟨ts', l, rfl, h1, h2, h3, h4, _⟩ := hr
    simp only [Plain] at hp
    simp only [WF] at hh hw
    have htr : TermsRel Laid ts ts'.toList := ⟨h1, fun a ha => hasName_iff.1 (h2 a ha), h3, h4⟩
    have hc := relTerms_compat ts ts' (fun u hu => (h1 u hu).2) hp.2 hh.1 hw.1
    simp only [Compat]
    refine ⟨⟨fun he => ?_, fun u hu => ?_⟩, ⟨fun he => ?_, fun u hu => ?_⟩⟩
    · have he' : ts'.isEnum = true := by
        simp only [enumFast, Bool.and_eq_true] at he; exact he.1.2
      have ht := enum_tags hw.1 htr he'
      exact ⟨hp.1, by rw [names_of_tags ht]; exact hp.1, Or.inl (exactMatch_same ht hp.1)⟩
    · rw [if_pos (h1 u hu).1]
      exact CompatNamed_iff.2 fun t ht hn => (hc t ht u hu hn.symm).1
    · have he' : ts'.isEnum = true := by
        simp only [enumFast, Bool.and_eq_true] at he; exact he.1.1.2
      have ht := enum_tags hw.1 htr he'
      refine ⟨by rw [names_of_tags ht]; exact hp.1, hp.1, Or.inl (exactMatch_same ht.symm ?_)⟩
      rw [names_of_tags ht]; exact hp.1
    · rw [if_pos (h2 u hu)]
      exact CompatNamed_iff.2 fun t ht hn => (hc u hu t ht hn).2
  | .array e n _ _, t, hr, hp, hh, hw => by
    obtain ⟨e', esz, al, rfl, hr⟩ := hr
    simp only [Compat]
    exact rel_compat e e' hr hp hh.1 hw.1
  | .vector e hl, t, hr, hp, hh, hw => by
    obtain ⟨e', l, rfl, h1, h2, h3⟩ := hr
    simp only [WF] at hh hw
    obtain ⟨c1, c2⟩ := rel_compat e e' h1 hp hh.1 hw.1
    simp only [Compat]
    exact ⟨⟨c1, vecCompat_dec h2 h3 hw.2 hh.2⟩, ⟨c2, vecCompat_enc h2 h3 hw.2 hh.2⟩⟩
termination_by structural h => h
theorem relFields_compat : ∀ (hfs fs hall wall : Fields), RelFields Laid hfs fs → PlainFields hfs →
    WFFields hfs → WFFields fs → (∀ c o t, (c, o, t) ∈ hfs.toList → hall.findLast c = some (o, t)) →
    (∀ c o t, (c, o, t) ∈ fs.toList → wall.findLast c = some (o, t)) →
    CompatFields hfs wall ∧ CompatFields fs hall
  | .nil, fs, hall, wall, h, _, _, _, _, _ => by
    simp only [RelFields] at h; subst h; simp [CompatFields]
  | .cons c o t r, fs, hall, wall, h, hp, hh, hw, ha, hb => by
    obtain ⟨o', t', r', rfl, h1, h2⟩ := h
    obtain ⟨c1, c2⟩ := rel_compat t t' h1 hp.1 hh.1 hw.1
    obtain ⟨d1, d2⟩ := relFields_compat r r' hall wall h2 hp.2 hh.2 hw.2
      (fun c o t ht => ha c o t (by simp [Fields.toList, ht]))
      (fun c o t ht => hb c o t (by simp [Fields.toList, ht]))
    have e1 := ha c o t (by simp [Fields.toList])
    have e2 := hb c o' t' (by simp [Fields.toList])
    simp only [CompatFields]
    refine ⟨⟨?_, d1⟩, ⟨?_, d2⟩⟩
    · rw [e2]; exact c1
    · rw [e1]; exact c2
termination_by structural hfs => hfs
theorem relTerms_compat : ∀ (ts ts' : Terms), (∀ u ∈ ts'.toList, RelNamed Laid ts u.name u.ty) →
    PlainTerms ts → WFTerms ts → WFTerms ts' →
    ∀ t ∈ ts.toList, ∀ u ∈ ts'.toList, u.name = t.name → Compat t.ty u.ty ∧ Compat u.ty t.ty
  | .nil, ts', _, _, _, _, t, ht, _, _, _ => by simp [Terms.toList] at ht
  | .cons n g as ty r, ts', h, hp, hh, hw, t, ht, u, hu, hn => by
    simp only [Terms.toList, List.mem_cons] at ht
    rcases ht with rfl | ht
    · exact rel_compat ty u.ty ((h u hu).1 hn.symm) hp.2.1 hh.1 (terms_WF _ hw u hu)
    · exact relTerms_compat r ts' (fun u hu => (h u hu).2) hp.2.2 hh.2 hw t ht u hu hn
termination_by structural ts => ts
end

theorem prepare_rel (t : Ty) (path : Path) (hs : Sch t) (hp : Plain t) :
    Rel (fun _ => True) t (prepare t path) := by
  have h0 := rel_refl t hp hs
  unfold prepare
  have key : ∀ t1, Rel (fun _ => True) t t1 → Rel (fun _ => True) t ((findHoist t1).getD t1) := by
    intro t1 h1
    cases hf : findHoist t1 with
    | none => exact h1
    | some t2 => exact findHoist_rel t1 t2 t hf h1
  cases ho : tryOutline t path with
  | none => exact key t h0
  | some t1 => exact key t1 (tryOutline_rel _ t path t1 t ho h0)

end PJ
