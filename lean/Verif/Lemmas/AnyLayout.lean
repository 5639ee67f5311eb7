import Verif.Lemmas.AnyType
/-!
# The layout of the type behind an `Any`
-/
namespace PJ

/-- 1, 2, 4 or 8. -/
def Word8 (n : Nat) : Prop := n = 1 ∨ n = 2 ∨ n = 4 ∨ n = 8

theorem Word8.any {n : Nat} (h : Word8 n) : anyWidth n = true := by
  rcases h with rfl | rfl | rfl | rfl <;> rfl

theorem Word8.max {a b : Nat} (ha : Word8 a) (hb : Word8 b) : Word8 (max a b) := by
  unfold Word8 at *; omega

theorem Word8.pos {a : Nat} (ha : Word8 a) : 0 < a := by
  unfold Word8 at *; omega

mutual
/-- Integers of 1, 2, 4 or 8 bytes. -/
def Words : Ty → Prop
  | .int w _ _ => Word8 w
  | .struct fs _ _ => WordsFields fs
  | .variant ts _ => WordsTerms ts
  | .array e _ _ _ => Words e
  | .vector e _ => Words e
  | _ => True
def WordsFields : Fields → Prop
  | .nil => True
  | .cons _ _ t r => Words t ∧ WordsFields r
def WordsTerms : Terms → Prop
  | .nil => True
  | .cons _ _ _ t r => Words t ∧ WordsTerms r
end

theorem WordsTerms_iff : ∀ {ts : Terms}, WordsTerms ts ↔ ∀ t ∈ ts.toList, Words t.ty
  | .nil => by simp [WordsTerms, Terms.toList]
  | .cons n g as t r => by simp [WordsTerms, Terms.toList, WordsTerms_iff (ts := r)]

mutual
theorem rel_words {q : VecL → Prop} : ∀ (h t : Ty), Rel q h t → Words h → Words t
  | .int _ _ _, t, hr, hw => by obtain ⟨al, rfl⟩ := hr; exact hw
  | .float _ _, t, hr, _ => by obtain ⟨al, rfl⟩ := hr; trivial
  | .unit, t, hr, _ => by simp only [Rel] at hr; subst hr; trivial
  | .struct hfs _ _, t, hr, hw => by
    obtain ⟨fs, sz, al, rfl, hr⟩ := hr
    exact relFields_words hfs fs hr hw
  | .variant hts _, t, hr, hw => by
    obtain ⟨ts, l, rfl, h1, _⟩ := hr
    refine WordsTerms_iff.2 fun u hu => ?_
    obtain ⟨x, hx, hn⟩ := hasName_iff.1 (h1 u hu).1
    exact relTerms_words hts hw u.name u.ty (h1 u hu).2 x hx hn
  | .array e _ _ _, t, hr, hw => by
    obtain ⟨e', esz, al, rfl, hr⟩ := hr
    simp only [Words] at hw ⊢
    exact rel_words e e' hr hw
  | .vector e _, t, hr, hw => by
    obtain ⟨e', l, rfl, hr, _⟩ := hr
    simp only [Words] at hw ⊢
    exact rel_words e e' hr hw
termination_by structural h => h
theorem relFields_words {q : VecL → Prop} : ∀ (hfs fs : Fields), RelFields q hfs fs → WordsFields hfs →
    WordsFields fs
  | .nil, fs, hr, _ => by simp only [RelFields] at hr; subst hr; trivial
  | .cons c o h hr', fs, hr, hw => by
    obtain ⟨o', t, r, rfl, h1, h2⟩ := hr
    exact ⟨rel_words h t h1 hw.1, relFields_words hr' r h2 hw.2⟩
termination_by structural hfs => hfs
theorem relTerms_words {q : VecL → Prop} : ∀ (hts : Terms), WordsTerms hts → ∀ (c : Comp) (t : Ty),
    RelNamed q hts c t → ∀ x ∈ hts.toList, x.name = c → Words t
  | .nil, _, _, _, _, x, hx, _ => by simp [Terms.toList] at hx
  | .cons n g as h hr, hw, c, t, hrel, x, hx, hn => by
    simp only [Terms.toList, List.mem_cons] at hx
    rcases hx with rfl | hx
    · exact rel_words h t (hrel.1 hn) hw.1
    · exact relTerms_words hr hw.2 c t hrel.2 x hx hn
termination_by structural hts => hts
end

mutual
/-- Besides, alignments of 1, 2, 4 or 8 and such tag widths. -/
def Std : Ty → Prop
  | .int w _ al => Word8 w ∧ Word8 al
  | .float _ al => Word8 al
  | .unit => True
  | .struct fs _ _ => StdFields fs
  | .variant ts l => Word8 l.tagW ∧ StdTerms ts
  | .array e _ _ _ => Std e
  | .vector e _ => Std e
def StdFields : Fields → Prop
  | .nil => True
  | .cons _ _ t r => Std t ∧ StdFields r
def StdTerms : Terms → Prop
  | .nil => True
  | .cons _ _ _ t r => Std t ∧ StdTerms r
end

mutual
theorem layout_std : ∀ t : Ty, Sch t → Words t → Std (layout t)
  | .int _ _ _, _, hw => ⟨hw, Or.inl rfl⟩
  | .float _ _, _, _ => Or.inl rfl
  | .unit, _, _ => trivial
  | .struct fs _ _, hs, hw => layoutFields_std fs 0 1 hs.2 hw
  | .variant ts l, hs, hw => by
    simp only [Sch] at hs
    obtain ⟨h1, h2, ⟨t0, ht0, hne⟩, h4, h5⟩ := hs
    refine ⟨?_, layoutTerms_std ts h5 hw⟩
    obtain ⟨w, e1, e2, _⟩ := C17_tag_fits_partial (ts.toList.map (·.tag))
      (fun x hx => by
        obtain ⟨t, ht, rfl⟩ := List.mem_map.1 hx
        have := h4 t ht
        omega)
      ⟨t0.tag, List.mem_map.2 ⟨t0, ht0, rfl⟩, hne⟩
    have htw : (layoutVar (layoutTerms ts).toList l).tagW = w := by
      unfold layoutVar
      rw [layoutTerms_tags, e1]
      cases l.outline <;> rfl
    rw [htw]
    exact e2
  | .array e _ _ _, hs, hw => by
    simp only [layout, Std]
    exact layout_std e hs hw
  | .vector e _, hs, hw => by
    simp only [layout, Std]
    exact layout_std e hs.1 hw
termination_by structural t => t
theorem layoutFields_std : ∀ (fs : Fields) (off al : Nat), SchFields fs → WordsFields fs →
    StdFields (layoutFields fs off al).1
  | .nil, _, _, _, _ => trivial
  | .cons _ _ t r, _, _, hs, hw => ⟨layout_std t hs.1 hw.1, layoutFields_std r _ _ hs.2 hw.2⟩
termination_by structural fs => fs
theorem layoutTerms_std : ∀ ts : Terms, SchTerms ts → WordsTerms ts → StdTerms (layoutTerms ts)
  | .nil, _, _ => trivial
  | .cons _ _ _ t r, hs, hw => ⟨layout_std t hs.1 hw.1, layoutTerms_std r hs.2 hw.2⟩
termination_by structural ts => ts
end

mutual
theorem setOut_std (d : Nat) : ∀ t : Ty, Std t → Std (setOut d t)
  | .variant ts l, h => by simp only [setOut]; split <;> exact h
  | .struct fs _ _, h => setOutFields_std d fs h
  | .int _ _ _, h => h
  | .float _ _, h => h
  | .unit, h => h
  | .array _ _ _ _, h => h
  | .vector _ _, h => h
termination_by structural t => t
theorem setOutFields_std (d : Nat) : ∀ fs : Fields, StdFields fs → StdFields (setOutFields d fs)
  | .nil, _ => trivial
  | .cons _ _ t r, h => ⟨setOut_std d t h.1, setOutFields_std d r h.2⟩
termination_by structural fs => fs
end

theorem plan_std (t : Ty) (path : Path) (p : Proto) (hs : Sch t) (hsm : Small t) (hp : Plain t) (hw : Words t)
    (h : plan t path = some p) : Std p.head := by
  unfold plan at h
  split at h
  · cases h
    have h1 := layout_std _ (prepare_ok t path hs hsm hp).1 (rel_words t _ (prepare_rel t path hs hp) hw)
    unfold genOffset; split
    · exact h1
    · exact setOut_std _ _ h1
  · cases h

/-! ## Alignment and layout of the reflectable type -/

theorem foldl_align {ts : List Term} : ∀ {a : Nat}, Word8 a → (∀ t ∈ ts, Word8 t.ty.align) →
    Word8 (ts.foldl (fun a t => max a t.ty.align) a) := by
  induction ts with
  | nil => intro a h _; exact h
  | cons t r ih => intro a h ht; exact ih (h.max (ht t (by simp))) fun u hu => ht u (by simp [hu])

mutual
theorem reflectable_align : ∀ t : Ty, Std t → Word8 (reflectable t).align
  | .int _ _ _, h => h.2
  | .float _ _, h => h
  | .unit, _ => Or.inl rfl
  | .struct fs _ _, h => reflectableFields_align fs 0 1 (Or.inl rfl) h
  | .variant ts l, h => by
    simp only [reflectable, Ty.align, anyVar]
    exact foldl_align (Or.inl rfl) (reflectableTerms_align ts h.2)
  | .array e _ _ _, h => by
    simp only [reflectable, Ty.align]
    exact reflectable_align e h
  | .vector e _, _ => by
    simp only [reflectable, Ty.align, anyVec]
    exact Or.inr (Or.inr (Or.inr rfl))
termination_by structural t => t
theorem reflectableFields_align : ∀ (fs : Fields) (off al : Nat), Word8 al → StdFields fs →
    Word8 (reflectableFields fs off al).2.2
  | .nil, _, _, ha, _ => ha
  | .cons _ _ t r, off, al, ha, h => by
    simp only [reflectableFields]
    exact reflectableFields_align r _ _ (ha.max (reflectable_align t h.1)) h.2
termination_by structural fs => fs
theorem reflectableTerms_align : ∀ ts : Terms, StdTerms ts → ∀ t ∈ (reflectableTerms ts).toList, Word8 t.ty.align
  | .nil, _, t, ht => by simp [reflectableTerms, Terms.toList] at ht
  | .cons _ _ _ ty r, h, t, ht => by
    simp only [reflectableTerms, Terms.toList, List.mem_cons] at ht
    rcases ht with rfl | ht
    · exact reflectable_align ty h.1
    · exact reflectableTerms_align r h.2 t ht
termination_by structural ts => ts
end

theorem roundUp_ge {x m : Nat} (h : 0 < m) : x ≤ roundUp x m := by
  unfold roundUp divideUp
  have := Nat.div_add_mod (x + m - 1) m
  have := Nat.mod_lt (x + m - 1) h
  rw [Nat.mul_comm]
  omega

theorem reflectableFields_lo : ∀ (fs : Fields) (off al : Nat), StdFields fs →
    off ≤ (reflectableFields fs off al).2.1 ∧ ∀ x ∈ (reflectableFields fs off al).1.toList,
      off ≤ x.2.1 ∧ x.2.1 + x.2.2.size ≤ (reflectableFields fs off al).2.1
  | .nil, off, _, _ => by simp [reflectableFields, Fields.toList]
  | .cons n o t r, off, al, h => by
    simp only [reflectableFields, Fields.toList, List.forall_mem_cons]
    have h1 := reflectableFields_lo r (roundUp off (reflectable t).align + (reflectable t).size)
      (max al (reflectable t).align) h.2
    have h2 : off ≤ roundUp off (reflectable t).align := roundUp_ge (reflectable_align t h.1).pos
    refine ⟨by omega, ⟨h2, h1.1⟩, fun x hx => ?_⟩
    have := h1.2 x hx
    omega

theorem reflectableFields_disj : ∀ (fs : Fields) (off al : Nat), StdFields fs →
    (reflectableFields fs off al).1.toList.Pairwise fun x y => Disj x.2.1 x.2.2.size y.2.1 y.2.2.size
  | .nil, off, _, _ => by simp [reflectableFields, Fields.toList]
  | .cons n o t r, off, al, h => by
    simp only [reflectableFields, Fields.toList, List.pairwise_cons]
    refine ⟨fun x hx => ?_, reflectableFields_disj r _ _ h.2⟩
    have := ((reflectableFields_lo r _ _ h.2).2 x hx).1
    unfold Disj; omega

theorem reflectableFields_names : ∀ (fs : Fields) (off al : Nat),
    (reflectableFields fs off al).1.toList.map (·.1) = fs.toList.map (·.1)
  | .nil, _, _ => rfl
  | .cons n o t r, off, al => by
    simp only [reflectableFields, Fields.toList, List.map_cons, reflectableFields_names r]

theorem reflectableTerms_toList : ∀ ts : Terms, (reflectableTerms ts).toList =
    ts.toList.map fun t => { t with attrs := [], ty := reflectable t.ty }
  | .nil => rfl
  | .cons _ _ _ _ r => by simp only [reflectableTerms, Terms.toList, List.map_cons, reflectableTerms_toList r]

theorem anyVar_layout (ts : List Term) (l : VarL) (g : Term → Term) (hn : ∀ t, (g t).tag = t.tag) (hl : VarLayout ts l) :
    VarLayout (ts.map g) (anyVar (ts.map g) l.dflt l.tagW) := by
  have hmax := maxSize_ge (ts.map g)
  unfold maxSize at hmax
  have htags : (ts.map g).map (·.tag) = ts.map (·.tag) := by
    rw [List.map_map]; exact List.map_congr_left fun t _ => hn t
  refine ⟨hl.tagW, by rw [htags]; exact hl.tags, fun t ht => ?_, by simpa [anyVar] using hl.dflt, ?_, fun _ t ht => ?_, fun _ t ht => ?_⟩
  · obtain ⟨u, hu, rfl⟩ := List.mem_map.1 ht
    rw [hn]
    exact hl.tagLt u hu
  · simp [anyVar]
  · have := hmax t ht
    simp only [anyVar]; omega
  · have := hmax t ht
    unfold Disj
    simp only [anyVar]; omega

mutual
theorem reflectable_wf : ∀ t : Ty, Std t → WF t → WF (reflectable t)
  | .int _ _ _, _, h => h
  | .float _ _, _, h => h
  | .unit, _, h => h
  | .struct fs _ _, hs, h => by
    have hlo := reflectableFields_lo fs 0 1 hs
    exact ⟨reflectableFields_wf fs 0 1 hs h.1, ⟨fun x hx => (hlo.2 x hx).2, reflectableFields_disj fs 0 1 hs,
      by rw [reflectableFields_names]; exact h.2.names⟩⟩
  | .variant ts l, hs, h => by
    refine ⟨reflectableTerms_wf ts hs.2 h.1, ?_⟩
    rw [reflectableTerms_toList]
    exact anyVar_layout _ _ _ (fun _ => rfl) h.2
  | .array e _ _ _, hs, h => by
    simp only [reflectable, WF]
    exact ⟨reflectable_wf e hs h.1, roundUp_ge (reflectable_align e hs).pos⟩
  | .vector e l, hs, h => by
    simp only [WF] at h
    have hv := h.2
    simp only [reflectable, WF]
    refine ⟨reflectable_wf e hs h.1, ?_⟩
    have hst : (reflectable e).size ≤ roundUp (reflectable e).size (reflectable e).align :=
      roundUp_ge (reflectable_align e hs).pos
    have hal := reflectable_align e hs
    constructor
    · simp [anyVec]
    · intro m hm
      simp only [anyVec] at hm ⊢
      obtain ⟨a, _, c, _⟩ := hv.max m hm
      exact ⟨a, by omega, c, by omega⟩
    · intro _; rfl
    · simp [anyVec]
    · simp [anyVec]
    · simpa [anyVec] using hst
    · simp [anyVec]
    · intro h; simp [anyVec] at h
    · intro _; simp [anyVec, Disj]
    · intro _ h; simp [anyVec] at h
    · exact hal
termination_by structural t => t
theorem reflectableFields_wf : ∀ (fs : Fields) (off al : Nat), StdFields fs → WFFields fs →
    WFFields (reflectableFields fs off al).1
  | .nil, _, _, _, _ => trivial
  | .cons _ _ t r, _, _, hs, h => ⟨reflectable_wf t hs.1 h.1, reflectableFields_wf r _ _ hs.2 h.2⟩
termination_by structural fs => fs
theorem reflectableTerms_wf : ∀ ts : Terms, StdTerms ts → WFTerms ts → WFTerms (reflectableTerms ts)
  | .nil, _, _ => trivial
  | .cons _ _ _ t r, hs, h => ⟨reflectable_wf t hs.1 h.1, reflectableTerms_wf r hs.2 h.2⟩
termination_by structural ts => ts
end

mutual
theorem reflectable_noOut : ∀ t : Ty, (reflectable t).noOut
  | .int _ _ _ => trivial
  | .float _ _ => trivial
  | .unit => trivial
  | .struct fs _ _ => reflectableFields_noOut fs 0 1
  | .variant ts _ => ⟨rfl, reflectableTerms_noOut ts⟩
  | .array e _ _ _ => by simp only [reflectable, Ty.noOut]; exact reflectable_noOut e
  | .vector e _ => by simp only [reflectable, Ty.noOut]; exact reflectable_noOut e
termination_by structural t => t
theorem reflectableFields_noOut : ∀ (fs : Fields) (off al : Nat), (reflectableFields fs off al).1.noOut
  | .nil, _, _ => trivial
  | .cons _ _ t r, _, _ => ⟨reflectable_noOut t, reflectableFields_noOut r _ _⟩
termination_by structural fs => fs
theorem reflectableTerms_noOut : ∀ ts : Terms, (reflectableTerms ts).noOut
  | .nil => trivial
  | .cons _ _ _ t r => ⟨reflectable_noOut t, reflectableTerms_noOut r⟩
termination_by structural ts => ts
end

mutual
theorem reflectable_noAttrs : ∀ t : Ty, NoAttrs (reflectable t)
  | .int _ _ _ => trivial
  | .float _ _ => trivial
  | .unit => trivial
  | .struct fs _ _ => reflectableFields_noAttrs fs 0 1
  | .variant ts _ => reflectableTerms_noAttrs ts
  | .array e _ _ _ => by simp only [reflectable, NoAttrs]; exact reflectable_noAttrs e
  | .vector e _ => by simp only [reflectable, NoAttrs]; exact reflectable_noAttrs e
termination_by structural t => t
theorem reflectableFields_noAttrs : ∀ (fs : Fields) (off al : Nat), NoAttrsFields (reflectableFields fs off al).1
  | .nil, _, _ => trivial
  | .cons _ _ t r, _, _ => ⟨reflectable_noAttrs t, reflectableFields_noAttrs r _ _⟩
termination_by structural fs => fs
theorem reflectableTerms_noAttrs : ∀ ts : Terms, NoAttrsTerms (reflectableTerms ts)
  | .nil => trivial
  | .cons _ _ _ t r => ⟨rfl, reflectable_noAttrs t, reflectableTerms_noAttrs r⟩
termination_by structural ts => ts
end

/-! ## Reading -/

mutual
/-- What `any.hpp` can read. -/
def Dyn : Ty → Prop
  | .int w _ _ => Word8 w
  | .struct fs _ _ => DynFields fs
  | .variant ts l => l.outline = false ∧ Word8 l.tagW ∧ DynTerms ts
  | .array e _ _ _ => Dyn e
  | .vector e l => l.mode = .pointer ∧ l.lenSize = 8 ∧ l.refSize = 8 ∧ l.minLen = 0 ∧ l.ppl = 0 ∧ l.maxLen ≠ some 0 ∧
    Dyn e
  | _ => True
def DynFields : Fields → Prop
  | .nil => True
  | .cons _ _ t r => Dyn t ∧ DynFields r
def DynTerms : Terms → Prop
  | .nil => True
  | .cons _ _ _ t r => Dyn t ∧ DynTerms r
end

mutual
theorem reflectable_dyn : ∀ t : Ty, Std t → WF t → Dyn (reflectable t)
  | .int _ _ _, h, _ => h.1
  | .float _ _, _, _ => trivial
  | .unit, _, _ => trivial
  | .struct fs _ _, h, hw => reflectableFields_dyn fs 0 1 h hw.1
  | .variant ts _, h, hw => ⟨rfl, h.1, reflectableTerms_dyn ts h.2 hw.1⟩
  | .array e _ _ _, h, hw => by simp only [reflectable, Dyn]; exact reflectable_dyn e h hw.1
  | .vector e l, h, hw =>
    ⟨rfl, rfl, rfl, rfl, rfl, fun h0 => absurd (hw.2.max 0 h0).1 (Nat.lt_irrefl 0), reflectable_dyn e h hw.1⟩
termination_by structural t => t
theorem reflectableFields_dyn : ∀ (fs : Fields) (off al : Nat), StdFields fs → WFFields fs →
    DynFields (reflectableFields fs off al).1
  | .nil, _, _, _, _ => trivial
  | .cons _ _ t r, _, _, h, hw => ⟨reflectable_dyn t h.1 hw.1, reflectableFields_dyn r _ _ h.2 hw.2⟩
termination_by structural fs => fs
theorem reflectableTerms_dyn : ∀ ts : Terms, StdTerms ts → WFTerms ts → DynTerms (reflectableTerms ts)
  | .nil, _, _ => trivial
  | .cons _ _ _ t r, h, hw => ⟨reflectable_dyn t h.1 hw.1, reflectableTerms_dyn r h.2 hw.2⟩
termination_by structural ts => ts
end

theorem collect_map {α β} {f : Nat → Option α} {g : Nat → Option β} {k : α → Option β}
    (h : ∀ i x, f i = some x → g i = k x) : ∀ (n i : Nat) (l : List α), collect f i n = some l →
    collect g i n = mapAll k l
  | 0, i, l, hc => by simp only [collect, Option.some.injEq] at hc; subst hc; rfl
  | n + 1, i, l, hc => by
    simp only [collect] at hc
    split at hc
    · rename_i x xs hx hxs
      cases hc
      simp only [collect, mapAll, h i x hx, collect_map h n (i + 1) xs hxs]
    · cases hc

mutual
/-- Reading through `any.hpp` shows the value. -/
theorem anyTy_view (m : Mem) : ∀ (t : Ty) (a : Nat) (v : Val), Dyn t → Plain t → readVal m t a = some v →
    anyTy m t a = view t v
  | .int w s _, a, v, hd, _, h => by
    simp only [readVal, Option.some.injEq] at h
    subst h
    have hd : Word8 w := hd
    simp only [anyTy, hd.any, if_true, view]
  | .float w _, a, v, _, _, h => by
    simp only [readVal, Option.some.injEq] at h
    subst h
    simp only [anyTy, view, if_true]
  | .unit, a, v, _, _, h => by
    simp only [readVal, Option.some.injEq] at h
    subst h
    simp only [anyTy, view]
  | .struct fs _ _, a, v, hd, hp, h => by
    simp only [readVal] at h
    split at h
    · rename_i vs hvs
      cases h
      simp only [anyTy, view, anyFields_view m fs a vs hd hp hvs]
      rfl
    · cases h
  | .variant ts l, a, v, hd, hp, h => by
    simp only [readVal] at h
    simp only [Dyn] at hd
    simp only [Plain] at hp
    simp only [anyTy, hd.1, hd.2.1.any, if_true, Bool.false_eq_true, if_false]
    obtain ⟨t, ht, _, p, _, rfl⟩ := readTerm_some h
    simp only [view]
    exact anyTerm_view m ts.enum ts _ _ t.name p hd.2.2 hp.1 hp.2 h
  | .array e n esz _, a, v, hd, hp, h => by
    simp only [readVal] at h
    split at h
    · rename_i vs hvs
      cases h
      simp only [Plain] at hp
      have := collect_map (g := fun i => anyTy m e (a + i * esz)) (fun i x hx => anyTy_view m e _ x hd hp hx) n 0 vs hvs
      simp only [anyTy, view, this]
      rfl
    · cases h
  | .vector e l, a, v, hd, hp, h => by
    simp only [Dyn] at hd
    obtain ⟨d1, d2, d3, d4, d5, d7, d6⟩ := hd
    simp only [Plain] at hp
    simp only [readVal] at h
    split at h
    · cases h
    · rename_i n hn
      split at h
      · split at h
        · rename_i vs hvs
          cases h
          have hg : ∀ i, vecElemAddr m l a n i = readN m (a + l.refOff) l.refSize + i * l.elemW := by
            intro i
            simp [vecElemAddr, VecL.isInl, d4, d5, refStart, d1, elemAt]
          have := collect_map (g := fun i => anyTy m e (readN m (a + l.refOff) l.refSize + i * l.elemW))
            (fun i x hx => anyTy_view m e _ x d6 hp (by rw [← hg]; exact hx)) n 0 vs hvs
          have hlen : readN m (a + l.lenOff) l.lenSize = n := by
            unfold lengthOp at hn
            split at hn
            · split at hn
              · cases hn
              · exact Option.some.inj hn
            · rename_i k hk
              split at hn
              · rename_i h0; subst h0; exact absurd hk d7
              · split at hn
                · cases hn
                · split at hn
                  · exact Option.some.inj hn
                  · cases hn
          have hc : (anyWidth l.lenSize && anyWidth l.refSize && l.mode == .pointer && l.minLen == 0 &&
              l.ppl == 0) = true := by
            rw [d1, d2, d3, d4, d5]; rfl
          simp only [anyTy, view, hc, if_true, hlen, this]
          rfl
        · cases h
      · cases h
termination_by structural t => t
theorem anyFields_view (m : Mem) : ∀ (fs : Fields) (a : Nat) (vs : List (Comp × Val)), DynFields fs → PlainFields fs →
    readFields m fs a = some vs → anyTyFields m fs a = viewFields fs vs
  | .nil, a, vs, _, _, h => by
    simp only [readFields, Option.some.injEq] at h
    subst h
    simp only [anyTyFields, viewFields]
  | .cons c o t r, a, vs, hd, hp, h => by
    simp only [readFields] at h
    split at h
    · rename_i v rest hv hr
      cases h
      simp only [anyTyFields, viewFields, if_true, anyTy_view m t _ v hd.1 hp.1 hv, anyFields_view m r a rest hd.2 hp.2 hr]
      rfl
    · cases h
termination_by structural fs => fs
theorem anyTerm_view (m : Mem) : ∀ (enum : Bool) (ts : Terms) (raw a : Nat) (c : Comp) (p : Val), DynTerms ts →
    (ts.toList.map (·.name)).Nodup → PlainTerms ts → readTerm m ts raw a = some (.variant c p) →
    anyTyTerm m enum ts raw a = viewTerm enum ts c p
  | _, .nil, raw, a, c, p, _, _, _, h => by simp [readTerm] at h
  | enum, .cons n g as t r, raw, a, c, p, hd, hn, hp, h => by
    simp only [Terms.toList, List.map_cons, List.nodup_cons] at hn
    simp only [readTerm] at h
    simp only [anyTyTerm, viewTerm]
    by_cases hg : g = raw
    · simp only [if_pos hg] at h ⊢
      split at h
      · rename_i v hv
        cases h
        simp only [if_true, anyTy_view m t a p hd.1 hp.2.1 hv]
        subst hg
        rfl
      · cases h
    · simp only [if_neg hg] at h ⊢
      obtain ⟨u, hu, _, q, _, he⟩ := readTerm_some h
      cases he
      have : n ≠ u.name := fun he => hn.1 (by rw [he]; exact List.mem_map.2 ⟨u, hu, rfl⟩)
      rw [if_neg this]
      exact anyTerm_view m enum r raw a u.name p hd.2 hn.2 hp.2.2 h
termination_by structural _ ts => ts
end

end PJ
