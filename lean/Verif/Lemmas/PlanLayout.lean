import Verif.Spec.Schema
import Verif.Spec.Layout
import Verif.Props.C17_TagWidth
import Verif.Lemmas.SizeSim
import Verif.Lemmas.Tri
/-!
# Planned layouts
-/
namespace PJ

theorem roundUp_one (x : Nat) : roundUp x 1 = x := by
  unfold roundUp divideUp; simp

theorem layoutVec_align (esz : Nat) (l : VecL) : (layoutVec esz 1 l).align = 1 := by
  simp only [layoutVec, ite_self]

mutual
theorem layout_align : ∀ t : Ty, (layout t).align = 1
  | .int _ _ _ => by simp [layout, Ty.align]
  | .float _ _ => by simp [layout, Ty.align]
  | .unit => by simp [layout, Ty.align]
  | .struct fs _ _ => by simp [layout, Ty.align, layoutFields_align fs 0]
  | .variant ts l => by
    have h := layoutTerms_align ts
    simp only [layout, Ty.align, layoutVar]
    cases l.outline <;> simp [h]
  | .array e _ _ _ => by
    have h := layout_align e
    simp only [layout]
    exact h
  | .vector e l => by
    have h := layout_align e
    simp only [layout]
    show (layoutVec (layout e).size (layout e).align l).align = 1
    rw [h]
    exact layoutVec_align _ l
termination_by structural t => t
theorem layoutFields_align : ∀ (fs : Fields) (off : Nat), (layoutFields fs off 1).2.2 = 1
  | .nil, off => by simp [layoutFields]
  | .cons n o t r, off => by
    simp only [layoutFields, layout_align t, Nat.max_self]
    exact layoutFields_align r _
termination_by structural fs => fs
theorem layoutTerms_align : ∀ (ts : Terms), maxAlign (layoutTerms ts).toList = 1
  | .nil => by simp [layoutTerms, Terms.toList, maxAlign]
  | .cons n g as t r => by
    have := layoutTerms_align r
    simp only [maxAlign] at this
    simp [layoutTerms, Terms.toList, maxAlign, layout_align t, roundUp_one, this]
termination_by structural ts => ts
end

/-- Field layout without padding. -/
theorem layoutFields_cons (n : Comp) (o : Nat) (t : Ty) (r : Fields) (off : Nat) :
    layoutFields (.cons n o t r) off 1 =
      (.cons n off (layout t) (layoutFields r (off + (layout t).size) 1).1,
        (layoutFields r (off + (layout t).size) 1).2) := by
  simp [layoutFields, layout_align t, roundUp_one]

theorem layoutFields_size : ∀ (fs : Fields) (off : Nat), off ≤ (layoutFields fs off 1).2.1
  | .nil, off => by simp [layoutFields]
  | .cons n o t r, off => by
    rw [layoutFields_cons]
    have := layoutFields_size r (off + (layout t).size)
    simp only
    omega

theorem layoutFields_names : ∀ (fs : Fields) (off : Nat),
    (layoutFields fs off 1).1.toList.map (·.1) = fs.toList.map (·.1)
  | .nil, off => by simp [layoutFields, Fields.toList]
  | .cons n o t r, off => by
    rw [layoutFields_cons]
    simp [Fields.toList, layoutFields_names r]

theorem layoutFields_lo : ∀ (fs : Fields) (off : Nat), ∀ x ∈ (layoutFields fs off 1).1.toList,
    off ≤ x.2.1 ∧ x.2.1 + x.2.2.size ≤ (layoutFields fs off 1).2.1
  | .nil, off => by simp [layoutFields, Fields.toList]
  | .cons n o t r, off => by
    rw [layoutFields_cons]
    intro x hx
    simp only [Fields.toList, List.mem_cons] at hx
    rcases hx with rfl | hx
    · exact ⟨Nat.le_refl _, layoutFields_size r _⟩
    · have := layoutFields_lo r _ x hx
      exact ⟨by omega, this.2⟩

theorem layoutFields_disj : ∀ (fs : Fields) (off : Nat),
    (layoutFields fs off 1).1.toList.Pairwise fun x y => Disj x.2.1 x.2.2.size y.2.1 y.2.2.size
  | .nil, off => by simp [layoutFields, Fields.toList]
  | .cons n o t r, off => by
    rw [layoutFields_cons]
    simp only [Fields.toList, List.pairwise_cons]
    refine ⟨fun y hy => ?_, layoutFields_disj r _⟩
    have := (layoutFields_lo r _ y hy).1
    unfold Disj
    omega

theorem maxSize_ge (ts : List Term) : ∀ t ∈ ts, t.ty.size ≤ maxSize ts := by
  have key : ∀ (ts : List Term) (a : Nat), a ≤ ts.foldl (fun s t => max s t.ty.size) a ∧
      ∀ t ∈ ts, t.ty.size ≤ ts.foldl (fun s t => max s t.ty.size) a := by
    intro ts
    induction ts with
    | nil => intro a; simp
    | cons x xs ih =>
      intro a
      simp only [List.foldl_cons]
      obtain ⟨h1, h2⟩ := ih (max a x.ty.size)
      refine ⟨by omega, fun t ht => ?_⟩
      rcases List.mem_cons.1 ht with rfl | ht
      · omega
      · exact h2 t ht
  exact (key ts 0).2

theorem layoutTerms_toList : ∀ (ts : Terms),
    (layoutTerms ts).toList = ts.toList.map fun t => { t with ty := layout t.ty }
  | .nil => by simp [layoutTerms, Terms.toList]
  | .cons n g as t r => by simp [layoutTerms, Terms.toList, layoutTerms_toList r]

theorem layoutTerms_tags (ts : Terms) :
    (layoutTerms ts).toList.map (·.tag) = ts.toList.map (·.tag) := by
  rw [layoutTerms_toList, List.map_map]; rfl

theorem lenSize_ok (m : Nat) (h0 : 0 < m) (h : m < 2 ^ 63) :
    let k := roundUpToPowerOfTwo (divideUp (log2Ceil (m + 1)) 8)
    1 ≤ k ∧ k ≤ 8 ∧ m < 256 ^ k := by
  simp only
  have h1 := log2Ceil_spec (m + 1)
  have h2 := log2Ceil_le (m + 1) 63 (by omega)
  have h3 : 1 ≤ log2Ceil (m + 1) := by
    unfold log2Ceil
    split <;> omega
  have h4 : 1 ≤ divideUp (log2Ceil (m + 1)) 8 ∧ divideUp (log2Ceil (m + 1)) 8 ≤ 8 ∧
      log2Ceil (m + 1) ≤ 8 * divideUp (log2Ceil (m + 1)) 8 := by
    unfold divideUp
    omega
  obtain ⟨h5, h6⟩ := roundUp_small _ h4.1 h4.2.1
  refine ⟨by omega, by omega, ?_⟩
  have h7 : 2 ^ log2Ceil (m + 1) ≤ 2 ^ (8 * roundUpToPowerOfTwo (divideUp (log2Ceil (m + 1)) 8)) :=
    Nat.pow_le_pow_right (by decide) (by omega)
  rw [Nat.pow_mul] at h7
  have : (2 : Nat) ^ 8 = 256 := by decide
  rw [this] at h7
  omega

theorem layoutVec_ok (esz : Nat) (l : VecL) (he : 0 < esz) (hw : l.wireMin < 2 ^ 63)
    (hm : ∀ m, l.maxLen = some m → 0 < m ∧ m < 2 ^ 63 ∧ l.wireMin ≤ m) :
    VecLayout (layoutVec esz 1 l) esz 1 := by
  have hls : 1 ≤ (layoutVec esz 1 l).lenSize ∧ (layoutVec esz 1 l).lenSize ≤ 8 := by
    simp only [layoutVec]
    cases hx : l.maxLen with
    | none => simp
    | some m =>
      have := lenSize_ok m (hm m hx).1 (hm m hx).2.1
      exact ⟨this.1, this.2.1⟩
  have hmx : ∀ m, l.maxLen = some m → m < 256 ^ (layoutVec esz 1 l).lenSize := by
    intro m hx
    simp only [layoutVec, hx]
    exact (lenSize_ok m (hm m hx).1 (hm m hx).2.1).2.2
  have hno : l.maxLen = none → (layoutVec esz 1 l).lenSize = 8 := by
    intro hx; simp [layoutVec, hx]
  have hdef : layoutVec esz 1 l =
      { minLen := l.wireMin, maxLen := l.maxLen, wireMin := l.wireMin,
        ppl := ((layoutVec esz 1 l).lenSize + esz * l.wireMin - ((layoutVec esz 1 l).lenSize + 8)) / esz,
        lenOff := 0, lenSize := (layoutVec esz 1 l).lenSize, refOff := (layoutVec esz 1 l).lenSize,
        refSize := 8, mode := .offset, inlOff := (layoutVec esz 1 l).lenSize,
        parOff := (layoutVec esz 1 l).lenSize + 8, elemW := esz,
        size := max ((layoutVec esz 1 l).lenSize + esz * l.wireMin)
          (if ((layoutVec esz 1 l).lenSize + esz * l.wireMin - ((layoutVec esz 1 l).lenSize + 8)) / esz > 0
            then (layoutVec esz 1 l).lenSize + 8 +
              esz * (((layoutVec esz 1 l).lenSize + esz * l.wireMin - ((layoutVec esz 1 l).lenSize + 8)) / esz)
            else (layoutVec esz 1 l).lenSize + 8),
        align := 1 } := by
    simp only [layoutVec, roundUp_one]
    simp
  generalize (layoutVec esz 1 l).lenSize = k at hls hmx hno hdef
  have hppl : (k + esz * l.wireMin - (k + 8)) / esz ≤ l.wireMin := by
    have h1 : k + esz * l.wireMin - (k + 8) ≤ esz * l.wireMin := by omega
    have h2 := Nat.div_le_div_right (c := esz) h1
    rw [Nat.mul_div_cancel_left _ he] at h2
    exact h2
  rw [hdef]
  generalize hP : (k + esz * l.wireMin - (k + 8)) / esz = P at hppl
  have hPe : esz * P ≤ esz * l.wireMin - 8 := by
    rw [← hP]
    have := Nat.mul_div_le (k + esz * l.wireMin - (k + 8)) esz
    omega
  refine ⟨hls, fun m hx => ⟨(hm m hx).1, hmx m hx, (hm m hx).2.1, (hm m hx).2.2⟩, hno, hw, ?_, Nat.le_refl _,
    hppl, fun _ => ?_, fun _ => ?_, fun _ hp => ?_, Or.inl rfl⟩
  · simp only; omega
  · simp only [Nat.mul_comm l.wireMin esz]
    exact ⟨by omega, Or.inr (Or.inr (Or.inl (by omega)))⟩
  · simp only
    refine ⟨trivial, ?_, Or.inr (Or.inr (Or.inl (by omega)))⟩
    split <;> omega
  · simp only at hp ⊢
    rw [Nat.mul_comm P esz, if_pos (by omega)]
    exact ⟨by omega, Or.inr (Or.inr (Or.inl (by omega))), Or.inr (Or.inr (Or.inl (by omega)))⟩

mutual
theorem layout_WF : ∀ t : Ty, Sch t → t.planDef = true → WF (layout t)
  | .int w s _, h, _ => by simpa [layout, WF, Sch] using h
  | .float w _, h, _ => by simpa [layout, WF, Sch] using h
  | .unit, _, _ => by simp [layout, WF]
  | .struct fs _ _, h, hd => by
    simp only [Sch] at h
    simp only [Ty.planDef] at hd
    simp only [layout, WF]
    refine ⟨layoutFields_WF fs 0 h.2 hd, fun x hx => (layoutFields_lo fs 0 x hx).2, layoutFields_disj fs 0, ?_⟩
    rw [layoutFields_names]; exact h.1
  | .variant ts l, h, hd => by
    simp only [Sch] at h
    simp only [Ty.planDef, Bool.and_eq_true] at hd
    simp only [layout, WF]
    refine ⟨layoutTerms_WF ts h.2.2.2.2 hd.2, ?_⟩
    obtain ⟨h1, h2, h0, h3, _⟩ := h
    have hpos : ∃ t ∈ ts.toList.map (·.tag), t ≠ 0 := by
      obtain ⟨x, hx, hne⟩ := h0
      exact ⟨_, List.mem_map_of_mem hx, hne⟩
    obtain ⟨w, hw, hw2, hw3⟩ := C17_tag_fits_partial (ts.toList.map (·.tag))
      (fun t ht => by
        obtain ⟨x, hx, rfl⟩ := List.mem_map.1 ht
        have := h3 x hx
        omega) hpos
    have hsz := maxSize_ge (layoutTerms ts).toList
    have htag : ∀ t ∈ (layoutTerms ts).toList, t.tag < 256 ^ w ∧ t.tag < 2 ^ 63 := by
      intro t ht
      have hmem : t.tag ∈ ts.toList.map (·.tag) := by
        rw [← layoutTerms_tags]; exact List.mem_map_of_mem ht
      refine ⟨hw3 _ hmem, ?_⟩
      obtain ⟨x, hx, he⟩ := List.mem_map.1 hmem
      rw [← he]; exact h3 x hx
    have hlen : l.dflt < (layoutTerms ts).toList.length := by
      rw [layoutTerms_toList, List.length_map]; exact h1
    have htags : ((layoutTerms ts).toList.map (·.tag)).Nodup := by rw [layoutTerms_tags]; exact h2
    unfold layoutVar
    rw [layoutTerms_tags, hw]
    simp only [Option.getD_some, roundUp_one]
    split
    · exact ⟨⟨by simp only; omega, by simp only; omega⟩, htags, htag, hlen, by simp, by simp, by simp⟩
    · refine ⟨⟨by simp only; omega, by simp only; omega⟩, htags, htag, hlen, by simp, fun _ t ht => ?_,
        fun _ t ht => ?_⟩
      · have := hsz t ht
        simp only; omega
      · have := hsz t ht
        simp only [Disj]; omega
  | .array e n _ _, h, hd => by
    simp only [Sch] at h
    simp only [Ty.planDef] at hd
    simp only [layout, WF]
    refine ⟨layout_WF e h hd, ?_⟩
    rw [layout_align, roundUp_one]
    exact Nat.le_refl _
  | .vector e l, h, hd => by
    simp only [Sch] at h
    simp only [Ty.planDef, Bool.and_eq_true, bne_iff_ne, ne_eq] at hd
    simp only [layout, WF]
    refine ⟨layout_WF e h.1 hd.2, ?_⟩
    rw [layout_align]
    exact layoutVec_ok _ l (by omega) h.2.1 h.2.2
termination_by structural t => t
theorem layoutFields_WF : ∀ (fs : Fields) (off : Nat), SchFields fs → fs.planDef = true →
    WFFields (layoutFields fs off 1).1
  | .nil, off, _, _ => by simp [layoutFields, WFFields]
  | .cons n o t r, off, h, hd => by
    rw [layoutFields_cons]
    simp only [SchFields] at h
    simp only [Fields.planDef, Bool.and_eq_true] at hd
    exact ⟨layout_WF t h.1 hd.1, layoutFields_WF r _ h.2 hd.2⟩
termination_by structural fs => fs
theorem layoutTerms_WF : ∀ (ts : Terms), SchTerms ts → ts.planDef = true → WFTerms (layoutTerms ts)
  | .nil, _, _ => by simp [layoutTerms, WFTerms]
  | .cons n g as t r, h, hd => by
    simp only [SchTerms] at h
    simp only [Terms.planDef, Bool.and_eq_true] at hd
    simp only [layoutTerms]
    exact ⟨layout_WF t h.1 hd.1, layoutTerms_WF r h.2 hd.2⟩
termination_by structural ts => ts
end

mutual
theorem layout_reloc : ∀ t : Ty, (layout t).reloc
  | .int _ _ _ => by simp [layout, Ty.reloc]
  | .float _ _ => by simp [layout, Ty.reloc]
  | .unit => by simp [layout, Ty.reloc]
  | .struct fs _ _ => by simp only [layout, Ty.reloc]; exact layoutFields_reloc fs 0
  | .variant ts l => by simp only [layout, Ty.reloc]; exact layoutTerms_reloc ts
  | .array e _ _ _ => by simp only [layout, Ty.reloc]; exact layout_reloc e
  | .vector e l => by simp only [layout, Ty.reloc]; exact ⟨layout_reloc e, rfl⟩
termination_by structural t => t
theorem layoutFields_reloc : ∀ (fs : Fields) (off : Nat), (layoutFields fs off 1).1.reloc
  | .nil, off => by simp [layoutFields, Fields.reloc]
  | .cons n o t r, off => by
    rw [layoutFields_cons]; exact ⟨layout_reloc t, layoutFields_reloc r _⟩
termination_by structural fs => fs
theorem layoutTerms_reloc : ∀ (ts : Terms), (layoutTerms ts).reloc
  | .nil => by simp [layoutTerms, Terms.reloc]
  | .cons n g as t r => by
    simp only [layoutTerms]; exact ⟨layout_reloc t, layoutTerms_reloc r⟩
termination_by structural ts => ts
end

mutual
theorem layout_packed : ∀ t : Ty, (layout t).packed
  | .int _ _ _ => by simp [layout, Ty.packed]
  | .float _ _ => by simp [layout, Ty.packed]
  | .unit => by simp [layout, Ty.packed]
  | .struct fs _ _ => by simp only [layout, Ty.packed]; exact layoutFields_packed fs 0
  | .variant ts l => by simp only [layout, Ty.packed]; exact layoutTerms_packed ts
  | .array e _ _ _ => by simp only [layout, Ty.packed]; exact layout_packed e
  | .vector e l => by simp only [layout, Ty.packed]; exact ⟨layout_align e, layout_packed e⟩
termination_by structural t => t
theorem layoutFields_packed : ∀ (fs : Fields) (off : Nat), (layoutFields fs off 1).1.packed
  | .nil, off => by simp [layoutFields, Fields.packed]
  | .cons n o t r, off => by
    rw [layoutFields_cons]; exact ⟨layout_packed t, layoutFields_packed r _⟩
termination_by structural fs => fs
theorem layoutTerms_packed : ∀ (ts : Terms), (layoutTerms ts).packed
  | .nil => by simp [layoutTerms, Terms.packed]
  | .cons n g as t r => by
    simp only [layoutTerms]; exact ⟨layout_packed t, layoutTerms_packed r⟩
termination_by structural ts => ts
end

end PJ
