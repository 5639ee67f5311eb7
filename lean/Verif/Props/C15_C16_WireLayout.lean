import Verif.Lemmas.Tight
import Verif.Props.C01_RoundTrip
/-!
# C15 and C16: the wire layout
-/
namespace PJ

/-- C15, structs: in every struct of the planned type the fields follow each other without gaps from
offset 0 to the size of the struct, they do not overlap, and the alignment is 1. -/
theorem C15_structs (host : Ty) (path : Path) (p : Proto) (hp : plan host path = some p)
    (fs : Fields) (sz al : Nat) (hs : Sub (.struct fs sz al) p.head) :
    Contig fs.toList 0 sz ∧ (∀ x ∈ fs.toList, x.2.1 + x.2.2.size ≤ sz) ∧
    (fs.toList.Pairwise fun x y => x.2.1 + x.2.2.size ≤ y.2.1 ∨ y.2.1 + y.2.2.size ≤ x.2.1) ∧ al = 1 := by
  have ht : Tight (.struct fs sz al) := hs.tight (plan_tight host path p hp)
  have lo : ∀ (l : List (Comp × Nat × Ty)) (off e : Nat), Contig l off e → (off ≤ e ∧
      ∀ y ∈ l, off ≤ y.2.1 ∧ y.2.1 + y.2.2.size ≤ e) ∧
      l.Pairwise fun x y => x.2.1 + x.2.2.size ≤ y.2.1 ∨ y.2.1 + y.2.2.size ≤ x.2.1 := by
    intro l
    induction l with
    | nil => intro off e h; simp [show off = e from h]
    | cons x l ih =>
      intro off e h
      obtain ⟨h1, h2⟩ := ih _ _ h.2
      have h0 := h.1
      refine ⟨⟨by omega, fun y hy => ?_⟩, List.Pairwise.cons (fun y hy => ?_) h2⟩
      · rcases List.mem_cons.1 hy with rfl | hy
        · omega
        · have := h1.2 y hy; omega
      · have := h1.2 y hy; omega
  have h := lo _ _ _ ht.2.1
  exact ⟨ht.2.1, fun x hx => (h.1.2 x hx).2, h.2, ht.1⟩

/-- C15, variants: an inline variant consists of the payload and, right behind the longest term, the
tag; an outline variant is just its tag. -/
theorem C15_variants (host : Ty) (path : Path) (p : Proto) (hp : plan host path = some p)
    (ts : Terms) (l : VarL) (hs : Sub (.variant ts l) p.head) :
    (l.outline = false → l.tagOff + l.tagW = l.size ∧
      (∀ t ∈ ts.toList, l.termOff + t.ty.size ≤ l.tagOff) ∧
      (l.tagOff = 0 ∨ ∃ t ∈ ts.toList, l.termOff + t.ty.size = l.tagOff)) ∧
    (l.outline = true → l.tagOff = 0 ∧ l.tagW = l.size ∧ l.termAlign = 1) ∧
    l.align = 1 := by
  have ht : Tight (.variant ts l) := hs.tight (plan_tight host path p hp)
  have hmax : ∀ (l : List Term) (m : Nat), l.foldl (fun s t => max s t.ty.size) m = m ∨
      ∃ t ∈ l, t.ty.size = l.foldl (fun s t => max s t.ty.size) m := by
    intro l
    induction l with
    | nil => intro m; exact Or.inl rfl
    | cons x l ih =>
      intro m
      simp only [List.foldl_cons]
      rcases ih (max m x.ty.size) with h | ⟨t, ht, h⟩
      · rw [h]
        rcases Nat.le_total x.ty.size m with hle | hle
        · rw [Nat.max_eq_left hle]; exact Or.inl rfl
        · rw [Nat.max_eq_right hle]; exact Or.inr ⟨x, List.mem_cons_self, rfl⟩
      · exact Or.inr ⟨t, List.mem_cons_of_mem _ ht, h⟩
  refine ⟨fun ho => ?_, fun ho => ?_, ht.1⟩
  · obtain ⟨h1, h2, h3⟩ := ht.2.2.1 ho
    rw [h1, h3, h2]
    refine ⟨rfl, fun t htm => ?_, ?_⟩
    · have := maxSize_ge _ t htm; omega
    · rcases hmax ts.toList 0 with h | ⟨t, htm, h⟩
      · exact Or.inl h
      · exact Or.inr ⟨t, htm, by rw [Nat.zero_add]; exact h⟩
  · obtain ⟨h1, h2, h3⟩ := ht.2.1 ho
    exact ⟨h2, h3.symm, h1⟩

/-- C15, arrays and vectors: elements follow each other without gaps. -/
theorem C15_arrays (host : Ty) (path : Path) (p : Proto) (hp : plan host path = some p)
    (e : Ty) (n esz al : Nat) (hs : Sub (.array e n esz al) p.head) : esz = e.size ∧ al = 1 := by
  have ht : Tight (.array e n esz al) := hs.tight (plan_tight host path p hp)
  exact ⟨ht.2.1, ht.1⟩

theorem C15_vectors (host : Ty) (path : Path) (p : Proto) (hp : plan host path = some p)
    (e : Ty) (l : VecL) (hs : Sub (.vector e l) p.head) : l.elemW = e.size ∧ l.align = 1 := by
  have ht : Tight (.vector e l) := hs.tight (plan_tight host path p hp)
  exact ⟨ht.1.2.1, ht.1.1⟩

/-- C15: every alignment is one byte. -/
theorem C15_alignment (host : Ty) (path : Path) (p : Proto) (hp : plan host path = some p) (u : Ty)
    (hs : Sub u p.head) : u.align = 1 := (hs.tight (plan_tight host path p hp)).align

/-- C16: in every vector of the planned type (with a minimum length below 2^63 and, if there is a maximum
length, one that is positive, below 2^63 and not below the minimum) the length word can store every allowed
length (up to the maximum, or, without maximum, any length below 2^64); `min_length` elements fit between
the length word and the end of the vector; unless every allowed length is stored inline, the reference and
the elements of the partial payload are inside the vector, and length, reference and partial payload do
not overlap. -/
theorem C16_vectors (host : Ty) (path : Path) (p : Proto) (hp : plan host path = some p)
    (e : Ty) (l : VecL) (hs : Sub (.vector e l) p.head) (hmin : l.wireMin < 2 ^ 63)
    (hmax : ∀ m, l.maxLen = some m → 0 < m ∧ m < 2 ^ 63 ∧ l.wireMin ≤ m) :
    l.minLen = l.wireMin ∧
    (∀ n, (match l.maxLen with | some m => n ≤ m | none => n < 2 ^ 64) → n < 256 ^ l.lenSize) ∧
    (l.minLen ≠ 0 → l.lenOff + l.lenSize ≤ l.inlOff ∧ l.inlOff + l.minLen * e.size ≤ l.size) ∧
    (l.minLen = 0 ∨ l.maxLen ≠ some l.minLen →
      l.refSize = 8 ∧ l.lenOff + l.lenSize ≤ l.refOff ∧ l.refOff + 8 ≤ l.size ∧
      (l.ppl ≠ 0 → l.refOff + 8 ≤ l.parOff ∧ l.parOff + l.ppl * e.size ≤ l.size)) := by
  have ht : Tight (.vector e l) := hs.tight (plan_tight host path p hp)
  obtain ⟨⟨_, he, h0, h1, h2, h3⟩, ⟨h4, h5⟩, _⟩ := ht
  have hv := layoutVec_ok e.size l h4 hmin hmax
  rw [← h5] at hv
  have h6 : l.minLen = l.wireMin := by rw [h5]; rfl
  rw [h0, h1, h2, h3]
  rw [← he]
  refine ⟨h6, fun n hn => ?_, fun hm => ⟨by omega, ?_⟩,
    fun hc => ⟨(hv.ref hc).1, by omega, ?_, fun hp => ⟨by omega, ?_⟩⟩⟩
  · cases hx : l.maxLen with
    | none =>
      rw [hx] at hn
      rw [hv.noMax hx]
      simp only at hn; omega
    | some m =>
      rw [hx] at hn
      have := (hv.max m hx).2.1
      simp only at hn; omega
  · have := (hv.inl hm).1
    omega
  · have := (hv.ref hc).2.1
    omega
  · have := (hv.par hc hp).1
    omega

open Sample in
example : ∃ p, plan hostR pathR = some p ∧ ∀ e l, Sub (.vector e l) p.head → l.elemW = e.size := by
  obtain ⟨p, hp⟩ := C01_plan hostR pathR hostR_ok hostR_elems
  exact ⟨p, hp, fun e l h => (C15_vectors hostR pathR p hp e l h).1⟩

open Sample in
/-- A vector of at least two bytes: the two bytes are stored behind the 8 byte length. -/
example : ∃ p l, plan (.vector u8 hostL2) [] = some p ∧ p.head = .vector u8 l ∧ l.minLen = 2 ∧
    l.inlOff + l.minLen * u8.size ≤ l.size := by
  have hp : plan (.vector u8 hostL2) [] = some ⟨.vector u8 (layoutVec 1 1 hostL2), 0⟩ := rfl
  exact ⟨_, _, hp, rfl, rfl, 
    ((C16_vectors _ _ _ hp _ _ (Sub.refl _) (by decide) (by simp [layoutVec, hostL2, hostL])).2.2.1 (by decide)).2⟩

end PJ
