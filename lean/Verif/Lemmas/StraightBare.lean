import Verif.Lemmas.StraightOrder
/-!
# The instructions of straight-line code
-/
namespace PJ

/-! ## Each instruction -/

/-- What the instructions of lowered code are. -/
inductive LInst (A : Aliasing) (sa da N M : Nat) : Inst → Prop
  | poison (d n : Nat) (h : d + n ≤ M) : LInst A sa da N M (.copy ⟨none, 1, 0, d, n⟩)
  | copy (s d n : Nat) (h : s + n ≤ N) (h' : d + n ≤ M) : LInst A sa da N M (.loadStore ⟨some 0, 1, s, d, n⟩ [])
  | conv (f : Nat → Nat) (s l d n : Nat) (h : s + l ≤ N) (h' : d + n ≤ M) :
    LInst A sa da N M (.other (convOp A f (sa + s) l (da + d) n))

theorem LeafBlock.pieces {A : Aliasing} {sa da N M d n : Nat} {is : List Inst} (h : LeafBlock A sa da N d n is)
    (hn : d + n ≤ M) : ∀ i ∈ is, LInst A sa da N M i := by
  intro i hi
  cases h with
  | nil => simp at hi
  | copy s h0 h =>
    simp only [List.mem_singleton] at hi
    subst hi
    exact .copy s d n h hn
  | conv f s l h =>
    simp only [List.mem_singleton] at hi
    subst hi
    exact .conv f s l d n h hn

theorem LeafBlock.bare {A : Aliasing} {sa da N d n : Nat} {is : List Inst} (h : LeafBlock A sa da N d n is) :
    unpoisoned is = is := by
  cases h <;> simp [unpoisoned, Inst.isPoison]

section
variable {A : Aliasing} {sa N da M : Nat}

mutual
theorem lowerDflt_pieces : ∀ (t : Ty) (d : Nat) (is : List Inst), lowerDflt A sa da t d = some is → WF t →
    d + t.size ≤ M → ∀ i ∈ is, LInst A sa da N M i
  | .struct dfs dsz dal, d, is, h, hw, hn => by
    simp only [lowerDflt, Option.map_eq_some_iff] at h
    obtain ⟨x, hx, rfl⟩ := h
    simp only [WF] at hw
    simp only [Ty.size] at hn
    intro i hi
    rcases List.mem_cons.1 hi with rfl | hi
    · exact .poison d dsz hn
    · refine lowerDfltFields_pieces dfs d x hx hw.1 (fun y hy => ?_) i hi
      have := hw.2.inside y hy
      omega
  | .unit, d, is, h, _, hn => (lowerDflt_leaf h rfl).leaf.pieces hn
  | .int _ _ _, d, is, h, _, hn => (lowerDflt_leaf h rfl).leaf.pieces hn
  | .float _ _, d, is, h, _, hn => (lowerDflt_leaf h rfl).leaf.pieces hn
  | .variant _ _, _, _, h, _, _ => by simp [lowerDflt] at h
  | .array _ _ _ _, _, _, h, _, _ => by simp [lowerDflt] at h
  | .vector _ _, _, _, h, _, _ => by simp [lowerDflt] at h
theorem lowerDfltFields_pieces : ∀ (fs : Fields) (d : Nat) (is : List Inst), lowerDfltFields A sa da fs d = some is →
    WFFields fs → (∀ x ∈ fs.toList, d + x.2.1 + x.2.2.size ≤ M) → ∀ i ∈ is, LInst A sa da N M i
  | .nil, d, is, h, _, _ => by
    simp only [lowerDfltFields, Option.some.injEq] at h
    subst h
    simp
  | .cons c o t r, d, is, h, hw, hn => by
    simp only [lowerDfltFields, Option.bind_eq_some_iff, Option.map_eq_some_iff] at h
    obtain ⟨x, hx, y, hy, rfl⟩ := h
    simp only [WFFields] at hw
    simp only [Fields.toList, List.forall_mem_cons] at hn
    intro i hi
    rcases List.mem_append.1 hi with hi | hi
    · exact lowerDflt_pieces t (d + o) x hx hw.1 hn.1 i hi
    · exact lowerDfltFields_pieces r d y hy hw.2 hn.2 i hi
end

mutual
theorem lower_pieces {F : Nat → Nat → Nat → Nat} : ∀ (t src : Ty) (s d : Nat) (is : List Inst),
    lower F A sa da t src s d = some is → WF t → WF src → s + src.size ≤ N → d + t.size ≤ M →
    ∀ i ∈ is, LInst A sa da N M i
  | .struct dfs dsz dal, src, s, d, is, h, hw, hw', hs, hn => by
    cases src with
    | unit =>
      simp only [lower] at h
      exact lowerDflt_pieces _ d is h hw hn
    | struct sfs ssz sal =>
      simp only [lower, Option.map_eq_some_iff] at h
      obtain ⟨x, hx, rfl⟩ := h
      simp only [WF] at hw hw'
      simp only [Ty.size] at hs hn
      intro i hi
      rcases List.mem_cons.1 hi with rfl | hi
      · exact .poison d dsz hn
      · refine lowerFields_pieces dfs sfs s d x hx hw.1 hw'.1 (fun c so sty hf => ?_) (fun y hy => ?_) i hi
        · have := hw'.2.inside (c, so, sty) (mem_findLast hf)
          simp only at this
          omega
        · have := hw.2.inside y hy
          omega
    | _ => simp [lower] at h
  | .unit, src, s, d, is, h, _, _, hs, hn => (lower_leaf h rfl hs).pieces hn
  | .int _ _ _, src, s, d, is, h, _, _, hs, hn => (lower_leaf h rfl hs).pieces hn
  | .float _ _, src, s, d, is, h, _, _, hs, hn => (lower_leaf h rfl hs).pieces hn
  | .variant _ _, _, _, _, _, h, _, _, _, _ => by simp [lower] at h
  | .array _ _ _ _, _, _, _, _, h, _, _, _, _ => by simp [lower] at h
  | .vector _ _, _, _, _, _, h, _, _, _, _ => by simp [lower] at h
theorem lowerFields_pieces {F : Nat → Nat → Nat → Nat} : ∀ (fs sfs : Fields) (s d : Nat) (is : List Inst),
    lowerFields F A sa da fs sfs s d = some is → WFFields fs → WFFields sfs →
    (∀ c so sty, sfs.findLast c = some (so, sty) → s + so + sty.size ≤ N) →
    (∀ x ∈ fs.toList, d + x.2.1 + x.2.2.size ≤ M) → ∀ i ∈ is, LInst A sa da N M i
  | .nil, sfs, s, d, is, h, _, _, _, _ => by
    simp only [lowerFields, Option.some.injEq] at h
    subst h
    simp
  | .cons c o t r, sfs, s, d, is, h, hw, hw', hs, hn => by
    simp only [lowerFields, Option.bind_eq_some_iff, Option.map_eq_some_iff] at h
    obtain ⟨x, hx, y, hy, rfl⟩ := h
    simp only [WFFields] at hw
    simp only [Fields.toList, List.forall_mem_cons] at hn
    intro i hi
    rcases List.mem_append.1 hi with hi | hi
    · cases hf : sfs.findLast c with
      | none =>
        rw [hf] at hx
        exact lowerDflt_pieces t (d + o) x hx hw.1 hn.1 i hi
      | some q =>
        obtain ⟨so, sty⟩ := q
        rw [hf] at hx
        exact lower_pieces t sty (s + so) (d + o) x hx hw.1 (findLast_WF sfs c so sty hw' hf) (hs c so sty hf) hn.1 i hi
    · exact lowerFields_pieces r sfs s d y hy hw.2 hw' hs hn.2 i hi
end

/-! ## Without the poisons -/

theorem LInst.mono (hA : A.Sound sa N da M) {i : Inst} (h : LInst A sa da N M i) {m m' : UMem} (hm : Refines m' m) :
    Refines (i.exec (rootsAt sa da) m') (i.exec (rootsAt sa da) m) := by
  cases h with
  | poison d n h => exact CCopy.exec_mono _ _ hm
  | copy s d n h h' => exact CCopy.exec_mono (rootsAt sa da) ⟨some 0, 1, s, d, n⟩ hm
  | conv f s l d n h h' =>
    exact (convOp_ok hA f (sa + s) l (da + d) n (by omega) (by omega) (by omega) (by omega)).mono m m' hm

/-- The bytes that the poisons make undefined are the only difference. -/
theorem bare_refines (hA : A.Sound sa N da M) : ∀ (is : List Inst) (m m' : UMem),
    (∀ i ∈ is, LInst A sa da N M i) → Refines m' m →
    Refines (runBlock (rootsAt sa da) (unpoisoned is) m') (runBlock (rootsAt sa da) is m)
  | [], m, m', _, hm => hm
  | i :: is, m, m', hp, hm => by
    have ih := fun m m' => bare_refines hA is m m' fun i hi => hp i (by simp [hi])
    have hi := hp i (by simp)
    rw [runBlock_cons]
    cases hb : i.isPoison with
    | true =>
      have e : unpoisoned (i :: is) = unpoisoned is := by simp [unpoisoned, hb]
      rw [e]
      refine ih _ _ ?_
      cases hi with
      | poison d n h =>
        intro a
        simp only [Inst.exec, CCopy.exec]
        split
        · exact .inl rfl
        · exact hm a
      | copy => simp [Inst.isPoison] at hb
      | conv => simp [Inst.isPoison] at hb
    | false =>
      have e : unpoisoned (i :: is) = i :: unpoisoned is := by simp [unpoisoned, hb]
      rw [e, runBlock_cons]
      exact ih _ _ (hi.mono hA hm)

mutual
theorem bareDflt (hA : A.Sound sa N da M) (hd : Disj sa N da M) : ∀ (t : Ty) (d : Nat) (is : List Inst),
    lowerDflt A sa da t d = some is → WF t → d + t.size ≤ M →
    ∀ (seen : List CCopy) (U U' : Nat → Prop) (rest : List Inst), Clear N M U seen →
    (∀ y, d ≤ y → y < d + t.size → U y) → (∀ y, U' y → U y ∧ ¬ (d ≤ y ∧ y < d + t.size)) →
    (∀ seen', Clear N M U' seen' → FlushOK (rootsAt sa da) (askIn N M) false seen' rest) →
    FlushOK (rootsAt sa da) (askIn N M) false seen (unpoisoned is ++ rest)
  | .struct dfs dsz dal, d, is, h, hw, hn, seen, U, U', rest, hc, hu, hu', hr => by
    simp only [lowerDflt, Option.map_eq_some_iff] at h
    obtain ⟨x, hx, rfl⟩ := h
    simp only [WF] at hw
    simp only [Ty.size] at hn hu hu'
    have e : unpoisoned (.copy ⟨none, 1, 0, d, dsz⟩ :: x) = unpoisoned x := by simp [unpoisoned, Inst.isPoison]
    rw [e]
    refine bareDfltFields hA hd dfs d x hx hw.1 hw.2.disj ?_ seen U U' rest hc ?_ ?_ hr
    · intro y hy
      have := hw.2.inside y hy
      omega
    · intro y hy z h1 h2
      have := hw.2.inside y hy
      exact hu z (by omega) (by omega)
    · intro y hy
      refine ⟨(hu' y hy).1, fun z hz h => (hu' y hy).2 ?_⟩
      have := hw.2.inside z hz
      omega
  | .unit, d, is, h, _, hn, seen, U, U', rest, hc, hu, hu', hr => by
    have := (lowerDflt_leaf (N := N) h rfl).leaf
    rw [this.bare]
    exact leafN hA hd this hn hc hu hu' hr
  | .int _ _ _, d, is, h, _, hn, seen, U, U', rest, hc, hu, hu', hr => by
    have := (lowerDflt_leaf (N := N) h rfl).leaf
    rw [this.bare]
    exact leafN hA hd this hn hc hu hu' hr
  | .float _ _, d, is, h, _, hn, seen, U, U', rest, hc, hu, hu', hr => by
    have := (lowerDflt_leaf (N := N) h rfl).leaf
    rw [this.bare]
    exact leafN hA hd this hn hc hu hu' hr
  | .variant _ _, _, _, h, _, _, _, _, _, _, _, _, _, _ => by simp [lowerDflt] at h
  | .array _ _ _ _, _, _, h, _, _, _, _, _, _, _, _, _, _ => by simp [lowerDflt] at h
  | .vector _ _, _, _, h, _, _, _, _, _, _, _, _, _, _ => by simp [lowerDflt] at h
theorem bareDfltFields (hA : A.Sound sa N da M) (hd : Disj sa N da M) : ∀ (fs : Fields) (d : Nat) (is : List Inst),
    lowerDfltFields A sa da fs d = some is → WFFields fs →
    (fs.toList.Pairwise fun x y => Disj x.2.1 x.2.2.size y.2.1 y.2.2.size) →
    (∀ x ∈ fs.toList, d + x.2.1 + x.2.2.size ≤ M) →
    ∀ (seen : List CCopy) (U U' : Nat → Prop) (rest : List Inst), Clear N M U seen →
    (∀ x ∈ fs.toList, ∀ y, d + x.2.1 ≤ y → y < d + x.2.1 + x.2.2.size → U y) →
    (∀ y, U' y → U y ∧ ∀ x ∈ fs.toList, ¬ (d + x.2.1 ≤ y ∧ y < d + x.2.1 + x.2.2.size)) →
    (∀ seen', Clear N M U' seen' → FlushOK (rootsAt sa da) (askIn N M) false seen' rest) →
    FlushOK (rootsAt sa da) (askIn N M) false seen (unpoisoned is ++ rest)
  | .nil, d, is, h, _, _, _, seen, U, U', rest, hc, _, hu', hr => by
    simp only [lowerDfltFields, Option.some.injEq] at h
    subst h
    exact hr seen (hc.sub fun y hy => (hu' y hy).1)
  | .cons c o t r, d, is, h, hw, hl, hn, seen, U, U', rest, hc, hu, hu', hr => by
    simp only [lowerDfltFields, Option.bind_eq_some_iff, Option.map_eq_some_iff] at h
    obtain ⟨x, hx, y, hy, rfl⟩ := h
    obtain ⟨g1, g2, g3⟩ := fields_step hl hu hu'
    simp only [WFFields] at hw
    simp only [Fields.toList, List.forall_mem_cons, List.pairwise_cons] at hl hn
    rw [show unpoisoned (x ++ y) = unpoisoned x ++ unpoisoned y by simp [unpoisoned], List.append_assoc]
    exact bareDflt hA hd t (d + o) x hx hw.1 hn.1 seen U _ _ hc g1 (fun y hy => hy) fun seen' hc' =>
      bareDfltFields hA hd r d y hy hw.2 hl.2 hn.2 seen' _ U' rest hc' g2 g3 hr
end

mutual
theorem bareN {F : Nat → Nat → Nat → Nat} (hA : A.Sound sa N da M) (hd : Disj sa N da M) : ∀ (t src : Ty)
    (s d : Nat) (is : List Inst), lower F A sa da t src s d = some is → WF t → WF src →
    s + src.size ≤ N → d + t.size ≤ M →
    ∀ (seen : List CCopy) (U U' : Nat → Prop) (rest : List Inst), Clear N M U seen →
    (∀ y, d ≤ y → y < d + t.size → U y) → (∀ y, U' y → U y ∧ ¬ (d ≤ y ∧ y < d + t.size)) →
    (∀ seen', Clear N M U' seen' → FlushOK (rootsAt sa da) (askIn N M) false seen' rest) →
    FlushOK (rootsAt sa da) (askIn N M) false seen (unpoisoned is ++ rest)
  | .struct dfs dsz dal, src, s, d, is, h, hw, hw', hs, hn, seen, U, U', rest, hc, hu, hu', hr => by
    cases src with
    | unit =>
      simp only [lower] at h
      exact bareDflt hA hd _ d is h hw hn seen U U' rest hc hu hu' hr
    | struct sfs ssz sal =>
      simp only [lower, Option.map_eq_some_iff] at h
      obtain ⟨x, hx, rfl⟩ := h
      simp only [WF] at hw hw'
      simp only [Ty.size] at hs hn hu hu'
      have e : unpoisoned (.copy ⟨none, 1, 0, d, dsz⟩ :: x) = unpoisoned x := by simp [unpoisoned, Inst.isPoison]
      rw [e]
      refine bareNFields hA hd dfs sfs s d x hx hw.1 hw'.1 hw.2.disj ?_ ?_ seen U U' rest hc ?_ ?_ hr
      · intro c so sty hf
        have := hw'.2.inside (c, so, sty) (mem_findLast hf)
        simp only at this
        omega
      · intro y hy
        have := hw.2.inside y hy
        omega
      · intro y hy z h1 h2
        have := hw.2.inside y hy
        exact hu z (by omega) (by omega)
      · intro y hy
        refine ⟨(hu' y hy).1, fun z hz h => (hu' y hy).2 ?_⟩
        have := hw.2.inside z hz
        omega
    | _ => simp [lower] at h
  | .unit, src, s, d, is, h, _, _, hs, hn, seen, U, U', rest, hc, hu, hu', hr => by
    have := lower_leaf h rfl hs
    rw [this.bare]
    exact leafN hA hd this hn hc hu hu' hr
  | .int _ _ _, src, s, d, is, h, _, _, hs, hn, seen, U, U', rest, hc, hu, hu', hr => by
    have := lower_leaf h rfl hs
    rw [this.bare]
    exact leafN hA hd this hn hc hu hu' hr
  | .float _ _, src, s, d, is, h, _, _, hs, hn, seen, U, U', rest, hc, hu, hu', hr => by
    have := lower_leaf h rfl hs
    rw [this.bare]
    exact leafN hA hd this hn hc hu hu' hr
  | .variant _ _, _, _, _, _, h, _, _, _, _, _, _, _, _, _, _, _, _ => by simp [lower] at h
  | .array _ _ _ _, _, _, _, _, h, _, _, _, _, _, _, _, _, _, _, _, _ => by simp [lower] at h
  | .vector _ _, _, _, _, _, h, _, _, _, _, _, _, _, _, _, _, _, _ => by simp [lower] at h
theorem bareNFields {F : Nat → Nat → Nat → Nat} (hA : A.Sound sa N da M) (hd : Disj sa N da M) : ∀ (fs sfs : Fields)
    (s d : Nat) (is : List Inst), lowerFields F A sa da fs sfs s d = some is →
    WFFields fs → WFFields sfs → (fs.toList.Pairwise fun x y => Disj x.2.1 x.2.2.size y.2.1 y.2.2.size) →
    (∀ c so sty, sfs.findLast c = some (so, sty) → s + so + sty.size ≤ N) →
    (∀ x ∈ fs.toList, d + x.2.1 + x.2.2.size ≤ M) →
    ∀ (seen : List CCopy) (U U' : Nat → Prop) (rest : List Inst), Clear N M U seen →
    (∀ x ∈ fs.toList, ∀ y, d + x.2.1 ≤ y → y < d + x.2.1 + x.2.2.size → U y) →
    (∀ y, U' y → U y ∧ ∀ x ∈ fs.toList, ¬ (d + x.2.1 ≤ y ∧ y < d + x.2.1 + x.2.2.size)) →
    (∀ seen', Clear N M U' seen' → FlushOK (rootsAt sa da) (askIn N M) false seen' rest) →
    FlushOK (rootsAt sa da) (askIn N M) false seen (unpoisoned is ++ rest)
  | .nil, sfs, s, d, is, h, _, _, _, _, _, seen, U, U', rest, hc, _, hu', hr => by
    simp only [lowerFields, Option.some.injEq] at h
    subst h
    exact hr seen (hc.sub fun y hy => (hu' y hy).1)
  | .cons c o t r, sfs, s, d, is, h, hw, hw', hl, hs, hn, seen, U, U', rest, hc, hu, hu', hr => by
    simp only [lowerFields, Option.bind_eq_some_iff, Option.map_eq_some_iff] at h
    obtain ⟨x, hx, y, hy, rfl⟩ := h
    obtain ⟨g1, g2, g3⟩ := fields_step hl hu hu'
    simp only [WFFields] at hw
    simp only [Fields.toList, List.forall_mem_cons, List.pairwise_cons] at hl hn
    rw [show unpoisoned (x ++ y) = unpoisoned x ++ unpoisoned y by simp [unpoisoned], List.append_assoc]
    have ih : ∀ seen', Clear N M (fun y => U y ∧ ¬ (d + o ≤ y ∧ y < d + o + t.size)) seen' →
        FlushOK (rootsAt sa da) (askIn N M) false seen' (unpoisoned y ++ rest) := fun seen' hc' =>
      bareNFields hA hd r sfs s d y hy hw.2 hw' hl.2 hs hn.2 seen' _ U' rest hc' g2 g3 hr
    cases hf : sfs.findLast c with
    | none =>
      rw [hf] at hx
      exact bareDflt hA hd t (d + o) x hx hw.1 hn.1 seen U _ _ hc g1 (fun y hy => hy) ih
    | some q =>
      obtain ⟨so, sty⟩ := q
      rw [hf] at hx
      exact bareN hA hd t sty (s + so) (d + o) x hx hw.1 (findLast_WF sfs c so sty hw' hf) (hs c so sty hf) hn.1
        seen U _ _ hc g1 (fun y hy => hy) ih
end

theorem bare_flush {F : Nat → Nat → Nat → Nat} (hA : A.Sound sa N da M) (hd : Disj sa N da M) (t src : Ty)
    (is : List Inst) (h : lower F A sa da t src 0 0 = some is) (hw : WF t) (hw' : WF src)
    (hs : src.size ≤ N) (hn : t.size ≤ M) : FlushOK (rootsAt sa da) (askIn N M) false [] (unpoisoned is) := by
  have := bareN hA hd t src 0 0 is h hw hw' (by omega) (by omega) [] (fun _ => True) (fun _ => False) []
    (fun _ h => by simp at h) (fun _ _ _ => trivial) (fun _ h => h.elim) (fun _ _ => trivial)
  rwa [List.append_nil] at this

end

/-! ## Which types -/

mutual
theorem lowerDflt_straight {A : Aliasing} {sa da : Nat} : ∀ {t : Ty} {d : Nat} {is : List Inst},
    lowerDflt A sa da t d = some is → t.straight
  | .unit, _, _, _ => trivial
  | .int _ _ _, _, _, _ => trivial
  | .float _ _, _, _, _ => trivial
  | .struct fs _ _, d, _, h => by
    simp only [lowerDflt, Option.map_eq_some_iff] at h
    obtain ⟨x, hx, -⟩ := h
    simp only [Ty.straight]
    exact lowerDfltFields_straight hx
  | .variant _ _, _, _, h => by simp [lowerDflt] at h
  | .array _ _ _ _, _, _, h => by simp [lowerDflt] at h
  | .vector _ _, _, _, h => by simp [lowerDflt] at h
theorem lowerDfltFields_straight {A : Aliasing} {sa da : Nat} : ∀ {fs : Fields} {d : Nat} {is : List Inst},
    lowerDfltFields A sa da fs d = some is → fs.straight
  | .nil, _, _, _ => trivial
  | .cons _ o t r, d, _, h => by
    simp only [lowerDfltFields, Option.bind_eq_some_iff, Option.map_eq_some_iff] at h
    obtain ⟨x, hx, y, hy, -⟩ := h
    exact ⟨lowerDflt_straight hx, lowerDfltFields_straight hy⟩
end

mutual
theorem lower_straight {F : Nat → Nat → Nat → Nat} {A : Aliasing} {sa da : Nat} : ∀ {t src : Ty} {s d : Nat}
    {is : List Inst}, lower F A sa da t src s d = some is → t.straight
  | .unit, _, _, _, _, _ => trivial
  | .int _ _ _, _, _, _, _, _ => trivial
  | .float _ _, _, _, _, _, _ => trivial
  | .struct fs sz al, src, s, d, is, h => by
    cases src with
    | unit =>
      simp only [lower] at h
      exact lowerDflt_straight h
    | struct sfs ssz sal =>
      simp only [lower, Option.map_eq_some_iff] at h
      obtain ⟨x, hx, -⟩ := h
      simp only [Ty.straight]
      exact lowerFields_straight hx
    | _ => simp [lower] at h
  | .variant _ _, _, _, _, _, h => by simp [lower] at h
  | .array _ _ _ _, _, _, _, _, h => by simp [lower] at h
  | .vector _ _, _, _, _, _, h => by simp [lower] at h
theorem lowerFields_straight {F : Nat → Nat → Nat → Nat} {A : Aliasing} {sa da : Nat} : ∀ {fs sfs : Fields} {s d : Nat}
    {is : List Inst}, lowerFields F A sa da fs sfs s d = some is → fs.straight
  | .nil, _, _, _, _, _ => trivial
  | .cons c o t r, sfs, s, d, _, h => by
    simp only [lowerFields, Option.bind_eq_some_iff, Option.map_eq_some_iff] at h
    obtain ⟨x, hx, y, hy, -⟩ := h
    refine ⟨?_, lowerFields_straight hy⟩
    cases hf : sfs.findLast c with
    | none => rw [hf] at hx; exact lowerDflt_straight hx
    | some p => rw [hf] at hx; exact lower_straight hx
end

mutual
theorem straight_dflt {A : Aliasing} {sa da : Nat} : ∀ (t : Ty) (d : Nat), t.straight → WF t →
    ∃ is, lowerDflt A sa da t d = some is
  | .unit, _, _, _ => ⟨_, rfl⟩
  | .int w _ _, _, _, hw => by
    simp only [WF] at hw
    simp only [lowerDflt, if_neg (show ¬ w = 0 by omega)]
    exact ⟨_, rfl⟩
  | .float w _, _, _, hw => by
    simp only [WF] at hw
    simp only [lowerDflt, if_pos hw]
    exact ⟨_, rfl⟩
  | .struct fs _ _, d, hs, hw => by
    simp only [WF, Ty.straight] at hw hs
    obtain ⟨x, hx⟩ := straight_dfltFields (A := A) (sa := sa) (da := da) fs d hs hw.1
    simp only [lowerDflt, hx, Option.map_some]
    exact ⟨_, rfl⟩
  | .variant _ _, _, hs, _ => by simp [Ty.straight] at hs
  | .array _ _ _ _, _, hs, _ => by simp [Ty.straight] at hs
  | .vector _ _, _, hs, _ => by simp [Ty.straight] at hs
theorem straight_dfltFields {A : Aliasing} {sa da : Nat} : ∀ (fs : Fields) (d : Nat), fs.straight → WFFields fs →
    ∃ is, lowerDfltFields A sa da fs d = some is
  | .nil, _, _, _ => ⟨_, rfl⟩
  | .cons _ o t r, d, hs, hw => by
    simp only [WFFields, Fields.straight] at hw hs
    obtain ⟨x, hx⟩ := straight_dflt (A := A) (sa := sa) (da := da) t (d + o) hs.1 hw.1
    obtain ⟨y, hy⟩ := straight_dfltFields (A := A) (sa := sa) (da := da) r d hs.2 hw.2
    simp only [lowerDfltFields, hx, hy, Option.map_some, Option.bind_some]
    exact ⟨_, rfl⟩
end

mutual
theorem fin_straight : ∀ (t : Ty) (v : Val) (p : Nat), t.straight → fin t v p = p
  | .unit, _, _, _ => rfl
  | .int _ _ _, _, _, _ => rfl
  | .float _ _, _, _, _ => rfl
  | .struct fs _ _, v, p, hs => by
    simp only [Ty.straight] at hs
    cases v <;> simp only [fin]
    rw [finFields_straight fs true _ p hs, finFields_straight fs false _ p hs]
  | .variant _ _, _, _, hs => by simp [Ty.straight] at hs
  | .array _ _ _ _, _, _, hs => by simp [Ty.straight] at hs
  | .vector _ _, _, _, hs => by simp [Ty.straight] at hs
theorem finFields_straight : ∀ (fs : Fields) (out : Bool) (vs : List (Comp × Val)) (p : Nat), fs.straight →
    finFields fs out vs p = p
  | .nil, _, _, _, _ => rfl
  | .cons c _ t r, out, vs, p, hs => by
    simp only [Fields.straight] at hs
    simp only [finFields]
    rw [finFields_straight r out vs _ hs.2]
    split
    · cases vs.lookup c with
      | none => rfl
      | some v => exact fin_straight t v p hs.1
    · rfl
end

end PJ
