import Verif.Lemmas.StraightLine
import Verif.Spec.StraightLine
/-!
# Straight-line code can be coalesced
-/
namespace PJ

/-! ## Copies between source and destination -/

/-- A copy from the source to the destination, or a poison of the destination. -/
def Fine (N M : Nat) (c : CCopy) : Prop :=
  (c.src = none ∨ c.src = some 0 ∧ c.srcOff + c.len ≤ N) ∧ c.dst = 1 ∧ c.dstOff + c.len ≤ M

theorem Fine.apart {sa N da M : Nat} (hd : Disj sa N da M) {c c' : CCopy} (h : Fine N M c) (h' : Fine N M c') (a : Nat) :
    c.reads (rootsAt sa da) a → ¬ c'.writes (rootsAt sa da) a := by
  rintro ⟨r, hr, h1, h2⟩ ⟨h3, h4⟩
  obtain ⟨hs, -, -⟩ := h
  obtain ⟨-, e, he⟩ := h'
  rcases hs with hs | ⟨hs, hl⟩
  · rw [hs] at hr; simp at hr
  · rw [hs] at hr
    simp only [Option.some.injEq] at hr
    subst hr
    rw [e] at h3 h4
    simp only [rootsAt, if_true, Nat.one_ne_zero, if_false] at h1 h2 h3 h4
    unfold Disj at hd
    omega

theorem Fine.asked {N M : Nat} {c : CCopy} (h : Fine N M c) : c.Asked (askIn N M) := by
  obtain ⟨hs, e, he⟩ := h
  refine ⟨fun r hr => ?_, ?_⟩
  · rcases hs with hs | ⟨hs, hl⟩
    · rw [hs] at hr; simp at hr
    · rw [hs] at hr
      simp only [Option.some.injEq] at hr
      exact .inl ⟨hr.symm, hl⟩
  · exact .inr ⟨e, he⟩

theorem fine_all {sa N da M : Nat} (hd : Disj sa N da M) {c : CCopy} {seen : List CCopy} (hc : Fine N M c)
    (hs : ∀ x ∈ seen, Fine N M x) : ∀ c' ∈ c :: seen, ∀ a,
    (c.reads (rootsAt sa da) a → ¬ c'.writes (rootsAt sa da) a) ∧
    (c'.reads (rootsAt sa da) a → ¬ c.writes (rootsAt sa da) a) := by
  intro c' hc' a
  have : Fine N M c' := by
    rcases List.mem_cons.1 hc' with rfl | h
    · exact hc
    · exact hs c' h
  exact ⟨hc.apart hd this a, this.apart hd hc a⟩

/-- The waiting copies leave alone the bytes of the destination that are still to be stored. -/
def Clear (N M : Nat) (U : Nat → Prop) (seen : List CCopy) : Prop :=
  ∀ c ∈ seen, Fine N M c ∧ ∀ y, c.dstOff ≤ y → y < c.dstOff + c.len → ¬ U y

theorem Clear.fine {N M : Nat} {U : Nat → Prop} {seen : List CCopy} (h : Clear N M U seen) :
    ∀ x ∈ seen, Fine N M x := fun x hx => (h x hx).1

theorem Clear.sub {N M : Nat} {U U' : Nat → Prop} {seen : List CCopy} (h : Clear N M U seen)
    (hu : ∀ y, U' y → U y) : Clear N M U' seen :=
  fun c hc => ⟨(h c hc).1, fun y h1 h2 h3 => (h c hc).2 y h1 h2 (hu y h3)⟩

theorem Clear.push {N M : Nat} {U U' : Nat → Prop} {seen : List CCopy} {c : CCopy} (h : Clear N M U seen)
    (hc : Fine N M c) (hu : ∀ y, U' y → U y ∧ ¬ (c.dstOff ≤ y ∧ y < c.dstOff + c.len)) :
    Clear N M U' (waiting c seen) := by
  intro x hx
  rcases List.mem_cons.1 (waiting_sub c seen x hx) with rfl | hx
  · exact ⟨hc, fun y h1 h2 h3 => (hu y h3).2 ⟨h1, h2⟩⟩
  · exact (h.sub fun y hy => (hu y hy).1) x hx

/-! ## Leaves -/

/-- The code for something that is not a struct: nothing, a copy, or a conversion. -/
inductive LeafBlock (A : Aliasing) (sa da N d n : Nat) : List Inst → Prop
  | nil : LeafBlock A sa da N d n []
  | copy (s : Nat) (h0 : 0 < n) (h : s + n ≤ N) : LeafBlock A sa da N d n [.loadStore ⟨some 0, 1, s, d, n⟩ []]
  | conv (f : Nat → Nat) (s l : Nat) (h : s + l ≤ N) :
    LeafBlock A sa da N d n [.other (convOp A f (sa + s) l (da + d) n)]

/-- No copy. -/
inductive ConvBlock (A : Aliasing) (sa da N d n : Nat) : List Inst → Prop
  | nil : ConvBlock A sa da N d n []
  | conv (f : Nat → Nat) (s l : Nat) (h : s + l ≤ N) :
    ConvBlock A sa da N d n [.other (convOp A f (sa + s) l (da + d) n)]

theorem lowerDflt_leaf {A : Aliasing} {sa da N d : Nat} {t : Ty} {is : List Inst} (h : lowerDflt A sa da t d = some is)
    (hs : t.isStruct = false) : ConvBlock A sa da N d t.size is := by
  cases t with
  | unit =>
    simp only [lowerDflt, Option.some.injEq] at h
    subst h
    exact .nil
  | int w s al =>
    simp only [lowerDflt] at h
    split at h
    · simp at h
    · simp only [Option.some.injEq] at h
      subst h
      exact .conv (fun _ => 0) 0 0 (by omega)
  | float w al =>
    simp only [lowerDflt] at h
    split at h
    · simp only [Option.some.injEq] at h
      subst h
      exact .conv (fun _ => qNaN w) 0 0 (by omega)
    · simp at h
  | struct => simp [Ty.isStruct] at hs
  | variant => simp [lowerDflt] at h
  | array => simp [lowerDflt] at h
  | vector => simp [lowerDflt] at h

theorem ConvBlock.leaf {A : Aliasing} {sa da N d n : Nat} {is : List Inst} (h : ConvBlock A sa da N d n is) :
    LeafBlock A sa da N d n is := by
  cases h with
  | nil => exact .nil
  | conv f s l h => exact .conv f s l h

theorem lower_leaf {F : Nat → Nat → Nat → Nat} {A : Aliasing} {sa da N s d : Nat} {t src : Ty} {is : List Inst}
    (h : lower F A sa da t src s d = some is) (hs : t.isStruct = false) (hn : s + src.size ≤ N) :
    LeafBlock A sa da N d t.size is := by
  cases t with
  | unit =>
    simp only [lower, Option.some.injEq] at h
    subst h
    exact .nil
  | int dw ds dal =>
    cases src with
    | unit => simp only [lower] at h; exact (lowerDflt_leaf h rfl).leaf
    | int sw ss sal =>
      simp only [lower] at h
      simp only [Ty.size] at hn
      split at h
      · simp at h
      · split at h
        · simp only [Option.some.injEq] at h
          subst h
          refine .copy s ?_ ?_ <;> simp only [Ty.size] <;> omega
        · simp only [Option.some.injEq] at h
          subst h
          exact .conv _ s sw hn
    | _ => simp [lower] at h
  | float dw dal =>
    cases src with
    | unit => simp only [lower] at h; exact (lowerDflt_leaf h rfl).leaf
    | float sw sal =>
      simp only [lower] at h
      simp only [Ty.size] at hn
      split at h
      · split at h
        · simp only [Option.some.injEq] at h
          subst h
          refine .copy s ?_ ?_ <;> simp only [Ty.size] <;> omega
        · simp only [Option.some.injEq] at h
          subst h
          exact .conv _ s sw hn
      · simp at h
    | _ => simp [lower] at h
  | struct => simp [Ty.isStruct] at hs
  | variant => simp [lower] at h
  | array => simp [lower] at h
  | vector => simp [lower] at h

theorem lower_plain {F : Nat → Nat → Nat → Nat} {A : Aliasing} {sa da N s d : Nat} {t src : Ty} {is : List Inst}
    (h : lower F A sa da t src s d = some is) (hp : plainCopy t src = true) (hn : s + src.size ≤ N) :
    0 < t.size ∧ s + t.size ≤ N ∧ is = [.loadStore ⟨some 0, 1, s, d, t.size⟩ []] := by
  cases t with
  | int dw ds dal =>
    cases src with
    | int sw ss sal =>
      simp only [plainCopy, beq_iff_eq] at hp
      subst hp
      simp only [lower, if_true] at h
      simp only [Ty.size] at hn ⊢
      split at h
      · simp at h
      · simp only [Option.some.injEq] at h
        exact ⟨by omega, hn, h.symm⟩
    | _ => simp [plainCopy] at hp
  | float dw dal =>
    cases src with
    | float sw sal =>
      simp only [plainCopy, beq_iff_eq] at hp
      subst hp
      simp only [lower, if_true] at h
      simp only [Ty.size] at hn ⊢
      split at h
      · simp only [Option.some.injEq] at h
        exact ⟨by omega, hn, h.symm⟩
      · simp at h
    | _ => simp [plainCopy] at hp
  | _ => simp [plainCopy] at hp

section
variable {A : Aliasing} {sa N da M : Nat}

/-- A leaf while only copies of other bytes wait. -/
theorem leafN (hA : A.Sound sa N da M) (hd : Disj sa N da M) {d n : Nat} {is : List Inst}
    (h : LeafBlock A sa da N d n is) (hn : d + n ≤ M) {seen : List CCopy} {U U' : Nat → Prop} (hc : Clear N M U seen)
    (hu : ∀ y, d ≤ y → y < d + n → U y) (hu' : ∀ y, U' y → U y ∧ ¬ (d ≤ y ∧ y < d + n)) {rest : List Inst}
    (hr : ∀ seen', Clear N M U' seen' → FlushOK (rootsAt sa da) (askIn N M) false seen' rest) :
    FlushOK (rootsAt sa da) (askIn N M) false seen (is ++ rest) := by
  cases h with
  | nil => exact hr seen (hc.sub fun y hy => (hu' y hy).1)
  | copy s h0 h =>
    have hf : Fine N M ⟨some 0, 1, s, d, n⟩ := ⟨.inr ⟨rfl, h⟩, rfl, hn⟩
    exact ⟨by simp, fine_all hd hf hc.fine, by simp, hf.asked, hr _ (hc.push hf hu')⟩
  | conv f s l h =>
    refine ⟨convOp_ok hA f _ _ _ _ (by omega) (by omega) (by omega) (by omega), .inl ⟨fun c hcm a hw ho => ?_,
      hr seen (hc.sub fun y hy => (hu' y hy).1)⟩⟩
    obtain ⟨⟨-, e, -⟩, hcl⟩ := hc c hcm
    simp only [CCopy.writes, rootsAt, e, Nat.one_ne_zero, if_false] at hw
    simp only [convOp] at ho
    exact hcl (a - da) (by omega) (by omega) (hu (a - da) (by omega) (by omega))

/-- A copy while a poison of its bytes waits. -/
theorem copyH (hd : Disj sa N da M) {s d n : Nat} (h0 : 0 < n) (hs : s + n ≤ N) (hn : d + n ≤ M) {b : Bool}
    {P : CCopy} {tl : List CCopy} (hf : ∀ x ∈ P :: tl, Fine N M x)
    (hp : P.dstOff ≤ d ∧ d + n ≤ P.dstOff + P.len) {U' : Nat → Prop} (hu' : ∀ y, U' y → ¬ (d ≤ y ∧ y < d + n))
    {rest : List Inst}
    (hr : ∀ seen', Clear N M U' seen' → FlushOK (rootsAt sa da) (askIn N M) false seen' rest) :
    FlushOK (rootsAt sa da) (askIn N M) b (P :: tl) (.loadStore ⟨some 0, 1, s, d, n⟩ [] :: rest) := by
  have hc : Fine N M ⟨some 0, 1, s, d, n⟩ := ⟨.inr ⟨rfl, hs⟩, rfl, hn⟩
  have hone : waiting ⟨some 0, 1, s, d, n⟩ (P :: tl) = [⟨some 0, 1, s, d, n⟩] := by
    have ho : CCopy.over ⟨some 0, 1, s, d, n⟩ P = true := by
      simp only [CCopy.over, (hf P (by simp)).2.1, Bool.and_eq_true, decide_eq_true_eq, beq_self_eq_true, true_and]
      omega
    simp [waiting, ho]
  refine ⟨by simp, fine_all hd hc hf, fun _ => .inr hone, hc.asked, ?_⟩
  rw [hone]
  simp only [Option.isNone_some, Bool.and_false]
  refine hr _ (fun c hcm => ?_)
  simp only [List.mem_singleton] at hcm
  subst hcm
  exact ⟨hc, fun y h1 h2 h3 => hu' y h3 ⟨h1, h2⟩⟩

theorem poisonN (hd : Disj sa N da M) {d n : Nat} (hn : d + n ≤ M) {b : Bool} {seen : List CCopy}
    (hf : ∀ x ∈ seen, Fine N M x) {rest : List Inst}
    (hr : ∀ tl, (∀ x ∈ (⟨none, 1, 0, d, n⟩ : CCopy) :: tl, Fine N M x) →
      FlushOK (rootsAt sa da) (askIn N M) b (⟨none, 1, 0, d, n⟩ :: tl) rest) :
    FlushOK (rootsAt sa da) (askIn N M) b seen (.copy ⟨none, 1, 0, d, n⟩ :: rest) := by
  have hc : Fine N M ⟨none, 1, 0, d, n⟩ := ⟨.inl rfl, rfl, hn⟩
  refine ⟨fine_all hd hc hf, fun _ => .inl rfl, hc.asked, ?_⟩
  simp only [Option.isNone_none, Bool.and_true]
  refine hr _ (fun x hx => ?_)
  rcases List.mem_cons.1 (waiting_sub _ seen x hx) with rfl | hx
  · exact hc
  · exact hf x hx

/-! ## Fields -/

/-- The bytes of a field come off what is to be stored. -/
theorem fields_step {c : Comp} {o : Nat} {t : Ty} {r : Fields} {d : Nat} {U U' : Nat → Prop}
    (hl : (Fields.cons c o t r).toList.Pairwise fun x y => Disj x.2.1 x.2.2.size y.2.1 y.2.2.size)
    (hu : ∀ x ∈ (Fields.cons c o t r).toList, ∀ y, d + x.2.1 ≤ y → y < d + x.2.1 + x.2.2.size → U y)
    (hu' : ∀ y, U' y → U y ∧ ∀ x ∈ (Fields.cons c o t r).toList, ¬ (d + x.2.1 ≤ y ∧ y < d + x.2.1 + x.2.2.size)) :
    (∀ y, d + o ≤ y → y < d + o + t.size → U y) ∧
    (∀ x ∈ r.toList, ∀ y, d + x.2.1 ≤ y → y < d + x.2.1 + x.2.2.size →
      U y ∧ ¬ (d + o ≤ y ∧ y < d + o + t.size)) ∧
    (∀ y, U' y → (U y ∧ ¬ (d + o ≤ y ∧ y < d + o + t.size)) ∧
      ∀ x ∈ r.toList, ¬ (d + x.2.1 ≤ y ∧ y < d + x.2.1 + x.2.2.size)) := by
  simp only [Fields.toList, List.forall_mem_cons, List.pairwise_cons] at hl hu hu'
  refine ⟨hu.1, fun x hx y h1 h2 => ⟨hu.2 x hx y h1 h2, fun h3 => ?_⟩,
    fun y hy => ⟨⟨(hu' y hy).1, (hu' y hy).2.1⟩, (hu' y hy).2.2⟩⟩
  have := hl.1 x hx
  unfold Disj at this
  omega

mutual
/-- While only copies of other bytes wait. -/
theorem flushN {F : Nat → Nat → Nat → Nat} (hA : A.Sound sa N da M) (hd : Disj sa N da M) : ∀ (t src : Ty)
    (s d : Nat) (is : List Inst), lower F A sa da t src s d = some is → inner t src = true → WF t → WF src →
    s + src.size ≤ N → d + t.size ≤ M →
    ∀ (seen : List CCopy) (U U' : Nat → Prop) (rest : List Inst), Clear N M U seen →
    (∀ y, d ≤ y → y < d + t.size → U y) → (∀ y, U' y → U y ∧ ¬ (d ≤ y ∧ y < d + t.size)) →
    (∀ seen', Clear N M U' seen' → FlushOK (rootsAt sa da) (askIn N M) false seen' rest) →
    FlushOK (rootsAt sa da) (askIn N M) false seen (is ++ rest)
  | .struct dfs dsz dal, src, s, d, is, h, hi, hw, hw', hs, hn, seen, U, U', rest, hc, hu, hu', hr => by
    cases src with
    | struct sfs ssz sal =>
      simp only [lower, Option.map_eq_some_iff] at h
      obtain ⟨x, hx, rfl⟩ := h
      simp only [inner, Bool.and_eq_true] at hi
      simp only [WF] at hw hw'
      simp only [Ty.size] at hs hn hu hu'
      refine poisonN hd hn hc.fine (fun tl htl => ?_)
      refine flushHFields hA hd dfs sfs s d x hx hi.1 hi.2 hw.1 hw'.1 hw.2.disj ?_ ?_ false _ tl U U' rest htl ?_ ?_
        ?_ hr
      · intro c so sty hf
        have := hw'.2.inside (c, so, sty) (mem_findLast hf)
        simp only at this
        omega
      · intro y hy
        have := hw.2.inside y hy
        omega
      · intro y hy
        have := hw.2.inside y hy
        simp only
        omega
      · intro y hy z h1 h2
        have := hw.2.inside y hy
        exact hu z (by omega) (by omega)
      · intro y hy
        refine ⟨(hu' y hy).1, fun z hz h => (hu' y hy).2 ?_⟩
        have := hw.2.inside z hz
        omega
    | _ => simp [inner] at hi
  | .unit, src, s, d, is, h, _, _, _, hs, hn, seen, U, U', rest, hc, hu, hu', hr =>
    leafN hA hd (lower_leaf h rfl hs) hn hc hu hu' hr
  | .int _ _ _, src, s, d, is, h, _, _, _, hs, hn, seen, U, U', rest, hc, hu, hu', hr =>
    leafN hA hd (lower_leaf h rfl hs) hn hc hu hu' hr
  | .float _ _, src, s, d, is, h, _, _, _, hs, hn, seen, U, U', rest, hc, hu, hu', hr =>
    leafN hA hd (lower_leaf h rfl hs) hn hc hu hu' hr
  | .variant _ _, _, _, _, _, h, _, _, _, _, _, _, _, _, _, _, _, _, _ => by simp [lower] at h
  | .array _ _ _ _, _, _, _, _, h, _, _, _, _, _, _, _, _, _, _, _, _, _ => by simp [lower] at h
  | .vector _ _, _, _, _, _, h, _, _, _, _, _, _, _, _, _, _, _, _, _ => by simp [lower] at h
theorem flushNFields {F : Nat → Nat → Nat → Nat} (hA : A.Sound sa N da M) (hd : Disj sa N da M) : ∀ (fs sfs : Fields)
    (s d : Nat) (is : List Inst), lowerFields F A sa da fs sfs s d = some is → innerFields fs sfs = true →
    WFFields fs → WFFields sfs → (fs.toList.Pairwise fun x y => Disj x.2.1 x.2.2.size y.2.1 y.2.2.size) →
    (∀ c so sty, sfs.findLast c = some (so, sty) → s + so + sty.size ≤ N) →
    (∀ x ∈ fs.toList, d + x.2.1 + x.2.2.size ≤ M) →
    ∀ (seen : List CCopy) (U U' : Nat → Prop) (rest : List Inst), Clear N M U seen →
    (∀ x ∈ fs.toList, ∀ y, d + x.2.1 ≤ y → y < d + x.2.1 + x.2.2.size → U y) →
    (∀ y, U' y → U y ∧ ∀ x ∈ fs.toList, ¬ (d + x.2.1 ≤ y ∧ y < d + x.2.1 + x.2.2.size)) →
    (∀ seen', Clear N M U' seen' → FlushOK (rootsAt sa da) (askIn N M) false seen' rest) →
    FlushOK (rootsAt sa da) (askIn N M) false seen (is ++ rest)
  | .nil, sfs, s, d, is, h, _, _, _, _, _, _, seen, U, U', rest, hc, _, hu', hr => by
    simp only [lowerFields, Option.some.injEq] at h
    subst h
    exact hr seen (hc.sub fun y hy => (hu' y hy).1)
  | .cons c o t r, sfs, s, d, is, h, hi, hw, hw', hl, hs, hn, seen, U, U', rest, hc, hu, hu', hr => by
    simp only [lowerFields, Option.bind_eq_some_iff, Option.map_eq_some_iff] at h
    obtain ⟨x, hx, y, hy, rfl⟩ := h
    obtain ⟨g1, g2, g3⟩ := fields_step hl hu hu'
    simp only [WFFields] at hw
    simp only [innerFields, Bool.and_eq_true] at hi
    simp only [Fields.toList, List.forall_mem_cons, List.pairwise_cons] at hl hn
    rw [List.append_assoc]
    have ih : ∀ seen', Clear N M (fun y => U y ∧ ¬ (d + o ≤ y ∧ y < d + o + t.size)) seen' →
        FlushOK (rootsAt sa da) (askIn N M) false seen' (y ++ rest) := fun seen' hc' =>
      flushNFields hA hd r sfs s d y hy hi.2 hw.2 hw' hl.2 hs hn.2 seen' _ U' rest hc' g2 g3 hr
    cases hf : sfs.findLast c with
    | none =>
      rw [hf] at hx hi
      simp only [Bool.not_eq_true'] at hi
      exact leafN hA hd (lowerDflt_leaf hx hi.1).leaf hn.1 hc g1 (fun y hy => hy) ih
    | some q =>
      obtain ⟨so, sty⟩ := q
      rw [hf] at hx hi
      exact flushN hA hd t sty (s + so) (d + o) x hx hi.1 hw.1 (findLast_WF sfs c so sty hw' hf) (hs c so sty hf) hn.1
        seen U _ (y ++ rest) hc g1 (fun y hy => hy) ih
/-- While a poison of the bytes waits. -/
theorem flushH {F : Nat → Nat → Nat → Nat} (hA : A.Sound sa N da M) (hd : Disj sa N da M) : ∀ (t src : Ty)
    (s d : Nat) (is : List Inst), lower F A sa da t src s d = some is → starts t src = true → inner t src = true →
    WF t → WF src → s + src.size ≤ N → d + t.size ≤ M →
    ∀ (b : Bool) (P : CCopy) (tl : List CCopy) (U U' : Nat → Prop) (rest : List Inst),
    (∀ x ∈ P :: tl, Fine N M x) → P.dstOff ≤ d ∧ d + t.size ≤ P.dstOff + P.len →
    (∀ y, d ≤ y → y < d + t.size → U y) → (∀ y, U' y → U y ∧ ¬ (d ≤ y ∧ y < d + t.size)) →
    (∀ seen', Clear N M U' seen' → FlushOK (rootsAt sa da) (askIn N M) false seen' rest) →
    FlushOK (rootsAt sa da) (askIn N M) b (P :: tl) (is ++ rest)
  | .struct dfs dsz dal, src, s, d, is, h, _, hi, hw, hw', hs, hn, b, P, tl, U, U', rest, hf, hp, hu, hu', hr => by
    cases src with
    | struct sfs ssz sal =>
      simp only [lower, Option.map_eq_some_iff] at h
      obtain ⟨x, hx, rfl⟩ := h
      simp only [inner, Bool.and_eq_true] at hi
      simp only [WF] at hw hw'
      simp only [Ty.size] at hs hn hu hu'
      refine poisonN hd hn hf (fun tl htl => ?_)
      refine flushHFields hA hd dfs sfs s d x hx hi.1 hi.2 hw.1 hw'.1 hw.2.disj ?_ ?_ b _ tl U U' rest htl ?_ ?_
        ?_ hr
      · intro c so sty hf
        have := hw'.2.inside (c, so, sty) (mem_findLast hf)
        simp only at this
        omega
      · intro y hy
        have := hw.2.inside y hy
        omega
      · intro y hy
        have := hw.2.inside y hy
        simp only
        omega
      · intro y hy z h1 h2
        have := hw.2.inside y hy
        exact hu z (by omega) (by omega)
      · intro y hy
        refine ⟨(hu' y hy).1, fun z hz h => (hu' y hy).2 ?_⟩
        have := hw.2.inside z hz
        omega
    | _ => simp [inner] at hi
  | .unit, src, s, d, is, h, hst, _, _, _, hs, hn, b, P, tl, U, U', rest, hf, hp, hu, hu', hr => by
    simp [starts, plainCopy] at hst
  | .int w sg al, src, s, d, is, h, hst, _, _, _, hs, hn, b, P, tl, U, U', rest, hf, hp, hu, hu', hr => by
    simp only [starts] at hst
    obtain ⟨h1, h2, rfl⟩ := lower_plain h hst hs
    exact copyH hd h1 h2 hn hf hp (fun y hy => (hu' y hy).2) hr
  | .float w al, src, s, d, is, h, hst, _, _, _, hs, hn, b, P, tl, U, U', rest, hf, hp, hu, hu', hr => by
    simp only [starts] at hst
    obtain ⟨h1, h2, rfl⟩ := lower_plain h hst hs
    exact copyH hd h1 h2 hn hf hp (fun y hy => (hu' y hy).2) hr
  | .variant _ _, _, _, _, _, h, _, _, _, _, _, _, _, _, _, _, _, _, _, _, _, _, _ => by simp [lower] at h
  | .array _ _ _ _, _, _, _, _, h, _, _, _, _, _, _, _, _, _, _, _, _, _, _, _, _, _ => by simp [lower] at h
  | .vector _ _, _, _, _, _, h, _, _, _, _, _, _, _, _, _, _, _, _, _, _, _, _, _ => by simp [lower] at h
theorem flushHFields {F : Nat → Nat → Nat → Nat} (hA : A.Sound sa N da M) (hd : Disj sa N da M) : ∀ (fs sfs : Fields)
    (s d : Nat) (is : List Inst), lowerFields F A sa da fs sfs s d = some is → startsFields fs sfs = true →
    innerFields fs sfs = true →
    WFFields fs → WFFields sfs → (fs.toList.Pairwise fun x y => Disj x.2.1 x.2.2.size y.2.1 y.2.2.size) →
    (∀ c so sty, sfs.findLast c = some (so, sty) → s + so + sty.size ≤ N) →
    (∀ x ∈ fs.toList, d + x.2.1 + x.2.2.size ≤ M) →
    ∀ (b : Bool) (P : CCopy) (tl : List CCopy) (U U' : Nat → Prop) (rest : List Inst),
    (∀ x ∈ P :: tl, Fine N M x) →
    (∀ x ∈ fs.toList, P.dstOff ≤ d + x.2.1 ∧ d + x.2.1 + x.2.2.size ≤ P.dstOff + P.len) →
    (∀ x ∈ fs.toList, ∀ y, d + x.2.1 ≤ y → y < d + x.2.1 + x.2.2.size → U y) →
    (∀ y, U' y → U y ∧ ∀ x ∈ fs.toList, ¬ (d + x.2.1 ≤ y ∧ y < d + x.2.1 + x.2.2.size)) →
    (∀ seen', Clear N M U' seen' → FlushOK (rootsAt sa da) (askIn N M) false seen' rest) →
    FlushOK (rootsAt sa da) (askIn N M) b (P :: tl) (is ++ rest)
  | .nil, sfs, s, d, is, _, hst, _, _, _, _, _, _, b, P, tl, U, U', rest, _, _, _, _, _ => by
    simp [startsFields] at hst
  | .cons c o t r, sfs, s, d, is, h, hst, hi, hw, hw', hl, hs, hn, b, P, tl, U, U', rest, hf, hp, hu, hu', hr => by
    simp only [lowerFields, Option.bind_eq_some_iff, Option.map_eq_some_iff] at h
    obtain ⟨x, hx, y, hy, rfl⟩ := h
    obtain ⟨g1, g2, g3⟩ := fields_step hl hu hu'
    simp only [WFFields] at hw
    simp only [innerFields, Bool.and_eq_true] at hi
    simp only [Fields.toList, List.forall_mem_cons, List.pairwise_cons] at hl hn hp
    rw [List.append_assoc]
    have ih : ∀ seen', Clear N M (fun y => U y ∧ ¬ (d + o ≤ y ∧ y < d + o + t.size)) seen' →
        FlushOK (rootsAt sa da) (askIn N M) false seen' (y ++ rest) := fun seen' hc' =>
      flushNFields hA hd r sfs s d y hy hi.2 hw.2 hw' hl.2 hs hn.2 seen' _ U' rest hc' g2 g3 hr
    simp only [startsFields] at hst
    split at hst
    · rename_i hunit
      have ht : t = .unit := by cases t <;> simp_all [Ty.blank]
      subst ht
      have hx' : x = [] := by
        cases hf : sfs.findLast c with
        | none => rw [hf] at hx; simp only [lowerDflt, Option.some.injEq] at hx; exact hx.symm
        | some q => rw [hf] at hx; simp only [lower, Option.some.injEq] at hx; exact hx.symm
      subst hx'
      rw [List.nil_append]
      exact flushHFields hA hd r sfs s d y hy hst hi.2 hw.2 hw' hl.2 hs hn.2 b P tl _ U' rest hf hp.2 g2 g3 hr
    · cases hfl : sfs.findLast c with
      | none => rw [hfl] at hst; simp at hst
      | some q =>
        obtain ⟨so, sty⟩ := q
        rw [hfl] at hx hi hst
        exact flushH hA hd t sty (s + so) (d + o) x hx hst hi.1 hw.1 (findLast_WF sfs c so sty hw' hfl)
          (hs c so sty hfl) hn.1 b P tl U _ (y ++ rest) hf hp.1 g1 (fun y hy => hy) ih
end

/-- While only the poison of everything waits. -/
theorem flushTop {F : Nat → Nat → Nat → Nat} (hA : A.Sound sa N da M) (hd : Disj sa N da M) : ∀ (fs sfs : Fields)
    (s d : Nat) (is : List Inst), lowerFields F A sa da fs sfs s d = some is → innerFields fs sfs = true →
    WFFields fs → WFFields sfs → (fs.toList.Pairwise fun x y => Disj x.2.1 x.2.2.size y.2.1 y.2.2.size) →
    (∀ c so sty, sfs.findLast c = some (so, sty) → s + so + sty.size ≤ N) →
    (∀ x ∈ fs.toList, d + x.2.1 + x.2.2.size ≤ M) →
    ∀ (b : Bool) (P : CCopy), P.src = none → Fine N M P →
    (∀ x ∈ fs.toList, P.dstOff ≤ d + x.2.1 ∧ d + x.2.1 + x.2.2.size ≤ P.dstOff + P.len) →
    FlushOK (rootsAt sa da) (askIn N M) b [P] is
  | .nil, sfs, s, d, is, h, _, _, _, _, _, _, b, P, _, _, _ => by
    simp only [lowerFields, Option.some.injEq] at h
    subst h
    trivial
  | .cons c o t r, sfs, s, d, is, h, hi, hw, hw', hl, hs, hn, b, P, hsrc, hf, hp => by
    simp only [lowerFields, Option.bind_eq_some_iff, Option.map_eq_some_iff] at h
    obtain ⟨x, hx, y, hy, rfl⟩ := h
    obtain ⟨g1, g2, g3⟩ := fields_step (d := d) (U := fun _ => True) (U' := fun _ => False) hl
      (fun _ _ _ _ _ => trivial) (fun _ h => h.elim)
    simp only [WFFields] at hw
    simp only [innerFields, Bool.and_eq_true] at hi
    simp only [Fields.toList, List.forall_mem_cons, List.pairwise_cons] at hl hn hp
    have ihT : ∀ b, FlushOK (rootsAt sa da) (askIn N M) b [P] y := fun b =>
      flushTop hA hd r sfs s d y hy hi.2 hw.2 hw' hl.2 hs hn.2 b P hsrc hf hp.2
    have ihN : ∀ seen', Clear N M (fun y => True ∧ ¬ (d + o ≤ y ∧ y < d + o + t.size)) seen' →
        FlushOK (rootsAt sa da) (askIn N M) false seen' y := fun seen' hc' => by
      have := flushNFields hA hd r sfs s d y hy hi.2 hw.2 hw' hl.2 hs hn.2 seen' _ (fun _ => False) [] hc' g2 g3
        (fun _ _ => trivial)
      rwa [List.append_nil] at this
    have leaf : LeafBlock A sa da N (d + o) t.size x →
        FlushOK (rootsAt sa da) (askIn N M) b [P] (x ++ y) := by
      intro hx
      cases hx with
      | nil => exact ihT b
      | copy s h0 h =>
        exact copyH hd h0 h hn.1 (by simpa using hf) hp.1 (fun y hy => hy.2) ihN
      | conv f s l h =>
        exact ⟨convOp_ok hA f _ _ _ _ (by omega) (by omega) (by omega) (by omega),
          .inr ⟨by simpa using hsrc, ihT true⟩⟩
    cases hfl : sfs.findLast c with
    | none =>
      rw [hfl] at hx hi
      simp only [Bool.not_eq_true'] at hi
      exact leaf (lowerDflt_leaf hx hi.1).leaf
    | some q =>
      obtain ⟨so, sty⟩ := q
      rw [hfl] at hx hi
      cases hst : t.isStruct with
      | false => exact leaf (lower_leaf hx hst (hs c so sty hfl))
      | true =>
        have hstart : starts t sty = true := by
          cases t <;> simp [Ty.isStruct] at hst
          cases sty <;> simp_all [inner, starts]
        exact flushH hA hd t sty (s + so) (d + o) x hx hstart hi.1 hw.1 (findLast_WF sfs c so sty hw' hfl)
          (hs c so sty hfl) hn.1 b P [] (fun _ => True) _ y (by simpa using hf) hp.1 (fun _ _ _ => trivial)
          (fun y hy => hy) ihN

/-- Tidy conversions can be coalesced. -/
theorem lower_flush {F : Nat → Nat → Nat → Nat} (hA : A.Sound sa N da M) (hd : Disj sa N da M) (t src : Ty)
    (is : List Inst) (h : lower F A sa da t src 0 0 = some is) (ht : tidy t src = true) (hw : WF t) (hw' : WF src)
    (hs : src.size ≤ N) (hn : t.size ≤ M) : FlushOK (rootsAt sa da) (askIn N M) false [] is := by
  have leaf : t.isStruct = false → FlushOK (rootsAt sa da) (askIn N M) false [] is := by
    intro hst
    have := leafN hA hd (lower_leaf h hst (by omega)) (by omega) (seen := []) (U := fun _ => True)
      (U' := fun _ => False) (fun _ h => by simp at h) (fun _ _ _ => trivial) (fun _ h => h.elim) (rest := [])
      (fun _ _ => trivial)
    rwa [List.append_nil] at this
  cases t with
  | struct dfs dsz dal =>
    cases src with
    | struct sfs ssz sal =>
      simp only [lower, Option.map_eq_some_iff] at h
      obtain ⟨x, hx, rfl⟩ := h
      simp only [tidy] at ht
      simp only [WF] at hw hw'
      simp only [Ty.size] at hs hn
      have hf : Fine N M ⟨none, 1, 0, 0, dsz⟩ := ⟨.inl rfl, rfl, by simpa using hn⟩
      refine ⟨fine_all hd hf (by simp), by simp, hf.asked, ?_⟩
      refine flushTop hA hd dfs sfs 0 0 x hx ht hw.1 hw'.1 hw.2.disj ?_ ?_ _ _ rfl hf ?_
      · intro c so sty hf
        have := hw'.2.inside (c, so, sty) (mem_findLast hf)
        simp only at this
        omega
      · intro y hy
        have := hw.2.inside y hy
        omega
      · intro y hy
        have := hw.2.inside y hy
        simp only
        omega
    | _ => simp [tidy] at ht
  | _ => exact leaf rfl

end
end PJ
