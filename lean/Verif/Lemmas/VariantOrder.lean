import Verif.Lemmas.VariantCode
import Verif.Lemmas.Run
/-!
# The code for variants can be coalesced
-/
namespace PJ

section
variable {A : Aliasing} {sa N da M : Nat}

/-! ## Defaults -/

/-- Only poisons wait. -/
def OnlyPoisons (N M : Nat) (seen : List CCopy) : Prop := ∀ c ∈ seen, Fine N M c ∧ c.src = none

theorem convBlock_flush (hA : A.Sound sa N da M) {d n : Nat} {is : List Inst} (h : ConvBlock A sa da N d n is) (hn : d + n ≤ M)
    {b : Bool} {seen : List CCopy} (hs : OnlyPoisons N M seen) {rest : List Inst}
    (hr : ∀ b' seen', OnlyPoisons N M seen' → FlushOK (rootsAt sa da) (askIn N M) b' seen' rest) :
    FlushOK (rootsAt sa da) (askIn N M) b seen (is ++ rest) := by
  cases h with
  | nil => exact hr b seen hs
  | conv f s l h =>
    exact ⟨convOp_ok hA f _ _ _ _ (by omega) (by omega) (by omega) (by omega), .inr ⟨fun c hc => (hs c hc).2, hr true seen hs⟩⟩

mutual
/-- Default values are stored over poisons. -/
theorem dflt_flush (hA : A.Sound sa N da M) (hd : Disj sa N da M) : ∀ (t : Ty) (d : Nat) (is : List Inst),
    lowerDflt A sa da t d = some is → WF t → d + t.size ≤ M → ∀ (b : Bool) (seen : List CCopy) (rest : List Inst),
    OnlyPoisons N M seen → (∀ b' seen', OnlyPoisons N M seen' → FlushOK (rootsAt sa da) (askIn N M) b' seen' rest) →
    FlushOK (rootsAt sa da) (askIn N M) b seen (is ++ rest)
  | .struct fs sz al, d, is, h, hw, hn, b, seen, rest, hs, hr => by
    simp only [lowerDflt, Option.map_eq_some_iff] at h
    obtain ⟨x, hx, rfl⟩ := h
    simp only [WF] at hw
    simp only [Ty.size] at hn
    have hc : Fine N M ⟨none, 1, 0, d, sz⟩ := ⟨.inl rfl, rfl, hn⟩
    refine ⟨fine_all hd hc (fun x hx => (hs x hx).1), fun _ => .inl rfl, hc.asked, ?_⟩
    refine dflt_flushFields hA hd fs d x hx hw.1 (fun y hy => ?_) _ _ rest (fun c hcm => ?_) hr
    · have := hw.2.inside y hy
      omega
    · rcases List.mem_cons.1 (waiting_sub _ seen c hcm) with rfl | hcm
      · exact ⟨hc, rfl⟩
      · exact hs c hcm
  | .unit, d, is, h, _, hn, b, seen, rest, hs, hr => convBlock_flush hA (lowerDflt_leaf h rfl) hn hs hr
  | .int _ _ _, d, is, h, _, hn, b, seen, rest, hs, hr => convBlock_flush hA (lowerDflt_leaf h rfl) hn hs hr
  | .float _ _, d, is, h, _, hn, b, seen, rest, hs, hr => convBlock_flush hA (lowerDflt_leaf h rfl) hn hs hr
  | .variant _ _, _, _, h, _, _, _, _, _, _, _ => by simp [lowerDflt] at h
  | .array _ _ _ _, _, _, h, _, _, _, _, _, _, _ => by simp [lowerDflt] at h
  | .vector _ _, _, _, h, _, _, _, _, _, _, _ => by simp [lowerDflt] at h
theorem dflt_flushFields (hA : A.Sound sa N da M) (hd : Disj sa N da M) : ∀ (fs : Fields) (d : Nat) (is : List Inst),
    lowerDfltFields A sa da fs d = some is → WFFields fs → (∀ x ∈ fs.toList, d + x.2.1 + x.2.2.size ≤ M) →
    ∀ (b : Bool) (seen : List CCopy) (rest : List Inst),
    OnlyPoisons N M seen → (∀ b' seen', OnlyPoisons N M seen' → FlushOK (rootsAt sa da) (askIn N M) b' seen' rest) →
    FlushOK (rootsAt sa da) (askIn N M) b seen (is ++ rest)
  | .nil, d, is, h, _, _, b, seen, rest, hs, hr => by
    simp only [lowerDfltFields, Option.some.injEq] at h
    subst h
    exact hr b seen hs
  | .cons c o t r, d, is, h, hw, hn, b, seen, rest, hs, hr => by
    simp only [lowerDfltFields, Option.bind_eq_some_iff, Option.map_eq_some_iff] at h
    obtain ⟨x, hx, y, hy, rfl⟩ := h
    simp only [WFFields] at hw
    simp only [Fields.toList, List.forall_mem_cons] at hn
    rw [List.append_assoc]
    exact dflt_flush hA hd t (d + o) x hx hw.1 hn.1 b seen _ hs fun b' seen' hs' =>
      dflt_flushFields hA hd r d y hy hw.2 hn.2 b' seen' rest hs' hr
end

/-! ## Terms -/

/-- As `lower_flush`, at any distance. -/
theorem lower_flush_at {F : Nat → Nat → Nat → Nat} (hA : A.Sound sa N da M) (hd : Disj sa N da M) (t src : Ty) (s d : Nat)
    (is : List Inst) (h : lower F A sa da t src s d = some is) (ht : src.blank = true ∨ tidy t src = true) (hw : WF t) (hw' : WF src)
    (hs : s + src.size ≤ N) (hn : d + t.size ≤ M) : FlushOK (rootsAt sa da) (askIn N M) false [] is := by
  have leaf : t.isStruct = false → FlushOK (rootsAt sa da) (askIn N M) false [] is := by
    intro hst
    have := leafN hA hd (lower_leaf h hst hs) hn (seen := []) (U := fun _ => True)
      (U' := fun _ => False) (fun _ h => by simp at h) (fun _ _ _ => trivial) (fun _ h => h.elim) (rest := [])
      (fun _ _ => trivial)
    rwa [List.append_nil] at this
  cases t with
  | struct dfs dsz dal =>
    cases src with
    | unit =>
      simp only [lower] at h
      have := dflt_flush hA hd _ d is h hw hn false [] [] (fun _ h => by simp at h) (fun _ _ _ => trivial)
      rwa [List.append_nil] at this
    | struct sfs ssz sal =>
      simp only [lower, Option.map_eq_some_iff] at h
      obtain ⟨x, hx, rfl⟩ := h
      simp only [Ty.blank, Bool.false_eq_true, false_or, tidy] at ht
      simp only [WF] at hw hw'
      simp only [Ty.size] at hs hn
      have hf : Fine N M ⟨none, 1, 0, d, dsz⟩ := ⟨.inl rfl, rfl, hn⟩
      refine ⟨fine_all hd hf (by simp), by simp, hf.asked, ?_⟩
      refine flushTop hA hd dfs sfs s d x hx ht hw.1 hw'.1 hw.2.disj ?_ ?_ _ _ rfl hf ?_
      · intro c so sty hf
        have := hw'.2.inside (c, so, sty) (mem_findLast hf)
        simp only at this
        omega
      · intro y hy
        have := hw.2.inside y hy
        omega
      · intro y hy
        have := hw.2.inside y hy
        simp only
        omega
    | _ => simp [lower] at h
  | _ => exact leaf rfl

theorem lowerTerm_flush {F : Nat → Nat → Nat → Nat} (hA : A.Sound sa N da M) (hd : Disj sa N da M) {dl sl : VarL} {sty : Ty}
    {o : Option Term} {is : List Inst} (h : lowerTerm F A sa da dl sl sty o = some is) (htag : dl.tagOff + dl.tagW ≤ M)
    (ht : ∀ t, o = some t → WF t.ty ∧ dl.termOff + t.ty.size ≤ M ∧ (sty.blank = true ∨ tidy t.ty sty = true)) (hw : WF sty)
    (hs : sl.termOff + sty.size ≤ N) : FlushOK (rootsAt sa da) (askIn N M) false [] is := by
  cases o with
  | none =>
    simp only [lowerTerm, Option.some.injEq] at h
    subst h
    trivial
  | some t =>
    simp only [lowerTerm] at h
    split at h
    · simp at h
    simp only [Option.map_eq_some_iff] at h
    obtain ⟨x, hx, rfl⟩ := h
    obtain ⟨g1, g2, g3⟩ := ht t rfl
    refine ⟨convOp_ok hA _ _ _ _ _ (by omega) (by omega) (by omega) (by omega), .inl ⟨by simp, ?_⟩⟩
    exact lower_flush_at hA hd t.ty sty _ _ x hx g3 g1 hw hs g2

end

/-! ## The function -/

theorem pickNamed_name : ∀ {ts : Terms} {c : Comp} {t : Term}, pickNamed ts c = some (some t) → t.name = c
  | .nil, _, _, h => by simp [pickNamed] at h
  | .cons n g as ty r, c, t, h => by
    simp only [pickNamed] at h
    split at h
    · rename_i hn
      split at h
      · simp at h
      · simp only [Option.some.injEq] at h
        subst h
        exact hn
      · exact pickNamed_name h
    · exact pickNamed_name h

theorem pickAt_get : ∀ {ts : Terms} {i : Nat} {t : Term}, pickAt ts i = some (some t) → ts.toList[i]? = some t
  | .nil, _, _, h => by simp [pickAt] at h
  | .cons n g as ty r, 0, t, h => by
    simp only [pickAt, Option.map_eq_some_iff] at h
    obtain ⟨b, -, h⟩ := h
    split at h
    · simp only [Option.some.injEq] at h
      simp [Terms.toList, h]
    · simp at h
  | .cons n g as ty r, i + 1, t, h => by
    simp only [pickAt] at h
    simpa [Terms.toList] using pickAt_get h

/-- What a block converts is inside of the source. -/
theorem VarCode.source {F : Nat → Nat → Nat → Nat} {A : Aliasing} {sa da : Nat} {dts sts : Terms} {dl sl : VarL} {f : CFn}
    (hp : VarCode F A sa da dts dl sts sl f) (hws : WFTerms sts ∧ VarLayout sts.toList sl) {o : Option Term} {sty : Ty}
    (hcase : pickAt dts dl.dflt = some o ∧ sty = .unit ∨ ∃ t ∈ sts.toList, sty = t.ty ∧ pickTerm dts dl t.name = some o) :
    WF sty ∧ sl.termOff + sty.size ≤ sl.size := by
  rcases hcase with ⟨-, rfl⟩ | ⟨t, htm, rfl, -⟩
  · refine ⟨trivial, ?_⟩
    have := hws.2.dflt
    cases hl : sts.toList with
    | nil => rw [hl] at this; simp at this
    | cons x r =>
      have := hws.2.inside hp.sout x (by rw [hl]; simp)
      simp only [Ty.size]
      omega
  · exact ⟨wfTerms_mem hws.1 t htm, hws.2.inside hp.sout t htm⟩

/-- Every block of the function can be coalesced. -/
theorem lowerVariant_ok {F : Nat → Nat → Nat → Nat} {A : Aliasing} {sa da : Nat} {dts sts : Terms} {dl sl : VarL} {f : CFn}
    (h : lowerVariant F A sa da dts dl sts sl = some f) (hA : A.Sound sa sl.size da dl.size) (hd : Disj sa sl.size da dl.size)
    (hwt : WF (.variant dts dl)) (hws : WF (.variant sts sl))
    (ht : ∀ t ∈ sts.toList, ∀ u ∈ dts.toList,
      u.name = t.name ∨ dts.hasName t.name = false ∧ dts.toList[dl.dflt]? = some u → t.ty.blank = true ∨ tidy u.ty t.ty = true)
    (s : CState) : f.OK s := by
  have hp := lowerVariant_parts h
  simp only [WF] at hwt hws
  intro b m blk base _ hb hr
  refine ⟨askIn sl.size dl.size, ?_⟩
  rcases hp.blocks blk (List.mem_of_getElem? hb) with rfl | ⟨is, o, sty, rfl, hl, hcase⟩
  · trivial
  · simp only [retBlock, Option.some.injEq] at hr
    subst hr
    have hu : ∀ u, o = some u → u ∈ dts.toList := by
      rintro u rfl
      rcases hcase with ⟨ho, -⟩ | ⟨t, -, -, ho⟩
      · exact pickAt_mem ho
      · exact pickTerm_mem ho
    have hsty := hp.source hws hcase
    refine lowerTerm_flush hA hd hl hwt.2.tagIn (fun u he => ⟨wfTerms_mem hwt.1 u (hu u he), hwt.2.inside hp.dout u (hu u he), ?_⟩)
      hsty.1 hsty.2
    rcases hcase with ⟨-, rfl⟩ | ⟨t, htm, rfl, ho⟩
    · exact .inl rfl
    · refine ht t htm u (hu u he) ?_
      subst he
      simp only [pickTerm] at ho
      split at ho
      · exact .inl (pickNamed_name ho)
      · rename_i hn
        exact .inr ⟨by simpa using hn, pickAt_get ho⟩

theorem lowerVariant_mono {F : Nat → Nat → Nat → Nat} {A : Aliasing} {sa da : Nat} {dts sts : Terms} {dl sl : VarL} {f : CFn}
    (h : lowerVariant F A sa da dts dl sts sl = some f) : ∀ b ∈ f, b.Mono := by
  intro b hb
  rcases (lowerVariant_parts h).blocks b hb with rfl | ⟨is, o, sty, rfl, -⟩
  · refine ⟨fun _ _ _ _ h => h, fun m m' n hr hn => ?_⟩
    simp only [entryBlock] at hn ⊢
    split
    · rename_i hs
      simpa using hn
    · rename_i hs
      split at hn
      · rename_i h0
        exact (hs rfl).elim
      · rcases loadU_mono m m' hr (sa + sl.tagOff) sl.tagW with g | g
        · rw [g] at hn; simp at hn
        · rw [g]; exact hn
  · exact ⟨fun _ _ _ _ h => h, fun _ _ _ _ h => h⟩

/-! ## Values -/

mutual
theorem straight_compat : ∀ (t src : Ty), t.straight → Compat t src
  | .unit, _, _ => by simp [Compat]
  | .int _ _ _, _, _ => by simp [Compat]
  | .float _ _, _, _ => by simp [Compat]
  | .struct fs _ _, src, h => by
    simp only [Ty.straight] at h
    cases src with
    | struct sfs _ _ =>
      simp only [Compat]
      exact straight_compatFields fs sfs h
    | unit =>
      simp only [Compat]
      exact straight_hasOut fs h
    | _ => simp [Compat]
  | .variant _ _, _, h => by simp [Ty.straight] at h
  | .array _ _ _ _, _, h => by simp [Ty.straight] at h
  | .vector _ _, _, h => by simp [Ty.straight] at h
theorem straight_compatFields : ∀ (fs sfs : Fields), fs.straight → CompatFields fs sfs
  | .nil, _, _ => by simp [CompatFields]
  | .cons c o t r, sfs, h => by
    simp only [Fields.straight] at h
    simp only [CompatFields]
    refine ⟨?_, straight_compatFields r sfs h.2⟩
    split
    · exact straight_compat t _ h.1
    · exact straight_hasOutTy t h.1
theorem straight_hasOutTy : ∀ (t : Ty), t.straight → t.hasOut = false
  | .unit, _ => rfl
  | .int _ _ _, _ => rfl
  | .float _ _, _ => rfl
  | .struct fs _ _, h => by
    simp only [Ty.straight] at h
    simp only [Ty.hasOut]
    exact straight_hasOut fs h
  | .variant _ _, h => by simp [Ty.straight] at h
  | .array _ _ _ _, h => by simp [Ty.straight] at h
  | .vector _ _, h => by simp [Ty.straight] at h
theorem straight_hasOut : ∀ (fs : Fields), fs.straight → fs.hasOut = false
  | .nil, _ => rfl
  | .cons c o t r, h => by
    simp only [Fields.straight] at h
    simp only [Fields.hasOut, straight_hasOutTy t h.1, straight_hasOut r h.2, Bool.or_self]
end

mutual
theorem straight_noOut : ∀ (t : Ty), t.straight → t.noOut
  | .unit, _ => trivial
  | .int _ _ _, _ => trivial
  | .float _ _, _ => trivial
  | .struct fs _ _, h => by
    simp only [Ty.straight] at h
    simp only [Ty.noOut]
    exact straight_noOutFields fs h
  | .variant _ _, h => by simp [Ty.straight] at h
  | .array _ _ _ _, h => by simp [Ty.straight] at h
  | .vector _ _, h => by simp [Ty.straight] at h
theorem straight_noOutFields : ∀ (fs : Fields), fs.straight → fs.noOut
  | .nil, _ => trivial
  | .cons _ _ t r, h => ⟨straight_noOut t h.1, straight_noOutFields r h.2⟩
end

theorem straight_noOutTerms : ∀ {ts : Terms}, (∀ t ∈ ts.toList, t.ty.straight) → ts.noOut
  | .nil, _ => trivial
  | .cons n g as t r, h => by
    simp only [Terms.toList, List.forall_mem_cons] at h
    exact ⟨straight_noOut t h.1, straight_noOutTerms h.2⟩

theorem terms_compatNamed {c : Comp} {sty : Ty} : ∀ {ts : Terms}, (∀ t ∈ ts.toList, t.ty.straight) → CompatNamed ts c sty
  | .nil, _ => by simp [CompatNamed]
  | .cons n g as t r, h => by
    simp only [Terms.toList, List.forall_mem_cons] at h
    simp only [CompatNamed]
    exact ⟨fun _ => straight_compat t sty h.1, terms_compatNamed h.2⟩

theorem terms_compatAt {sty : Ty} : ∀ {ts : Terms} {i : Nat}, (∀ t ∈ ts.toList, t.ty.straight) → CompatAt ts i sty
  | .nil, _, _ => by simp [CompatAt]
  | .cons n g as t r, 0, h => by
    simp only [Terms.toList, List.forall_mem_cons] at h
    simp only [CompatAt]
    exact straight_compat t sty h.1
  | .cons n g as t r, i + 1, h => by
    simp only [Terms.toList, List.forall_mem_cons] at h
    simp only [CompatAt]
    exact terms_compatAt h.2

theorem finNamed_straight {l : VarL} (hl : l.outline = false) {c : Comp} {v : Val} {p : Nat} : ∀ {ts : Terms},
    (∀ t ∈ ts.toList, t.ty.straight) → finNamed ts l c v p = p
  | .nil, _ => rfl
  | .cons n g as t r, h => by
    simp only [Terms.toList, List.forall_mem_cons] at h
    simp only [finNamed, hl, Bool.false_eq_true, if_false]
    split
    · split
      · exact fin_straight t v p h.1
      · exact finNamed_straight hl h.2
      · rfl
    · exact finNamed_straight hl h.2

theorem finAt_straight {l : VarL} (hl : l.outline = false) {v : Val} {p : Nat} : ∀ {ts : Terms} {i : Nat},
    (∀ t ∈ ts.toList, t.ty.straight) → finAt ts l i v p = p
  | .nil, _, _ => rfl
  | .cons n g as t r, 0, h => by
    simp only [Terms.toList, List.forall_mem_cons] at h
    simp only [finAt, hl, Bool.false_eq_true, if_false]
    split
    · exact fin_straight t v p h.1
    · rfl
  | .cons n g as t r, i + 1, h => by
    simp only [Terms.toList, List.forall_mem_cons] at h
    simp only [finAt]
    exact finAt_straight hl h.2

theorem fin_variant {ts : Terms} {l : VarL} (hl : l.outline = false) (h : ∀ t ∈ ts.toList, t.ty.straight) (v : Val) (p : Nat) :
    fin (.variant ts l) v p = p := by
  cases v <;> simp only [fin]
  split
  · exact finNamed_straight hl h
  · exact finAt_straight hl h

/-- Memory that follows that of the conversion has the converted value, and all else is as before. -/
theorem tracks_refined (F : Nat → Nat → Nat → Nat) (S : Mem) (t src : Ty) (sa da : Nat) (m m1 m' : UMem) (M : Mem) (v w : Val)
    (hwt : WF t) (hws : WF src) (hd : Disj sa src.size da t.size) (hc : Compat t src) (hno : t.noOut) (hfin : fin t v 0 = 0)
    (hS : ∀ x, sa ≤ x → x < sa + src.size → m x = some (S x)) (hv : readVal S src sa = some v) (hw : conv F t v = some w)
    (hb : da + t.size < 2 ^ 64) {st : St}
    (h1 : xcode ⟨S, M, F⟩ t src [] [] sa da ⟨fun a => (m a).getD (M a), 0, none, 0, 0⟩ = .ok st)
    (h2 : Tracks ⟨S, M, F⟩ sa src.size st m1) (hr : Refines m' m1) (hM : ∀ a, m' a = none ∨ m' a = some (M a)) :
    readVal M t da = some w ∧ ∀ a, ¬ (da ≤ a ∧ a < da + t.size) → ∀ b, m a = some b → M a = b := by
  have hran := xcode_ran ⟨S, M, F⟩ t src [] sa da _ st v w hwt hws hc (noOut_outAt _ _ _ hno) (HsOK_nil _) hv hw
    (by simp only [hfin, W64]; omega) (by simp only [W64]; omega) (by unfold Disj; simp only [hfin]; omega) h1
  have heq : ∀ a, ¬ (sa ≤ a ∧ a < sa + src.size) → M a = st.mem a := by
    intro a ha
    rcases h2.dst a ha with h | ⟨-, h⟩
    · rcases hr a with g | g
      · rw [h] at g; simp at g
      · rcases hM a with k | k
        · rw [k, h] at g; simp at g
        · rw [k, h] at g
          simpa using g
    · exact h.symm
  constructor
  · refine hran.stable M (fun a ha => ?_)
    simp only [hfin] at ha
    refine heq a (fun hs => ?_)
    unfold Disj at hd
    omega
  · intro a ha b hb
    by_cases hs : sa ≤ a ∧ a < sa + src.size
    · have h := h2.src a hs.1 hs.2
      have := hS a hs.1 hs.2
      rcases hr a with g | g
      · rw [h] at g; simp at g
      · rcases hM a with k | k
        · rw [k, h] at g; simp at g
        · rw [k, h, ← this, hb] at g
          simpa using g
    · rw [heq a hs, hran.frame a ha (by simp only [hfin]; omega)]
      simp [hb]

end PJ
