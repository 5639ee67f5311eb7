import Verif.Lemmas.VariantOrder
import Verif.Lemmas.StraightBare
import Verif.Props.C35_Function
/-!
# The code for variants without poisons
-/
namespace PJ

/-- What the instructions of the blocks are. -/
theorem lowerVariant_pieces {F : Nat → Nat → Nat → Nat} {A : Aliasing} {sa da : Nat} {dts sts : Terms} {dl sl : VarL} {f : CFn}
    (h : lowerVariant F A sa da dts dl sts sl = some f) (hwt : WF (.variant dts dl)) (hws : WF (.variant sts sl)) :
    ∀ b ∈ f, ∀ i ∈ b.body, LInst A sa da sl.size dl.size i := by
  have hp := lowerVariant_parts h
  simp only [WF] at hwt hws
  intro b hb i hi
  rcases hp.blocks b hb with rfl | ⟨is, ot, sty, rfl, hlo, hcase⟩
  · simp [entryBlock] at hi
  · simp only [retBlock] at hi
    cases ot with
    | none =>
      simp only [lowerTerm, Option.some.injEq] at hlo
      subst hlo
      simp at hi
    | some u =>
      have hu : u ∈ dts.toList := by
        rcases hcase with ⟨ho, -⟩ | ⟨t, -, -, ho⟩
        · exact pickAt_mem ho
        · exact pickTerm_mem ho
      simp only [lowerTerm] at hlo
      split at hlo
      · simp at hlo
      simp only [Option.map_eq_some_iff] at hlo
      obtain ⟨x, hx, rfl⟩ := hlo
      rcases List.mem_cons.1 hi with rfl | hi
      · exact .conv (fun _ => u.tag) 0 0 dl.tagOff dl.tagW (by omega) hwt.2.tagIn
      · have hsty := hp.source hws hcase
        exact lower_pieces u.ty sty _ _ x hx (wfTerms_mem hwt.1 u hu) hsty.1 hsty.2 (hwt.2.inside hp.dout u hu) i hi

theorem lowerTerm_bare {F : Nat → Nat → Nat → Nat} {A : Aliasing} {sa N da M : Nat} (hA : A.Sound sa N da M) (hd : Disj sa N da M)
    {dl sl : VarL} {sty : Ty} {o : Option Term} {is : List Inst} (h : lowerTerm F A sa da dl sl sty o = some is)
    (htag : dl.tagOff + dl.tagW ≤ M) (ht : ∀ t, o = some t → WF t.ty ∧ dl.termOff + t.ty.size ≤ M) (hw : WF sty)
    (hs : sl.termOff + sty.size ≤ N) : FlushOK (rootsAt sa da) (askIn N M) false [] (unpoisoned is) := by
  cases o with
  | none =>
    simp only [lowerTerm, Option.some.injEq] at h
    subst h
    trivial
  | some t =>
    simp only [lowerTerm] at h
    split at h
    · simp at h
    simp only [Option.map_eq_some_iff] at h
    obtain ⟨x, hx, rfl⟩ := h
    obtain ⟨g1, g2⟩ := ht t rfl
    refine ⟨convOp_ok hA _ _ _ _ _ (by omega) (by omega) (by omega) (by omega), .inl ⟨by simp, ?_⟩⟩
    have := bareN hA hd t.ty sty _ _ x hx g1 hw hs g2 [] (fun _ => True) (fun _ => False) []
      (fun _ h => by simp at h) (fun _ _ _ => trivial) (fun _ h => h.elim) (fun _ _ => trivial)
    rwa [List.append_nil] at this

/-- Without poisons every block can be coalesced. -/
theorem bareVariant_ok {F : Nat → Nat → Nat → Nat} {A : Aliasing} {sa da : Nat} {dts sts : Terms} {dl sl : VarL} {f : CFn}
    (h : lowerVariant F A sa da dts dl sts sl = some f) (hA : A.Sound sa sl.size da dl.size) (hd : Disj sa sl.size da dl.size)
    (hwt : WF (.variant dts dl)) (hws : WF (.variant sts sl)) (s : CState) : f.unpoisoned.OK s := by
  have hp := lowerVariant_parts h
  simp only [WF] at hwt hws
  intro b m blk base _ hb hr
  refine ⟨askIn sl.size dl.size, ?_⟩
  have hm := List.mem_of_getElem? hb
  simp only [CFn.unpoisoned, List.mem_map] at hm
  obtain ⟨c, hc, rfl⟩ := hm
  rcases hp.blocks c hc with rfl | ⟨is, o, sty, rfl, hl, hcase⟩
  · trivial
  · simp only [retBlock, Option.some.injEq] at hr
    subst hr
    have hu : ∀ u, o = some u → u ∈ dts.toList := by
      rintro u rfl
      rcases hcase with ⟨ho, -⟩ | ⟨t, -, -, ho⟩
      · exact pickAt_mem ho
      · exact pickTerm_mem ho
    have hsty := hp.source hws hcase
    exact lowerTerm_bare hA hd hl hwt.2.tagIn (fun u he => ⟨wfTerms_mem hwt.1 u (hu u he), hwt.2.inside hp.dout u (hu u he)⟩)
      hsty.1 hsty.2

theorem bareVariant_mono {F : Nat → Nat → Nat → Nat} {A : Aliasing} {sa da : Nat} {dts sts : Terms} {dl sl : VarL} {f : CFn}
    (h : lowerVariant F A sa da dts dl sts sl = some f) : ∀ b ∈ f.unpoisoned, b.Mono := by
  intro b hb
  simp only [CFn.unpoisoned, List.mem_map] at hb
  obtain ⟨c, hc, rfl⟩ := hb
  have := lowerVariant_mono h c hc
  exact ⟨this.roots, this.next⟩

/-- The function without poisons follows the function. -/
theorem bareVariant_steps {F : Nat → Nat → Nat → Nat} {A : Aliasing} {sa da : Nat} {dts sts : Terms} {dl sl : VarL} {f : CFn}
    (h : lowerVariant F A sa da dts dl sts sl = some f) (hA : A.Sound sa sl.size da dl.size)
    (hwt : WF (.variant dts dl)) (hws : WF (.variant sts sl)) (s : CState) : ∀ (k : Nat) (s' : CState), f.steps k s = some s' →
    ∃ mn, f.unpoisoned.steps k s = some (s'.1, mn) ∧ Refines mn s'.2
  | 0, s', hs => by
    simp only [CFn.steps, Option.some.injEq] at hs
    subst hs
    exact ⟨s.2, rfl, Refines.refl _⟩
  | k + 1, s', hs => by
    rw [CFn.steps_succ] at hs
    cases hk : f.steps k s with
    | none => rw [hk] at hs; simp at hs
    | some s1 =>
      rw [hk] at hs
      obtain ⟨mn, h1, h2⟩ := bareVariant_steps h hA hwt hws s k s1 hk
      obtain ⟨b, m⟩ := s1
      rw [CFn.steps_succ, h1]
      simp only [Option.bind_some] at hs ⊢
      cases b with
      | none => simp [CFn.step] at hs
      | some i =>
        simp only [CFn.step] at hs
        split at hs
        · exact nomatch hs
        rename_i blk hb
        split at hs
        · exact nomatch hs
        rename_i base hbase
        have hmem := List.mem_of_getElem? hb
        have hmo := lowerVariant_mono h blk hmem
        have hroots : base = rootsAt sa da := by
          rcases (lowerVariant_parts h).blocks blk hmem with rfl | ⟨is, o, sty, rfl, -, -⟩
          · simpa [entryBlock] using hbase.symm
          · simpa [retBlock] using hbase.symm
        subst hroots
        have hre := bare_refines hA blk.body m mn (lowerVariant_pieces h hwt hws blk hmem) h2
        have hget : f.unpoisoned[i]? = some { blk with body := unpoisoned blk.body } := by simp [CFn.unpoisoned, hb]
        have hr := hmo.roots m mn _ h2 hbase
        split at hs
        · exact nomatch hs
        all_goals
          rename_i hn
          cases hs
          exact ⟨_, by simp [CFn.step, hget, hr, hmo.next _ _ _ hre hn], hre⟩

end PJ
