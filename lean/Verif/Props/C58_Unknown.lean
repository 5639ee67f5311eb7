import Verif.Lemmas.VariantUnknown
import Verif.Props.C58_Variants
/-!
# C58: tags that the sender's variant does not have
-/
namespace PJ

theorem unknown_leaves (F : Nat → Nat → Nat → Nat) (A : Aliasing) (S : Mem) (dts sts : Terms) (dl sl : VarL) (sa da : Nat) (m : UMem)
    (w : Val) (f g : CFn) (hst : ∀ t ∈ dts.toList, t.ty.straight) (hwt : WF (.variant dts dl)) (hws : WF (.variant sts sl))
    (hoff : sl.termOff ≤ sl.size) (hd : Disj sa sl.size da dl.size) (hl : lowerVariant F A sa da dts dl sts sl = some f)
    (hS : ∀ x, sa ≤ x → x < sa + sl.size → m x = some (S x))
    (hv : ∀ t ∈ sts.toList, t.tag ≠ readN S (sa + sl.tagOff) sl.tagW)
    (hw : dfltVal (.variant dts dl) = some w) (hb : da + dl.size < 2 ^ 64)
    (hg : ∀ m', f.Reach (some 0, m) (none, m') →
      (∃ mn, g.Reach (some 0, m) (none, mn)) ∧ ∀ mn, g.Reach (some 0, m) (none, mn) → Refines mn m') :
    Leaves g m (.variant dts dl) da w := by
  have hp := lowerVariant_parts hl
  have sim : ∀ M : Mem, ∃ st' m', xcode ⟨S, M, F⟩ (.variant dts dl) (.variant sts sl) [] [] sa da
      ⟨fun a => (m a).getD (M a), 0, none, 0, 0⟩ = .ok st' ∧ f.steps 2 (some 0, m) = some (none, m') ∧
      Tracks ⟨S, M, F⟩ sa sl.size st' m' := by
    intro M
    refine lowerVariant_unknown ⟨S, M, F⟩ hl hd hwt hws hoff hv ⟨hS, fun x _ => ?_⟩
    cases hx : m x with
    | none => right; simp [hx]
    | some b => left; simp [hx]
  obtain ⟨_, m1, -, h1, -⟩ := sim S
  obtain ⟨hr, hall⟩ := hg m1 ⟨2, h1⟩
  refine ⟨hr, fun m' hm' M hM => ?_⟩
  obtain ⟨st', m2, hx, h2, htr⟩ := sim M
  rw [h1] at h2
  cases h2
  obtain ⟨heq, hsrc⟩ := tracks_rest hS htr (hall m' hm') hM
  have hwt' := hwt
  have hws' := hws
  simp only [WF] at hwt' hws'
  have hno : Terms.noOut dts := straight_noOutTerms hst
  have hx' : xcode ⟨S, M, F⟩ (.variant dts dl) (.variant sts sl) [] [] sa da ⟨fun a => (m a).getD (M a), 0, none, 0, 0⟩ =
      dfltAt ⟨S, M, F⟩ dts dl dl.dflt [] da ⟨fun a => (m a).getD (M a), 0, none, 0, 0⟩ := by
    simp only [xcode, hp.slow, handlerMap, selectTerm_unknown hws'.2 hv]
    simp [xAt_unit]
  rw [hx'] at hx
  obtain ⟨s, e1, e2, -, -, e5⟩ := dres_run (t := .variant dts dl) (st := ⟨fun a => (m a).getD (M a), 0, none, 0, 0⟩)
    (dfltAt_tri ⟨S, M, F⟩ dts dts dl dl.dflt [] da _ w hwt'.1 hno hwt'.2 (fun _ h => h) hp.dout (by simpa [dfltVal] using hw))
    (dfltAt_frame ⟨S, M, F⟩ dts dl dl.dflt [] da _ hwt'.1 hno hp.dout hwt'.2.tagIn (hwt'.2.inside hp.dout))
    (by simp only [W64, Ty.size]; omega) (by simp [W64])
  rw [hx] at e1
  cases e1
  constructor
  · rw [← e2]
    refine readVal_variant _ _ dts dl da da hst hwt hp.dout fun i hi => heq _ ?_
    unfold Disj at hd
    omega
  · intro a ha b hab
    by_cases hs : sa ≤ a ∧ a < sa + sl.size
    · exact hsrc a hs.1 hs.2 b hab
    · rw [heq a hs, e5 a ha]
      simp [hab]

/-- **C58.**  A tag of no term: the coalesced function leaves the default value, and all else as before. -/
theorem C58_unknown_partial (F : Nat → Nat → Nat → Nat) (A : Aliasing) (S : Mem) (dts sts : Terms) (dl sl : VarL) (sa da : Nat)
    (m : UMem) (w : Val) (f : CFn) (hst : ∀ t ∈ dts.toList, t.ty.straight) (hwt : WF (.variant dts dl))
    (hws : WF (.variant sts sl)) (hoff : sl.termOff ≤ sl.size) (hd : Disj sa sl.size da dl.size)
    (hA : A.Sound sa sl.size da dl.size) (ht : TidyTerms dts dl sts) (hl : lowerVariant F A sa da dts dl sts sl = some f)
    (hS : ∀ x, sa ≤ x → x < sa + sl.size → m x = some (S x))
    (hv : ∀ t ∈ sts.toList, t.tag ≠ readN S (sa + sl.tagOff) sl.tagW)
    (hw : dfltVal (.variant dts dl) = some w) (hb : da + dl.size < 2 ^ 64) (tgt : CopyTarget) (memcpy : Bool) :
    Leaves (f.coalesce tgt memcpy) m (.variant dts dl) da w :=
  unknown_leaves F A S dts sts dl sl sa da m w f _ hst hwt hws hoff hd hl hS hv hw hb fun m' hm' =>
    C35_return_partial tgt memcpy f (lowerVariant_mono hl) m m' (lowerVariant_ok hl hA hd hwt hws ht _) hm'

/-- The same without poisons, whatever the terms are. -/
theorem C58_unknown_bare_partial (F : Nat → Nat → Nat → Nat) (A : Aliasing) (S : Mem) (dts sts : Terms) (dl sl : VarL) (sa da : Nat)
    (m : UMem) (w : Val) (f : CFn) (hst : ∀ t ∈ dts.toList, t.ty.straight) (hwt : WF (.variant dts dl))
    (hws : WF (.variant sts sl)) (hoff : sl.termOff ≤ sl.size) (hd : Disj sa sl.size da dl.size)
    (hA : A.Sound sa sl.size da dl.size) (hl : lowerVariant F A sa da dts dl sts sl = some f)
    (hS : ∀ x, sa ≤ x → x < sa + sl.size → m x = some (S x))
    (hv : ∀ t ∈ sts.toList, t.tag ≠ readN S (sa + sl.tagOff) sl.tagW)
    (hw : dfltVal (.variant dts dl) = some w) (hb : da + dl.size < 2 ^ 64) (tgt : CopyTarget) (memcpy : Bool) :
    Leaves (f.unpoisoned.coalesce tgt memcpy) m (.variant dts dl) da w := by
  refine unknown_leaves F A S dts sts dl sl sa da m w f _ hst hwt hws hoff hd hl hS hv hw hb fun m' hm' => ?_
  obtain ⟨k, hk⟩ := hm'
  obtain ⟨mn, h1, h2⟩ := bareVariant_steps hl hA hwt hws _ k _ hk
  obtain ⟨h3, h4⟩ := C35_return_partial tgt memcpy f.unpoisoned (bareVariant_mono hl) m mn (bareVariant_ok hl hA hd hwt hws _) ⟨k, h1⟩
  exact ⟨h3, fun mn' h => (h4 mn' h).trans h2⟩

namespace C58

theorem mem9 : ∀ t ∈ ots.toList, t.tag ≠ readN (mem 9) (100 + ol.tagOff) ol.tagW := by
  have h : readN (mem 9) (100 + ol.tagOff) ol.tagW = 9 := by decide +kernel
  rw [h]
  simp [ots, Terms.toList]

/-- A tag that only a later version of the sender has. -/
example (tgt : CopyTarget) (memcpy : Bool) : ∃ f, lowerVariant (fun _ _ b => b) C56.alias 100 200 nts nl ots ol = some f ∧
    Leaves (f.coalesce tgt memcpy) (fun a => some (mem 9 a)) (.variant nts nl) 200 (.variant ['n'] .unit) ∧
    Leaves (f.unpoisoned.coalesce tgt memcpy) (fun a => some (mem 9 a)) (.variant nts nl) 200 (.variant ['n'] .unit) := by
  obtain ⟨f, hf, -⟩ := code
  exact ⟨f, hf, C58_unknown_partial _ C56.alias (mem 9) nts ots nl ol 100 200 _ _ f nts_straight nts_wf ots_wf (by simp [ol]) apart
    (C56.alias_sound _ _ _ _ apart) nts_tidy hf (fun _ _ _ => rfl) mem9 rfl (by simp [nl]) tgt memcpy,
    C58_unknown_bare_partial _ C56.alias (mem 9) nts ots nl ol 100 200 _ _ f nts_straight nts_wf ots_wf (by simp [ol]) apart
    (C56.alias_sound _ _ _ _ apart) hf (fun _ _ _ => rfl) mem9 rfl (by simp [nl]) tgt memcpy⟩

end C58

end PJ
