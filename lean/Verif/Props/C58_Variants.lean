import Verif.Props.C35_Function
import Verif.Props.C56_StraightLine
import Verif.Lemmas.VariantBare
import Verif.Lemmas.VariantSame
/-!
# C58: conversions between variants survive copy coalescing
-/
namespace PJ

/-- What a function leaves if it returns: the value at `da`, and all else as before.  Undefined bytes may have any
value. -/
def Leaves (f : CFn) (m : UMem) (t : Ty) (da : Nat) (w : Val) : Prop :=
  (∃ m', f.Reach (some 0, m) (none, m')) ∧
    ∀ m', f.Reach (some 0, m) (none, m') → ∀ M : Mem, (∀ a, m' a = none ∨ m' a = some (M a)) →
      readVal M t da = some w ∧ ∀ a, ¬ (da ≤ a ∧ a < da + t.size) → ∀ b, m a = some b → M a = b

/-- The terms that are converted into each other start their structs with copies. -/
def TidyTerms (dts : Terms) (dl : VarL) (sts : Terms) : Prop :=
  ∀ t ∈ sts.toList, ∀ u ∈ dts.toList,
    u.name = t.name ∨ dts.hasName t.name = false ∧ dts.toList[dl.dflt]? = some u → t.ty.blank = true ∨ tidy u.ty t.ty = true

theorem variant_leaves (F : Nat → Nat → Nat → Nat) (A : Aliasing) (S : Mem) (dts sts : Terms) (dl sl : VarL) (sa da : Nat) (m : UMem)
    (v w : Val) (f g : CFn) (hst : ∀ t ∈ dts.toList, t.ty.straight) (hwt : WF (.variant dts dl)) (hws : WF (.variant sts sl))
    (hd : Disj sa sl.size da dl.size) (hl : lowerVariant F A sa da dts dl sts sl = some f)
    (hS : ∀ x, sa ≤ x → x < sa + sl.size → m x = some (S x)) (hv : readVal S (.variant sts sl) sa = some v)
    (hw : conv F (.variant dts dl) v = some w) (hb : da + dl.size < 2 ^ 64)
    (hg : ∀ m', f.Reach (some 0, m) (none, m') →
      (∃ mn, g.Reach (some 0, m) (none, mn)) ∧ ∀ mn, g.Reach (some 0, m) (none, mn) → Refines mn m') :
    Leaves g m (.variant dts dl) da w := by
  have hp := lowerVariant_parts hl
  have hc : Compat (.variant dts dl) (.variant sts sl) := by
    simp only [Compat]
    refine ⟨fun h => ?_, fun t _ => ?_⟩
    · rw [hp.slow] at h
      exact Bool.noConfusion h
    · split
      · exact terms_compatNamed hst
      · exact terms_compatAt hst
  have sim : ∀ M : Mem, ∃ st' m', xcode ⟨S, M, F⟩ (.variant dts dl) (.variant sts sl) [] [] sa da
      ⟨fun a => (m a).getD (M a), 0, none, 0, 0⟩ = .ok st' ∧ f.steps 2 (some 0, m) = some (none, m') ∧
      Tracks ⟨S, M, F⟩ sa sl.size st' m' := by
    intro M
    refine lowerVariant_sim ⟨S, M, F⟩ hl hd hwt hws hv ⟨hS, fun x _ => ?_⟩
    cases hx : m x with
    | none => right; simp [hx]
    | some b => left; simp [hx]
  obtain ⟨_, m1, -, h1, -⟩ := sim S
  obtain ⟨hr, hall⟩ := hg m1 ⟨2, h1⟩
  refine ⟨hr, fun m' hm' M hM => ?_⟩
  obtain ⟨st', m2, hx, h2, htr⟩ := sim M
  rw [h1] at h2
  cases h2
  exact tracks_refined F S _ _ sa da m m1 m' M v w hwt hws hd hc ⟨hp.dout, straight_noOutTerms hst⟩
    (fin_variant hp.dout hst v 0) hS hv hw hb hx htr (hall m' hm') hM

/-- **C58.**  The function for two variants whose terms have structs, integers and floats returns, and leaves the converted
value and all else as before. -/
theorem C58_lowered (F : Nat → Nat → Nat → Nat) (A : Aliasing) (S : Mem) (dts sts : Terms) (dl sl : VarL) (sa da : Nat) (m : UMem)
    (v w : Val) (f : CFn) (hst : ∀ t ∈ dts.toList, t.ty.straight) (hwt : WF (.variant dts dl)) (hws : WF (.variant sts sl))
    (hd : Disj sa sl.size da dl.size) (hl : lowerVariant F A sa da dts dl sts sl = some f)
    (hS : ∀ x, sa ≤ x → x < sa + sl.size → m x = some (S x)) (hv : readVal S (.variant sts sl) sa = some v)
    (hw : conv F (.variant dts dl) v = some w) (hb : da + dl.size < 2 ^ 64) : Leaves f m (.variant dts dl) da w := by
  refine variant_leaves F A S dts sts dl sl sa da m v w f f hst hwt hws hd hl hS hv hw hb fun m' hm' => ⟨⟨m', hm'⟩, fun mn hmn => ?_⟩
  obtain ⟨k1, h1⟩ := hm'
  obtain ⟨k2, h2⟩ := hmn
  have last : ∀ (a d : Nat) (x : UMem), f.steps a (some 0, m) = some (none, x) → d ≠ 0 → f.steps (a + d) (some 0, m) = none := by
    intro a d x hx h0
    induction d with
    | zero => exact (h0 rfl).elim
    | succ d ih =>
      rw [← Nat.add_assoc, CFn.steps_succ]
      by_cases hd : d = 0
      · subst hd; rw [Nat.add_zero, hx]; rfl
      · rw [ih hd]; rfl
  have e : k1 = k2 := by
    rcases Nat.lt_trichotomy k1 k2 with h | h | h
    · have := last k1 (k2 - k1) _ h1 (by omega)
      rw [show k1 + (k2 - k1) = k2 by omega, h2] at this
      exact nomatch this
    · exact h
    · have := last k2 (k1 - k2) _ h2 (by omega)
      rw [show k2 + (k1 - k2) = k1 by omega, h1] at this
      exact nomatch this
  subst e
  rw [h1] at h2
  cases h2
  exact Refines.refl _

/-- The same after copy coalescing of all blocks, for every promotion the target asks for. -/
theorem C58_optimised_partial (F : Nat → Nat → Nat → Nat) (A : Aliasing) (S : Mem) (dts sts : Terms) (dl sl : VarL) (sa da : Nat)
    (m : UMem) (v w : Val) (f : CFn) (hst : ∀ t ∈ dts.toList, t.ty.straight) (hwt : WF (.variant dts dl))
    (hws : WF (.variant sts sl)) (hd : Disj sa sl.size da dl.size) (hA : A.Sound sa sl.size da dl.size) (ht : TidyTerms dts dl sts)
    (hl : lowerVariant F A sa da dts dl sts sl = some f)
    (hS : ∀ x, sa ≤ x → x < sa + sl.size → m x = some (S x)) (hv : readVal S (.variant sts sl) sa = some v)
    (hw : conv F (.variant dts dl) v = some w) (hb : da + dl.size < 2 ^ 64) (tgt : CopyTarget) (memcpy : Bool) :
    Leaves (f.coalesce tgt memcpy) m (.variant dts dl) da w :=
  variant_leaves F A S dts sts dl sl sa da m v w f _ hst hwt hws hd hl hS hv hw hb fun m' hm' =>
    C35_return_partial tgt memcpy f (lowerVariant_mono hl) m m' (lowerVariant_ok hl hA hd hwt hws ht _) hm'

/-- Without the poisons the function survives copy coalescing whatever the terms are. -/
theorem C58_bare_partial (F : Nat → Nat → Nat → Nat) (A : Aliasing) (S : Mem) (dts sts : Terms) (dl sl : VarL) (sa da : Nat)
    (m : UMem) (v w : Val) (f : CFn) (hst : ∀ t ∈ dts.toList, t.ty.straight) (hwt : WF (.variant dts dl))
    (hws : WF (.variant sts sl)) (hd : Disj sa sl.size da dl.size) (hA : A.Sound sa sl.size da dl.size)
    (hl : lowerVariant F A sa da dts dl sts sl = some f)
    (hS : ∀ x, sa ≤ x → x < sa + sl.size → m x = some (S x)) (hv : readVal S (.variant sts sl) sa = some v)
    (hw : conv F (.variant dts dl) v = some w) (hb : da + dl.size < 2 ^ 64) (tgt : CopyTarget) (memcpy : Bool) :
    Leaves (f.unpoisoned.coalesce tgt memcpy) m (.variant dts dl) da w := by
  refine variant_leaves F A S dts sts dl sl sa da m v w f _ hst hwt hws hd hl hS hv hw hb fun m' hm' => ?_
  obtain ⟨k, hk⟩ := hm'
  obtain ⟨mn, h1, h2⟩ := bareVariant_steps hl hA hwt hws _ k _ hk
  obtain ⟨h3, h4⟩ := C35_return_partial tgt memcpy f.unpoisoned (bareVariant_mono hl) m mn (bareVariant_ok hl hA hd hwt hws _) ⟨k, h1⟩
  exact ⟨h3, fun mn' h => (h4 mn' h).trans h2⟩

/-- A variant that is not an enum, sent and received with its own protocol by coalesced code: there is code both ways, and
the received value is the one sent. -/
theorem C58_round_trip_partial (F : Nat → Nat → Nat → Nat) (A : Aliasing) (S : Mem) (hts wts : Terms) (hl wl : VarL) (path : Path)
    (p : Proto) (obj buf : Nat) (m : UMem) (v : Val) (hh : HostTy (.variant hts hl)) (hst : ∀ t ∈ hts.toList, t.ty.straight)
    (hf : ∀ t ∈ hts.toList, t.ty.full = true) (he : hts.isEnum = false) (hp : plan (.variant hts hl) path = some p)
    (hwire : p.head = .variant wts wl) (hwo : wl.outline = false) (hd : Disj obj hl.size buf wl.size)
    (hA : A.Sound obj hl.size buf wl.size) (hS : ∀ x, obj ≤ x → x < obj + hl.size → m x = some (S x))
    (hv : readVal S (.variant hts hl) obj = some v) (hb : buf + wl.size < 2 ^ 64) (tgt : CopyTarget) (memcpy : Bool) :
    ∃ f, lowerVariant F A obj buf wts wl hts hl = some f ∧ Leaves (f.coalesce tgt memcpy) m p.head buf v ∧
      ∀ m', (f.coalesce tgt memcpy).Reach (some 0, m) (none, m') → ∀ M : Mem, (∀ a, m' a = none ∨ m' a = some (M a)) →
        ∀ (B : Aliasing) (msg dst : Nat) (m2 : UMem) (tgt2 : CopyTarget) (memcpy2 : Bool), Disj msg wl.size dst hl.size →
          B.Sound msg wl.size dst hl.size → (∀ i, i < wl.size → m2 (msg + i) = some (M (buf + i))) → dst + hl.size < 2 ^ 64 →
          ∃ g, lowerVariant F B msg dst hts hl wts wl = some g ∧ Leaves (g.coalesce tgt2 memcpy2) m2 (.variant hts hl) dst v := by
  obtain ⟨hok, -, -, hrel, hfit⟩ := plan_ok _ path p hh.sch hh.small hh.plain hh.noOut hp
  have hww := hok.wf
  rw [hwire] at hrel hfit hww ⊢
  have hwh := hh.wf
  have hfv := readVal_fits S _ obj v hh.plain hv
  have same := rel_same hrel hst
  have hattr := plainTerms_attrs hh.plain.2
  have hho := hh.noOut.1
  have hwt : ∀ t ∈ hts.toList, WF t.ty := wfTerms_mem hwh.1
  have hwu : ∀ u ∈ wts.toList, WF u.ty := wfTerms_mem hww.1
  obtain ⟨f, hl1⟩ := lowerVariant_defined (F := F) (A := A) (sa := obj) (da := buf) hww hwh hwo hho (by simp [enumFast, he])
    same.straight same.attrs same.there (fun t ht u hu e => (rel_lower t.ty u.ty (same.rel t ht u hu e.symm) (hst t ht) (hwt t ht) (hwu u hu) _ _).2)
  have tidy1 : TidyTerms wts wl hts := by
    intro t ht u hu h
    rcases h with h | ⟨h, -⟩
    · exact .inr (rel_tidy (same.rel t ht u hu h.symm) (hf t ht) (hwt t ht) (hwu u hu)).2
    · rw [same.there t ht] at h
      exact Bool.noConfusion h
  have tidy2 : TidyTerms hts hl wts := by
    intro u hu t ht h
    rcases h with h | ⟨h, -⟩
    · exact .inr (rel_tidy (same.rel t ht u hu h) (hf t ht) (hwt t ht) (hwu u hu)).1
    · rw [same.back u hu] at h
      exact Bool.noConfusion h
  have h1 := C58_optimised_partial F A S wts hts wl hl obj buf m v v f same.straight hww hwh hd hA tidy1 hl1 hS hv
    (conv_fits F _ v hww (hfit v hfv)) hb tgt memcpy
  refine ⟨f, hl1, h1, fun m' hm' M hM B msg dst m2 tgt2 memcpy2 hd2 hB hm2 hb2 => ?_⟩
  obtain ⟨g, hl2⟩ := lowerVariant_defined (F := F) (A := B) (sa := msg) (da := dst) hwh hww hho hwo (by simp [enumFast, he])
    hst hattr same.back (fun u hu t ht e => (rel_lower t.ty u.ty (same.rel t ht u hu e) (hst t ht) (hwt t ht) (hwu u hu) _ _).1)
  refine ⟨g, hl2, ?_⟩
  have hr : readVal (fun x => M (buf + (x - msg))) (.variant wts wl) msg = some v := by
    rw [readVal_variant M _ wts wl buf msg same.straight hww hwo (fun i _ => by
      simp only [show msg + i - msg = i by omega])]
    exact (h1.2 m' hm' M hM).1
  exact C58_optimised_partial F B (fun x => M (buf + (x - msg))) hts wts hl wl msg dst m2 v v g hst hwh hww hd2 hB tidy2 hl2
    (fun x g1 g2 => by
      have := hm2 (x - msg) (by omega)
      rwa [show msg + (x - msg) = x by omega] at this) hr (conv_fits F _ v hwh hfv) hb2 tgt2 memcpy2

/-! ## Samples -/

namespace C58

open C56 (u8 u16 u32 old new old_wf new_wf alias alias_sound sent got sent_wf got_wf)

/-- `old` as the term `p`, an integer, a term that only the sender has, and an empty term. -/
def ots : Terms := .cons ['p'] 1 [] old (.cons ['q'] 2 [] u32 (.cons ['z'] 3 [] u16 (.cons ['n'] 4 [] .unit .nil)))
def ol : VarL := ⟨false, 3, 0, 8, 8, 1, 10, 2, 2⟩

/-- `new` as the term `p`, and other tags. -/
def nts : Terms := .cons ['n'] 5 [] .unit (.cons ['p'] 6 [] new (.cons ['q'] 7 [] u32 .nil))
def nl : VarL := ⟨false, 0, 0, 20, 20, 2, 24, 4, 4⟩

theorem ots_wf : WF (.variant ots ol) := by
  refine ⟨⟨old_wf, by simp [u32, WF], by simp [u16, WF], trivial, trivial⟩, ?_⟩
  constructor <;> simp [ots, ol, Terms.toList, Ty.size, old, u16, u32, Disj]

theorem nts_wf : WF (.variant nts nl) := by
  refine ⟨⟨trivial, new_wf, by simp [u32, WF], trivial⟩, ?_⟩
  constructor <;> simp [nts, nl, Terms.toList, Ty.size, new, u32, Disj]

theorem nts_straight : ∀ t ∈ nts.toList, t.ty.straight := by
  simp [nts, Terms.toList, new, Ty.straight, Fields.straight, u8, u16, u32]

theorem apart : Disj 100 ol.size 200 nl.size := by simp [Disj, ol, nl]

theorem nts_tidy : TidyTerms nts nl ots := by
  have h1 : tidy new old = true := by decide +kernel
  have h2 : tidy u32 u32 = true := by decide +kernel
  have h3 : tidy .unit u16 = true := by decide +kernel
  intro t ht u hu
  simp only [ots, nts, Terms.toList, List.mem_cons, List.not_mem_nil, or_false] at ht hu
  rcases ht with rfl | rfl | rfl | rfl <;> rcases hu with rfl | rfl | rfl <;>
    simp [Terms.hasName, nts, nl, Terms.toList, h1, h2, h3, Ty.blank]

/-- Memory with the tag `g` in the variant at 100. -/
def mem (g : UInt8) : Mem := fun a => if a = 108 then g else UInt8.ofNat a

theorem code : ∃ f, lowerVariant (fun _ _ b => b) alias 100 200 nts nl ots ol = some f ∧ f.length = 6 := ⟨_, rfl, rfl⟩

/-- The term `p`: two new fields and one wider. -/
example (tgt : CopyTarget) (memcpy : Bool) : ∃ f, lowerVariant (fun _ _ b => b) alias 100 200 nts nl ots ol = some f ∧
    Leaves (f.coalesce tgt memcpy) (fun a => some (mem 1 a)) (.variant nts nl) 200
      (.variant ['p'] (.struct [(['z'], .int 0), (['a'], .int (100 + 256 * 101)),
        (['n'], .struct [(['x'], .int 102), (['y'], .int 103), (['w'], .int 0)]),
        (['b'], .int (104 + 256 * 105)), (['d'], .int 106)])) := by
  obtain ⟨f, hf, -⟩ := code
  exact ⟨f, hf, C58_optimised_partial _ alias (mem 1) nts ots nl ol 100 200 _ _ _ f nts_straight nts_wf ots_wf apart
    (alias_sound _ _ _ _ apart) nts_tidy hf (fun _ _ _ => rfl) rfl rfl (by simp [nl]) tgt memcpy⟩

/-- The term `z`, which the receiver does not know. -/
example (tgt : CopyTarget) (memcpy : Bool) : ∃ f, lowerVariant (fun _ _ b => b) alias 100 200 nts nl ots ol = some f ∧
    Leaves (f.coalesce tgt memcpy) (fun a => some (mem 3 a)) (.variant nts nl) 200 (.variant ['n'] .unit) := by
  obtain ⟨f, hf, -⟩ := code
  exact ⟨f, hf, C58_optimised_partial _ alias (mem 3) nts ots nl ol 100 200 _ _ _ f nts_straight nts_wf ots_wf apart
    (alias_sound _ _ _ _ apart) nts_tidy hf (fun _ _ _ => rfl) rfl rfl (by simp [nl]) tgt memcpy⟩

/-- The same before copy coalescing. -/
example : ∃ f, lowerVariant (fun _ _ b => b) alias 100 200 nts nl ots ol = some f ∧
    Leaves f (fun a => some (mem 2 a)) (.variant nts nl) 200
      (.variant ['q'] (.int (100 + 256 * 101 + 65536 * 102 + 16777216 * 103))) := by
  obtain ⟨f, hf, -⟩ := code
  exact ⟨f, hf, C58_lowered _ alias (mem 2) nts ots nl ol 100 200 _ _ _ f nts_straight nts_wf ots_wf apart hf (fun _ _ _ => rfl)
    rfl rfl (by simp [nl])⟩

/-- The variant meets the conditions of the round trip. -/
example : HostTy (.variant ots ol) ∧ (∀ t ∈ ots.toList, t.ty.straight) ∧ (∀ t ∈ ots.toList, t.ty.full = true) ∧
    ots.isEnum = false ∧ ∃ p wts wl, plan (.variant ots ol) [] = some p ∧ p.head = .variant wts wl ∧ wl.outline = false ∧
      wl.size = 8 := by
  have hfull : old.full = true := by decide +kernel
  refine ⟨⟨ots_wf, ?_, ?_, ?_, ?_⟩, ?_, ?_, by decide +kernel, _, _, _, rfl, rfl, rfl, by decide +kernel⟩
  · simp [ots, ol, old, u8, u16, u32, Sch, SchTerms, SchFields, Fields.toList, Terms.toList]
  · simp only [Small]
    decide +kernel
  · simp [ots, old, u8, u16, u32, Plain, PlainTerms, PlainFields, Terms.toList]
  · simp [ots, ol, old, u8, u16, u32, Ty.noOut, Terms.noOut, Fields.noOut]
  · simp [ots, Terms.toList, old, Ty.straight, Fields.straight, u8, u16, u32]
  · simp only [ots, Terms.toList, List.forall_mem_cons, hfull, true_and]
    simp [Ty.full, u16, u32]

/-! A struct that is new inside of a term. -/

def sts : Terms := .cons ['p'] 1 [] sent .nil
def sl : VarL := ⟨false, 0, 0, 4, 4, 1, 6, 2, 2⟩
def gts : Terms := .cons ['p'] 1 [] got .nil
def gl : VarL := ⟨false, 0, 0, 6, 6, 1, 8, 2, 2⟩

theorem sts_wf : WF (.variant sts sl) := by
  refine ⟨⟨sent_wf, trivial⟩, ?_⟩
  constructor <;> simp [sts, sl, Terms.toList, Ty.size, sent, Disj]

theorem gts_wf : WF (.variant gts gl) := by
  refine ⟨⟨got_wf, trivial⟩, ?_⟩
  constructor <;> simp [gts, gl, Terms.toList, Ty.size, got, Disj]

/-- Memory with the tag in the variant at 100. -/
def msg : Mem := fun a => if a = 104 then 1 else UInt8.ofNat a
def fn : CFn := (lowerVariant (fun _ _ b => b) alias 100 200 gts gl sts sl).getD []
def tgt : CopyTarget := (Ty.variant sts sl).ptrs.target 16
def left : UMem := ((CFn.steps (fn.coalesce tgt true) 2 (some 0, fun a => some (msg a))).map (·.2)).getD fun _ => none

/-- Without poisons it arrives. -/
example (tgt : CopyTarget) (memcpy : Bool) : ∃ f, lowerVariant (fun _ _ b => b) alias 100 200 gts gl sts sl = some f ∧
    Leaves (f.unpoisoned.coalesce tgt memcpy) (fun a => some (msg a)) (.variant gts gl) 200
      (.variant ['p'] (.struct [(['a'], .int 25956), (['b'], .int 102), (['c'], .struct [(['x'], .int 0)]), (['d'], .int 103)])) := by
  have hd : Disj 100 sl.size 200 gl.size := by simp [Disj, sl, gl]
  exact ⟨_, rfl, C58_bare_partial (fun _ _ b => b) alias msg gts sts gl sl 100 200 _ _ _ _
    (by simp [gts, Terms.toList, got, Ty.straight, Fields.straight, u8, u16]) gts_wf sts_wf hd
    (alias_sound _ _ _ _ hd) rfl (fun _ _ _ => rfl) rfl rfl (by simp [gl]) tgt memcpy⟩

end C58

/-- The condition on terms is needed. -/
theorem C58_violated : ∃ (dts sts : Terms) (dl sl : VarL) (S : Mem) (f : CFn) (v w : Val) (tgt : CopyTarget),
    (∀ t ∈ dts.toList, t.ty.straight) ∧ WF (.variant dts dl) ∧ WF (.variant sts sl) ∧ Disj 100 sl.size 200 dl.size ∧
    C56.alias.Sound 100 sl.size 200 dl.size ∧ lowerVariant (fun _ _ b => b) C56.alias 100 200 dts dl sts sl = some f ∧
    readVal S (.variant sts sl) 100 = some v ∧ conv (fun _ _ b => b) (.variant dts dl) v = some w ∧
    ¬ Leaves (f.coalesce tgt true) (fun a => some (S a)) (.variant dts dl) 200 w := by
  have hd : Disj 100 C58.sl.size 200 C58.gl.size := by simp [Disj, C58.sl, C58.gl]
  refine ⟨C58.gts, C58.sts, C58.gl, C58.sl, C58.msg, C58.fn, _,
    .variant ['p'] (.struct [(['a'], .int 25956), (['b'], .int 102), (['c'], .struct [(['x'], .int 0)]), (['d'], .int 103)]), C58.tgt, ?_, C58.gts_wf, C58.sts_wf, hd,
    C56.alias_sound _ _ _ _ hd, rfl, rfl, rfl, fun h => ?_⟩
  · simp [C58.gts, Terms.toList, C56.got, C56.u8, C56.u16, Ty.straight, Fields.straight]
  · have hx : (CFn.steps (C58.fn.coalesce C58.tgt true) 2 (some 0, fun a => some (C58.msg a))).any (fun s => s.1.isNone) = true := by
      decide +kernel
    have hs : ∃ m', CFn.steps (C58.fn.coalesce C58.tgt true) 2 (some 0, fun a => some (C58.msg a)) = some (none, m') ∧
        m' = C58.left := by
      unfold C58.left
      revert hx
      cases CFn.steps (C58.fn.coalesce C58.tgt true) 2 (some 0, fun a => some (C58.msg a)) with
      | none => intro h; exact Bool.noConfusion h
      | some s =>
        obtain ⟨o, m'⟩ := s
        cases o with
        | some b => intro h; exact Bool.noConfusion h
        | none => intro _; exact ⟨m', rfl, rfl⟩
    obtain ⟨m', h1, rfl⟩ := hs
    have h2 := (h.2 _ ⟨2, h1⟩ (fun a => (C58.left a).getD 0) (fun a => by cases C58.left a <;> simp)).1
    have h3 : readN (fun a => (C58.left a).getD 0) 206 1 = 1 ∧ readN (fun a => (C58.left a).getD 0) 200 2 = 25956 ∧
        readN (fun a => (C58.left a).getD 0) 202 1 = 102 ∧
        readN (fun a => (C58.left a).getD 0) 203 1 = 103 ∧ readN (fun a => (C58.left a).getD 0) 204 1 = 103 := by
      decide +kernel
    simp only [C58.gts, C58.gl, C56.got, C56.u8, C56.u16, readVal, readTerm, readFields, Nat.add_zero, Nat.reduceAdd, h3.1, h3.2.1,
      h3.2.2.1, h3.2.2.2.1, h3.2.2.2.2, if_true] at h2
    simp [intValue] at h2

end PJ
