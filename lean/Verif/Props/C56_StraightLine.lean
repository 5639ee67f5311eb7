import Verif.Lemmas.StraightDefined
import Verif.Lemmas.StraightSame
import Verif.Lemmas.Run
import Verif.Props.C01_RoundTrip
import Verif.Props.C55_SafeRead
/-!
# C56: straight-line conversions survive copy coalescing
-/
namespace PJ

/-- Code whose memory is that of the lowered block up to undefined bytes makes the converted value, and nothing else. -/
theorem straight_refined (F : Nat → Nat → Nat → Nat) (A : Aliasing) (S : Mem) (t src : Ty) (sa da : Nat)
    (is : List Inst) (m m' : UMem) (v w : Val) (hwt : WF t) (hws : WF src) (hd : Disj sa src.size da t.size)
    (hl : lower F A sa da t src 0 0 = some is) (hS : ∀ x, sa ≤ x → x < sa + src.size → m x = some (S x))
    (hv : readVal S src sa = some v) (hw : conv F t v = some w) (hb : da + t.size < 2 ^ 64)
    (hr : Refines m' (runBlock (rootsAt sa da) is m)) (M : Mem) (hM : ∀ a, m' a = none ∨ m' a = some (M a)) :
    readVal M t da = some w ∧ ∀ a, ¬ (da ≤ a ∧ a < da + t.size) → ∀ b, m a = some b → M a = b := by
  have hsim : Tracks ⟨S, M, F⟩ sa src.size ⟨fun a => (m a).getD (M a), 0, none, 0, 0⟩ m := by
    refine ⟨hS, fun x _ => ?_⟩
    cases hx : m x with
    | none => right; simp [hx]
    | some b => left; simp [hx]
  obtain ⟨st, h1, h2⟩ := lower_sim ⟨S, M, F⟩ hd t src [] [] 0 0 _ m is hl hwt hws (by omega) (by omega) hsim
  simp only [Nat.add_zero] at h1
  obtain ⟨-, hno, hcomp⟩ := lower_noOut hl
  have hfin := fin_straight t v 0 (lower_straight hl)
  have hran := xcode_ran ⟨S, M, F⟩ t src [] sa da _ st v w hwt hws hcomp (noOut_outAt _ _ _ hno) (HsOK_nil _) hv hw
    (by simp only [hfin, W64]; omega) (by simp only [W64]; omega) (by unfold Disj; simp only [hfin]; omega) h1
  have heq : ∀ a, ¬ (sa ≤ a ∧ a < sa + src.size) → M a = st.mem a := by
    intro a ha
    rcases h2.dst a ha with h | ⟨-, h⟩
    · rcases hr a with g | g
      · rw [h] at g; simp at g
      · rcases hM a with k | k
        · rw [k, h] at g; simp at g
        · rw [k, h] at g
          simpa using g
    · exact h.symm
  constructor
  · refine hran.stable M (fun a ha => ?_)
    simp only [hfin] at ha
    refine heq a (fun hs => ?_)
    unfold Disj at hd
    omega
  · intro a ha b hb
    by_cases hs : sa ≤ a ∧ a < sa + src.size
    · have h := h2.src a hs.1 hs.2
      have := hS a hs.1 hs.2
      rcases hr a with g | g
      · rw [h] at g; simp at g
      · rcases hM a with k | k
        · rw [k, h] at g; simp at g
        · rw [k, h, ← this, hb] at g
          simpa using g
    · rw [heq a hs, hran.frame a ha (by simp only [hfin]; omega)]
      simp [hb]

/-- **C56.**  A conversion of structs, integers and floats has code without branches, and the code leaves the memory of the
conversion: converted value, and all else as before.  Undefined bytes may have any value. -/
theorem C56_lowered (F : Nat → Nat → Nat → Nat) (A : Aliasing) (S : Mem) (t src : Ty) (sa da : Nat) (m : UMem)
    (v w : Val) (hst : t.straight) (hwt : WF t) (hws : WF src) (hd : Disj sa src.size da t.size)
    (hS : ∀ x, sa ≤ x → x < sa + src.size → m x = some (S x)) (hv : readVal S src sa = some v)
    (hw : conv F t v = some w) (hb : da + t.size < 2 ^ 64) :
    ∃ is, lower F A sa da t src 0 0 = some is ∧
      ∀ M : Mem, (∀ a, runBlock (rootsAt sa da) is m a = none ∨ runBlock (rootsAt sa da) is m a = some (M a)) →
        readVal M t da = some w ∧ ∀ a, ¬ (da ≤ a ∧ a < da + t.size) → ∀ b, m a = some b → M a = b := by
  obtain ⟨is, hl⟩ := lower_defined (A := A) (sa := sa) (da := da) S t src sa 0 0 v w hst hwt hws hv hw
  exact ⟨is, hl, fun M hM => straight_refined F A S t src sa da is m _ v w hwt hws hd hl hS hv hw hb (Refines.refl _) M hM⟩

/-- The same after copy coalescing, for every promotion the target asks for, if the alias analysis is sound for source and
destination, and all structs in it that are not the whole start with a copy. -/
theorem C56_optimised_partial (F : Nat → Nat → Nat → Nat) (A : Aliasing) (S : Mem) (t src : Ty) (sa da : Nat) (m : UMem)
    (v w : Val) (hst : t.straight) (hwt : WF t) (hws : WF src) (hd : Disj sa src.size da t.size)
    (hA : A.Sound sa src.size da t.size) (ht : tidy t src = true)
    (hS : ∀ x, sa ≤ x → x < sa + src.size → m x = some (S x)) (hv : readVal S src sa = some v)
    (hw : conv F t v = some w) (hb : da + t.size < 2 ^ 64) (tgt : CopyTarget) :
    ∃ is, lower F A sa da t src 0 0 = some is ∧
      ∀ M : Mem, (∀ a, runBlock (rootsAt sa da) (coalesce tgt {} is) m a = none ∨
          runBlock (rootsAt sa da) (coalesce tgt {} is) m a = some (M a)) →
        readVal M t da = some w ∧ ∀ a, ¬ (da ≤ a ∧ a < da + t.size) → ∀ b, m a = some b → M a = b := by
  obtain ⟨is, hl⟩ := lower_defined (A := A) (sa := sa) (da := da) S t src sa 0 0 v w hst hwt hws hv hw
  refine ⟨is, hl, fun M hM => straight_refined F A S t src sa da is m _ v w hwt hws hd hl hS hv hw hb ?_ M hM⟩
  exact C35_flush_partial _ _ tgt is m
    (lower_flush hA hd t src is hl ht hwt hws (Nat.le_refl _) (Nat.le_refl _))

/-- Without the poisons every conversion of structs, integers and floats survives copy coalescing. -/
theorem C56_bare_partial (F : Nat → Nat → Nat → Nat) (A : Aliasing) (S : Mem) (t src : Ty) (sa da : Nat) (m : UMem)
    (v w : Val) (hst : t.straight) (hwt : WF t) (hws : WF src) (hd : Disj sa src.size da t.size)
    (hA : A.Sound sa src.size da t.size)
    (hS : ∀ x, sa ≤ x → x < sa + src.size → m x = some (S x)) (hv : readVal S src sa = some v)
    (hw : conv F t v = some w) (hb : da + t.size < 2 ^ 64) (tgt : CopyTarget) :
    ∃ is, lower F A sa da t src 0 0 = some is ∧
      ∀ M : Mem, (∀ a, runBlock (rootsAt sa da) (coalesce tgt {} (unpoisoned is)) m a = none ∨
          runBlock (rootsAt sa da) (coalesce tgt {} (unpoisoned is)) m a = some (M a)) →
        readVal M t da = some w ∧ ∀ a, ¬ (da ≤ a ∧ a < da + t.size) → ∀ b, m a = some b → M a = b := by
  obtain ⟨is, hl⟩ := lower_defined (A := A) (sa := sa) (da := da) S t src sa 0 0 v w hst hwt hws hv hw
  refine ⟨is, hl, fun M hM => straight_refined F A S t src sa da is m _ v w hwt hws hd hl hS hv hw hb ?_ M hM⟩
  refine (C35_flush_partial _ _ tgt _ m
    (bare_flush hA hd t src is hl hwt hws (Nat.le_refl _) (Nat.le_refl _))).trans ?_
  exact bare_refines hA is m m (lower_pieces t src 0 0 is hl hwt hws (by omega) (by omega)) (Refines.refl m)

/-- Neither the block nor what becomes of it reads beyond the source. -/
theorem C56_inside (F : Nat → Nat → Nat → Nat) (A : Aliasing) (t src : Ty) (sa da mp : Nat) (is : List Inst) (hwt : WF t)
    (hws : WF src) (hn : src.noOut) (small : 2 * src.size + 2 * mp < 2 ^ 64)
    (hl : lower F A sa da t src 0 0 = some is) :
    Inside (fun _ => src.size) is ∧ Inside (fun _ => src.size) (coalesce (src.ptrs.target mp) {} is) ∧
      Inside (fun _ => src.size) (coalesce (src.ptrs.target mp) {} (unpoisoned is)) := by
  have hp := lower_pieces (N := src.size) (M := t.size) t src 0 0 is hl hwt hws (by omega) (by omega)
  have key : ∀ i ∈ is, ∀ r o l, i.source = some (r, o, l) → r = 0 ∧ o + l ≤ src.size := by
    intro i hi r o l h
    cases hp i hi with
    | poison => simp [Inst.source] at h
    | copy s d n h1 h2 =>
      simp only [Inst.source, Option.map_some, Option.some.injEq, Prod.mk.injEq] at h
      omega
    | conv => simp [Inst.source] at h
  have hin : Inside (fun _ => src.size) is := fun i hi r o l h => (key i hi r o l h).2
  refine ⟨hin, C55_source_partial src mp is hws hn small (fun i hi r o l h => (key i hi r o l h).1) hin, ?_⟩
  have hsub : ∀ i ∈ unpoisoned is, i ∈ is := fun i hi => (List.mem_filter.1 hi).1
  exact C55_source_partial src mp _ hws hn small (fun i hi r o l h => (key i (hsub i hi) r o l h).1)
    (fun i hi r o l h => hin i (hsub i hi) r o l h)

/-- A struct none of whose structs is empty, sent and received with its own protocol by coalesced code: the received value is
the one sent. -/
theorem C56_round_trip_partial (F : Nat → Nat → Nat → Nat) (A : Aliasing) (S : Mem) (host : Ty) (path : Path) (p : Proto)
    (obj buf : Nat) (m : UMem) (v : Val) (hh : HostTy host) (hst : host.straight) (hf : host.full = true)
    (hp : plan host path = some p) (hd : Disj obj host.size buf p.head.size)
    (hA : A.Sound obj host.size buf p.head.size)
    (hS : ∀ x, obj ≤ x → x < obj + host.size → m x = some (S x)) (hv : readVal S host obj = some v)
    (hb : buf + p.head.size < 2 ^ 64) (tgt : CopyTarget) :
    ∃ is, lower F A obj buf p.head host 0 0 = some is ∧
      ∀ M : Mem, (∀ a, runBlock (rootsAt obj buf) (coalesce tgt {} is) m a = none ∨
          runBlock (rootsAt obj buf) (coalesce tgt {} is) m a = some (M a)) →
        ∀ (B : Aliasing) (msg dst : Nat) (m2 : UMem) (tgt2 : CopyTarget), Disj msg p.head.size dst host.size →
          B.Sound msg p.head.size dst host.size →
          (∀ i, i < p.head.size → m2 (msg + i) = some (M (buf + i))) → dst + host.size < 2 ^ 64 →
          ∃ js, lower F B msg dst host p.head 0 0 = some js ∧
            ∀ M2 : Mem, (∀ a, runBlock (rootsAt msg dst) (coalesce tgt2 {} js) m2 a = none ∨
                runBlock (rootsAt msg dst) (coalesce tgt2 {} js) m2 a = some (M2 a)) →
              readVal M2 host dst = some v := by
  obtain ⟨hok, -, -, hrel, hfit⟩ := plan_ok host path p hh.sch hh.small hh.plain hh.noOut hp
  have hfv := readVal_fits S host obj v hh.plain hv
  have ht := rel_tidy hrel hf hh.wf hok.wf
  have hsw := rel_straight host p.head hrel hst
  obtain ⟨is, hl, h1⟩ := C56_optimised_partial F A S p.head host obj buf m v v hsw hok.wf hh.wf hd hA ht.2 hS hv
    (conv_fits F p.head v hok.wf (hfit v hfv)) hb tgt
  refine ⟨is, hl, fun M hM B msg dst m2 tgt2 hd2 hB hm2 hb2 => ?_⟩
  have hr : readVal (fun x => M (buf + (x - msg))) p.head msg = some v := by
    rw [readVal_straight M _ p.head buf msg hsw hok.wf (fun i _ => by
      simp only [show msg + i - msg = i by omega])]
    exact (h1 M hM).1
  obtain ⟨js, hj, h2⟩ := C56_optimised_partial F B (fun x => M (buf + (x - msg))) host p.head msg dst m2 v v hst hh.wf
    hok.wf hd2 hB ht.1 (fun x g1 g2 => by
      have := hm2 (x - msg) (by omega)
      rwa [show msg + (x - msg) = x by omega] at this) hr (conv_fits F host v hh.wf hfv) hb2 tgt2
  exact ⟨js, hj, fun M2 hM2 => (h2 M2 hM2).1⟩

/-! ## Samples -/

namespace C56

/-- Everything but the source may be written, only the source may be read. -/
def alias : Aliasing := ⟨fun _ _ _ _ r _ => r != 0, fun _ _ _ _ r _ => r == 0⟩

theorem alias_sound (sa N da M : Nat) (hd : Disj sa N da M) : alias.Sound sa N da M := by
  unfold Disj at hd
  constructor
  · intro ra rl wa wl r n x _ _ h3 h4 h5 h6 h7 h8 h9
    rcases h5 with ⟨rfl, h5⟩ | ⟨rfl, -⟩
    · simp only [rootsAt, if_true] at h8 h9
      omega
    · simp [alias]
  · intro ra rl wa wl r n x h1 h2 _ _ h5 h6 h7 h8 h9
    rcases h5 with ⟨rfl, -⟩ | ⟨rfl, h5⟩
    · simp [alias]
    · simp only [rootsAt, Nat.one_ne_zero, if_false] at h8 h9
      omega

def u8 : Ty := .int 1 .unsigned 1
def u16 : Ty := .int 2 .unsigned 2
def u32 : Ty := .int 4 .unsigned 4

/-- `{ a : u16, n : { x : u8, y : u8 }, b : u16, d : u8 }` -/
def old : Ty := .struct (.cons ['a'] 0 u16 (.cons ['n'] 2 (.struct (.cons ['x'] 0 u8 (.cons ['y'] 1 u8 .nil)) 2 1)
  (.cons ['b'] 4 u16 (.cons ['d'] 6 u8 .nil)))) 8 2

/-- `{ z : u32, a : u16, n : { x : u8, y : u8, w : u16 }, b : u32, d : u8 }`: a field wider, two more. -/
def new : Ty := .struct (.cons ['z'] 0 u32 (.cons ['a'] 4 u16
  (.cons ['n'] 6 (.struct (.cons ['x'] 0 u8 (.cons ['y'] 1 u8 (.cons ['w'] 2 u16 .nil))) 4 2)
  (.cons ['b'] 12 u32 (.cons ['d'] 16 u8 .nil))))) 20 4

theorem old_wf : WF old := by
  refine ⟨⟨by simp [u16, WF], ⟨⟨by simp [u8, WF], by simp [u8, WF], trivial⟩, ?_, ?_, ?_⟩, by simp [u16, WF],
    by simp [u8, WF], trivial⟩, ?_, ?_, ?_⟩ <;> simp [Fields.toList, Ty.size, u8, u16, Disj]

theorem new_wf : WF new := by
  refine ⟨⟨by simp [u32, WF], by simp [u16, WF], ⟨⟨by simp [u8, WF], by simp [u8, WF], by simp [u16, WF], trivial⟩, ?_, ?_,
    ?_⟩, by simp [u32, WF], by simp [u8, WF], trivial⟩, ?_, ?_, ?_⟩ <;> simp [Fields.toList, Ty.size, u8, u16, u32, Disj]

def mem : Mem := fun a => UInt8.ofNat a

/-- Two new fields, one of them in the middle, and one wider: the received value, whatever the target. -/
example (tgt : CopyTarget) : ∃ is, lower (fun _ _ b => b) alias 100 200 new old 0 0 = some is ∧
    ∀ M : Mem, (∀ a, runBlock (rootsAt 100 200) (coalesce tgt {} is) (fun a => some (mem a)) a = none ∨
        runBlock (rootsAt 100 200) (coalesce tgt {} is) (fun a => some (mem a)) a = some (M a)) →
      readVal M new 200 = some (.struct [(['z'], .int 0), (['a'], .int (100 + 256 * 101)),
        (['n'], .struct [(['x'], .int 102), (['y'], .int 103), (['w'], .int 0)]),
        (['b'], .int (104 + 256 * 105)), (['d'], .int 106)]) := by
  obtain ⟨is, h, g⟩ := C56_optimised_partial (fun _ _ b => b) alias mem new old 100 200 (fun a => some (mem a)) _ _
    (by simp [new, Ty.straight, Fields.straight, u8, u16, u32]) new_wf old_wf (by simp [Disj, old, new, Ty.size])
    (alias_sound _ _ _ _ (by simp [Disj, old, new, Ty.size])) (by decide +kernel) (fun _ _ _ => rfl) rfl rfl
    (by simp [new, Ty.size]) tgt
  exact ⟨is, h, fun M hM => (g M hM).1⟩

/-- The struct has no empty struct in it, and can be planned. -/
example : HostTy old ∧ old.straight ∧ old.full = true ∧ ∃ p, plan old [] = some p ∧ p.head.size = 7 := by
  refine ⟨⟨old_wf, ?_, ?_, ?_, ?_⟩, ?_, by decide +kernel, _, rfl, by decide +kernel⟩
  · simp [old, u8, u16, Sch, SchFields, Fields.toList]
  · simp [old, u8, u16, Small, SmallFields]
  · simp [old, u8, u16, Plain, PlainFields]
  · simp [old, u8, u16, Ty.noOut, Fields.noOut]
  · simp [old, u8, u16, Ty.straight, Fields.straight]

/-! A struct that is new: `{ a : u16, b : u8, d : u8 }` is received as `{ a : u16, b : u8, c : { x : u8 }, d : u8 }`. -/

def sent : Ty := .struct (.cons ['a'] 0 u16 (.cons ['b'] 2 u8 (.cons ['d'] 3 u8 .nil))) 4 2
def got : Ty := .struct (.cons ['a'] 0 u16 (.cons ['b'] 2 u8
  (.cons ['c'] 3 (.struct (.cons ['x'] 0 u8 .nil) 1 1) (.cons ['d'] 4 u8 .nil)))) 6 2

theorem sent_wf : WF sent := by
  refine ⟨⟨by simp [u16, WF], by simp [u8, WF], by simp [u8, WF], trivial⟩, ?_, ?_, ?_⟩ <;>
    simp [Fields.toList, Ty.size, u8, u16, Disj]

theorem got_wf : WF got := by
  refine ⟨⟨by simp [u16, WF], by simp [u8, WF], ⟨⟨by simp [u8, WF], trivial⟩, ?_, ?_, ?_⟩, by simp [u8, WF], trivial⟩, ?_, ?_,
    ?_⟩ <;> simp [Fields.toList, Ty.size, u8, u16, Disj]

def wire : Proto := genOffset (layout (prepare sent []))
def code : List Inst := (lower (fun _ _ b => b) alias 100 200 got wire.head 0 0).getD []
def left : UMem := runBlock (rootsAt 100 200) (coalesce (wire.head.ptrs.target 16) {} code) fun a => some (mem a)

end C56

/-- The condition on structs is needed: the default of a struct that the sender does not know is overwritten with another
field of the message.  The poison of the struct waits with the copies around it, the default is stored before them, and one
longer copy does for them all. -/
theorem C56_violated : ∃ p is v w, HostTy C56.sent ∧ WF C56.got ∧ C56.got.straight ∧ plan C56.sent [] = some p ∧
    C56.alias.Sound 100 p.head.size 200 C56.got.size ∧
    readVal C56.mem p.head 100 = some v ∧ conv (fun _ _ b => b) C56.got v = some w ∧
    lower (fun _ _ b => b) C56.alias 100 200 C56.got p.head 0 0 = some is ∧
    ∃ M : Mem, (∀ a, runBlock (rootsAt 100 200) (coalesce (p.head.ptrs.target 16) {} is) (fun a => some (C56.mem a)) a = none ∨
        runBlock (rootsAt 100 200) (coalesce (p.head.ptrs.target 16) {} is) (fun a => some (C56.mem a)) a = some (M a)) ∧
      w = .struct [(['a'], .int 25956), (['b'], .int 102), (['c'], .struct [(['x'], .int 0)]), (['d'], .int 103)] ∧
      readVal M C56.got 200 =
        some (.struct [(['a'], .int 25956), (['b'], .int 102), (['c'], .struct [(['x'], .int 103)]), (['d'], .int 103)]) := by
  refine ⟨C56.wire, C56.code, _, _, ⟨C56.sent_wf, ?_, ?_, ?_, ?_⟩, C56.got_wf, ?_, rfl, C56.alias_sound _ _ _ _ ?_, rfl, rfl,
    rfl, fun a => (C56.left a).getD 0, fun a => ?_, rfl, ?_⟩
  · simp [C56.sent, C56.u8, C56.u16, Sch, SchFields, Fields.toList]
  · simp [C56.sent, C56.u8, C56.u16, Small, SmallFields]
  · simp [C56.sent, C56.u8, C56.u16, Plain, PlainFields]
  · simp [C56.sent, C56.u8, C56.u16, Ty.noOut, Fields.noOut]
  · simp [C56.got, C56.u8, C56.u16, Ty.straight, Fields.straight]
  · exact .inr (.inr (.inl (by decide +kernel)))
  · change C56.left a = none ∨ C56.left a = some ((C56.left a).getD 0)
    cases C56.left a <;> simp
  · have h : readN (fun a => (C56.left a).getD 0) 200 2 = 25956 ∧ readN (fun a => (C56.left a).getD 0) 202 1 = 102 ∧
        readN (fun a => (C56.left a).getD 0) 203 1 = 103 ∧ readN (fun a => (C56.left a).getD 0) 204 1 = 103 := by
      decide +kernel
    simp only [C56.got, C56.u8, C56.u16, readVal, readFields, Nat.add_zero, Nat.reduceAdd, h.1, h.2.1, h.2.2.1, h.2.2.2]
    rfl

end PJ
