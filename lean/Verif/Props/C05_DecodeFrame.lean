import Verif.Spec.Samples
import Verif.Lemmas.Account
/-!
# C05: decode writes only into the destination and the supplied buffer

False in general: the byte count of a vector is computed modulo 2^64 (`C05_violated`), and a sender
which keeps many elements in the head overruns a short receiver (`C14_violated`, excluded by `Tame`).
Proved for all message bytes when every vector of the host type has a maximum length
(`C05_bounded_partial`), and for any host type and all message bytes that do not ask for more than 2^63
bytes in total (`C05_total_partial`).
-/
namespace PJ

/-- The number of bytes a run has asked from the buffer. -/
def Res.asked : Res → Nat
  | .ok s => s.used
  | .throw s => s.used
  | .ub => 0

/-- The transcode call inside the decode function. -/
def decodeRun (E : Env) (p : Proto) (host : Ty) (hs : Handlers) (msg obj buf cap : Nat) (mem : Mem) : Res :=
  xcode E host p.head [] hs msg obj { mem := mem, ptr := buf, rem := some cap, cb := 0, used := 0 }

theorem decode_ok {E : Env} {p : Proto} {host : Ty} {hs : Handlers} {msg obj buf cap : Nat} {mem : Mem}
    {s : St} (h : xcode E host p.head [] hs msg obj ⟨mem, buf, some cap, 0, 0⟩ = .ok s) :
    decode E p host hs msg obj buf cap mem = some ⟨s.mem, s.ptr, s.rem.getD 0, invoked s.cb⟩ := by
  unfold decode; rw [h]

theorem decode_frame {E : Env} {p : Proto} {host : Ty} {hs : Handlers} {msg obj buf cap : Nat}
    {mem : Mem} {d : Decoded} (hh : WF host) (hp : WF p.head) (hn : host.noOut)
    (hc : Tame host p.head) (hb : buf + cap < W64)
    (hle : ∀ s, (decodeRun E p host hs msg obj buf cap mem = .ok s ∨
      decodeRun E p host hs msg obj buf cap mem = .throw s) → s.used ≤ cap)
    (hd : decode E p host hs msg obj buf cap mem = some d) (a : Nat)
    (h1 : ¬ (obj ≤ a ∧ a < obj + host.size)) (h2 : ¬ (buf ≤ a ∧ a < buf + cap)) : d.mem a = mem a := by
  have hf := xcode_frame E host p.head [] hs msg obj
    { mem := mem, ptr := buf, rem := some cap, cb := 0, used := 0 } hh hp hc (noOut_outAt _ _ _ hn)
  have key : ∀ s, Frm (Head obj host.size)
      { mem := mem, ptr := buf, rem := some cap, cb := 0, used := 0 } s → s.used ≤ cap →
      s.mem a = mem a := by
    intro s hs hu
    obtain ⟨_, k, hk, _, hm⟩ := hs (by simp only; omega)
    simp only at hk hm
    exact hm (by omega) a h1 (by omega)
  unfold decodeRun at hle
  unfold decode at hd
  cases hr : xcode E host p.head [] hs msg obj
      { mem := mem, ptr := buf, rem := some cap, cb := 0, used := 0 } with
  | ok s =>
    rw [hr] at hd hf; cases hd
    exact key s hf (hle s (Or.inl hr))
  | throw s =>
    rw [hr] at hd hf; cases hd
    exact key s hf (hle s (Or.inr hr))
  | ub => rw [hr] at hd; cases hd

/-- For every message content whatsoever that does not make the decoder ask for more than 2^63 bytes:
bytes outside the destination object and the buffer keep their content, also when decode fails. -/
theorem C05_total_partial (E : Env) (p : Proto) (host : Ty) (hs : Handlers) (msg obj buf cap : Nat)
    (mem : Mem) (d : Decoded) (hh : WF host) (hp : WF p.head) (hn : host.noOut)
    (hc : Tame host p.head) (hcap : cap < 2 ^ 63) (hb : buf + cap < W64)
    (hask : (decodeRun E p host hs msg obj buf cap mem).asked ≤ 2 ^ 63)
    (hd : decode E p host hs msg obj buf cap mem = some d) (a : Nat)
    (h1 : ¬ (obj ≤ a ∧ a < obj + host.size)) (h2 : ¬ (buf ≤ a ∧ a < buf + cap)) :
    d.mem a = mem a := by
  have ht := xcode_inv total_stepInv E host p.head [] hs msg obj
    { mem := mem, ptr := buf, rem := some cap, cb := 0, used := 0 } (allocs_true host)
    (CbAll.of (Or.inr total_cb))
  refine decode_frame hh hp hn hc hb (fun s hs' => ?_) hd a h1 h2
  unfold decodeRun at hs' hask
  rcases hs' with hs' | hs' <;> rw [hs'] at ht hask
  · have := (ht.2 cap rfl hcap (by simpa [Res.asked] using hask)).1
    simpa using this
  · have := (ht.2 cap rfl hcap (by simpa [Res.asked] using hask)).1
    simpa using this

mutual
/-- Every vector has a maximum length whose byte count is below 2^63. -/
def Ty.bounded : Ty → Prop
  | .struct fs _ _ => fs.bounded
  | .variant ts _ => ts.bounded
  | .array e _ _ _ => e.bounded
  | .vector e l => (∃ m, l.maxLen = some m ∧ l.elemW * m < 2 ^ 63) ∧ e.bounded
  | _ => True
def Fields.bounded : Fields → Prop
  | .nil => True
  | .cons _ _ t r => t.bounded ∧ r.bounded
def Terms.bounded : Terms → Prop
  | .nil => True
  | .cons _ _ _ t r => t.bounded ∧ r.bounded
end

mutual
theorem bounded_allocs : ∀ t : Ty, WF t → t.noOut → t.bounded → Allocs (fun n => n < 2 ^ 63) t
  | .int _ _ _, _, _, _ => by simp [Allocs]
  | .float _ _, _, _, _ => by simp [Allocs]
  | .unit, _, _, _ => by simp [Allocs]
  | .struct fs _ _, hw, hn, hb => by
    simp only [Allocs]; exact bounded_allocsF fs hw.1 hn hb
  | .variant ts l, hw, hn, hb => by
    simp only [Allocs]
    exact ⟨(fun h => by rw [hn.1] at h; cases h), bounded_allocsT ts hw.1 hn.2 hb⟩
  | .array e _ _ _, hw, hn, hb => by simp only [Allocs]; exact bounded_allocs e hw.1 hn hb
  | .vector e l, hw, hn, hb => by
    simp only [Allocs]
    simp only [Ty.bounded] at hb
    obtain ⟨⟨m, hm, hlt⟩, hb⟩ := hb
    simp only [WF] at hw
    obtain ⟨hwe, hl⟩ := hw
    refine ⟨fun n hn' hinl => ?_, bounded_allocs e hwe hn hb⟩
    have hnm := hn' m hm
    have hmm := hl.max m hm
    have hp := hl.ppl
    rw [isInl_false] at hinl
    rw [sub64_eq (by omega) (by unfold W64; omega)]
    exact Nat.lt_of_le_of_lt (Nat.mul_le_mul_left _ (by omega)) hlt
theorem bounded_allocsF : ∀ fs : Fields, WFFields fs → fs.noOut → fs.bounded →
    AllocsF (fun n => n < 2 ^ 63) fs
  | .nil, _, _, _ => by simp [AllocsF]
  | .cons _ _ t r, hw, hn, hb => ⟨bounded_allocs t hw.1 hn.1 hb.1, bounded_allocsF r hw.2 hn.2 hb.2⟩
theorem bounded_allocsT : ∀ ts : Terms, WFTerms ts → ts.noOut → ts.bounded →
    AllocsT (fun n => n < 2 ^ 63) ts
  | .nil, _, _, _ => by simp [AllocsT]
  | .cons _ _ _ t r, hw, hn, hb => ⟨bounded_allocs t hw.1 hn.1 hb.1, bounded_allocsT r hw.2 hn.2 hb.2⟩
end

/-- For host types whose vectors all have a maximum length and every message content whatsoever: bytes
outside the destination object and the buffer keep their content, also when decode fails. -/
theorem C05_bounded_partial (E : Env) (p : Proto) (host : Ty) (hs : Handlers) (msg obj buf cap : Nat)
    (mem : Mem) (d : Decoded) (hh : WF host) (hp : WF p.head) (hn : host.noOut)
    (hc : Tame host p.head) (hbd : host.bounded) (hcap : cap < 2 ^ 63) (hb : buf + cap < W64)
    (hd : decode E p host hs msg obj buf cap mem = some d) (a : Nat)
    (h1 : ¬ (obj ≤ a ∧ a < obj + host.size)) (h2 : ¬ (buf ≤ a ∧ a < buf + cap)) :
    d.mem a = mem a := by
  have ht := xcode_inv each_stepInv E host p.head [] hs msg obj
    { mem := mem, ptr := buf, rem := some cap, cb := 0, used := 0 } (bounded_allocs host hh hn hbd)
    (CbAll.of (Or.inr each_cb))
  refine decode_frame hh hp hn hc hb (fun s hs' => ?_) hd a h1 h2
  unfold decodeRun at hs'
  rcases hs' with hs' | hs' <;> rw [hs'] at ht
  · have := (ht.2 cap rfl hcap).1
    simpa using this
  · have := (ht.2 cap rfl hcap).1
    simpa using this

namespace C05

def u64 : Ty := .int 8 .unsigned 8

/-- Host vector of 8-byte integers: pointer, length. -/
def hostL : VecL :=
  { minLen := 0, maxLen := none, wireMin := 0, ppl := 0, lenOff := 8, lenSize := 8, refOff := 0,
    refSize := 8, mode := .pointer, inlOff := 0, parOff := 0, elemW := 8, size := 16, align := 8 }

/-- Wire vector of 8-byte integers: length, self-relative offset. -/
def wireL : VecL :=
  { minLen := 0, maxLen := none, wireMin := 0, ppl := 0, lenOff := 0, lenSize := 8, refOff := 8,
    refSize := 8, mode := .offset, inlOff := 8, parOff := 16, elemW := 8, size := 16, align := 1 }

/-- A message at address 100 that claims to have 2^61 elements; 2^61 * 8 = 2^64. -/
def S : Mem := fun a => if a = 107 then 0x20 else 0

def E : Env := ⟨S, fun _ => 0, fun _ _ b => b⟩

theorem loop_zero (ss ds : Nat) : ∀ n i (st : St), (∀ x, ss ≤ x → S x = 0) →
    ∃ s, loop (fun j => xcode E u64 u64 [] [] (elemAt ss 8 j) (elemAt ds 8 j)) n i st = .ok s ∧
      s.rem = st.rem ∧ s.ptr = st.ptr ∧ s.cb = st.cb ∧
      ∀ x, (ds + i * 8 ≤ x ∧ x < ds + (i + n) * 8 → s.mem x = 0) ∧
        (x < ds + i * 8 → s.mem x = st.mem x)
  | 0, i, st, _ => ⟨st, rfl, rfl, rfl, rfl, fun x => ⟨fun h => by omega, fun _ => rfl⟩⟩
  | n + 1, i, st, h => by
    have hz : ∀ k a, ss ≤ a → readBytes S a k = List.replicate k 0 := by
      intro k
      induction k with
      | zero => intro a _; rfl
      | succ k ih => intro a ha; simp only [readBytes, h a ha, ih (a + 1) (by omega), List.replicate_succ]
    have hr : readN S (elemAt ss 8 i) 8 = 0 := by
      unfold readN
      rw [hz 8 _ (by unfold elemAt; omega)]
      rfl
    obtain ⟨s, h1, h2, h3, h4, h5⟩ := loop_zero ss ds n (i + 1)
      (st.store (elemAt ds 8 i) 8 (convInt 8 .unsigned 8 0)) h
    refine ⟨s, ?_, h2, h3, h4, fun x => ⟨fun hx => ?_, fun hx => ?_⟩⟩
    · simp only [loop]
      have : xcode E u64 u64 [] [] (elemAt ss 8 i) (elemAt ds 8 i) st =
          .ok (st.store (elemAt ds 8 i) 8 (convInt 8 .unsigned 8 0)) := by
        simp only [u64, xcode, E, hr]
        rw [if_neg (by omega)]
      rw [this]
      exact h1
    · by_cases hc : x < ds + (i + 1) * 8
      · rw [(h5 x).2 hc]
        have h0 : convInt 8 .unsigned 8 0 = 0 := by decide
        simp only [St.store, h0, writeN, writeBytes, elemAt]
        rw [if_pos (by omega)]
        have hlt : x - (ds + i * 8) < 8 := by omega
        have hb : leBytes 8 0 = List.replicate 8 0 := by decide
        rw [hb, List.getElem?_replicate, if_pos hlt]
      · exact (h5 x).1 ⟨by omega, by omega⟩
    · rw [(h5 x).2 (by omega)]
      simp only [St.store]
      rw [writeN_out _ _ _ _ _ (by unfold elemAt; omega)]

theorem hostL_ok : VecLayout hostL 8 8 := by constructor <;> simp [hostL, Disj, VecL.canOut]
theorem wireL_ok : VecLayout wireL 8 8 := by constructor <;> simp [wireL, Disj, VecL.canOut]

end C05

/-- Violation: a hostile message makes decode write outside the object at 1000 (16 bytes) and the
buffer of 16 bytes at 2000, and report success. -/
theorem C05_violated : ∃ d, WF (.vector C05.u64 C05.hostL) ∧ WF (.vector C05.u64 C05.wireL) ∧
    Compat (.vector C05.u64 C05.hostL) (.vector C05.u64 C05.wireL) ∧
    decode C05.E ⟨.vector C05.u64 C05.wireL, 0⟩ (.vector C05.u64 C05.hostL) [] 100 1000 2000 16
      (fun _ => 1) = some d ∧ d.size = 16 ∧ d.mem 2016 = 0 ∧ d.mem 999999999 = 0 := by
  obtain ⟨N, hN⟩ : ∃ N, N = 2 ^ 61 := ⟨_, rfl⟩
  have hlen : lengthOp C05.S C05.wireL 100 = some N := by
    have : lengthOp C05.S C05.wireL 100 = some 2305843009213693952 := by decide +kernel
    rw [this, hN]
  have href : refStart C05.S C05.wireL 100 = 108 := by decide +kernel
  obtain ⟨s, h1, h2, h3, h4, h5⟩ := C05.loop_zero 108 2000 N 0
    ⟨writeN (writeN (fun _ => 1) 1008 8 N) 1000 8 2000, 2000, some 16, 0, 8 * N⟩ (by
    intro x hx; unfold C05.S; rw [if_neg (by omega)])
  have hrun : xcode C05.E (.vector C05.u64 C05.hostL) (.vector C05.u64 C05.wireL) [] [] 100 1000
      ⟨fun _ => 1, 2000, some 16, 0, 0⟩ = .ok s := by
    simp only [xcode, xVector, C05.E]
    rw [hlen]
    have ha : ∀ m, alignTo ⟨m, 2000, some 16, 0, 0⟩ 8 = .ok ⟨m, 2000, some 16, 0, 0⟩ := by
      intro m
      have : alignDiff 2000 8 = 0 := by decide
      simp only [alignTo, this, alloc]
      rfl
    have hal : ∀ m, alloc ⟨m, 2000, some 16, 0, 0⟩ (8 * N) = .ok ⟨m, 2000, some 16, 0, 8 * N⟩ := by
      intro m
      have e1 : sub64 16 (8 * N) = 16 := by unfold sub64 W64; omega
      have e2 : ¬ toSigned 8 16 < 0 := by unfold toSigned; omega
      have e3 : (2000 + 8 * N) % W64 = 2000 := by unfold W64; omega
      simp only [alloc, e1, e3, Nat.zero_add, if_neg e2]
    have hc : copyLength C05.hostL N = N := rfl
    have e4 : sub64 N 0 = N := sub64_eq (by omega) (by unfold W64; omega)
    have e5 : loopCount N = N := by unfold loopCount; rw [if_pos (by omega)]
    have hsl : storeLength C05.hostL 1000 N ⟨fun _ => 1, 2000, some 16, 0, 0⟩ =
        .ok ⟨writeN (fun _ => 1) 1008 8 N, 2000, some 16, 0, 0⟩ := rfl
    have hsr : storeRef C05.hostL 1000 ⟨writeN (fun _ => 1) 1008 8 N, 2000, some 16, 0, 0⟩ =
        .ok ⟨writeN (writeN (fun _ => 1) 1008 8 N) 1000 8 2000, 2000, some 16, 0, 0⟩ := rfl
    have hi1 : C05.wireL.isInl N = false := isInl_false.2 (Or.inl rfl)
    have hi2 : C05.hostL.isInl N = false := isInl_false.2 (Or.inl rfl)
    have hp1 : C05.hostL.ppl = 0 := rfl
    have hp2 : C05.wireL.ppl = 0 := rfl
    have hw1 : C05.hostL.elemW = 8 := rfl
    have hw2 : C05.wireL.elemW = 8 := rfl
    have hm2 : C05.wireL.minLen = 0 := rfl
    have hal' : C05.u64.align = 8 := rfl
    have e6 : loopCount 0 = 0 := rfl
    have hb : ∀ (s : St) f, (Res.ok s).bind f = f s := fun _ _ => rfl
    have hl0 : ∀ f i st, loop f 0 i st = .ok st := fun _ _ _ => rfl
    simp only [hc]
    rw [hsl, hb, hi1]
    simp only [Bool.false_eq_true, if_false, xOutlineVec, hm2, gt_iff_lt, Nat.lt_irrefl, false_and]
    rw [hi2]
    simp only [Bool.false_eq_true, if_false, hal']
    rw [ha, hb, hsr, hb, hp1, hp2, hw1, hw2, e4, hal, hb, if_pos (Nat.le_refl 0)]
    simp only [copyLoop, e5, e6, hl0, hb, href, Nat.zero_add, show (0 - 0 : Nat) = 0 from rfl]
    exact h1
  refine ⟨⟨s.mem, s.ptr, s.rem.getD 0, invoked s.cb⟩, ⟨by simp [C05.u64, WF], C05.hostL_ok⟩,
    ⟨by simp [C05.u64, WF], C05.wireL_ok⟩, ?_, ?_, ?_, ?_, ?_⟩
  · simp [Compat, C05.u64, VecCompat, C05.wireL, C05.hostL, VecL.maxBound]
  · exact decode_ok hrun
  · simp only [h2]; rfl
  · exact (h5 2016).1 ⟨by omega, by omega⟩
  · exact (h5 999999999).1 ⟨by omega, by omega⟩

open Sample in
/-- Any bytes at all as a message for the sample types: nothing outside is written as long as the claimed
lengths are not absurd. -/
example (m : Mem) (d : Decoded) (hs : Handlers)
    (hask : (decodeRun { env0 with S := m } proto0 hostS hs 77 9000 20000 64 (fun _ => 1)).asked ≤ 2 ^ 63)
    (hd : decode { env0 with S := m } proto0 hostS hs 77 9000 20000 64 (fun _ => 1) = some d) :
    d.mem 20064 = 1 :=
  C05_total_partial _ proto0 hostS hs 77 9000 20000 64 _ d hostS_wf wireS_wf hostS_noOut
    (compat_tame _ _ host_wire_compat) (by decide) (by decide) hask hd 20064 (by decide) (by decide)

open Sample in
theorem Sample.short_ok : VecLayout { hostL with maxLen := some 5 } 1 1 := by
  constructor <;> simp [hostL, Disj, VecL.canOut]

open Sample in
/-- A host vector of at most 5 bytes and any message bytes. -/
example (m : Mem) (d : Decoded)
    (hd : decode { env0 with S := m } ⟨.vector u8 wireL, 0⟩ (.vector u8 { hostL with maxLen := some 5 }) []
      77 9000 20000 2 (fun _ => 1) = some d) : d.mem 20002 = 1 :=
  C05_bounded_partial _ ⟨.vector u8 wireL, 0⟩ (.vector u8 { hostL with maxLen := some 5 }) [] 77 9000 20000
    2 _ d ⟨by simp [u8, WF], Sample.short_ok⟩
    ⟨by simp [u8, WF], wireL_ok⟩ (by simp only [Ty.noOut, u8])
    (by simp [Tame, u8, VecCompat, wireL, hostL, VecL.maxBound])
    (by simp [Ty.bounded, u8, hostL]) (by decide) (by decide) hd 20002 (by decide) (by decide)

end PJ
