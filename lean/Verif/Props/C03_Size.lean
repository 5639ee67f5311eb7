import Verif.Spec.Samples
import Verif.Lemmas.SizeSim
import Verif.Model.Plan
/-!
# C03: the size function is exact and encode stays inside it

`_partial`: pairs of types for which encode stays inside what it asked from the buffer (`Tame`, which
holds for every host type without partial payloads in vectors, like all those the schema compiler makes,
when no outlined variant is defaulted: `C03_front_partial`); messages that do not run over the end of
the address space.  For a host vector with a longer partial payload than the message vector can hold the
claim is false (`C03_violated`).  Wire types have alignment 1 everywhere and no gap between head and
buffer (`pj/wire_layout.cpp` 7-160), which is what `packed` and `bufOff = 0` say and what
`C03_planned_partial` (`Props/Planned.lean`) derives for planned protocols.
-/
namespace PJ

/-- Whatever the object in memory is and whatever the tag path is: when the encode function returns,
the size function returns the number of bytes between the start of the message and the final write
cursor, and encode has modified no byte outside of them. -/
theorem C03_exact_partial (E : Env) (host : Ty) (p : Proto) (path : Path) (obj buf : Nat) (mem : Mem)
    (s : St) (hh : WF host) (hp : WF p.head) (hc : Tame p.head host)
    (ho : OutAt p.head buf (buf + p.head.size + p.bufOff)) (hpk : p.head.packed) (hb : p.bufOff = 0)
    (hr : encode E host p path obj buf mem = .ok s) (hw : buf + p.head.size + s.used < W64) :
    ∃ n, sizeFn false E.S host p path obj = some n ∧ s.ptr = buf + n ∧
      ∀ a, ¬ (buf ≤ a ∧ a < buf + n) → s.mem a = mem a := by
  have hsim := xcode_sim E p.head host path [] obj buf
    { mem := mem, ptr := buf + p.head.size + p.bufOff, rem := none, cb := 0, used := 0 } 0 hpk
    (by decide)
  have hf := xcode_frame E p.head host path [] obj buf
    { mem := mem, ptr := buf + p.head.size + p.bufOff, rem := none, cb := 0, used := 0 } hp hh hc ho
  unfold encode at hr
  rw [hr] at hsim hf
  obtain ⟨d, hd, hsz⟩ := hsim
  obtain ⟨_, d', hd', hptr, hm⟩ := hf (by simp only; omega)
  simp only [Nat.zero_add] at hd hd' hptr hm hsz
  have hdd : d' = d := by omega
  subst hdd
  refine ⟨p.head.size + d', ?_, ?_, ?_⟩
  · unfold sizeFn
    rw [hsz]
    simp only [Option.map_some]
    rw [Nat.mod_add_mod, Nat.mod_eq_of_lt (by omega), Nat.add_comm]
  · rw [hptr, Nat.mod_eq_of_lt (by omega)]; omega
  · intro a ha
    refine hm (by omega) a (fun h => ?_) (by omega)
    unfold Head at h
    omega

/-- The same for host types as the schema compiler generates them, against any protocol that does not
outline a variant the object lacks. -/
theorem C03_front_partial (E : Env) (host : Ty) (p : Proto) (path : Path) (obj buf : Nat) (mem : Mem)
    (s : St) (hh : WF host) (hp : WF p.head) (hn : host.noPart) (hg : OutGiven p.head host)
    (ho : OutAt p.head buf (buf + p.head.size + p.bufOff)) (hpk : p.head.packed) (hb : p.bufOff = 0)
    (hr : encode E host p path obj buf mem = .ok s) (hw : buf + p.head.size + s.used < W64) :
    ∃ n, sizeFn false E.S host p path obj = some n ∧ s.ptr = buf + n ∧
      ∀ a, ¬ (buf ≤ a ∧ a < buf + n) → s.mem a = mem a :=
  C03_exact_partial E host p path obj buf mem s hh hp (tame_noPart _ _ hg hn) ho hpk hb hr hw

open Sample in
theorem Sample.wireS_packed : wireS.packed := by
  simp [wireS, Ty.packed, Fields.packed, wireV, Terms.packed, i64w, u8, Ty.align]

open Sample in
/-- The sample object: 34 bytes of head and 3 bytes of `ys`. -/
example : ∃ s, encode env0 hostS proto0 [] 1000 5000 (fun _ => 1) = .ok s ∧ s.ptr = 5037 ∧
    sizeFn false mem0 hostS proto0 [] 1000 = some 37 ∧ ∀ a, 5037 ≤ a → s.mem a = 1 := by
  obtain ⟨s, hs, hq⟩ : ∃ s, encode env0 hostS proto0 [] 1000 5000 (fun _ => 1) = .ok s ∧ s.used = 3 := by
    obtain ⟨s, hs, h⟩ := Res.sat_ok (r := encode env0 hostS proto0 [] 1000 5000 (fun _ => 1))
      (f := fun s => s.used = 3) (by decide +kernel)
    exact ⟨s, hs, by simpa using h⟩
  obtain ⟨n, h1, h2, h3⟩ := C03_exact_partial env0 hostS proto0 [] 1000 5000 (fun _ => 1) s hostS_wf wireS_wf
    (compat_tame _ _ wire_host_compat) (noOut_outAt _ _ _ wireS_noOut) wireS_packed rfl hs (by rw [hq]; decide)
  have hn : sizeFn false mem0 hostS proto0 [] 1000 = some 37 := by decide +kernel
  have : n = 37 := by
    have h1' : sizeFn false mem0 hostS proto0 [] 1000 = some n := h1
    rw [hn] at h1'; cases h1'; rfl
  subst this
  exact ⟨s, hs, h2, hn, fun a ha => h3 a (by omega)⟩

open Sample in
example : hostS.noPart ∧ OutGiven wireS hostS :=
  ⟨by simp [hostS, Ty.noPart, Fields.noPart, Terms.noPart, hostV, i32, u8, hostL],
    noOut_given _ _ wireS_noOut⟩

/-! A host vector of bytes which keeps the first four elements in the object, made with
`PJCreateVectorType` (`pj/runtime.cpp` 235-265), and the protocol planned for a vector of at most two. -/
namespace C03

open Sample

def hostP : VecL :=
  { minLen := 4, maxLen := none, wireMin := 0, ppl := 4, lenOff := 8, lenSize := 8, refOff := 0,
    refSize := 8, mode := .pointer, inlOff := 16, parOff := 16, elemW := 1, size := 20, align := 8 }

/-- Five elements: 5, 6, 7, 8 in the object, 9 at address 1100. -/
def S : Mem := fun a =>
  if 1000 ≤ a then
    (([0x4c, 0x04, 0, 0, 0, 0, 0, 0, 5, 0, 0, 0, 0, 0, 0, 0, 5, 6, 7, 8]
       ++ List.replicate 80 0 ++ [9] : List UInt8)[a - 1000]?).getD 0
  else 0

theorem hostP_ok : VecLayout hostP 1 1 := by constructor <;> simp [hostP, Disj, VecL.canOut]

end C03

open Sample in
/-- Violation: the size function says 11 bytes, encode writes 13. -/
theorem C03_violated : ∃ (p : Proto) (E : Env) (s : St),
    plan (.vector u8 { hostL with maxLen := some 2 }) [] = some p ∧ WF (.vector u8 C03.hostP) ∧
    readVal E.S (.vector u8 C03.hostP) 1000 =
      some (.vec [.int 5, .int 6, .int 7, .int 8, .int 9]) ∧
    sizeFn false E.S (.vector u8 C03.hostP) p [] 1000 = some 11 ∧
    encode E (.vector u8 C03.hostP) p [] 1000 5000 (fun _ => 0) = .ok s ∧ s.ptr = 5011 ∧
    s.mem 5011 = 7 ∧ s.mem 5012 = 8 := by
  obtain ⟨p, hp⟩ : ∃ p, plan (.vector u8 { hostL with maxLen := some 2 }) [] = some p := ⟨_, rfl⟩
  have hr : (plan (.vector u8 { hostL with maxLen := some 2 }) []).any (fun p =>
      decide (sizeFn false C03.S (.vector u8 C03.hostP) p [] 1000 = some 11) &&
      (encode ⟨C03.S, fun _ => 0, fun _ _ b => b⟩ (.vector u8 C03.hostP) p [] 1000 5000
        (fun _ => 0)).sat fun s => s.ptr == 5011 && s.mem 5011 == 7 && s.mem 5012 == 8) = true := by
    decide +kernel
  rw [hp] at hr
  simp only [Option.any_some, Bool.and_eq_true, decide_eq_true_eq] at hr
  obtain ⟨s, hs, h⟩ := Res.sat_ok hr.2
  simp only [Bool.and_eq_true, beq_iff_eq] at h
  exact ⟨p, ⟨C03.S, fun _ => 0, fun _ _ b => b⟩, s, hp, ⟨by simp [u8, WF], C03.hostP_ok⟩, rfl, hr.1, hs,
    h.1.1, h.1.2, h.2⟩

end PJ
