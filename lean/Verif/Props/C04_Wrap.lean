import Verif.Props.Planned
import Verif.Model.FnCache
/-!
# C04: rounded sizes that wrap
-/
namespace PJ

namespace C04Wrap
open Sample

def u64 : Ty := .int 8 .unsigned 8

/-- `uint64[:2305843009213693952]`: a pointer and a length. -/
def hostBig : VecL := { hostL with maxLen := some (2 ^ 61), elemW := 8 }

def wireBig : VecL :=
  { minLen := 0, maxLen := some (2 ^ 61), wireMin := 0, ppl := 0, lenOff := 0, lenSize := 8, refOff := 8,
    refSize := 8, mode := .offset, inlOff := 8, parOff := 16, elemW := 8, size := 16, align := 1 }

/-- One element, 7, at 2000. -/
def envBig : Env :=
  { S := fun a => if a = 1000 then 0xd0 else if a = 1001 then 7 else if a = 1008 then 1 else if a = 2000 then 7
      else 0
    J := fun _ => 0xcc
    fconv := fun _ _ b => b }

theorem hostBig_ok : HostTy (.vector u64 hostBig) where
  wf := by
    refine ⟨by simp [u64, WF], ?_⟩
    constructor <;> simp [hostBig, hostL, Disj, VecL.canOut, u64, Ty.size, Ty.align]
  sch := by simp [Sch, u64, hostBig, hostL]
  small := by simp [Small]
  plain := by simp [Plain, u64]
  noOut := by simp [Ty.noOut, u64]

theorem szLoop_same {f : Nat → Nat → Option Nat} (h : ∀ i c, f i c = some c) :
    ∀ n i c, szLoop f n i c = some c
  | 0, _, _ => rfl
  | n + 1, i, c => by simp only [szLoop, h, Option.bind_some, szLoop_same h n]

end C04Wrap
open C04Wrap

/-- Violation: the maximal size of a vector of 2^61 integers of 8 bytes is 2^64 bytes more than that of
the head, so that the rounded size is that of the head; a message with one element is longer, and
its element is written behind the buffer. -/
theorem C04_violated : ∃ p s, HostTy (.vector u64 hostBig) ∧ plan (.vector u64 hostBig) [] = some p ∧
    readVal envBig.S (.vector u64 hostBig) 1000 = some (.vec [.int 7]) ∧
    sizeFn false envBig.S (.vector u64 hostBig) p [] 1000 = some 24 ∧
    sizeFn true envBig.S (.vector u64 hostBig) p [] 1000 = some 16 ∧
    encode envBig (.vector u64 hostBig) p [] 1000 5000 (fun _ => 0) = .ok s ∧ s.mem (5000 + 16) = 7 := by
  have hp : plan (.vector u64 hostBig) [] = some ⟨.vector (.int 8 .unsigned 1) wireBig, 0⟩ := by
    have h : (plan (.vector u64 hostBig) []).map (fun p => (p.head, p.bufOff)) =
        some (.vector (.int 8 .unsigned 1) wireBig, 0) := by decide +kernel
    cases hq : plan (.vector u64 hostBig) [] with
    | none => rw [hq] at h; simp at h
    | some q =>
      obtain ⟨t, o⟩ := q
      rw [hq] at h
      simp only [Option.map_some, Option.some.injEq, Prod.mk.injEq] at h
      obtain ⟨rfl, rfl⟩ := h
      rfl
  have hr : sizeFn true envBig.S (.vector u64 hostBig) ⟨.vector (.int 8 .unsigned 1) wireBig, 0⟩ [] 1000 =
      some 16 := by
    have hl : szLength true envBig.S u64 hostBig 1000 = some (2 ^ 61) := by decide +kernel
    simp only [sizeFn, szX, szVector, hl]
    simp only [hostBig, wireBig, Sample.hostL, VecL.isInl, szOutlineVec, copyLength, szCopy, Ty.align, szAlign]
    simp [szLoop_same, szX, u64, sub64, szAlloc, W64, Ty.size]
  have he : ∃ s, encode envBig (.vector u64 hostBig) ⟨.vector (.int 8 .unsigned 1) wireBig, 0⟩ [] 1000 5000
      (fun _ => 0) = .ok s ∧ s.mem (5000 + 16) = 7 := by
    cases h : encode envBig (.vector u64 hostBig) ⟨.vector (.int 8 .unsigned 1) wireBig, 0⟩ [] 1000 5000
      (fun _ => 0) with
    | ok s =>
      refine ⟨s, rfl, ?_⟩
      have : (match encode envBig (.vector u64 hostBig) ⟨.vector (.int 8 .unsigned 1) wireBig, 0⟩ [] 1000 5000
        (fun _ => 0) with | .ok s => s.mem (5000 + 16) | _ => 0) = 7 := by decide +kernel
      rw [h] at this
      exact this
    | throw s =>
      have : (match encode envBig (.vector u64 hostBig) ⟨.vector (.int 8 .unsigned 1) wireBig, 0⟩ [] 1000 5000
        (fun _ => 0) with | .throw _ => true | _ => false) = false := by decide +kernel
      rw [h] at this
      simp at this
    | ub =>
      have : (match encode envBig (.vector u64 hostBig) ⟨.vector (.int 8 .unsigned 1) wireBig, 0⟩ [] 1000 5000
        (fun _ => 0) with | .ub => true | _ => false) = false := by decide +kernel
      rw [h] at this
      simp at this
  obtain ⟨s, h1, h2⟩ := he
  exact ⟨_, s, hostBig_ok, hp, by rfl, by decide +kernel, hr, h1, h2⟩

end PJ
