import Verif.Props.Planned
import Verif.Props.C10_VariantEvolution
/-!
# Defects of schema evolution

Counterexamples to the full claims C02, C06, C09, C10, C13 and C39.

The first ones have one cause (finding 9 of `DESIGN.md`): vector hoisting splits the default term of a
variant into a term for short and one for long vectors, the default index stays with the long one, and
`transcodeTerm` (`pj/generate_ir.cpp` 254-293) writes nothing at all when its condition is false.
-/
namespace PJ

namespace Defect

open Sample

/-- A payload `{ ys : u8[2..] }`. -/
def pay : Ty := .struct (.cons (nm "ys") 0 (.vector u8 { hostL with wireMin := 2 }) .nil) 16 8

def varL : VarL :=
  { outline := false, dflt := 0, termOff := 0, termSize := 16, tagOff := 16, tagW := 1, size := 24,
    align := 8, termAlign := 8 }

/-- The schema of the protocol: `{ d : { ys : u8[2..] } = 1 }` with the default `d`. -/
def old : Ty := .variant (.cons (nm "d") 1 [] pay .nil) varL

/-- A newer schema with a further term `k`. -/
def new : Ty := .variant (.cons (nm "d") 1 [] pay (.cons (nm "k") 3 [] pay .nil)) varL

/-- The object `k { ys = [5] }` of the newer schema at address 1000, its element at 1100. -/
def S : Mem := fun a =>
  if a = 1000 then 0x4c else if a = 1001 then 4 else if a = 1008 then 1 else if a = 1016 then 3
  else if a = 1100 then 5 else 0

def E : Env := ⟨S, fun _ => 0, fun _ _ b => b⟩

theorem pay_wf : WF pay := by
  refine ⟨⟨⟨by simp [u8, WF], ?_⟩, trivial⟩, ?_⟩
  · constructor <;> simp [hostL, Disj, VecL.canOut, u8, Ty.size, Ty.align]
  · constructor <;> simp [Fields.toList, Ty.size, hostL]

theorem old_ok : HostTy old where
  wf := by
    refine ⟨⟨pay_wf, trivial⟩, ?_⟩
    constructor <;> simp [Terms.toList, varL, Ty.size, pay, Disj]
  sch := by simp [old, pay, hostL, Sch, SchFields, SchTerms, Fields.toList, Terms.toList, u8, varL]
  small := by
    simp [old, pay, Small, rounds, Terms.toList, eligible, eligibleFields, u8, hostL]
  plain := by simp [old, pay, Plain, PlainFields, PlainTerms, Terms.toList, u8]
  noOut := by simp [old, pay, Ty.noOut, Fields.noOut, Terms.noOut, u8, varL]

theorem new_wf : WF new := by
  refine ⟨⟨pay_wf, pay_wf, trivial⟩, ?_⟩
  constructor <;> simp [Terms.toList, varL, Ty.size, pay, Disj]

def obj : Val := .variant (nm "k") (.struct [(nm "ys", .vec [.int 5])])

theorem read_new : readVal S new 1000 = some obj := rfl

/-- Prior memory that happens to look like an empty short `d` at 5000. -/
def memA : Mem := fun a => if a = 5016 then 2 else 0
/-- Prior memory that happens to look like a short `d` with the element 9. -/
def memB : Mem := fun a => if a = 5016 then 2 else if a = 5000 then 1 else if a = 5001 then 9 else 0

end Defect

open Defect Sample in
/-- Violation 3 of C10: a term `k` which the protocol does not know is not replaced by the default term.
Encode returns without having written anything, and the message has no valid tag. -/
theorem C10_violated_default : ∃ p, plan old [] = some p ∧ HostTy old ∧ WF new ∧
    readVal E.S new 1000 = some obj ∧
    encode E new p [] 1000 5000 (fun _ => 0) = .ok ⟨fun _ => 0, 5017, none, 0, 0⟩ ∧
    readVal (fun _ => 0) p.head 5000 = none :=
  ⟨_, rfl, old_ok, new_wf, read_new, by with_unfolding_all rfl, by with_unfolding_all rfl⟩

open Defect Sample in
/-- Violation of C39: the value of the message is whatever the memory held before. -/
theorem C39_violated : ∃ p s s', plan old [] = some p ∧ HostTy old ∧ WF new ∧
    readVal E.S new 1000 = some obj ∧
    encode E new p [] 1000 5000 memA = .ok s ∧ encode E new p [] 1000 5000 memB = .ok s' ∧
    readVal s.mem p.head 5000 = some (.variant (nm "d") (.struct [(nm "ys", .vec [])])) ∧
    readVal s'.mem p.head 5000 = some (.variant (nm "d") (.struct [(nm "ys", .vec [.int 9])])) :=
  ⟨_, ⟨memA, 5017, none, 0, 0⟩, ⟨memB, 5017, none, 0, 0⟩, rfl, old_ok, new_wf, read_new,
    by with_unfolding_all rfl, by with_unfolding_all rfl, by with_unfolding_all rfl,
    by with_unfolding_all rfl⟩

open Defect Sample in
/-- Violation of C02: with the payload behind the head, the message is the single byte of the tag that was
not written, and what is read from a copy depends on the bytes behind the copy. -/
theorem C02_violated : ∃ p s, plan old [nm "d"] = some p ∧ HostTy old ∧ WF new ∧
    readVal E.S new 1000 = some obj ∧
    encode E new p [] 1000 5000 (fun _ => 2) = .ok s ∧ s.ptr = 5001 ∧
    ∃ m m' : Mem, (∀ i, i < s.ptr - 5000 → m (77 + i) = s.mem (5000 + i)) ∧
      (∀ i, i < s.ptr - 5000 → m' (77 + i) = s.mem (5000 + i)) ∧
      readVal m p.head 77 = some (.variant (nm "d") (.struct [(nm "ys", .vec [])])) ∧
      readVal m' p.head 77 = some (.variant (nm "d") (.struct [(nm "ys", .vec [.int 9])])) := by
  refine ⟨_, ⟨fun _ => 2, 5001, none, 0, 0⟩, rfl, old_ok, new_wf, read_new,
    by with_unfolding_all rfl, rfl, fun a => if a = 77 then 2 else 0,
    fun a => if a = 77 then 2 else if a = 78 then 1 else if a = 79 then 9 else 0, ?_, ?_,
    by with_unfolding_all rfl, by with_unfolding_all rfl⟩ <;>
  · intro i hi
    simp only at hi
    rw [show i = 0 by omega]
    rfl

/-! The two other causes: an unknown term of another kind than the default term calls a null function
(finding 8), and the table of the enum fast path maps unknown terms to 0 (finding 3). -/
namespace Defect

/-- Sender's enum `{ a = 1, b = 2 }`. -/
def enumS : Ty :=
  .variant (.cons ['a'] 1 [] .unit (.cons ['b'] 2 [] .unit .nil))
    { outline := false, dflt := 0, termOff := 0, termSize := 0, tagOff := 0, tagW := 1, size := 1,
      align := 1, termAlign := 1 }

/-- Receiver's enum `{ a = 1, x = 3 }` with the default `x`. -/
def enumR : Ty :=
  .variant (.cons ['a'] 1 [] .unit (.cons ['x'] 3 [] .unit .nil))
    { outline := false, dflt := 1, termOff := 0, termSize := 0, tagOff := 0, tagW := 1, size := 1,
      align := 1, termAlign := 1 }

def str (t : Ty) : Ty := .struct (.cons ['e'] 0 t .nil) 1 1

theorem enumS_wf : WF enumS := by
  refine ⟨⟨trivial, trivial, trivial⟩, ?_⟩
  constructor <;> simp [Terms.toList, Ty.size, Disj]

theorem enumR_wf : WF enumR := by
  refine ⟨⟨trivial, trivial, trivial⟩, ?_⟩
  constructor <;> simp [Terms.toList, Ty.size, Disj]

theorem str_wf {t : Ty} (h : WF t) (hs : t.size = 1) : WF (str t) := by
  refine ⟨⟨h, trivial⟩, ?_⟩
  constructor <;> simp [Fields.toList, hs]

def env (b : UInt8) : Env := ⟨fun _ => b, fun _ => 0, fun _ _ b => b⟩

end Defect

open Defect in
/-- Violation of C09: both structs have the field `e`; the converted value is `x`, but the receiver's field
holds no term at all. -/
theorem C09_violated : ∃ s, WF (str enumR) ∧ WF (str enumS) ∧
    readVal (env 2).S (str enumS) 10 = some (.struct [(['e'], .variant ['b'] .unit)]) ∧
    conv (env 2).fconv (str enumR) (.struct [(['e'], .variant ['b'] .unit)]) =
      some (.struct [(['e'], .variant ['x'] .unit)]) ∧
    xcode (env 2) (str enumR) (str enumS) [] [] 10 20 ⟨fun _ => 7, 100, none, 0, 0⟩ = .ok s ∧
    readVal s.mem (str enumR) 20 = none :=
  let ⟨s, hs, h⟩ := Res.sat_ok (r := xcode (env 2) (str enumR) (str enumS) [] [] 10 20
    ⟨fun _ => 7, 100, none, 0, 0⟩) (f := fun s => (readVal s.mem (str enumR) 20).isNone)
    (by decide +kernel)
  ⟨s, str_wf enumR_wf rfl, str_wf enumS_wf rfl, rfl, rfl, hs, Option.isNone_iff_eq_none.1 h⟩

open Defect in
/-- Violation of C13: the same in an array. -/
theorem C13_violated : ∃ s, WF (.array enumR 1 1 1) ∧ WF (.array enumS 1 1 1) ∧
    readVal (env 2).S (.array enumS 1 1 1) 10 = some (.arr [.variant ['b'] .unit]) ∧
    conv (env 2).fconv (.array enumR 1 1 1) (.arr [.variant ['b'] .unit]) =
      some (.arr [.variant ['x'] .unit]) ∧
    xcode (env 2) (.array enumR 1 1 1) (.array enumS 1 1 1) [] [] 10 20 ⟨fun _ => 7, 100, none, 0, 0⟩ = .ok s ∧
    readVal s.mem (.array enumR 1 1 1) 20 = none :=
  let ⟨s, hs, h⟩ := Res.sat_ok (r := xcode (env 2) (.array enumR 1 1 1) (.array enumS 1 1 1) [] [] 10 20
    ⟨fun _ => 7, 100, none, 0, 0⟩) (f := fun s => (readVal s.mem (.array enumR 1 1 1) 20).isNone)
    (by decide +kernel)
  ⟨s, ⟨enumR_wf, Nat.le_refl 1⟩, ⟨enumS_wf, Nat.le_refl 1⟩, rfl, rfl, hs,
    Option.isNone_iff_eq_none.1 h⟩

/-- Violation of C06: a well-formed message which no buffer is large enough for, because decoding it calls a
null function. -/
theorem C06_violated : ∃ (E : Env) (host wire : Ty) (v : Val), WF host ∧ host.noOut ∧ WF wire ∧
    readVal E.S wire 10 = some v ∧
    ∀ buf cap mem, decode E ⟨wire, 0⟩ host [] 10 20 buf cap mem = none := by
  refine ⟨⟨fun _ => 2, fun _ => 0, fun _ _ b => b⟩, C10.recv, C10.send, _, C10.recv_wf, ?_, C10.send_wf,
    rfl, fun buf cap mem => ?_⟩
  · simp [C10.recv, Ty.noOut, Terms.noOut, Fields.noOut]
  · simp [decode, C10.recv, C10.send, xcode, enumFast, Terms.isEnum, Terms.toList, Ty.size, handlerMap,
      selectTerm, matchTag, matchCaseVals, matchBlocks, sortBy, insertBy, toSigned, switchOn, readN, readBytes,
      ofLE, Terms.hasName, xAt, termCond, beginTerm, storeTag, Res.bind]

end PJ
