import Verif.Lemmas.HostGen
import Verif.Props.C43_Evolution
/-!
# C45: generated host types are what they are described as

For every type the parser accepts, the description which the generated code hands to the runtime is one of
the types the round trip theorems are about (`HostTy`), and reading an object as described gives the value
the C++ object has.

`_partial`: the full claim is for every accepted schema.  It is false of arrays of integers of more than one
byte (`C45_violated_array`, `C45_violated_round_trip`), of vectors of `char16` (`C45_violated_wchar`), of
variants with a tag of 2^63 or more or with the tag 0 only, and for vectors with a maximum of 0 or with
elements of size 0; see `Safe`.
-/
namespace PJ

/-- Every description of an accepted type is a sane host type.  `Small` bounds the number of terms that hoisting
can make by 2^63. -/
theorem C45_host_partial (t : STy) (ha : Accepted t) (hs : Safe t) (hsm : Small (describe t)) : HostTy (describe t) where
  wf := describe_WF t ha hs
  sch := describe_sch t ha hs
  small := hsm
  plain := describe_plain t ha
  noOut := describe_noOut t

/-- In every memory, the object as described has the value of the C++ object. -/
theorem C45_value_partial (t : STy) (m : Mem) (a : Nat) (ha : Accepted t) (hs : Safe t) :
    readVal m (describe t) a = cppVal m t a := describe_val m t a ha hs

/-- The description never reaches beyond the C++ object, and it has its size if it has bytes on the wire. -/
theorem C45_size_partial (t : STy) (ha : Accepted t) (hs : Safe t) :
    (describe t).size ≤ (cpp t).1 ∧ (t.bytes = true → (describe t).size = (cpp t).1) :=
  ⟨describe_size_le t ha hs, describe_size_bytes t ha hs⟩

/-- The described alignment is the one of the C++ type, but for `double` (`C45_violated_align`). -/
theorem C45_align_partial (t : STy) (ha : Accepted t) (hs : Safe t) (hd : t ≠ .float 8) :
    (describe t).align = (cpp t).2 := by
  cases t with
  | int w s => simp only [describe, Ty.align, cpp, (cppInt_eq ha).1]
  | float w =>
    have : w = 4 := by
      simp only [Accepted] at ha
      have : w ≠ 8 := fun h => hd (by rw [h])
      omega
    subst this; rfl
  | variant ts d => simp only [describe, Ty.align, Bool.false_eq_true, if_false]
  | _ => rfl

/-- Planning is defined for every accepted schema and tag path. -/
theorem C45_plan_partial (t : STy) (path : Path) (ha : Accepted t) (hs : Safe t) (hsm : Small (describe t)) :
    ∃ p, plan (describe t) path = some p :=
  C01_plan _ path (C45_host_partial t ha hs hsm) (describe_elems t ha hs)

/-- From schema to C++ objects: with the protocol planned for the described type, encoding a C++ object succeeds,
and decoding any copy of the message makes a C++ object of the same value. -/
theorem C45_round_trip_partial (E : Env) (t : STy) (path : Path) (p : Proto) (obj buf : Nat) (mem : Mem) (v : Val)
    (ha : Accepted t) (hs : Safe t) (hsm : Small (describe t)) (hp : plan (describe t) path = some p)
    (hv : cppVal E.S t obj = some v) (hq : fin p.head v (buf + p.head.size) < W64) :
    ∃ s, encode E (describe t) p [] obj buf mem = .ok s ∧
      ∀ (m2 : Mem) (buf2 : Nat), buf2 + (s.ptr - buf) < W64 →
        (∀ i, i < s.ptr - buf → m2 (buf2 + i) = s.mem (buf + i)) →
        ∀ (mem3 : Mem) (dst dbuf cap : Nat), dst + (cpp t).1 < W64 → cap < 2 ^ 63 → dbuf + cap < W64 →
          Disj dst (cpp t).1 dbuf cap → fin (describe t) v dbuf ≤ dbuf + cap →
          ∃ d, decode { E with S := m2 } p (describe t) [] buf2 dst dbuf cap mem3 = some d ∧
            cppVal d.mem t dst = some v := by
  have hh := C45_host_partial t ha hs hsm
  have hle := describe_size_le t ha hs
  obtain ⟨s, h1, _, _, h2⟩ := C01_round_trip_partial E (describe t) path p obj buf mem v hh hp
    (by rw [C45_value_partial t _ _ ha hs]; exact hv) hq
  refine ⟨s, h1, fun m2 buf2 g1 g2 mem3 dst dbuf cap g3 g4 g5 g6 g7 => ?_⟩
  obtain ⟨d, d1, _, d2⟩ := h2 m2 buf2 g1 g2 mem3 dst dbuf cap (by omega) g4 g5
    (by unfold Disj at *; omega) g7
  exact ⟨d, d1, by rw [← C45_value_partial t _ _ ha hs]; exact d2⟩

/-! A schema with padding:
`struct Msg { x: int32; v: variant { p: uint8; q: struct { n: uint8; ys: uint8[2:]; } }; id: char8[3]; ds: float64[:4]; }` -/
namespace C45

open Sample (nm)

def u8 : STy := .int 1 .unsigned

def msg : STy :=
  .struct (.cons (nm "x") (.int 4 .signed) (.cons (nm "v")
    (.variant (.cons (nm "p") 1 u8 (.cons (nm "q") 2
      (.struct (.cons (nm "n") u8 (.cons (nm "ys") (.vector u8 2 none) .nil))) (.cons (nm "undef") 0 .unit .nil))) 2)
    (.cons (nm "id") (.array (.int 1 .signless) 3) (.cons (nm "ds") (.vector (.float 8) 0 (some 4)) .nil))))

theorem msg_accepted : Accepted msg := by
  simp only [msg, u8, Accepted, AcceptedFields, AcceptedTerms, SFields.names]
  refine ⟨by decide, by decide, ⟨⟨[⟨nm "p", none, false⟩, ⟨nm "q", none, false⟩],
    [(nm "undef", 0), (nm "p", 1), (nm "q", 2)], 0, ?_, by decide, by decide⟩, ?_⟩, ?_, ?_, trivial⟩
  · intro f hf t ht
    simp only [List.mem_cons, List.not_mem_nil, or_false] at hf
    rcases hf with rfl | rfl <;> cases ht
  · exact ⟨by decide, ⟨by decide, by decide, ⟨by decide, by decide, by simp, by decide⟩, trivial⟩, trivial, trivial⟩
  · exact ⟨by decide, by decide, by decide⟩
  · exact ⟨by decide, by decide, by simp, by decide⟩

theorem msg_safe : Safe msg := by
  simp only [msg, u8, Safe, SafeFields, SafeTerms, STerms.decls]
  simp [STy.isWchar, STy.bytes]

theorem msg_small : Small (describe msg) := by
  simp [msg, u8, describe, describeFields, describeTerms, Small, SmallFields, rounds, Terms.toList, eligible, eligibleFields,
    spanL]

/-- `x` at 0, `v` at 8 with its payload at 8 and its tag at 32, `id` at 40, `ds` at 48, 64 bytes. -/
example : cpp msg = (64, 8) := by decide

/-- The object `{ x = -2, v = q { n = 4, ys = [5, 6, 7] }, id = "abc", ds = [0x11, 0x12] }` at 1000. -/
def mem : Mem := fun a =>
  if 1000 ≤ a then
    (([0xfe, 0xff, 0xff, 0xff, 0, 0, 0, 0, 4, 0, 0, 0, 0, 0, 0, 0,
       0x4c, 0x04, 0, 0, 0, 0, 0, 0, 3, 0, 0, 0, 0, 0, 0, 0, 2, 0, 0, 0, 0, 0, 0, 0, 97, 98, 99, 0, 0, 0, 0, 0,
       0x50, 0x04, 0, 0, 0, 0, 0, 0, 2, 0, 0, 0, 0, 0, 0, 0]
       ++ List.replicate 36 0 ++ [5, 6, 7, 0, 0x11, 0, 0, 0, 0, 0, 0, 0, 0x12, 0, 0, 0, 0, 0, 0, 0] : List UInt8)[a - 1000]?).getD 0
  else 0

def env : Env := { S := mem, J := fun _ => 0xcc, fconv := fun _ _ b => b }

def val : Val :=
  .struct [(nm "x", .int (-2)),
    (nm "v", .variant (nm "q") (.struct [(nm "n", .int 4), (nm "ys", .vec [.int 5, .int 6, .int 7])])),
    (nm "id", .arr [.int 97, .int 98, .int 99]), (nm "ds", .vec [.float 8 0x11, .float 8 0x12])]

theorem val_eq : cppVal mem msg 1000 = some val := by with_unfolding_all rfl

def path : Path := [nm "v", nm "_"]

/-- The theorem applied to this object: a copy of the message decoded at another place. -/
example : ∃ p s d, plan (describe msg) path = some p ∧ encode env (describe msg) p [] 1000 5000 (fun _ => 0) = .ok s ∧
    decode { env with S := s.mem } p (describe msg) [] 5000 7000 8000 100 (fun _ => 0xff) = some d ∧
    cppVal d.mem msg 7000 = some val := by
  obtain ⟨p, hp⟩ := C45_plan_partial msg path msg_accepted msg_safe msg_small
  have hsz : (plan (describe msg) path).map (fun p => (decide (fin p.head val (5000 + p.head.size) < 6000))) = some true := by
    decide +kernel
  rw [hp] at hsz
  simp only [Option.map_some, Option.some.injEq, decide_eq_true_eq] at hsz
  have hw : (6000 : Nat) < W64 := by decide
  have hfin : fin (describe msg) val 8000 ≤ 8000 + 100 := by decide +kernel
  obtain ⟨s, h1, h2⟩ := C45_round_trip_partial env msg path p 1000 5000 (fun _ => 0) val msg_accepted msg_safe msg_small hp
    val_eq (by omega)
  have h3 := C01_round_trip_partial env (describe msg) path p 1000 5000 (fun _ => 0) val
    (C45_host_partial msg msg_accepted msg_safe msg_small) hp
    (by rw [C45_value_partial msg _ _ msg_accepted msg_safe]; exact val_eq) (by omega)
  obtain ⟨s', g1, g2, _⟩ := h3
  rw [h1] at g1
  cases g1
  obtain ⟨d, d1, d2⟩ := h2 s.mem 5000 (by omega) (fun _ _ => rfl) (fun _ => 0xff) 7000 8000 100
    (by decide) (by decide) (by decide) (Or.inr (Or.inr (Or.inl (by decide)))) hfin
  exact ⟨p, s, d, hp, h1, d1, d2⟩

/-- `int32[2]`. -/
def ints : STy := .array (.int 4 .signed) 2

theorem ints_accepted : Accepted ints := ⟨by decide, by decide, by simp only [Accepted]; decide⟩

/-- The bytes of `{1, 2}` at 10. -/
def memInts : Mem := fun a => if a = 10 then 1 else if a = 14 then 2 else 0

def envInts : Env := { S := memInts, J := fun _ => 0, fconv := fun _ _ b => b }

/-- `char16[:]`. -/
def chars : STy := .vector (.int 2 .signless) 0 none

/-- The span of `{L'a', L'b'}` at 100, at address 0. -/
def memChars : Mem := fun a => if a = 0 then 100 else if a = 8 then 2 else if a = 100 then 97 else if a = 104 then 98 else 0

end C45

open C45 in
/-- Violation: an array of two `int32` is described as two integers at a distance of one byte, in an object of two
bytes.  The described value is not the one of the C++ object. -/
theorem C45_violated_array : Accepted ints ∧ ¬ WF (describe ints) ∧ (cpp ints).1 = 8 ∧ (describe ints).size = 2 ∧
    cppVal memInts ints 10 = some (.arr [.int 1, .int 2]) ∧
    readVal memInts (describe ints) 10 = some (.arr [.int 1, .int (2 ^ 25)]) := by
  refine ⟨ints_accepted, ?_, by decide, by decide, by with_unfolding_all rfl, by with_unfolding_all rfl⟩
  simp [ints, describe, WF, arrayElemSize, Ty.size]

open C45 in
/-- Violation, seen by the user: the array `{1, 2}` is encoded and decoded into an object with other content, and the
second element has kept three bytes of it. -/
theorem C45_violated_round_trip : ∃ p s d, Accepted ints ∧ plan (describe ints) [] = some p ∧
    cppVal memInts ints 10 = some (.arr [.int 1, .int 2]) ∧
    encode envInts (describe ints) p [] 10 100 (fun _ => 0) = .ok s ∧
    decode { envInts with S := s.mem } p (describe ints) [] 100 200 300 8 (fun _ => 0x55) = some d ∧
    cppVal d.mem ints 200 = some (.arr [.int 1, .int 0x55555502]) := by
  have hp : ∃ p, plan (describe ints) [] = some p := ⟨_, rfl⟩
  obtain ⟨p, hp⟩ := hp
  have hr : (plan (describe ints) []).any (fun p => (encode envInts (describe ints) p [] 10 100 (fun _ => 0)).sat fun s =>
      (decode { envInts with S := s.mem } p (describe ints) [] 100 200 300 8 (fun _ => 0x55)).any fun d =>
        match cppVal d.mem ints 200 with
        | some (.arr [.int a, .int b]) => a == 1 && b == 0x55555502
        | _ => false) = true := by decide +kernel
  rw [hp] at hr
  obtain ⟨s, hs, hr⟩ := Res.sat_ok hr
  obtain ⟨d, hd, hr⟩ := decode_any hr
  refine ⟨p, s, d, ints_accepted, hp, by with_unfolding_all rfl, hs, hd, ?_⟩
  split at hr
  · rename_i a b h
    simp only [Bool.and_eq_true, beq_iff_eq] at hr
    rw [h, hr.1, hr.2]
  · cases hr

open C45 in
/-- Violation: the elements of a vector of `char16` are `wchar_t`, four bytes each, but described as two bytes. -/
theorem C45_violated_wchar : Accepted chars ∧ cppVal memChars chars 0 = some (.vec [.int 97, .int 98]) ∧
    readVal memChars (describe chars) 0 = some (.vec [.int 97, .int 0]) :=
  ⟨⟨by decide, by decide, by simp, by simp only [Accepted]; decide⟩, by with_unfolding_all rfl, by with_unfolding_all rfl⟩

/-- Violation: a `double` is described with the alignment of `float`. -/
theorem C45_violated_align : Accepted (.float 8) ∧ (cpp (.float 8)).2 = 8 ∧ (describe (.float 8)).align = 4 :=
  ⟨Or.inr rfl, rfl, rfl⟩

/-- Schema evolution between C++ objects: the receiver's object has the value of the sender's, converted. -/
theorem C45_evolution_partial (E : Env) (send recv : STy) (path : Path) (p : Proto) (obj buf : Nat) (mem : Mem)
    (v : Val) (hs : Accepted send) (hs' : Safe send) (hsm : Small (describe send)) (hr : Accepted recv) (hr' : Safe recv)
    (hrm : Small (describe recv)) (he : Evolves (describe recv) (describe send)) (hp : plan (describe send) path = some p)
    (hv : cppVal E.S send obj = some v) (hq : fin p.head v (buf + p.head.size) < W64) :
    ∃ s x, encode E (describe send) p [] obj buf mem = .ok s ∧ conv E.fconv (describe recv) v = some x ∧
      ∀ (m2 : Mem) (buf2 : Nat), buf2 + (s.ptr - buf) < W64 →
        (∀ i, i < s.ptr - buf → m2 (buf2 + i) = s.mem (buf + i)) →
        ∀ (mem3 : Mem) (dst dbuf cap : Nat), dst + (cpp recv).1 < W64 → cap < 2 ^ 63 → dbuf + cap < W64 →
          Disj dst (cpp recv).1 dbuf cap → fin (describe recv) v dbuf ≤ dbuf + cap →
          ∃ d, decode { E with S := m2 } p (describe recv) [] buf2 dst dbuf cap mem3 = some d ∧
            cppVal d.mem recv dst = some x := by
  have hle := describe_size_le recv hr hr'
  obtain ⟨s, x, h1, h2, _, h3⟩ := C43_receiver_partial E (describe send) (describe recv) path p obj buf mem v
    (C45_host_partial send hs hs' hsm) (C45_host_partial recv hr hr' hrm) he hp
    (by rw [C45_value_partial send _ _ hs hs']; exact hv) hq
  refine ⟨s, x, h1, h2, fun m2 buf2 g1 g2 mem3 dst dbuf cap g3 g4 g5 g6 g7 => ?_⟩
  obtain ⟨d, d1, d2⟩ := h3 m2 buf2 g1 g2 mem3 dst dbuf cap (by omega) g4 g5 (by unfold Disj at *; omega) g7
  exact ⟨d, d1, by rw [← C45_value_partial recv _ _ hr hr']; exact d2⟩

namespace C45

open Sample (nm)

/-- `struct { id: char8[2]; x: int64; fresh: uint8; }`. -/
def other : STy :=
  .struct (.cons (nm "id") (.array (.int 1 .signless) 2) (.cons (nm "x") (.int 8 .signed) (.cons (nm "fresh") u8 .nil)))

/-- The hypotheses of `C45_evolution_partial` can be met by `msg` and `other`. -/
example : Accepted other ∧ Safe other ∧ Small (describe other) ∧ Evolves (describe other) (describe msg) := by
  refine ⟨?_, ?_, ?_, ?_⟩
  · simp only [other, u8, Accepted, AcceptedFields, SFields.names]
    exact ⟨by decide, ⟨by decide, by decide, by decide⟩, by decide, by decide, trivial⟩
  · simp [other, u8, Safe, SafeFields]
  · simp [other, describe, describeFields, Small, SmallFields, u8]
  · simp [other, msg, u8, describe, describeFields, Evolves, EvolvesFields, Fields.toList, nm]

end C45

end PJ
