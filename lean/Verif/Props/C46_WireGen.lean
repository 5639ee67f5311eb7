import Verif.Lemmas.WireGen
import Verif.Model.BinCompat
import Verif.Props.C01_RoundTrip
/-!
# C46: the generated code of a wire protocol builds that protocol

The program written for a protocol (`rebuildProto`) is run by both sides in place of planning.  `host` is a host
type as the front ends make them, `p` its planned protocol.

`_partial`: the full claim is that the program compiles and builds `p` for every planned protocol.  It does not
compile when the schema has a float (`C46_violated_float`, for all such schemas), and it loses the attributes of the
terms that vector hoisting splits (`C46_violated_split`): what it builds is not binary compatible with `p` and makes
longer messages.  Messages can still be exchanged, in both directions (`C46_decode_partial`,
`C46_round_trip_partial`).
-/
namespace PJ

/-- Without floats the program compiles, and all that it loses is the attributes of the terms. -/
theorem C46_built_partial (host : Ty) (path : Path) (p : Proto) (hp : plan host path = some p)
    (hf : host.hasFloat = false) : rebuildProto p = some { head := p.head.dropAttrs, bufOff := p.bufOff } := by
  rw [plan_rebuild host path p hp, hf]
  rfl

/-- The very same protocol, if no term has a vector to split. -/
theorem C46_same_partial (host : Ty) (path : Path) (p : Proto) (hp : plan host path = some p)
    (hf : host.hasFloat = false) (hn : Plain host) (hu : Unhoisted host) : rebuildProto p = some p := by
  rw [C46_built_partial host path p hp hf, dropAttrs_id _ (plan_noAttrs host path p hn hu hp)]

/-- Every message is decoded by the generated protocol as by the planned one: the same memory, buffer and
callbacks, or the same failure, for any host type on the receiving side and any bytes. -/
theorem C46_decode_partial (E : Env) (host : Ty) (path : Path) (p q : Proto) (hp : plan host path = some p)
    (hq : rebuildProto p = some q) (recv : Ty) (hs : Handlers) (src dst buf cap : Nat) (mem : Mem) :
    decode E q recv hs src dst buf cap mem = decode E p recv hs src dst buf cap mem := by
  rw [plan_rebuild host path p hp] at hq
  split at hq
  · cases hq
  · cases hq
    unfold decode
    simp only [xcode_dropSrc]

/-- Encoding with the generated protocol succeeds and makes a message of the object's value, which is decoded to
that value with the generated protocol and with the planned one. -/
theorem C46_round_trip_partial (E : Env) (host : Ty) (path : Path) (p q : Proto) (obj buf : Nat) (mem : Mem) (v : Val)
    (hh : HostTy host) (hp : plan host path = some p) (hq : rebuildProto p = some q)
    (hv : readVal E.S host obj = some v) (hend : fin q.head v (buf + q.head.size) < W64) :
    ∃ s, encode E host q [] obj buf mem = .ok s ∧ s.ptr = fin q.head v (buf + q.head.size) ∧
      readVal s.mem p.head buf = some v ∧
      ∀ (m2 : Mem) (buf2 : Nat), buf2 + (s.ptr - buf) < W64 →
        (∀ i, i < s.ptr - buf → m2 (buf2 + i) = s.mem (buf + i)) →
        ∀ (mem3 : Mem) (dst dbuf cap : Nat), dst + host.size < W64 → cap < 2 ^ 63 → dbuf + cap < W64 →
          Disj dst host.size dbuf cap → fin host v dbuf ≤ dbuf + cap →
          ∃ d, decode { E with S := m2 } q host [] buf2 dst dbuf cap mem3 = some d ∧
            decode { E with S := m2 } p host [] buf2 dst dbuf cap mem3 = some d ∧ d.size ≤ cap ∧
            readVal d.mem host dst = some v := by
  have hdec := fun E recv hs src dst buf cap mem => C46_decode_partial E host path p q hp hq recv hs src dst buf cap mem
  have hrd : ∀ m a, readVal m q.head a = readVal m p.head a := by
    intro m a
    rw [plan_rebuild host path p hp] at hq
    split at hq
    · cases hq
    · cases hq; exact readVal_dropAttrs m p.head a
  have hqe : q = Proto.mk p.head.dropAttrs p.bufOff := by
    rw [plan_rebuild host path p hp] at hq
    split at hq
    · cases hq
    · cases hq; rfl
  obtain ⟨hok, hb, _, hrel, _⟩ := plan_ok host path p hh.sch hh.small hh.plain hh.noOut hp
  obtain ⟨c1, c2⟩ := rel_compat host p.head hrel hh.plain hh.wf hok.wf
  have hf := readVal_fits E.S host obj v hh.plain hv
  have hw : conv E.fconv q.head v = some v := by
    rw [hqe]; exact leads_conv E.fconv host p.head v (plan_leads host path p hh.plain hp) hh.plain hok.wf hf
  have hokq : q.OK := by rw [hqe]; exact ProtoOK_dropAttrs p hok
  have hbq : q.bufOff = 0 := by rw [hqe]; exact hb
  have c1 : Compat host q.head := by rw [hqe]; exact Compat_dropSrc _ _ c1
  have c2 : Compat q.head host := by rw [hqe]; exact Compat_dropDst _ _ c2
  clear hqe hq
  have hx := conv_fits E.fconv host v hh.wf hf
  have hge := fin_ge q.head v (buf + q.head.size) hokq.wf
  have hq' : fin q.head v (buf + q.head.size + q.bufOff) < W64 := by rw [hbq]; exact hend
  obtain ⟨s, hs⟩ := xcode_raw E q.head host [] obj buf
    { mem := mem, ptr := buf + q.head.size + q.bufOff, rem := none, cb := 0, used := 0 } v v hokq.wf hh.wf
    c2 (hokq.out buf) (HsOK_nil _) hv hw rfl (by simp only; omega)
  have hran := xcode_ran E q.head host [] obj buf
    { mem := mem, ptr := buf + q.head.size + q.bufOff, rem := none, cb := 0, used := 0 } s v v hokq.wf hh.wf
    c2 (hokq.out buf) (HsOK_nil _) hv hw hq' (by omega) (by unfold Disj; simp only; omega) hs
  have hptr := hran.ptr
  simp only [hbq, Nat.add_zero] at hptr
  refine ⟨s, hs, hptr, by rw [← hrd]; exact hran.val, fun m2 buf2 h1 h2 mem3 dst dbuf cap h3 h4 h5 h6 h7 => ?_⟩
  obtain ⟨d, hd, hd2, hd3⟩ := C02_decode_copy_partial E host q obj buf mem s v v hokq hh.wf c2 hv hw hq' hs host hh.wf
    hh.noOut c1 v hx m2 buf2 h1 h2 mem3 dst dbuf cap h3 h4 h6 h7 h5
  exact ⟨d, hd, by rw [← hdec]; exact hd, hd2, hd3⟩

/-- Violation: for every schema with a float the program does not compile. -/
theorem C46_violated_float (host : Ty) (path : Path) (p : Proto) (hp : plan host path = some p)
    (hf : host.hasFloat = true) : rebuildProto p = none := by
  rw [plan_rebuild host path p hp, hf]
  rfl

namespace Sample

/-- `{ x : f64 }` is such a schema. -/
example : ∃ p, plan (.struct (.cons (nm "x") 0 (.float 8 8) .nil) 8 8) [] = some p ∧ rebuildProto p = none := by
  have h : ∃ p, plan (.struct (.cons (nm "x") 0 (.float 8 8) .nil) 8 8) [] = some p := ⟨_, rfl⟩
  obtain ⟨p, hp⟩ := h
  exact ⟨p, hp, C46_violated_float _ [] p hp rfl⟩

/-- The object `{ x = -2, v = q { n = 4, ys = [5, 6] } }` at address 1000. -/
def memR2 : Mem := fun a => if a = 1024 then 2 else memR a

def valR2 : Val :=
  .struct [(nm "x", .int (-2)),
    (nm "v", .variant (nm "q") (.struct [(nm "n", .int 4), (nm "ys", .vec [.int 5, .int 6])]))]

def envR2 : Env := { envR with S := memR2 }

theorem readR2 : readVal envR2.S hostR 1000 = some valR2 := rfl

end Sample

/-- Violation: `hostR` with the path `v._`, in which vector hoisting splits `q`.  The program builds a protocol that
is not binary compatible with the planned one.  An object with two elements has a message with another tag and of
another length. -/
theorem C46_violated_split : ∃ p q s s', plan Sample.hostR Sample.pathR = some p ∧ rebuildProto p = some q ∧
    q.binCompat p = false ∧
    encode Sample.envR2 Sample.hostR p [] 1000 5000 (fun _ => 0) = .ok s ∧
    encode Sample.envR2 Sample.hostR q [] 1000 5000 (fun _ => 0) = .ok s' ∧
    s.mem 5004 ≠ s'.mem 5004 ∧ s.ptr < s'.ptr := by
  obtain ⟨p, hp⟩ := C01_plan Sample.hostR Sample.pathR Sample.hostR_ok Sample.hostR_elems
  have hq := C46_built_partial _ _ p hp rfl
  have hr : (plan Sample.hostR Sample.pathR).any (fun p =>
      !(Proto.mk p.head.dropAttrs p.bufOff).binCompat p &&
      (encode Sample.envR2 Sample.hostR p [] 1000 5000 (fun _ => 0)).sat fun s =>
        (encode Sample.envR2 Sample.hostR (Proto.mk p.head.dropAttrs p.bufOff) [] 1000 5000 (fun _ => 0)).sat
          fun s' => s.mem 5004 != s'.mem 5004 && decide (s.ptr < s'.ptr)) = true := by decide +kernel
  rw [hp] at hr
  simp only [Option.any_some, Bool.and_eq_true, Bool.not_eq_true'] at hr
  obtain ⟨hb, hr⟩ := hr
  obtain ⟨s, hs, hr⟩ := Res.sat_ok hr
  obtain ⟨s', hs', hr⟩ := Res.sat_ok hr
  simp only [Bool.and_eq_true, bne_iff_ne, ne_eq, decide_eq_true_eq] at hr
  exact ⟨p, _, s, s', hp, hq, hb, hs, hs', hr.1, hr.2⟩

namespace Sample

/-- The message of that object made with the generated protocol has its value. -/
example : ∃ p q s, plan hostR pathR = some p ∧ rebuildProto p = some q ∧
    encode envR2 hostR q [] 1000 5000 (fun _ => 0) = .ok s ∧ readVal s.mem p.head 5000 = some valR2 := by
  obtain ⟨p, hp⟩ := C01_plan hostR pathR hostR_ok hostR_elems
  have hq := C46_built_partial _ _ p hp rfl
  have hsz : (plan hostR pathR).map (fun p => (p.head.dropAttrs.size, fin p.head.dropAttrs valR2 5005)) =
      some (5, 5024) := by decide +kernel
  rw [hp] at hsz
  simp only [Option.map_some, Option.some.injEq, Prod.mk.injEq] at hsz
  obtain ⟨s, h1, _, h2, _⟩ := C46_round_trip_partial envR2 hostR pathR p _ 1000 5000 (fun _ => 0) valR2 hostR_ok hp hq
    readR2 (by simp only [hsz.1, hsz.2]; decide)
  exact ⟨p, _, s, hp, hq, h1, h2⟩

/-- `hostR` without the minimum of `ys`: `{ x : i32, v : { p : u8 = 1, q : { n : u8, ys : u8[] } = 2 } }`. -/
def hostR0 : Ty :=
  .struct (.cons (nm "x") 0 i32 (.cons (nm "v") 8
    (.variant (.cons (nm "p") 1 [] u8 (.cons (nm "q") 2 []
      (.struct (.cons (nm "n") 0 u8 (.cons (nm "ys") 8 (.vector u8 { hostL with wireMin := 0 }) .nil)) 24 8) .nil))
      { outline := false, dflt := 0, termOff := 0, termSize := 24, tagOff := 24, tagW := 1, size := 32,
        align := 8, termAlign := 8 }) .nil)) 40 8

/-- The generated protocol is the planned one, outlined variant included. -/
example : ∃ p, plan hostR0 pathR = some p ∧ rebuildProto p = some p ∧ p.head.hasOut = true := by
  have h : ∃ p, plan hostR0 pathR = some p := ⟨_, rfl⟩
  obtain ⟨p, hp⟩ := h
  have ho : (plan hostR0 pathR).map (fun p => p.head.hasOut) = some true := by decide +kernel
  rw [hp] at ho
  refine ⟨p, hp, C46_same_partial hostR0 pathR p hp rfl ?_ ?_, Option.some.inj ho⟩
  · simp [hostR0, Plain, PlainFields, PlainTerms, Terms.toList, i32, u8, nm]
  · simp [hostR0, Unhoisted, UnhoistedFields, Terms.toList, Unsplit, UnsplitFields, i32, u8]

end Sample

end PJ
