import Verif.Lemmas.Tight
import Verif.Lemmas.CostDef
import Verif.Props.C01_RoundTrip
import Verif.Props.C03_Size
import Verif.Props.C04_Rounded
import Verif.Props.C06_DecodeBuffer
import Verif.Props.C39_PriorMemory
/-!
# Planned protocols

The claims about encode and decode for the protocol that is planned from the host type itself: no
hypothesis about the wire type is left.
-/
namespace PJ

mutual
theorem tight_packed : ∀ t : Ty, Tight t → t.packed
  | .int _ _ _, _ => by simp [Ty.packed]
  | .float _ _, _ => by simp [Ty.packed]
  | .unit, _ => by simp [Ty.packed]
  | .struct fs _ _, h => by simp only [Ty.packed]; exact tight_packedF fs h.2.2
  | .variant ts _, h => by simp only [Ty.packed]; exact tight_packedT ts h.2.2.2
  | .array e _ _ _, h => by simp only [Ty.packed]; exact tight_packed e h.2.2
  | .vector e _, h => by simp only [Ty.packed]; exact ⟨Tight.align h.2.2, tight_packed e h.2.2⟩
theorem tight_packedF : ∀ fs : Fields, TightFields fs → fs.packed
  | .nil, _ => by simp [Fields.packed]
  | .cons _ _ t r, h => ⟨tight_packed t h.1, tight_packedF r h.2⟩
theorem tight_packedT : ∀ ts : Terms, TightTerms ts → ts.packed
  | .nil, _ => by simp [Terms.packed]
  | .cons _ _ _ t r, h => ⟨tight_packed t h.1, tight_packedT r h.2⟩
end

/-- Encode of any object, valid or not, with any tag path: when it returns, the size function is
exact and nothing outside the message was written. -/
theorem C03_planned_partial (E : Env) (host : Ty) (path src : Path) (p : Proto) (obj buf : Nat) (mem : Mem)
    (s : St) (hh : HostTy host) (hp : plan host path = some p)
    (hr : encode E host p src obj buf mem = .ok s) (hw : buf + p.head.size + s.used < W64) :
    ∃ n, sizeFn false E.S host p src obj = some n ∧ s.ptr = buf + n ∧
      ∀ a, ¬ (buf ≤ a ∧ a < buf + n) → s.mem a = mem a := by
  obtain ⟨hok, hb, _, hrel, _⟩ := plan_ok host path p hh.sch hh.small hh.plain hh.noOut hp
  exact C03_exact_partial E host p src obj buf mem s hh.wf hok.wf
    (compat_tame _ _ (rel_compat host p.head hrel hh.plain hh.wf hok.wf).2) (hok.out buf)
    (tight_packed _ (plan_tight host path p hp)) hb hr hw

/-- For an object that has a value encode does return, and both size and end of the message are
given by the value alone. -/
theorem C03_value_partial (E : Env) (host : Ty) (path : Path) (p : Proto) (obj buf : Nat) (mem : Mem)
    (v : Val) (hh : HostTy host) (hp : plan host path = some p) (hv : readVal E.S host obj = some v)
    (hq : fin p.head v (buf + p.head.size) < W64) :
    ∃ s, encode E host p [] obj buf mem = .ok s ∧ s.ptr = fin p.head v (buf + p.head.size) ∧
      sizeFn false E.S host p [] obj = some (s.ptr - buf) ∧
      ∀ a, ¬ (buf ≤ a ∧ a < s.ptr) → s.mem a = mem a := by
  obtain ⟨hok, hb, _, hrel, hfit⟩ := plan_ok host path p hh.sch hh.small hh.plain hh.noOut hp
  have hc := (rel_compat host p.head hrel hh.plain hh.wf hok.wf).2
  have hw := conv_fits E.fconv p.head v hok.wf (hfit v (readVal_fits E.S host obj v hh.plain hv))
  have hge := fin_ge p.head v (buf + p.head.size) hok.wf
  obtain ⟨s, h1, h2, _⟩ := C01_round_trip_partial E host path p obj buf mem v hh hp hv hq
  have hran := xcode_ran E p.head host [] obj buf
    { mem := mem, ptr := buf + p.head.size + p.bufOff, rem := none, cb := 0, used := 0 } s v v hok.wf hh.wf
    hc (hok.out buf) (HsOK_nil _) hv hw (by simp only [hb]; exact hq) (by omega)
    (by unfold Disj; simp only; omega) h1
  have hu := hran.used
  simp only [hb, Nat.add_zero, Nat.zero_add] at hu
  obtain ⟨n, h3, h4, h5⟩ := C03_planned_partial E host path [] p obj buf mem s hh hp h1 (by omega)
  refine ⟨s, h1, h2, by rw [h3, h4]; congr 1; omega, fun a ha => h5 a (by omega)⟩

/-- For an object that has a value the rounded size function has a result, and a buffer of that size
holds the message.  `k + p.head.size` is the rounded size before it is put into 64 bits. -/
theorem C04_planned_partial (E : Env) (host : Ty) (path : Path) (p : Proto) (obj buf : Nat) (mem : Mem)
    (v : Val) (hh : HostTy host) (hp : plan host path = some p) (hv : readVal E.S host obj = some v)
    (hq : fin p.head v (buf + p.head.size) < W64) :
    ∃ s k, encode E host p [] obj buf mem = .ok s ∧ cost true E.S p.head host [] obj = some k ∧
      sizeFn true E.S host p [] obj = some ((k + p.head.size) % W64) ∧ s.ptr ≤ buf + (k + p.head.size) ∧
      ∀ a, ¬ (buf ≤ a ∧ a < buf + (k + p.head.size)) → s.mem a = mem a := by
  obtain ⟨hok, hb, _, hrel, _⟩ := plan_ok host path p hh.sch hh.small hh.plain hh.noOut hp
  have ht := compat_tame _ _ (rel_compat host p.head hrel hh.plain hh.wf hok.wf).2
  have hkin := rel_kin _ host p.head hrel hh.plain hh.wf
  have hpk := tight_packed _ (plan_tight host path p hp)
  obtain ⟨s, h1, h2, h3, h4⟩ := C03_value_partial E host path p obj buf mem v hh hp hv hq
  obtain ⟨d, hd⟩ := cost_def false E.S p.head host obj v hok.wf hh.wf ht hkin hv
  obtain ⟨k, hk⟩ := cost_def true E.S p.head host obj v hok.wf hh.wf ht hkin hv
  have hle := cost_hoisted_le E.S p.head host [] obj d k hok.wf hh.wf ht
    (plan_hoisted host path p hh.sch hh.plain hp) hd hk
  rw [sizeFn_cost hpk, hd, Option.map_some, Option.some.injEq] at h3
  have hmod := Nat.mod_le (d + p.head.size) W64
  have hge := fin_ge p.head v (buf + p.head.size) hok.wf
  exact ⟨s, k, h1, hk, by rw [sizeFn_cost hpk, hk, Option.map_some], by omega, fun a ha => h4 a (by omega)⟩

mutual
theorem plain_termNames : ∀ t : Ty, Plain t → t.termNames
  | .int _ _ _, _ => trivial
  | .float _ _, _ => trivial
  | .unit, _ => trivial
  | .struct fs _ _, h => plainFields_termNames fs h
  | .variant ts _, h => ⟨h.1, plainTerms_termNames ts h.2⟩
  | .array e _ _ _, h => plain_termNames e h
  | .vector e _, h => plain_termNames e h
theorem plainFields_termNames : ∀ fs : Fields, PlainFields fs → fs.termNames
  | .nil, _ => trivial
  | .cons _ _ t r, h => ⟨plain_termNames t h.1, plainFields_termNames r h.2⟩
theorem plainTerms_termNames : ∀ ts : Terms, PlainTerms ts → ts.termNames
  | .nil, _ => trivial
  | .cons _ _ _ t r, h => ⟨plain_termNames t h.2.1, plainTerms_termNames r h.2.2⟩
end

/-- The rounded size of a planned protocol depends only on the parts of the value without a maximum
size. -/
theorem C04_planned_depends_partial (S S' : Mem) (host : Ty) (path : Path) (p : Proto) (src src' : Path)
    (obj obj' : Nat) (v v' : Val) (hh : HostTy host) (hp : plan host path = some p)
    (hv : readVal S host obj = some v) (hv' : readVal S' host obj' = some v') (hs : host.same v v')
    (h1 : Holds src v) (h2 : Holds src' v') (h3 : PathNames src host) (h4 : PathNames src' host) :
    sizeFn true S host p src obj = sizeFn true S' host p src' obj' := by
  obtain ⟨hok, hb, _, hrel, _⟩ := plan_ok host path p hh.sch hh.small hh.plain hh.noOut hp
  exact C04_depends_partial S S' host p src src' obj obj' v v' hh.wf hok.wf
    (compat_tame _ _ (rel_compat host p.head hrel hh.plain hh.wf hok.wf).2)
    (tight_packed _ (plan_tight host path p hp)) (plain_termNames host hh.plain) hv hv' hs h1 h2 h3 h4

/-- Any receiver: a copy of the message anywhere decodes to the conversion of the value that was
encoded, provided that the buffer can hold its out-of-line data. -/
theorem C02_planned_partial (E : Env) (host : Ty) (path : Path) (p : Proto) (obj buf : Nat) (mem : Mem)
    (v : Val) (hh : HostTy host) (hp : plan host path = some p) (hv : readVal E.S host obj = some v)
    (hq : fin p.head v (buf + p.head.size) < W64) :
    ∃ s, encode E host p [] obj buf mem = .ok s ∧
      ∀ (m2 : Mem) (buf2 : Nat), buf2 + (s.ptr - buf) < W64 →
        (∀ i, i < s.ptr - buf → m2 (buf2 + i) = s.mem (buf + i)) →
        readVal m2 p.head buf2 = some v ∧
        ∀ (recv : Ty) (x : Val), WF recv → recv.noOut → Compat recv p.head →
          conv E.fconv recv v = some x →
          ∀ (mem3 : Mem) (dst dbuf cap : Nat), dst + recv.size < W64 → cap < 2 ^ 63 → dbuf + cap < W64 →
            Disj dst recv.size dbuf cap → fin recv v dbuf ≤ dbuf + cap →
            ∃ d, decode { E with S := m2 } p recv [] buf2 dst dbuf cap mem3 = some d ∧
              readVal d.mem recv dst = some x := by
  obtain ⟨hok, hb, _, hrel, hfit⟩ := plan_ok host path p hh.sch hh.small hh.plain hh.noOut hp
  have hc := (rel_compat host p.head hrel hh.plain hh.wf hok.wf).2
  have hw := conv_fits E.fconv p.head v hok.wf (hfit v (readVal_fits E.S host obj v hh.plain hv))
  have hq' : fin p.head v (buf + p.head.size + p.bufOff) < W64 := by rw [hb]; exact hq
  obtain ⟨s, hs, _⟩ := C01_round_trip_partial E host path p obj buf mem v hh hp hv hq
  refine ⟨s, hs, fun m2 buf2 h1 h2 => ⟨?_, ?_⟩⟩
  · exact (C02_copies_partial E host p obj buf mem s v v hok hh.wf hc hv hw hq' hs).2 m2 buf2 h1 h2
  · intro recv x hr hn hrc hx mem3 dst dbuf cap h3 h4 h5 h6 h7
    obtain ⟨d, hd, _, hd2⟩ := C02_decode_copy_partial E host p obj buf mem s v v hok hh.wf hc hv hw hq' hs recv hr hn
      hrc x hx m2 buf2 h1 h2 mem3 dst dbuf cap h3 h4 h6 h7 h5
    exact ⟨d, hd, hd2⟩

/-- The message of an object's own protocol, wherever it is: decode into the same type succeeds exactly
when the buffer is large enough. -/
theorem C06_planned_partial (E : Env) (host : Ty) (path : Path) (p : Proto) (msg obj buf cap : Nat) (mem : Mem)
    (v : Val) (hh : HostTy host) (hp : plan host path = some p) (hv : readVal E.S p.head msg = some v)
    (hf : Fits host v) (hcap : cap < 2 ^ 63) (hq : fin host v buf < W64)
    (hq' : fin host v buf ≤ buf + 2 ^ 63) :
    ∃ d, decode E p host [] msg obj buf cap mem = some d ∧
      (fin host v buf ≤ buf + cap → d.ptr = fin host v buf ∧ d.size = buf + cap - fin host v buf) ∧
      (buf + cap < fin host v buf → d.size = 2 ^ 64 - 1) := by
  obtain ⟨hok, _, _, hrel, _⟩ := plan_ok host path p hh.sch hh.small hh.plain hh.noOut hp
  exact C06_decode_buffer_partial E p host [] msg obj buf cap mem v v hok.wf hh.wf hh.noOut
    (rel_compat host p.head hrel hh.plain hh.wf hok.wf).1 (HsOK_nil _) hv
    (conv_fits E.fconv host v hh.wf hf) hcap hq hq'

/-- Two objects of the same value, in any memories and with any padding, encoded into any memories: both
messages have that value. -/
theorem C39_planned_partial (E E' : Env) (host : Ty) (path : Path) (p : Proto) (obj obj' buf buf' : Nat)
    (mem mem' : Mem) (v : Val) (hh : HostTy host) (hp : plan host path = some p)
    (hv : readVal E.S host obj = some v) (hv' : readVal E'.S host obj' = some v)
    (hq : fin p.head v (buf + p.head.size) < W64) (hq' : fin p.head v (buf' + p.head.size) < W64) :
    ∃ s s', encode E host p [] obj buf mem = .ok s ∧ encode E' host p [] obj' buf' mem' = .ok s' ∧
      readVal s.mem p.head buf = some v ∧ readVal s'.mem p.head buf' = some v := by
  obtain ⟨s, h1, _, h2, _⟩ := C01_round_trip_partial E host path p obj buf mem v hh hp hv hq
  obtain ⟨s', h1', _, h2', _⟩ := C01_round_trip_partial E' host path p obj' buf' mem' v hh hp hv' hq'
  exact ⟨s, s', h1, h1', h2, h2'⟩

open Sample in
example : ∃ p s, plan hostR pathR = some p ∧ encode envR hostR p [] 1000 5000 (fun _ => 0) = .ok s ∧
    sizeFn false envR.S hostR p [] 1000 = some 25 ∧ (∀ a, 5025 ≤ a → s.mem a = 0) ∧
    ∀ m2 : Mem, (∀ i, i < 25 → m2 (77 + i) = s.mem (5000 + i)) → readVal m2 p.head 77 = some valR := by
  obtain ⟨p, hp⟩ := C01_plan hostR pathR hostR_ok hostR_elems
  have hsz : (plan hostR pathR).map (fun p => (p.head.size, fin p.head valR 5005)) = some (5, 5025) := by
    decide +kernel
  rw [hp] at hsz
  simp only [Option.map_some, Option.some.injEq, Prod.mk.injEq] at hsz
  have hq : fin p.head valR (5000 + p.head.size) < W64 := by rw [hsz.1, hsz.2]; decide
  obtain ⟨s, h1, h2, h5, h6⟩ := C03_value_partial envR hostR pathR p 1000 5000 (fun _ => 0) valR hostR_ok hp readR hq
  obtain ⟨s', h1', h4⟩ := C02_planned_partial envR hostR pathR p 1000 5000 (fun _ => 0) valR hostR_ok hp readR hq
  rw [h1] at h1'; cases h1'
  rw [hsz.1, hsz.2] at h2
  rw [h2] at h4 h5 h6
  exact ⟨p, s, hp, h1, h5, fun a ha => h6 a (by omega), fun m2 hm => (h4 m2 77 (by decide) hm).1⟩

open Sample in
example : ∃ p, plan hostR pathR = some p ∧ ∀ (m : Mem), readVal m p.head 77 = some valR →
    ∃ d, decode { envR with S := m } p hostR [] 77 9000 8000 2 (fun _ => 0) = some d ∧ d.size = 2 ^ 64 - 1 := by
  obtain ⟨p, hp⟩ := C01_plan hostR pathR hostR_ok hostR_elems
  refine ⟨p, hp, fun m hm => ?_⟩
  have hfin : fin hostR valR 8000 = 8003 := rfl
  obtain ⟨d, hd, _, h⟩ := C06_planned_partial { envR with S := m } hostR pathR p 77 9000 8000 2 (fun _ => 0) valR
    hostR_ok hp hm (readVal_fits envR.S hostR 1000 valR hostR_ok.plain readR) (by decide)
    (by rw [hfin]; decide) (by rw [hfin]; decide)
  exact ⟨d, hd, h (by rw [hfin]; decide)⟩

/-! A host variant `{ p : u8 = 1, q : u8[2..5] = 2 }` holding `q [5]`: the message is made with the short term, the
rounded size counts the long one. -/
namespace C04
open Sample

def hostL5 : VecL := { hostL with wireMin := 2, maxLen := some 5 }

def hostT : Ty :=
  .variant (.cons (nm "p") 1 [] u8 (.cons (nm "q") 2 [] (.vector u8 hostL5) .nil))
    { outline := false, dflt := 0, termOff := 0, termSize := 16, tagOff := 16, tagW := 1, size := 24,
      align := 8, termAlign := 8 }

def envT (n : UInt8) : Env :=
  { S := fun a => if a = 1000 then 0xd0 else if a = 1001 then 7 else if a = 1008 then n else if a = 1016 then 2
      else if 2000 ≤ a then 5 else 0
    J := fun _ => 0xcc, fconv := fun _ _ b => b }

def valT : Val := .variant (nm "q") (.vec [.int 5])

theorem readT : readVal (envT 1).S hostT 1000 = some valT := rfl

theorem hostT_ok : HostTy hostT where
  wf := by
    refine ⟨⟨by simp [u8, WF], ⟨by simp [u8, WF], ?_⟩, trivial⟩, ?_⟩
    · constructor <;> simp [hostL5, hostL, Disj, VecL.canOut, u8, Ty.size, Ty.align]
    · constructor <;> simp [Terms.toList, Ty.size, u8, hostL5, hostL, Disj]
  sch := by simp [hostT, hostL5, hostL, Sch, SchTerms, Terms.toList, u8, nm]
  small := by simp [hostT, Small, rounds, Terms.toList, eligible, u8, hostL5, hostL]
  plain := by simp [hostT, Plain, PlainTerms, Terms.toList, u8, nm]
  noOut := by simp [hostT, Ty.noOut, Terms.noOut, u8]

theorem hostT_elems : Elems hostT := by simp [hostT, Elems, ElemsTerms, u8, Ty.bytes]

example : ∃ p s, plan hostT [nm "_"] = some p ∧
    encode (envT 1) hostT p [] 1000 5000 (fun _ => 0) = .ok s ∧
    sizeFn false (envT 1).S hostT p [] 1000 = some 10 ∧ sizeFn true (envT 1).S hostT p [] 1000 = some 15 ∧
    s.ptr ≤ 5015 ∧ ∀ a, ¬ (5000 ≤ a ∧ a < 5015) → s.mem a = 0 := by
  obtain ⟨p, hp⟩ := C01_plan hostT [nm "_"] hostT_ok hostT_elems
  have hsz : (plan hostT [nm "_"]).map (fun p => (p.head.size, fin p.head valT 5001,
      sizeFn false (envT 1).S hostT p [] 1000, cost true (envT 1).S p.head hostT [] 1000)) =
      some (1, 5010, some 10, some 14) := by decide +kernel
  rw [hp] at hsz
  simp only [Option.map_some, Option.some.injEq, Prod.mk.injEq] at hsz
  obtain ⟨s, k, h1, h2, h3, h4, h5⟩ := C04_planned_partial (envT 1) hostT [nm "_"] p 1000 5000 (fun _ => 0) valT
    hostT_ok hp readT (by rw [hsz.1, hsz.2.1]; decide)
  rw [hsz.2.2.2] at h2
  cases h2
  rw [hsz.1] at h3 h4 h5
  exact ⟨p, s, hp, h1, hsz.2.2.1, h3, h4, h5⟩

/-- One and four elements: the same rounded size. -/
example : ∃ p, plan hostT [nm "_"] = some p ∧
    sizeFn true (envT 1).S hostT p [] 1000 = sizeFn true (envT 4).S hostT p [] 1000 := by
  obtain ⟨p, hp⟩ := C01_plan hostT [nm "_"] hostT_ok hostT_elems
  refine ⟨p, hp, C04_planned_depends_partial (envT 1).S (envT 4).S hostT [nm "_"] p [] [] 1000 1000 valT
    (.variant (nm "q") (.vec [.int 5, .int 5, .int 5, .int 5])) hostT_ok hp rfl rfl ?_ ?_ ?_ ?_ ?_⟩
  · simp [hostT, valT, Ty.same, Terms.same, u8, hostL5, hostL, Ty.hasMax, nm]
  · unfold Holds; trivial
  · unfold Holds; trivial
  · unfold PathNames; trivial
  · unfold PathNames; trivial

end C04

end PJ
