import Verif.Lemmas.PlanDef
import Verif.Props.C02_Relocation
import Verif.Props.C40_KnownTerm
import Verif.Props.C08_Handlers
/-!
# C01: same-schema round trip

The protocol is the one `plan` makes from the host type itself, for any tag path.  The hypotheses on
the host type (`HostTy`) are what the front ends guarantee: a layout without overlaps, distinct names
and tags, tags below 2^63 and not all of them 0, bounds of vectors positive and below 2^63, and
(`small`) fewer than 2^63 terms after vector hoisting.  The last ones exclude the defects
`C17_width_zero`, `C21` and the length word of width 0 (`DESIGN.md`).

`_partial`: the full claim has no restriction on tags; `C01_violated` is a counterexample with a tag of 2^63.
-/
namespace PJ

/-- A host type as the front ends make them. -/
structure HostTy (t : Ty) : Prop where
  wf : WF t
  sch : Sch t
  small : Small t
  plain : Plain t
  noOut : t.noOut

/-- Where in the object memory a value may be, and which value it is: `readVal` has a result for every
object whose tags are tags of its variants and whose lengths are within bounds.  Encoding such an
object succeeds, the message has the object's value, and decoding any copy of the message into an
object of the same type gives an object of the same value, provided that nothing wraps around the end
of the address space and that the decode buffer can hold the out-of-line data. -/
theorem C01_round_trip_partial (E : Env) (host : Ty) (path : Path) (p : Proto) (obj buf : Nat) (mem : Mem) (v : Val)
    (hh : HostTy host) (hp : plan host path = some p) (hv : readVal E.S host obj = some v)
    (hq : fin p.head v (buf + p.head.size) < W64) :
    ∃ s, encode E host p [] obj buf mem = .ok s ∧ s.ptr = fin p.head v (buf + p.head.size) ∧
      readVal s.mem p.head buf = some v ∧
      ∀ (m2 : Mem) (buf2 : Nat), buf2 + (s.ptr - buf) < W64 →
        (∀ i, i < s.ptr - buf → m2 (buf2 + i) = s.mem (buf + i)) →
        ∀ (mem3 : Mem) (dst dbuf cap : Nat), dst + host.size < W64 → cap < 2 ^ 63 → dbuf + cap < W64 →
          Disj dst host.size dbuf cap → fin host v dbuf ≤ dbuf + cap →
          ∃ d, decode { E with S := m2 } p host [] buf2 dst dbuf cap mem3 = some d ∧ d.size ≤ cap ∧
            readVal d.mem host dst = some v := by
  obtain ⟨hok, hb, _, hrel, hfit⟩ := plan_ok host path p hh.sch hh.small hh.plain hh.noOut hp
  obtain ⟨c1, c2⟩ := rel_compat host p.head hrel hh.plain hh.wf hok.wf
  have hf := readVal_fits E.S host obj v hh.plain hv
  have hw := conv_fits E.fconv p.head v hok.wf (hfit v hf)
  have hx := conv_fits E.fconv host v hh.wf hf
  have hge := fin_ge p.head v (buf + p.head.size) hok.wf
  have hq' : fin p.head v (buf + p.head.size + p.bufOff) < W64 := by rw [hb]; exact hq
  obtain ⟨s, hs⟩ := xcode_raw E p.head host [] obj buf
    { mem := mem, ptr := buf + p.head.size + p.bufOff, rem := none, cb := 0, used := 0 } v v hok.wf hh.wf
    c2 (hok.out buf) (HsOK_nil _) hv hw rfl (by simp only; omega)
  have hran := xcode_ran E p.head host [] obj buf
    { mem := mem, ptr := buf + p.head.size + p.bufOff, rem := none, cb := 0, used := 0 } s v v hok.wf hh.wf
    c2 (hok.out buf) (HsOK_nil _) hv hw hq' (by omega) (by unfold Disj; simp only; omega) hs
  have hptr := hran.ptr
  simp only [hb, Nat.add_zero] at hptr
  refine ⟨s, hs, hptr, hran.val, fun m2 buf2 h1 h2 mem3 dst dbuf cap h3 h4 h5 h6 h7 => ?_⟩
  exact C02_decode_copy_partial E host p obj buf mem s v v hok hh.wf c2 hv hw hq' hs host hh.wf hh.noOut
    c1 v hx m2 buf2 h1 h2 mem3 dst dbuf cap h3 h4 h6 h7 h5

theorem plain_find : ∀ {fs : Fields} {c : Comp} {o : Nat} {t : Ty}, PlainFields fs → fs.find c = some (o, t) →
    Plain t
  | .nil, _, _, _, _, h => by simp [Fields.find] at h
  | .cons n o t r, c, o', t', hp, h => by
    simp only [Fields.find] at h
    split at h
    · cases h; exact hp.1
    · exact plain_find hp.2 h

theorem plain_pathNames : ∀ (path : Path) (t : Ty), Plain t → PathNames path t
  | [], t, _ => by simp [PathNames]
  | c :: p, t, h => by
    cases t with
    | struct fs _ _ => exact fun o t ht => plain_pathNames p t (plain_find h ht)
    | variant ts l => exact h.1
    | int _ _ _ => trivial
    | float _ _ => trivial
    | unit => trivial
    | array _ _ _ _ => trivial
    | vector _ _ => trivial

/-- Every host type without empty vector elements can be planned, for every path. -/
theorem C01_plan (host : Ty) (path : Path) (hh : HostTy host) (he : Elems host) :
    ∃ p, plan host path = some p := plan_defined host path hh.sch hh.small hh.plain he

/-- The encoder specialised to the term the object holds makes the same message. -/
theorem C01_known_term_partial (E : Env) (host : Ty) (path src : Path) (p : Proto) (obj buf : Nat) (mem : Mem)
    (v : Val) (hh : HostTy host) (hp : plan host path = some p) (hv : readVal E.S host obj = some v)
    (hs : Holds src v) (hq : fin p.head v (buf + p.head.size) < W64) :
    ∃ s, encode E host p src obj buf mem = .ok s ∧ readVal s.mem p.head buf = some v := by
  obtain ⟨s, h1, _, h2, _⟩ := C01_round_trip_partial E host path p obj buf mem v hh hp hv hq
  exact ⟨s, by rw [C40_known_term_partial E host p src obj buf mem v hh.wf hv hs
    (plain_pathNames src host hh.plain)]; exact h1, h2⟩

/-! A host struct `{ x : i32, v : { p : u8 = 1, q : { n : u8, ys : u8[2..] } = 2 } }`, which vector hoisting
splits, with the tag path `v._`. -/
namespace Sample

def hostL2 : VecL := { hostL with wireMin := 2 }

def hostQ : Ty := .struct (.cons (nm "n") 0 u8 (.cons (nm "ys") 8 (.vector u8 hostL2) .nil)) 24 8

def hostR : Ty :=
  .struct (.cons (nm "x") 0 i32 (.cons (nm "v") 8
    (.variant (.cons (nm "p") 1 [] u8 (.cons (nm "q") 2 [] hostQ .nil))
      { outline := false, dflt := 0, termOff := 0, termSize := 24, tagOff := 24, tagW := 1, size := 32,
        align := 8, termAlign := 8 }) .nil)) 40 8

/-- The object `{ x = -2, v = q { n = 4, ys = [5, 6, 7] } }` at address 1000. -/
def memR : Mem := fun a =>
  if 1000 ≤ a then
    (([0xfe, 0xff, 0xff, 0xff, 0, 0, 0, 0, 4, 0, 0, 0, 0, 0, 0, 0,
       0x4c, 0x04, 0, 0, 0, 0, 0, 0, 3, 0, 0, 0, 0, 0, 0, 0, 2]
       ++ List.replicate 67 0 ++ [5, 6, 7] : List UInt8)[a - 1000]?).getD 0
  else 0

def envR : Env := { S := memR, J := fun _ => 0xcc, fconv := fun _ _ b => b }

def valR : Val :=
  .struct [(nm "x", .int (-2)),
    (nm "v", .variant (nm "q") (.struct [(nm "n", .int 4), (nm "ys", .vec [.int 5, .int 6, .int 7])]))]

def pathR : Path := [nm "v", nm "_"]

theorem readR : readVal envR.S hostR 1000 = some valR := rfl

theorem hostL2_ok : VecLayout hostL2 1 1 := by
  constructor <;> simp [hostL2, hostL, Disj, VecL.canOut]

theorem hostQ_wf : WF hostQ := by
  refine ⟨⟨by simp [u8, WF], ⟨by simp [u8, WF], hostL2_ok⟩, trivial⟩, ?_⟩
  constructor <;> simp [Fields.toList, Ty.size, u8, hostL2, hostL, Disj, nm]

theorem hostR_wf : WF hostR := by
  refine ⟨⟨by simp [i32, WF], ⟨⟨by simp [u8, WF], hostQ_wf, trivial⟩, ?_⟩, trivial⟩, ?_⟩
  · constructor <;> simp [Terms.toList, Ty.size, u8, hostQ, Disj]
  · constructor <;> simp [Fields.toList, Ty.size, i32, Disj, nm]

theorem hostR_ok : HostTy hostR where
  wf := hostR_wf
  sch := by
    simp [hostR, hostQ, hostL2, hostL, Sch, SchFields, SchTerms, Fields.toList, Terms.toList, i32, u8, nm]
  small := by
    simp [hostR, hostQ, Small, SmallFields, rounds, Terms.toList, eligible, eligibleFields, i32, u8, hostL2,
      hostL]
  plain := by simp [hostR, hostQ, Plain, PlainFields, PlainTerms, Terms.toList, i32, u8, nm]
  noOut := by simp [hostR, hostQ, Ty.noOut, Fields.noOut, Terms.noOut, i32, u8]

theorem hostR_elems : Elems hostR := by
  simp [hostR, hostQ, Elems, ElemsFields, ElemsTerms, i32, u8, Ty.bytes]

/-- The planned protocol splits `q` into two terms and puts the payload behind the head. -/
example : ∃ p, plan hostR pathR = some p ∧ p.head.size = 5 ∧
    ∃ s, encode envR hostR p [] 1000 5000 (fun _ => 0) = .ok s ∧ readVal s.mem p.head 5000 = some valR := by
  obtain ⟨p, hp⟩ := C01_plan hostR pathR hostR_ok hostR_elems
  have hsz : (plan hostR pathR).map (fun p => (p.head.size, fin p.head valR 5005)) = some (5, 5025) := by
    decide +kernel
  rw [hp] at hsz
  simp only [Option.map_some, Option.some.injEq, Prod.mk.injEq] at hsz
  obtain ⟨s, h1, _, h2, _⟩ := C01_round_trip_partial envR hostR pathR p 1000 5000 (fun _ => 0) valR hostR_ok hp readR
    (by rw [hsz.1, hsz.2]; decide)
  exact ⟨p, hp, hsz.1, s, h1, h2⟩

end Sample

/-- A host variant `{ a : u8 = 1, b : u8 = 2, c : u8 = 2^63 }`. -/
def C01.host : Ty :=
  .variant (.cons ['a'] 1 [] (.int 1 .unsigned 1) (.cons ['b'] 2 [] (.int 1 .unsigned 1)
    (.cons ['c'] (2 ^ 63) [] (.int 1 .unsigned 1) .nil)))
    { outline := false, dflt := 0, termOff := 8, termSize := 1, tagOff := 0, tagW := 8, size := 9,
      align := 1, termAlign := 1 }

/-- Violation: the object holding `a` (`C40.S`) is decoded as `b` (the dispatch on the tag compares signed
after an unsigned sort, `C21_dispatch_violated`). -/
theorem C01_violated : ∃ p s d, plan C01.host [] = some p ∧
    readVal C40.S C01.host 0 = some (.variant ['a'] (.int 5)) ∧
    encode ⟨C40.S, fun _ => 0, fun _ _ b => b⟩ C01.host p [] 0 100 (fun _ => 0) = .ok s ∧
    decode ⟨s.mem, fun _ => 0, fun _ _ b => b⟩ p C01.host [] 100 200 300 8 (fun _ => 0) = some d ∧
    readVal d.mem C01.host 200 = some (.variant ['b'] (.int 5)) := by
  have hp : ∃ p, plan C01.host [] = some p := ⟨_, rfl⟩
  obtain ⟨p, hp⟩ := hp
  have hr : (plan C01.host []).any (fun p =>
      (encode ⟨C40.S, fun _ => 0, fun _ _ b => b⟩ C01.host p [] 0 100 (fun _ => 0)).sat fun s =>
        (decode ⟨s.mem, fun _ => 0, fun _ _ b => b⟩ p C01.host [] 100 200 300 8 (fun _ => 0)).any fun d =>
          readN d.mem 200 8 == 2 && readN d.mem 208 1 == 5) = true := by decide +kernel
  rw [hp] at hr
  obtain ⟨s, hs, hr⟩ := Res.sat_ok hr
  obtain ⟨d, hd, hr⟩ := decode_any hr
  simp only [Bool.and_eq_true, beq_iff_eq] at hr
  refine ⟨p, s, d, hp, rfl, hs, hd, ?_⟩
  simp [C01.host, readVal, readTerm, hr, intValue]

end PJ
