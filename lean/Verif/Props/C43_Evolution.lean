import Verif.Lemmas.Encoding
import Verif.Props.Planned
import Verif.Props.Defects
/-!
# C43, C44: schema evolution from end to end

The two schemas are compared as they are declared (`Spec/Evolve.lean`); the wire type between them is the one
that planning makes, with whatever it hoists and outlines.
-/
namespace PJ

/-- A sender encodes with the protocol of its own schema, a receiver decodes a copy of the message into another
type.  If the sender's schema is one the receiver can take (`Evolves`), encode and decode succeed and the
receiver's object holds the sender's value converted field by field and term by term (`conv`). -/
theorem C43_receiver_partial (E : Env) (send recv : Ty) (path : Path) (p : Proto) (obj buf : Nat) (mem : Mem)
    (v : Val) (hs : HostTy send) (hr : HostTy recv) (he : Evolves recv send) (hp : plan send path = some p)
    (hv : readVal E.S send obj = some v) (hq : fin p.head v (buf + p.head.size) < W64) :
    ∃ s x, encode E send p [] obj buf mem = .ok s ∧ conv E.fconv recv v = some x ∧ Fits recv x ∧
      ∀ (m2 : Mem) (buf2 : Nat), buf2 + (s.ptr - buf) < W64 →
        (∀ i, i < s.ptr - buf → m2 (buf2 + i) = s.mem (buf + i)) →
        ∀ (mem3 : Mem) (dst dbuf cap : Nat), dst + recv.size < W64 → cap < 2 ^ 63 → dbuf + cap < W64 →
          Disj dst recv.size dbuf cap → fin recv v dbuf ≤ dbuf + cap →
          ∃ d, decode { E with S := m2 } p recv [] buf2 dst dbuf cap mem3 = some d ∧
            readVal d.mem recv dst = some x := by
  obtain ⟨hok, hb, _, hrel, hfit⟩ := plan_ok send path p hs.sch hs.small hs.plain hs.noOut hp
  have hc := evolves_compat recv send p.head he hrel hr.plain hr.noOut hr.wf hs.plain hok.wf
  obtain ⟨x, hx, hfx⟩ := evolves_conv E.fconv recv send v he hr.plain hr.wf hs.plain
    (readVal_fits E.S send obj v hs.plain hv)
  obtain ⟨s, h1, h2⟩ := C02_planned_partial E send path p obj buf mem v hs hp hv hq
  exact ⟨s, x, h1, hx, hfx, fun m2 buf2 h3 h4 mem3 dst dbuf cap h5 h6 h7 h8 h9 =>
    (h2 m2 buf2 h3 h4).2 recv x hr.wf hr.noOut hc hx mem3 dst dbuf cap h5 h6 h7 h8 h9⟩

/-- A sender encodes with the protocol of another schema `h`, as it does when the protocol came from the
receiver's side or from an older program.  If `h` can take the sender's type, and the sender has the vectors and
the variant which the planned encoder looks at (`Supplied`, `Led`), the encoder succeeds, the message holds the
sender's value converted to `h`, and every receiver which can take `h` gets that value converted once more. -/
theorem C43_sender_partial (E : Env) (send h : Ty) (path : Path) (p : Proto) (obj buf : Nat) (mem : Mem)
    (v : Val) (hs : HostTy send) (hh : HostTy h) (hsp : send.noPart) (he : Evolves h send) (hsu : Supplied h send)
    (hl : Led h path send) (hp : plan h path = some p) (hv : readVal E.S send obj = some v)
    (hq : fin p.head v (buf + p.head.size) < W64) :
    ∃ s w, encode E send p [] obj buf mem = .ok s ∧ conv E.fconv h v = some w ∧ Fits h w ∧
      s.ptr = fin p.head v (buf + p.head.size) ∧
      ∀ (m2 : Mem) (buf2 : Nat), buf2 + (s.ptr - buf) < W64 →
        (∀ i, i < s.ptr - buf → m2 (buf2 + i) = s.mem (buf + i)) →
        readVal m2 p.head buf2 = some w ∧
        ∀ recv : Ty, HostTy recv → Evolves recv h →
        ∀ (mem3 : Mem) (dst dbuf cap : Nat), dst + recv.size < W64 → cap < 2 ^ 63 → dbuf + cap < W64 →
          Disj dst recv.size dbuf cap → fin recv w dbuf ≤ dbuf + cap →
          ∃ d x, decode { E with S := m2 } p recv [] buf2 dst dbuf cap mem3 = some d ∧
            readVal d.mem recv dst = some x ∧ conv E.fconv recv w = some x := by
  obtain ⟨hok, hb, _, hrel, _⟩ := plan_ok h path p hh.sch hh.small hh.plain hh.noOut hp
  have hfv := readVal_fits E.S send obj v hs.plain hv
  have hc : Compat p.head send := evolves_encode Laid h p.head send he hrel
    (led_given Laid h p.head path send hrel hl (plan_onPath h path p hh.noOut hp) hs.wf) hh.plain hs.plain hsp
    hok.wf hs.wf
  obtain ⟨w, hw, hfw⟩ := evolves_conv E.fconv h send v he hh.plain hh.wf hs.plain hfv
  have hw' : conv E.fconv p.head v = some w := by
    rw [conv_plan E.fconv h path p v hh.sch hh.plain hp (supplied_fed h send v hsu hs.plain hfv)]; exact hw
  have hq' : fin p.head v (buf + p.head.size + p.bufOff) < W64 := by rw [hb]; exact hq
  have hge := fin_ge p.head v (buf + p.head.size + p.bufOff) hok.wf
  obtain ⟨s, hr⟩ := xcode_raw E p.head send [] obj buf
    { mem := mem, ptr := buf + p.head.size + p.bufOff, rem := none, cb := 0, used := 0 } v w hok.wf hs.wf hc
    (hok.out buf) (HsOK_nil _) hv hw' rfl (by simp only; omega)
  have hran := xcode_ran E p.head send [] obj buf
    { mem := mem, ptr := buf + p.head.size + p.bufOff, rem := none, cb := 0, used := 0 } s v w hok.wf hs.wf hc
    (hok.out buf) (HsOK_nil _) hv hw' hq' (by omega) (by unfold Disj; simp only; omega) hr
  refine ⟨s, w, hr, hw, hfw, by rw [hran.ptr, hb]; rfl, fun m2 buf2 h1 h2 => ⟨?_, ?_⟩⟩
  · exact (C02_copies_partial E send p obj buf mem s v w hok hs.wf hc hv hw' hq' hr).2 m2 buf2 h1 h2
  · intro recv hrecv her mem3 dst dbuf cap h3 h4 h5 h6 h7
    obtain ⟨x, hx, _⟩ := evolves_conv E.fconv recv h w her hrecv.plain hrecv.wf hh.plain hfw
    obtain ⟨d, hd, _, hdx⟩ := C02_decode_copy_partial E send p obj buf mem s v w hok hs.wf hc hv hw' hq' hr recv
      hrecv.wf hrecv.noOut (evolves_compat recv h p.head her hrel hrecv.plain hrecv.noOut hrecv.wf hh.plain hok.wf)
      x hx m2 buf2 h1 h2 mem3 dst dbuf cap h3 h4 h6 h7 h5
    exact ⟨d, x, hd, hdx, hx⟩

/-- An old program sends an object to a new one, the new one sends the received object back with its own
protocol: the old program gets the value it sent, if the new schema has room for all of it (`Kept`). -/
theorem C44_there_and_back_partial (E : Env) (old new : Ty) (path path' : Path) (p p' : Proto) (obj buf : Nat)
    (mem : Mem) (v : Val) (ho : HostTy old) (hn : HostTy new) (he : Evolves new old) (he' : Evolves old new)
    (hk : Kept old new) (hp : plan old path = some p) (hp' : plan new path' = some p')
    (hv : readVal E.S old obj = some v) (hq : fin p.head v (buf + p.head.size) < W64) :
    ∃ s, encode E old p [] obj buf mem = .ok s ∧
      ∀ (m2 : Mem) (buf2 : Nat), buf2 + (s.ptr - buf) < W64 →
        (∀ i, i < s.ptr - buf → m2 (buf2 + i) = s.mem (buf + i)) →
      ∀ (mem3 : Mem) (dst dbuf cap : Nat), dst + new.size < W64 → cap < 2 ^ 63 → dbuf + cap < W64 →
        Disj dst new.size dbuf cap → fin new v dbuf ≤ dbuf + cap →
      ∃ d x, decode { E with S := m2 } p new [] buf2 dst dbuf cap mem3 = some d ∧
        readVal d.mem new dst = some x ∧ conv E.fconv new v = some x ∧
        ∀ (mem4 : Mem) (buf4 : Nat), fin p'.head x (buf4 + p'.head.size) < W64 →
        ∃ s', encode { E with S := d.mem } new p' [] dst buf4 mem4 = .ok s' ∧
          ∀ (m5 : Mem) (buf5 : Nat), buf5 + (s'.ptr - buf4) < W64 →
            (∀ i, i < s'.ptr - buf4 → m5 (buf5 + i) = s'.mem (buf4 + i)) →
          ∀ (mem6 : Mem) (dst6 dbuf6 cap6 : Nat), dst6 + old.size < W64 → cap6 < 2 ^ 63 →
            dbuf6 + cap6 < W64 → Disj dst6 old.size dbuf6 cap6 → fin old x dbuf6 ≤ dbuf6 + cap6 →
          ∃ d', decode { E with S := m5 } p' old [] buf5 dst6 dbuf6 cap6 mem6 = some d' ∧
            readVal d'.mem old dst6 = some v := by
  obtain ⟨s, x, h1, hx, _, h2⟩ := C43_receiver_partial E old new path p obj buf mem v ho hn he hp hv hq
  refine ⟨s, h1, fun m2 buf2 g1 g2 mem3 dst dbuf cap g3 g4 g5 g6 g7 => ?_⟩
  obtain ⟨d, hd, hdx⟩ := h2 m2 buf2 g1 g2 mem3 dst dbuf cap g3 g4 g5 g6 g7
  refine ⟨d, x, hd, hdx, hx, fun mem4 buf4 hq4 => ?_⟩
  obtain ⟨s', y, h1', hy, _, h2'⟩ := C43_receiver_partial { E with S := d.mem } new old path' p' dst buf4 mem4 x
    hn ho he' hp' hdx hq4
  have := kept_back E.fconv old new v x hk ho.plain hn.plain ho.wf hn.wf
    (readVal_fits E.S old obj v ho.plain hv) hx
  simp only [this, Option.some.injEq] at hy
  subst hy
  exact ⟨s', h1', fun m5 buf5 f1 f2 mem6 dst6 dbuf6 cap6 f3 f4 f5 f6 f7 =>
    h2' m5 buf5 f1 f2 mem6 dst6 dbuf6 cap6 f3 f4 f5 f6 f7⟩

/-! ## A newer version of `hostR` -/
namespace Sample

def hostQ' : Ty :=
  .struct (.cons (nm "m") 0 i32 (.cons (nm "n") 4 u8 (.cons (nm "ys") 8 (.vector u8 hostL2) .nil))) 24 8

/-- `x` is wider, there is a new field `w`, the variant has a new term `r` in front, `q` has another tag and a
new field. -/
def hostN : Ty :=
  .struct (.cons (nm "w") 0 i32 (.cons (nm "v") 8
    (.variant (.cons (nm "r") 4 [] i32 (.cons (nm "p") 1 [] u8 (.cons (nm "q") 3 [] hostQ' .nil)))
      { outline := false, dflt := 0, termOff := 0, termSize := 24, tagOff := 24, tagW := 1, size := 32,
        align := 8, termAlign := 8 }) (.cons (nm "x") 40 (.int 8 .signed 8) .nil))) 48 8

theorem hostN_ok : HostTy hostN where
  wf := by
    refine ⟨⟨by simp [i32, WF], ⟨⟨by simp [i32, WF], by simp [u8, WF], ⟨⟨by simp [i32, WF], by simp [u8, WF],
      ⟨by simp [u8, WF], hostL2_ok⟩, trivial⟩, ?_⟩, trivial⟩, ?_⟩, by simp [WF], trivial⟩, ?_⟩
    · constructor <;> simp [Fields.toList, Ty.size, u8, i32, hostL2, hostL, Disj, nm]
    · constructor <;> simp [Terms.toList, Ty.size, u8, i32, hostQ', Disj]
    · constructor <;> simp [Fields.toList, Ty.size, i32, Disj, nm]
  sch := by
    simp [hostN, hostQ', hostL2, hostL, Sch, SchFields, SchTerms, Fields.toList, Terms.toList, i32, u8, nm]
  small := by
    simp [hostN, hostQ', Small, SmallFields, rounds, Terms.toList, eligible, eligibleFields, i32, u8, hostL2,
      hostL]
  plain := by simp [hostN, hostQ', Plain, PlainFields, PlainTerms, Terms.toList, i32, u8, nm]
  noOut := by simp [hostN, hostQ', Ty.noOut, Fields.noOut, Terms.noOut, i32, u8]

theorem hostN_elems : Elems hostN := by
  simp [hostN, hostQ', Elems, ElemsFields, ElemsTerms, i32, u8, Ty.bytes]

theorem evolves_NR : Evolves hostN hostR := by
  simp [hostN, hostR, hostQ, hostQ', Evolves, EvolvesFields, EvolvesNamed, EvolvesAt, Terms.hasName, Fields.toList,
    Terms.toList, i32, u8, nm, hostL2, hostL, Ty.bytes]

theorem kept_RN : Kept hostR hostN := by
  simp only [hostR, hostQ, Kept, KeptFields, KeptTerms, i32, u8]
  refine ⟨_, _, _, rfl, ⟨_, .tail _ (.tail _ (.head _)), rfl, _, _, _, rfl, by decide⟩,
    ⟨_, .tail _ (.head _), rfl, _, _, rfl, ⟨_, .tail _ (.head _), rfl, _, _, _, rfl, by decide⟩,
      ⟨_, .tail _ (.tail _ (.head _)), rfl, _, _, _, rfl, ⟨_, .tail _ (.head _), rfl, _, _, _, rfl, by decide⟩,
        ⟨_, .tail _ (.tail _ (.head _)), rfl, _, _, rfl, ⟨_, _, _, rfl, by decide⟩, ?_⟩, trivial⟩, trivial⟩, trivial⟩
  intro m hm
  cases hm

def valN : Val :=
  .struct [(nm "w", .int 0), (nm "v", .variant (nm "q") (.struct [(nm "m", .int 0), (nm "n", .int 4),
    (nm "ys", .vec [.int 5, .int 6, .int 7])])), (nm "x", .int (-2))]

end Sample

open Sample in
/-- The new term `r` becomes the old default `p`: both payloads are numbers. -/
theorem Sample.evolves_RN : Evolves hostR hostN := by
  simp [hostN, hostR, hostQ, hostQ', Evolves, EvolvesFields, EvolvesNamed, EvolvesAt, Terms.hasName, Fields.toList,
    Terms.toList, i32, u8, nm, hostL2, hostL, Ty.bytes]

open Sample in
example : ∃ p p' s, plan hostR pathR = some p ∧ plan hostN pathR = some p' ∧
    encode envR hostR p [] 1000 5000 (fun _ => 0) = .ok s ∧
    ∀ m2 : Mem, (∀ i, i < 25 → m2 (77 + i) = s.mem (5000 + i)) →
    ∃ d, decode { envR with S := m2 } p hostN [] 77 9000 8000 100 (fun _ => 0) = some d ∧
      readVal d.mem hostN 9000 = some valN ∧
      ∃ s', encode { envR with S := d.mem } hostN p' [] 9000 6000 (fun _ => 0) = .ok s' ∧
        ∃ d', decode { envR with S := s'.mem } p' hostR [] 6000 9000 8000 100 (fun _ => 0) = some d' ∧
          readVal d'.mem hostR 9000 = some valR := by
  obtain ⟨p, hp⟩ := C01_plan hostR pathR hostR_ok hostR_elems
  obtain ⟨p', hp'⟩ := C01_plan hostN pathR hostN_ok hostN_elems
  have hsz : (plan hostR pathR).map (fun p => (p.head.size, fin p.head valR 5005)) = some (5, 5025) := by
    decide +kernel
  rw [hp] at hsz
  simp only [Option.map_some, Option.some.injEq, Prod.mk.injEq] at hsz
  have hq : fin p.head valR (5000 + p.head.size) < W64 := by rw [hsz.1, hsz.2]; decide
  obtain ⟨s, h1, h2⟩ := C44_there_and_back_partial envR hostR hostN pathR pathR p p' 1000 5000 (fun _ => 0) valR
    hostR_ok hostN_ok evolves_NR evolves_RN kept_RN hp hp' readR hq
  obtain ⟨s0, h1', h2', _⟩ := C03_value_partial envR hostR pathR p 1000 5000 (fun _ => 0) valR hostR_ok hp readR hq
  rw [h1] at h1'; cases h1'
  rw [hsz.1, hsz.2] at h2'
  rw [h2'] at h2
  refine ⟨p, p', s, hp, hp', h1, fun m2 hm => ?_⟩
  obtain ⟨d, x, h3, h4, h5, h6⟩ := h2 m2 77 (by decide) hm (fun _ => 0) 9000 8000 100 (by decide) (by decide)
    (by decide) (Or.inr (by decide)) (by decide)
  have hx : conv envR.fconv hostN valR = some valN := rfl
  rw [hx] at h5
  cases h5
  have hsz' : (plan hostN pathR).map (fun p => (p.head.size, fin p.head valN (6000 + p.head.size))) =
      some (13, 6037) := by decide +kernel
  rw [hp'] at hsz'
  simp only [Option.map_some, Option.some.injEq, Prod.mk.injEq] at hsz'
  have hq' : fin p'.head valN (6000 + p'.head.size) < W64 := by rw [hsz'.2]; decide
  obtain ⟨s', g1, g2⟩ := h6 (fun _ => 0) 6000 hq'
  obtain ⟨s0, g3, g4, _⟩ := C03_value_partial { envR with S := d.mem } hostN pathR p' 9000 6000 (fun _ => 0) valN
    hostN_ok hp' h4 hq'
  rw [g1] at g3; cases g3
  rw [hsz'.2] at g4
  exact ⟨d, h3, h4, s', g1, g2 s'.mem 6000 (by rw [g4]; decide) (fun _ _ => rfl) (fun _ => 0) 9000 8000 100
    (by decide) (by decide) (by decide) (Or.inr (by decide)) (by decide)⟩

open Sample in
/-- `hostR` is sent with the protocol of `hostN`, which outlines `v` and splits the terms with vectors, and
received by `hostR` again: nothing is lost. -/
example : ∃ p s, plan hostN pathR = some p ∧ encode envR hostR p [] 1000 5000 (fun _ => 0) = .ok s ∧
    ∀ (m2 : Mem), (∀ i, i < s.ptr - 5000 → m2 (77 + i) = s.mem (5000 + i)) →
    readVal m2 p.head 77 = some valN ∧
    ∃ d, decode { envR with S := m2 } p hostR [] 77 9000 8000 100 (fun _ => 0) = some d ∧
      readVal d.mem hostR 9000 = some valR := by
  obtain ⟨p, hp⟩ := C01_plan hostN pathR hostN_ok hostN_elems
  have hsz : (plan hostN pathR).map (fun p => fin p.head valR (5000 + p.head.size)) = some 5037 := by
    decide +kernel
  rw [hp] at hsz
  simp only [Option.map_some, Option.some.injEq] at hsz
  have hq : fin p.head valR (5000 + p.head.size) < W64 := by rw [hsz]; decide
  have hsup : Supplied hostN hostR := by
    simp [hostN, hostR, hostQ, hostQ', Supplied, SuppliedFields, Ty.still, VecsIn, VecsInFields, Ty.fields,
      Fields.tyOf, Fields.find, Terms.toList, Sample.i32, u8, nm, Terms.hasName]
  have hled : Led hostN pathR hostR := by
    simp [hostN, hostR, Led, LedFields, Ty.fields, Fields.tyOf, Fields.find, Sample.i32, u8, nm]
  obtain ⟨s, w, h1, h2, _, hptr, h3⟩ := C43_sender_partial envR hostR hostN pathR p 1000 5000 (fun _ => 0) valR
    hostR_ok hostN_ok (by simp [hostR, hostQ, Ty.noPart, Fields.noPart, Terms.noPart, Sample.i32, u8, hostL2, hostL])
    evolves_NR hsup hled hp readR hq
  have hx : conv envR.fconv hostN valR = some valN := rfl
  rw [hx] at h2
  cases h2
  rw [hsz] at hptr
  refine ⟨p, s, hp, h1, fun m2 hm => ?_⟩
  obtain ⟨h4, h5⟩ := h3 m2 77 (by rw [hptr]; decide) hm
  obtain ⟨d, x, h6, h7, h8⟩ := h5 hostR hostR_ok evolves_RN (fun _ => 0) 9000 8000 100
    (by decide) (by decide) (by decide) (Or.inr (by decide)) (by decide)
  have hx : conv envR.fconv hostR valN = some valR := rfl
  rw [hx] at h8
  cases h8
  exact ⟨h4, d, h6, h7⟩

/-! ## Outside `Evolves` -/
namespace Defect

theorem enumS_ok : HostTy enumS where
  wf := enumS_wf
  sch := by simp [enumS, Sch, SchTerms, Terms.toList]
  small := by simp [enumS, Small, rounds, Terms.toList, eligible]
  plain := by simp [enumS, Plain, PlainTerms, Terms.toList]
  noOut := by simp [enumS, Ty.noOut, Terms.noOut]

theorem enumR_ok : HostTy enumR where
  wf := enumR_wf
  sch := by simp [enumR, Sch, SchTerms, Terms.toList]
  small := by simp [enumR, Small, rounds, Terms.toList, eligible]
  plain := by simp [enumR, Plain, PlainTerms, Terms.toList]
  noOut := by simp [enumR, Ty.noOut, Terms.noOut]

def terms40 (f : Nat → Nat) : List Term :=
  (List.range 40).map fun i => Term.mk (List.replicate (i + 1) 'a') (f i) [] .unit

/-- An enum of 40 terms `a`, `aa`, `aaa`, … with the given tags. -/
def enum40 (f : Nat → Nat) : Ty :=
  .variant (.ofList (terms40 f))
    { outline := false, dflt := 0, termOff := 0, termSize := 0, tagOff := 0, tagW := 1, size := 1,
      align := 1, termAlign := 1 }

def tags150 (i : Nat) : Nat := if i = 1 then 150 else i

theorem enum40_mem {f : Nat → Nat} {t : Term} (h : t ∈ terms40 f) :
    ∃ i, i < 40 ∧ t = Term.mk (List.replicate (i + 1) 'a') (f i) [] .unit := by
  obtain ⟨i, hi, rfl⟩ := List.mem_map.1 h
  exact ⟨i, List.mem_range.1 hi, rfl⟩

theorem enum40_noOut : ∀ l : List Term, (∀ t ∈ l, t.ty = .unit) → (Terms.ofList l).noOut
  | [], _ => trivial
  | t :: r, h => ⟨by rw [h t (.head _)]; trivial, enum40_noOut r fun u hu => h u (.tail _ hu)⟩

theorem enum40_kept (f g : Nat → Nat) : ∀ l : List Nat, (∀ i ∈ l, i < 40) →
    KeptTerms (.ofList (l.map fun i => Term.mk (List.replicate (i + 1) 'a') (f i) [] .unit)) (.ofList (terms40 g))
  | [], _ => by simp [Terms.ofList, KeptTerms]
  | i :: r, h => by
    simp only [List.map_cons, Terms.ofList, KeptTerms]
    refine ⟨⟨Term.mk (List.replicate (i + 1) 'a') (g i) [] .unit, ?_, rfl, by simp [Kept]⟩,
      enum40_kept f g r fun j hj => h j (.tail _ hj)⟩
    rw [toList_ofList]
    exact List.mem_map.2 ⟨i, List.mem_range.2 (h i (.head _)), rfl⟩

theorem enum40_ok (f : Nat → Nat) (h : ((terms40 f).map (·.tag)).Nodup) (h' : ∀ i, i < 40 → f i < 256)
    (h0 : ∃ i, i < 40 ∧ f i ≠ 0) : HostTy (enum40 f) where
  wf := by
    refine ⟨WFTerms_iff.2 fun t ht => ?_, ?_⟩
    · rw [toList_ofList] at ht
      obtain ⟨i, _, rfl⟩ := enum40_mem ht
      trivial
    · rw [toList_ofList]
      refine ⟨by decide, h, fun t ht => ?_, by simp [terms40], by decide, fun _ t ht => ?_, fun _ t ht => ?_⟩ <;>
        obtain ⟨i, hi, rfl⟩ := enum40_mem ht
      · have := h' i hi
        simp only; omega
      · simp [Ty.size]
      · simp [Disj, Ty.size]
  sch := by
    simp only [enum40, Sch, SchTerms_iff, toList_ofList]
    refine ⟨by simp [terms40], h, ?_, fun t ht => ?_, fun t ht => ?_⟩
    · obtain ⟨i, hi, h0⟩ := h0
      exact ⟨_, List.mem_map.2 ⟨i, List.mem_range.2 hi, rfl⟩, h0⟩
    · obtain ⟨i, hi, rfl⟩ := enum40_mem ht
      have := h' i hi
      simp only; omega
    · obtain ⟨i, hi, rfl⟩ := enum40_mem ht
      trivial
  small := by
    simp only [enum40, Small, toList_ofList]
    have : rounds (terms40 f) = 0 := by
      simp [rounds, terms40, Function.comp_def, eligible]
      rfl
    rw [this]
    simp [terms40]
  plain := by
    simp only [enum40, Plain, PlainTerms_iff, toList_ofList]
    refine ⟨?_, fun t ht => ?_⟩
    · rw [terms40, List.map_map]
      show ((List.range 40).map fun i => List.replicate (i + 1) 'a').Nodup
      decide +kernel
    · obtain ⟨i, hi, rfl⟩ := enum40_mem ht
      exact ⟨rfl, trivial⟩
  noOut := by
    refine ⟨rfl, enum40_noOut _ fun t ht => ?_⟩
    obtain ⟨i, hi, rfl⟩ := enum40_mem ht
    rfl

end Defect

open Defect in
/-- Violation of C43: the sender's term `b` is unknown, its value converted is the default term `x`, but after a
decode that reports success the receiver's object has no term at all. -/
theorem C43_violated : ∃ p s d, HostTy enumS ∧ HostTy enumR ∧ plan enumS [] = some p ∧
    readVal (env 2).S enumS 10 = some (.variant ['b'] .unit) ∧
    conv (env 2).fconv enumR (.variant ['b'] .unit) = some (.variant ['x'] .unit) ∧
    encode (env 2) enumS p [] 10 100 (fun _ => 0) = .ok s ∧
    decode { env 2 with S := s.mem } p enumR [] 100 200 300 8 (fun _ => 0) = some d ∧
    readVal d.mem enumR 200 = none := by
  have hp : ∃ p, plan enumS [] = some p := ⟨_, rfl⟩
  obtain ⟨p, hp⟩ := hp
  have hr : (plan enumS []).any (fun p => (encode (env 2) enumS p [] 10 100 (fun _ => 0)).sat fun s =>
      (decode { env 2 with S := s.mem } p enumR [] 100 200 300 8 (fun _ => 0)).any fun d =>
        (readVal d.mem enumR 200).isNone) = true := by decide +kernel
  rw [hp] at hr
  obtain ⟨s, hs, hr⟩ := Res.sat_ok hr
  obtain ⟨d, hd, hr⟩ := decode_any hr
  exact ⟨p, s, d, enumS_ok, enumR_ok, hp, rfl, rfl, hs, hd, Option.isNone_iff_eq_none.1 hr⟩

open Defect in
/-- Violation of C44: an enum of 40 terms, in the new schema one of them gets the tag 1 instead of 150.  The new
program reads outside the enum table. -/
theorem C44_violated : ∃ p s, HostTy (enum40 tags150) ∧ HostTy (enum40 id) ∧ Kept (enum40 tags150) (enum40 id) ∧
    Kept (enum40 id) (enum40 tags150) ∧ plan (enum40 tags150) [] = some p ∧
    readVal (env 150).S (enum40 tags150) 10 = some (.variant ['a', 'a'] .unit) ∧
    encode (env 150) (enum40 tags150) p [] 10 100 (fun _ => 0) = .ok s ∧
    decode { env 150 with S := s.mem } p (enum40 id) [] 100 200 300 8 (fun _ => 0) = none := by
  have hp : (plan (enum40 tags150) []).isSome = true := by decide +kernel
  obtain ⟨p, hp⟩ := Option.isSome_iff_exists.1 hp
  have hr : (plan (enum40 tags150) []).any (fun p =>
      (encode (env 150) (enum40 tags150) p [] 10 100 (fun _ => 0)).sat fun s =>
        (decode { env 150 with S := s.mem } p (enum40 id) [] 100 200 300 8 (fun _ => 0)).isNone) = true := by
    decide +kernel
  rw [hp] at hr
  obtain ⟨s, hs, hr⟩ := Res.sat_ok hr
  refine ⟨p, s, enum40_ok _ (by decide +kernel) ?_ ⟨1, by decide, by decide⟩,
    enum40_ok _ (by decide +kernel) (fun i hi => Nat.lt_trans hi (by decide)) ⟨1, by decide, by decide⟩, ?_, ?_, hp,
    rfl, hs, Option.isNone_iff_eq_none.1 hr⟩
  · intro i hi
    simp only [tags150]
    split <;> omega
  all_goals
    simp only [enum40, Kept]
    exact ⟨_, _, rfl, enum40_kept _ _ (List.range 40) fun i => List.mem_range.1⟩

end PJ
