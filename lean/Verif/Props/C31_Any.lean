import Verif.Lemmas.AnyRun
import Verif.Lemmas.AnyPool
import Verif.Props.C01_RoundTrip
import Verif.Props.C29_C30_Reflect
/-!
# C31: decoding into `Any` loses nothing

`view host v` (`Spec/Any.lean`) says what there is to be seen of the value `v`: numbers with width and sign,
fields with names, the tag and the name of the term, lengths and elements, in the order of the schema.

`_partial`: as for C01 the host type is restricted to `HostTy`; and the widths of integers are 1, 2, 4 or 8
(the classes of `any.hpp` throw for others).  The names of the types are not part of the claim, and the `Any` is the whole
destination, not a field of a larger object.  The pool is that which `reflect` makes from the reflectable
type in any context in which its nominal types are complete; that the domain of these types may already hold
a type of the same name from another protocol is not modelled.
-/
namespace PJ

theorem toSigned_i32 (k : Nat) (h : k < 2 ^ 31) : toSigned 4 ((i32 k) % 2 ^ 32).toNat = k := by
  rw [i32_small k h]
  unfold toSigned
  have h1 : ((k : Int) % 2 ^ 32).toNat = k := by omega
  rw [h1, if_pos (by omega)]

/-- Encoding succeeds, and decoding any copy of the message into an `Any` with a buffer that is large enough
succeeds and gives an `Any` in which exactly the encoded value is to be seen.  What is left of the buffer is
reported. -/
theorem C31_any_partial (E : Env) (host : Ty) (path : Path) (p : Proto) (obj buf : Nat) (mem : Mem) (v : Val)
    (hh : HostTy host) (hwd : Words host) (hp : plan host path = some p)
    (hv : readVal E.S host obj = some v) (hq : fin p.head v (buf + p.head.size) < W64) :
    ∃ s x, encode E host p [] obj buf mem = .ok s ∧ view host v = some x ∧
      ∀ (m2 : Mem) (buf2 : Nat), buf2 + (s.ptr - buf) < W64 →
        (∀ i, i < s.ptr - buf → m2 (buf2 + i) = s.mem (buf + i)) →
        ∀ (ctx : Ctx) (head : Ref) (fuel n : Nat) (pool : PProto) (schema : Nat), WFRef ctx head →
          tree ctx n head = some (reflectable p.head) → reflectProto ctx fuel head 0 = some pool →
          pool.types.length < 2 ^ 31 → schema < 2 ^ 64 →
          ∀ (mem3 : Mem) (dst dbuf cap : Nat), cap < 2 ^ 63 → dbuf + cap < W64 →
            Disj dst anySize dbuf cap → anyFin p.head v dbuf ≤ dbuf + cap →
            ∃ d, decodeAny { E with S := m2 } schema pool.head p buf2 dst dbuf cap mem3 = some d ∧
              d.size = cap - (anyFin p.head v dbuf - dbuf) ∧ anySchema d.mem dst = schema ∧
              anyRead pool.types d.mem pool.types.length (anyIndex d.mem dst) (anyData d.mem dst) = some x := by
  obtain ⟨hok, hb, _, hrel, hfit⟩ := plan_ok host path p hh.sch hh.small hh.plain hh.noOut hp
  obtain ⟨c1, c2⟩ := rel_compat host p.head hrel hh.plain hh.wf hok.wf
  have hf := readVal_fits E.S host obj v hh.plain hv
  have hw := conv_fits E.fconv p.head v hok.wf (hfit v hf)
  obtain ⟨s, hs, _⟩ := C01_round_trip_partial E host path p obj buf mem v hh hp hv hq
  obtain ⟨_, hcopy⟩ := C02_copies_partial E host p obj buf mem s v v hok hh.wf c2 hv hw
    (by rw [hb]; exact hq) hs
  obtain ⟨x, hx⟩ := view_fits host v hh.plain hf
  refine ⟨s, x, hs, hx, ?_⟩
  intro m2 buf2 h1 h2 ctx head fuel n pool schema wf ht hpool hl hsch mem3 dst dbuf cap hcap hw64 hd hfin
  have hl1 := plan_leads host path p hh.plain hp
  have hstd := plan_std host path p hh.sch hh.small hh.plain hwd hp
  obtain ⟨s', hr, hrem, hdata, hschema, hidx, hval, _⟩ := xAny_run { E with S := m2 } schema pool.head host
    p.head buf2 dst { mem := mem3, ptr := dbuf, rem := some cap, cb := 0, used := 0 } v cap hl1 hrel hh.plain hh.wf
    hok.wf hstd hf (hcopy m2 buf2 h1 h2) rfl hcap hw64 hfin hd
  refine ⟨_, by unfold decodeAny; rw [hr], ?_, ?_, ?_⟩
  · simp only [hrem, Option.getD_some]
  · rw [hschema, Nat.mod_eq_of_lt hsch]
  · obtain ⟨rs, sr, k, hi, hpl, _, hreach, hk, hhd⟩ := reflectProto_inv ctx fuel head 0 pool wf hpool
    have hlen : rs.length = pool.types.length := by rw [← hpl, hi.len]
    have hkl := lt_of_getElem? hk
    have hn : ∀ r ∈ rs, NodeOK ctx r := fun r hr => by
      cases wf.reach ((hreach r).1 hr) with | mk _ node _ => exact node
    have hi2 : anyIndex s'.mem dst = k := by
      unfold anyIndex; rw [hidx, hhd]; exact toSigned_i32 k (by omega)
    simp only
    rw [hi2, hdata, ← hpl,
      anyRead_tree ctx sr rs s'.mem hi hn (by omega) k _ (by rw [hpl]; omega) head n _ hk ht]
    have hno := reflectable_noAttrs p.head
    have hlR := reflectable_leads host p.head hl1
    have hkeep := lead_keeps host (reflectable p.head)
    have hbD := lead_bare host (reflectable p.head) hlR hno
    have hpl2 := plain_of_bare host _ hbD (hkeep.2.2.2.1 hno) hh.plain
    have hWR := reflectable_wf p.head hstd hok.wf
    have hview := anyTy_view s'.mem _ _ v (hkeep.2.2.2.2.1 (reflectable_dyn p.head hstd hok.wf)) hpl2 hval
    rw [← view_bare, hbD, view_bare, hx] at hview
    exact anyTy_lead s'.mem host (reflectable p.head) _ x hlR hWR hview

/-- With a buffer that is not large enough the decoder fails in the way callers look for: no pointer, and a size
of -1. -/
theorem C31_small_partial (E : Env) (host : Ty) (path : Path) (p : Proto) (obj buf : Nat) (mem : Mem) (v : Val)
    (hh : HostTy host) (hwd : Words host) (hp : plan host path = some p)
    (hv : readVal E.S host obj = some v) (hq : fin p.head v (buf + p.head.size) < W64) :
    ∃ s, encode E host p [] obj buf mem = .ok s ∧
      ∀ (m2 : Mem) (buf2 : Nat), buf2 + (s.ptr - buf) < W64 →
        (∀ i, i < s.ptr - buf → m2 (buf2 + i) = s.mem (buf + i)) →
        ∀ (schema : Nat) (head : Int) (mem3 : Mem) (dst dbuf cap : Nat), cap < 2 ^ 63 →
          anyFin p.head v dbuf < 2 ^ 64 → anyFin p.head v dbuf ≤ dbuf + 2 ^ 63 → dbuf + cap < anyFin p.head v dbuf →
          ∃ d, decodeAny { E with S := m2 } schema head p buf2 dst dbuf cap mem3 = some d ∧
            d.ptr = 0 ∧ d.size = 2 ^ 64 - 1 := by
  obtain ⟨hok, hb, _, hrel, hfit⟩ := plan_ok host path p hh.sch hh.small hh.plain hh.noOut hp
  obtain ⟨c1, c2⟩ := rel_compat host p.head hrel hh.plain hh.wf hok.wf
  have hf := readVal_fits E.S host obj v hh.plain hv
  have hw := conv_fits E.fconv p.head v hok.wf (hfit v hf)
  obtain ⟨s, hs, _⟩ := C01_round_trip_partial E host path p obj buf mem v hh hp hv hq
  obtain ⟨_, hcopy⟩ := C02_copies_partial E host p obj buf mem s v v hok hh.wf c2 hv hw
    (by rw [hb]; exact hq) hs
  refine ⟨s, hs, ?_⟩
  intro m2 buf2 h1 h2 schema head mem3 dst dbuf cap hcap hq1 hq2 hfin
  obtain ⟨s', hr⟩ := xAny_throws { E with S := m2 } schema head host
    p.head buf2 dst { mem := mem3, ptr := dbuf, rem := some cap, cb := 0, used := 0 } v cap
    (plan_leads host path p hh.plain hp) hrel hh.plain hh.wf hok.wf
    (plan_std host path p hh.sch hh.small hh.plain hwd hp) hf (hcopy m2 buf2 h1 h2) rfl hcap hq1 hq2 hfin
  exact ⟨_, by unfold decodeAny; rw [hr], rfl, rfl⟩

/-! ## Non-trivial case

The protocol of `Sample.hostR` for the path `v._`, in which `q` is split in two and `v` is outlined. -/
namespace Sample

def anyKR : Key := ⟨.struct, [nm "R"]⟩
def anyKV : Key := ⟨.inl, [nm "V"]⟩
def anyKQ : Key := ⟨.struct, [nm "Q"]⟩
def anyKQ' : Key := ⟨.struct, [nm "Q", nm "short"]⟩

def anyL (m : Option Nat) : VecL :=
  { minLen := 0, maxLen := m, wireMin := 0, ppl := 0, lenOff := 0, lenSize := 8, refOff := 8, refSize := 8,
    mode := .pointer, inlOff := 0, parOff := 0, elemW := 1, size := 16, align := 8 }

def anyU8 : Ref := .int 1 .unsigned 1

def anyCtx : Ctx := fun k =>
  if k = anyKR then some (.struct [⟨nm "x", 0, .int 4 .signed 1⟩, ⟨nm "v", 8, .nom anyKV⟩] 33 8)
  else if k = anyKV then
    some (.inl [⟨nm "p", 1, [], anyU8⟩, ⟨nm "q", 2, [], .nom anyKQ⟩, ⟨nm "q", 3, [], .nom anyKQ'⟩]
      ⟨0, 0, 24, 24, 1, 25, 8⟩)
  else if k = anyKQ then
    some (.struct [⟨nm "n", 0, anyU8⟩, ⟨nm "ys", 8, .vector anyU8 (anyL none)⟩] 24 8)
  else if k = anyKQ' then
    some (.struct [⟨nm "n", 0, anyU8⟩, ⟨nm "ys", 8, .vector anyU8 (anyL (some 2))⟩] 24 8)
  else none

theorem anyCtx_wf : WFRef anyCtx (.nom anyKR) := by
  have h1 : WFRef anyCtx anyU8 := .mk _ trivial (by simp [kids, anyU8])
  have h4 : WFRef anyCtx (.int 4 .signed 1) := .mk _ trivial (by simp [kids])
  have hl : ∀ m, WFRef anyCtx (.vector anyU8 (anyL m)) := fun m => .mk _ trivial (by
    intro c hc
    rw [List.mem_singleton.1 (show c ∈ [anyU8] from hc)]; exact h1)
  have hq : WFRef anyCtx (.nom anyKQ) := .mk _ trivial (by
    intro c hc
    rcases List.mem_cons.1 (show c ∈ [anyU8, .vector anyU8 (anyL none)] from hc) with rfl | hc
    · exact h1
    · rw [List.mem_singleton.1 hc]; exact hl _)
  have hq' : WFRef anyCtx (.nom anyKQ') := .mk _ trivial (by
    intro c hc
    rcases List.mem_cons.1 (show c ∈ [anyU8, .vector anyU8 (anyL (some 2))] from hc) with rfl | hc
    · exact h1
    · rw [List.mem_singleton.1 hc]; exact hl _)
  have hv : WFRef anyCtx (.nom anyKV) := by
    refine .mk _ ⟨by simp; decide, by decide⟩ ?_
    intro c hc
    have hc : c ∈ [anyU8, .nom anyKQ, .nom anyKQ'] := hc
    simp only [List.mem_cons, List.not_mem_nil, or_false] at hc
    rcases hc with rfl | rfl | rfl <;> assumption
  refine .mk _ trivial ?_
  intro c hc
  rcases List.mem_cons.1 (show c ∈ [Ref.int 4 .signed 1, .nom anyKV] from hc) with rfl | hc
  · exact h4
  · rw [List.mem_singleton.1 hc]; exact hv

def anyTyR : Ty :=
  .struct (.cons (nm "x") 0 (.int 4 .signed 1) (.cons (nm "v") 8
    (.variant (.cons (nm "p") 1 [] u8
      (.cons (nm "q") 2 [] (.struct (.cons (nm "n") 0 u8 (.cons (nm "ys") 8 (.vector u8 (anyL none)) .nil)) 24 8)
      (.cons (nm "q") 3 [] (.struct (.cons (nm "n") 0 u8 (.cons (nm "ys") 8
        (.vector u8 (anyL (some 2))) .nil)) 24 8) .nil)))
      { outline := false, dflt := 0, termOff := 0, termSize := 24, tagOff := 24, tagW := 1, size := 25,
        align := 8, termAlign := 0 }) .nil)) 33 8

theorem anyTyR_tree : tree anyCtx 5 (.nom anyKR) = some anyTyR := rfl

theorem anyTyR_plan : (plan hostR pathR).map (fun p => reflectable p.head) = some anyTyR := by
  with_unfolding_all rfl

/-- What is to be seen of `valR`. -/
theorem anyR_view : view hostR valR = some (.struct [(nm "x", .int 4 .signed (-2)),
    (nm "v", .variant false 2 (nm "q") (.struct [(nm "n", .int 1 .unsigned 4),
      (nm "ys", .seq false [.int 1 .unsigned 5, .int 1 .unsigned 6, .int 1 .unsigned 7])]))]) := rfl

theorem anyR_pool : (reflectProto anyCtx 5 (.nom anyKR) 0).map (fun p => p.types.length) = some 8 := by
  decide +kernel

example : ∃ p pool d, plan hostR pathR = some p ∧ reflectProto anyCtx 5 (.nom anyKR) 0 = some pool ∧
    ∃ s, encode envR hostR p [] 1000 5000 (fun _ => 0) = .ok s ∧
    decodeAny { envR with S := s.mem } 77 pool.head p 5000 6000 7000 100 (fun _ => 0) = some d ∧
    anyRead pool.types d.mem pool.types.length (anyIndex d.mem 6000) (anyData d.mem 6000) =
      view hostR valR := by
  obtain ⟨p, hp⟩ := C01_plan hostR pathR hostR_ok hostR_elems
  have hsz : (plan hostR pathR).map (fun p => (p.head.size, fin p.head valR 5005, anyFin p.head valR 7000)) =
      some (5, 5025, 7036) := by decide +kernel
  rw [hp] at hsz
  simp only [Option.map_some, Option.some.injEq, Prod.mk.injEq] at hsz
  have ht := anyTyR_plan
  rw [hp] at ht
  simp only [Option.map_some, Option.some.injEq] at ht
  have hl := anyR_pool
  match hpool : reflectProto anyCtx 5 (.nom anyKR) 0 with
  | none => rw [hpool] at hl; simp at hl
  | some pool =>
    rw [hpool] at hl
    simp only [Option.map_some, Option.some.injEq] at hl
    have hfin : fin p.head valR (5000 + p.head.size) = 5025 := by rw [hsz.1]; exact hsz.2.1
    obtain ⟨s, x, h1, h2, h3⟩ := C31_any_partial envR hostR pathR p 1000 5000 (fun _ => 0) valR hostR_ok
      (by simp [hostR, hostQ, Words, WordsFields, WordsTerms, Word8, i32, u8]) hp readR
      (by rw [hfin]; decide)
    obtain ⟨s', h1', hptr, _⟩ := C01_round_trip_partial envR hostR pathR p 1000 5000 (fun _ => 0) valR hostR_ok
      hp readR (by rw [hfin]; decide)
    rw [h1] at h1'
    cases h1'
    obtain ⟨d, h4, _, _, h5⟩ := h3 s.mem 5000 (by rw [hptr, hfin]; decide) (fun _ _ => rfl) anyCtx (.nom anyKR) 5 5
      pool 77 anyCtx_wf (by rw [ht]; exact anyTyR_tree) hpool (by rw [hl]; decide) (by decide)
      (fun _ => 0) 6000 7000 100 (by decide) (by decide) (by right; right; left; decide)
      (by rw [hsz.2.2]; decide)
    exact ⟨p, pool, d, hp, rfl, s, h1, h4, by rw [h5, h2]⟩

/-- 35 bytes are one too few. -/
example : ∃ p s d, plan hostR pathR = some p ∧ encode envR hostR p [] 1000 5000 (fun _ => 0) = .ok s ∧
    decodeAny { envR with S := s.mem } 77 0 p 5000 6000 7000 35 (fun _ => 0) = some d ∧ d.size = 2 ^ 64 - 1 := by
  obtain ⟨p, hp⟩ := C01_plan hostR pathR hostR_ok hostR_elems
  have hsz : (plan hostR pathR).map (fun p => (p.head.size, fin p.head valR 5005, anyFin p.head valR 7000)) =
      some (5, 5025, 7036) := by decide +kernel
  rw [hp] at hsz
  simp only [Option.map_some, Option.some.injEq, Prod.mk.injEq] at hsz
  have hfin : fin p.head valR (5000 + p.head.size) = 5025 := by rw [hsz.1]; exact hsz.2.1
  obtain ⟨s, h1, h2⟩ := C31_small_partial envR hostR pathR p 1000 5000 (fun _ => 0) valR hostR_ok
    (by simp [hostR, hostQ, Words, WordsFields, WordsTerms, Word8, i32, u8]) hp readR
    (by rw [hfin]; decide)
  obtain ⟨s', h1', hptr, _⟩ := C01_round_trip_partial envR hostR pathR p 1000 5000 (fun _ => 0) valR hostR_ok
    hp readR (by rw [hfin]; decide)
  rw [h1] at h1'
  cases h1'
  obtain ⟨d, h4, _, h5⟩ := h2 s.mem 5000 (by rw [hptr, hfin]; decide) (fun _ _ => rfl) 77 0 (fun _ => 0) 6000 7000 35
    (by decide) (by rw [hsz.2.2]; decide) (by rw [hsz.2.2]; decide) (by rw [hsz.2.2]; decide)
  exact ⟨p, s, d, hp, h1, h4, h5⟩

end Sample

end PJ
