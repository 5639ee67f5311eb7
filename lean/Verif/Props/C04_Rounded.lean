import Verif.Props.C03_Size
import Verif.Props.C40_KnownTerm
import Verif.Lemmas.HoistCost
/-!
# C04: the rounded size function never under-reports

`_partial`: pairs of types outside the known defects (`Tame`); wire types as planning makes them
(`hoisted`: terms that vector hoisting split are complete families); the rounded size fits in 64 bits.
-/
namespace PJ

theorem sizeFn_cost {ru : Bool} {S : Mem} {host : Ty} {p : Proto} {path : Path} {obj : Nat}
    (hpk : p.head.packed) :
    sizeFn ru S host p path obj = (cost ru S p.head host path obj).map (fun d => (d + p.head.size) % W64) := by
  have h := szX_counts ru S p.head host path obj 0 hpk (by decide)
  unfold Counts at h
  unfold sizeFn
  rw [h, Option.map_map]
  congr 1
  funext d
  simp [Function.comp]

/-- The rounded size is at least the exact one, as soon as it fits in 64 bits. -/
theorem C04_upper_partial (S : Mem) (host : Ty) (p : Proto) (path : Path) (obj n k : Nat)
    (hh : WF host) (hp : WF p.head) (hc : Tame p.head host) (hpk : p.head.packed)
    (hns : p.head.hoisted) (he : sizeFn false S host p path obj = some n)
    (hk : cost true S p.head host path obj = some k) (hb : k + p.head.size < W64) :
    ∃ m, sizeFn true S host p path obj = some m ∧ n ≤ m := by
  rw [sizeFn_cost hpk] at he
  obtain ⟨d, hd, rfl⟩ := Option.map_eq_some_iff.1 he
  have hle := cost_hoisted_le S p.head host path obj d k hp hh hc hns hd hk
  refine ⟨k + p.head.size, ?_, ?_⟩
  · rw [sizeFn_cost hpk, hk, Option.map_some, Nat.mod_eq_of_lt hb]
  · rw [Nat.mod_eq_of_lt (by omega)]; omega

/-- Encoding into a buffer of the rounded size stays inside the buffer. -/
theorem C04_buffer_partial (E : Env) (host : Ty) (p : Proto) (path : Path) (obj buf k : Nat) (mem : Mem)
    (s : St) (hh : WF host) (hp : WF p.head) (hc : Tame p.head host) (hpk : p.head.packed)
    (hns : p.head.hoisted) (ho : OutAt p.head buf (buf + p.head.size + p.bufOff)) (hz : p.bufOff = 0)
    (hr : encode E host p path obj buf mem = .ok s) (hw : buf + p.head.size + s.used < W64)
    (hk : cost true E.S p.head host path obj = some k) (hb : k + p.head.size < W64) :
    ∃ m, sizeFn true E.S host p path obj = some m ∧ s.ptr ≤ buf + m ∧
      ∀ a, ¬ (buf ≤ a ∧ a < buf + m) → s.mem a = mem a := by
  obtain ⟨n, h1, h2, h3⟩ := C03_exact_partial E host p path obj buf mem s hh hp hc ho hpk hz hr hw
  obtain ⟨m, h4, h5⟩ := C04_upper_partial E.S host p path obj n k hh hp hc hpk hns h1 hk hb
  exact ⟨m, h4, by omega, fun a ha => h3 a (by omega)⟩

/-- A host type with a maximum size has one rounded size, whatever the object, the tag path and even
the memory are. -/
theorem C04_constant (S S' : Mem) (host : Ty) (p : Proto) (path path' : Path) (obj obj' : Nat)
    (hpk : p.head.packed) (hm : host.hasMax = true) :
    sizeFn true S host p path obj = sizeFn true S' host p path' obj' := by
  rw [sizeFn_cost hpk, sizeFn_cost hpk, cost_const S S' _ _ path path' obj obj' hm]

/-- The rounded size depends only on the parts of the value without a maximum size. -/
theorem C04_depends_partial (S S' : Mem) (host : Ty) (p : Proto) (path path' : Path) (obj obj' : Nat)
    (v v' : Val) (hh : WF host) (hp : WF p.head) (hc : Tame p.head host) (hpk : p.head.packed)
    (hu : host.termNames) (hv : readVal S host obj = some v)
    (hv' : readVal S' host obj' = some v') (hs : host.same v v') (h1 : Holds path v)
    (h2 : Holds path' v') (h3 : PathNames path host) (h4 : PathNames path' host) :
    sizeFn true S host p path obj = sizeFn true S' host p path' obj' := by
  have hx : sizeFn true S host p path obj = sizeFn true S host p [] obj := by
    unfold sizeFn; rw [szX_path true S p.head host path obj 0 v hh hv h1 h3]
  have hx' : sizeFn true S' host p path' obj' = sizeFn true S' host p [] obj' := by
    unfold sizeFn; rw [szX_path true S' p.head host path' obj' 0 v' hh hv' h2 h4]
  rw [hx, hx', sizeFn_cost hpk, sizeFn_cost hpk,
    cost_same S S' p.head host obj obj' v v' hp hh hc hu hv hv' hs]

/-! A host struct `{ b : u8[..5], w : u8[] }` and its wire type. -/
namespace C04
open Sample

def hostB : VecL := { hostL with maxLen := some 5 }

def wireB : VecL :=
  { minLen := 0, maxLen := some 5, wireMin := 0, ppl := 0, lenOff := 0, lenSize := 1, refOff := 1,
    refSize := 8, mode := .offset, inlOff := 1, parOff := 9, elemW := 1, size := 9, align := 1 }

def host : Ty :=
  .struct (.cons ['b'] 0 (.vector u8 hostB) (.cons ['w'] 16 (.vector u8 hostL) .nil)) 32 8

def wire : Ty :=
  .struct (.cons ['b'] 0 (.vector u8 wireB) (.cons ['w'] 9 (.vector u8 wireL) .nil)) 25 1

def proto : Proto := { head := wire, bufOff := 0 }

/-- `{ b = x elements, w = 3 elements }` at 1000. -/
def mem (x : UInt8) : Mem := fun a =>
  if a = 1008 then x else if a = 1024 then 3 else if 2000 ≤ a then 7 else 0

theorem host_wf : WF host := by
  simp only [host, WF, WFFields]
  refine ⟨⟨⟨by simp [u8, WF], ?_⟩, ⟨by simp [u8, WF], hostL_ok⟩, trivial⟩, ?_⟩
  · constructor <;> simp [hostB, hostL, Disj, VecL.canOut, u8, Ty.size, Ty.align]
  · constructor <;> simp [Fields.toList, Ty.size, hostB, hostL, Disj]

theorem wire_wf : WF wire := by
  simp only [wire, WF, WFFields]
  refine ⟨⟨⟨by simp [u8, WF], ?_⟩, ⟨by simp [u8, WF], wireL_ok⟩, trivial⟩, ?_⟩
  · constructor <;> simp [wireB, Disj, VecL.canOut, u8, Ty.size, Ty.align]
  · constructor <;> simp [Fields.toList, Ty.size, wireB, wireL, Disj]

theorem compat : Compat wire host := by
  simp [wire, host, Compat, CompatFields, Fields.findLast, VecCompat, hostL, hostB, wireB, wireL,
    VecL.maxBound, u8]

theorem packed : wire.packed := by simp [wire, Ty.packed, Fields.packed, u8, Ty.align]

theorem noSplit : wire.noSplit := by simp [wire, Ty.noSplit, Fields.noSplit, u8]

theorem noOut : wire.noOut := by simp [wire, Ty.noOut, Fields.noOut, u8]

end C04

/-- Two and four elements: the exact sizes are 30 and 32, the rounded size is 33 for both. -/
example : sizeFn false (C04.mem 2) C04.host C04.proto [] 1000 = some 30 ∧
    sizeFn false (C04.mem 4) C04.host C04.proto [] 1000 = some 32 ∧
    sizeFn true (C04.mem 2) C04.host C04.proto [] 1000 = some 33 := by decide +kernel

example : ∃ m, sizeFn true (C04.mem 4) C04.host C04.proto [] 1000 = some m ∧ 32 ≤ m :=
  C04_upper_partial (C04.mem 4) C04.host C04.proto [] 1000 32 8 C04.host_wf C04.wire_wf (compat_tame _ _ C04.compat)
    C04.packed (noSplit_hoisted _ C04.noSplit) (by decide +kernel) (by decide +kernel) (by decide +kernel)

example : sizeFn true (C04.mem 2) C04.host C04.proto [] 1000 =
    sizeFn true (C04.mem 4) C04.host C04.proto [] 1000 := by
  refine C04_depends_partial (C04.mem 2) (C04.mem 4) C04.host C04.proto [] [] 1000 1000
    (.struct [(['b'], .vec [.int 0, .int 0]), (['w'], .vec [.int 0, .int 0, .int 0])])
    (.struct [(['b'], .vec [.int 0, .int 0, .int 0, .int 0]), (['w'], .vec [.int 0, .int 0, .int 0])])
    C04.host_wf C04.wire_wf (compat_tame _ _ C04.compat) C04.packed ?_ rfl rfl ?_ ?_ ?_ ?_ ?_
  · simp [C04.host, Ty.termNames, Fields.termNames, Sample.u8]
  · simp [C04.host, Ty.same, Fields.same, Sample.u8, C04.hostB, Sample.hostL, Ty.hasMax, List.lookup]
  · unfold Holds; trivial
  · unfold Holds; trivial
  · unfold PathNames; trivial
  · unfold PathNames; trivial

example : sizeFn true (C04.mem 2) (.vector Sample.u8 C04.hostB) ⟨.vector Sample.u8 C04.wireB, 0⟩ [] 1000 =
    sizeFn true (C04.mem 4) (.vector Sample.u8 C04.hostB) ⟨.vector Sample.u8 C04.wireB, 0⟩ [] 5 :=
  C04_constant _ _ _ _ _ _ _ _ (by simp [Ty.packed, Sample.u8, Ty.align])
    (by simp [Ty.hasMax, C04.hostB, Sample.u8])

example : ∃ s m, encode ⟨C04.mem 2, fun _ => 0xcc, fun _ _ b => b⟩ C04.host C04.proto [] 1000 5000 (fun _ => 1) =
      .ok s ∧ sizeFn true (C04.mem 2) C04.host C04.proto [] 1000 = some m ∧ s.ptr ≤ 5000 + m := by
  obtain ⟨s, hs, hq⟩ := Res.sat_ok
    (r := encode ⟨C04.mem 2, fun _ => 0xcc, fun _ _ b => b⟩ C04.host C04.proto [] 1000 5000 (fun _ => 1))
    (f := fun s => s.used = 5) (by decide +kernel)
  have hq : s.used = 5 := by simpa using hq
  obtain ⟨m, h1, h2, _⟩ := C04_buffer_partial ⟨C04.mem 2, fun _ => 0xcc, fun _ _ b => b⟩ C04.host C04.proto []
    1000 5000 8 (fun _ => 1) s C04.host_wf C04.wire_wf (compat_tame _ _ C04.compat) C04.packed (noSplit_hoisted _ C04.noSplit)
    (noOut_outAt _ _ _ C04.noOut) rfl hs (by rw [hq]; decide) (by decide +kernel) (by decide +kernel)
  exact ⟨s, m, hs, h1, h2⟩

end PJ
