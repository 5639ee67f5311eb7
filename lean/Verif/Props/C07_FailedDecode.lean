import Verif.Props.C08_Handlers
import Verif.Lemmas.NoThrow
import Verif.Lemmas.Account
/-!
# C07: a failed decode never invokes a callback

False in general: the callback slot of a variant that was already transcoded is set when a later field
runs out of buffer, and `InvokeCallbackOp` is reached on the failing path too (`C07_violated`).
`C07_quiet_partial` proves the property for the types in which nothing can fail after the handled
variant: every field after it, on the way from the root, has no vector.
-/
namespace PJ

/-- Decode failed (the returned size is -1): no handler has been called, for all message bytes. -/
theorem C07_quiet_partial (E : Env) (p : Proto) (host : Ty) (P : Path) (hs : Handlers)
    (msg obj buf cap : Nat) (mem : Mem) (d : Decoded) (hh : WF host) (hn : host.noOut)
    (hhs : HandlersAt P hs) (hq : Quiet P host) (hcap : cap < 2 ^ 63)
    (hr : decode E p host hs msg obj buf cap mem = some d) (hf : d.size = 2 ^ 64 - 1) :
    d.called = none := by
  have ht := xcode_quiet E P host p.head hs [] msg obj
    { mem := mem, ptr := buf, rem := some cap, cb := 0, used := 0 } hh hn hhs hq
  have hl := xcode_inv remLt_stepInv E host p.head [] hs msg obj
    { mem := mem, ptr := buf, rem := some cap, cb := 0, used := 0 } (allocs_true host)
    (CbAll.of (Or.inr remLt_cb))
  unfold decode at hr
  cases hx : xcode E host p.head [] hs msg obj
      { mem := mem, ptr := buf, rem := some cap, cb := 0, used := 0 } with
  | ok s =>
    rw [hx] at hl hr; cases hr
    obtain ⟨r', h1, h2⟩ := hl cap rfl hcap
    simp only [h1, Option.getD_some] at hf
    omega
  | throw s =>
    rw [hx] at ht hr; cases hr
    simp only [ThrowCb] at ht
    simp [invoked, ht]
  | ub => rw [hx] at hr; cases hr

namespace C07
open Sample

/-- `{ v : hostV, ys : u8[] }`: the vector comes after the handled variant. -/
def host : Ty := .struct (.cons (nm "v") 0 hostV (.cons (nm "ys") 8 (.vector u8 hostL) .nil)) 24 8

/-- `{ ys : u8[], v : hostV }`: the vector comes first. -/
def host' : Ty := .struct (.cons (nm "ys") 0 (.vector u8 hostL) (.cons (nm "v") 16 hostV .nil)) 24 8

/-- A message for `wireS` at 7000 with `v = q(300)` and `ys` of length 3. -/
def msgMem : Mem := fun a =>
  if 7000 ≤ a then
    (([7, 44, 1, 0, 0, 0, 0, 0, 0,
       3, 0, 0, 0, 0, 0, 0, 0, 17, 0, 0, 0, 0, 0, 0, 0, 4, 8, 0, 0, 0, 0, 0, 0, 0, 5, 6, 7] :
       List UInt8)[a - 7000]?).getD 0
  else 0

def env : Env := { env0 with S := msgMem }

def hs : Handlers := [([nm "v", nm "q"], 3)]

theorem wf : WF host := by
  simp only [host, WF, WFFields]
  refine ⟨⟨hostV_wf, ⟨by simp [u8, WF], hostL_ok⟩, trivial⟩, ?_⟩
  constructor <;> simp [Fields.toList, Ty.size, hostV, hostL, Disj, nm]

theorem wf' : WF host' := by
  simp only [host', WF, WFFields]
  refine ⟨⟨⟨by simp [u8, WF], hostL_ok⟩, hostV_wf, trivial⟩, ?_⟩
  constructor <;> simp [Fields.toList, Ty.size, hostV, hostL, Disj, nm]

end C07

/-- Violation: decode of a well-formed message reports failure because the buffer of 2 bytes is too
small for 3 elements, and handler 3 has been called. -/
theorem C07_violated : ∃ d, WF C07.host ∧ WF Sample.wireS ∧ Compat C07.host Sample.wireS ∧
    LeadsTo [Sample.nm "v"] C07.host ∧ HandlersAt [Sample.nm "v"] C07.hs ∧
    decode C07.env Sample.proto0 C07.host C07.hs 7000 9000 20000 2 (fun _ => 0) = some d ∧
    d.size = 2 ^ 64 - 1 ∧ d.called = some 3 := by
  obtain ⟨d, hd, h⟩ := decode_any (o := decode C07.env Sample.proto0 C07.host C07.hs 7000 9000 20000 2
    (fun _ => 0)) (q := fun d => d.size = 2 ^ 64 - 1 && d.called = some 3) (by decide +kernel)
  simp only [Bool.and_eq_true, decide_eq_true_eq] at h
  refine ⟨d, C07.wf, Sample.wireS_wf, ?_, ?_, ?_, hd, h.1, h.2⟩
  · open Sample in
    simp [C07.host, wireS, Compat, CompatFields, Fields.findLast, nm, wireV, hostV, u8, i32, i64w,
      VecCompat, hostL, wireL, VecL.maxBound, enumFast, Terms.isEnum, Terms.toList, Ty.size,
      Terms.hasName, CompatNamed, CompatAt]
  · open Sample in
    simp [LeadsTo, C07.host, Fields.toList, nm, hostV]
  · simp [HandlersAt, C07.hs]

open Sample in
/-- With the vector first the theorem applies: any message bytes for `wireS`. -/
example (m : Mem) (d : Decoded)
    (hr : decode { env0 with S := m } proto0 C07.host' C07.hs 7000 9000 20000 2 (fun _ => 0) = some d)
    (hf : d.size = 2 ^ 64 - 1) : d.called = none := by
  refine C07_quiet_partial _ proto0 C07.host' [nm "v"] C07.hs 7000 9000 20000 2 _ d C07.wf'
    (by simp [C07.host', Ty.noOut, Fields.noOut, hostV, Terms.noOut, u8, i32])
    (by simp [HandlersAt, C07.hs]) ?_ (by decide) hr hf
  simp only [Quiet, C07.host', Fields.toList]
  intro pre o t post h
  have hne : nm "ys" ≠ nm "v" := by simp [nm]
  rcases pre with _ | ⟨a, _ | ⟨b, pre⟩⟩
  · simp only [List.nil_append, List.cons.injEq, Prod.mk.injEq] at h
    exact absurd h.1.1 hne
  · simp only [List.cons_append, List.nil_append, List.cons.injEq, Prod.mk.injEq] at h
    obtain ⟨_, ⟨_, _, rfl⟩, rfl⟩ := h
    simp [Quiet, hostV]
  · simp at h

open Sample in
/-- That decode does fail on the sample message. -/
example : (decode C07.env proto0 C07.host' C07.hs 7000 9000 20000 2 (fun _ => 0)).any
    (fun d => d.size = 2 ^ 64 - 1 && d.called = none) = true := by decide +kernel

end PJ
