import Verif.Props.C05_DecodeFrame
import Verif.Lemmas.Callback
/-!
# C08: exactly the right handler is called, at most once

`Decoded.called` is the index of the handler invoked after the transcode call, so at most one is
invoked by construction of `InvokeCallbackOp`; the theorems say which.

`_partial`: host types without outline variants, types outside the known defects (`Compat`), a handled
variant which is not an enum.  For enums the statement is false: the fast path ignores handlers
(`C08_violated_enum`).
-/
namespace PJ

/-- What the compiler checks of a handler path without its last component (`checkVariantPath`,
`pj/parse.cpp` 692-737): it goes through struct fields to a variant. -/
def LeadsTo : Path → Ty → Prop
  | [], .variant _ _ => True
  | c :: p, .struct fs _ _ => ∀ x ∈ fs.toList, x.1 = c → LeadsTo p x.2.2
  | _, _ => False

theorem HsOKF_of : ∀ (fs : Fields) (hs : Handlers), (∀ x ∈ fs.toList, HsOK x.2.2 (hs.into x.1)) →
    HsOKF fs hs
  | .nil, _, _ => by simp [HsOKF]
  | .cons c o t r, hs, h => by
    simp only [Fields.toList, List.mem_cons, forall_eq_or_imp] at h
    simp only [HsOKF]
    exact ⟨h.1, HsOKF_of r hs h.2⟩

theorem HsOK_at : ∀ (P : Path) (t : Ty) (hs : Handlers), LeadsTo P t → HandlersAt P hs → HsOK t hs
  | [], .variant ts l, hs, _, h => by
    obtain ⟨hm, h1, _⟩ := handlerMap_at h
    simp [HsOK, h1]
  | c :: P, .struct fs sz al, hs, hl, h => by
    simp only [HsOK]
    refine HsOKF_of _ _ fun x hx => ?_
    simp only [LeadsTo] at hl
    by_cases hc : x.1 = c
    · rw [hc]
      exact HsOK_at P x.2.2 _ (hl x hx hc) (handlersAt_into h).1
    · rw [handlersAt_into_ne h hc]
      exact HsOK_nil _
  | [], .int _ _ _, _, h, _ => h.elim
  | [], .float _ _, _, h, _ => h.elim
  | [], .unit, _, h, _ => h.elim
  | [], .struct _ _ _, _, h, _ => h.elim
  | [], .array _ _ _ _, _, h, _ => h.elim
  | [], .vector _ _, _, h, _ => h.elim
  | _ :: _, .int _ _ _, _, h, _ => h.elim
  | _ :: _, .float _ _, _, h, _ => h.elim
  | _ :: _, .unit, _, h, _ => h.elim
  | _ :: _, .variant _ _, _, h, _ => h.elim
  | _ :: _, .array _ _ _ _, _, h, _ => h.elim
  | _ :: _, .vector _ _, _, h, _ => h.elim

/-- Run a check on the result of a decode call. -/
theorem decode_any {o : Option Decoded} {q : Decoded → Bool} (h : o.any q = true) :
    ∃ d, o = some d ∧ q d = true := by
  cases o with
  | none => simp at h
  | some d => exact ⟨d, rfl, h⟩

/-- After a successful decode with handlers for terms of the variant at `P`: if the variant at `P` in
the decoded object holds term `n`, the handler registered for `P.n` has been called, and none when none
is registered. -/
theorem C08_handler_partial (E : Env) (p : Proto) (host : Ty) (P : Path) (hs : Handlers)
    (msg obj buf cap : Nat) (mem : Mem) (v w : Val) (d : Decoded)
    (hp : WF p.head) (hh : WF host) (hn : host.noOut) (hc : Compat host p.head)
    (hP : LeadsTo P host) (hE : NotEnumAt P host) (hhs : HandlersAt P hs)
    (hv : readVal E.S p.head msg = some v) (hw : conv E.fconv host v = some w) (hcap : cap < 2 ^ 63)
    (hfit : fin host v buf ≤ buf + cap) (hb : buf + cap < W64) (ho : obj + host.size < W64)
    (hd : Disj obj host.size buf cap) (hr : decode E p host hs msg obj buf cap mem = some d) :
    readVal d.mem host obj = some w ∧
      ∀ n x, valAt P w = some (.variant n x) → d.called = hs.lookup (P ++ [n]) := by
  have hok := HsOK_at P host hs hP hhs
  have hbd := xcode_bounded E host p.head hs msg obj
    { mem := mem, ptr := buf, rem := some cap, cb := 0, used := 0 } v w cap hh hp hc
    (noOut_outAt _ _ _ hn) hok hv hw rfl hcap (by simp only; omega) (by simp only; omega)
  simp only at hbd
  rcases hbd with ⟨hle, s, hs', hrem⟩ | ⟨hlt, s, hs'⟩
  · have hge := fin_ge host v buf hh
    have hran := xcode_ran E host p.head hs msg obj
      { mem := mem, ptr := buf, rem := some cap, cb := 0, used := 0 } s v w hh hp hc
      (noOut_outAt _ _ _ hn) hok hv hw (by simp only; omega) ho
      (by simp only; unfold Disj at *; omega) hs'
    unfold decode at hr
    rw [hs'] at hr
    cases hr
    refine ⟨hran.val, fun n x hx => ?_⟩
    have := xcode_cb E host p.head P hs msg obj
      { mem := mem, ptr := buf, rem := some cap, cb := 0, used := 0 } v w n x hh hn hp hhs hE hv hw hx
    rw [hs'] at this
    simp only [CbRes] at this
    simp only [this, slot]
    cases hs.lookup (P ++ [n]) with
    | none => simp [invoked]
    | some i => simp [invoked]
  · omega

/-- Without handlers none is called, whatever the message bytes and types are and whether or not decode
succeeds. -/
theorem C08_no_handlers (E : Env) (p : Proto) (host : Ty) (msg obj buf cap : Nat) (mem : Mem)
    (d : Decoded) (hr : decode E p host [] msg obj buf cap mem = some d) : d.called = none := by
  have h := xcode_cb_none E host p.head [] msg obj
    { mem := mem, ptr := buf, rem := some cap, cb := 0, used := 0 }
  unfold decode at hr
  cases hx : xcode E host p.head [] [] msg obj
      { mem := mem, ptr := buf, rem := some cap, cb := 0, used := 0 } with
  | ok s =>
    rw [hx] at h hr; cases hr
    simp only [InvRes] at h
    simp [invoked, h]
  | throw s =>
    rw [hx] at h hr; cases hr
    simp only [InvRes] at h
    simp [invoked, h]
  | ub => rw [hx] at hr; cases hr

theorem cbIn_stepInv (hs : Handlers) :
    StepInv (fun _ => True) (fun a b => b.cb = a.cb ∨ ∃ h ∈ hs, b.cb = h.2 + 1) where
  refl _ := Or.inl rfl
  trans h1 h2 := by
    rcases h2 with h2 | h2
    · rw [h2]; exact h1
    · exact Or.inr h2
  store _ _ _ _ := Or.inl rfl
  poison _ _ _ _ := Or.inl rfl
  alloc st s n a h := Or.inl (cb_stepInv.alloc st s n a h)
  keep _ _ h := h
  small _ _ := trivial

/-- The handler which is called is one of those given to decode, whatever the message bytes and types are and
whether or not decode succeeds: a jitted decoder never indexes the array of handlers out of its bounds. -/
theorem C08_index (E : Env) (p : Proto) (host : Ty) (hs : Handlers) (msg obj buf cap : Nat) (mem : Mem)
    (d : Decoded) (hr : decode E p host hs msg obj buf cap mem = some d) (i : Nat) (hi : d.called = some i) :
    ∃ path, (path, i) ∈ hs := by
  have h := xcode_inv (cbIn_stepInv hs) E host p.head [] hs msg obj
    { mem := mem, ptr := buf, rem := some cap, cb := 0, used := 0 } (allocs_true host)
    fun h hh _ => Or.inr ⟨h, hh, rfl⟩
  have key : ∀ s : St, (s.cb = 0 ∨ ∃ h ∈ hs, s.cb = h.2 + 1) → invoked s.cb = some i → ∃ path, (path, i) ∈ hs := by
    intro s hs hi
    rcases hs with hs | ⟨h, hh, hs⟩
    · simp [invoked, hs] at hi
    · simp only [invoked, hs] at hi
      obtain rfl : h.2 = i := by simpa using hi
      exact ⟨h.1, hh⟩
  unfold decode at hr
  cases hx : xcode E host p.head [] hs msg obj
      { mem := mem, ptr := buf, rem := some cap, cb := 0, used := 0 } with
  | ok s => rw [hx] at h hr; cases hr; exact key s h hi
  | throw s => rw [hx] at h hr; cases hr; exact key s h hi
  | ub => rw [hx] at hr; cases hr

namespace C08

/-- `{ a, b }` with a one byte tag. -/
def en : Ty :=
  .variant (.cons ['a'] 1 [] .unit (.cons ['b'] 2 [] .unit .nil))
    { outline := false, dflt := 0, termOff := 1, termSize := 0, tagOff := 0, tagW := 1, size := 1,
      align := 1, termAlign := 1 }

def E : Env := ⟨fun _ => 2, fun _ => 0, fun _ _ b => b⟩

end C08

/-- Violation: the handler registered for the term of an enum is not called although the decoded object
holds that term. -/
theorem C08_violated_enum : ∃ d, decode C08.E ⟨C08.en, 0⟩ C08.en [([['b']], 5)] 100 1000 2000 0
      (fun _ => 0) = some d ∧ WF C08.en ∧ Compat C08.en C08.en ∧ LeadsTo [] C08.en ∧
    HandlersAt [] [([['b']], 5)] ∧ d.size = 0 ∧
    readVal d.mem C08.en 1000 = some (.variant ['b'] .unit) ∧ d.called = none := by
  obtain ⟨d, hd, h⟩ := decode_any (o := decode C08.E ⟨C08.en, 0⟩ C08.en [([['b']], 5)] 100 1000 2000 0
    (fun _ => 0)) (q := fun d => d.size = 0 && d.mem 1000 = 2 && d.called = none) (by decide +kernel)
  simp only [Bool.and_eq_true, decide_eq_true_eq] at h
  refine ⟨d, hd, ?_, ?_, trivial, ?_, h.1.1, ?_, h.2⟩
  · simp only [C08.en, WF, WFTerms, Terms.toList]
    refine ⟨by simp, ?_⟩
    constructor <;> simp [Ty.size, Disj]
  · simp [C08.en, Compat, enumFast, Terms.isEnum, Terms.toList, Terms.hasName, CompatNamed,
      Ty.size]
    refine ⟨by simp [Terms.toList], by simp [Terms.toList], Or.inl (by decide)⟩
  · simp [HandlersAt]
  · have : readN d.mem 1000 1 = 2 := by simp only [readN, readBytes, h.1.2]; rfl
    simp [C08.en, readVal, readTerm, this]

namespace C08
open Sample

/-- A message for `hostS` at address 7000: `v = q(300)`, `ys = []`, `fresh = 4`, `x = 8`. -/
def msgMem : Mem := fun a =>
  if 7000 ≤ a then
    (([7, 44, 1, 0, 0, 0, 0, 0, 0,
       0, 0, 0, 0, 0, 0, 0, 0, 0, 0, 0, 0, 0, 0, 0, 0, 4, 8] : List UInt8)[a - 7000]?).getD 0
  else 0

def env : Env := { env0 with S := msgMem }

end C08

open Sample in
/-- The sample message holds term `q`; handler 3 is registered for `v.q` and handler 1 for `v.p`. -/
example (d : Decoded) (hr : decode C08.env proto0 hostS [([nm "v", nm "p"], 1), ([nm "v", nm "q"], 3)]
    7000 9000 20000 8 (fun _ => 1) = some d) : d.called = some 3 := by
  refine (C08_handler_partial C08.env proto0 hostS [nm "v"] _ 7000 9000 20000 8 _
    (.struct [(nm "v", .variant (nm "q") (.int 300)), (nm "ys", .vec []), (nm "fresh", .int 4),
      (nm "x", .int 8)])
    (.struct [(nm "x", .int 8), (nm "ys", .vec []), (nm "v", .variant (nm "q") (.int 300)),
      (nm "gone", .int 0)]) d wireS_wf hostS_wf hostS_noOut host_wire_compat
    (by simp [LeadsTo, hostS, Fields.toList, nm, hostV])
    (by simp [NotEnumAt, hostS, Fields.find, nm, hostV, Terms.isEnum, Terms.toList, u8, i32, Ty.size])
    (by simp [HandlersAt]) rfl rfl (by decide) (by decide) (by decide) (by decide)
    (Or.inr (Or.inr (Or.inl (by decide)))) hr).2 (nm "q") (.int 300) rfl

end PJ
