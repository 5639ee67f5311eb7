import Verif.Lemmas.AlignedHost
import Verif.Props.C45_HostTypes
/-!
# C57: the alignment LLVM is told is true

Every load and store of the generated code is at a multiple of the alignment it is compiled with: running the code
with a check before each access (`aEncode`, `aDecode`, which stop with undefined behaviour where a check fails) is
the same as running it without.  This is proved for all accesses to C++ objects and to the decoder's buffer, and
for all accesses to messages without wide tags, wide lengths or references.

`_partial`: the full claim is for the accesses to every message.  It is false (`C57_violated_length`,
`C57_violated_load`, `C57_violated_tag`): everything in a message has alignment 1, but tags, lengths and references
are accessed with the natural alignment of their width.
-/
namespace PJ

/-- For any two types: whichever side is checked, no check fails if the layout of that side is aligned, its object is
at an aligned address, and, for the source, so are the elements of its vectors. -/
theorem C57_general (A : Chk) (E : Env) (dst src : Ty) (path : Path) (hs : Handlers) (sa da : Nat) (st : St) (hd : WF dst)
    (hw : WF src) (hsrc : A.src = true → Told src ∧ src.align ∣ sa ∧ Ptrs E.S src path sa)
    (hdst : A.dst = true → Told dst ∧ dst.align ∣ da) :
    aXcode A E dst src path hs sa da st = xcode E dst src path hs sa da st :=
  aXcode_eq dst src path hs sa da st hd hw (fun h => ⟨⟨(hsrc h).1, (hsrc h).2.1⟩, (hsrc h).2.2⟩) hdst

/-- Without checks it is the same code. -/
theorem C57_unchecked (E : Env) (dst src : Ty) (path : Path) (hs : Handlers) (sa da : Nat) (st : St) (hd : WF dst)
    (hw : WF src) : aXcode ⟨false, false⟩ E dst src path hs sa da st = xcode E dst src path hs sa da st :=
  C57_general _ E dst src path hs sa da st hd hw (fun h => Bool.noConfusion h) (fun h => Bool.noConfusion h)

/-- The description of every accepted type has an aligned layout. -/
theorem C57_layout_partial (t : STy) (ha : Accepted t) (hs : Safe t) : Told (describe t) := describe_told t ha hs

/-- An encoder reads aligned: every load from a C++ object of an accepted type, at an address that is aligned as C++
requires and with spans that point to aligned elements. -/
theorem C57_encoder_object_partial (E : Env) (t : STy) (host : Ty) (path path' : Path) (p : Proto) (obj buf : Nat) (mem : Mem)
    (ha : Accepted t) (hs : Safe t) (hh : HostTy host) (hp : plan host path = some p) (hobj : (cpp t).2 ∣ obj)
    (hptr : Ptrs E.S (describe t) path' obj) :
    aEncode ⟨true, false⟩ E (describe t) p path' obj buf mem = encode E (describe t) p path' obj buf mem :=
  C57_general _ E p.head (describe t) path' [] obj buf _ (plan_ok host path p hh.sch hh.small hh.plain hh.noOut hp).1.wf
    (describe_WF t ha hs)
    (fun _ => ⟨describe_told t ha hs, Nat.dvd_trans (describe_align t ha hs).2 hobj, hptr⟩) (fun h => Bool.noConfusion h)

/-- A decoder writes aligned: every store into a C++ object of an accepted type and into the buffer, whatever the
message and wherever the buffer. -/
theorem C57_decoder_object_partial (E : Env) (t : STy) (host : Ty) (path : Path) (p : Proto) (hs : Handlers)
    (msg obj buf cap : Nat) (mem : Mem) (ha : Accepted t) (hsafe : Safe t) (hh : HostTy host)
    (hp : plan host path = some p) (hobj : (cpp t).2 ∣ obj) :
    aDecode ⟨false, true⟩ E p (describe t) hs msg obj buf cap mem = decode E p (describe t) hs msg obj buf cap mem := by
  unfold aDecode decode
  rw [C57_general _ E (describe t) p.head [] hs msg obj _ (describe_WF t ha hsafe)
    (plan_ok host path p hh.sch hh.small hh.plain hh.noOut hp).1.wf (fun h => Bool.noConfusion h)
    (fun _ => ⟨describe_told t ha hsafe, Nat.dvd_trans (describe_align t ha hsafe).2 hobj⟩)]
  cases xcode E (describe t) p.head [] hs msg obj { mem := mem, ptr := buf, rem := some cap, cb := 0, used := 0 } <;> rfl

/-- Messages whose tags and lengths have one byte and which have no references: all accesses of an encoder are
aligned, wherever the message is. -/
theorem C57_encoder_partial (E : Env) (t : STy) (host : Ty) (path path' : Path) (p : Proto) (obj buf : Nat) (mem : Mem)
    (ha : Accepted t) (hs : Safe t) (hh : HostTy host) (hp : plan host path = some p) (hn : Narrow p.head)
    (hobj : (cpp t).2 ∣ obj) (hptr : Ptrs E.S (describe t) path' obj) :
    aEncode ⟨true, true⟩ E (describe t) p path' obj buf mem = encode E (describe t) p path' obj buf mem := by
  have ht := plan_tight host path p hp
  exact C57_general _ E p.head (describe t) path' [] obj buf _ (plan_ok host path p hh.sch hh.small hh.plain hh.noOut hp).1.wf
    (describe_WF t ha hs)
    (fun _ => ⟨describe_told t ha hs, Nat.dvd_trans (describe_align t ha hs).2 hobj, hptr⟩)
    (fun _ => ⟨ht.told hn, by rw [ht.align]; exact Nat.one_dvd _⟩)

/-- The same for decoders. -/
theorem C57_decoder_partial (E : Env) (t : STy) (host : Ty) (path : Path) (p : Proto) (hs : Handlers)
    (msg obj buf cap : Nat) (mem : Mem) (ha : Accepted t) (hsafe : Safe t) (hh : HostTy host)
    (hp : plan host path = some p) (hn : Narrow p.head) (hobj : (cpp t).2 ∣ obj) :
    aDecode ⟨true, true⟩ E p (describe t) hs msg obj buf cap mem = decode E p (describe t) hs msg obj buf cap mem := by
  have ht := plan_tight host path p hp
  unfold aDecode decode
  rw [C57_general _ E (describe t) p.head [] hs msg obj _ (describe_WF t ha hsafe)
    (plan_ok host path p hh.sch hh.small hh.plain hh.noOut hp).1.wf
    (fun _ => ⟨ht.told hn, by rw [ht.align]; exact Nat.one_dvd _, ht.ptrs E.S [] msg⟩)
    (fun _ => ⟨describe_told t ha hsafe, Nat.dvd_trans (describe_align t ha hsafe).2 hobj⟩)]
  cases xcode E (describe t) p.head [] hs msg obj { mem := mem, ptr := buf, rem := some cap, cb := 0, used := 0 } <;> rfl

/-- For every protocol whose message is a vector without a maximum, an encoder has undefined behaviour unless the
message is at a multiple of 8. -/
theorem C57_vector_address (A : Chk) (E : Env) (host from' e : Ty) (l : VecL) (path path' : Path) (p : Proto)
    (obj buf : Nat) (mem : Mem) (hA : A.dst = true) (hh : HostTy host) (hp : plan host path = some p)
    (hv : p.head = .vector e l) (hm : l.maxLen = none)
    (hub : aEncode A E from' p path' obj buf mem ≠ .ub) : 8 ∣ buf := by
  have hw := (plan_ok host path p hh.sch hh.small hh.plain hh.noOut hp).1.wf
  have ht := plan_tight host path p hp
  rw [hv] at hw ht
  have hl := hw.2.noMax hm
  have ho : l.lenOff = 0 := ht.1.2.2.1
  have hst : ∀ n st, ¬ 8 ∣ buf → aStoreLength A l buf n st = .ub := fun n st h => by
    unfold aStoreLength Chk.store
    rw [hA, hl, ho, Nat.add_zero]
    have : buf % natAlign 8 ≠ 0 := fun h' => h (Nat.dvd_of_mod_eq_zero h')
    simp [this]
  apply Decidable.byContradiction
  intro hc
  refine hub ?_
  unfold aEncode
  rw [hv]
  cases from' with
  | unit => simp only [aXcode, aDflt, hst _ _ hc, keepBuf, Res.bind]
  | vector se sl =>
    simp only [aXcode, aVector]
    cases aLengthOp A E.S sl obj with
    | none => rfl
    | some n => simp only [hst _ _ hc, Res.bind]
  | _ => simp only [aXcode]

/-! ## Which accesses are checked -/

/-- Integers are loaded and stored with the alignments of their types. -/
theorem C57_needed_int (A : Chk) (E : Env) (dw sw dal sal : Nat) (ds ss : Sign) (path : Path) (hs : Handlers) (sa da : Nat)
    (st : St) (h : aXcode A E (.int dw ds dal) (.int sw ss sal) path hs sa da st ≠ .ub) :
    (A.src = true → sal ∣ sa) ∧ (A.dst = true → dal ∣ da) := by
  simp only [aXcode] at h
  exact ⟨fun hA => Chk.load_ub hA h, fun hA => Chk.store_ub hA (Chk.load_in h)⟩

/-- And so are floats. -/
theorem C57_needed_float (A : Chk) (E : Env) (dw sw dal sal : Nat) (path : Path) (hs : Handlers) (sa da : Nat)
    (st : St) (h : aXcode A E (.float dw dal) (.float sw sal) path hs sa da st ≠ .ub) :
    (A.src = true → sal ∣ sa) ∧ (A.dst = true → dal ∣ da) := by
  simp only [aXcode] at h
  exact ⟨fun hA => Chk.load_ub hA h, fun hA => Chk.store_ub hA (Chk.load_in h)⟩

/-- Default integers and floats are stored with the alignments of their types. -/
theorem C57_needed_default (A : Chk) (E : Env) (hs : Handlers) (da : Nat) (st : St) (hA : A.dst = true) :
    (∀ w s al, aDflt A E (.int w s al) hs da st ≠ .ub → al ∣ da) ∧
    (∀ w al, aDflt A E (.float w al) hs da st ≠ .ub → al ∣ da) ∧
    (∀ e l, aDflt A E (.vector e l) hs da st ≠ .ub → natAlign l.lenSize ∣ da + l.lenOff) := by
  refine ⟨fun w s al h => ?_, fun w al h => ?_, fun e l h => ?_⟩ <;> simp only [aDflt] at h
  · exact Chk.store_ub hA h
  · exact Chk.store_ub hA h
  · exact Chk.store_ub hA h

/-- Lengths are loaded and stored with the natural alignment. -/
theorem C57_needed_length (A : Chk) (E : Env) (de se : Ty) (dl sl : VecL) (path : Path) (hs : Handlers) (sa da : Nat)
    (st : St) (h : aXcode A E (.vector de dl) (.vector se sl) path hs sa da st ≠ .ub) :
    (A.src = true → sl.maxLen ≠ some 0 → natAlign sl.lenSize ∣ sa + sl.lenOff) ∧
    (A.dst = true → natAlign dl.lenSize ∣ da + dl.lenOff) := by
  simp only [aXcode, aVector] at h
  cases hl : aLengthOp A E.S sl sa with
  | none => rw [hl] at h; exact absurd rfl h
  | some n =>
    rw [hl] at h
    refine ⟨fun hA hm => ?_, fun hA => Chk.store_ub hA (Res.bind_ub h)⟩
    unfold aLengthOp at hl
    rw [if_neg hm] at hl
    exact Chk.loadOpt_none hA (by rw [hl]; simp)

/-- Tags are loaded with the natural alignment. -/
theorem C57_needed_tag (A : Chk) (E : Env) (dts sts : Terms) (dl sl : VarL) (hs : Handlers) (sa da : Nat) (st : St)
    (h : aXcode A E (.variant dts dl) (.variant sts sl) [] hs sa da st ≠ .ub) (hA : A.src = true) (hn : sts ≠ .nil) :
    natAlign sl.tagW ∣ sa + sl.tagOff := by
  simp only [aXcode] at h
  split at h
  · exact Chk.load_ub hA h
  · split at h
    · exact absurd rfl h
    · cases sts with
      | nil => exact absurd rfl hn
      | cons n g as t r =>
        refine Chk.loadOpt_none hA (r := selectTerm E.S (.cons n g as t r) sl [] sa) fun hc => h ?_
        have : aSelectTerm A E.S (.cons n g as t r) sl [] sa = none := hc
        rw [this]

/-- Tags are stored with the natural alignment: encoding a term of a variant as a term without conditions. -/
theorem C57_needed_term (A : Chk) (E : Env) (n : Comp) (g : Nat) (t sty : Ty) (r : Terms) (l : VarL) (sa da : Nat) (st : St)
    (h : aXNamed A E (.cons n g [] t r) l n sty sa da st ≠ .ub) (hA : A.dst = true) : natAlign l.tagW ∣ da + l.tagOff := by
  simp only [aXNamed, aTermCond, if_true] at h
  exact Chk.store_ub hA (Res.bind_ub h)

/-- References are stored with the natural alignment. -/
theorem C57_needed_reference (A : Chk) (E : Env) (de se : Ty) (dl sl : VecL) (path : Path) (hs : Handlers) (sa da n : Nat)
    (st s : St) (h : aXcode A E (.vector de dl) (.vector se sl) path hs sa da st = .ok s)
    (hn : lengthOp E.S sl sa = some n) (hout : dl.isInl (copyLength dl n) = false) (hA : A.dst = true) :
    natAlign dl.refSize ∣ da + dl.refOff := by
  simp only [aXcode, aVector] at h
  cases hl : aLengthOp A E.S sl sa with
  | none => rw [hl] at h; cases h
  | some k =>
    have hk : k = n := by
      unfold aLengthOp Chk.loadOpt at hl
      split at hl
      · rw [hn] at hl; cases hl; rfl
      · split at hl
        · cases hl
        · rw [hn] at hl; cases hl; rfl
    subst hk
    rw [hl] at h
    obtain ⟨s1, _, h⟩ := Res.bind_ok h
    split at h
    · unfold aInlineVec at h
      split at h
      · cases h
      · rw [hout] at h
        simp only [Bool.false_eq_true, if_false] at h
        obtain ⟨s2, _, h⟩ := Res.bind_ok h
        obtain ⟨s3, h3, _⟩ := Res.bind_ok h
        exact Chk.store_ub hA (fun hu => by unfold aStoreRef at h3; rw [hu] at h3; cases h3)
    · unfold aOutlineVec at h
      split at h
      · cases h
      · rw [hout] at h
        simp only [Bool.false_eq_true, if_false] at h
        obtain ⟨s2, _, h⟩ := Res.bind_ok h
        obtain ⟨s3, h3, _⟩ := Res.bind_ok h
        exact Chk.store_ub hA (fun hu => by unfold aStoreRef at h3; rw [hu] at h3; cases h3)

/-- References are loaded with the natural alignment, if there is an element behind them to be copied. -/
theorem C57_needed_load (A : Chk) (E : Env) (de se : Ty) (dl sl : VecL) (path : Path) (hs : Handlers) (sa da n : Nat)
    (st s : St) (h : aXcode A E (.vector de dl) (.vector se sl) path hs sa da st = .ok s)
    (hw : WF (.vector de dl)) (hn : lengthOp E.S sl sa = some n) (hn63 : n < 2 ^ 63) (hsl : sl.isInl n = false)
    (hlt : sl.ppl < copyLength dl n) (hA : A.src = true) : natAlign sl.refSize ∣ sa + sl.refOff := by
  have hle := copyLength_le_self dl n
  have hb : copyLength dl n ≤ dl.maxBound := by
    unfold VecL.maxBound
    cases hm : dl.maxLen with
    | none => simp only; omega
    | some m => exact copyLength_le hm
  have hpp := hw.2.ppl
  simp only [aXcode, aVector] at h
  cases hl : aLengthOp A E.S sl sa with
  | none => rw [hl] at h; cases h
  | some k =>
    have hk : k = n := by
      unfold aLengthOp Chk.loadOpt at hl
      split at hl
      · rw [hn] at hl; cases hl; rfl
      · split at hl
        · cases hl
        · rw [hn] at hl; cases hl; rfl
    subst hk
    rw [hl] at h
    obtain ⟨s1, _, h⟩ := Res.bind_ok h
    rw [hsl] at h
    simp only [Bool.false_eq_true, if_false] at h
    unfold aOutlineVec at h
    split at h
    · cases h
    · split at h
      · obtain ⟨s2, _, h⟩ := Res.bind_ok h
        have hsub : sub64 (copyLength dl k) (min sl.ppl dl.maxBound) = copyLength dl k - sl.ppl := by
          rw [Nat.min_eq_left (by omega)]
          exact sub64_eq (by omega) (by simp only [W64]; omega)
        rw [hsub] at h
        exact copyLoop_via hA h (by omega) (by omega)
      · rename_i hdo
        have hdo' := isInl_false.1 (by simpa using hdo)
        obtain ⟨s2, _, h⟩ := Res.bind_ok h
        obtain ⟨s3, _, h⟩ := Res.bind_ok h
        obtain ⟨s4, _, h⟩ := Res.bind_ok h
        split at h
        · obtain ⟨s5, _, h⟩ := Res.bind_ok h
          obtain ⟨s6, h6, h⟩ := Res.bind_ok h
          by_cases hc : sl.ppl < dl.ppl
          · exact copyLoop_via hA h6 (by omega) (by omega)
          · rw [sub64_eq (by omega) (by simp only [W64]; omega)] at h
            exact copyLoop_via hA h (by omega) (by omega)
        · obtain ⟨s5, _, h⟩ := Res.bind_ok h
          obtain ⟨s6, _, h⟩ := Res.bind_ok h
          rw [sub64_eq (by omega) (by simp only [W64]; omega)] at h
          exact copyLoop_via hA h (by omega) (by omega)

/-! ## Decoded objects -/

/-- The spans of a decoded object point to elements aligned as described, wherever the buffer is. -/
theorem C57_decoded_partial (E : Env) (p : Proto) (host : Ty) (hs : Handlers) (msg obj buf cap : Nat) (mem : Mem)
    (v w : Val) (d : Decoded) (hp : WF p.head) (hh : WF host) (hn : host.noOut) (hc : Compat host p.head)
    (hhs : HsOK host hs) (hv : readVal E.S p.head msg = some v) (hw : conv E.fconv host v = some w) (hcap : cap < 2 ^ 63)
    (hob : obj + host.size < W64) (hbuf : buf + cap < W64) (hd : Disj obj host.size buf cap)
    (hfin : fin host v buf ≤ buf + cap) (hdec : decode E p host hs msg obj buf cap mem = some d) :
    Ptrs d.mem host [] obj := by
  have hge := fin_ge host v buf hh
  have hb := xcode_bounded E host p.head hs msg obj
    { mem := mem, ptr := buf, rem := some cap, cb := 0, used := 0 } v w cap hh hp hc
    (noOut_outAt _ _ _ hn) hhs hv hw rfl hcap (by simp only; omega) (by simp only; omega)
  simp only at hb
  rcases hb with ⟨_, s, hs', _⟩ | ⟨hlt, _⟩
  · have hran := xcode_ran E host p.head hs msg obj { mem := mem, ptr := buf, rem := some cap, cb := 0, used := 0 } s v w
      hh hp hc (noOut_outAt _ _ _ hn) hhs hv hw (by simp only; omega) hob
      (by unfold Disj at *; simp only; omega) hs'
    unfold decode at hdec
    rw [hs'] at hdec
    cases hdec
    exact hran.ptrs
  · omega

/-- A decoded object can be encoded again, with any planned protocol: the loads are aligned. -/
theorem C57_relay_partial (E : Env) (send : Ty) (t : STy) (path : Path) (p : Proto) (msg obj buf cap : Nat) (mem : Mem)
    (v : Val) (hs : HostTy send) (ha : Accepted t) (hsafe : Safe t) (hsm : Small (describe t))
    (he : Evolves (describe t) send) (hp : plan send path = some p) (hv : readVal E.S p.head msg = some v)
    (hfv : Fits send v) (hobj : (cpp t).2 ∣ obj) (hcap : cap < 2 ^ 63) (hob : obj + (describe t).size < W64)
    (hbuf : buf + cap < W64) (hd : Disj obj (describe t).size buf cap) (hfin : fin (describe t) v buf ≤ buf + cap) :
    ∃ d, decode E p (describe t) [] msg obj buf cap mem = some d ∧
      ∀ host' path' p' buf' mem', HostTy host' → plan host' path' = some p' →
        aEncode ⟨true, false⟩ { E with S := d.mem } (describe t) p' [] obj buf' mem' =
          encode { E with S := d.mem } (describe t) p' [] obj buf' mem' := by
  have hr := C45_host_partial t ha hsafe hsm
  obtain ⟨hok, _, _, hrel, _⟩ := plan_ok send path p hs.sch hs.small hs.plain hs.noOut hp
  have hc := evolves_compat (describe t) send p.head he hrel hr.plain hr.noOut hr.wf hs.plain hok.wf
  obtain ⟨w, hw, _⟩ := evolves_conv E.fconv (describe t) send v he hr.plain hr.wf hs.plain hfv
  have hge := fin_ge (describe t) v buf hr.wf
  obtain ⟨d, hdec, _⟩ := C06_decode_buffer_partial E p (describe t) [] msg obj buf cap mem v w hok.wf hr.wf hr.noOut hc
    (HsOK_nil _) hv hw hcap (by omega) (by omega)
  refine ⟨d, hdec, fun host' path' p' buf' mem' hh' hp' => ?_⟩
  exact C57_encoder_object_partial { E with S := d.mem } t host' path' [] p' obj buf' mem' ha hsafe hh' hp' hobj
    (C57_decoded_partial E p (describe t) [] msg obj buf cap mem v w d hok.wf hr.wf hr.noOut hc (HsOK_nil _) hv hw hcap hob
      hbuf hd hfin hdec)

/-! ## Examples and violations -/

namespace C57

open Sample (nm)

/-- Whether a call has undefined behaviour. -/
def isUb : Res → Bool
  | .ub => true
  | _ => false

theorem of_isUb {r : Res} (h : isUb r = true) : r = .ub := by
  cases r <;> first | rfl | cases h

/-- `struct { a: uint8; xs: uint8[:]; }`. -/
def bytes : STy := .struct (.cons (nm "a") (.int 1 .unsigned) (.cons (nm "xs") (.vector (.int 1 .unsigned) 0 none) .nil))

/-- The object `{ a = 7, xs = [5, 6] }` at 1000. -/
def memBytes : Mem := fun a =>
  if a = 1000 then 7 else if a = 1008 then 0x00 else if a = 1009 then 0x05 else if a = 1016 then 2
  else if a = 1280 then 5 else if a = 1281 then 6 else 0

def envBytes : Env := { S := memBytes, J := fun _ => 0, fconv := fun _ _ b => b }

/-- `struct { a: uint8; k: variant { on: Unit = 256; off: Unit = 1; } }`: a tag of two bytes. -/
def wide : STy := .struct (.cons (nm "a") (.int 1 .unsigned) (.cons (nm "k")
  (.variant (.cons (nm "off") 1 .unit (.cons (nm "on") 256 .unit (.cons (nm "undef") 0 .unit .nil))) 2) .nil))

/-- The object `{ a = 7, k = on }` at 1000. -/
def memWide : Mem := fun a => if a = 1000 then 7 else if a = 1003 then 1 else 0

def envWide : Env := { S := memWide, J := fun _ => 0, fconv := fun _ _ b => b }

/-- `float64[:]`. -/
def doubles : STy := .vector (.float 8) 0 none

/-- The span of one `double` at 1280, at address 1000. -/
def memDoubles : Mem := fun a => if a = 1001 then 0x05 else if a = 1008 then 1 else if a = 1287 then 0x40 else 0

def envDoubles : Env := { S := memDoubles, J := fun _ => 0, fconv := fun _ _ b => b }

/-- A struct of numbers, arrays and a variant with small tags:
`struct { x: int32; v: variant { p: uint8; q: float64; }; id: char8[3]; }`. -/
def small : STy := .struct (.cons (nm "x") (.int 4 .signed) (.cons (nm "v")
  (.variant (.cons (nm "p") 1 (.int 1 .unsigned) (.cons (nm "q") 2 (.float 8) (.cons (nm "undef") 0 .unit .nil))) 2)
  (.cons (nm "id") (.array (.int 1 .signless) 3) .nil)))

end C57

open C57 in
/-- Violation: the message of `{ a = 7, xs = [5, 6] }` in a buffer at a multiple of 8.  The length of `xs` is stored
as an aligned 8-byte integer at an odd address. -/
theorem C57_violated_length : ∃ p s, plan (describe bytes) [] = some p ∧ (cpp bytes).2 ∣ 1000 ∧
    encode envBytes (describe bytes) p [] 1000 4096 (fun _ => 0) = .ok s ∧
    aEncode ⟨false, true⟩ envBytes (describe bytes) p [] 1000 4096 (fun _ => 0) = .ub := by
  obtain ⟨p, hp⟩ : ∃ p, plan (describe bytes) [] = some p := ⟨_, rfl⟩
  have hr : (plan (describe bytes) []).any (fun p =>
      ((encode envBytes (describe bytes) p [] 1000 4096 (fun _ => 0)).sat fun _ => true) &&
      isUb (aEncode ⟨false, true⟩ envBytes (describe bytes) p [] 1000 4096 (fun _ => 0))) = true := by decide +kernel
  rw [hp] at hr
  simp only [Option.any_some, Bool.and_eq_true] at hr
  obtain ⟨s, hs, _⟩ := Res.sat_ok hr.1
  exact ⟨p, s, hp, by decide +kernel, hs, of_isUb hr.2⟩

open C57 in
/-- Violation: decoding this message, its length is loaded as an aligned 8-byte integer from an odd address. -/
theorem C57_violated_load : ∃ p s d, plan (describe bytes) [] = some p ∧
    encode envBytes (describe bytes) p [] 1000 4096 (fun _ => 0) = .ok s ∧
    decode { envBytes with S := s.mem } p (describe bytes) [] 4096 8192 9216 64 (fun _ => 0) = some d ∧
    aDecode ⟨true, false⟩ { envBytes with S := s.mem } p (describe bytes) [] 4096 8192 9216 64 (fun _ => 0) = none := by
  obtain ⟨p, hp⟩ : ∃ p, plan (describe bytes) [] = some p := ⟨_, rfl⟩
  have hr : (plan (describe bytes) []).any (fun p =>
      ((encode envBytes (describe bytes) p [] 1000 4096 (fun _ => 0)).sat fun s =>
      ((decode { envBytes with S := s.mem } p (describe bytes) [] 4096 8192 9216 64 (fun _ => 0)).any fun _ => true) &&
      (aDecode ⟨true, false⟩ { envBytes with S := s.mem } p (describe bytes) [] 4096 8192 9216 64 (fun _ => 0)).isNone)) = true := by
    decide +kernel
  rw [hp] at hr
  simp only [Option.any_some] at hr
  obtain ⟨s, hs, hr⟩ := Res.sat_ok hr
  simp only [Bool.and_eq_true, Option.isNone_iff_eq_none] at hr
  obtain ⟨d, hd, _⟩ := decode_any hr.1
  exact ⟨p, s, d, hp, hs, hd, hr.2⟩

open C57 in
/-- Violation: a tag of two bytes behind a field of one byte. -/
theorem C57_violated_tag : ∃ p s, plan (describe wide) [] = some p ∧ (cpp wide).2 ∣ 1000 ∧
    encode envWide (describe wide) p [] 1000 4096 (fun _ => 0) = .ok s ∧
    aEncode ⟨false, true⟩ envWide (describe wide) p [] 1000 4096 (fun _ => 0) = .ub := by
  obtain ⟨p, hp⟩ : ∃ p, plan (describe wide) [] = some p := ⟨_, rfl⟩
  have hr : (plan (describe wide) []).any (fun p =>
      ((encode envWide (describe wide) p [] 1000 4096 (fun _ => 0)).sat fun _ => true) &&
      isUb (aEncode ⟨false, true⟩ envWide (describe wide) p [] 1000 4096 (fun _ => 0))) = true := by decide +kernel
  rw [hp] at hr
  simp only [Option.any_some, Bool.and_eq_true] at hr
  obtain ⟨s, hs, _⟩ := Res.sat_ok hr.1
  exact ⟨p, s, hp, by decide +kernel, hs, of_isUb hr.2⟩

open C57 in
/-- Violation, seen by the user: the elements of a decoded `float64[:]` are at a multiple of 4 only (4 is the described
alignment, `C45_violated_align`), where the C++ type `double` has the alignment 8. -/
theorem C57_violated_double : ∃ p s d, plan (describe doubles) [] = some p ∧ (cpp (.float 8)).2 = 8 ∧
    encode envDoubles (describe doubles) p [] 1000 4096 (fun _ => 0) = .ok s ∧
    decode { envDoubles with S := s.mem } p (describe doubles) [] 4096 8192 9220 64 (fun _ => 0) = some d ∧
    readN d.mem 8200 8 = 1 ∧ readN d.mem 8192 8 = 9220 ∧ 9220 % 8 = 4 := by
  obtain ⟨p, hp⟩ : ∃ p, plan (describe doubles) [] = some p := ⟨_, rfl⟩
  have hr : (plan (describe doubles) []).any (fun p =>
      ((encode envDoubles (describe doubles) p [] 1000 4096 (fun _ => 0)).sat fun s =>
      (decode { envDoubles with S := s.mem } p (describe doubles) [] 4096 8192 9220 64 (fun _ => 0)).any fun d =>
        readN d.mem 8200 8 == 1 && readN d.mem 8192 8 == 9220)) = true := by decide +kernel
  rw [hp] at hr
  simp only [Option.any_some] at hr
  obtain ⟨s, hs, hr⟩ := Res.sat_ok hr
  obtain ⟨d, hd, hr⟩ := decode_any hr
  simp only [Bool.and_eq_true, beq_iff_eq] at hr
  exact ⟨p, s, d, hp, rfl, hs, hd, hr.1, hr.2, rfl⟩

namespace C57

open Sample (nm)

theorem msg_ptrs : Ptrs C45.mem (describe C45.msg) [] 1000 := by
  have h1 : refStart C45.mem (spanL 0 (some 4) 8 4) 1048 = 1104 := by decide +kernel
  have h2 : ∀ a, 1 ∣ refStart C45.mem (spanL 2 none 1 1) a := fun a => Nat.one_dvd _
  have hd : describe C45.msg = .struct (.cons _ 0 (.int 4 .signed 4) (.cons _ 8 (describe (.variant _ 2))
      (.cons _ 40 (.array (.int 1 .signless 1) 3 1 1) (.cons _ 48 (.vector (.float 8 4) (spanL 0 (some 4) 8 4)) .nil)))) 64 8 := rfl
  rw [hd]
  refine ⟨trivial, fun t _ => ?_, fun i _ => trivial, fun n _ => ⟨fun _ i _ => trivial, fun _ => ⟨fun i _ => trivial, fun _ => ?_,
    fun i _ => trivial⟩⟩, trivial⟩
  · refine ⟨fun _ => trivial, fun _ => ⟨trivial, fun n _ => ⟨fun _ i _ => trivial, fun _ => ⟨fun i _ => trivial, fun _ => h2 _,
      fun i _ => trivial⟩⟩, trivial⟩, fun _ => trivial, trivial⟩
  · show 4 ∣ refStart C45.mem (spanL 0 (some 4) 8 4) 1048
    rw [h1]; decide

/-- The object of C45: loads from it are aligned, and so are the stores of a decoder into another one at 7000. -/
example : ∃ p, plan (describe C45.msg) C45.path = some p ∧
    (∀ buf mem, aEncode ⟨true, false⟩ C45.env (describe C45.msg) p [] 1000 buf mem =
      encode C45.env (describe C45.msg) p [] 1000 buf mem) ∧
    ∀ E msg buf cap mem, aDecode ⟨false, true⟩ E p (describe C45.msg) [] msg 7000 buf cap mem =
      decode E p (describe C45.msg) [] msg 7000 buf cap mem := by
  obtain ⟨p, hp⟩ := C45_plan_partial C45.msg C45.path C45.msg_accepted C45.msg_safe C45.msg_small
  have hh := C45_host_partial C45.msg C45.msg_accepted C45.msg_safe C45.msg_small
  exact ⟨p, hp,
    fun buf mem => C57_encoder_object_partial C45.env C45.msg _ _ [] p 1000 buf mem C45.msg_accepted C45.msg_safe hh hp
      (by decide +kernel) msg_ptrs,
    fun E msg buf cap mem => C57_decoder_object_partial E C45.msg _ _ p [] msg 7000 buf cap mem C45.msg_accepted C45.msg_safe
      hh hp (by decide +kernel)⟩

theorem small_accepted : Accepted small := by
  simp only [small, Accepted, AcceptedFields, AcceptedTerms, SFields.names]
  refine ⟨by decide, by decide, ⟨⟨[⟨nm "p", none, false⟩, ⟨nm "q", none, false⟩],
    [(nm "undef", 0), (nm "p", 1), (nm "q", 2)], 0, ?_, by decide, by decide⟩, ?_⟩, ?_, trivial⟩
  · intro f hf t ht
    simp only [List.mem_cons, List.not_mem_nil, or_false] at hf
    rcases hf with rfl | rfl <;> cases ht
  · exact ⟨by decide, by simp, trivial, trivial⟩
  · exact ⟨by decide, by decide, by decide⟩

theorem small_safe : Safe small := by
  simp only [small, Safe, SafeFields, SafeTerms, STerms.decls]
  simp

theorem small_small : Small (describe small) := by
  simp [small, describe, describeFields, describeTerms, Small, SmallFields, rounds, Terms.toList, eligible]

theorem small_ptrs (S : Mem) (a : Nat) : Ptrs S (describe small) [] a :=
  ⟨trivial, fun _ _ => ⟨fun _ => trivial, fun _ => trivial, fun _ => trivial, trivial⟩, fun _ _ => trivial, trivial⟩

/-- A protocol all of whose accesses are aligned, wherever object (at a multiple of 8), message and buffer are. -/
example : ∃ p, plan (describe small) [nm "v", nm "_"] = some p ∧
    (∀ E obj buf mem, 8 ∣ obj → aEncode ⟨true, true⟩ E (describe small) p [] obj buf mem =
      encode E (describe small) p [] obj buf mem) ∧
    ∀ E msg obj buf cap mem, 8 ∣ obj → aDecode ⟨true, true⟩ E p (describe small) [] msg obj buf cap mem =
      decode E p (describe small) [] msg obj buf cap mem := by
  obtain ⟨p, hp⟩ := C45_plan_partial small [nm "v", nm "_"] small_accepted small_safe small_small
  have hh := C45_host_partial small small_accepted small_safe small_small
  have hn : Narrow p.head := by
    have h : plan (describe small) [nm "v", nm "_"] = some p := hp
    have he : ∃ q, plan (describe small) [nm "v", nm "_"] = some q ∧ Narrow q.head := by
      refine ⟨_, rfl, ?_⟩
      exact ⟨trivial, ⟨by decide, trivial, trivial, trivial, trivial⟩, trivial, trivial⟩
    obtain ⟨q, hq, hn⟩ := he
    rw [h] at hq
    cases hq
    exact hn
  exact ⟨p, hp,
    fun E obj buf mem ho => C57_encoder_partial E small _ _ [] p obj buf mem small_accepted small_safe hh hp hn ho (small_ptrs _ _),
    fun E msg obj buf cap mem ho => C57_decoder_partial E small _ _ p [] msg obj buf cap mem small_accepted small_safe hh hp hn ho⟩

/-- An encoder of `float64[:]` needs a message at a multiple of 8. -/
example : ∃ p e l, plan (describe doubles) [] = some p ∧ p.head = .vector e l ∧ l.maxLen = none ∧
    aEncode ⟨true, true⟩ envDoubles (describe doubles) p [] 1000 4096 (fun _ => 0) ≠ .ub ∧
    ∀ obj buf mem, aEncode ⟨true, true⟩ envDoubles (describe doubles) p [] obj buf mem ≠ .ub → 8 ∣ buf := by
  have hh := C45_host_partial doubles (by simp only [doubles, Accepted]; decide) (by simp only [doubles, Safe]; decide) (by
    simp [doubles, describe, Small])
  obtain ⟨p, hp, e, l, hv, hm⟩ : ∃ p, plan (describe doubles) [] = some p ∧ ∃ e l, p.head = .vector e l ∧ l.maxLen = none :=
    ⟨_, rfl, _, _, rfl, rfl⟩
  have hr : (plan (describe doubles) []).any (fun p =>
      !isUb (aEncode ⟨true, true⟩ envDoubles (describe doubles) p [] 1000 4096 (fun _ => 0))) = true := by decide +kernel
  rw [hp] at hr
  refine ⟨p, e, l, hp, hv, hm, fun h => ?_, fun obj buf mem h =>
    C57_vector_address _ envDoubles _ _ e l _ [] p obj buf mem rfl hh hp hv hm h⟩
  simp only [Option.any_some, h] at hr
  cases hr

/-- `struct { ds: float64[:]; fresh: uint8; }`. -/
def later : STy := .struct (.cons (nm "ds") (.vector (.float 8) 0 none) (.cons (nm "fresh") (.int 1 .unsigned) .nil))

theorem later_accepted : Accepted later := by
  simp only [later, Accepted, AcceptedFields, SFields.names]
  exact ⟨by decide, ⟨by decide, by decide, by simp, by decide⟩, by decide, trivial⟩

theorem later_safe : Safe later := by
  simp only [later, Safe, SafeFields]
  simp [STy.isWchar, STy.bytes]

theorem later_small : Small (describe later) := by
  simp [later, describe, describeFields, Small, SmallFields]

theorem later_evolves : Evolves (describe later) (describe C45.msg) := by
  simp [later, C45.msg, C45.u8, describe, describeFields, Evolves, EvolvesFields, Fields.toList, nm, spanL]

/-- The message of C45's object is decoded with a buffer at an odd address, and sent on with the receiver's own
protocol. -/
example : ∃ p s d p', plan (describe C45.msg) C45.path = some p ∧
    encode C45.env (describe C45.msg) p [] 1000 5000 (fun _ => 0) = .ok s ∧
    decode { C45.env with S := s.mem } p (describe later) [] 5000 7000 8001 100 (fun _ => 0xff) = some d ∧
    plan (describe later) [] = some p' ∧
    ∀ buf mem, aEncode ⟨true, false⟩ { C45.env with S := d.mem } (describe later) p' [] 7000 buf mem =
      encode { C45.env with S := d.mem } (describe later) p' [] 7000 buf mem := by
  obtain ⟨p, hp⟩ := C45_plan_partial C45.msg C45.path C45.msg_accepted C45.msg_safe C45.msg_small
  obtain ⟨p', hp'⟩ := C45_plan_partial later [] later_accepted later_safe later_small
  have hh := C45_host_partial C45.msg C45.msg_accepted C45.msg_safe C45.msg_small
  have hsz : (plan (describe C45.msg) C45.path).map
      (fun p => (decide (fin p.head C45.val (5000 + p.head.size) < 6000))) = some true := by decide +kernel
  rw [hp] at hsz
  simp only [Option.map_some, Option.some.injEq, decide_eq_true_eq] at hsz
  have hw : (6000 : Nat) < W64 := by decide
  have hv : readVal C45.mem (describe C45.msg) 1000 = some C45.val := by
    rw [C45_value_partial C45.msg _ _ C45.msg_accepted C45.msg_safe]; exact C45.val_eq
  obtain ⟨s, h1, _, h2, _⟩ := C01_round_trip_partial C45.env (describe C45.msg) C45.path p 1000 5000 (fun _ => 0) C45.val hh hp
    hv (by omega)
  obtain ⟨d, d1, d2⟩ := C57_relay_partial { C45.env with S := s.mem } (describe C45.msg) later C45.path p 5000 7000 8001 100
    (fun _ => 0xff) C45.val hh later_accepted later_safe later_small later_evolves hp h2
    (readVal_fits _ _ _ _ hh.plain hv) (by decide +kernel) (by decide) (by decide +kernel) (by decide)
    (Or.inr (Or.inr (Or.inl (by decide +kernel)))) (by decide +kernel)
  exact ⟨p, s, d, p', hp, h1, d1, hp', fun buf mem => d2 _ _ p' buf mem (C45_host_partial later later_accepted later_safe
    later_small) hp'⟩

def st0 : St := { mem := fun _ => 0, ptr := 4096, rem := some 64, cb := 0, used := 0 }

/-- A 2-byte integer received as one of 4 bytes, and as a default; a `float64[:]`, with an element. -/
example : aXcode ⟨true, true⟩ envDoubles (.int 4 .signed 4) (.int 2 .signed 1) [] [] 7 12 st0 ≠ .ub ∧
    aXcode ⟨true, true⟩ envDoubles (.float 4 4) (.float 8 1) [] [] 7 12 st0 ≠ .ub ∧
    aDflt ⟨true, true⟩ envDoubles (.int 4 .signed 4) [] 12 st0 ≠ .ub ∧
    aDflt ⟨true, true⟩ envDoubles (.float 8 4) [] 12 st0 ≠ .ub ∧
    aDflt ⟨true, true⟩ envDoubles (describe doubles) [] 16 st0 ≠ .ub ∧
    aXcode ⟨true, true⟩ envDoubles (describe doubles) (describe doubles) [] [] 1000 2000 st0 ≠ .ub ∧
    isUb (aXcode ⟨true, true⟩ envDoubles (describe doubles) (describe doubles) [] [] 1000 2004 st0) = true := by
  have h : (!isUb (aXcode ⟨true, true⟩ envDoubles (.int 4 .signed 4) (.int 2 .signed 1) [] [] 7 12 st0) &&
    !isUb (aXcode ⟨true, true⟩ envDoubles (.float 4 4) (.float 8 1) [] [] 7 12 st0) &&
    !isUb (aDflt ⟨true, true⟩ envDoubles (.int 4 .signed 4) [] 12 st0) &&
    !isUb (aDflt ⟨true, true⟩ envDoubles (.float 8 4) [] 12 st0) &&
    !isUb (aDflt ⟨true, true⟩ envDoubles (describe doubles) [] 16 st0) &&
    !isUb (aXcode ⟨true, true⟩ envDoubles (describe doubles) (describe doubles) [] [] 1000 2000 st0) &&
    isUb (aXcode ⟨true, true⟩ envDoubles (describe doubles) (describe doubles) [] [] 1000 2004 st0)) = true := by decide +kernel
  simp only [Bool.and_eq_true, Bool.not_eq_true'] at h
  obtain ⟨⟨⟨⟨⟨⟨h1, h2⟩, h3⟩, h4⟩, h5⟩, h6⟩, h7⟩ := h
  have key : ∀ r : Res, isUb r = false → r ≠ .ub := fun r h hc => by rw [hc] at h; cases h
  exact ⟨key _ h1, key _ h2, key _ h3, key _ h4, key _ h5, key _ h6, h7⟩

/-- The references of this `float64[:]` are stored and loaded. -/
example : ∃ s, aXcode ⟨true, true⟩ envDoubles (describe doubles) (describe doubles) [] [] 1000 2000 st0 = .ok s ∧
    lengthOp envDoubles.S (spanL 0 none 8 4) 1000 = some 1 ∧ (spanL 0 none 8 4).isInl 1 = false ∧
    (spanL 0 none 8 4).ppl < copyLength (spanL 0 none 8 4) 1 := by
  have h : (aXcode ⟨true, true⟩ envDoubles (describe doubles) (describe doubles) [] [] 1000 2000 st0).sat (fun _ => true) = true := by
    decide +kernel
  obtain ⟨s, hs, _⟩ := Res.sat_ok h
  exact ⟨s, hs, by decide +kernel, by decide, by decide⟩

/-- The type of `k` in `wide`. -/
def wideTs : Terms := describeTerms (.cons (nm "off") 1 .unit (.cons (nm "on") 256 .unit (.cons (nm "undef") 0 .unit .nil)))

def wideL : VarL :=
  { outline := false, dflt := 2, termOff := 0, termSize := 0, tagOff := 0, tagW := 2, size := 2, align := 2, termAlign := 1 }

/-- Tags: a variant is read at an even and written at another even address. -/
example : wideTs ≠ .nil ∧ aXcode ⟨true, true⟩ envWide (.variant wideTs wideL) (.variant wideTs wideL) [] [] 1002 2002 st0 ≠ .ub ∧
    aXNamed ⟨true, true⟩ envWide (.cons (nm "on") 256 [] .unit .nil) wideL (nm "on") .unit 1002 2002 st0 ≠ .ub := by
  have h : (!isUb (aXcode ⟨true, true⟩ envWide (.variant wideTs wideL) (.variant wideTs wideL) [] [] 1002 2002 st0) &&
    !isUb (aXNamed ⟨true, true⟩ envWide (.cons (nm "on") 256 [] .unit .nil) wideL (nm "on") .unit 1002 2002 st0)) = true := by
    decide +kernel
  simp only [Bool.and_eq_true, Bool.not_eq_true'] at h
  have key : ∀ r : Res, isUb r = false → r ≠ .ub := fun r h hc => by rw [hc] at h; cases h
  exact ⟨by simp [wideTs, describeTerms], key _ h.1, key _ h.2⟩

end C57

end PJ
