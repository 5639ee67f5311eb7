import Verif.Spec.Samples
/-!
# C10: variant evolution

`_partial`: types outside the known defects (`Compat`); for the default block (unknown stored tag) the
generic code, not the enum fast path.  What is missing is false: see the `C10_violated_*` theorems and
C11.
-/
namespace PJ

/-- The sender's term is known by name: the receiver's object holds a term of that name with the
converted payload, whatever the tags on both sides are. -/
theorem C10_known_partial (E : Env) (dts : Terms) (dl : VarL) (src : Ty) (hs : Handlers) (sa da : Nat)
    (st s : St) (c : Comp) (p w : Val)
    (hwt : WF (.variant dts dl)) (hws : WF src) (hc : Compat (.variant dts dl) src)
    (ho : OutAt (.variant dts dl) da st.ptr) (hh : HsOK (.variant dts dl) hs)
    (hv : readVal E.S src sa = some (.variant c p))
    (hw : conv E.fconv (.variant dts dl) (.variant c p) = some w)
    (hq : fin (.variant dts dl) (.variant c p) st.ptr < W64) (hda : da + dl.size < W64)
    (hd : Disj da dl.size st.ptr (fin (.variant dts dl) (.variant c p) st.ptr - st.ptr))
    (hr : xcode E (.variant dts dl) src [] hs sa da st = .ok s)
    (hk : ∃ t ∈ dts.toList, t.name = c) :
    ∃ t ∈ dts.toList, t.name = c ∧ ∃ y, conv E.fconv t.ty p = some y ∧
      readVal s.mem (.variant dts dl) da = some (.variant c y) := by
  have hran := (xcode_ran E _ _ hs sa da st s _ w hwt hws hc ho hh hv hw hq hda hd hr).val
  have hhn : dts.hasName c = true := by
    obtain ⟨t, ht, rfl⟩ := hk
    simp only [Terms.hasName, List.any_eq_true]
    exact ⟨t, ht, by simp⟩
  simp only [conv] at hw
  rw [if_pos hhn] at hw
  obtain ⟨u, hu, hun, x, hx, rfl⟩ := convNamed_some hw
  exact ⟨u, hu, hun, x, hx, hran⟩

/-- The sender's term is not known by name: the receiver's object holds its default term. -/
theorem C10_unknown_partial (E : Env) (dts : Terms) (dl : VarL) (src : Ty) (hs : Handlers)
    (sa da : Nat) (st s : St) (c : Comp) (p w : Val)
    (hwt : WF (.variant dts dl)) (hws : WF src) (hc : Compat (.variant dts dl) src)
    (ho : OutAt (.variant dts dl) da st.ptr) (hh : HsOK (.variant dts dl) hs)
    (hv : readVal E.S src sa = some (.variant c p))
    (hw : conv E.fconv (.variant dts dl) (.variant c p) = some w)
    (hq : fin (.variant dts dl) (.variant c p) st.ptr < W64) (hda : da + dl.size < W64)
    (hd : Disj da dl.size st.ptr (fin (.variant dts dl) (.variant c p) st.ptr - st.ptr))
    (hr : xcode E (.variant dts dl) src [] hs sa da st = .ok s)
    (hk : ∀ t ∈ dts.toList, t.name ≠ c) :
    ∃ t, dts.toList[dl.dflt]? = some t ∧ ∃ y,
      readVal s.mem (.variant dts dl) da = some (.variant t.name y) := by
  have hran := (xcode_ran E _ _ hs sa da st s _ w hwt hws hc ho hh hv hw hq hda hd hr).val
  have hhn : ¬ dts.hasName c = true := by
    simp only [Terms.hasName, List.any_eq_true, not_exists, not_and]
    intro t ht hb
    exact hk t ht (by simpa using hb)
  simp only [conv] at hw
  rw [if_neg hhn] at hw
  obtain ⟨u, hu, x, hx, rfl⟩ := convAt_some hw
  exact ⟨u, hu, x, hran⟩

/-- The default block: dispatch of a stored tag that no sender term has. -/
theorem selectTerm_unknown {S : Mem} {sts : Terms} {sl : VarL} {sa : Nat}
    (hl : VarLayout sts.toList sl)
    (h : ∀ t ∈ sts.toList, t.tag ≠ readN S (sa + sl.tagOff) sl.tagW) :
    selectTerm S sts sl [] sa = some none := by
  have hd : DispatchCorrect (sts.toList.map fun t => (t.tag, some t)) := by
    apply C21_dispatch_partial
    · have := hl.tags
      rw [List.map_map]; exact this
    · intro x hx
      simp only [List.mem_map] at hx
      obtain ⟨y, hy, rfl⟩ := hx
      have := (hl.tagLt y hy).2
      simp only; omega
    · left
      intro x hx
      simp only [List.mem_map] at hx
      obtain ⟨y, hy, rfl⟩ := hx
      exact (hl.tagLt y hy).2
  unfold selectTerm
  simp only
  cases sts with
  | nil => rfl
  | cons n g as t' r =>
    simp only
    rw [if_neg (by have := hl.tagW; omega)]
    congr 1
    refine (hd none _).2 ?_
    intro c hmem
    obtain ⟨y, hy, he⟩ := List.mem_map.1 hmem
    simp only [Prod.mk.injEq] at he
    exact h y hy he.1

/-- The stored tag is not a tag of the sender's schema: the receiver's object holds its default
value, the default term with a default payload, and no buffer is consumed. -/
theorem C10_raw_tag_partial (E : Env) (dts sts : Terms) (dl sl : VarL) (sa da : Nat)
    (st : St) (w : Val) (hwt : WF (.variant dts dl)) (hws : WF (.variant sts sl))
    (hnf : enumFast dts sts dl sl = false) (hno : (Ty.variant dts dl).noOut)
    (hv : ∀ t ∈ sts.toList, t.tag ≠ readN E.S (sa + sl.tagOff) sl.tagW)
    (hw : dfltVal (.variant dts dl) = some w) (hda : da + dl.size < W64) (hp : st.ptr < W64) :
    ∃ s, xcode E (.variant dts dl) (.variant sts sl) [] [] sa da st = .ok s ∧
      readVal s.mem (.variant dts dl) da = some w ∧ s.ptr = st.ptr ∧ s.rem = st.rem := by
  simp only [WF] at hwt hws
  simp only [Ty.noOut] at hno
  have hx : xcode E (.variant dts dl) (.variant sts sl) [] [] sa da st =
      dfltAt E dts dl dl.dflt [] da st := by
    simp only [xcode, hnf, handlerMap, selectTerm_unknown hws.2 hv]
    simp [xAt_unit]
  rw [hx]
  obtain ⟨s, h1, h2, h3, h4, _⟩ := dres_run (t := .variant dts dl)
    (dfltAt_tri E dts dts dl dl.dflt [] da st w hwt.1 hno.2 hwt.2 (fun _ h => h) hno.1
      (by simpa [dfltVal] using hw))
    (dfltAt_frame E dts dl dl.dflt [] da st hwt.1 hno.2 hno.1 hwt.2.tagIn (hwt.2.inside hno.1)) hda hp
  exact ⟨s, h1, h2, h3, h4⟩

theorem dfltTermVal_name {w : Val} : ∀ (ts : Terms) (i : Nat), dfltTermVal ts i = some w →
    ∃ t y, ts.toList[i]? = some t ∧ w = .variant t.name y
  | .nil, i, h => by simp [dfltTermVal] at h
  | .cons n g as t r, 0, h => by
    simp only [dfltTermVal] at h
    split at h
    · cases h; exact ⟨_, _, rfl, rfl⟩
    · cases h
  | .cons n g as t r, i + 1, h => by simpa [Terms.toList] using dfltTermVal_name r i h

/-- The default value of a variant is its default term. -/
theorem C10_default_name (dts : Terms) (dl : VarL) (w : Val)
    (hw : dfltVal (.variant dts dl) = some w) :
    ∃ t y, dts.toList[dl.dflt]? = some t ∧ w = .variant t.name y := by
  simp only [dfltVal] at hw
  exact dfltTermVal_name dts dl.dflt hw

namespace C10

/-- `{ u = 0, a = 1 }` with a one byte tag. -/
def en : Ty :=
  .variant (.cons ['u'] 0 [] .unit (.cons ['a'] 1 [] .unit .nil))
    { outline := false, dflt := 0, termOff := 1, termSize := 0, tagOff := 0, tagW := 1, size := 1,
      align := 1, termAlign := 1 }

/-- `{ d : struct {}, a : u8 }`, default `d`. -/
def recv : Ty :=
  .variant (.cons ['a'] 1 [] (.int 1 .unsigned 1) (.cons ['d'] 2 [] (.struct .nil 0 1) .nil))
    { outline := false, dflt := 1, termOff := 1, termSize := 1, tagOff := 0, tagW := 1, size := 2,
      align := 1, termAlign := 1 }

/-- `{ a : u8, b : u8 }`. -/
def send : Ty :=
  .variant (.cons ['a'] 1 [] (.int 1 .unsigned 1) (.cons ['b'] 2 [] (.int 1 .unsigned 1) .nil))
    { outline := false, dflt := 0, termOff := 1, termSize := 1, tagOff := 0, tagW := 1, size := 2,
      align := 1, termAlign := 1 }

theorem en_wf : WF en := by
  simp only [en, WF, WFTerms, Terms.toList]
  refine ⟨by simp, ?_⟩
  constructor <;> simp [Ty.size, Disj]

theorem recv_wf : WF recv := by
  simp only [recv, WF, WFTerms, WFFields, Terms.toList]
  refine ⟨⟨by simp, ⟨trivial, ?_⟩, trivial⟩, ?_⟩
  · constructor <;> simp [Fields.toList]
  · constructor <;> simp [Ty.size, Disj]

theorem send_wf : WF send := by
  simp only [send, WF, WFTerms, Terms.toList]
  refine ⟨by simp, ?_⟩
  constructor <;> simp [Ty.size, Disj]

end C10

/-- Violation 1: an enum sent with identical schemas and an unknown stored tag 9.  The raw tag is
copied; the receiver's object holds no valid term at all. -/
theorem C10_violated_enum :
    ∃ (E : Env) (t : Ty) (st s : St), WF t ∧ readVal E.S t 10 = none ∧
      xcode E t t [] [] 10 20 st = .ok s ∧ readVal s.mem t 20 = none := by
  refine ⟨⟨fun _ => 9, fun _ => 0, fun _ _ b => b⟩, C10.en, ⟨fun _ => 0, 100, none, 0, 0⟩,
    St.store ⟨fun _ => 0, 100, none, 0, 0⟩ 20 1 9, C10.en_wf, rfl, ?_, rfl⟩
  simp [C10.en, xcode, enumFast, Terms.isEnum, Terms.toList, Ty.size, xEnum, enumTy, copyTag, exactMatch,
    EnumTy.tagOf, readN, readBytes, ofLE]

/-- Violation 2: an unknown term `b : u8` sent to a receiver whose default term is a struct.  The
generated code calls a null function. -/
theorem C10_violated_kind :
    ∃ (E : Env) (d t : Ty) (st : St), WF d ∧ WF t ∧
      readVal E.S t 10 = some (.variant ['b'] (.int 2)) ∧ xcode E d t [] [] 10 20 st = .ub :=
  ⟨⟨fun _ => 2, fun _ => 0, fun _ _ b => b⟩, C10.recv, C10.send, ⟨fun _ => 0, 100, none, 0, 0⟩,
    C10.recv_wf, C10.send_wf, rfl, by
      simp [C10.recv, C10.send, xcode, enumFast, Terms.isEnum, Terms.toList, Ty.size, handlerMap, selectTerm,
        matchTag, matchCaseVals, matchBlocks, sortBy, insertBy, toSigned, switchOn, readN, readBytes, ofLE, Terms.hasName,
        xAt, termCond, beginTerm, storeTag, Res.bind]⟩

open Sample in
/-- `q` has the tag 2 on one side and 7 on the other; `p` is unknown to the receiver, which sees
`r`; the stored tag 77 is unknown to the sender's schema. -/
example : conv env0.fconv wireV (.variant (nm "q") (.int 300)) = some (.variant (nm "q") (.int 300)) ∧
    conv env0.fconv wireV (.variant (nm "p") (.int 5)) = some (.variant (nm "r") .unit) ∧
    (∃ s, xcode { env0 with S := fun _ => 77 } wireV hostV [] [] 0 20 ⟨fun _ => 0, 100, none, 0, 0⟩ =
      .ok s ∧ readVal s.mem wireV 20 = some (.variant (nm "r") .unit)) := by
  refine ⟨rfl, rfl, ?_⟩
  obtain ⟨s, h1, h2, _⟩ := C10_raw_tag_partial { env0 with S := fun _ => 77 } _ _ _ _ 0 20
    ⟨fun _ => 0, 100, none, 0, 0⟩ (.variant (nm "r") .unit) wireV_wf hostV_wf rfl
    (by simp [Ty.noOut, Terms.noOut, i64w]) (by simp only [Terms.toList]; decide) rfl (by decide) (by decide)
  exact ⟨s, h1, h2⟩

open Sample in
example : ∃ s, xcode env0 wireV hostV [] [] 1024 20
      ⟨fun _ => 0, 100, none, 0, 0⟩ = .ok s ∧
    readVal s.mem wireV 20 = some (.variant (nm "q") (.int 300)) := by
  have hv : readVal env0.S hostV 1024 = some (.variant (nm "q") (.int 300)) := rfl
  have hc : Compat wireV hostV := by
    simp [wireV, hostV, Compat, enumFast, Terms.isEnum, Terms.toList, Ty.size, nm, i32, u8, i64w,
      Terms.hasName, CompatNamed, CompatAt]
  obtain ⟨s, hs⟩ := xcode_raw env0 wireV hostV [] 1024 20
    ⟨fun _ => 0, 100, none, 0, 0⟩ _ (.variant (nm "q") (.int 300)) wireV_wf hostV_wf hc
    (by simp [OutAt, wireV, Terms.noOut, Ty.noOut, i64w]) (HsOK_nil _) hv rfl rfl (by decide)
  have hfin' : fin wireV (.variant (nm "q") (.int 300)) 100 < W64 := by
    rw [show fin wireV (.variant (nm "q") (.int 300)) 100 = 100 from rfl]; decide
  obtain ⟨t, ht, hn, y, hy, hz⟩ := C10_known_partial env0 _ _
    hostV [] 1024 20 ⟨fun _ => 0, 100, none, 0, 0⟩ s (nm "q") (.int 300) (.variant (nm "q") (.int 300))
    wireV_wf hostV_wf hc (by simp [OutAt, Terms.noOut, Ty.noOut, i64w]) (HsOK_nil _) hv rfl
    hfin' (by decide)
    (by right; right; left; decide) hs
    ⟨⟨nm "q", 7, [], i64w⟩, by simp [Terms.toList], rfl⟩
  refine ⟨s, hs, ?_⟩
  simp only [Terms.toList, List.mem_cons, List.not_mem_nil, or_false] at ht
  rcases ht with rfl | rfl
  · have hy' : conv env0.fconv i64w (.int 300) = some (.int 300) := rfl
    rw [hy'] at hy; cases hy; exact hz
  · exact absurd hn (by decide)

end PJ
