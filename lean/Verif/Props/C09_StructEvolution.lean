import Verif.Spec.Samples
/-!
# C09: struct evolution

`_partial`: types outside the known defects (`Compat`), all fields convertible (`conv` defined).
-/
namespace PJ

theorem find_mem {c : Comp} {o : Nat} {t : Ty} : ∀ {fs : Fields}, (fs.toList.map (·.1)).Nodup →
    (c, o, t) ∈ fs.toList → fs.find c = some (o, t)
  | .nil, _, h => by simp [Fields.toList] at h
  | .cons n o' t' r, hn, h => by
    simp only [Fields.toList, List.map_cons, List.nodup_cons] at hn
    simp only [Fields.toList, List.mem_cons, Prod.mk.injEq] at h
    simp only [Fields.find]
    rcases h with ⟨rfl, rfl, rfl⟩ | h
    · simp
    · rw [if_neg, find_mem hn.2 h]
      intro hc
      subst hc
      exact hn.1 (List.mem_map.2 ⟨_, h, rfl⟩)

theorem convFields_find {F : Nat → Nat → Nat → Nat} {vs : List (Comp × Val)} {c : Comp} {o : Nat}
    {t : Ty} : ∀ {fs : Fields} {ws : List (Comp × Val)}, convFields F fs vs = some ws →
    fs.find c = some (o, t) →
    ws.lookup c = (match vs.lookup c with | some x => conv F t x | none => dfltVal t)
  | .nil, _, _, h => by simp [Fields.find] at h
  | .cons n o' t' r, ws, hw, h => by
    rw [convFields] at hw
    split at hw
    · rename_i w ws' hw1 hw2
      cases hw
      simp only [Fields.find] at h
      by_cases hn : n = c
      · subst hn
        simp only [if_true, Option.some.injEq, Prod.mk.injEq] at h
        obtain ⟨rfl, rfl⟩ := h
        rw [List.lookup_cons]; simp only [beq_self_eq_true, ← hw1]; cases vs.lookup n <;> rfl
      · rw [if_neg hn] at h
        rw [List.lookup_cons]; simp [show (c == n) = false by simpa using fun h => hn h.symm]
        exact convFields_find hw2 h
    · cases hw

theorem convFields_congr {F : Nat → Nat → Nat → Nat} {vs vs' : List (Comp × Val)} :
    ∀ {fs : Fields}, (∀ x ∈ fs.toList, vs.lookup x.1 = vs'.lookup x.1) →
    convFields F fs vs = convFields F fs vs'
  | .nil, _ => rfl
  | .cons n o t r, h => by
    have h1 := h (n, o, t) (by simp [Fields.toList])
    simp only at h1
    rw [convFields, convFields, h1, convFields_congr (fs := r) fun x hx => h x (by simp [Fields.toList, hx])]

/-- After a successful transcode of a struct, whatever the order and offsets of the fields on both
sides: every receiver field which the sender has too (by name) holds the converted sender value, every
other receiver field holds its default. -/
theorem C09_fields_partial (E : Env) (dfs sfs : Fields) (dsz dal ssz sal : Nat) (hs : Handlers)
    (sa da : Nat) (st s : St) (vs : List (Comp × Val)) (w : Val)
    (hwt : WF (.struct dfs dsz dal)) (hws : WF (.struct sfs ssz sal))
    (hc : Compat (.struct dfs dsz dal) (.struct sfs ssz sal))
    (ho : OutAt (.struct dfs dsz dal) da st.ptr) (hh : HsOK (.struct dfs dsz dal) hs)
    (hv : readVal E.S (.struct sfs ssz sal) sa = some (.struct vs))
    (hw : conv E.fconv (.struct dfs dsz dal) (.struct vs) = some w)
    (hq : fin (.struct dfs dsz dal) (.struct vs) st.ptr < W64) (hda : da + dsz < W64)
    (hd : Disj da dsz st.ptr (fin (.struct dfs dsz dal) (.struct vs) st.ptr - st.ptr))
    (hr : xcode E (.struct dfs dsz dal) (.struct sfs ssz sal) [] hs sa da st = .ok s)
    (c : Comp) (o : Nat) (t : Ty) (hf : (c, o, t) ∈ dfs.toList) :
    (∀ so sty, (c, so, sty) ∈ sfs.toList →
      ∃ x y, readVal E.S sty (sa + so) = some x ∧ conv E.fconv t x = some y ∧
        readVal s.mem t (da + o) = some y) ∧
    ((∀ so sty, (c, so, sty) ∉ sfs.toList) →
      ∃ y, dfltVal t = some y ∧ readVal s.mem t (da + o) = some y) := by
  have hran := (xcode_ran E _ _ hs sa da st s _ w hwt hws hc ho hh hv hw hq hda hd hr).val
  simp only [WF] at hwt hws
  have hfind := find_mem hwt.2.names hf
  simp only [conv] at hw
  split at hw
  · rename_i ws hws'
    cases hw
    simp only [readVal] at hran hv
    split at hran
    · rename_i ws2 hrf
      cases hran
      have h1 := readFields_find dfs ws c hrf
      rw [hfind] at h1
      obtain ⟨y, hy1, hy2⟩ := h1
      have h2 := convFields_find hws' hfind
      rw [hy1] at h2
      split at hv
      · rename_i vs2 hrs
        cases hv
        have h3 := readFields_find sfs vs c hrs
        constructor
        · intro so sty hsf
          rw [find_mem hws.2.names hsf] at h3
          obtain ⟨x, hx1, hx2⟩ := h3
          rw [hx1] at h2
          exact ⟨x, y, hx2, h2.symm, hy2⟩
        · intro hno
          have : sfs.find c = none := by
            cases hfs : sfs.find c with
            | none => rfl
            | some x =>
              exfalso
              refine hno x.1 x.2 ?_
              clear h3 hno hrs hws hc hr hd hq hws'
              induction sfs using Fields.rec (motive_1 := fun _ => True) (motive_3 := fun _ => True)
              case cons n' o' t' r' _ ih =>
                simp only [Fields.find] at hfs
                by_cases hn' : n' = c
                · rw [if_pos hn'] at hfs; cases hfs; simp [Fields.toList, hn']
                · rw [if_neg hn'] at hfs
                  simp only [Fields.toList, List.mem_cons]
                  exact Or.inr (ih hfs)
              case nil => simp [Fields.find] at hfs
              all_goals trivial
          rw [this] at h3
          rw [h3] at h2
          exact ⟨y, h2.symm, hy2⟩
      · cases hv
    · cases hran
  · cases hw

/-- Sender-only fields have no effect: two senders, of possibly different struct types, whose objects
agree on the fields the receiver has give the receiver the same value. -/
theorem C09_sender_only_partial (E E' : Env) (hF : E.fconv = E'.fconv) (dfs : Fields) (dsz dal : Nat)
    (src src' : Ty) (hs : Handlers) (sa sa' da : Nat) (st st' s s' : St) (vs vs' : List (Comp × Val))
    (w : Val) (hwt : WF (.struct dfs dsz dal)) (hws : WF src) (hws' : WF src')
    (hc : Compat (.struct dfs dsz dal) src) (hc' : Compat (.struct dfs dsz dal) src')
    (ho : OutAt (.struct dfs dsz dal) da st.ptr) (ho' : OutAt (.struct dfs dsz dal) da st'.ptr)
    (hh : HsOK (.struct dfs dsz dal) hs)
    (hv : readVal E.S src sa = some (.struct vs)) (hv' : readVal E'.S src' sa' = some (.struct vs'))
    (hag : ∀ c o t, (c, o, t) ∈ dfs.toList → vs.lookup c = vs'.lookup c)
    (hw : conv E.fconv (.struct dfs dsz dal) (.struct vs) = some w)
    (hq : fin (.struct dfs dsz dal) (.struct vs) st.ptr < W64)
    (hq' : fin (.struct dfs dsz dal) (.struct vs') st'.ptr < W64) (hda : da + dsz < W64)
    (hd : Disj da dsz st.ptr (fin (.struct dfs dsz dal) (.struct vs) st.ptr - st.ptr))
    (hd' : Disj da dsz st'.ptr (fin (.struct dfs dsz dal) (.struct vs') st'.ptr - st'.ptr))
    (hr : xcode E (.struct dfs dsz dal) src [] hs sa da st = .ok s)
    (hr' : xcode E' (.struct dfs dsz dal) src' [] hs sa' da st' = .ok s') :
    readVal s.mem (.struct dfs dsz dal) da = readVal s'.mem (.struct dfs dsz dal) da := by
  have hw' : conv E'.fconv (.struct dfs dsz dal) (.struct vs') = some w := by
    rw [← hF, ← hw]
    simp only [conv]
    rw [convFields_congr fun x hx => hag x.1 x.2.1 x.2.2 hx]
  rw [(xcode_ran E _ _ hs sa da st s _ w hwt hws hc ho hh hv hw hq hda hd hr).val,
    (xcode_ran E' _ _ hs sa' da st' s' _ w hwt hws' hc' ho' hh hv' hw' hq' hda hd' hr').val]

open Sample in
/-- `{ x, ys, v, gone }` sent to `{ v, ys, fresh, x }`: `x` arrives widened, `fresh` is 0. -/
example : ∃ s, xcode env0 wireS hostS [] [] 1000 5000
      { mem := fun _ => 1, ptr := 5034, rem := none, cb := 0, used := 0 } = .ok s ∧
    readVal s.mem i64w 5026 = some (.int (-2)) ∧ readVal s.mem u8 5025 = some (.int 0) := by
  have hfin : fin wireS val0 5034 = 5037 := rfl
  obtain ⟨s, hs⟩ := xcode_raw env0 wireS hostS [] 1000 5000
    { mem := fun _ => 1, ptr := 5034, rem := none, cb := 0, used := 0 } val0 wval0 wireS_wf hostS_wf
    wire_host_compat (noOut_outAt _ _ _ wireS_noOut) (HsOK_nil _) read0 conv0 rfl (by decide)
  have h := fun c o t => C09_fields_partial env0 _ _ _ _ _ _ [] 1000 5000
    { mem := fun _ => 1, ptr := 5034, rem := none, cb := 0, used := 0 } s _ wval0 wireS_wf hostS_wf
    wire_host_compat (noOut_outAt _ _ _ wireS_noOut) (HsOK_nil _) read0 conv0
    (by show fin wireS val0 5034 < W64; rw [hfin]; decide) (by decide)
    (by show Disj 5000 34 5034 (fin wireS val0 5034 - 5034); rw [hfin]; right; right; left; decide) hs c o t
  refine ⟨s, hs, ?_, ?_⟩
  · obtain ⟨x, y, hx, hy, hz⟩ := (h (nm "x") 26 i64w (by simp [Fields.toList])).1 0 i32
      (by simp [Fields.toList])
    have : x = .int (-2) := by
      have hx' : readVal env0.S i32 (1000 + 0) = some (.int (-2)) := rfl
      rw [hx'] at hx; cases hx; rfl
    subst this
    have hy' : conv env0.fconv i64w (.int (-2)) = some (.int (-2)) := rfl
    rw [hy'] at hy; cases hy; exact hz
  · obtain ⟨y, hy, hz⟩ := (h (nm "fresh") 25 u8 (by simp [Fields.toList])).2
      (by intro so sty; simp [Fields.toList, nm])
    cases hy; exact hz

end PJ
