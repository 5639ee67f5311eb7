import Verif.Spec.Samples
/-!
# C39: results do not depend on previous memory contents

`_partial`: types outside the known defects (`Compat`).
-/
namespace PJ

/-- Two runs of the same transcode function on sources with the same value, possibly with other padding
bytes or at other addresses, with any prior content of destination and buffer and any content of
poisoned bytes: both results have the same value. -/
theorem C39_transcode_partial (E E' : Env) (hF : E.fconv = E'.fconv) (t src src' : Ty) (hs : Handlers)
    (sa sa' da da' : Nat) (st st' s s' : St) (v w : Val) (hwt : WF t) (hws : WF src) (hws' : WF src')
    (hc : Compat t src) (hc' : Compat t src') (ho : OutAt t da st.ptr) (ho' : OutAt t da' st'.ptr)
    (hh : HsOK t hs) (hv : readVal E.S src sa = some v) (hv' : readVal E'.S src' sa' = some v)
    (hw : conv E.fconv t v = some w) (hq : fin t v st.ptr < W64) (hq' : fin t v st'.ptr < W64)
    (hda : da + t.size < W64) (hda' : da' + t.size < W64)
    (hd : Disj da t.size st.ptr (fin t v st.ptr - st.ptr))
    (hd' : Disj da' t.size st'.ptr (fin t v st'.ptr - st'.ptr))
    (hr : xcode E t src [] hs sa da st = .ok s) (hr' : xcode E' t src' [] hs sa' da' st' = .ok s') :
    ∃ x, readVal s.mem t da = some x ∧ readVal s'.mem t da' = some x :=
  ⟨w, (xcode_ran E t src hs sa da st s v w hwt hws hc ho hh hv hw hq hda hd hr).val,
    (xcode_ran E' t src' hs sa' da' st' s' v w hwt hws' hc' ho' hh hv' (hF ▸ hw) hq' hda' hd' hr').val⟩

/-- For decode: destination objects and buffers with different prior content. -/
theorem C39_decode_partial (E E' : Env) (hF : E.fconv = E'.fconv) (hS : E.S = E'.S) (p : Proto)
    (host : Ty) (hs : Handlers) (msg obj buf cap : Nat) (mem mem' : Mem) (v w : Val) (d d' : Decoded)
    (hp : WF p.head) (hh : WF host) (hn : host.noOut) (hc : Compat host p.head) (hhs : HsOK host hs)
    (hv : readVal E.S p.head msg = some v) (hw : conv E.fconv host v = some w) (hcap : cap < 2 ^ 63)
    (hfit : fin host v buf ≤ buf + cap) (hb : buf + cap < W64) (ho : obj + host.size < W64)
    (hd : Disj obj host.size buf cap)
    (hr : decode E p host hs msg obj buf cap mem = some d)
    (hr' : decode E' p host hs msg obj buf cap mem' = some d') :
    ∃ x, readVal d.mem host obj = some x ∧ readVal d'.mem host obj = some x := by
  have key : ∀ (E : Env) (mem : Mem) (d : Decoded), readVal E.S p.head msg = some v →
      conv E.fconv host v = some w →
      decode E p host hs msg obj buf cap mem = some d → readVal d.mem host obj = some w := by
    intro E mem d hv hw hr
    have hbd := xcode_bounded E host p.head hs msg obj
      { mem := mem, ptr := buf, rem := some cap, cb := 0, used := 0 } v w cap hh hp hc
      (noOut_outAt _ _ _ hn) hhs hv hw rfl hcap (by simp only; omega) (by simp only; omega)
    simp only at hbd
    rcases hbd with ⟨hle, s, hs', hrem⟩ | ⟨hlt, s, hs'⟩
    · have hge := fin_ge host v buf hh
      have hran := xcode_ran E host p.head hs msg obj
        { mem := mem, ptr := buf, rem := some cap, cb := 0, used := 0 } s v w hh hp hc
        (noOut_outAt _ _ _ hn) hhs hv hw (by simp only; omega) ho
        (by simp only; unfold Disj at *; omega) hs'
      unfold decode at hr
      rw [hs'] at hr
      cases hr
      exact hran.val
    · omega
  exact ⟨w, key E mem d hv hw hr, key E' mem' d' (hS ▸ hv) (hF ▸ hw) hr'⟩

open Sample in
/-- Two encodings of `val0` into differently filled memories with different poison. -/
example : ∃ s s' x,
    xcode env0 wireS hostS [] [] 1000 5000 ⟨fun _ => 1, 5034, none, 0, 0⟩ = .ok s ∧
    xcode { env0 with J := fun _ => 3 } wireS hostS [] [] 1000 5000 ⟨fun _ => 2, 5034, none, 0, 0⟩ =
      .ok s' ∧
    readVal s.mem wireS 5000 = some x ∧ readVal s'.mem wireS 5000 = some x := by
  have hfin : fin wireS val0 5034 = 5037 := rfl
  obtain ⟨s, hs⟩ := xcode_raw env0 wireS hostS [] 1000 5000 ⟨fun _ => 1, 5034, none, 0, 0⟩ val0 wval0
    wireS_wf hostS_wf wire_host_compat (noOut_outAt _ _ _ wireS_noOut) (HsOK_nil _) read0 conv0 rfl
    (by decide)
  obtain ⟨s', hs'⟩ := xcode_raw { env0 with J := fun _ => 3 } wireS hostS [] 1000 5000
    ⟨fun _ => 2, 5034, none, 0, 0⟩ val0 wval0 wireS_wf hostS_wf wire_host_compat
    (noOut_outAt _ _ _ wireS_noOut) (HsOK_nil _) read0 conv0 rfl (by decide)
  obtain ⟨x, h1, h2⟩ := C39_transcode_partial env0 { env0 with J := fun _ => 3 } rfl wireS hostS hostS []
    1000 1000 5000 5000 ⟨fun _ => 1, 5034, none, 0, 0⟩ ⟨fun _ => 2, 5034, none, 0, 0⟩ s s' val0 wval0
    wireS_wf hostS_wf hostS_wf wire_host_compat wire_host_compat (noOut_outAt _ _ _ wireS_noOut)
    (noOut_outAt _ _ _ wireS_noOut) (HsOK_nil _) read0 read0 conv0 (by simp only [hfin]; decide)
    (by simp only [hfin]; decide) (by decide) (by decide)
    (by simp only [hfin]; right; right; left; decide) (by simp only [hfin]; right; right; left; decide)
    hs hs'
  exact ⟨s, s', x, hs, hs', h1, h2⟩

end PJ
