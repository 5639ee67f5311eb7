import Verif.Spec.Samples
/-!
# C06: decode succeeds exactly when the buffer is large enough

`fin host v buf` (`Spec/Cursor.lean`) is the first free address when the out-of-line data of the
decoded value, with alignment padding, is placed from `buf` on.

`_partial`: pairs of types outside the known defects (`Compat`); buffers below 2^63 bytes (the bounds
check is signed, see C05).
-/
namespace PJ

/-- Decode of a well-formed message returns the rest of the buffer if the out-of-line data fits, and
a buffer of size -1 if it does not. -/
theorem C06_decode_buffer_partial (E : Env) (p : Proto) (host : Ty) (hs : Handlers)
    (msg obj buf cap : Nat) (mem : Mem) (v w : Val) (hp : WF p.head) (hh : WF host) (hn : host.noOut)
    (hc : Compat host p.head) (hhs : HsOK host hs) (hv : readVal E.S p.head msg = some v)
    (hw : conv E.fconv host v = some w) (hcap : cap < 2 ^ 63) (hq : fin host v buf < W64)
    (hq' : fin host v buf ≤ buf + 2 ^ 63) :
    ∃ d, decode E p host hs msg obj buf cap mem = some d ∧
      (fin host v buf ≤ buf + cap → d.ptr = fin host v buf ∧ d.size = buf + cap - fin host v buf) ∧
      (buf + cap < fin host v buf → d.size = 2 ^ 64 - 1) := by
  have hge := fin_ge host v buf hh
  have hb := xcode_bounded E host p.head hs msg obj
    { mem := mem, ptr := buf, rem := some cap, cb := 0, used := 0 } v w cap hh hp hc
    (noOut_outAt _ _ _ hn) hhs hv hw rfl hcap hq hq'
  simp only at hb
  rcases hb with ⟨hle, s, hs', hrem⟩ | ⟨hlt, s, hs'⟩
  · refine ⟨_, by unfold decode; rw [hs'], fun _ => ⟨?_, ?_⟩, fun h => by omega⟩
    · have hcur := xcode_cur E host p.head hs msg obj
        { mem := mem, ptr := buf, rem := some cap, cb := 0, used := 0 } v hh hp hc
        (noOut_outAt _ _ _ hn) hv hge hq
      rw [hs'] at hcur
      exact hcur.1
    · simp only [hrem, Option.getD_some]; omega
  · exact ⟨_, by unfold decode; rw [hs'], fun h => by omega, fun _ => rfl⟩

/-- Whether decode fails is visible in the returned size alone: it is -1 exactly when the data does
not fit. -/
theorem C06_failure_iff_partial (E : Env) (p : Proto) (host : Ty) (hs : Handlers)
    (msg obj buf cap : Nat) (mem : Mem) (v w : Val) (hp : WF p.head) (hh : WF host) (hn : host.noOut)
    (hc : Compat host p.head) (hhs : HsOK host hs) (hv : readVal E.S p.head msg = some v)
    (hw : conv E.fconv host v = some w) (hcap : cap < 2 ^ 63) (hq : fin host v buf < W64)
    (hq' : fin host v buf ≤ buf + 2 ^ 63) (d : Decoded)
    (hd : decode E p host hs msg obj buf cap mem = some d) :
    d.size = 2 ^ 64 - 1 ↔ buf + cap < fin host v buf := by
  obtain ⟨d', hd', h1, h2⟩ := C06_decode_buffer_partial E p host hs msg obj buf cap mem v w hp hh hn hc
    hhs hv hw hcap hq hq'
  rw [hd] at hd'; cases hd'
  refine ⟨fun h => ?_, h2⟩
  by_cases hf : fin host v buf ≤ buf + cap
  · have := (h1 hf).2
    have := fin_ge host v buf hh
    omega
  · omega

open Sample in
/-- The message of C02's example needs 3 bytes of buffer: with 3 bytes decode succeeds with nothing
left, with 2 it fails. -/
example (m : Mem) (hm : readVal m wireS 77 = some wval0) (mem : Mem) (x : Val)
    (hx : conv env0.fconv hostS wval0 = some x) :
    (∃ d, decode { env0 with S := m } proto0 hostS [] 77 9000 8000 3 mem = some d ∧ d.ptr = 8003 ∧
      d.size = 0) ∧
    (∃ d, decode { env0 with S := m } proto0 hostS [] 77 9000 8000 2 mem = some d ∧
      d.size = 2 ^ 64 - 1) := by
  have hfin : fin hostS wval0 8000 = 8003 := rfl
  constructor
  · obtain ⟨d, h1, h2, _⟩ := C06_decode_buffer_partial { env0 with S := m } proto0 hostS [] 77 9000 8000
      3 mem wval0 x wireS_wf hostS_wf hostS_noOut host_wire_compat (HsOK_nil _) hm hx (by decide)
      (by rw [hfin]; decide) (by rw [hfin]; decide)
    rw [hfin] at h2
    exact ⟨d, h1, (h2 (by decide)).1, (h2 (by decide)).2⟩
  · obtain ⟨d, h1, _, h3⟩ := C06_decode_buffer_partial { env0 with S := m } proto0 hostS [] 77 9000 8000
      2 mem wval0 x wireS_wf hostS_wf hostS_noOut host_wire_compat (HsOK_nil _) hm hx (by decide)
      (by rw [hfin]; decide) (by rw [hfin]; decide)
    rw [hfin] at h3
    exact ⟨d, h1, h3 (by decide)⟩

end PJ
