import Verif.Spec.Samples
/-!
# C02: messages are position independent and self contained

`_partial`: stated for pairs of types outside the known defects (`Compat`, `Spec/Layout.lean`) whose
kinds fit together (`conv` is defined); for the others encode itself writes wrong bytes or is not
defined.
-/
namespace PJ

/-- The message written by encode at `buf` has the value of the object, and so has every copy of its
`s.ptr - buf` bytes at any address, whatever the rest of the memory holds. -/
theorem C02_copies_partial (E : Env) (host : Ty) (p : Proto) (obj buf : Nat) (mem : Mem) (s : St)
    (v w : Val) (hp : p.OK) (hh : WF host) (hc : Compat p.head host)
    (hv : readVal E.S host obj = some v) (hw : conv E.fconv p.head v = some w)
    (hq : fin p.head v (buf + p.head.size + p.bufOff) < W64)
    (hr : encode E host p [] obj buf mem = .ok s) :
    readVal s.mem p.head buf = some w ∧
    ∀ (m2 : Mem) (buf2 : Nat), buf2 + (s.ptr - buf) < W64 →
      (∀ i, i < s.ptr - buf → m2 (buf2 + i) = s.mem (buf + i)) → readVal m2 p.head buf2 = some w := by
  have hge := fin_ge p.head v (buf + p.head.size + p.bufOff) hp.wf
  have := xcode_ran E p.head host [] obj buf
    { mem := mem, ptr := buf + p.head.size + p.bufOff, rem := none, cb := 0, used := 0 } s v w hp.wf hh
    hc (hp.out buf) (HsOK_nil _) hv hw hq (by omega) (by unfold Disj; simp only; omega) hr
  refine ⟨this.val, fun m2 buf2 h1 h2 => ?_⟩
  have hptr := this.ptr
  simp only at hptr
  have := this.move hp.reloc buf s.ptr m2 buf2 (Nat.le_refl _) (by simp only; omega) (by omega)
    (by simp only; omega) (by omega) h1 h2
  simpa using this

/-- Decoding a copy anywhere gives the value that decoding the original gives: with enough buffer
both succeed and both destination objects hold the conversion of the message's value. -/
theorem C02_decode_copy_partial (E : Env) (host : Ty) (p : Proto) (obj buf : Nat) (mem : Mem) (s : St)
    (v w : Val) (hp : p.OK) (hh : WF host) (hc : Compat p.head host)
    (hv : readVal E.S host obj = some v) (hw : conv E.fconv p.head v = some w)
    (hq : fin p.head v (buf + p.head.size + p.bufOff) < W64)
    (hr : encode E host p [] obj buf mem = .ok s)
    (recv : Ty) (hrw : WF recv) (hrn : recv.noOut) (hrc : Compat recv p.head) (x : Val)
    (hx : conv E.fconv recv w = some x) (m2 : Mem) (buf2 : Nat) (hb2 : buf2 + (s.ptr - buf) < W64)
    (hm2 : ∀ i, i < s.ptr - buf → m2 (buf2 + i) = s.mem (buf + i)) (mem3 : Mem) (dst dbuf cap : Nat)
    (hd : dst + recv.size < W64) (hcap : cap < 2 ^ 63) (hdis : Disj dst recv.size dbuf cap)
    (hfit : fin recv w dbuf ≤ dbuf + cap) (hdb : dbuf + cap < W64) :
    ∃ d, decode { E with S := m2 } p recv [] buf2 dst dbuf cap mem3 = some d ∧
      d.size ≤ cap ∧ readVal d.mem recv dst = some x := by
  obtain ⟨_, hcopy⟩ := C02_copies_partial E host p obj buf mem s v w hp hh hc hv hw hq hr
  have hm := hcopy m2 buf2 hb2 hm2
  have hge := fin_ge recv w dbuf hrw
  have hb := xcode_bounded { E with S := m2 } recv p.head [] buf2 dst
    { mem := mem3, ptr := dbuf, rem := some cap, cb := 0, used := 0 } w x cap hrw hp.wf hrc
    (noOut_outAt _ _ _ hrn) (HsOK_nil _) hm hx rfl hcap (by simp only; omega) (by simp only; omega)
  simp only at hb
  rcases hb with ⟨_, s', hs', hrem⟩ | ⟨hlt, _⟩
  · have hran := xcode_ran { E with S := m2 } recv p.head [] buf2 dst
      { mem := mem3, ptr := dbuf, rem := some cap, cb := 0, used := 0 } s' w x hrw hp.wf hrc
      (noOut_outAt _ _ _ hrn) (HsOK_nil _) hm hx (by simp only; omega) hd
      (by simp only; unfold Disj at *; omega) hs'
    refine ⟨_, by unfold decode; rw [hs'], ?_, hran.val⟩
    simp only [hrem, Option.getD_some]; omega
  · omega

open Sample in
example : ∃ s, encode env0 hostS proto0 [] 1000 5000 (fun _ => 0) = .ok s ∧
    readVal s.mem wireS 5000 = some wval0 ∧ s.ptr = 5037 ∧
    ∀ m2 : Mem, (∀ i, i < 37 → m2 (77 + i) = s.mem (5000 + i)) → readVal m2 wireS 77 = some wval0 := by
  have hfin : fin wireS val0 5034 = 5037 := rfl
  obtain ⟨s, hs⟩ := xcode_raw env0 wireS hostS [] 1000 5000
    { mem := fun _ => 0, ptr := 5034, rem := none, cb := 0, used := 0 } val0 wval0 wireS_wf hostS_wf
    wire_host_compat (noOut_outAt _ _ _ wireS_noOut) (HsOK_nil _) read0 conv0 rfl (by decide)
  have hran := xcode_ran env0 wireS hostS [] 1000 5000
    { mem := fun _ => 0, ptr := 5034, rem := none, cb := 0, used := 0 } s val0 wval0 wireS_wf hostS_wf
    wire_host_compat (noOut_outAt _ _ _ wireS_noOut) (HsOK_nil _) read0 conv0
    (by simp only [hfin]; decide) (by decide) (by simp only [hfin]; right; right; left; decide) hs
  have hptr : s.ptr = 5037 := hran.ptr
  obtain ⟨h1, h2⟩ := C02_copies_partial env0 hostS proto0 1000 5000 (fun _ => 0) s val0 wval0 proto0_ok
    hostS_wf wire_host_compat read0 conv0 (by show fin wireS val0 5034 < W64; rw [hfin]; decide) hs
  refine ⟨s, hs, h1, hptr, fun m2 hm => h2 m2 77 (by rw [hptr]; decide) ?_⟩
  rw [hptr]; exact hm

end PJ
