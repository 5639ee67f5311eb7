import Verif.Spec.Samples
/-!
# C13, C14: arrays and vectors

`_partial`: types outside the known defects (`Compat`): a receiver whose maximum is below the sender's
partial payload length is overrun (`C14_violated`), and the element types have to be outside the
known defects.
-/
namespace PJ

/-- An array of `n` elements sent to a receiver with `m`: the first `min n m` elements arrive in
order, the others hold the element default. -/
theorem C13_array_partial (E : Env) (de : Ty) (m desz dal : Nat) (src : Ty) (hs : Handlers)
    (sa da : Nat) (st s : St) (xs : List Val) (w : Val)
    (hwt : WF (.array de m desz dal)) (hws : WF src) (hc : Compat (.array de m desz dal) src)
    (ho : OutAt (.array de m desz dal) da st.ptr)
    (hv : readVal E.S src sa = some (.arr xs))
    (hw : conv E.fconv (.array de m desz dal) (.arr xs) = some w)
    (hq : fin (.array de m desz dal) (.arr xs) st.ptr < W64) (hda : da + m * desz < W64)
    (hd : Disj da (m * desz) st.ptr (fin (.array de m desz dal) (.arr xs) st.ptr - st.ptr))
    (hr : xcode E (.array de m desz dal) src [] hs sa da st = .ok s) :
    ∀ i, i < m →
      (∀ x, xs[i]? = some x → ∃ y, conv E.fconv de x = some y ∧
        readVal s.mem de (da + i * desz) = some y) ∧
      (xs.length ≤ i → ∃ y, dfltVal de = some y ∧ readVal s.mem de (da + i * desz) = some y) := by
  have hran := (xcode_ran E _ _ hs sa da st s _ w hwt hws hc ho (by simp [HsOK]) hv hw hq hda hd hr).val
  simp only [conv] at hw
  split at hw
  · cases hw
  · rename_i ws hws'
    obtain ⟨hlen, hel⟩ := mapAll_some hws'
    simp only [readVal] at hran
    split at hran
    · rename_i vs hcol
      cases hran
      obtain ⟨_, hget⟩ := collect_some hcol
      intro i hi
      have hgi := hget i hi
      simp only [Nat.zero_add] at hgi
      rw [List.length_take] at hlen
      by_cases hlt : xs.length < m
      · rw [if_pos hlt] at hw
        split at hw
        · rename_i d hdv
          cases hw
          constructor
          · intro x hx
            have hil : i < xs.length := by
              rw [List.getElem?_eq_some_iff] at hx; obtain ⟨h, _⟩ := hx; exact h
            obtain ⟨y, hy1, hy2⟩ := hel i x (by rw [List.getElem?_take, if_pos (by omega)]; exact hx)
            refine ⟨y, hy2, ?_⟩
            rw [List.getElem?_append_left (by omega), hy1] at hgi
            exact hgi
          · intro hge
            refine ⟨d, hdv, ?_⟩
            rw [List.getElem?_append_right (by omega), List.getElem?_replicate, if_pos (by omega)] at hgi
            exact hgi
        · cases hw
      · rw [if_neg hlt] at hw
        cases hw
        constructor
        · intro x hx
          obtain ⟨y, hy1, hy2⟩ := hel i x (by rw [List.getElem?_take, if_pos (by omega)]; exact hx)
          exact ⟨y, hy2, by rw [hy1] at hgi; exact hgi⟩
        · intro hge; omega
    · cases hran

/-- A vector sent to a receiver: its stored length is the number of elements cut to the receiver's
maximum, and the elements are the converted first elements, for every combination of inline,
partially outlined and outlined representations. -/
theorem C14_vector_partial (E : Env) (de : Ty) (dl : VecL) (src : Ty) (hs : Handlers) (sa da : Nat)
    (st s : St) (xs : List Val) (w : Val)
    (hwt : WF (.vector de dl)) (hws : WF src) (hc : Compat (.vector de dl) src)
    (ho : OutAt (.vector de dl) da st.ptr)
    (hv : readVal E.S src sa = some (.vec xs))
    (hw : conv E.fconv (.vector de dl) (.vec xs) = some w)
    (hq : fin (.vector de dl) (.vec xs) st.ptr < W64) (hda : da + dl.size < W64)
    (hd : Disj da dl.size st.ptr (fin (.vector de dl) (.vec xs) st.ptr - st.ptr))
    (hr : xcode E (.vector de dl) src [] hs sa da st = .ok s) :
    ∃ n ys, lengthOp s.mem dl da = some n ∧ readVal s.mem (.vector de dl) da = some (.vec ys) ∧
      n = (match dl.maxLen with | some mx => min xs.length mx | none => xs.length) ∧ ys.length = n ∧
      ∀ i, i < n → ∃ x y, xs[i]? = some x ∧ ys[i]? = some y ∧ conv E.fconv de x = some y ∧
        readVal s.mem de (vecElemAddr s.mem dl da n i) = some y := by
  have hran := (xcode_ran E _ _ hs sa da st s _ w hwt hws hc ho (by simp [HsOK]) hv hw hq hda hd hr).val
  have hran0 := hran
  simp only [conv] at hw
  split at hw
  · rename_i ws hws'
    cases hw
    obtain ⟨hlen, hel⟩ := mapAll_some hws'
    simp only [readVal] at hran
    split at hran
    · cases hran
    · rename_i n hn
      split at hran
      · split at hran
        · rename_i vs hcol
          cases hran
          obtain ⟨hl2, hget⟩ := collect_some hcol
          have hcut : (cutTo dl.maxLen xs).length =
              (match dl.maxLen with | some mx => min xs.length mx | none => xs.length) := by
            unfold cutTo
            cases dl.maxLen with
            | none => rfl
            | some mx => simp only [List.length_take]; omega
          refine ⟨n, ws, hn, hran0, by rw [← hcut, ← hlen, hl2], hl2, ?_⟩
          intro i hi
          have hgi := hget i hi
          simp only [Nat.zero_add] at hgi
          have hic : i < (cutTo dl.maxLen xs).length := by omega
          have hx : xs[i]? = some ((cutTo dl.maxLen xs)[i]) := by
            rw [← cutTo_getElem? hic]
            exact List.getElem?_eq_getElem hic
          obtain ⟨y, hy1, hy2⟩ := hel i _ (List.getElem?_eq_getElem hic)
          exact ⟨_, y, hx, hy1, hy2, by rw [hgi, hy1]⟩
        · cases hran
      · cases hran
  · cases hw

namespace C14

/-- A wire vector as planned for `wire_min_length` 20 and no maximum: inline up to 20 elements; when
outlined the first 12 elements stay in the head. -/
def sl : VecL :=
  { minLen := 20, maxLen := none, wireMin := 20, ppl := 12, lenOff := 0, lenSize := 8, refOff := 8,
    refSize := 8, mode := .offset, inlOff := 8, parOff := 16, elemW := 1, size := 28, align := 1 }

/-- A receiver with at most 2 elements, all outlined. -/
def dl : VecL :=
  { minLen := 0, maxLen := some 2, wireMin := 0, ppl := 0, lenOff := 8, lenSize := 8, refOff := 0,
    refSize := 8, mode := .pointer, inlOff := 0, parOff := 16, elemW := 1, size := 16, align := 8 }

def u8 : Ty := .int 1 .unsigned 1

theorem sl_ok : VecLayout sl 1 1 := by constructor <;> simp [sl, Disj, VecL.canOut]
theorem dl_ok : VecLayout dl 1 1 := by constructor <;> simp [dl, Disj, VecL.canOut]

/-- A message at 0 with a vector of 21 elements, 9 of them out of line from address 100 on. -/
def S : Mem := fun a => if a = 0 then 21 else if a = 8 then 92 else if 8 ≤ a ∧ a < 16 then 0 else
  if 16 ≤ a ∧ a < 28 then 1 else if 100 ≤ a then 1 else 0

end C14

/-- Violation: an outlined sender vector with 12 elements in the head, received by a vector of at
most 2 elements.  The code allocates 2 bytes and copies 12 elements: the 3rd byte behind the
allocation is overwritten although decode reports success and hands this byte back as free. -/
theorem C14_violated : ∃ s, xcode ⟨C14.S, fun _ => 0, fun _ _ b => b⟩ (.vector C14.u8 C14.dl)
      (.vector C14.u8 C14.sl) [] [] 0 1000 ⟨fun _ => 0, 2000, some 2, 0, 0⟩ = .ok s ∧
    WF (.vector C14.u8 C14.dl) ∧ WF (.vector C14.u8 C14.sl) ∧
    s.ptr = 2002 ∧ s.rem = some 0 ∧ s.mem 2002 = 1 := by
  obtain ⟨s, hs, h⟩ := Res.sat_ok (r := xcode ⟨C14.S, fun _ => 0, fun _ _ b => b⟩
    (.vector C14.u8 C14.dl) (.vector C14.u8 C14.sl) [] [] 0 1000 ⟨fun _ => 0, 2000, some 2, 0, 0⟩)
    (f := fun s => s.ptr == 2002 && (s.rem == some 0 && s.mem 2002 == 1)) (by decide +kernel)
  simp only [Bool.and_eq_true, beq_iff_eq] at h
  exact ⟨s, hs, ⟨by simp [C14.u8, WF], C14.dl_ok⟩, ⟨by simp [C14.u8, WF], C14.sl_ok⟩, h⟩

open Sample in
/-- Two 4-byte elements sent to an array of three 8-byte elements. -/
example : ∃ s, xcode env0 (.array i64w 3 8 1) (.array i32 2 4 4) [] [] 1000 5000
      ⟨fun _ => 1, 6000, none, 0, 0⟩ = .ok s ∧
    readVal s.mem i64w 5000 = some (.int (-2)) ∧ readVal s.mem i64w 5016 = some (.int 0) := by
  have hv : readVal env0.S (.array i32 2 4 4) 1000 = some (.arr [.int (-2), .int 0]) := rfl
  have hw : conv env0.fconv (.array i64w 3 8 1) (.arr [.int (-2), .int 0]) =
    some (.arr [.int (-2), .int 0, .int 0]) := rfl
  have h1 : WF (.array i64w 3 8 1) := by simp [WF, i64w, Ty.size]
  have h2 : WF (.array i32 2 4 4) := by simp [WF, i32, Ty.size]
  have hc : Compat (.array i64w 3 8 1) (.array i32 2 4 4) := by simp [Compat, i64w, i32]
  have ho : OutAt (.array i64w 3 8 1) 5000 6000 := by simp [OutAt, Ty.noOut, i64w]
  obtain ⟨s, hs⟩ := xcode_raw env0 _ _ [] 1000 5000 ⟨fun _ => 1, 6000, none, 0, 0⟩ _ _ h1 h2 hc ho
    (HsOK_nil _) hv hw rfl (by decide)
  have hfin : fin (.array i64w 3 8 1) (.arr [.int (-2), .int 0]) 6000 = 6000 := rfl
  have h := C13_array_partial env0 i64w 3 8 1 (.array i32 2 4 4) [] 1000 5000
    ⟨fun _ => 1, 6000, none, 0, 0⟩ s [.int (-2), .int 0] _ h1 h2 hc ho hv hw
    (by simp only [hfin]; decide) (by decide) (by simp only [hfin]; right; left; rfl) hs
  refine ⟨s, hs, ?_, ?_⟩
  · obtain ⟨y, hy, hz⟩ := (h 0 (by decide)).1 _ rfl
    have hy' : conv env0.fconv i64w (.int (-2)) = some (.int (-2)) := rfl
    rw [hy'] at hy; cases hy; exact hz
  · obtain ⟨y, hy, hz⟩ := (h 2 (by decide)).2 (by decide)
    cases hy; exact hz

open Sample in
/-- The vector `[5, 6, 7]` of a host object sent to a wire vector. -/
example : ∃ s ys, xcode env0 (.vector u8 wireL) (.vector u8 hostL) [] [] 1008 5000
      ⟨fun _ => 1, 6000, none, 0, 0⟩ = .ok s ∧ lengthOp s.mem wireL 5000 = some 3 ∧
    readVal s.mem (.vector u8 wireL) 5000 = some (.vec ys) ∧ ys[1]? = some (.int 6) := by
  have hv : readVal env0.S (.vector u8 hostL) 1008 = some (.vec [.int 5, .int 6, .int 7]) := rfl
  have hw : conv env0.fconv (.vector u8 wireL) (.vec [.int 5, .int 6, .int 7]) =
    some (.vec [.int 5, .int 6, .int 7]) := rfl
  have h1 : WF (.vector u8 wireL) := ⟨by simp [WF, u8], wireL_ok⟩
  have h2 : WF (.vector u8 hostL) := ⟨by simp [WF, u8], hostL_ok⟩
  have hc : Compat (.vector u8 wireL) (.vector u8 hostL) := by
    simp [Compat, u8, VecCompat, wireL, hostL, VecL.maxBound]
  have ho : OutAt (.vector u8 wireL) 5000 6000 := by simp [OutAt, Ty.noOut, u8]
  obtain ⟨s, hs⟩ := xcode_raw env0 _ _ [] 1008 5000 ⟨fun _ => 1, 6000, none, 0, 0⟩ _ _ h1 h2 hc ho
    (HsOK_nil _) hv hw rfl (by decide)
  have hfin : fin (.vector u8 wireL) (.vec [.int 5, .int 6, .int 7]) 6000 = 6003 := rfl
  obtain ⟨n, ys, hn, hr, hlen, hl2, hel⟩ := C14_vector_partial env0 u8 wireL (.vector u8 hostL) [] 1008
    5000 ⟨fun _ => 1, 6000, none, 0, 0⟩ s [.int 5, .int 6, .int 7] _ h1 h2 hc ho hv hw
    (by simp only [hfin]; decide) (by decide) (by simp only [hfin]; right; right; left; decide) hs
  have hn3 : n = 3 := hlen
  subst hn3
  refine ⟨s, ys, hs, hn, hr, ?_⟩
  obtain ⟨x, y, hx, hy, hxy, _⟩ := hel 1 (by decide)
  cases hx
  have hy' : conv env0.fconv u8 (.int 6) = some (.int 6) := rfl
  rw [hy'] at hxy; cases hxy; exact hy

end PJ
