import Verif.Lemmas.AnyLead
import Verif.Lemmas.Run
/-!
# Decoding into an `Any`

The run of `xAny`: it succeeds if the buffer can hold the reflectable value, and the value behind the
`Any` is that of the message.
-/
namespace PJ

/-! ## Every value that fits a type can be described -/

theorem mapAll_total {α β : Type} {f : α → Option β} : ∀ {l : List α}, (∀ x ∈ l, ∃ y, f x = some y) →
    ∃ ys, mapAll f l = some ys
  | [], _ => ⟨[], rfl⟩
  | a :: l, h => by
    obtain ⟨y, hy⟩ := h a (by simp)
    obtain ⟨ys, hys⟩ := mapAll_total (l := l) (fun x hx => h x (by simp [hx]))
    exact ⟨y :: ys, by simp [mapAll, hy, hys]⟩

mutual
theorem view_fits : ∀ (t : Ty) (v : Val), Plain t → Fits t v → ∃ x, view t v = some x
  | .int w s _, v, _, h => by obtain ⟨x, rfl, _⟩ := h; exact ⟨_, rfl⟩
  | .float w _, v, _, h => by obtain ⟨x, rfl⟩ := h; exact ⟨_, by simp [view]; rfl⟩
  | .unit, v, _, h => by simp only [Fits] at h; subst h; exact ⟨_, rfl⟩
  | .struct fs _ _, v, hp, h => by
    obtain ⟨vs, rfl, h⟩ := h
    obtain ⟨x, hx⟩ := view_fields fs vs hp h
    exact ⟨_, by simp only [view, hx]; rfl⟩
  | .variant ts _, v, hp, h => by
    obtain ⟨c, p, rfl, h1, h2⟩ := h
    simp only [view]
    have hex : ∃ t ∈ ts.toList, t.name = c := by
      match hl : ts.toList.filter fun t => decide (t.name = c ∧ attrsAllow p t.attrs = some true) with
      | [] => rw [hl] at h2; simp at h2
      | t :: _ =>
        have : t ∈ ts.toList.filter fun t => decide (t.name = c ∧ attrsAllow p t.attrs = some true) := by
          rw [hl]; simp
        rw [List.mem_filter] at this
        exact ⟨t, this.1, (of_decide_eq_true this.2).1⟩
    exact view_terms _ ts c p hp.2 h1 hex
  | .array e _ _ _, v, hp, h => by
    obtain ⟨xs, rfl, _, h⟩ := h
    obtain ⟨ys, hy⟩ := mapAll_total (fun x hx => view_fits e x hp (h x hx))
    exact ⟨_, by simp only [view, hy]; rfl⟩
  | .vector e _, v, hp, h => by
    obtain ⟨xs, rfl, _, _, h⟩ := h
    obtain ⟨ys, hy⟩ := mapAll_total (fun x hx => view_fits e x hp (h x hx))
    exact ⟨_, by simp only [view, hy]; rfl⟩
termination_by structural t => t
theorem view_fields : ∀ (fs : Fields) (vs : List (Comp × Val)), PlainFields fs → FitsFields fs vs →
    ∃ x, viewFields fs vs = some x
  | .nil, vs, _, h => by simp only [FitsFields] at h; subst h; exact ⟨_, rfl⟩
  | .cons c _ t r, vs, hp, h => by
    obtain ⟨v, rest, rfl, h1, h2⟩ := h
    obtain ⟨x, hx⟩ := view_fits t v hp.1 h1
    obtain ⟨y, hy⟩ := view_fields r rest hp.2 h2
    exact ⟨_, by simp [viewFields, hx, hy]; rfl⟩
termination_by structural fs => fs
theorem view_terms : ∀ (enum : Bool) (ts : Terms) (c : Comp) (p : Val), PlainTerms ts → FitsTerms ts c p →
    (∃ t ∈ ts.toList, t.name = c) → ∃ x, viewTerm enum ts c p = some x
  | _, .nil, _, _, _, _, h => by obtain ⟨t, ht, _⟩ := h; simp [Terms.toList] at ht
  | enum, .cons n g as t r, c, p, hp, h, hex => by
    simp only [viewTerm]
    by_cases hn : n = c
    · have has : as = [] := hp.1
      subst has
      obtain ⟨x, hx⟩ := view_fits t p hp.2.1 ((h.1 hn).2 (by simp [attrsAllow]))
      rw [if_pos hn, hx]; exact ⟨_, rfl⟩
    · rw [if_neg hn]
      obtain ⟨u, hu, hun⟩ := hex
      refine view_terms enum r c p hp.2.2 h.2 ⟨u, ?_, hun⟩
      simp only [Terms.toList, List.mem_cons] at hu
      rcases hu with rfl | hu
      · exact absurd hun hn
      · exact hu
termination_by structural _ ts => ts
end

/-! ## The run -/

theorem alignTo_bounded (st : St) (al C : Nat) (h : Word8 al) (hr : st.rem = some C) (hC : C < 2 ^ 63)
    (hfit : alignUp st.ptr al ≤ st.ptr + C) (hw : st.ptr + C < W64) :
    ∃ s, alignTo st al = .ok s ∧ s.mem = st.mem ∧ s.ptr = alignUp st.ptr al ∧
      s.rem = some (C - (alignUp st.ptr al - st.ptr)) := by
  have hcur := Cur.alignTo st al
    (alignUp_le _ _ (by unfold Word8 at h; omega)) (by omega)
  have hpost := Post.alignTo st al h
  cases hx : alignTo st al with
  | ub => rw [hx] at hpost; exact absurd hpost id
  | throw s =>
    rw [hx] at hcur
    obtain ⟨C', hC', h⟩ := hcur
    rw [hr] at hC'; cases hC'
    have := h hC (by omega)
    omega
  | ok s =>
    rw [hx] at hcur
    obtain ⟨h1, h2⟩ := hcur.2.2.2 C hr hC (by omega)
    refine ⟨s, rfl, ?_, hcur.1, h2⟩
    unfold alignTo at hx
    split at hx
    · cases hx; rfl
    · split at hx
      · exact (alloc_ok hx).1
      · cases hx

theorem alloc_run (st : St) (n C : Nat) (hr : st.rem = some C) (hC : C < 2 ^ 63)
    (hfit : n ≤ C) (hw : st.ptr + C < W64) :
    ∃ s, alloc st n = .ok s ∧ s.mem = st.mem ∧ s.ptr = st.ptr + n ∧ s.rem = some (C - n) := by
  have hcur := Cur.alloc st n (by omega) (by omega)
  have hpost := Post.alloc st n
  cases hx : alloc st n with
  | ub => rw [hx] at hpost; exact absurd hpost id
  | throw s =>
    rw [hx] at hcur
    obtain ⟨C', hC', h⟩ := hcur
    rw [hr] at hC'; cases hC'
    have := h hC (by omega)
    omega
  | ok s =>
    rw [hx] at hcur
    obtain ⟨h1, h2⟩ := hcur.2.2.2 C hr hC (by omega)
    refine ⟨s, rfl, (alloc_ok hx).1, hcur.1, ?_⟩
    rw [h2]; congr 1; omega

/-- Where the buffer ends behind the value of an `Any`. -/
def anyFin (w : Ty) (v : Val) (p : Nat) : Nat :=
  fin (reflectable w) v (alignUp p (reflectable w).align + (reflectable w).size)

theorem xAny_run (E : Env) (schema : Nat) (head : Int) (host w : Ty) (sa da : Nat) (st : St) (v : Val)
    (C : Nat) (hl : Leads host w) (hr : Rel Laid host w) (hp : Plain host) (hwh : WF host) (hww : WF w)
    (hs : Std w) (hf : Fits host v) (hv : readVal E.S w sa = some v) (hrem : st.rem = some C)
    (hC : C < 2 ^ 63) (hw64 : st.ptr + C < W64) (hfit : anyFin w v st.ptr ≤ st.ptr + C)
    (hd : Disj da anySize st.ptr C) :
    ∃ s, xAny E schema head w sa da st = .ok s ∧ s.rem = some (C - (anyFin w v st.ptr - st.ptr)) ∧
      anyData s.mem da = alignUp st.ptr (reflectable w).align ∧
      anySchema s.mem da = schema % 2 ^ 64 ∧
      readN s.mem (da + anyOffsetOff) 4 = (head % 2 ^ 32).toNat ∧
      readVal s.mem (lead host (reflectable w)) (alignUp st.ptr (reflectable w).align) = some v ∧
      ∀ a, ¬ (da ≤ a ∧ a < da + anySize) → ¬ (st.ptr ≤ a ∧ a < anyFin w v st.ptr) →
        s.mem a = st.mem a := by
  have hR := reflectable_wf w hs hww
  have hlR := reflectable_leads host w hl
  have hn := reflectable_noAttrs w
  have hk := lead_keeps host (reflectable w)
  have hwD := lead_wf host (reflectable w) hlR hn hwh hR
  have hbD := lead_bare host (reflectable w) hlR hn
  have hcompat := bare_compat host (lead host (reflectable w)) w hbD hp hr hww
  have hfD := fits_bare host (lead host (reflectable w)) v hbD (hk.2.2.2.1 hn) hp hf
  have hconv := conv_fits E.fconv _ v hwD hfD
  have hnoD := hk.2.2.2.2.2 (reflectable_noOut w)
  have hal := reflectable_align w hs
  have hup := alignUp_le st.ptr (reflectable w).align (by unfold Word8 at hal; omega)
  have hge := fin_ge (reflectable w) v (alignUp st.ptr (reflectable w).align + (reflectable w).size) hR
  unfold anyFin at hfit ⊢
  obtain ⟨sta, ha1, ha2, ha3, ha4⟩ := alignTo_bounded st (reflectable w).align C hal hrem hC (by omega) hw64
  obtain ⟨st1, hb1, hb2, hb3, hb4⟩ := alloc_run sta (reflectable w).size _ ha4 (by omega) (by omega)
    (by omega)
  have hfin := fin_lead host (reflectable w) v st1.ptr hlR hn hwh hf
  rw [hb3, ha3] at hfin
  have hx := xcode_bounded E (lead host (reflectable w)) w [] sa sta.ptr st1 v v _ hwD hww hcompat
    (noOut_outAt _ _ _ hnoD) (HsOK_nil _) hv hconv hb4 (by omega)
    (by rw [hb3, ha3, hfin]; omega) (by rw [hb3, ha3, hfin]; omega)
  rw [hb3, ha3, hfin] at hx
  rcases hx with ⟨_, s, hxs, hxr⟩ | ⟨hlt, _⟩
  · have hran := xcode_ran E (lead host (reflectable w)) w [] sa sta.ptr st1 s v v hwD hww hcompat
      (noOut_outAt _ _ _ hnoD) (HsOK_nil _) hv hconv (by rw [hb3, ha3, hfin]; omega)
      (by rw [hk.1]; omega) (by rw [hk.1, hb3, ha3, hfin]; unfold Disj; omega) (by rw [ha3]; exact hxs)
    rw [xcode_lead E host w sa _ _ v hl hr hp hww hv] at hxs
    unfold anySize Disj at hd
    refine ⟨_, by unfold xAny; rw [ha1]; simp only [Res.bind]; rw [hb1]; simp only; rw [ha3, hxs],
      ?_, ?_, ?_, ?_, ?_, ?_⟩
    · simp only [St.store, hxr]; congr 1; omega
    · simp only [St.store, anyData, anyDataOff, anyProtocolOff, anyOffsetOff]
      rw [readN_congr (m := writeN s.mem (da + 8) 8 (alignUp st.ptr (reflectable w).align)) (a := da + 8)
        (fun i hi => by rw [writeN_out _ _ _ _ _ (by omega), writeN_out _ _ _ _ _ (by omega)]),
        readN_writeN, Nat.mod_eq_of_lt]
      unfold W64 at hw64; omega
    · simp only [St.store, anySchema, anyDataOff, anyProtocolOff, anyOffsetOff]
      rw [readN_congr (m := writeN (writeN s.mem (da + 8) 8 (alignUp st.ptr (reflectable w).align))
        (da + 0) 8 schema) (a := da + 0) (fun i hi => by rw [writeN_out _ _ _ _ _ (by omega)]), readN_writeN]
    · simp only [St.store, anyOffsetOff]
      rw [readN_writeN, Nat.mod_eq_of_lt]
      omega
    · simp only [St.store, anyDataOff, anyProtocolOff, anyOffsetOff]
      rw [← ha3]
      refine hran.stable _ fun a h => ?_
      rw [hk.1, hb3, ha3, hfin] at h
      rw [writeN_out _ _ _ _ _ (by omega), writeN_out _ _ _ _ _ (by omega), writeN_out _ _ _ _ _ (by omega)]
    · intro a h1 h2
      simp only [St.store, anyDataOff, anyProtocolOff, anyOffsetOff, anySize] at h1 ⊢
      rw [writeN_out _ _ _ _ _ (by omega), writeN_out _ _ _ _ _ (by omega), writeN_out _ _ _ _ _ (by omega)]
      rw [hran.frame a (by rw [hk.1]; omega) (by rw [hb3, ha3, hfin]; omega), hb2, ha2]
  · omega

/-- If the value does not fit into the buffer, that is noticed. -/
theorem xAny_throws (E : Env) (schema : Nat) (head : Int) (host w : Ty) (sa da : Nat) (st : St) (v : Val)
    (C : Nat) (hl : Leads host w) (hr : Rel Laid host w) (hp : Plain host) (hwh : WF host) (hww : WF w)
    (hs : Std w) (hf : Fits host v) (hv : readVal E.S w sa = some v) (hrem : st.rem = some C)
    (hC : C < 2 ^ 63) (hq : anyFin w v st.ptr < W64) (hq' : anyFin w v st.ptr ≤ st.ptr + 2 ^ 63)
    (hfit : st.ptr + C < anyFin w v st.ptr) : ∃ s, xAny E schema head w sa da st = .throw s := by
  have hR := reflectable_wf w hs hww
  have hlR := reflectable_leads host w hl
  have hn := reflectable_noAttrs w
  have hk := lead_keeps host (reflectable w)
  have hwD := lead_wf host (reflectable w) hlR hn hwh hR
  have hbD := lead_bare host (reflectable w) hlR hn
  have hcompat := bare_compat host (lead host (reflectable w)) w hbD hp hr hww
  have hfD := fits_bare host (lead host (reflectable w)) v hbD (hk.2.2.2.1 hn) hp hf
  have hconv := conv_fits E.fconv _ v hwD hfD
  have hnoD := hk.2.2.2.2.2 (reflectable_noOut w)
  have hal := reflectable_align w hs
  have hup := alignUp_le st.ptr (reflectable w).align (by unfold Word8 at hal; omega)
  have hge := fin_ge (reflectable w) v (alignUp st.ptr (reflectable w).align + (reflectable w).size) hR
  unfold anyFin at hfit hq hq'
  unfold xAny
  have hcur := Cur.alignTo st (reflectable w).align hup (by omega)
  have hpost := Post.alignTo st (reflectable w).align hal
  cases hx : alignTo st (reflectable w).align with
  | ub => rw [hx] at hpost; exact absurd hpost id
  | throw s => exact ⟨s, rfl⟩
  | ok sta =>
    rw [hx] at hcur
    obtain ⟨h1, h2⟩ := hcur.2.2.2 C hrem hC (by omega)
    have ha3 : sta.ptr = alignUp st.ptr (reflectable w).align := hcur.1
    simp only [Res.bind]
    have hcur1 := Cur.alloc sta (reflectable w).size (by omega) (by omega)
    have hpost1 := Post.alloc sta (reflectable w).size
    cases hy : alloc sta (reflectable w).size with
    | ub => rw [hy] at hpost1; exact absurd hpost1 id
    | throw s => exact ⟨s, rfl⟩
    | ok st1 =>
      rw [hy] at hcur1
      obtain ⟨h3, h4⟩ := hcur1.2.2.2 _ h2 (by omega) (by omega)
      have hb3 : st1.ptr = sta.ptr + (reflectable w).size := hcur1.1
      have hfin := fin_lead host (reflectable w) v st1.ptr hlR hn hwh hf
      rw [hb3, ha3] at hfin
      have hx := xcode_bounded E (lead host (reflectable w)) w [] sa sta.ptr st1 v v _ hwD hww hcompat
        (noOut_outAt _ _ _ hnoD) (HsOK_nil _) hv hconv h4 (by omega)
        (by rw [hb3, ha3, hfin]; omega) (by rw [hb3, ha3, hfin]; omega)
      rw [hb3, ha3, hfin] at hx
      rcases hx with ⟨hle, _⟩ | ⟨_, s, hxs⟩
      · omega
      · rw [xcode_lead E host w sa _ _ v hl hr hp hww hv] at hxs
        simp only [ha3]
        rw [hxs]
        exact ⟨s, rfl⟩

end PJ
