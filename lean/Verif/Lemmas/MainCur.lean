import Verif.Lemmas.Cur
/-!
# The transcode functions use exactly the buffer bytes of `fin`
-/
namespace PJ

theorem term_cur {l : VarL} {da tag : Nat} {t : Ty} {v : Val} {st : St} {k : St → Res} (hw : WF t)
    (hk : ∀ s, Cur s (fin t v s.ptr) (k s)) :
    Cur st (fin t v (if l.outline then st.ptr + t.size else st.ptr))
      ((beginTerm l da tag t.size st).bind k) := by
  unfold beginTerm storeTag
  by_cases h0 : l.tagW = 0
  · rw [if_pos h0]; exact Cur.ub _ _
  · rw [if_neg h0]
    simp only [Res.bind]
    cases ho : l.outline with
    | true =>
      simp only [if_true]
      refine Cur.bind (q1 := st.ptr + t.size) (st := st) ?_ (fun s _ hs => ?_) (by omega) (fin_ge t v _ hw)
      · exact Cur.alloc (st.store (da + l.tagOff) l.tagW tag) t.size
      · rw [← hs]; exact hk s
    | false =>
      simp only [Bool.false_eq_true, if_false]
      exact hk (st.store (da + l.tagOff) l.tagW tag)

theorem dflt_cur (E : Env) (t : Ty) (hs : Handlers) (da : Nat) (st : St) (hwf : WF t) (hno : t.noOut) :
    Cur st st.ptr (keepBuf st (dflt E t hs da st)) := Cur.keep (dflt_frame E t hs da st hwf hno)

theorem fin_unit : ∀ (t : Ty) (p : Nat), fin t .unit p = p
  | .unit, _ => by simp [fin]
  | .int _ _ _, _ => by simp [fin]
  | .float _ _, _ => by simp [fin]
  | .struct _ _ _, _ => by simp [fin]
  | .variant _ _, _ => by simp [fin]
  | .array _ _ _ _, _ => by simp [fin]
  | .vector _ _, _ => by simp [fin]

set_option maxHeartbeats 4000000 in
mutual
theorem xcode_cur (E : Env) : ∀ (t : Ty) (src : Ty) (hs : Handlers) (sa da : Nat) (st : St)
    (v : Val), WF t → WF src → Compat t src → OutAt t da st.ptr →
    readVal E.S src sa = some v →
    Cur st (fin t v st.ptr) (xcode E t src [] hs sa da st)
  | .unit, src, hs, sa, da, st, v, _, _, _, _, _ => by
    simp only [xcode, fin]
    exact Cur.same rfl rfl rfl rfl
  | .int dw ds al, src, hs, sa, da, st, v, hwf, hws, hc, ho, hv => by
    simp only [fin]
    cases src with
    | unit => simp only [xcode]; exact dflt_cur E _ hs da st hwf (by simp [Ty.noOut])
    | int sw ss sal =>
      simp only [xcode]
      split
      · exact Cur.ub _ _
      · exact Cur.same rfl rfl rfl rfl
    | _ => simp only [xcode]; exact Cur.ub _ _
  | .float dw al, src, hs, sa, da, st, v, hwf, hws, hc, ho, hv => by
    simp only [fin]
    cases src with
    | unit => simp only [xcode]; exact dflt_cur E _ hs da st hwf (by simp [Ty.noOut])
    | float sw sal =>
      simp only [xcode]
      split
      · exact Cur.same rfl rfl rfl rfl
      · exact Cur.ub _ _
    | _ => simp only [xcode]; exact Cur.ub _ _
  | .struct fs sz al, src, hs, sa, da, st, v, hwf, hws, hc, ho, hv => by
    cases src with
    | unit =>
      cases readVal_kind hv
      simp only [xcode, fin_unit]
      exact dflt_cur E _ hs da st hwf (outAt_noOut _ _ _ ho (compat_unit_hasOut _ hc))
    | struct sfs ssz sal =>
      simp only [WF] at hwf hws
      simp only [Compat] at hc
      simp only [OutAt] at ho
      simp only [readVal] at hv
      split at hv
      · rename_i vs hvs
        cases hv
        simp only [xcode, fin]
        refine Cur.bind (q1 := finFields fs true vs st.ptr)
          (xFields_cur E fs true sfs hs sa da (st.poison E.J da sz) vs hwf.1 hws.1 hws.2.names hc
              ⟨st.ptr, ho, fun _ _ => rfl⟩ hvs)
          (fun s' _ hs' => ?_) (finFields_ge fs true vs _ hwf.1) (finFields_ge fs false vs _ hwf.1)
        rw [← hs']
        exact xFields_cur E fs false sfs hs sa da s' vs hwf.1 hws.1 hws.2.names hc
              ⟨st.ptr, ho, fun h => by cases h⟩ hvs
      · cases hv
    | _ => simp only [xcode]; exact Cur.ub _ _
  | .variant ts l, src, hs, sa, da, st, v, hwf, hws, hc, ho, hv => by
    cases src with
    | unit =>
      cases readVal_kind hv
      simp only [xcode, fin_unit]
      exact dflt_cur E _ hs da st hwf (outAt_noOut _ _ _ ho (compat_unit_hasOut _ hc))
    | variant sts sl =>
      simp only [WF] at hwf hws
      simp only [Compat] at hc
      simp only [OutAt] at ho
      simp only [readVal] at hv
      obtain ⟨t, p, hsel, htm, hp, rfl⟩ := selectTerm_read hws.2 hv
      simp only [xcode, fin]
      by_cases hfast : enumFast ts sts l sl = true
      · simp only [if_pos hfast]
        have hq : (if ts.hasName t.name then finNamed ts l t.name p st.ptr
            else finAt ts l l.dflt p st.ptr) = st.ptr := by
          simp only [enumFast, Bool.and_eq_true, Bool.not_eq_true'] at hfast
          have hz : ∀ u ∈ ts.toList, u.ty.size = 0 := fun u hu => by
            have := List.all_eq_true.1 hfast.1.1.2 u hu; simpa using this
          split
          · exact finNamed_enum ts l _ _ _ hwf.1 hz
          · exact finAt_enum ts l _ _ _ hwf.1 hz
        rw [hq]
        unfold xEnum
        split
        · exact Cur.ub _ _
        · split
          · exact Cur.ub _ _
          · exact Cur.same rfl rfl rfl rfl
      · simp only [if_neg hfast]
        cases hm : handlerMap hs with
        | none => exact Cur.ub _ _
        | some hm =>
          rw [hsel]
          simp only
          have hcc := hc.2 t htm
          have hwt := terms_WF sts hws.1 t htm
          by_cases hn : ts.hasName t.name = true
          · rw [if_pos hn] at hcc
            rw [if_pos hn, if_pos hn]
            exact Cur.cb (xNamed_cur E ts l t.name t.ty _ da st p hwf.1 ho.2 hwt hcc hp) _ _
          · rw [if_neg hn] at hcc
            rw [if_neg hn, if_neg hn]
            exact xAt_cur E ts l l.dflt t.ty _ _ da st p hwf.1 ho.2 hwt hcc hp
    | _ => simp only [xcode]; exact Cur.ub _ _
  | .array e n esz al, src, hs, sa, da, st, v, hwf, hws, hc, ho, hv => by
    cases src with
    | unit =>
      cases readVal_kind hv
      simp only [xcode, fin_unit]
      exact dflt_cur E _ hs da st hwf (outAt_noOut _ _ _ ho (compat_unit_hasOut _ hc))
    | array se sn sesz sal =>
      simp only [WF] at hwf hws
      simp only [Compat] at hc
      simp only [OutAt] at ho
      simp only [readVal] at hv
      split at hv
      · rename_i vs hvs
        cases hv
        obtain ⟨hvl, hvr⟩ := collect_some hvs
        simp only [xcode, fin]
        rw [← curAt_all]
        have hlen : (vs.take n).length = min sn n := by simp; omega
        rw [hlen]
        have h1 := curAt_le e hwf.1 (vs.take n) st.ptr (min sn n) 0
        rw [Nat.zero_add] at h1
        refine Cur.bind (q1 := curAt e (vs.take n) st.ptr (min sn n)) ?_ (fun s _ hs' => ?_) h1
          (Nat.le_refl _)
        · have := Cur.loop (body := fun i => xcode E e se [] [] (elemAt sa sesz i) (elemAt da esz i))
            (curAt e (vs.take n) st.ptr) (curAt_mono e hwf.1 _ _) (min sn n) 0 st rfl
            fun j s _ hj hsp => by
              have hx : vs[j]? = some vs[j] := List.getElem?_eq_getElem (by omega)
              have hx' : (vs.take n)[j]? = some vs[j] := by
                rw [List.getElem?_take, if_pos (by omega), hx]
              have hr := hvr j (by omega)
              rw [Nat.zero_add, hx] at hr
              rw [curAt_succ e _ _ j hx', ← hsp]
              exact xcode_cur E e se [] _ _ s vs[j] hwf.1 hws.1 hc (noOut_outAt _ _ _ ho) hr
          simpa using this
        · have := Cur.loop (body := fun i s => keepBuf s (dflt E e [] (elemAt da esz i) s))
            (fun _ => curAt e (vs.take n) st.ptr (min sn n)) (fun _ => Nat.le_refl _)
            (n - min sn n) (min sn n) s hs' fun j s _ hj hsp => by
              rw [← hsp]
              exact dflt_cur E e [] _ s hwf.1 ho
          exact this
      · cases hv
    | _ => simp only [xcode]; exact Cur.ub _ _
  | .vector e l, src, hs, sa, da, st, v, hwf, hws, hc, ho, hv => by
    cases src with
    | unit =>
      cases readVal_kind hv
      simp only [xcode, fin_unit]
      exact dflt_cur E _ hs da st hwf (outAt_noOut _ _ _ ho (compat_unit_hasOut _ hc))
    | vector se sl =>
      simp only [WF] at hwf hws
      simp only [Compat] at hc
      simp only [OutAt] at ho
      simp only [readVal] at hv
      split at hv
      · cases hv
      · rename_i n hn
        split at hv
        · rename_i hn63
          split at hv
          · rename_i vs hvs
            cases hv
            obtain ⟨hvl, hvr⟩ := collect_some hvs
            simp only [xcode, fin]
            refine xVector_cur E _ e se.size se.align l sl sa da st n (cutTo l.maxLen vs) hwf.1 hwf.2
              hws.2 hc.2 hn hn63 (by rw [copyLength_eq vs hvl]) fun i y hy d s => ?_
            have hi : i < (cutTo l.maxLen vs).length := (List.getElem?_eq_some_iff.1 hy).1
            rw [cutTo_getElem? hi] at hy
            have hr := hvr i (by
              rw [copyLength_eq vs hvl] at hi
              have := copyLength_le_self l n; omega)
            rw [Nat.zero_add, hy] at hr
            exact xcode_cur E e se [] _ d s y hwf.1 hws.1 hc.1 (noOut_outAt _ _ _ ho) hr
          · cases hv
        · cases hv
    | _ => simp only [xcode]; exact Cur.ub _ _
termination_by structural t => t

theorem xFields_cur (E : Env) : ∀ (fs : Fields) (out : Bool) (sfs : Fields)
    (hs : Handlers) (sa da : Nat) (st : St) (vs : List (Comp × Val)), WFFields fs →
    WFFields sfs → (sfs.toList.map (·.1)).Nodup → CompatFields fs sfs →
    (∃ p, OutAtFields fs da p ∧ (out = true → fs.hasOut = true → p = st.ptr)) →
    readFields E.S sfs sa = some vs →
    Cur st (finFields fs out vs st.ptr) (xFields E fs out sfs [] hs sa da st)
  | .nil, out, sfs, hs, sa, da, st, vs, _, _, _, _, _, _ => by
    simp only [xFields, finFields]
    exact Cur.same rfl rfl rfl rfl
  | .cons c off t r, out, sfs, hs, sa, da, st, vs, hwf, hws, hnd, hc, ⟨p, ho, hp⟩, hvs => by
    simp only [WFFields] at hwf
    simp only [CompatFields] at hc
    simp only [OutAtFields] at ho
    simp only [xFields, finFields]
    by_cases hto : t.hasOut = out
    · rw [if_pos hto, if_pos hto]
      have hcur : Cur st (match vs.lookup c with | some v => fin t v st.ptr | none => st.ptr)
          (match sfs.findLast c with
          | some (so, sty) => xcode E t sty (Path.into [] c) (hs.into c) (sa + so) (da + off) st
          | none => keepBuf st (dflt E t (hs.into c) (da + off) st)) := by
        have hrf := readFields_find sfs vs c hvs
        have hc1 := hc.1
        have h1 := ho.1
        rw [find_eq_findLast sfs hnd] at *
        cases hfl : sfs.find c with
        | some x =>
          rw [hfl] at hrf hc1
          obtain ⟨v, hv1, hv2⟩ := hrf
          rw [hv1]
          simp only
          refine xcode_cur E t x.2 _ _ (da + off) st v hwf.1
            (findLast_WF sfs c x.1 x.2 hws (by rw [find_eq_findLast sfs hnd, hfl])) hc1 ?_ hv2
          cases h : t.hasOut with
          | true =>
            rw [h] at h1; simp only [if_true] at h1
            rw [← hp (by rw [← hto, h]) (by simp [Fields.hasOut, h])]
            exact h1.1
          | false =>
            rw [h] at h1
            exact noOut_outAt _ _ _ (by simpa using h1)
        | none =>
          rw [hfl] at hrf hc1
          simp only at hrf hc1
          rw [hrf]
          rw [hc1] at h1
          exact dflt_cur E t _ (da + off) st hwf.1 (by simpa using h1)
      refine Cur.bind hcur (fun s _ hs' => ?_) ?_ (finFields_ge r out vs _ hwf.2)
      · have hx := xFields_cur E r out sfs hs sa da s vs hwf.2 hws hnd hc.2 ⟨p, ho.2, fun hout hr => by
          have h1 := ho.1
          rw [hto, hout] at h1; simp only [if_true] at h1
          rw [hr] at h1; exact absurd h1.2 (by decide)⟩ hvs
        rw [hs'] at hx
        exact hx
      · split
        · exact fin_ge t _ _ hwf.1
        · exact Nat.le_refl _
    · rw [if_neg hto, if_neg hto]
      simp only [Res.bind]
      exact xFields_cur E r out sfs hs sa da st vs hwf.2 hws hnd hc.2
        ⟨p, ho.2, fun h1 h2 => hp h1 (by simp [Fields.hasOut, h2])⟩ hvs
termination_by structural t => t

theorem xNamed_cur (E : Env) : ∀ (ts : Terms) (l : VarL) (c : Comp) (sty : Ty)
    (sa da : Nat) (st : St) (v : Val), WFTerms ts → ts.noOut → WF sty → CompatNamed ts c sty →
    readVal E.S sty sa = some v →
    Cur st (finNamed ts l c v st.ptr) (xNamed E ts l c sty sa da st)
  | .nil, l, c, sty, sa, da, st, v, _, _, _, _, _ => by
    simp only [xNamed, finNamed]; exact Cur.same rfl rfl rfl rfl
  | .cons n g as t r, l, c, sty, sa, da, st, v, hwf, hno, hws, hc, hv => by
    simp only [WFTerms] at hwf
    simp only [Terms.noOut] at hno
    simp only [CompatNamed] at hc
    have ih : Cur st (finNamed r l c v st.ptr) (xNamed E r l c sty sa da st) :=
      xNamed_cur E r l c sty sa da st v hwf.2 hno.2 hws hc.2 hv
    simp only [xNamed, finNamed]
    by_cases hn : n = c
    · rw [if_pos hn, if_pos hn, termCond_eq hv]
      cases hat : attrsAllow v as with
      | none => exact Cur.ub _ _
      | some b =>
        cases b with
        | true =>
          exact term_cur hwf.1 fun s =>
            xcode_cur E t sty [] sa _ s v hwf.1 hws (hc.1 hn) (noOut_outAt _ _ _ hno.1) hv
        | false => exact ih
    · rw [if_neg hn, if_neg hn]
      exact ih
termination_by structural t => t

theorem xAt_cur (E : Env) : ∀ (ts : Terms) (l : VarL) (i : Nat) (sty : Ty)
    (hm : List (Comp × Nat)) (sa da : Nat) (st : St) (v : Val), WFTerms ts → ts.noOut → WF sty →
    CompatAt ts i sty → readVal E.S sty sa = some v →
    Cur st (finAt ts l i v st.ptr) (xAt E ts l i sty hm sa da st)
  | .nil, l, i, sty, hm, sa, da, st, v, _, _, _, _, _ => by
    simp only [xAt]; exact Cur.ub _ _
  | .cons n g as t r, l, 0, sty, hm, sa, da, st, v, hwf, hno, hws, hc, hv => by
    simp only [WFTerms] at hwf
    simp only [Terms.noOut] at hno
    simp only [CompatAt] at hc
    simp only [xAt, finAt, termCond_eq hv]
    refine Cur.cb ?_ _ _
    cases hat : attrsAllow v as with
    | none => exact Cur.ub _ _
    | some b =>
      cases b with
      | true =>
        exact term_cur hwf.1 fun s =>
          xcode_cur E t sty [] sa _ s v hwf.1 hws hc (noOut_outAt _ _ _ hno.1) hv
      | false => exact Cur.same rfl rfl rfl rfl
  | .cons n g as t r, l, i + 1, sty, hm, sa, da, st, v, hwf, hno, hws, hc, hv => by
    simp only [WFTerms] at hwf
    simp only [Terms.noOut] at hno
    simp only [CompatAt] at hc
    simp only [xAt, finAt]
    exact xAt_cur E r l i sty hm sa da st v hwf.2 hno.2 hws hc hv
termination_by structural t => t
end

end PJ
