import Verif.Lemmas.VecTri
import Verif.Props.C11_EnumCopy
import Verif.Props.C12_IntConv
import Verif.Props.C21_Dispatch
/-!
# The transcode functions compute `conv`
-/
namespace PJ

/-- The kind of a value read. -/
def Kind : Ty → Val → Prop
  | .int _ _ _, v => ∃ x, v = .int x
  | .float w _, v => ∃ x, v = .float w x
  | .unit, v => v = .unit
  | .struct _ _ _, v => ∃ x, v = .struct x
  | .variant _ _, v => ∃ c p, v = .variant c p
  | .array _ _ _ _, v => ∃ x, v = .arr x
  | .vector _ _, v => ∃ x, v = .vec x

theorem readVal_kind {m : Mem} {t : Ty} {a : Nat} {v : Val} (h : readVal m t a = some v) :
    Kind t v := by
  cases t with
  | int w s al => simp only [readVal, Option.some.injEq] at h; exact ⟨_, h.symm⟩
  | float w al => simp only [readVal, Option.some.injEq] at h; exact ⟨_, h.symm⟩
  | unit => simp only [readVal, Option.some.injEq] at h; exact h.symm
  | struct fs sz al =>
    simp only [readVal] at h; split at h
    · cases h; exact ⟨_, rfl⟩
    · cases h
  | variant ts l =>
    simp only [readVal] at h
    obtain ⟨t, _, _, p, _, rfl⟩ := readTerm_some h
    exact ⟨_, _, rfl⟩
  | array e n esz al =>
    simp only [readVal] at h; split at h
    · cases h; exact ⟨_, rfl⟩
    · cases h
  | vector e l =>
    simp only [readVal] at h; split at h
    · cases h
    · split at h
      · split at h
        · cases h; exact ⟨_, rfl⟩
        · cases h
      · cases h

theorem convInt_wrap {sw dw n : Nat} {ss ds : Sign} (hn : n < 256 ^ sw) :
    intValue dw ds (convInt sw ss dw n) = wrapInt dw ds (intValue sw ss n) := by
  obtain ⟨h1, h2⟩ := C12_modular sw ss dw ds n hn
  have hp : (0 : Int) < ((256 ^ dw : Nat) : Int) := by
    have := Nat.pow_pos (n := dw) (show 0 < 256 by decide); omega
  have hnn := Int.emod_nonneg (intValue sw ss n) (show ((256 ^ dw : Nat) : Int) ≠ 0 by omega)
  have hlt := Int.emod_lt_of_pos (intValue sw ss n) hp
  have h3 : (intValue sw ss n % ((256 ^ dw : Nat) : Int)).toNat < 256 ^ dw := by omega
  refine inRange_unique (intValue_inRange dw ds _ h1) (intValue_inRange dw ds _ h3) ?_
  rw [h2]
  unfold wrapInt
  rw [intValue_mod dw ds _ dw (Nat.le_refl _), Int.toNat_of_nonneg hnn, Int.emod_emod]

theorem readFields_find {m : Mem} {a : Nat} : ∀ (fs : Fields) (vs : List (Comp × Val)) (c : Comp),
    readFields m fs a = some vs →
    match fs.find c with
    | some (o, t) => ∃ v, vs.lookup c = some v ∧ readVal m t (a + o) = some v
    | none => vs.lookup c = none
  | .nil, vs, c, h => by simp [readFields] at h; subst h; simp [Fields.find]
  | .cons n o t r, vs, c, h => by
    simp only [readFields] at h
    split at h
    · rename_i v ws hv hws
      cases h
      have ih := readFields_find r ws c hws
      simp only [Fields.find]
      by_cases hn : n = c
      · subst hn; simp only [if_true]; exact ⟨v, by simp, hv⟩
      · rw [if_neg hn]
        have hl : ((n, v) :: ws).lookup c = ws.lookup c := by
          rw [List.lookup_cons]; simp [show (c == n) = false by simpa using fun h => hn h.symm]
        rw [hl]; exact ih
    · cases h

theorem find_eq_findLast {c : Comp} : ∀ (fs : Fields), (fs.toList.map (·.1)).Nodup →
    fs.findLast c = fs.find c
  | .nil, _ => rfl
  | .cons n o t r, h => by
    simp only [Fields.toList, List.map_cons, List.nodup_cons] at h
    simp only [Fields.findLast, Fields.find, find_eq_findLast r h.2]
    by_cases hn : n = c
    · subst hn
      have : r.find n = none := by
        cases hf : r.find n with
        | none => rfl
        | some x =>
          exfalso; apply h.1
          clear h
          induction r using Fields.rec (motive_1 := fun _ => True) (motive_3 := fun _ => True)
          case cons n' o' t' r' _ ih =>
            simp only [Fields.find] at hf
            by_cases hn' : n' = n
            · simp [Fields.toList, hn']
            · rw [if_neg hn'] at hf
              simp only [Fields.toList, List.map_cons, List.mem_cons]
              exact Or.inr (ih hf)
          case nil => simp [Fields.find] at hf
          all_goals trivial
      rw [this]
    · simp only [if_neg hn]; cases r.find c <;> rfl

theorem projVec_len {S : Mem} : ∀ (p : Path) (t : Ty) (a : Nat) (v : Val), readVal S t a = some v →
    (projVec t a p).bind (fun x => lengthOp S x.1 x.2) = lenAt p v
  | [], t, a, v, h => by simp [projVec, lenAt]
  | [c], t, a, v, h => by
    have hk := readVal_kind h
    cases t with
    | vector e l =>
      simp only [readVal] at h
      split at h
      · cases h
      · rename_i n hn
        split at h
        · split at h
          · rename_i vs hvs
            cases h
            simp [projVec, lenAt, hn, (collect_some hvs).1]
          · cases h
        · cases h
    | struct fs sz al => obtain ⟨x, rfl⟩ := hk; simp [projVec, lenAt]
    | int w s al => obtain ⟨x, rfl⟩ := hk; simp [projVec, lenAt]
    | float w al => obtain ⟨x, rfl⟩ := hk; simp [projVec, lenAt]
    | unit => cases hk; simp [projVec, lenAt]
    | variant ts l => obtain ⟨x, y, rfl⟩ := hk; simp [projVec, lenAt]
    | array e n esz al => obtain ⟨x, rfl⟩ := hk; simp [projVec, lenAt]
  | c :: c' :: p, t, a, v, h => by
    have hk := readVal_kind h
    cases t with
    | struct fs sz al =>
      simp only [readVal] at h
      split at h
      · rename_i vs hvs
        cases h
        have := readFields_find fs vs c hvs
        simp only [projVec, lenAt]
        cases hf : fs.find c with
        | none => rw [hf] at this; simp only at this; rw [this]; rfl
        | some x =>
          rw [hf] at this
          obtain ⟨v, hv1, hv2⟩ := this
          rw [hv1]
          exact projVec_len (c' :: p) x.2 (a + x.1) v hv2
      · cases h
    | vector e l => obtain ⟨x, rfl⟩ := hk; simp [projVec, lenAt]
    | int w s al => obtain ⟨x, rfl⟩ := hk; simp [projVec, lenAt]
    | float w al => obtain ⟨x, rfl⟩ := hk; simp [projVec, lenAt]
    | unit => cases hk; simp [projVec, lenAt]
    | variant ts l => obtain ⟨x, y, rfl⟩ := hk; simp [projVec, lenAt]
    | array e n esz al => obtain ⟨x, rfl⟩ := hk; simp [projVec, lenAt]

/-- The generated condition is the condition on values. -/
theorem termCond_eq {S : Mem} {t : Ty} {a : Nat} {v : Val} (h : readVal S t a = some v) :
    ∀ as : List Attr, termCond S t a as = attrsAllow v as
  | [] => rfl
  | .undef d :: r => by simp only [termCond, attrsAllow, termCond_eq h r]
  | .split inl n p :: r => by
    simp only [termCond, attrsAllow]
    have := projVec_len p t a v h
    rw [← this]
    cases projVec t a p with
    | none => rfl
    | some x =>
      simp only [Option.bind_some]
      cases lengthOp S x.1 x.2 with
      | none => rfl
      | some len => simp only [termCond_eq h r]

theorem readTerm_raw {m : Mem} {raw a : Nat} {v : Val} {ts : Terms} {t : Term}
    (hnd : (ts.toList.map (·.tag)).Nodup) (ht : t ∈ ts.toList) (hr : t.tag = raw)
    (h : readTerm m ts raw a = some v) : ∃ p, readVal m t.ty a = some p ∧ v = .variant t.name p := by
  subst hr
  rw [readTerm_of_mem m a ts hnd t ht] at h
  cases hv : readVal m t.ty a with
  | none => rw [hv] at h; simp at h
  | some p => rw [hv] at h; simp at h; exact ⟨p, rfl, h.symm⟩

theorem selectTerm_read {S : Mem} {sts : Terms} {sl : VarL} {sa : Nat} {v : Val}
    (hl : VarLayout sts.toList sl)
    (h : readTerm S sts (readN S (sa + sl.tagOff) sl.tagW) (sa + sl.termOff) = some v) :
    ∃ t p, selectTerm S sts sl [] sa = some (some t) ∧ t ∈ sts.toList ∧
      readVal S t.ty (sa + sl.termOff) = some p ∧ v = .variant t.name p := by
  obtain ⟨t, ht, hraw, p, hp, rfl⟩ := readTerm_some h
  exact ⟨t, p, selectTerm_tag hl ht hraw.symm, ht, hp, rfl⟩

/-- A type without bytes has only one value. -/
theorem conv_zero_fields {F : Nat → Nat → Nat → Nat} {m : Mem} {a : Nat}
    (P : Ty → Prop) (hP : ∀ t w v, P t → conv F t v = some w → ∀ a, readVal m t a = some w)
    (hQ : ∀ t w, P t → dfltVal t = some w → ∀ a, readVal m t a = some w) :
    ∀ (fs : Fields), (∀ x ∈ fs.toList, P x.2.2) → ∀ ws,
      ((∃ vs, convFields F fs vs = some ws) ∨ dfltFieldsVal fs = some ws) →
      readFields m fs a = some ws
  | .nil, _, ws, h => by
    rcases h with ⟨vs, h⟩ | h
    · simp [convFields] at h; subst h; rfl
    · simp [dfltFieldsVal] at h; subst h; rfl
  | .cons c o t r, hp, ws, h => by
    simp only [Fields.toList, List.mem_cons, forall_eq_or_imp] at hp
    rcases h with ⟨vs, h⟩ | h
    · simp only [convFields] at h
      split at h
      · rename_i w ws' hw hws
        cases h
        have ih := conv_zero_fields (a := a) P hP hQ r hp.2 ws' (Or.inl ⟨vs, hws⟩)
        have : readVal m t (a + o) = some w := by
          split at hw
          · exact hP t w _ hp.1 hw _
          · exact hQ t w hp.1 hw _
        simp only [readFields, this, ih]
      · cases h
    · simp only [dfltFieldsVal] at h
      split at h
      · rename_i w ws' hw hws
        cases h
        have ih := conv_zero_fields (a := a) P hP hQ r hp.2 ws' (Or.inr hws)
        simp only [readFields, hQ t w hp.1 hw _, ih]
      · cases h

mutual
/-- A type without bytes has no references. -/
theorem zero_ptrs (m : Mem) : ∀ (t : Ty), WF t → t.size = 0 → ∀ path a, Ptrs m t path a
  | .int _ _ _, _, _, _, _ => trivial
  | .float _ _, _, _, _, _ => trivial
  | .unit, _, _, _, _ => trivial
  | .struct fs sz al, hw, hz, path, a => by
    simp only [WF] at hw
    simp only [Ty.size] at hz
    exact zero_ptrsFields m fs hw.1 (fun x hx => by have := hw.2.inside x hx; omega) path a
  | .variant ts l, hw, hz, _, _ => by
    simp only [WF] at hw
    simp only [Ty.size] at hz
    have := hw.2.tagIn; have := hw.2.tagW; omega
  | .vector e l, hw, hz, _, _ => by
    simp only [WF] at hw
    simp only [Ty.size] at hz
    have := hw.2.lenIn; have := hw.2.lenSize; omega
  | .array e n esz al, hw, hz, _, a => by
    simp only [WF] at hw
    simp only [Ty.size] at hz
    intro i hi
    refine zero_ptrs m e hw.1 ?_ [] _
    rcases Nat.mul_eq_zero.1 hz with h | h <;> omega
theorem zero_ptrsFields (m : Mem) : ∀ (fs : Fields), WFFields fs → (∀ x ∈ fs.toList, x.2.2.size = 0) →
    ∀ path a, PtrsFields m fs path a
  | .nil, _, _, _, _ => trivial
  | .cons c o t r, hw, hz, path, a => by
    simp only [WFFields] at hw
    simp only [Fields.toList, List.mem_cons, forall_eq_or_imp] at hz
    exact ⟨zero_ptrs m t hw.1 hz.1 _ _, zero_ptrsFields m r hw.2 hz.2 path a⟩
end

mutual
theorem zero_size (F : Nat → Nat → Nat → Nat) (m : Mem) : ∀ (t : Ty), WF t → t.size = 0 →
    ∀ w, ((∃ v, conv F t v = some w) ∨ dfltVal t = some w) → ∀ a, readVal m t a = some w
  | .int w s al, hw, hz, _, _, _ => by simp only [WF] at hw; simp only [Ty.size] at hz; omega
  | .float w al, hw, hz, _, _, _ => by simp only [WF] at hw; simp only [Ty.size] at hz; omega
  | .unit, _, _, w, h, a => by
    rcases h with ⟨v, h⟩ | h
    · simp only [conv, Option.some.injEq] at h; subst h; rfl
    · simp only [dfltVal, Option.some.injEq] at h; subst h; rfl
  | .struct fs sz al, hw, hz, w, h, a => by
    simp only [WF] at hw
    simp only [Ty.size] at hz
    have hz' : ∀ x ∈ fs.toList, x.2.2.size = 0 := fun x hx => by have := hw.2.inside x hx; omega
    have hd : dfltVal (.struct fs sz al) = some w → readVal m (.struct fs sz al) a = some w := by
      intro h
      simp only [dfltVal] at h
      split at h
      · rename_i ws hws
        cases h
        simp only [readVal, zero_size_fields F m fs hw.1 hz' ws (Or.inr hws) a]
      · cases h
    rcases h with ⟨v, h⟩ | h
    · simp only [conv] at h
      split at h
      · exact hd h
      · split at h
        · rename_i vs _ ws hws
          cases h
          simp only [readVal, zero_size_fields F m fs hw.1 hz' ws (Or.inl ⟨_, hws⟩) a]
        · cases h
      · cases h
    · exact hd h
  | .variant ts l, hw, hz, w, _, _ => by
    simp only [WF] at hw
    simp only [Ty.size] at hz
    have := hw.2.tagIn; have := hw.2.tagW; omega
  | .vector e l, hw, hz, w, _, _ => by
    simp only [WF] at hw
    simp only [Ty.size] at hz
    have := hw.2.lenIn; have := hw.2.lenSize; omega
  | .array e n esz al, hw, hz, w, h, a => by
    simp only [WF] at hw
    simp only [Ty.size] at hz
    have key : ∀ ws : List Val, ws.length = n → (∀ x ∈ ws, (∃ v, conv F e v = some x) ∨ dfltVal e = some x) →
        readVal m (.array e n esz al) a = some (.arr ws) := by
      intro ws hl hws
      simp only [readVal]
      rw [collect_of hl]
      intro j hj
      have hmem : ws[j]'(by omega) ∈ ws := List.getElem_mem _
      have hesz : esz = 0 := by
        rcases Nat.mul_eq_zero.1 hz with h | h
        · omega
        · exact h
      rw [List.getElem?_eq_getElem (by omega)]
      exact zero_size F m e hw.1 (by omega) _ (hws _ hmem) _
    have hd : dfltVal (.array e n esz al) = some w → readVal m (.array e n esz al) a = some w := by
      intro h
      simp only [dfltVal] at h
      split at h
      · rename_i v hv
        cases h
        exact key _ (by simp) fun x hx => by
          rw [List.mem_replicate] at hx; rw [hx.2]; exact Or.inr hv
      · cases h
    rcases h with ⟨v, h⟩ | h
    · simp only [conv] at h
      split at h
      · exact hd h
      · rename_i l
        split at h
        · cases h
        · rename_i ws hws
          obtain ⟨hlen, hel⟩ := mapAll_some hws
          have hmem : ∀ x ∈ ws, (∃ v, conv F e v = some x) ∨ dfltVal e = some x := by
            intro x hx
            obtain ⟨j, hj, rfl⟩ := List.getElem_of_mem hx
            obtain ⟨y, hy, hc⟩ := hel j _ (List.getElem?_eq_getElem (by omega))
            rw [List.getElem?_eq_getElem hj] at hy
            cases hy
            exact Or.inl ⟨_, hc⟩
          rw [List.length_take] at hlen
          split at h
          · split at h
            · rename_i d hde
              cases h
              refine key _ (by simp; omega) fun x hx => ?_
              rw [List.mem_append, List.mem_replicate] at hx
              rcases hx with hx | hx
              · exact hmem x hx
              · rw [hx.2]; exact Or.inr hde
            · cases h
          · cases h
            exact key _ (by omega) hmem
      · cases h
    · exact hd h

theorem zero_size_fields (F : Nat → Nat → Nat → Nat) (m : Mem) : ∀ (fs : Fields), WFFields fs →
    (∀ x ∈ fs.toList, x.2.2.size = 0) → ∀ ws,
      ((∃ vs, convFields F fs vs = some ws) ∨ dfltFieldsVal fs = some ws) → ∀ a,
      readFields m fs a = some ws
  | .nil, _, _, ws, h, a => by
    rcases h with ⟨vs, h⟩ | h
    · simp [convFields] at h; subst h; rfl
    · simp [dfltFieldsVal] at h; subst h; rfl
  | .cons c o t r, hw, hz, ws, h, a => by
    simp only [WFFields] at hw
    simp only [Fields.toList, List.mem_cons, forall_eq_or_imp] at hz
    rcases h with ⟨vs, h⟩ | h
    · simp only [convFields] at h
      split at h
      · rename_i w ws' hw' hws
        cases h
        have ih := zero_size_fields F m r hw.2 hz.2 ws' (Or.inl ⟨vs, hws⟩) a
        have : readVal m t (a + o) = some w := by
          split at hw'
          · exact zero_size F m t hw.1 hz.1 w (Or.inl ⟨_, hw'⟩) _
          · exact zero_size F m t hw.1 hz.1 w (Or.inr hw') _
        simp only [readFields, this, ih]
      · cases h
    · simp only [dfltFieldsVal] at h
      split at h
      · rename_i w ws' hw' hws
        cases h
        have ih := zero_size_fields F m r hw.2 hz.2 ws' (Or.inr hws) a
        simp only [readFields, zero_size F m t hw.1 hz.1 w (Or.inr hw') _, ih]
      · cases h
end

theorem convNamed_some {F : Nat → Nat → Nat → Nat} {c : Comp} {p w : Val} : ∀ {ts : Terms},
    convNamed F ts c p = some w → ∃ t ∈ ts.toList, t.name = c ∧ ∃ x, conv F t.ty p = some x ∧
      w = .variant c x
  | .nil, h => by simp [convNamed] at h
  | .cons n g as t r, h => by
    simp only [convNamed] at h
    split at h
    · rename_i hn
      split at h
      · cases h
      · split at h
        · rename_i x hx
          cases h
          exact ⟨⟨n, g, as, t⟩, by simp [Terms.toList], hn, x, hx, by rw [hn]⟩
        · cases h
      · obtain ⟨t', ht', h'⟩ := convNamed_some h
        exact ⟨t', by simp [Terms.toList, ht'], h'⟩
    · obtain ⟨t', ht', h'⟩ := convNamed_some h
      exact ⟨t', by simp [Terms.toList, ht'], h'⟩

theorem convAt_some {F : Nat → Nat → Nat → Nat} {p w : Val} : ∀ {ts : Terms} {i : Nat},
    convAt F ts i p = some w → ∃ t, ts.toList[i]? = some t ∧ ∃ x, conv F t.ty p = some x ∧
      w = .variant t.name x
  | .nil, _, h => by simp [convAt] at h
  | .cons n g as t r, 0, h => by
    simp only [convAt] at h
    split at h
    · rename_i x _ hx
      cases h
      exact ⟨⟨n, g, as, t⟩, by simp [Terms.toList], x, hx, rfl⟩
    · cases h
  | .cons n g as t r, i + 1, h => by
    simp only [convAt] at h
    obtain ⟨t', ht', h'⟩ := convAt_some h
    exact ⟨t', by simpa [Terms.toList] using ht', h'⟩

theorem enumTy_WF {ts : Terms} {l : VarL} {t : Term} (hl : VarLayout ts.toList l)
    (hn : (ts.toList.map (·.name)).Nodup) (ht : ts.toList[l.dflt]? = some t) :
    (enumTy ts l).WF t.tag where
  names := by simp only [enumTy, List.map_map]; exact hn
  tags := by simp only [enumTy, List.map_map]; exact hl.tags
  fits := by
    intro x hx
    simp only [enumTy, List.mem_map] at hx
    obtain ⟨y, hy, rfl⟩ := hx
    exact (hl.tagLt y hy).1
  dflt := ⟨t.name, by simp [enumTy, ht]⟩

theorem enum_store {dts : Terms} {dl : VarL} {da : Nat} {t : Term} {x : Val} {F : Nat → Nat → Nat → Nat}
    {p : Val} (st : St) (hw : WFTerms dts) (hl : VarLayout dts.toList dl) (ht : t ∈ dts.toList)
    (hout : dl.outline = false) (hz : t.ty.size = 0) (hx : conv F t.ty p = some x) :
    Tri st (Head da dl.size) (.good (.variant dts dl) da (.variant t.name x))
      (.ok (st.store (da + dl.tagOff) dl.tagW t.tag)) := by
  have h1 := hl.tagIn
  refine (Tri.store st _ _ _).conseq ?_ ?_
  · intro a ha; unfold Head at *; omega
  · intro lo hi R m _ _ _ hP
    rw [Nat.mod_eq_of_lt (hl.tagLt t ht).1] at hP
    refine good_variant ht hl lo hi R m hP ?_ (by simp [hout])
    intro _ _ m2 k _ _ _ _
    exact ⟨zero_size F m2 t.ty (terms_WF dts hw t ht) hz x (Or.inl ⟨p, hx⟩) _,
      fun _ => zero_ptrs m2 t.ty (terms_WF dts hw t ht) hz [] _⟩

theorem xEnum_tri (E : Env) (dts sts : Terms) (dl sl : VarL) (sa da : Nat) (st : St) (v w : Val)
    (hwd : WFTerms dts) (hd : VarLayout dts.toList dl) (hs : VarLayout sts.toList sl)
    (hfast : enumFast dts sts dl sl = true) (hc : EnumCompat dts sts dl sl)
    (hv : readTerm E.S sts (readN E.S (sa + sl.tagOff) sl.tagW) (sa + sl.termOff) = some v)
    (hw : conv E.fconv (.variant dts dl) v = some w) :
    Tri st (Head da dl.size) (.good (.variant dts dl) da w) (xEnum E dts sts dl sl sa da st) := by
  obtain ⟨hdn, hsn, hcc⟩ := hc
  obtain ⟨t, ht, hraw, p, hp, rfl⟩ := readTerm_some hv
  simp only [enumFast, Bool.and_eq_true, Bool.not_eq_true'] at hfast
  obtain ⟨⟨⟨⟨hdo, hso⟩, hde⟩, hse⟩, _⟩ := hfast
  have hz : ∀ u ∈ dts.toList, u.ty.size = 0 := fun u hu => by
    have := List.all_eq_true.1 hde u hu; simpa using this
  have hdl := hd.dflt
  have hslt := hs.dflt
  have hdd : dts.toList[dl.dflt]? = some dts.toList[dl.dflt] := List.getElem?_eq_getElem hdl
  have hsd : sts.toList[sl.dflt]? = some sts.toList[sl.dflt] := List.getElem?_eq_getElem hslt
  have hdw := enumTy_WF hd hdn hdd
  have hsw := enumTy_WF hs hsn hsd
  unfold xEnum
  rw [if_neg (by have := hd.tagW; have := hs.tagW; omega), ← hraw]
  simp only [conv] at hw
  have htm : (t.name, t.tag) ∈ (enumTy sts sl).terms := List.mem_map.2 ⟨t, ht, rfl⟩
  split at hw
  · -- known by name
    obtain ⟨u, hu, hun, x, hx, rfl⟩ := convNamed_some hw
    have hum : (t.name, u.tag) ∈ (enumTy dts dl).terms :=
      List.mem_map.2 ⟨u, hu, by rw [hun]⟩
    rw [C11_known_partial (enumTy sts sl) (enumTy dts dl) _ _ hsw hdw (by
      rcases hcc with h | h
      · exact Or.inl h
      · exact Or.inr h.1) t.name t.tag u.tag htm hum]
    rw [← hun]
    exact enum_store st hwd hd hu hdo (hz u hu) hx
  · rename_i hno
    obtain ⟨u, hu, x, hx, rfl⟩ := convAt_some hw
    have hum := List.mem_of_getElem? hu
    have hnone : (enumTy dts dl).terms.find? (fun d => d.1 == t.name) = none := by
      rw [List.find?_eq_none]
      intro y hy
      simp only [enumTy, List.mem_map] at hy
      obtain ⟨z, hz, rfl⟩ := hy
      intro hb
      apply hno
      simp only [Terms.hasName, List.any_eq_true]
      exact ⟨z, hz, hb⟩
    have hne : exactMatch (enumTy sts sl) (enumTy dts dl) = false := by
      cases he : exactMatch (enumTy sts sl) (enumTy dts dl) with
      | false => rfl
      | true =>
        have := List.all_eq_true.1 he _ htm
        rw [tagOf_eq _ hdw.names, hnone] at this
        simp at this
    have hrest : 2 * tableSize (enumTy sts sl) ≤ 256 ^ sl.tagW ∧
        (dts.toList[dl.dflt]?.map (·.tag)) = some 0 := by
      rcases hcc with h | h
      · rw [hne] at h; cases h
      · exact h
    have hu0 : u.tag = 0 := by have := hrest.2; rw [hu] at this; simpa using this
    have hdw0 : (enumTy dts dl).WF 0 := by
      have := enumTy_WF hd hdn hu; rw [hu0] at this; exact this
    rw [C11_all_tags_partial (enumTy sts sl) (enumTy dts dl) _ hsw hdw0 hne hrest.1 t.tag]
    have hspec : specTag (enumTy sts sl) (enumTy dts dl) 0 t.tag = 0 := by
      unfold specTag
      have hfind := find?_unique (·.2) (enumTy sts sl).terms hsw.tags _ htm
      simp only at hfind
      rw [hfind]
      simp only [hnone]
    rw [hspec]
    have := enum_store (da := da) st hwd hd hum hdo (hz u hum) hx
    rw [hu0] at this
    exact this

theorem convFields_names {F : Nat → Nat → Nat → Nat} {vs : List (Comp × Val)} :
    ∀ (fs : Fields) (ws : List (Comp × Val)),
    convFields F fs vs = some ws → ws.map (·.1) = fs.toList.map (·.1)
  | .nil, ws, h => by simp [convFields] at h; subst h; simp [Fields.toList]
  | .cons c o t r, ws, h => by
    simp only [convFields] at h
    split at h
    · rename_i v ws' hv hws
      cases h
      simp [Fields.toList, convFields_names r ws' hws]
    · cases h

/-- The default of a type without outline variant, as source `Unit` or missing source. -/
theorem dflt_keep_tri (E : Env) (t : Ty) (hs : Handlers) (da : Nat) (st : St) (w : Val) (hwf : WF t)
    (hno : t.noOut) (hh : HsOK t hs) (hv : dfltVal t = some w) :
    Tri st (Head da t.size) (.good t da w) (keepBuf st (dflt E t hs da st)) := by
  rw [keepBuf_eq (dflt_frame E t hs da st hwf hno)]
  exact dflt_tri E t hs da st w hwf hno hh hv

set_option maxHeartbeats 4000000 in
mutual
theorem xcode_tri (E : Env) : ∀ (t : Ty) (src : Ty) (hs : Handlers) (sa da : Nat) (st : St)
    (v w : Val), WF t → WF src → Compat t src → OutAt t da st.ptr → HsOK t hs →
    readVal E.S src sa = some v → conv E.fconv t v = some w →
    Tri st (Head da t.size) (.good t da w) (xcode E t src [] hs sa da st)
  | .unit, src, hs, sa, da, st, v, w, _, _, _, _, _, _, hw => by
    simp only [conv, Option.some.injEq] at hw
    subst hw
    simp only [xcode]
    exact Tri.refl fun lo hi R m => good_unit lo hi R m
  | .int dw ds al, src, hs, sa, da, st, v, w, hwf, hws, hc, ho, hh, hv, hw => by
    have hk := readVal_kind hv
    cases src with
    | unit =>
      cases hk
      simp only [conv] at hw
      simp only [xcode]
      exact dflt_keep_tri E _ hs da st w hwf (by simp [Ty.noOut]) hh hw
    | int sw ss sal =>
      simp only [readVal, Option.some.injEq] at hv
      subst hv
      simp only [conv, Option.some.injEq] at hw
      subst hw
      simp only [WF] at hwf hws
      simp only [xcode, Ty.size]
      rw [if_neg (by omega)]
      refine (Tri.store st da dw _).weaken fun lo hi R m h => ?_
      rw [← convInt_wrap (readN_lt _ _ _)]
      rw [Nat.mod_eq_of_lt (C12_modular sw ss dw ds _ (readN_lt _ _ _)).1] at h
      exact good_int lo hi R m h
    | float _ _ => obtain ⟨x, rfl⟩ := hk; simp [conv] at hw
    | struct _ _ _ => obtain ⟨x, rfl⟩ := hk; simp [conv] at hw
    | variant _ _ => obtain ⟨x, y, rfl⟩ := hk; simp [conv] at hw
    | array _ _ _ _ => obtain ⟨x, rfl⟩ := hk; simp [conv] at hw
    | vector _ _ => obtain ⟨x, rfl⟩ := hk; simp [conv] at hw
  | .float dw al, src, hs, sa, da, st, v, w, hwf, hws, hc, ho, hh, hv, hw => by
    have hk := readVal_kind hv
    cases src with
    | unit =>
      cases hk
      simp only [conv] at hw
      simp only [xcode]
      exact dflt_keep_tri E _ hs da st w hwf (by simp [Ty.noOut]) hh hw
    | float sw sal =>
      simp only [readVal, Option.some.injEq] at hv
      subst hv
      simp only [conv, Option.some.injEq] at hw
      subst hw
      simp only [WF] at hwf hws
      simp only [xcode, Ty.size]
      rw [if_pos (show (sw = 4 ∨ sw = 8) ∧ (dw = 4 ∨ dw = 8) from ⟨hws, hwf⟩)]
      refine (Tri.store st da dw _).weaken fun lo hi R m h => ?_
      have he : (if sw = dw then readN E.S sa sw else E.fconv sw dw (readN E.S sa sw)) % 256 ^ dw
          = if sw = dw then readN E.S sa sw else E.fconv sw dw (readN E.S sa sw) % 256 ^ dw := by
        split
        · rename_i h; subst h; exact Nat.mod_eq_of_lt (readN_lt _ _ _)
        · rfl
      rw [he] at h
      exact good_float lo hi R m h
    | int _ _ _ => obtain ⟨x, rfl⟩ := hk; simp [conv] at hw
    | struct _ _ _ => obtain ⟨x, rfl⟩ := hk; simp [conv] at hw
    | variant _ _ => obtain ⟨x, y, rfl⟩ := hk; simp [conv] at hw
    | array _ _ _ _ => obtain ⟨x, rfl⟩ := hk; simp [conv] at hw
    | vector _ _ => obtain ⟨x, rfl⟩ := hk; simp [conv] at hw
  | .struct fs sz al, src, hs, sa, da, st, v, w, hwf, hws, hc, ho, hh, hv, hw => by
    have hk := readVal_kind hv
    cases src with
    | unit =>
      cases hk
      simp only [conv] at hw
      simp only [xcode]
      exact dflt_keep_tri E _ hs da st w hwf (outAt_noOut _ _ _ ho (compat_unit_hasOut _ hc)) hh hw
    | struct sfs ssz sal =>
      simp only [WF] at hwf hws
      simp only [Compat] at hc
      simp only [OutAt] at ho
      simp only [HsOK] at hh
      simp only [readVal] at hv
      split at hv
      · rename_i vs hvs
        cases hv
        simp only [conv] at hw
        split at hw
        · rename_i ws hws'
          cases hw
          simp only [xcode, Ty.size]
          have h0 : FrmRes (Head da sz) st (.ok (st.poison E.J da sz)) :=
            Frm.poison _ _ _ _ fun x h1 h2 => ⟨h1, h2⟩
          refine Tri.pre (r := .ok (st.poison E.J da sz))
            (f := fun s => (xFields E fs true sfs [] hs sa da s).bind (xFields E fs false sfs [] hs sa da))
            h0 trivial fun s hs1 => ?_
          cases hs1
          refine (Tri.seq (H := Head da sz)
            (xFields_tri E fs true sfs hs sa da sz (st.poison E.J da sz) vs ws hwf.1 hwf.2 hws.1 hws.2.names hc
              ⟨st.ptr, ho, fun _ _ => rfl⟩ hh hvs hws')
            (fun s' _ => xFields_tri E fs false sfs hs sa da sz s' vs ws hwf.1 hwf.2 hws.1 hws.2.names hc
              ⟨st.ptr, ho, fun h => by cases h⟩ hh hvs hws')
            (HF_head hwf.2) (HF_head hwf.2)).weaken ?_
          intro lo hi R m hP
          obtain ⟨hP1, hP2⟩ := hP (HF_disj hwf.2)
          exact good_struct (convFields_names fs ws hws') hwf.2 lo hi R m hP1 hP2
        · cases hw
      · cases hv
    | int _ _ _ => obtain ⟨x, rfl⟩ := hk; simp [conv] at hw
    | float _ _ => obtain ⟨x, rfl⟩ := hk; simp [conv] at hw
    | variant _ _ => obtain ⟨x, y, rfl⟩ := hk; simp [conv] at hw
    | array _ _ _ _ => obtain ⟨x, rfl⟩ := hk; simp [conv] at hw
    | vector _ _ => obtain ⟨x, rfl⟩ := hk; simp [conv] at hw
  | .variant ts l, src, hs, sa, da, st, v, w, hwf, hws, hc, ho, hh, hv, hw => by
    have hk := readVal_kind hv
    cases src with
    | unit =>
      cases hk
      simp only [conv] at hw
      simp only [xcode]
      exact dflt_keep_tri E _ hs da st w hwf (outAt_noOut _ _ _ ho (compat_unit_hasOut _ hc)) hh hw
    | variant sts sl =>
      simp only [WF] at hwf hws
      simp only [Compat] at hc
      simp only [OutAt] at ho
      simp only [HsOK] at hh
      simp only [readVal] at hv
      simp only [xcode, Ty.size]
      split
      · rename_i hfast
        exact xEnum_tri E ts sts l sl sa da st v w hwf.1 hwf.2 hws.2 hfast (hc.1 hfast) hv hw
      · split
        · rename_i h; exact absurd h hh
        · obtain ⟨t, p, hsel, htm, hp, rfl⟩ := selectTerm_read hws.2 hv
          rw [hsel]
          simp only
          simp only [conv] at hw
          have hcc := hc.2 t htm
          have hwt := terms_WF sts hws.1 t htm
          split
          · rename_i hn
            rw [if_pos hn] at hcc hw
            exact Tri.cb (xNamed_tri E ts ts l t.name t.ty _ da st p w hwf.1 hwf.2 (fun _ h => h) ho.2
              hwt hcc (fun h => ho.1 h) hp hw) _ _
          · rename_i hn
            rw [if_neg hn] at hcc hw
            exact xAt_tri E ts ts l l.dflt t.ty _ _ da st p w hwf.1 hwf.2 (fun _ h => h) ho.2
              hwt hcc (fun h => ho.1 h) hp hw
    | int _ _ _ => obtain ⟨x, rfl⟩ := hk; simp [conv] at hw
    | float _ _ => obtain ⟨x, rfl⟩ := hk; simp [conv] at hw
    | struct _ _ _ => obtain ⟨x, rfl⟩ := hk; simp [conv] at hw
    | array _ _ _ _ => obtain ⟨x, rfl⟩ := hk; simp [conv] at hw
    | vector _ _ => obtain ⟨x, rfl⟩ := hk; simp [conv] at hw
  | .array e n esz al, src, hs, sa, da, st, v, w, hwf, hws, hc, ho, hh, hv, hw => by
    have hk := readVal_kind hv
    cases src with
    | unit =>
      cases hk
      simp only [conv] at hw
      simp only [xcode]
      exact dflt_keep_tri E _ hs da st w hwf (outAt_noOut _ _ _ ho (compat_unit_hasOut _ hc)) hh hw
    | array se sn sesz sal =>
      simp only [WF] at hwf hws
      simp only [Compat] at hc
      simp only [OutAt] at ho
      simp only [readVal] at hv
      split at hv
      · rename_i vs hvs
        cases hv
        obtain ⟨hvl, hvr⟩ := collect_some hvs
        simp only [conv] at hw
        split at hw
        · cases hw
        · rename_i ws hws'
          obtain ⟨hwl, hwr⟩ := mapAll_some hws'
          rw [List.length_take, hvl] at hwl
          simp only [xcode, Ty.size]
          -- the value of element `j`
          let W : Nat → Val := fun j => if j < min sn n then ws[j]?.getD .unit else (dfltVal e).getD .unit
          have hdv : ¬ n ≤ sn → ∃ d, dfltVal e = some d := by
            intro hlt
            rw [hvl, if_pos (by omega)] at hw
            split at hw
            · rename_i d hd; exact ⟨d, hd⟩
            · cases hw
          refine (Tri.seq (H := Head da (n * esz))
            (Tri.loop (Hj := fun j => Head (elemAt da esz j) e.size)
              (G := fun j => .good e (elemAt da esz j) (W j)) (min sn n) 0 st fun j s _ hj => ?_)
            (fun s _ => Tri.loop (Hj := fun j => Head (elemAt da esz j) e.size)
              (G := fun j => .good e (elemAt da esz j) (W j)) (n - min sn n) (min sn n) s
              fun j s h1 hj => ?_) ?_ ?_).weaken ?_
          · have hx : vs[j]? = some vs[j] := List.getElem?_eq_getElem (by omega)
            obtain ⟨y, hy1, hy2⟩ := hwr j vs[j] (by rw [List.getElem?_take, if_pos (by omega), hx])
            have hW : W j = y := by simp only [W]; rw [if_pos (by omega), hy1]; rfl
            rw [hW]
            have hr := hvr j (by omega)
            rw [Nat.zero_add, hx] at hr
            exact xcode_tri E e se [] _ _ s vs[j] y hwf.1 hws.1 hc (noOut_outAt _ _ _ ho) (HsOK_nil e)
              hr hy2
          · obtain ⟨d, hd⟩ := hdv (by omega)
            have hW : W j = d := by simp only [W]; rw [if_neg (by omega), hd]; rfl
            rw [hW]
            exact dflt_keep_tri E e [] _ s d hwf.1 ho (HsOK_nil e) hd
          · rintro a ⟨j, _, h2, ha⟩; exact elem_in (by omega) hwf.2 ha
          · rintro a ⟨j, _, h2, ha⟩; exact elem_in (by omega) hwf.2 ha
          · intro lo hi R m hP
            obtain ⟨hP1, hP2⟩ := hP (by
              rintro a ⟨j, _, h2, ha⟩ ⟨j', h3, h4, hb⟩
              exact elem_disj hwf.2 (by omega) ha hb)
            have hP1 := hP1 fun j j' _ h2 _ a ha => elem_disj hwf.2 h2 ha
            have hP2 := hP2 fun j j' _ h2 _ a ha => elem_disj hwf.2 h2 ha
            have hall : ∀ j, j < n → (Asrt.good e (elemAt da esz j) (W j)).P lo hi R m := by
              intro j hj
              by_cases h : j < min sn n
              · exact hP1 j (by omega) (by omega)
              · exact hP2 j (by omega) (by omega)
            rw [hvl] at hw
            have hfin : ∀ ws', w = .arr ws' → ws'.length = n →
                (∀ j x, ws'[j]? = some x → x = W j) →
                (Asrt.good (.array e n esz al) da w).P lo hi R m := by
              rintro ws' rfl hl hx
              refine good_array hl hwf.2 lo hi R m fun j x hj => ?_
              have := (List.getElem?_eq_some_iff.1 hj).1
              rw [hx j x hj]
              exact hall j (by omega)
            split at hw
            · split at hw
              · rename_i d hd
                cases hw
                refine hfin _ rfl (by simp; omega) fun j x hj => ?_
                rw [List.getElem?_append] at hj
                split at hj
                · simp only [W]; rw [if_pos (by omega), hj]; rfl
                · have h3 := List.getElem?_eq_some_iff.1 hj
                  obtain ⟨h4, h5⟩ := h3
                  simp only [List.getElem_replicate] at h5
                  simp only [W]; rw [if_neg (by omega), hd]; exact h5.symm
              · cases hw
            · cases hw
              refine hfin _ rfl (by omega) fun j x hj => ?_
              have := (List.getElem?_eq_some_iff.1 hj).1
              simp only [W]; rw [if_pos (by omega), hj]; rfl
      · cases hv
    | int _ _ _ => obtain ⟨x, rfl⟩ := hk; simp [conv] at hw
    | float _ _ => obtain ⟨x, rfl⟩ := hk; simp [conv] at hw
    | struct _ _ _ => obtain ⟨x, rfl⟩ := hk; simp [conv] at hw
    | variant _ _ => obtain ⟨x, y, rfl⟩ := hk; simp [conv] at hw
    | vector _ _ => obtain ⟨x, rfl⟩ := hk; simp [conv] at hw
  | .vector e l, src, hs, sa, da, st, v, w, hwf, hws, hc, ho, hh, hv, hw => by
    have hk := readVal_kind hv
    cases src with
    | unit =>
      cases hk
      simp only [conv] at hw
      simp only [xcode]
      exact dflt_keep_tri E _ hs da st w hwf (outAt_noOut _ _ _ ho (compat_unit_hasOut _ hc)) hh hw
    | vector se sl =>
      simp only [WF] at hwf hws
      simp only [Compat] at hc
      simp only [OutAt] at ho
      simp only [readVal] at hv
      split at hv
      · cases hv
      · rename_i n hn
        split at hv
        · rename_i hn63
          split at hv
          · rename_i vs hvs
            cases hv
            obtain ⟨hvl, hvr⟩ := collect_some hvs
            simp only [conv] at hw
            split at hw
            · rename_i ws hws'
              cases hw
              obtain ⟨hwl, hwr⟩ := mapAll_some hws'
              simp only [xcode, Ty.size]
              refine xVector_tri E _ e se.size se.align l sl sa da st n ws hwf.2 hws.2 hc.2 hn hn63
                (by rw [hwl, copyLength_eq vs hvl]) fun i y hy d s => ?_
              have hi : i < ws.length := (List.getElem?_eq_some_iff.1 hy).1
              have hiv : i < vs.length := by
                rw [hwl, copyLength_eq vs hvl] at hi
                have := copyLength_le_self l n; omega
              have hx : vs[i]? = some vs[i] := List.getElem?_eq_getElem hiv
              obtain ⟨y', hy1, hy2⟩ := hwr i vs[i] (by rw [cutTo_getElem? (by omega), hx])
              rw [hy] at hy1
              cases hy1
              have hr := hvr i (by omega)
              rw [Nat.zero_add, hx] at hr
              exact xcode_tri E e se [] _ d s vs[i] y hwf.1 hws.1 hc.1 (noOut_outAt _ _ _ ho)
                (HsOK_nil e) hr hy2
            · cases hw
          · cases hv
        · cases hv
    | int _ _ _ => obtain ⟨x, rfl⟩ := hk; simp [conv] at hw
    | float _ _ => obtain ⟨x, rfl⟩ := hk; simp [conv] at hw
    | struct _ _ _ => obtain ⟨x, rfl⟩ := hk; simp [conv] at hw
    | variant _ _ => obtain ⟨x, y, rfl⟩ := hk; simp [conv] at hw
    | array _ _ _ _ => obtain ⟨x, rfl⟩ := hk; simp [conv] at hw
termination_by structural t => t

theorem xFields_tri (E : Env) : ∀ (fs : Fields) (out : Bool) (sfs : Fields)
    (hs : Handlers) (sa da sz : Nat) (st : St) (vs ws : List (Comp × Val)), WFFields fs →
    FieldsLayout fs.toList sz → WFFields sfs → (sfs.toList.map (·.1)).Nodup → CompatFields fs sfs →
    (∃ p, OutAtFields fs da p ∧ (out = true → fs.hasOut = true → p = st.ptr)) → HsOKF fs hs →
    readFields E.S sfs sa = some vs → convFields E.fconv fs vs = some ws →
    Tri st (HF fs out da) (fieldsA out da fs ws) (xFields E fs out sfs [] hs sa da st)
  | .nil, out, sfs, hs, sa, da, sz, st, vs, ws, _, _, _, _, _, _, _, _, _ => by
    simp only [xFields]
    exact Tri.refl fun _ _ _ _ => by simp only [fieldsA]; trivial
  | .cons c off t r, out, sfs, hs, sa, da, sz, st, vs, ws, hwf, hl, hws, hnd, hc, ⟨p, ho, hp⟩, hh,
      hvs, hw => by
    simp only [WFFields] at hwf
    simp only [CompatFields] at hc
    simp only [OutAtFields] at ho
    simp only [HsOKF] at hh
    simp only [convFields] at hw
    split at hw
    · rename_i w ws' hw1 hws'
      cases hw
      simp only [xFields, fieldsA]
      by_cases hto : t.hasOut = out
      · rw [if_pos hto]
        have hcur : Tri st (Head (da + off) t.size) (.good t (da + off) w)
            (match sfs.findLast c with
            | some (so, sty) => xcode E t sty (Path.into [] c) (hs.into c) (sa + so) (da + off) st
            | none => keepBuf st (dflt E t (hs.into c) (da + off) st)) := by
          have hrf := readFields_find sfs vs c hvs
          have hc1 := hc.1
          have h1 := ho.1
          rw [find_eq_findLast sfs hnd] at *
          cases hfl : sfs.find c with
          | some x =>
            rw [hfl] at hrf hc1
            obtain ⟨v, hv1, hv2⟩ := hrf
            rw [hv1] at hw1
            simp only
            refine xcode_tri E t x.2 _ _ (da + off) st v w hwf.1
              (findLast_WF sfs c x.1 x.2 hws (by rw [find_eq_findLast sfs hnd, hfl])) hc1 ?_ hh.1 hv2 hw1
            cases h : t.hasOut with
            | true =>
              rw [h] at h1; simp only [if_true] at h1
              rw [← hp (by rw [← hto, h]) (by simp [Fields.hasOut, h])]
              exact h1.1
            | false =>
              rw [h] at h1
              exact noOut_outAt _ _ _ (by simpa using h1)
          | none =>
            rw [hfl] at hrf hc1
            simp only at hrf hc1
            rw [hrf] at hw1
            rw [hc1] at h1
            exact dflt_keep_tri E t _ (da + off) st w hwf.1 (by simpa using h1) hh.1 hw1
        refine (Tri.seq (H := HF (.cons c off t r) out da) hcur (fun s hs' =>
          xFields_tri E r out sfs hs sa da sz s vs ws' hwf.2 hl.tail hws hnd hc.2 ⟨p, ho.2, ?_⟩ hh.2 hvs
            hws') ?_ ?_).weaken ?_
        · intro hout hr
          have h1 := ho.1
          rw [hto, hout] at h1; simp only [if_true] at h1
          rw [hr] at h1; exact absurd h1.2 (by decide)
        · intro a ha; exact ⟨(c, off, t), by simp [Fields.toList], hto, ha⟩
        · rintro a ⟨x, hx, h1, h2⟩; exact ⟨x, by simp [Fields.toList, hx], h1, h2⟩
        · intro lo hi R m hP
          obtain ⟨hP1, hP2⟩ := hP fun a ha => head_HF_disj hl a ha
          exact ⟨fun _ => hP1, hP2⟩
      · rw [if_neg hto]
        simp only [Res.bind]
        refine (xFields_tri E r out sfs hs sa da sz st vs ws' hwf.2 hl.tail hws hnd hc.2
          ⟨p, ho.2, fun h1 h2 => hp h1 (by simp [Fields.hasOut, h2])⟩ hh.2 hvs hws').conseq ?_ ?_
        · rintro a ⟨x, hx, h1, h2⟩; exact ⟨x, by simp [Fields.toList, hx], h1, h2⟩
        · intro lo hi R m _ _ _ hP
          exact ⟨fun h => absurd h hto, hP⟩
    · cases hw
termination_by structural t => t

theorem xNamed_tri (E : Env) (ts0 : Terms) : ∀ (ts : Terms) (l : VarL) (c : Comp) (sty : Ty)
    (sa da : Nat) (st : St) (v w : Val), WFTerms ts → VarLayout ts0.toList l →
    (∀ t ∈ ts.toList, t ∈ ts0.toList) → ts.noOut → WF sty → CompatNamed ts c sty →
    (l.outline = true → st.ptr = da + l.termOff) → readVal E.S sty sa = some v →
    convNamed E.fconv ts c v = some w →
    Tri st (Head da l.size) (.good (.variant ts0 l) da w) (xNamed E ts l c sty sa da st)
  | .nil, l, c, sty, sa, da, st, v, w, _, _, _, _, _, _, _, _, hw => by simp [convNamed] at hw
  | .cons n g as t r, l, c, sty, sa, da, st, v, w, hwf, hl, hall, hno, hws, hc, ho, hv, hw => by
    simp only [WFTerms] at hwf
    simp only [Terms.toList, List.mem_cons, forall_eq_or_imp] at hall
    simp only [Terms.noOut] at hno
    simp only [CompatNamed] at hc
    simp only [convNamed] at hw
    have ih : convNamed E.fconv r c v = some w → Tri st (Head da l.size) (.good (.variant ts0 l) da w)
        (xNamed E r l c sty sa da st) := fun hw =>
      xNamed_tri E ts0 r l c sty sa da st v w hwf.2 hl hall.2 hno.2 hws hc.2 ho hv hw
    simp only [xNamed]
    split
    · rename_i hn
      rw [if_pos hn] at hw
      rw [termCond_eq hv]
      split at hw
      · cases hw
      · rename_i hat
        rw [hat]
        split at hw
        · rename_i x hx
          cases hw
          exact term_tri (t := ⟨n, g, as, t⟩) hall.1 hl ho fun s =>
            xcode_tri E t sty [] sa _ s v x hwf.1 hws (hc.1 hn) (noOut_outAt _ _ _ hno.1) (HsOK_nil t)
              hv hx
        · cases hw
      · rename_i hat
        rw [hat]
        exact ih hw
    · rename_i hn
      rw [if_neg hn] at hw
      exact ih hw
termination_by structural t => t

theorem xAt_tri (E : Env) (ts0 : Terms) : ∀ (ts : Terms) (l : VarL) (i : Nat) (sty : Ty)
    (hm : List (Comp × Nat)) (sa da : Nat) (st : St) (v w : Val), WFTerms ts →
    VarLayout ts0.toList l → (∀ t ∈ ts.toList, t ∈ ts0.toList) → ts.noOut → WF sty →
    CompatAt ts i sty → (l.outline = true → st.ptr = da + l.termOff) →
    readVal E.S sty sa = some v → convAt E.fconv ts i v = some w →
    Tri st (Head da l.size) (.good (.variant ts0 l) da w) (xAt E ts l i sty hm sa da st)
  | .nil, l, i, sty, hm, sa, da, st, v, w, _, _, _, _, _, _, _, _, hw => by simp [convAt] at hw
  | .cons n g as t r, l, 0, sty, hm, sa, da, st, v, w, hwf, hl, hall, hno, hws, hc, ho, hv, hw => by
    simp only [WFTerms] at hwf
    simp only [Terms.toList, List.mem_cons, forall_eq_or_imp] at hall
    simp only [Terms.noOut] at hno
    simp only [CompatAt] at hc
    simp only [convAt] at hw
    split at hw
    · rename_i x hat hx
      cases hw
      simp only [xAt]
      rw [termCond_eq hv, hat]
      exact Tri.cb (term_tri (t := ⟨n, g, as, t⟩) hall.1 hl ho fun s =>
        xcode_tri E t sty [] sa _ s v x hwf.1 hws hc (noOut_outAt _ _ _ hno.1) (HsOK_nil t) hv hx) _ _
    · cases hw
  | .cons n g as t r, l, i + 1, sty, hm, sa, da, st, v, w, hwf, hl, hall, hno, hws, hc, ho, hv, hw => by
    simp only [WFTerms] at hwf
    simp only [Terms.toList, List.mem_cons, forall_eq_or_imp] at hall
    simp only [Terms.noOut] at hno
    simp only [CompatAt] at hc
    simp only [convAt] at hw
    simp only [xAt]
    exact xAt_tri E ts0 r l i sty hm sa da st v w hwf.2 hl hall.2 hno.2 hws hc ho hv hw
termination_by structural t => t
end

end PJ
