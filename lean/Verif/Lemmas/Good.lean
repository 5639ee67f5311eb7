import Verif.Lemmas.Tri
import Verif.Props.C21_Dispatch
/-!
# Establishing `Asrt.good` for each kind of type, and defaults
-/
namespace PJ

mutual
/-- No handler path ends before a term of the variant it leads to. -/
def HsOK : Ty → Handlers → Prop
  | .struct fs _ _, hs => HsOKF fs hs
  | .variant _ _, hs => handlerMap hs ≠ none
  | _, _ => True
def HsOKF : Fields → Handlers → Prop
  | .nil, _ => True
  | .cons c _ t r, hs => HsOK t (hs.into c) ∧ HsOKF r hs
end

mutual
theorem HsOK_nil : ∀ t : Ty, HsOK t []
  | .int _ _ _ => by simp [HsOK]
  | .float _ _ => by simp [HsOK]
  | .unit => by simp [HsOK]
  | .struct fs _ _ => by simp only [HsOK]; exact HsOKF_nil fs
  | .variant _ _ => by simp [HsOK, handlerMap]
  | .array _ _ _ _ => by simp [HsOK]
  | .vector _ _ => by simp [HsOK]
theorem HsOKF_nil : ∀ fs : Fields, HsOKF fs []
  | .nil => by simp [HsOKF]
  | .cons c _ t r => by
    simp only [HsOKF]
    exact ⟨by simpa [Handlers.into] using HsOK_nil t, HsOKF_nil r⟩
end

theorem reloc_read {R : Nat → Prop} {m m2 : Mem} {k : Int} {lo hi base off n v : Nat}
    (hlo : lo ≤ base) (h4 : 0 ≤ (lo : Int) + k)
    (h6 : ∀ a : Nat, R a → m2 ((a : Int) + k).toNat = m a)
    (hw : (Asrt.word (base + off) n v).P lo hi R m) :
    readN m2 (((base : Int) + k).toNat + off) n = v := by
  rw [← hw.2]
  apply readN_congr
  intro i hi
  rw [← h6 _ (hw.1 i hi)]
  congr 1
  omega

theorem good_int {w : Nat} {s : Sign} {al da n : Nat} (lo hi : Nat) (R : Nat → Prop) (m : Mem)
    (h : (Asrt.word da w n).P lo hi R m) :
    (Asrt.good (.int w s al) da (.int (intValue w s n))).P lo hi R m := by
  intro h1 h2 m2 k hk h4 h5 h6
  refine ⟨?_, fun _ => trivial⟩
  have := reloc_read (off := 0) h1 h4 h6 h
  simp only [readVal]
  rw [← this]; simp

theorem good_float {w : Nat} {al da n : Nat} (lo hi : Nat) (R : Nat → Prop) (m : Mem)
    (h : (Asrt.word da w n).P lo hi R m) :
    (Asrt.good (.float w al) da (.float w n)).P lo hi R m := by
  intro h1 h2 m2 k hk h4 h5 h6
  refine ⟨?_, fun _ => trivial⟩
  have := reloc_read (off := 0) h1 h4 h6 h
  simp only [readVal]
  rw [← this]; simp

theorem good_unit {da : Nat} (lo hi : Nat) (R : Nat → Prop) (m : Mem) :
    (Asrt.good .unit da .unit).P lo hi R m := by
  intro _ _ m2 k _ _ _ _; exact ⟨rfl, fun _ => trivial⟩

/-- What a pass over the fields has written. -/
def fieldsA (out : Bool) (da : Nat) : Fields → List (Comp × Val) → Asrt
  | .cons _ o t r, (_, w) :: ws =>
    (Asrt.imp (fun _ _ => t.hasOut = out) (Asrt.good t (da + o) w)).and (fieldsA out da r ws)
  | _, _ => Asrt.top

def HF (fs : Fields) (out : Bool) (da : Nat) (a : Nat) : Prop :=
  ∃ x ∈ fs.toList, x.2.2.hasOut = out ∧ Head (da + x.2.1) x.2.2.size a

theorem readFields_good {lo hi da sz : Nat} {R : Nat → Prop} {m m2 : Mem} {k : Int}
    (h1 : lo ≤ da) (h2 : da + sz ≤ hi) (h4 : 0 ≤ (lo : Int) + k) (h5 : (hi : Int) + k < W64)
    (h6 : ∀ a : Nat, R a → m2 ((a : Int) + k).toNat = m a) :
    ∀ (fs : Fields) (ws : List (Comp × Val)), ws.map (·.1) = fs.toList.map (·.1) →
    (∀ x ∈ fs.toList, x.2.1 + x.2.2.size ≤ sz) → (k ≠ 0 → fs.reloc) →
    (fieldsA true da fs ws).P lo hi R m → (fieldsA false da fs ws).P lo hi R m →
    readFields m2 fs ((da : Int) + k).toNat = some ws ∧ (k = 0 → PtrsFields m2 fs [] ((da : Int) + k).toNat)
  | .nil, ws, hn, _, _, _, _ => by
    simp only [Fields.toList, List.map_nil, List.map_eq_nil_iff] at hn
    subst hn; exact ⟨rfl, fun _ => trivial⟩
  | .cons c o t r, [], hn, _, _, _, _ => by simp [Fields.toList] at hn
  | .cons c o t r, (c', w) :: ws, hn, hin, hk, ht, hf => by
    simp only [Fields.toList, List.map_cons, List.cons.injEq] at hn
    obtain ⟨rfl, hn⟩ := hn
    simp only [Fields.toList, List.mem_cons, forall_eq_or_imp] at hin
    have ih := readFields_good h1 h2 h4 h5 h6 r ws hn hin.2 (fun h => by
      have := hk h; simp only [Fields.reloc] at this; exact this.2) ht.2 hf.2
    have hg : (Asrt.good t (da + o) w).P lo hi R m := by
      cases ho : t.hasOut with
      | true => exact ht.1 ho
      | false => exact hf.1 ho
    have hv := hg (by omega) (by have := hin.1; omega) m2 k (fun h => by
      have := hk h; simp only [Fields.reloc] at this; exact this.1) h4 h5 h6
    have he : ((((da + o : Nat) : Int)) + k).toNat = ((da : Int) + k).toNat + o := by omega
    rw [he] at hv
    simp only [readFields, hv.1, ih.1]
    exact ⟨trivial, fun h => ⟨hv.2 h, ih.2 h⟩⟩

theorem good_struct {fs : Fields} {sz al da : Nat} {ws : List (Comp × Val)}
    (hn : ws.map (·.1) = fs.toList.map (·.1)) (hl : FieldsLayout fs.toList sz)
    (lo hi : Nat) (R : Nat → Prop) (m : Mem) (ht : (fieldsA true da fs ws).P lo hi R m)
    (hf : (fieldsA false da fs ws).P lo hi R m) :
    (Asrt.good (.struct fs sz al) da (.struct ws)).P lo hi R m := by
  intro h1 h2 m2 k hk h4 h5 h6
  simp only [Ty.size] at h2
  have := readFields_good h1 h2 h4 h5 h6 fs ws hn hl.inside (fun h => by
    have := hk h; simpa only [Ty.reloc] using this) ht hf
  simp only [readVal, this.1]
  exact ⟨trivial, this.2⟩

/-- The two passes write to different fields. -/
theorem HF_disj {fs : Fields} {sz da : Nat} (hl : FieldsLayout fs.toList sz) (a : Nat)
    (h1 : HF fs true da a) : ¬ HF fs false da a := by
  intro h2
  obtain ⟨x, hx, hxo, hxa⟩ := h1
  obtain ⟨y, hy, hyo, hya⟩ := h2
  obtain ⟨i, hi, rfl⟩ := List.getElem_of_mem hx
  obtain ⟨j, hj, rfl⟩ := List.getElem_of_mem hy
  have hp := List.pairwise_iff_getElem.1 hl.disj
  rcases Nat.lt_trichotomy i j with h | h | h
  · have := hp i j hi hj h; unfold Disj at this; unfold Head at *; omega
  · subst h; rw [hxo] at hyo; cases hyo
  · have := hp j i hj hi h; unfold Disj at this; unfold Head at *; omega

/-- A field is apart from the fields after it. -/
theorem head_HF_disj {c : Comp} {o : Nat} {t : Ty} {r : Fields} {sz da : Nat} {out : Bool}
    (hl : FieldsLayout (Fields.cons c o t r).toList sz) (a : Nat) (h1 : Head (da + o) t.size a) :
    ¬ HF r out da a := by
  rintro ⟨y, hy, _, hya⟩
  have := (List.pairwise_cons.1 hl.disj).1 y hy
  simp only [Disj] at this; unfold Head at *; omega

theorem HF_head {fs : Fields} {sz da : Nat} {out : Bool} (hl : FieldsLayout fs.toList sz) (a : Nat)
    (h : HF fs out da a) : Head da sz a := by
  obtain ⟨x, hx, _, hxa⟩ := h
  have := hl.inside x hx
  unfold Head at *; omega

theorem terms_reloc : ∀ (ts : Terms), ts.reloc → ∀ t ∈ ts.toList, t.ty.reloc
  | .nil, _, t, ht => by simp [Terms.toList] at ht
  | .cons n g a t' r, h, t, ht => by
    simp only [Terms.reloc] at h
    simp only [Terms.toList, List.mem_cons] at ht
    rcases ht with rfl | ht
    · exact h.1
    · exact terms_reloc r h.2 t ht

/-- Reading a variant whose tag is the tag of a term. -/
theorem readTerm_of_mem (m : Mem) (a : Nat) : ∀ (ts : Terms), (ts.toList.map (·.tag)).Nodup →
    ∀ t ∈ ts.toList, readTerm m ts t.tag a = (readVal m t.ty a).map (Val.variant t.name)
  | .nil, _, t, ht => by simp [Terms.toList] at ht
  | .cons n g as t' r, hnd, t, ht => by
    simp only [Terms.toList, List.map_cons, List.nodup_cons, List.mem_map, not_exists, not_and] at hnd
    simp only [Terms.toList, List.mem_cons] at ht
    rcases ht with rfl | ht
    · simp only [readTerm, if_true]
      cases readVal m t' a <;> rfl
    · simp only [readTerm]
      rw [if_neg (fun h => hnd.1 t ht h.symm)]
      exact readTerm_of_mem m a r hnd.2 t ht

theorem readTerm_some {m : Mem} {raw a : Nat} {v : Val} : ∀ {ts : Terms},
    readTerm m ts raw a = some v → ∃ t ∈ ts.toList, t.tag = raw ∧
      ∃ p, readVal m t.ty a = some p ∧ v = .variant t.name p
  | .nil, h => by simp [readTerm] at h
  | .cons n g as t' r, h => by
    simp only [readTerm] at h
    split at h
    · rename_i hg
      split at h
      · rename_i p hp
        cases h
        exact ⟨⟨n, g, as, t'⟩, by simp [Terms.toList], hg, p, hp, rfl⟩
      · cases h
    · obtain ⟨t, ht, h1, h2⟩ := readTerm_some h
      exact ⟨t, by simp [Terms.toList, ht], h1, h2⟩

/-- The term with the stored tag is selected. -/
theorem selectTerm_tag {S : Mem} {sts : Terms} {sl : VarL} {sa : Nat} {t : Term} (hl : VarLayout sts.toList sl)
    (ht : t ∈ sts.toList) (hraw : readN S (sa + sl.tagOff) sl.tagW = t.tag) :
    selectTerm S sts sl [] sa = some (some t) := by
  have hd : DispatchCorrect (sts.toList.map fun t => (t.tag, some t)) := by
    apply C21_dispatch_partial
    · have := hl.tags
      rw [List.map_map]; exact this
    · intro x hx
      simp only [List.mem_map] at hx
      obtain ⟨y, hy, rfl⟩ := hx
      have := (hl.tagLt y hy).2
      simp only; omega
    · left
      intro x hx
      simp only [List.mem_map] at hx
      obtain ⟨y, hy, rfl⟩ := hx
      exact (hl.tagLt y hy).2
  unfold selectTerm
  simp only
  cases sts with
  | nil => simp [Terms.toList] at ht
  | cons n g as t' r =>
    simp only
    rw [if_neg (by have := hl.tagW; omega)]
    congr 1
    refine (hd none _).1 (some t) ?_
    exact List.mem_map.2 ⟨t, ht, by rw [hraw]⟩

theorem term_tag_inj {ts : List Term} (h : (ts.map (·.tag)).Nodup) {x t : Term} (hx : x ∈ ts) (ht : t ∈ ts)
    (he : x.tag = t.tag) : x = t := by
  induction ts with
  | nil => cases hx
  | cons y ys ih =>
    simp only [List.map_cons, List.nodup_cons, List.mem_map, not_exists, not_and] at h
    simp only [List.mem_cons] at hx ht
    rcases hx with rfl | hx <;> rcases ht with rfl | ht
    · rfl
    · exact absurd he.symm (h.1 t ht)
    · exact absurd he (h.1 x hx)
    · exact ih h.2 hx ht

theorem ptrsTerms_of {m : Mem} {c : Comp} {g a : Nat} : ∀ {ts : Terms},
    (∀ x ∈ ts.toList, x.tag = g → Ptrs m x.ty [] a) → PtrsTerms m ts c g a
  | .nil, _ => trivial
  | .cons n h as t r, H => ⟨fun hg => H ⟨n, h, as, t⟩ (by simp [Terms.toList]) hg.2,
      ptrsTerms_of fun x hx => H x (by simp [Terms.toList, hx])⟩

theorem good_variant {ts : Terms} {l : VarL} {da : Nat} {t : Term} {w : Val} (ht : t ∈ ts.toList)
    (hl : VarLayout ts.toList l) (lo hi : Nat) (R : Nat → Prop) (m : Mem)
    (htag : (Asrt.word (da + l.tagOff) l.tagW t.tag).P lo hi R m)
    (hg : (Asrt.good t.ty (da + l.termOff) w).P lo hi R m)
    (hb : l.outline = true → da + l.termOff + t.ty.size ≤ hi) :
    (Asrt.good (.variant ts l) da (.variant t.name w)).P lo hi R m := by
  intro h1 h2 m2 k hk h4 h5 h6
  simp only [Ty.size] at h2
  simp only [readVal]
  have hraw := reloc_read h1 h4 h6 htag
  rw [hraw, readTerm_of_mem m2 _ ts hl.tags t ht]
  have hb' : da + l.termOff + t.ty.size ≤ hi := by
    cases ho : l.outline with
    | true => exact hb ho
    | false => have := hl.inside ho t ht; omega
  have := hg (by omega) hb' m2 k (fun h => terms_reloc ts (by simpa [Ty.reloc] using hk h) t ht)
    h4 h5 h6
  rw [show ((((da + l.termOff : Nat) : Int)) + k).toNat = ((da : Int) + k).toNat + l.termOff by omega]
    at this
  refine ⟨by rw [this.1]; rfl, fun h0 t' ht' => ?_⟩
  rw [selectTerm_tag hl ht hraw] at ht'
  cases ht'
  exact ptrsTerms_of (fun x hx hg => by rw [term_tag_inj hl.tags hx ht hg]; exact this.2 h0)

theorem Tri.cb {st : St} {H : Nat → Prop} {G : Asrt} {r : Res} (h : Tri st H G r)
    (hm : List (Comp × Nat)) (n : Comp) : Tri st H G (r.bind (setCb hm n)) := by
  cases r with
  | ok s =>
    simp only [Res.bind, setCb]
    split
    · exact h
    · exact h
  | throw s => exact h
  | ub => exact h

/-- Tag, allocation, payload. -/
theorem term_tri {ts : Terms} {l : VarL} {da : Nat} {t : Term} {w : Val} (ht : t ∈ ts.toList)
    (hl : VarLayout ts.toList l) {st : St} (hout : l.outline = true → st.ptr = da + l.termOff)
    {k : St → Res}
    (hk : ∀ s, Tri s (Head (da + l.termOff) t.ty.size) (.good t.ty (da + l.termOff) w) (k s)) :
    Tri st (Head da l.size) (.good (.variant ts l) da (.variant t.name w))
      ((beginTerm l da t.tag t.ty.size st).bind k) := by
  have htag := hl.tagIn
  have htw := hl.tagW
  have hlt := (hl.tagLt t ht).1
  unfold beginTerm storeTag
  rw [if_neg (by omega)]
  rw [Res.bind_assoc]
  cases ho : l.outline with
  | false =>
    simp only [Bool.false_eq_true, if_false]
    refine (Tri.seq (H := Head da l.size) (Tri.store _ _ _ _) (fun s _ => hk s) ?_ ?_).weaken ?_
    · intro a ha; unfold Head at *; omega
    · intro a ha; have := hl.inside ho t ht; unfold Head at *; omega
    · intro lo hi R m hP
      obtain ⟨hP1, hP2⟩ := hP (by
        intro a h1 h2
        have := hl.disj ho t ht
        unfold Disj at this; unfold Head at *; omega)
      rw [Nat.mod_eq_of_lt hlt] at hP1
      exact good_variant ht hl lo hi R m hP1 hP2 (by simp [ho])
  | true =>
    simp only [if_true]
    have hp := hout ho
    refine (Tri.seq (H := Head da l.size) (H2 := fun _ => False)
      (G2 := Asrt.imp (fun _ hi => da + l.termOff + t.ty.size ≤ hi → True)
        ((Asrt.good t.ty (da + l.termOff) w).and
          (Asrt.imp (fun _ hi => ¬ da + l.termOff + t.ty.size ≤ hi)
            ⟨fun _ _ _ _ => False, fun h _ _ => h⟩)))
      (Tri.store st _ _ _) (fun s hs => ?_) ?_ ?_).weaken ?_
    · cases hs
      have hp' : (st.store (da + l.tagOff) l.tagW t.tag).ptr = da + l.termOff := hp
      refine Tri.allocd fun s hs => ?_
      refine (hk s).conseq ?_ ?_
      · intro a ha; right; rw [hp']; exact ha
      · intro lo hi R m _ _ _ hg ⟨_, hh, _⟩ _
        rw [hp'] at hh
        exact ⟨hg, fun hc => absurd hh hc⟩
    · intro a ha; unfold Head at *; omega
    · intro a ha; exact absurd ha id
    · intro lo hi R m hP
      obtain ⟨hP1, hP2⟩ := hP (fun a _ h => h)
      obtain ⟨hP2, hP3⟩ := hP2 (fun _ => trivial)
      rw [Nat.mod_eq_of_lt hlt] at hP1
      refine good_variant ht hl lo hi R m hP1 hP2 fun _ => ?_
      exact Classical.byContradiction fun hc => hP3 hc

theorem unitCond_eq : ∀ as : List Attr, unitCond as = attrsAllow .unit as
  | [] => rfl
  | .undef d :: r => by simp only [unitCond, attrsAllow, unitCond_eq r]
  | .split _ _ p :: r => by
    simp only [unitCond, attrsAllow]
    rcases p with _ | ⟨c, _ | ⟨c', p⟩⟩ <;> simp [lenAt]

theorem dfltFieldsVal_names : ∀ (fs : Fields) (ws : List (Comp × Val)),
    dfltFieldsVal fs = some ws → ws.map (·.1) = fs.toList.map (·.1)
  | .nil, ws, h => by simp [dfltFieldsVal] at h; subst h; simp [Fields.toList]
  | .cons c o t r, ws, h => by
    simp only [dfltFieldsVal] at h
    split at h
    · rename_i v vs hv hvs
      cases h
      simp [Fields.toList, dfltFieldsVal_names r vs hvs]
    · cases h

theorem qNaN_lt {w : Nat} (h : w = 4 ∨ w = 8) : qNaN w < 256 ^ w := by
  rcases h with rfl | rfl <;> decide

theorem elem_disj {da w esz j j' a : Nat} (he : esz ≤ w) (hj : j < j')
    (h1 : Head (elemAt da w j) esz a) : ¬ Head (elemAt da w j') esz a := by
  intro h2
  have : (j + 1) * w ≤ j' * w := Nat.mul_le_mul_right w hj
  rw [Nat.succ_mul] at this
  unfold Head elemAt at *; omega

theorem good_array {e : Ty} {n esz al da : Nat} {ws : List Val} (hl : ws.length = n)
    (he : e.size ≤ esz) (lo hi : Nat) (R : Nat → Prop) (m : Mem)
    (hg : ∀ j w, ws[j]? = some w → (Asrt.good e (elemAt da esz j) w).P lo hi R m) :
    (Asrt.good (.array e n esz al) da (.arr ws)).P lo hi R m := by
  intro h1 h2 m2 k hk h4 h5 h6
  simp only [Ty.size] at h2
  simp only [readVal]
  have key : ∀ j (hj : j < n), readVal m2 e (elemAt ((da : Int) + k).toNat esz j) = ws[j]? ∧
      (k = 0 → Ptrs m2 e [] (elemAt ((da : Int) + k).toNat esz j)) := ?_
  · rw [collect_of hl fun j hj => by rw [Nat.zero_add]; exact (key j hj).1]
    exact ⟨rfl, fun h0 j hj => (key j hj).2 h0⟩
  intro j hj
  have hw : ws[j]? = some ws[j] := List.getElem?_eq_getElem (by omega)
  have hle : (j + 1) * esz ≤ n * esz := Nat.mul_le_mul_right esz hj
  rw [Nat.succ_mul] at hle
  have := hg j _ hw (by unfold elemAt; omega) (by unfold elemAt; omega) m2 k
    (fun h => by have := hk h; simpa only [Ty.reloc] using this) h4 h5 h6
  rw [show ((elemAt da esz j : Nat) + k).toNat = elemAt ((da : Int) + k).toNat esz j by unfold elemAt; omega] at this
  rw [hw]
  exact this

mutual
theorem dflt_tri (E : Env) : ∀ (t : Ty) (hs : Handlers) (da : Nat) (st : St) (w : Val), WF t →
    t.noOut → HsOK t hs → dfltVal t = some w →
    Tri st (Head da t.size) (.good t da w) (dflt E t hs da st)
  | .int w s al, hs, da, st, v, hwf, _, _, hv => by
    simp only [WF] at hwf
    simp only [dfltVal, Option.some.injEq] at hv
    subst hv
    simp only [dflt]
    rw [if_neg (by omega)]
    refine (Tri.store st da w 0).weaken fun lo hi R m h => ?_
    have := good_int (s := s) (al := al) lo hi R m h
    have hp := Nat.pow_pos (n := w) (show 0 < 256 by decide)
    have h0 : intValue w s (0 % 256 ^ w) = 0 := by
      rw [Nat.zero_mod]; unfold intValue toSigned; split <;> simp
    rw [h0] at this
    exact this
  | .float w al, hs, da, st, v, hwf, _, _, hv => by
    simp only [WF] at hwf
    simp only [dfltVal, Option.some.injEq] at hv
    subst hv
    simp only [dflt]
    rw [if_pos hwf]
    refine (Tri.store st da w (qNaN w)).weaken fun lo hi R m h => ?_
    rw [Nat.mod_eq_of_lt (qNaN_lt hwf)] at h
    exact good_float lo hi R m h
  | .unit, hs, da, st, v, hwf, _, _, hv => by
    simp only [dfltVal, Option.some.injEq] at hv
    subst hv
    simp only [dflt]
    exact Tri.refl fun lo hi R m => good_unit lo hi R m
  | .struct fs sz al, hs, da, st, v, hwf, hno, hh, hv => by
    simp only [WF] at hwf
    simp only [Ty.noOut] at hno
    simp only [HsOK] at hh
    simp only [dfltVal] at hv
    split at hv
    · rename_i ws hws
      cases hv
      simp only [dflt, Ty.size]
      have h0 : FrmRes (Head da sz) st (.ok (st.poison E.J da sz)) :=
        Frm.poison _ _ _ _ fun x h1 h2 => ⟨h1, h2⟩
      refine Tri.pre (r := .ok (st.poison E.J da sz))
        (f := fun s => (dfltFields E fs true hs da s).bind (dfltFields E fs false hs da)) h0 trivial
        fun s _ => ?_
      refine (Tri.seq (H := Head da sz) (dfltFields_tri E fs true hs da sz s ws hwf.1 hno hh hws hwf.2)
        (fun s' _ => dfltFields_tri E fs false hs da sz s' ws hwf.1 hno hh hws hwf.2)
        (HF_head hwf.2) (HF_head hwf.2)).weaken ?_
      intro lo hi R m hP
      obtain ⟨hP1, hP2⟩ := hP (HF_disj hwf.2)
      exact good_struct (dfltFieldsVal_names fs ws hws) hwf.2 lo hi R m hP1 hP2
    · cases hv
  | .variant ts l, hs, da, st, v, hwf, hno, hh, hv => by
    simp only [WF] at hwf
    simp only [Ty.noOut] at hno
    simp only [HsOK] at hh
    simp only [dfltVal] at hv
    simp only [dflt, Ty.size]
    split
    · rename_i h; exact absurd h hh
    · exact dfltAt_tri E ts ts l l.dflt _ da st v hwf.1 hno.2 hwf.2 (fun _ h => h) hno.1 hv
  | .array e n esz al, hs, da, st, v, hwf, hno, hh, hv => by
    simp only [WF] at hwf
    simp only [Ty.noOut] at hno
    simp only [dfltVal] at hv
    split at hv
    · rename_i w hw
      cases hv
      simp only [dflt, Ty.size]
      refine (Tri.loop (Hj := fun j => Head (elemAt da esz j) e.size)
        (G := fun j => .good e (elemAt da esz j) w) n 0 st fun j s _ _ => ?_).conseq ?_ ?_
      · rw [keepBuf_eq (dflt_frame E e [] _ s hwf.1 hno)]
        exact dflt_tri E e [] _ s w hwf.1 hno (HsOK_nil e) hw
      · rintro a ⟨j, _, h2, ha⟩; exact elem_in (by omega) hwf.2 ha
      · intro lo hi R m _ _ _ hP
        have := hP fun j j' _ h2 _ a ha => elem_disj hwf.2 h2 ha
        refine good_array (by simp) hwf.2 lo hi R m fun j w' hj => ?_
        have hj' := List.getElem?_eq_some_iff.1 hj
        obtain ⟨hlt, rfl⟩ := hj'
        simp only [List.length_replicate] at hlt
        simpa using this j (by omega) (by omega)
    · cases hv
  | .vector e l, hs, da, st, v, hwf, hno, hh, hv => by
    simp only [WF] at hwf
    simp only [dfltVal, Option.some.injEq] at hv
    subst hv
    have h1 := hwf.2.lenSize
    have h2 := hwf.2.lenIn
    simp only [dflt, Ty.size]
    unfold storeLength
    rw [if_neg (by omega)]
    refine (Tri.store st (da + l.lenOff) l.lenSize 0).conseq ?_ ?_
    · intro a ha; unfold Head at *; omega
    · intro lo hi R m _ _ _ hP hlo hhi m2 k hk h4 h5 h6
      have := reloc_read hlo h4 h6 hP
      rw [Nat.zero_mod] at this
      simp only [readVal]
      have hlen : lengthOp m2 l ((da : Int) + k).toNat = some 0 := by
        unfold lengthOp
        rw [this]
        split
        · rw [if_neg (by omega)]
        · split
          · rfl
          · rw [if_neg (by omega)]; simp
      rw [hlen]
      refine ⟨by simp [collect], fun _ n hn => ?_⟩
      rw [hlen] at hn
      cases hn
      have hp := hwf.2.ppl
      refine ⟨fun _ i hi => absurd hi (by omega), fun ho => ?_⟩
      have := isInl_false.1 ho
      exact ⟨fun i hi => absurd hi (by omega), fun hi => absurd hi (by omega), fun i hi => absurd hi (by omega)⟩

theorem dfltFields_tri (E : Env) : ∀ (fs : Fields) (out : Bool) (hs : Handlers) (da sz : Nat)
    (st : St) (ws : List (Comp × Val)), WFFields fs → fs.noOut → HsOKF fs hs →
    dfltFieldsVal fs = some ws → FieldsLayout fs.toList sz →
    Tri st (HF fs out da) (fieldsA out da fs ws) (dfltFields E fs out hs da st)
  | .nil, out, hs, da, sz, st, ws, _, _, _, hv, _ => by
    simp only [dfltFields]
    exact Tri.refl fun _ _ _ _ => by simp only [fieldsA]; trivial
  | .cons c off t r, out, hs, da, sz, st, ws, hwf, hno, hh, hv, hl => by
    simp only [WFFields] at hwf
    simp only [Fields.noOut] at hno
    simp only [HsOKF] at hh
    simp only [dfltFieldsVal] at hv
    split at hv
    · rename_i v vs hv1 hvs
      cases hv
      simp only [dfltFields, fieldsA]
      have ih := fun s => dfltFields_tri E r out hs da sz s vs hwf.2 hno.2 hh.2 hvs hl.tail
      by_cases ho : t.hasOut = out
      · rw [if_pos ho, keepBuf_eq (dflt_frame E t _ _ st hwf.1 hno.1)]
        refine (Tri.seq (H := HF (.cons c off t r) out da)
          (dflt_tri E t (hs.into c) (da + off) st v hwf.1 hno.1 hh.1 hv1) (fun s _ => ih s) ?_ ?_).weaken ?_
        · intro a ha; exact ⟨(c, off, t), by simp [Fields.toList], ho, ha⟩
        · rintro a ⟨x, hx, h1, h2⟩; exact ⟨x, by simp [Fields.toList, hx], h1, h2⟩
        · intro lo hi R m hP
          obtain ⟨hP1, hP2⟩ := hP fun a ha => head_HF_disj hl a ha
          exact ⟨fun _ => hP1, hP2⟩
      · rw [if_neg ho]
        refine (ih st).conseq ?_ ?_
        · rintro a ⟨x, hx, h1, h2⟩; exact ⟨x, by simp [Fields.toList, hx], h1, h2⟩
        · intro lo hi R m _ _ _ hP
          exact ⟨fun h => absurd h ho, hP⟩
    · cases hv

theorem dfltAt_tri (E : Env) (ts0 : Terms) : ∀ (ts : Terms) (l : VarL) (i : Nat)
    (hm : List (Comp × Nat)) (da : Nat) (st : St) (w : Val), WFTerms ts → ts.noOut →
    VarLayout ts0.toList l → (∀ t ∈ ts.toList, t ∈ ts0.toList) → l.outline = false →
    dfltTermVal ts i = some w →
    Tri st (Head da l.size) (.good (.variant ts0 l) da w) (dfltAt E ts l i hm da st)
  | .nil, l, i, hm, da, st, w, _, _, _, _, _, hv => by simp [dfltTermVal] at hv
  | .cons n g as t r, l, 0, hm, da, st, w, hwf, hno, hl, hall, ho, hv => by
    simp only [WFTerms] at hwf
    simp only [Terms.noOut] at hno
    simp only [Terms.toList, List.mem_cons, forall_eq_or_imp] at hall
    simp only [dfltTermVal] at hv
    split at hv
    · rename_i v hc hv1
      cases hv
      simp only [dfltAt]
      rw [unitCond_eq, hc]
      simp only
      refine Tri.cb (term_tri (t := ⟨n, g, as, t⟩) hall.1 hl (by simp [ho]) fun s => ?_) _ _
      rw [keepBuf_eq (dflt_frame E t _ _ s hwf.1 hno.1)]
      exact dflt_tri E t [] _ s v hwf.1 hno.1 (HsOK_nil t) hv1
    · cases hv
  | .cons n g as t r, l, i + 1, hm, da, st, w, hwf, hno, hl, hall, ho, hv => by
    simp only [WFTerms] at hwf
    simp only [Terms.noOut] at hno
    simp only [Terms.toList, List.mem_cons, forall_eq_or_imp] at hall
    simp only [dfltTermVal] at hv
    simp only [dfltAt]
    exact dfltAt_tri E ts0 r l i hm da st w hwf.2 hno.2 hl hall.2 ho hv
end

end PJ
