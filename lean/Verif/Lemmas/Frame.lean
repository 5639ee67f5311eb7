import Verif.Spec.Layout
/-!
# Frame lemma

A transcode call changes only its destination object and the buffer bytes it asked for.
-/
namespace PJ

/-- From `st` to `s'` only addresses in `H` and in the buffer area asked for in between have
changed. -/
def Frm (H : Nat → Prop) (st s' : St) : Prop :=
  st.ptr < W64 →
  s'.rem.isSome = st.rem.isSome ∧
  ∃ d, s'.used = st.used + d ∧ s'.ptr = (st.ptr + d) % W64 ∧
    (st.ptr + d < W64 → ∀ a, ¬ H a → ¬ (st.ptr ≤ a ∧ a < st.ptr + d) → s'.mem a = st.mem a)

def FrmRes (H : Nat → Prop) (st : St) : Res → Prop
  | .ok s => Frm H st s
  | .throw s => Frm H st s
  | .ub => True

theorem Frm.refl (H) (st : St) : Frm H st st := by
  intro h
  exact ⟨rfl, 0, rfl, (Nat.mod_eq_of_lt h).symm, fun _ _ _ _ => rfl⟩

theorem Frm.mono {H H' : Nat → Prop} {st s' : St} (h : Frm H st s') (hH : ∀ a, H a → H' a) :
    Frm H' st s' := by
  intro hp
  obtain ⟨hr, d, h1, h2, h3⟩ := h hp
  exact ⟨hr, d, h1, h2, fun hw a ha hb => h3 hw a (fun h => ha (hH a h)) hb⟩

theorem FrmRes.mono {H H' : Nat → Prop} {st : St} {r : Res} (h : FrmRes H st r)
    (hH : ∀ a, H a → H' a) : FrmRes H' st r := by
  cases r with
  | ok s => exact Frm.mono h hH
  | throw s => exact Frm.mono h hH
  | ub => trivial

/-- Sequencing where the second part may also write to the area the first part asked for. -/
theorem Frm.absorb {H H' : Nat → Prop} {st s1 s2 : St} (h1 : Frm H st s1) (h2 : Frm H' s1 s2)
    (hH : ∀ d, s1.used = st.used + d → st.ptr + d < W64 → s1.ptr = st.ptr + d →
      ∀ a, H' a → H a ∨ (st.ptr ≤ a ∧ a < st.ptr + d)) : Frm H st s2 := by
  intro hp
  obtain ⟨hr, d, hu, hptr, hm⟩ := h1 hp
  have hp1 : s1.ptr < W64 := by rw [hptr]; exact Nat.mod_lt _ (by decide)
  obtain ⟨hr2, d2, hu2, hptr2, hm2⟩ := h2 hp1
  refine ⟨by rw [hr2, hr], d + d2, by omega, ?_, ?_⟩
  · rw [hptr2, hptr, Nat.mod_add_mod, Nat.add_assoc]
  · intro hw a ha hb
    have hpe : s1.ptr = st.ptr + d := by rw [hptr]; exact Nat.mod_eq_of_lt (by omega)
    rw [hm2 (by omega) a ?_ (by omega)]
    · exact hm (by omega) a ha (by omega)
    · intro hc
      rcases hH d hu (by omega) hpe a hc with h | h
      · exact ha h
      · exact hb (by omega)

theorem FrmRes.absorb {H : Nat → Prop} {H' : St → Nat → Prop} {st : St} {r : Res} {f : St → Res}
    (h1 : FrmRes H st r) (h2 : ∀ s, r = .ok s → FrmRes (H' s) s (f s))
    (hH : ∀ s d, r = .ok s → s.used = st.used + d → st.ptr + d < W64 → s.ptr = st.ptr + d →
      ∀ a, H' s a → H a ∨ (st.ptr ≤ a ∧ a < st.ptr + d)) : FrmRes H st (r.bind f) := by
  cases r with
  | ok s =>
    have h2 := h2 s rfl
    simp only [Res.bind]
    cases hf : f s with
    | ok s2 => rw [hf] at h2; exact Frm.absorb h1 h2 (fun d => hH s d rfl)
    | throw s2 => rw [hf] at h2; exact Frm.absorb h1 h2 (fun d => hH s d rfl)
    | ub => trivial
  | throw s => exact h1
  | ub => trivial

theorem FrmRes.bind {H : Nat → Prop} {st : St} {r : Res} {f : St → Res}
    (h1 : FrmRes H st r) (h2 : ∀ s, r = .ok s → FrmRes H s (f s)) : FrmRes H st (r.bind f) :=
  FrmRes.absorb (H' := fun _ => H) h1 h2 (fun _ _ _ _ _ _ _ h => Or.inl h)

theorem FrmRes.loop {H : Nat → Prop} {body : Nat → St → Res} (n i : Nat) (st : St)
    (h : ∀ j s, i ≤ j → j < i + n → FrmRes H s (body j s)) : FrmRes H st (loop body n i st) := by
  induction n generalizing i st with
  | zero => exact Frm.refl H st
  | succ n ih =>
    exact FrmRes.bind (h i st (by omega) (by omega)) fun s _ => ih (i + 1) s fun j s hj hj' =>
      h j s (by omega) (by omega)

theorem Frm.memOnly {H : Nat → Prop} {st s' : St} (h1 : s'.ptr = st.ptr) (h2 : s'.rem = st.rem)
    (h3 : s'.used = st.used) (h4 : ∀ a, ¬ H a → s'.mem a = st.mem a) : Frm H st s' := by
  intro hp
  exact ⟨by rw [h2], 0, h3, by rw [h1]; exact (Nat.mod_eq_of_lt hp).symm, fun _ a ha _ => h4 a ha⟩

theorem Frm.store {H : Nat → Prop} (st : St) (a k n : Nat)
    (h : ∀ x, a ≤ x → x < a + k → H x) : Frm H st (st.store a k n) := by
  refine Frm.memOnly (s' := st.store a k n) rfl rfl rfl ?_
  intro x hx
  exact writeN_out _ _ _ _ _ (by
    by_cases h1 : a ≤ x
    · by_cases h2 : x < a + k
      · exact absurd (h x h1 h2) hx
      · omega
    · omega)

theorem Frm.poison {H : Nat → Prop} (st : St) (J : Mem) (a n : Nat)
    (h : ∀ x, a ≤ x → x < a + n → H x) : Frm H st (st.poison J a n) := by
  refine Frm.memOnly (s' := st.poison J a n) rfl rfl rfl ?_
  intro x hx
  exact poisonMem_out _ _ _ _ _ (by
    by_cases h1 : a ≤ x
    · by_cases h2 : x < a + n
      · exact absurd (h x h1 h2) hx
      · omega
    · omega)

theorem FrmRes.alloc (H : Nat → Prop) (st : St) (n : Nat) : FrmRes H st (alloc st n) := by
  unfold PJ.alloc
  split
  · rename_i hr
    intro hp
    exact ⟨rfl, n, rfl, rfl, fun _ _ _ _ => rfl⟩
  · rename_i r hr
    split
    · exact Frm.refl H st
    · intro hp
      exact ⟨by simp [hr], n, rfl, rfl, fun _ _ _ _ => rfl⟩

/-- `alloc` asks for exactly `n` bytes and changes no memory. -/
theorem alloc_ok {st s : St} {n : Nat} (h : alloc st n = .ok s) :
    s.mem = st.mem ∧ s.used = st.used + n ∧ s.ptr = (st.ptr + n) % W64 ∧ s.cb = st.cb := by
  unfold PJ.alloc at h
  split at h
  · cases h; exact ⟨rfl, rfl, rfl, rfl⟩
  · split at h
    · cases h
    · cases h; exact ⟨rfl, rfl, rfl, rfl⟩

theorem FrmRes.alignTo (H : Nat → Prop) (st : St) (al : Nat) : FrmRes H st (alignTo st al) := by
  unfold PJ.alignTo
  split
  · exact Frm.refl H st
  · split
    · exact FrmRes.alloc H st _
    · trivial

theorem FrmRes.storeLength {H : Nat → Prop} (l : VecL) (da n : Nat) (st : St)
    (h : ∀ x, da + l.lenOff ≤ x → x < da + l.lenOff + l.lenSize → H x) :
    FrmRes H st (storeLength l da n st) := by
  unfold PJ.storeLength
  split
  · trivial
  · exact Frm.store _ _ _ _ h

theorem FrmRes.storeRef {H : Nat → Prop} (l : VecL) (da : Nat) (st : St) (h8 : l.refSize = 8)
    (h : ∀ x, da + l.refOff ≤ x → x < da + l.refOff + 8 → H x) :
    FrmRes H st (storeRef l da st) := by
  unfold PJ.storeRef
  split
  · rw [if_pos h8]; exact Frm.store _ _ _ _ h
  · rw [h8]; exact Frm.store _ _ _ _ h

theorem storeRef_ok {l : VecL} {da : Nat} {st s : St} (h : storeRef l da st = .ok s) :
    s.ptr = st.ptr ∧ s.used = st.used ∧ s.rem = st.rem := by
  unfold PJ.storeRef at h
  split at h <;> split at h <;> first | cases h | skip
  all_goals exact ⟨rfl, rfl, rfl⟩

theorem FrmRes.setCb (H : Nat → Prop) (hm : List (Comp × Nat)) (n : Comp) (st : St) :
    FrmRes H st (setCb hm n st) := by
  unfold PJ.setCb
  split
  · exact Frm.memOnly rfl rfl rfl (fun _ _ => rfl)
  · exact Frm.refl H st

/-- Only memory in `H` and the callback slot changed; no buffer was used, no failure. -/
def DRes (H : Nat → Prop) (st : St) : Res → Prop
  | .ok s => s.ptr = st.ptr ∧ s.rem = st.rem ∧ s.used = st.used ∧ ∀ a, ¬ H a → s.mem a = st.mem a
  | .throw _ => False
  | .ub => True

theorem DRes.frm {H : Nat → Prop} {st : St} {r : Res} (h : DRes H st r) : FrmRes H st r := by
  cases r with
  | ok s => exact Frm.memOnly h.1 h.2.1 h.2.2.1 h.2.2.2
  | throw s => exact absurd h id
  | ub => trivial

theorem DRes.mono {H H' : Nat → Prop} {st : St} {r : Res} (h : DRes H st r)
    (hH : ∀ a, H a → H' a) : DRes H' st r := by
  cases r with
  | ok s => exact ⟨h.1, h.2.1, h.2.2.1, fun a ha => h.2.2.2 a fun hc => ha (hH a hc)⟩
  | throw s => exact h
  | ub => trivial

theorem DRes.bind {H : Nat → Prop} {st : St} {r : Res} {f : St → Res}
    (h1 : DRes H st r) (h2 : ∀ s, r = .ok s → DRes H s (f s)) : DRes H st (r.bind f) := by
  cases r with
  | ok s =>
    have h2 := h2 s rfl
    simp only [Res.bind]
    cases hf : f s with
    | ok s2 =>
      rw [hf] at h2
      exact ⟨h2.1.trans h1.1, h2.2.1.trans h1.2.1, h2.2.2.1.trans h1.2.2.1,
        fun a ha => (h2.2.2.2 a ha).trans (h1.2.2.2 a ha)⟩
    | throw s2 => rw [hf] at h2; exact h2
    | ub => trivial
  | throw s => exact h1
  | ub => trivial

theorem DRes.keepBuf {H : Nat → Prop} {st : St} {r : Res} (h : DRes H st r) :
    DRes H st (keepBuf st r) := by
  cases r with
  | ok s => exact ⟨rfl, rfl, rfl, h.2.2.2⟩
  | throw s => exact h
  | ub => trivial

theorem DRes.refl (H : Nat → Prop) (st : St) : DRes H st (.ok st) :=
  ⟨rfl, rfl, rfl, fun _ _ => rfl⟩

theorem DRes.loop {H : Nat → Prop} {body : Nat → St → Res} (n i : Nat) (st : St)
    (h : ∀ j s, i ≤ j → j < i + n → DRes H s (body j s)) : DRes H st (loop body n i st) := by
  induction n generalizing i st with
  | zero => exact DRes.refl H st
  | succ n ih =>
    exact DRes.bind (h i st (by omega) (by omega)) fun s _ => ih (i + 1) s fun j s hj hj' =>
      h j s (by omega) (by omega)

theorem DRes.store {H : Nat → Prop} (st : St) (a k n : Nat)
    (h : ∀ x, a ≤ x → x < a + k → H x) : DRes H st (.ok (st.store a k n)) := by
  refine ⟨rfl, rfl, rfl, fun x hx => ?_⟩
  exact writeN_out _ _ _ _ _ (by
    by_cases h1 : a ≤ x
    · by_cases h2 : x < a + k
      · exact absurd (h x h1 h2) hx
      · omega
    · omega)

theorem DRes.poison {H : Nat → Prop} (st : St) (J : Mem) (a n : Nat)
    (h : ∀ x, a ≤ x → x < a + n → H x) : DRes H st (.ok (st.poison J a n)) := by
  refine ⟨rfl, rfl, rfl, fun x hx => ?_⟩
  exact poisonMem_out _ _ _ _ _ (by
    by_cases h1 : a ≤ x
    · by_cases h2 : x < a + n
      · exact absurd (h x h1 h2) hx
      · omega
    · omega)

theorem DRes.storeLength {H : Nat → Prop} (l : VecL) (da n : Nat) (st : St)
    (h : ∀ x, da + l.lenOff ≤ x → x < da + l.lenOff + l.lenSize → H x) :
    DRes H st (PJ.storeLength l da n st) := by
  unfold PJ.storeLength
  split
  · trivial
  · exact DRes.store _ _ _ _ h

theorem DRes.setCb (H : Nat → Prop) (hm : List (Comp × Nat)) (n : Comp) (st : St) :
    DRes H st (PJ.setCb hm n st) := by
  unfold PJ.setCb
  split
  · exact ⟨rfl, rfl, rfl, fun _ _ => rfl⟩
  · exact DRes.refl H st

/-- The bytes of an object. -/
def Head (da n : Nat) : Nat → Prop := fun a => da ≤ a ∧ a < da + n

theorem elem_in {da w n j esz a : Nat} (hj : j < n) (he : esz ≤ w)
    (h : Head (elemAt da w j) esz a) : Head da (n * w) a := by
  unfold Head elemAt at *
  have : (j + 1) * w ≤ n * w := Nat.mul_le_mul_right w hj
  rw [Nat.succ_mul] at this
  omega

theorem FieldsLayout.tail {x : Comp × Nat × Ty} {l : List (Comp × Nat × Ty)} {sz : Nat}
    (h : FieldsLayout (x :: l) sz) : FieldsLayout l sz :=
  ⟨fun y hy => h.inside y (List.mem_cons_of_mem _ hy), (List.pairwise_cons.1 h.disj).2,
    (List.nodup_cons.1 h.names).2⟩

mutual
theorem dflt_frame (E : Env) : ∀ (t : Ty) (hs : Handlers) (da : Nat) (st : St), WF t → t.noOut →
    DRes (Head da t.size) st (dflt E t hs da st)
  | .int w s al, hs, da, st, hwf, _ => by
    simp only [dflt]; split
    · trivial
    · exact DRes.store _ _ _ _ fun x h1 h2 => ⟨h1, h2⟩
  | .float w al, hs, da, st, hwf, _ => by
    simp only [dflt]; split
    · exact DRes.store _ _ _ _ fun x h1 h2 => ⟨h1, h2⟩
    · trivial
  | .unit, hs, da, st, hwf, _ => by simp only [dflt]; exact DRes.refl _ _
  | .struct fs sz al, hs, da, st, hwf, hno => by
    simp only [dflt, Ty.size]
    simp only [WF] at hwf
    simp only [Ty.noOut] at hno
    have h0 := DRes.poison (H := Head da sz) st E.J da sz fun x h1 h2 => ⟨h1, h2⟩
    have := DRes.bind (f := fun s => (dfltFields E fs true hs da s).bind (dfltFields E fs false hs da))
      h0 fun s _ => DRes.bind (dfltFields_frame E fs true hs da sz s hwf.1 hwf.2.inside hno)
      fun s' _ => dfltFields_frame E fs false hs da sz s' hwf.1 hwf.2.inside hno
    exact this
  | .variant ts l, hs, da, st, hwf, hno => by
    simp only [dflt, Ty.size]
    simp only [WF] at hwf
    simp only [Ty.noOut] at hno
    split
    · trivial
    · exact dfltAt_frame E ts l l.dflt _ da st hwf.1 hno.2 hno.1 hwf.2.tagIn (hwf.2.inside hno.1)
  | .array e n esz al, hs, da, st, hwf, hno => by
    simp only [dflt, Ty.size]
    simp only [WF] at hwf
    simp only [Ty.noOut] at hno
    apply DRes.loop
    intro j s _ hj
    apply DRes.keepBuf
    exact DRes.mono (dflt_frame E e [] _ s hwf.1 hno) fun a ha =>
      elem_in (by omega) hwf.2 ha
  | .vector e l, hs, da, st, hwf, hno => by
    simp only [dflt, Ty.size]
    simp only [WF] at hwf
    have := hwf.2.lenIn
    exact DRes.storeLength _ _ _ _ fun x h1 h2 => ⟨by omega, by omega⟩

theorem dfltFields_frame (E : Env) : ∀ (fs : Fields) (out : Bool) (hs : Handlers) (da sz : Nat)
    (st : St), WFFields fs → (∀ x ∈ fs.toList, x.2.1 + x.2.2.size ≤ sz) → fs.noOut →
    DRes (Head da sz) st (dfltFields E fs out hs da st)
  | .nil, out, hs, da, sz, st, _, _, _ => by simp only [dfltFields]; exact DRes.refl _ _
  | .cons c off t r, out, hs, da, sz, st, hwf, hin, hno => by
    simp only [dfltFields]
    simp only [WFFields] at hwf
    simp only [Fields.noOut] at hno
    simp only [Fields.toList, List.mem_cons, forall_eq_or_imp] at hin
    refine DRes.bind ?_ fun s _ => dfltFields_frame E r out hs da sz s hwf.2 hin.2 hno.2
    split
    · apply DRes.keepBuf
      exact DRes.mono (dflt_frame E t _ _ _ hwf.1 hno.1) fun a ha => by
        unfold Head at *; omega
    · exact DRes.refl _ _

theorem dfltAt_frame (E : Env) : ∀ (ts : Terms) (l : VarL) (i : Nat) (hm : List (Comp × Nat))
    (da : Nat) (st : St), WFTerms ts → ts.noOut → l.outline = false →
    l.tagOff + l.tagW ≤ l.size →
    (∀ t ∈ ts.toList, l.termOff + t.ty.size ≤ l.size) →
    DRes (Head da l.size) st (dfltAt E ts l i hm da st)
  | .nil, l, i, hm, da, st, _, _, _, _, _ => by simp only [dfltAt]; trivial
  | .cons n g as t r, l, 0, hm, da, st, hwf, hno, ho, ht, hin => by
    simp only [dfltAt]
    simp only [WFTerms] at hwf
    simp only [Terms.noOut] at hno
    simp only [Terms.toList, List.mem_cons, forall_eq_or_imp] at hin
    refine DRes.bind ?_ fun s _ => DRes.setCb _ _ _ _
    split
    · trivial
    · exact DRes.refl _ _
    · refine DRes.bind ?_ fun s _ => ?_
      · unfold beginTerm
        refine DRes.bind (r := storeTag l da g st) ?_ fun s _ => ?_
        · unfold storeTag; split
          · trivial
          · exact DRes.store _ _ _ _ fun x h1 h2 => ⟨by omega, by omega⟩
        · simp only [ho]; exact DRes.refl _ _
      · apply DRes.keepBuf
        exact DRes.mono (dflt_frame E t _ _ _ hwf.1 hno.1) fun a ha => by
          unfold Head at *; omega
  | .cons n g as t r, l, i + 1, hm, da, st, hwf, hno, ho, ht, hin => by
    simp only [dfltAt]
    simp only [WFTerms] at hwf
    simp only [Terms.noOut] at hno
    simp only [Terms.toList, List.mem_cons, forall_eq_or_imp] at hin
    exact dfltAt_frame E r l i hm da st hwf.2 hno.2 ho ht hin.2
end

mutual
theorem noOut_hasOut : ∀ (t : Ty), t.noOut → t.hasOut = false
  | .int _ _ _, _ => by simp [Ty.hasOut]
  | .float _ _, _ => by simp [Ty.hasOut]
  | .unit, _ => by simp [Ty.hasOut]
  | .struct fs _ _, h => by
    simp only [Ty.noOut] at h; simp only [Ty.hasOut]; exact noOut_hasOutFields fs h
  | .variant ts l, h => by simp only [Ty.noOut] at h; simp only [Ty.hasOut]; exact h.1
  | .array _ _ _ _, _ => by simp [Ty.hasOut]
  | .vector _ _, _ => by simp [Ty.hasOut]
theorem noOut_hasOutFields : ∀ (fs : Fields), fs.noOut → fs.hasOut = false
  | .nil, _ => by simp [Fields.hasOut]
  | .cons _ _ t r, h => by
    simp only [Fields.noOut] at h
    simp [Fields.hasOut, noOut_hasOut t h.1, noOut_hasOutFields r h.2]
end

mutual
theorem noOut_outAt : ∀ (t : Ty) (da p : Nat), t.noOut → OutAt t da p
  | .int _ _ _, _, _, _ => by simp [OutAt]
  | .float _ _, _, _, _ => by simp [OutAt]
  | .unit, _, _, _ => by simp [OutAt]
  | .struct fs _ _, da, p, h => by
    simp only [Ty.noOut] at h; simp only [OutAt]; exact noOut_outAtFields fs da p h
  | .variant ts l, da, p, h => by
    simp only [Ty.noOut] at h; simp only [OutAt]; simp [h.1, h.2]
  | .array _ _ _ _, _, _, h => by simpa [OutAt, Ty.noOut] using h
  | .vector _ _, _, _, h => by simpa [OutAt, Ty.noOut] using h
theorem noOut_outAtFields : ∀ (fs : Fields) (da p : Nat), fs.noOut → OutAtFields fs da p
  | .nil, _, _, _ => by simp [OutAtFields]
  | .cons _ _ t r, da, p, h => by
    simp only [Fields.noOut] at h
    simp only [OutAtFields, noOut_hasOut t h.1]
    exact ⟨h.1, noOut_outAtFields r da p h.2⟩
end

mutual
theorem outAt_noOut : ∀ (t : Ty) (da p : Nat), OutAt t da p → t.hasOut = false → t.noOut
  | .int _ _ _, _, _, _, _ => by simp [Ty.noOut]
  | .float _ _, _, _, _, _ => by simp [Ty.noOut]
  | .unit, _, _, _, _ => by simp [Ty.noOut]
  | .struct fs _ _, da, p, h, ho => by
    simp only [OutAt] at h; simp only [Ty.hasOut] at ho; simp only [Ty.noOut]
    exact outAt_noOutFields fs da p h ho
  | .variant ts l, da, p, h, ho => by
    simp only [OutAt] at h; simp only [Ty.hasOut] at ho; simp only [Ty.noOut]
    exact ⟨ho, h.2⟩
  | .array _ _ _ _, _, _, h, _ => by simpa [OutAt, Ty.noOut] using h
  | .vector _ _, _, _, h, _ => by simpa [OutAt, Ty.noOut] using h
theorem outAt_noOutFields : ∀ (fs : Fields) (da p : Nat), OutAtFields fs da p →
    fs.hasOut = false → fs.noOut
  | .nil, _, _, _, _ => by simp [Fields.noOut]
  | .cons _ _ t r, da, p, h, ho => by
    simp only [OutAtFields] at h
    simp only [Fields.hasOut, Bool.or_eq_false_iff] at ho
    simp only [Fields.noOut]
    rw [ho.1] at h
    exact ⟨h.1, outAt_noOutFields r da p h.2 ho.2⟩
end

theorem compat_unit (t : Ty) (h : t.hasOut = false) : Compat t .unit := by
  cases t <;> simp_all [Compat, Ty.hasOut]

theorem compat_unit_hasOut (t : Ty) (h : Compat t .unit) : t.hasOut = false := by
  cases t <;> simp_all [Compat, Ty.hasOut]

theorem findLast_WF : ∀ (fs : Fields) (c : Comp) (o : Nat) (t : Ty), WFFields fs →
    fs.findLast c = some (o, t) → WF t
  | .nil, c, o, t, _, h => by simp [Fields.findLast] at h
  | .cons n o' t' r, c, o, t, hwf, h => by
    simp only [WFFields] at hwf
    simp only [Fields.findLast] at h
    split at h
    · rename_i x hx
      cases h
      exact findLast_WF r c o t hwf.2 hx
    · split at h
      · cases h; exact hwf.1
      · cases h

theorem terms_WF : ∀ (ts : Terms), WFTerms ts → ∀ t ∈ ts.toList, WF t.ty
  | .nil, _, t, ht => by simp [Terms.toList] at ht
  | .cons n g a t' r, h, t, ht => by
    simp only [WFTerms] at h
    simp only [Terms.toList, List.mem_cons] at ht
    rcases ht with rfl | ht
    · exact h.1
    · exact terms_WF r h.2 t ht

theorem terms_noOut : ∀ (ts : Terms), ts.noOut → ∀ t ∈ ts.toList, t.ty.noOut
  | .nil, _, t, ht => by simp [Terms.toList] at ht
  | .cons n g a t' r, h, t, ht => by
    simp only [Terms.noOut] at h
    simp only [Terms.toList, List.mem_cons] at ht
    rcases ht with rfl | ht
    · exact h.1
    · exact terms_noOut r h.2 t ht

end PJ
