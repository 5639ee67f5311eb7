import Verif.Lemmas.Evolve
/-!
# Encoding with the protocol of another schema

The planner does not change what a receiver of the schema sees of a value (`conv`), as long as the value has
the vectors the hoisted terms ask for; and what was said about decoding holds for encoding.
-/
namespace PJ

/-! ## Layout -/

theorem layoutVar_dflt (ts : List Term) (l : VarL) : (layoutVar ts l).dflt = l.dflt := by
  unfold layoutVar; simp only; split <;> rfl

theorem layoutTerms_hasName (ts : Terms) (c : Comp) : (layoutTerms ts).hasName c = ts.hasName c := by
  simp only [Terms.hasName, layoutTerms_toList, List.any_map]; rfl

mutual
theorem dflt_layout : ∀ t : Ty, dfltVal (layout t) = dfltVal t
  | .int _ _ _ => rfl
  | .float _ _ => rfl
  | .unit => rfl
  | .struct fs _ _ => by simp only [layout, dfltVal, dfltFields_layout fs 0]
  | .variant ts l => by
    simp only [layout, dfltVal]
    rw [layoutVar_dflt, dfltTerm_layout ts]
  | .array e _ _ _ => by simp only [layout, dfltVal, dflt_layout e]
  | .vector _ _ => rfl
termination_by structural t => t
theorem dfltFields_layout : ∀ (fs : Fields) (off : Nat), dfltFieldsVal (layoutFields fs off 1).1 = dfltFieldsVal fs
  | .nil, _ => rfl
  | .cons c o t r, off => by
    rw [layoutFields_cons]
    simp only [dfltFieldsVal, dflt_layout t, dfltFields_layout r]
termination_by structural fs => fs
theorem dfltTerm_layout : ∀ (ts : Terms) (i : Nat), dfltTermVal (layoutTerms ts) i = dfltTermVal ts i
  | .nil, _ => rfl
  | .cons n g as t r, 0 => by simp only [layoutTerms, dfltTermVal, dflt_layout t]
  | .cons n g as t r, i + 1 => by simp only [layoutTerms, dfltTermVal, dfltTerm_layout r]
termination_by structural ts => ts
end

mutual
theorem conv_layout (F : Nat → Nat → Nat → Nat) : ∀ (t : Ty) (v : Val), conv F (layout t) v = conv F t v
  | .int _ _ _, v => by cases v <;> simp only [layout, conv, dfltVal]
  | .float _ _, v => by cases v <;> simp only [layout, conv, dfltVal]
  | .unit, v => rfl
  | .struct fs sz al, v => by
    cases v <;> simp only [layout, conv]
    · exact dflt_layout (.struct fs sz al)
    · rw [convFields_layout F fs 0]
  | .variant ts l, v => by
    cases v <;> simp only [layout, conv]
    · exact dflt_layout (.variant ts l)
    · rw [layoutVar_dflt, layoutTerms_hasName, convNamed_layout F ts, convAt_layout F ts]
  | .array e n esz al, v => by
    cases v <;> simp only [layout, conv]
    · exact dflt_layout (.array e n esz al)
    · rw [dflt_layout e, show conv F (layout e) = conv F e from funext (conv_layout F e)]
  | .vector e l, v => by
    cases v <;> simp only [layout, conv]
    · rfl
    · rw [show conv F (layout e) = conv F e from funext (conv_layout F e)]; rfl
termination_by structural t => t
theorem convFields_layout (F : Nat → Nat → Nat → Nat) : ∀ (fs : Fields) (off : Nat) (vs : List (Comp × Val)),
    convFields F (layoutFields fs off 1).1 vs = convFields F fs vs
  | .nil, _, _ => rfl
  | .cons c o t r, off, vs => by
    rw [layoutFields_cons]
    simp only [convFields, conv_layout F t, dflt_layout t, convFields_layout F r]
termination_by structural fs => fs
theorem convNamed_layout (F : Nat → Nat → Nat → Nat) : ∀ (ts : Terms) (c : Comp) (v : Val),
    convNamed F (layoutTerms ts) c v = convNamed F ts c v
  | .nil, _, _ => rfl
  | .cons n g as t r, c, v => by simp only [layoutTerms, convNamed, conv_layout F t, convNamed_layout F r]
termination_by structural ts => ts
theorem convAt_layout (F : Nat → Nat → Nat → Nat) : ∀ (ts : Terms) (i : Nat) (v : Val),
    convAt F (layoutTerms ts) i v = convAt F ts i v
  | .nil, _, _ => rfl
  | .cons n g as t r, 0, v => by simp only [layoutTerms, convAt, conv_layout F t]
  | .cons n g as t r, i + 1, v => by simp only [layoutTerms, convAt, convAt_layout F r]
termination_by structural ts => ts
end

/-! ## Outlining and offsets -/

mutual
theorem dflt_tryOutline : ∀ (t : Ty) (path : Path) (t' : Ty), tryOutline t path = some t' → dfltVal t' = dfltVal t
  | .variant ts l, path, t', ho => by
    simp only [tryOutline] at ho
    split at ho
    · cases ho
    · cases ho; rfl
  | .struct fs sz al, path, t', ho => by
    simp only [tryOutline] at ho
    split at ho
    · cases ho
    · split at ho
      · rename_i fs' hfs
        cases ho
        simp only [dfltVal, dflt_tryOutlineFields fs path fs' hfs]
      · cases ho
  | .int _ _ _, path, t', ho => by simp [tryOutline] at ho
  | .float _ _, path, t', ho => by simp [tryOutline] at ho
  | .unit, path, t', ho => by simp [tryOutline] at ho
  | .array _ _ _ _, path, t', ho => by simp [tryOutline] at ho
  | .vector _ _, path, t', ho => by simp [tryOutline] at ho
termination_by structural t => t
theorem dflt_tryOutlineFields : ∀ (fs : Fields) (path : Path) (fs' : Fields),
    tryOutlineFields fs path = some fs' → dfltFieldsVal fs' = dfltFieldsVal fs
  | .nil, path, fs', ho => by simp [tryOutlineFields] at ho
  | .cons c o t r, path, fs', ho => by
    simp only [tryOutlineFields] at ho
    split at ho
    · rename_i t' ht'
      cases ho
      simp only [dfltFieldsVal, dflt_tryOutline t _ t' ht']
    · split at ho
      · rename_i r' hr'
        cases ho
        simp only [dfltFieldsVal, dflt_tryOutlineFields r path r' hr']
      · cases ho
termination_by structural fs => fs
end

mutual
theorem conv_tryOutline (F : Nat → Nat → Nat → Nat) : ∀ (t : Ty) (path : Path) (t' : Ty) (v : Val),
    tryOutline t path = some t' → conv F t' v = conv F t v
  | .variant ts l, path, t', v, ho => by
    simp only [tryOutline] at ho
    split at ho
    · cases ho
    · cases ho; rfl
  | .struct fs sz al, path, t', v, ho => by
    have hd := dflt_tryOutline (.struct fs sz al) path t' ho
    simp only [tryOutline] at ho
    split at ho
    · cases ho
    · split at ho
      · rename_i fs' hfs
        cases ho
        cases v <;> simp only [conv]
        · exact hd
        · rw [conv_tryOutlineFields F fs path fs' hfs]
      · cases ho
  | .int _ _ _, path, t', v, ho => by simp [tryOutline] at ho
  | .float _ _, path, t', v, ho => by simp [tryOutline] at ho
  | .unit, path, t', v, ho => by simp [tryOutline] at ho
  | .array _ _ _ _, path, t', v, ho => by simp [tryOutline] at ho
  | .vector _ _, path, t', v, ho => by simp [tryOutline] at ho
termination_by structural t => t
theorem conv_tryOutlineFields (F : Nat → Nat → Nat → Nat) : ∀ (fs : Fields) (path : Path) (fs' : Fields),
    tryOutlineFields fs path = some fs' → ∀ vs, convFields F fs' vs = convFields F fs vs
  | .nil, path, fs', ho => by simp [tryOutlineFields] at ho
  | .cons c o t r, path, fs', ho => by
    intro vs
    simp only [tryOutlineFields] at ho
    split at ho
    · rename_i t' ht'
      cases ho
      simp only [convFields, dflt_tryOutline t _ t' ht', fun v => conv_tryOutline F t _ t' v ht']
    · split at ho
      · rename_i r' hr'
        cases ho
        simp only [convFields, conv_tryOutlineFields F r path r' hr']
      · cases ho
termination_by structural fs => fs
end

mutual
theorem dflt_setOut (d : Nat) : ∀ t : Ty, dfltVal (setOut d t) = dfltVal t
  | .variant ts l => by simp only [setOut]; split <;> rfl
  | .struct fs sz al => by simp only [setOut, dfltVal, dflt_setOutFields d fs]
  | .int _ _ _ => rfl
  | .float _ _ => rfl
  | .unit => rfl
  | .array _ _ _ _ => rfl
  | .vector _ _ => rfl
termination_by structural t => t
theorem dflt_setOutFields (d : Nat) : ∀ fs : Fields, dfltFieldsVal (setOutFields d fs) = dfltFieldsVal fs
  | .nil => rfl
  | .cons c o t r => by simp only [setOutFields, dfltFieldsVal, dflt_setOut d t, dflt_setOutFields d r]
termination_by structural fs => fs
end

mutual
theorem conv_setOut (F : Nat → Nat → Nat → Nat) (d : Nat) : ∀ (t : Ty) (v : Val),
    conv F (setOut d t) v = conv F t v
  | .variant ts l, v => by simp only [setOut]; split <;> rfl
  | .struct fs sz al, v => by
    cases v <;> simp only [setOut, conv]
    · exact dflt_setOut d (.struct fs sz al)
    · rw [conv_setOutFields F d fs]
  | .int _ _ _, v => rfl
  | .float _ _, v => rfl
  | .unit, v => rfl
  | .array _ _ _ _, v => rfl
  | .vector _ _, v => rfl
termination_by structural t => t
theorem conv_setOutFields (F : Nat → Nat → Nat → Nat) (d : Nat) : ∀ (fs : Fields) (vs : List (Comp × Val)),
    convFields F (setOutFields d fs) vs = convFields F fs vs
  | .nil, vs => rfl
  | .cons c o t r, vs => by
    simp only [setOutFields, convFields, conv_setOut F d t, dflt_setOut d t, conv_setOutFields F d r]
termination_by structural fs => fs
end

/-! ## Hoisting -/

/-- The named parts of a struct value; other values have none. -/
def Val.parts : Val → List (Comp × Val)
  | .struct vs => vs
  | _ => []

mutual
/-- The value has every vector of the type on which a term is split. -/
def VecsOf : Ty → Val → Prop
  | .vector _ l, v => l.wireMin ≠ 0 ∧ l.maxLen ≠ some l.wireMin → ∃ xs, v = .vec xs
  | .struct fs _ _, v => VecsOfFields fs v.parts
  | _, _ => True
def VecsOfFields : Fields → List (Comp × Val) → Prop
  | .nil, _ => True
  | .cons c _ t r, vs => VecsOf t ((vs.lookup c).getD .unit) ∧ VecsOfFields r vs
end

theorem convFields_none (F : Nat → Nat → Nat → Nat) : ∀ fs : Fields, convFields F fs [] = dfltFieldsVal fs
  | .nil => rfl
  | .cons c o t r => by simp only [convFields, dfltFieldsVal, List.lookup_nil, convFields_none F r]

theorem convFields_cons (F : Nat → Nat → Nat → Nat) (c : Comp) (o : Nat) (t : Ty) (r : Fields)
    (vs : List (Comp × Val)) : convFields F (.cons c o t r) vs =
      match conv F t ((vs.lookup c).getD .unit), convFields F r vs with
      | some w, some ws => some ((c, w) :: ws)
      | _, _ => none := by
  simp only [convFields]
  cases vs.lookup c with
  | none => simp only [Option.getD_none, conv_unit]; rfl
  | some v => simp only [Option.getD_some]; rfl

/-- A struct is converted by its fields. -/
theorem conv_parts (F : Nat → Nat → Nat → Nat) (fs fs' : Fields) (sz al sz' al' : Nat) (v : Val)
    (h : convFields F fs' v.parts = convFields F fs v.parts) :
    conv F (.struct fs' sz' al') v = conv F (.struct fs sz al) v := by
  cases v <;> simp only [Val.parts] at h <;> simp only [conv]
  · simp only [dfltVal, ← convFields_none F, h]
  · rw [h]

mutual
theorem split_splits : ∀ (t : Ty) (s : Split), splitFirst t = some s → t.splits
  | .vector e l, s, h => by
    simp only [splitFirst] at h
    split at h
    · cases h
    · rename_i hn
      simp only [Ty.splits]
      exact not_or.1 hn
  | .struct fs sz al, s, h => by
    simp only [splitFirst] at h
    split at h
    · rename_i n a b p hf
      exact splitFields_splits fs _ hf
    · cases h
  | .int _ _ _, s, hs => by simp [splitFirst] at hs
  | .float _ _, s, hs => by simp [splitFirst] at hs
  | .unit, s, hs => by simp [splitFirst] at hs
  | .array _ _ _ _, s, hs => by simp [splitFirst] at hs
  | .variant _ _, s, hs => by simp [splitFirst] at hs
termination_by structural t => t
theorem splitFields_splits : ∀ (fs : Fields) (x : Nat × Fields × Fields × Path), splitFields fs = some x → fs.splits
  | .nil, x, h => by simp [splitFields] at h
  | .cons c o t r, x, h => by
    simp only [splitFields] at h
    split at h
    · rename_i s ht
      exact Or.inl (split_splits t s ht)
    · split at h
      · rename_i k a b q hr
        exact Or.inr (splitFields_splits r _ hr)
      · cases h
termination_by structural fs => fs
end

/-- What splitting does to the conversion of a value that has the vectors. -/
structure SplitConv (F : Nat → Nat → Nat → Nat) (t : Ty) (s : Split) (v : Val) : Prop where
  len : ∃ n, lenAt s.path v = some n
  vecS : VecsOf s.short v
  vecL : VecsOf s.long v
  short : ∀ n, lenAt s.path v = some n → n ≤ s.len → conv F s.short v = conv F t v
  long : conv F s.long v = conv F t v

mutual
theorem split_conv (F : Nat → Nat → Nat → Nat) : ∀ (t : Ty) (s : Split) (v : Val), splitFirst t = some s → Sch t →
    VecsOf t v → SplitConv F t s v
  | .vector e l, s, v, hs, hsch, h => by
    simp only [splitFirst] at hs
    split at hs
    · cases hs
    · rename_i hno
      cases hs
      simp only [VecsOf] at h
      obtain ⟨xs, rfl⟩ := h (not_or.1 hno)
      simp only [Sch] at hsch
      refine ⟨⟨xs.length, rfl⟩, fun _ => ⟨xs, rfl⟩, fun _ => ⟨xs, rfl⟩, fun n hn hle => ?_, ?_⟩
      · simp only [lenAt, Option.some.injEq] at hn
        subst hn
        simp only [conv, bareVec, cutTo]
        rw [List.take_of_length_le hle]
        cases hm : l.maxLen with
        | none => rfl
        | some m =>
          have := (hsch.2.2 m hm).2.2
          simp only
          rw [List.take_of_length_le (by simp only at hle; omega)]
      · simp only [conv, bareVec]
  | .struct fs sz al, s, v, hs, hsch, h => by
    simp only [splitFirst] at hs
    split at hs
    · rename_i n short long path hf
      cases hs
      simp only [Sch] at hsch
      simp only [VecsOf] at h
      obtain ⟨vs, rfl⟩ : ∃ vs, v = .struct vs := by
        obtain ⟨⟨k, hk⟩, _⟩ := splitFields_conv F fs n short long path v.parts hf hsch.2 h
        cases v with
        | struct vs => exact ⟨vs, rfl⟩
        | _ =>
          exfalso
          rcases path with _ | ⟨_, _ | ⟨_, _⟩⟩ <;> simp [lenAt, Val.parts] at hk
      simp only [Val.parts] at h
      obtain ⟨h1, h2, h3, h4, h5⟩ := splitFields_conv F fs n short long path vs hf hsch.2 h
      refine ⟨h1, h2, h3, fun k hk hle => ?_, ?_⟩
      · simp only [conv, h4 k hk hle]
      · simp only [conv, h5]
    · cases hs
  | .int _ _ _, s, v, hs, _, h => by simp [splitFirst] at hs
  | .float _ _, s, v, hs, _, h => by simp [splitFirst] at hs
  | .unit, s, v, hs, _, h => by simp [splitFirst] at hs
  | .array _ _ _ _, s, v, hs, _, h => by simp [splitFirst] at hs
  | .variant _ _, s, v, hs, _, h => by simp [splitFirst] at hs
termination_by structural t => t
theorem splitFields_conv (F : Nat → Nat → Nat → Nat) : ∀ (fs : Fields) (n : Nat) (short long : Fields) (path : Path)
    (vs : List (Comp × Val)), splitFields fs = some (n, short, long, path) → SchFields fs → VecsOfFields fs vs →
    (∃ k, lenAt path (.struct vs) = some k) ∧ VecsOfFields short vs ∧ VecsOfFields long vs ∧
    (∀ k, lenAt path (.struct vs) = some k → k ≤ n → convFields F short vs = convFields F fs vs) ∧
    convFields F long vs = convFields F fs vs
  | .nil, n, short, long, path, vs, hs, _, h => by simp [splitFields] at hs
  | .cons c o t r, n, short, long, path, vs, hs, hsch, h => by
    simp only [VecsOfFields] at h
    simp only [splitFields] at hs
    split at hs
    · rename_i s ht
      cases hs
      have hv := split_conv F t s _ ht hsch.1 h.1
      obtain ⟨c', p', hp⟩ := split_path ht
      obtain ⟨k, hk⟩ := hv.len
      have hlen : lenAt (Path.expand s.path c) (.struct vs) = lenAt s.path ((vs.lookup c).getD .unit) := by
        rw [hp]
        simp only [Path.expand, lenAt]
        cases hl : vs.lookup c with
        | some x => rfl
        | none =>
          rw [hl, hp] at hk
          cases p' <;> simp [lenAt] at hk
      rw [hlen]
      simp only [VecsOfFields, convFields_cons]
      exact ⟨hv.len, ⟨hv.vecS, h.2⟩, ⟨hv.vecL, h.2⟩, fun k hk hle => by rw [hv.short k hk hle], by rw [hv.long]⟩
    · split at hs
      · rename_i k' a b q hr
        cases hs
        obtain ⟨g1, g2, g3, g4, g5⟩ := splitFields_conv F r _ _ _ _ vs hr hsch.2 h.2
        simp only [VecsOfFields, convFields_cons]
        exact ⟨g1, ⟨h.1, g2⟩, ⟨h.1, g3⟩, fun k hk hle => by rw [g4 k hk hle], by rw [g5]⟩
      · cases hs
termination_by structural fs => fs
end

/-- The payload is converted in the same way by every term of the name that is allowed, and that is exactly
one. -/
structure ConvOne (F : Nat → Nat → Nat → Nat) (r : Option Val) (l : List Term) (c : Comp) (p : Val) : Prop where
  vec : ∀ t ∈ l, t.name = c → VecsOf t.ty p
  def_ : ∀ t ∈ l, t.name = c → (attrsAllow p t.attrs).isSome = true
  conv : ∀ t ∈ l, t.name = c → attrsAllow p t.attrs = some true → conv F t.ty p = r
  one : (l.filter fun t => decide (t.name = c ∧ attrsAllow p t.attrs = some true)).length = 1

theorem ConvOne.perm {F : Nat → Nat → Nat → Nat} {r : Option Val} {l l' : List Term} {c : Comp} {p : Val}
    (h : l'.Perm l) (f : ConvOne F r l c p) : ConvOne F r l' c p :=
  ⟨fun t ht => f.vec t (h.mem_iff.1 ht), fun t ht => f.def_ t (h.mem_iff.1 ht),
    fun t ht => f.conv t (h.mem_iff.1 ht), by rw [(h.filter _).length_eq]; exact f.one⟩

theorem Step.convOne {F : Nat → Nat → Nat → Nat} {r : Option Val} {x y : List Term × Nat} (s : Step x y)
    (hs : ∀ t ∈ x.1, Sch t.ty) {c : Comp} {p : Val} (f : ConvOne F r x.1 c p) : ConvOne F r y.1 c p := by
  refine ConvOne.perm s.perm ?_
  have hmt : s.t ∈ x.1 := (s.mem_src _).2 (Or.inr (Or.inl rfl))
  have hpre : ∀ u ∈ s.pre, u ∈ x.1 := fun u hu => (s.mem_src u).2 (Or.inl hu)
  have hpost : ∀ u ∈ s.post, u ∈ x.1 := fun u hu => (s.mem_src u).2 (Or.inr (Or.inr hu))
  have hcase : ∀ {Q : Term → Prop}, (∀ u ∈ x.1, Q u) → Q (s.t.longOf s.sp) →
      Q (s.t.shortOf s.sp (freeTag (x.1.map (·.tag)))) →
      ∀ u ∈ s.pre ++ s.t.longOf s.sp :: s.post ++ [s.t.shortOf s.sp (freeTag (x.1.map (·.tag)))], Q u := by
    intro Q h1 h2 h3 u hu
    simp only [List.mem_append, List.mem_cons, List.not_mem_nil, or_false] at hu
    rcases hu with (hu | rfl | hu) | rfl
    · exact h1 u (hpre u hu)
    · exact h2
    · exact h1 u (hpost u hu)
    · exact h3
  by_cases hc : s.t.name = c
  · have hv := split_conv F _ _ p s.split (hs _ hmt) (f.vec _ hmt hc)
    obtain ⟨n, hn⟩ := hv.len
    have hd := f.def_ _ hmt hc
    obtain ⟨b, hb⟩ := Option.isSome_iff_exists.1 hd
    have hal : attrsAllow p (s.t.attrs ++ [.split false s.sp.len s.sp.path]) =
        some (b && decide (s.sp.len < n)) := by
      rw [attrsAllow_append, hb]; simp [attrsAllow, hn]
    have has : attrsAllow p (s.t.attrs ++ [.split true s.sp.len s.sp.path]) =
        some (b && decide (n ≤ s.sp.len)) := by
      rw [attrsAllow_append, hb]; simp [attrsAllow, hn]
    refine ⟨?_, ?_, ?_, ?_⟩
    · exact hcase (Q := fun t => t.name = c → VecsOf t.ty p) f.vec (fun _ => hv.vecL) (fun _ => hv.vecS)
    · exact hcase (Q := fun t => t.name = c → (attrsAllow p t.attrs).isSome = true) f.def_
        (fun _ => by simp only [Term.longOf, hal]; rfl) (fun _ => by simp only [Term.shortOf, has]; rfl)
    · refine hcase (Q := fun t => t.name = c → attrsAllow p t.attrs = some true → PJ.conv F t.ty p = r) f.conv
        (fun _ ha => ?_) (fun _ ha => ?_)
      · simp only [Term.longOf, hal, Option.some.injEq, Bool.and_eq_true, decide_eq_true_eq] at ha
        simp only [Term.longOf, hv.long]
        exact f.conv _ hmt hc (by rw [hb, ha.1])
      · simp only [Term.shortOf, has, Option.some.injEq, Bool.and_eq_true, decide_eq_true_eq] at ha
        simp only [Term.shortOf, hv.short n hn ha.2]
        exact f.conv _ hmt hc (by rw [hb, ha.1])
    · have := f.one
      rw [s.src] at this
      simp only [List.filter_append, List.filter_cons, List.filter_nil, List.length_append] at this ⊢
      have e1 : (decide ((s.t.longOf s.sp).name = c ∧ attrsAllow p (s.t.longOf s.sp).attrs = some true)) =
          (b && decide (s.sp.len < n)) := by
        simp only [Term.longOf, hc, hal, true_and]
        cases b <;> by_cases h : s.sp.len < n <;> simp [h]
      have e2 : ∀ g, (decide ((s.t.shortOf s.sp g).name = c ∧
          attrsAllow p (s.t.shortOf s.sp g).attrs = some true)) = (b && decide (n ≤ s.sp.len)) := by
        intro g
        simp only [Term.shortOf, hc, has, true_and]
        cases b <;> by_cases h : n ≤ s.sp.len <;> simp [h]
      have e3 : (decide (s.t.name = c ∧ attrsAllow p s.t.attrs = some true)) = b := by
        simp only [hc, hb, true_and]; cases b <;> simp
      rw [e1, e2]
      rw [e3] at this
      cases b with
      | false => simpa using this
      | true =>
        simp only [if_true, Bool.true_and, List.length_cons] at this ⊢
        by_cases h : s.sp.len < n
        · rw [decide_eq_true h, decide_eq_false (by omega)]
          simp only [if_true, Bool.false_eq_true, if_false, List.length_cons, List.length_nil]
          omega
        · rw [decide_eq_false h, decide_eq_true (by omega)]
          simp only [if_true, Bool.false_eq_true, if_false, List.length_cons, List.length_nil]
          omega
  · refine ⟨?_, ?_, ?_, ?_⟩
    · exact hcase (Q := fun t => t.name = c → VecsOf t.ty p) f.vec (fun h => absurd h hc) (fun h => absurd h hc)
    · exact hcase (Q := fun t => t.name = c → (attrsAllow p t.attrs).isSome = true) f.def_
        (fun h => absurd h hc) (fun h => absurd h hc)
    · exact hcase (Q := fun t => t.name = c → attrsAllow p t.attrs = some true → PJ.conv F t.ty p = r) f.conv
        (fun h => absurd h hc) (fun h => absurd h hc)
    · have := f.one
      rw [s.src] at this
      simp only [List.filter_append, List.filter_cons, List.filter_nil, List.length_append] at this ⊢
      have e1 : (decide ((s.t.longOf s.sp).name = c ∧ attrsAllow p (s.t.longOf s.sp).attrs = some true)) =
          false := by simp [Term.longOf, hc]
      have e2 : ∀ g, (decide ((s.t.shortOf s.sp g).name = c ∧
          attrsAllow p (s.t.shortOf s.sp g).attrs = some true)) = false := by
        intro g; simp [Term.shortOf, hc]
      have e3 : (decide (s.t.name = c ∧ attrsAllow p s.t.attrs = some true)) = false := by simp [hc]
      rw [e1, e2]
      rw [e3] at this
      simpa using this

theorem ConvOne.named {F : Nat → Nat → Nat → Nat} {r : Option Val} {c : Comp} {p : Val} : ∀ {ts : Terms},
    ConvOne F r ts.toList c p → convNamed F ts c p = r.map (.variant c)
  | .nil, h => by have := h.one; simp [Terms.toList] at this
  | .cons n g as t rest, h => by
    simp only [convNamed]
    have h1 := h.def_ ⟨n, g, as, t⟩ (by simp [Terms.toList])
    have h2 := h.conv ⟨n, g, as, t⟩ (by simp [Terms.toList])
    have h3 := h.one
    simp only [Terms.toList, List.filter_cons] at h1 h2 h3
    have hrest : (decide (n = c ∧ attrsAllow p as = some true)) = false → ConvOne F r rest.toList c p := by
      intro hd
      rw [hd] at h3
      exact ⟨fun u hu => h.vec u (by simp [Terms.toList, hu]), fun u hu => h.def_ u (by simp [Terms.toList, hu]),
        fun u hu => h.conv u (by simp [Terms.toList, hu]), by simpa using h3⟩
    split
    · rename_i hn
      split
      · rename_i ha
        have := h1 hn
        rw [ha] at this; cases this
      · rename_i ha
        rw [h2 hn ha]
        subst hn
        cases r <;> rfl
      · rename_i ha
        exact ConvOne.named (hrest (by simp [ha]))
    · rename_i hn
      exact ConvOne.named (hrest (by simp [hn]))

theorem convAt_get (F : Nat → Nat → Nat → Nat) (p : Val) : ∀ {ts : Terms} {i : Nat} {t : Term},
    ts.toList[i]? = some t → convAt F ts i p = match attrsAllow p t.attrs, conv F t.ty p with
      | some true, some w => some (.variant t.name w)
      | _, _ => none
  | .nil, i, t, h => by simp [Terms.toList] at h
  | .cons n g as ty r, 0, t, h => by
    simp only [Terms.toList, List.getElem?_cons_zero, Option.some.injEq] at h
    subst h; simp only [convAt]; rfl
  | .cons n g as ty r, i + 1, t, h => by
    simp only [Terms.toList, List.getElem?_cons_succ] at h
    simp only [convAt]; exact convAt_get F p h

theorem dfltTerm_get : ∀ {ts : Terms} {i : Nat} {t : Term},
    ts.toList[i]? = some t → dfltTermVal ts i = match attrsAllow .unit t.attrs, dfltVal t.ty with
      | some true, some w => some (.variant t.name w)
      | _, _ => none
  | .nil, i, t, h => by simp [Terms.toList] at h
  | .cons n g as ty r, 0, t, h => by
    simp only [Terms.toList, List.getElem?_cons_zero, Option.some.injEq] at h
    subst h; simp only [dfltTermVal]; rfl
  | .cons n g as ty r, i + 1, t, h => by
    simp only [Terms.toList, List.getElem?_cons_succ] at h
    simp only [dfltTermVal]; exact dfltTerm_get h

/-- A default term that can not be split stays as it is. -/
theorem hoist_dflt_same (x : List Term × Nat) (t : Term) (ht : x.1[x.2]? = some t) (hn : ¬ t.ty.splits) :
    (hoist x).1[(hoist x).2]? = some t := by
  refine hoist_inv (P := fun y => y.1[y.2]? = some t) (fun a b s h => ?_) x ht
  have hlt : a.2 < a.1.length := (List.getElem?_eq_some_iff.1 h).1
  rw [s.dflt hlt]
  rw [s.src] at h hlt
  have hne : a.2 ≠ s.pre.length := by
    intro he
    rw [he] at h
    simp only [List.getElem?_append_right (Nat.le_refl _), Nat.sub_self, List.getElem?_cons_zero,
      Option.some.injEq] at h
    rw [← h] at hn
    exact hn (split_splits _ _ s.split)
  simp only [List.length_append, List.length_cons] at hlt
  rw [← h, List.append_assoc]
  by_cases hp : a.2 < s.pre.length
  · rw [List.getElem?_append_left hp, List.getElem?_append_left hp]
  · rw [List.getElem?_append_right (Nat.not_lt.1 hp), List.getElem?_append_right (Nat.not_lt.1 hp)]
    obtain ⟨k, hk⟩ : ∃ k, a.2 - s.pre.length = k + 1 := ⟨a.2 - s.pre.length - 1, by omega⟩
    rw [hk, List.cons_append, List.getElem?_cons_succ, List.getElem?_cons_succ,
      List.getElem?_append_left (by omega)]

mutual
/-- A value of the sender has what the encoder looks at, see `Supplied`. -/
def Fed : Ty → Val → Prop
  | .struct fs _ _, v => FedFields fs v.parts
  | .variant ts l, v =>
    match v with
    | .variant c p => (∀ t ∈ ts.toList, t.name = c → VecsOf t.ty p) ∧
      (ts.hasName c = false → ∀ t, ts.toList[l.dflt]? = some t → ¬ t.ty.splits)
    | _ => ∀ t, ts.toList[l.dflt]? = some t → ¬ t.ty.splits
  | _, _ => True
def FedFields : Fields → List (Comp × Val) → Prop
  | .nil, _ => True
  | .cons c _ t r, vs => (t.still ∧ FedFields r vs) ∨ (¬ t.still ∧ Fed t ((vs.lookup c).getD .unit))
end

mutual
theorem findHoist_still : ∀ t : Ty, t.still ↔ findHoist t = none
  | .struct fs _ _ => by
    simp only [Ty.still, findHoist, findHoistFields_still fs]
    cases findHoistFields fs <;> simp
  | .variant _ _ => by simp [Ty.still, findHoist]
  | .int _ _ _ => by simp [Ty.still, findHoist]
  | .float _ _ => by simp [Ty.still, findHoist]
  | .unit => by simp [Ty.still, findHoist]
  | .array _ _ _ _ => by simp [Ty.still, findHoist]
  | .vector _ _ => by simp [Ty.still, findHoist]
termination_by structural t => t
theorem findHoistFields_still : ∀ fs : Fields, fs.still ↔ findHoistFields fs = none
  | .nil => by simp [Fields.still, findHoistFields]
  | .cons c o t r => by
    simp only [Fields.still, findHoistFields, findHoist_still t, findHoistFields_still r]
    cases findHoist t <;> cases findHoistFields r <;> simp
termination_by structural fs => fs
end

theorem hoist_hasName (ts : Terms) (d : Nat) (c : Comp) :
    (Terms.ofList (hoist (ts.toList, d)).1).hasName c = ts.hasName c := by
  rw [Bool.eq_iff_iff, hasName_iff, hasName_iff, toList_ofList]
  constructor
  · rintro ⟨u, hu, rfl⟩
    obtain ⟨t, ht, _, hn⟩ := C18_names _ u hu
    exact ⟨t, ht, hn.symm⟩
  · rintro ⟨t, ht, rfl⟩
    obtain ⟨u, hu, hn, _⟩ := C18_kept (ts.toList, d) t ht
    exact ⟨u, hu, hn⟩

mutual
theorem conv_findHoist (F : Nat → Nat → Nat → Nat) : ∀ (t t' : Ty) (v : Val), findHoist t = some t' → Sch t →
    Plain t → Fed t v → conv F t' v = conv F t v
  | .variant ts l, t', v, hh, hs, hp, h => by
    simp only [findHoist, Option.some.injEq] at hh
    subst hh
    simp only [Sch] at hs
    simp only [Plain] at hp
    have hd : ts.toList[l.dflt]? = some ts.toList[l.dflt] := List.getElem?_eq_getElem hs.1
    have hkeep : ¬ ts.toList[l.dflt].ty.splits →
        (Terms.ofList (hoist (ts.toList, l.dflt)).1).toList[(hoist (ts.toList, l.dflt)).2]? =
          some ts.toList[l.dflt] := by
      intro hn
      rw [toList_ofList]
      exact hoist_dflt_same (ts.toList, l.dflt) _ hd hn
    cases v with
    | variant c p =>
      simp only [Fed] at h
      simp only [conv, hoist_hasName]
      cases hc : ts.hasName c with
      | false =>
        simp only [Bool.false_eq_true, if_false]
        rw [convAt_get F p hd, convAt_get F p (hkeep (h.2 hc _ hd))]
      | true =>
        simp only [if_true]
        obtain ⟨t, ht, rfl⟩ := hasName_iff.1 hc
        have ha := PlainTerms_iff.1 hp.2
        have h0 : ConvOne F (conv F t.ty p) ts.toList t.name p := by
          refine ⟨h.1, fun u hu _ => by rw [(ha u hu).1]; rfl, fun u hu hn _ => ?_,
            filter_name hp.1 (fun u hu => (ha u hu).1) t ht rfl p⟩
          rw [name_unique hp.1 hu ht hn]
        have h1 := (hoist_inv (P := fun x => (∀ t ∈ x.1, Sch t.ty) ∧ ConvOne F (conv F t.ty p) x.1 t.name p)
          (fun _ _ s h => ⟨s.sch h.1, s.convOne h.1 h.2⟩) (ts.toList, l.dflt)
          ⟨SchTerms_iff.1 hs.2.2.2.2, h0⟩).2
        rw [h0.named, ConvOne.named (ts := .ofList (hoist (ts.toList, l.dflt)).1) (by rw [toList_ofList]; exact h1)]
    | unit =>
      simp only [Fed] at h
      simp only [conv, dfltVal]
      rw [dfltTerm_get hd, dfltTerm_get (hkeep (h _ hd))]
    | _ => simp only [conv]
  | .struct fs sz al, t', v, hh, hs, hp, h => by
    simp only [findHoist] at hh
    split at hh
    · rename_i fs' hf
      cases hh
      simp only [Fed] at h
      exact conv_parts F _ _ _ _ _ _ v (convFields_findHoist F fs fs' v.parts hf hs.2 hp h)
    · cases hh
  | .int _ _ _, t', v, hh, _, _, h => by simp [findHoist] at hh
  | .float _ _, t', v, hh, _, _, h => by simp [findHoist] at hh
  | .unit, t', v, hh, _, _, h => by simp [findHoist] at hh
  | .array _ _ _ _, t', v, hh, _, _, h => by simp [findHoist] at hh
  | .vector _ _, t', v, hh, _, _, h => by simp [findHoist] at hh
termination_by structural t => t
theorem convFields_findHoist (F : Nat → Nat → Nat → Nat) : ∀ (fs fs' : Fields) (vs : List (Comp × Val)),
    findHoistFields fs = some fs' → SchFields fs → PlainFields fs → FedFields fs vs →
    convFields F fs' vs = convFields F fs vs
  | .nil, fs', vs, hh, _, _, h => by simp [findHoistFields] at hh
  | .cons c o t r, fs', vs, hh, hs, hp, h => by
    simp only [FedFields] at h
    simp only [findHoistFields] at hh
    split at hh
    · rename_i t' ht
      cases hh
      have : ¬ t.still := by rw [findHoist_still, ht]; simp
      rcases h with h | h
      · exact absurd h.1 this
      · simp only [convFields_cons, conv_findHoist F t t' _ ht hs.1 hp.1 h.2]
    · rename_i ht
      split at hh
      · rename_i r' hr
        cases hh
        rcases h with h | h
        · simp only [convFields_cons, convFields_findHoist F r r' vs hr hs.2 hp.2 h.2]
        · exact absurd ((findHoist_still t).2 ht) h.1
      · cases hh
termination_by structural fs => fs
end

end PJ
