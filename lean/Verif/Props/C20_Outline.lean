import Verif.Spec.AtPath
import Verif.Lemmas.Nominal
import Verif.Props.C01_RoundTrip
/-!
# C20: where the outlined payload is

`_partial`: types are trees, that is, no struct on the way to the variant is used at another place, too.
`C20_violated` shows what the source does otherwise.
-/
namespace PJ

/-! ## The path through the passes -/

/-- The path leads to an outline variant. -/
def OutPath : Path → Ty → Prop
  | _ :: _, .variant _ l => l.outline = true
  | c :: p, .struct fs _ _ => ∃ o t, fs.find c = some (o, t) ∧ OutPath p t
  | _, _ => False

theorem tryOutline_nil (t : Ty) : tryOutline t [] = none := by
  cases t <;> simp [tryOutline]

theorem into_self (c : Comp) (p : Path) : Path.into (c :: p) c = p := by
  simp [Path.into, Path.startsWith, Path.narrow]

theorem into_ne {c d : Comp} (p : Path) (h : d ≠ c) : Path.into (c :: p) d = [] := by
  have : c ≠ d := fun e => h e.symm
  simp [Path.into, Path.startsWith, this]

theorem find_toList : ∀ {fs : Fields} {c : Comp} {o : Nat} {t : Ty}, fs.find c = some (o, t) →
    (c, o, t) ∈ fs.toList
  | .nil, _, _, _, h => by simp [Fields.find] at h
  | .cons n o t r, c, o', t', h => by
    simp only [Fields.find] at h
    simp only [Fields.toList, List.mem_cons]
    split at h
    · rename_i hn
      cases h; exact Or.inl (by rw [hn])
    · exact Or.inr (find_toList h)

theorem SchFields_iff : ∀ {fs : Fields}, SchFields fs ↔ ∀ x ∈ fs.toList, Sch x.2.2
  | .nil => by simp [SchFields, Fields.toList]
  | .cons n o t r => by simp [SchFields, Fields.toList, SchFields_iff (fs := r)]

theorem fields_noOut_mem : ∀ {fs : Fields}, fs.noOut → ∀ x ∈ fs.toList, x.2.2.noOut
  | .nil, _, x, hx => by cases hx
  | .cons n o t r, h, x, hx => by
    rcases List.mem_cons.1 hx with rfl | hx
    · exact h.1
    · exact fields_noOut_mem h.2 x hx

/-- Outlining changes the first field of the name and no other. -/
theorem tryOutlineFields_find (c : Comp) (p : Path) : ∀ (fs : Fields), (fs.toList.map (·.1)).Nodup →
    match fs.find c with
    | none => tryOutlineFields fs (c :: p) = none
    | some (o, t) =>
      match tryOutline t p with
      | none => tryOutlineFields fs (c :: p) = none
      | some t' => ∃ fs', tryOutlineFields fs (c :: p) = some fs' ∧ fs'.find c = some (o, t')
  | .nil, _ => by simp [Fields.find, tryOutlineFields]
  | .cons n o t r, hnd => by
    simp only [Fields.toList, List.map_cons, List.nodup_cons] at hnd
    have ih := tryOutlineFields_find c p r hnd.2
    simp only [Fields.find, tryOutlineFields]
    by_cases hn : n = c
    · subst hn
      simp only [if_true, into_self]
      have hr : r.find n = none := by
        cases hf : r.find n with
        | none => rfl
        | some x => exact absurd (List.mem_map_of_mem (f := (·.1)) (find_toList hf)) hnd.1
      rw [hr] at ih
      simp only at ih
      cases ht : tryOutline t p with
      | none => simp [ih]
      | some t' => simp [Fields.find]
    · rw [into_ne p hn, tryOutline_nil]
      simp only [if_neg hn]
      cases hf : r.find c with
      | none => rw [hf] at ih; simp only at ih; simp [ih]
      | some x =>
        obtain ⟨o', t1⟩ := x
        rw [hf] at ih
        simp only at ih ⊢
        cases ht : tryOutline t1 p with
        | none => rw [ht] at ih; simp only at ih; simp [ih]
        | some t' =>
          rw [ht] at ih
          obtain ⟨fs', h1, h2⟩ := ih
          simp [h1, Fields.find, if_neg hn, h2]

theorem tryOutline_path : ∀ (path : Path) (t : Ty), Sch t → t.noOut →
    match t.at path with
    | none => tryOutline t path = none
    | some _ => ∃ t', tryOutline t path = some t' ∧ OutPath path t'
  | [], t, _, _ => by
    cases t <;> simp [Ty.at, tryOutline]
  | c :: p, .variant ts l, _, hn => by
    simp [Ty.at, tryOutline, hn.1, OutPath, outlineL]
  | c :: p, .struct fs sz al, hs, hn => by
    have hf := tryOutlineFields_find c p fs hs.1
    simp only [Ty.at, tryOutline]
    cases hc : fs.find c with
    | none => rw [hc] at hf; simp only at hf; simp [hf]
    | some x =>
      obtain ⟨o, t⟩ := x
      rw [hc] at hf
      have ih := tryOutline_path p t (SchFields_iff.1 hs.2 _ (find_toList hc))
        (fields_noOut_mem hn _ (find_toList hc))
      simp only at hf ⊢
      cases ha : t.at p with
      | none =>
        rw [ha] at ih
        simp only at ih
        rw [ih] at hf
        simp only at hf
        simp [hf]
      | some x =>
        rw [ha] at ih
        obtain ⟨t', h1, h2⟩ := ih
        rw [h1] at hf
        obtain ⟨fs', h3, h4⟩ := hf
        simp only [h3]
        exact ⟨.struct fs' sz al, by simp, o, t', h4, h2⟩
  | c :: p, .int _ _ _, _, _ => by simp [Ty.at, tryOutline]
  | c :: p, .float _ _, _, _ => by simp [Ty.at, tryOutline]
  | c :: p, .unit, _, _ => by simp [Ty.at, tryOutline]
  | c :: p, .array _ _ _ _, _, _ => by simp [Ty.at, tryOutline]
  | c :: p, .vector _ _, _, _ => by simp [Ty.at, tryOutline]

theorem findHoistFields_find : ∀ {fs fs' : Fields} {c : Comp} {o : Nat} {t : Ty},
    findHoistFields fs = some fs' → fs.find c = some (o, t) →
    ∃ t', fs'.find c = some (o, t') ∧ (t' = t ∨ findHoist t = some t')
  | .nil, _, _, _, _, h, _ => by simp [findHoistFields] at h
  | .cons n o t r, fs', c, o', t1, h, hf => by
    simp only [findHoistFields] at h
    simp only [Fields.find] at hf
    split at h
    · rename_i t' ht
      cases h
      simp only [Fields.find]
      split at hf
      · rename_i hn
        cases hf
        exact ⟨t', by rw [if_pos hn], Or.inr ht⟩
      · rename_i hn
        exact ⟨t1, by rw [if_neg hn, hf], Or.inl rfl⟩
    · split at h
      · rename_i r' hr
        cases h
        simp only [Fields.find]
        split at hf
        · rename_i hn
          cases hf
          exact ⟨t, by rw [if_pos hn], Or.inl rfl⟩
        · rename_i hn
          rw [if_neg hn]
          exact findHoistFields_find hr hf
      · cases h

theorem findHoist_path : ∀ (path : Path) (t t' : Ty), findHoist t = some t' → OutPath path t → OutPath path t'
  | [], t, _, _, h => by cases t <;> exact h.elim
  | c :: p, .variant ts l, t', hh, h => by
    simp only [findHoist, Option.some.injEq] at hh
    subst hh
    exact h
  | c :: p, .struct fs sz al, t', hh, h => by
    simp only [findHoist] at hh
    split at hh
    · rename_i fs' hf
      cases hh
      obtain ⟨o, t, hc, h⟩ := h
      obtain ⟨t1, h1, h2⟩ := findHoistFields_find hf hc
      refine ⟨o, t1, h1, ?_⟩
      rcases h2 with rfl | h2
      · exact h
      · exact findHoist_path p t t1 h2 h
    · cases hh
  | c :: p, .int _ _ _, _, _, h => h.elim
  | c :: p, .float _ _, _, _, h => h.elim
  | c :: p, .unit, _, _, h => h.elim
  | c :: p, .array _ _ _ _, _, _, h => h.elim
  | c :: p, .vector _ _, _, _, h => h.elim

theorem layoutFields_find : ∀ {fs : Fields} {c : Comp} {o : Nat} {t : Ty} (off : Nat), fs.find c = some (o, t) →
    ∃ o', (layoutFields fs off 1).1.find c = some (o', layout t)
  | .nil, _, _, _, _, h => by simp [Fields.find] at h
  | .cons n o t r, c, o', t1, off, h => by
    rw [layoutFields_cons]
    simp only [Fields.find] at h ⊢
    split at h
    · rename_i hn
      cases h
      exact ⟨off, by rw [if_pos hn]⟩
    · rename_i hn
      rw [if_neg hn]
      exact layoutFields_find _ h

theorem layout_path : ∀ (path : Path) (t : Ty), OutPath path t → OutPath path (layout t)
  | [], t, h => by cases t <;> exact h.elim
  | c :: p, .variant ts l, h => by
    simp only [OutPath] at h
    simp [layout, OutPath, layoutVar, h]
  | c :: p, .struct fs sz al, h => by
    obtain ⟨o, t, hc, h⟩ := h
    obtain ⟨o', ho⟩ := layoutFields_find 0 hc
    exact ⟨o', layout t, ho, layout_path p t h⟩
  | c :: p, .int _ _ _, h => h.elim
  | c :: p, .float _ _, h => h.elim
  | c :: p, .unit, h => h.elim
  | c :: p, .array _ _ _ _, h => h.elim
  | c :: p, .vector _ _, h => h.elim

theorem setOutFields_find (d : Nat) : ∀ {fs : Fields} {c : Comp} {o : Nat} {t : Ty}, fs.find c = some (o, t) →
    (setOutFields d fs).find c = some (o, setOut d t)
  | .nil, _, _, _, h => by simp [Fields.find] at h
  | .cons n o t r, c, o', t1, h => by
    simp only [setOutFields, Fields.find] at h ⊢
    split at h
    · rename_i hn
      cases h
      rw [if_pos hn]
    · rename_i hn
      rw [if_neg hn]
      exact setOutFields_find d h

theorem setOut_path (d : Nat) : ∀ (path : Path) (t : Ty), OutPath path t → OutPath path (setOut d t)
  | [], t, h => by cases t <;> exact h.elim
  | c :: p, .variant ts l, h => by
    simp only [OutPath] at h
    simp [setOut, h, OutPath]
  | c :: p, .struct fs sz al, h => by
    obtain ⟨o, t, hc, h⟩ := h
    exact ⟨o, _, setOutFields_find d hc, setOut_path d p t h⟩
  | c :: p, .int _ _ _, h => h.elim
  | c :: p, .float _ _, h => h.elim
  | c :: p, .unit, h => h.elim
  | c :: p, .array _ _ _ _, h => h.elim
  | c :: p, .vector _ _, h => h.elim

theorem OutPath.at : ∀ {path : Path} {t : Ty}, OutPath path t →
    ∃ o ts l, t.at path = some (o, ts, l) ∧ l.outline = true
  | [], t, h => by cases t <;> exact h.elim
  | c :: p, .variant ts l, h => ⟨0, ts, l, rfl, h⟩
  | c :: p, .struct fs sz al, h => by
    obtain ⟨o, t, hc, h⟩ := h
    obtain ⟨o', ts, l, h1, h2⟩ := h.at
    exact ⟨o + o', ts, l, by simp only [Ty.at, hc, h1], h2⟩
  | c :: p, .int _ _ _, h => h.elim
  | c :: p, .float _ _, h => h.elim
  | c :: p, .unit, h => h.elim
  | c :: p, .array _ _ _ _, h => h.elim
  | c :: p, .vector _ _, h => h.elim

theorem hasOut_find : ∀ {fs : Fields} {c : Comp} {o : Nat} {t : Ty}, fs.find c = some (o, t) → t.hasOut = true →
    fs.hasOut = true
  | .nil, _, _, _, h, _ => by simp [Fields.find] at h
  | .cons n o t r, c, o', t1, h, ht => by
    simp only [Fields.find] at h
    simp only [Fields.hasOut, Bool.or_eq_true]
    split at h
    · cases h; exact Or.inl ht
    · exact Or.inr (hasOut_find h ht)

theorem OutPath.hasOut : ∀ {path : Path} {t : Ty}, OutPath path t → t.hasOut = true
  | [], t, h => by cases t <;> exact h.elim
  | c :: p, .variant ts l, h => h
  | c :: p, .struct fs sz al, h => by
    obtain ⟨o, t, hc, h⟩ := h
    exact hasOut_find hc h.hasOut
  | c :: p, .int _ _ _, h => h.elim
  | c :: p, .float _ _, h => h.elim
  | c :: p, .unit, h => h.elim
  | c :: p, .array _ _ _ _, h => h.elim
  | c :: p, .vector _ _, h => h.elim

theorem OutAtFields.find : ∀ {fs : Fields} {c : Comp} {o : Nat} {t : Ty} {da ptr : Nat}, OutAtFields fs da ptr →
    fs.find c = some (o, t) → t.hasOut = true → OutAt t (da + o) ptr
  | .nil, _, _, _, _, _, _, h, _ => by simp [Fields.find] at h
  | .cons n o t r, c, o', t1, da, ptr, ho, h, ht => by
    simp only [Fields.find] at h
    split at h
    · cases h
      have := ho.1
      rw [if_pos ht] at this
      exact this.1
    · exact ho.2.find h ht

theorem OutPath.ptr : ∀ {path : Path} {t : Ty} {o da ptr : Nat} {ts : Terms} {l : VarL}, OutPath path t →
    OutAt t da ptr → t.at path = some (o, ts, l) → ptr = da + o + l.termOff
  | [], t, _, _, _, _, _, h, _, _ => by cases t <;> exact h.elim
  | c :: p, .variant ts l, o, da, ptr, ts', l', h, ho, ha => by
    simp only [Ty.at, Option.some.injEq, Prod.mk.injEq] at ha
    obtain ⟨rfl, rfl, rfl⟩ := ha
    exact ho.1 h
  | c :: p, .struct fs sz al, o, da, ptr, ts', l', h, ho, ha => by
    obtain ⟨o1, t, hc, h⟩ := h
    simp only [Ty.at, hc] at ha
    cases hx : t.at p with
    | none => rw [hx] at ha; cases ha
    | some x =>
      rw [hx] at ha
      obtain ⟨o2, ts2, l2⟩ := x
      simp only [Option.some.injEq, Prod.mk.injEq] at ha
      obtain ⟨rfl, rfl, rfl⟩ := ha
      have := h.ptr (OutAtFields.find ho hc h.hasOut) hx
      omega
  | c :: p, .int _ _ _, _, _, _, _, _, h, _, _ => h.elim
  | c :: p, .float _ _, _, _, _, _, _, h, _, _ => h.elim
  | c :: p, .unit, _, _, _, _, _, h, _, _ => h.elim
  | c :: p, .array _ _ _ _, _, _, _, _, _, h, _, _ => h.elim
  | c :: p, .vector _ _, _, _, _, _, _, h, _, _ => h.elim

mutual
theorem outs_noOut : ∀ t : Ty, t.noOut → t.outs = 0
  | .struct fs _ _, h => outsFields_noOut fs h
  | .variant ts l, h => by simp [Ty.outs, h.1, outsTerms_noOut ts h.2]
  | .array e _ _ _, h => outs_noOut e h
  | .vector e _, h => outs_noOut e h
  | .int _ _ _, _ => rfl
  | .float _ _, _ => rfl
  | .unit, _ => rfl
termination_by structural t => t
theorem outsFields_noOut : ∀ fs : Fields, fs.noOut → fs.outs = 0
  | .nil, _ => rfl
  | .cons _ _ t r, h => by simp [Fields.outs, outs_noOut t h.1, outsFields_noOut r h.2]
termination_by structural fs => fs
theorem outsTerms_noOut : ∀ ts : Terms, ts.noOut → ts.outs = 0
  | .nil, _ => rfl
  | .cons _ _ _ t r, h => by simp [Terms.outs, outs_noOut t h.1, outsTerms_noOut r h.2]
termination_by structural ts => ts
end

mutual
theorem outs_outAt : ∀ (t : Ty) (da ptr : Nat), OutAt t da ptr → t.outs = t.hasOut.toNat
  | .struct fs _ _, da, ptr, h => outsFields_outAt fs da ptr h
  | .variant ts l, da, ptr, h => by
    simp only [Ty.outs, Ty.hasOut, outsTerms_noOut ts h.2]
    cases l.outline <;> rfl
  | .array e _ _ _, _, _, h => outs_noOut e h
  | .vector e _, _, _, h => outs_noOut e h
  | .int _ _ _, _, _, _ => rfl
  | .float _ _, _, _, _ => rfl
  | .unit, _, _, _ => rfl
theorem outsFields_outAt : ∀ (fs : Fields) (da ptr : Nat), OutAtFields fs da ptr →
    fs.outs = fs.hasOut.toNat
  | .nil, _, _, _ => rfl
  | .cons _ _ t r, da, ptr, h => by
    have hr := outsFields_outAt r da ptr h.2
    have h1 := h.1
    simp only [Fields.outs, Fields.hasOut, hr]
    by_cases ht : t.hasOut = true
    · rw [if_pos ht] at h1
      rw [outs_outAt t _ ptr h1.1, ht, h1.2]; rfl
    · rw [if_neg ht] at h1
      have ht : t.hasOut = false := by simpa using ht
      rw [outs_noOut t h1, ht]
      simp
termination_by structural fs => fs
end

/-- If the tag path leads to a variant of the host type, then in the planned protocol it leads to an outline
variant, which is the only one, and the payload of every term of it is right behind the head, with
`buffer_offset` in between. -/
theorem C20_selected_partial (host : Ty) (path : Path) (p : Proto) (hh : HostTy host)
    (hp : plan host path = some p) (ha : (host.at path).isSome) :
    ∃ o ts l, p.head.at path = some (o, ts, l) ∧ l.outline = true ∧
      o + l.termOff = p.head.size + p.bufOff ∧ p.head.outs = 1 := by
  have hok := (plan_ok host path p hh.sch hh.small hh.plain hh.noOut hp).1
  have hpath : OutPath path p.head := by
    have h1 := tryOutline_path path host hh.sch hh.noOut
    obtain ⟨x, hx⟩ := Option.isSome_iff_exists.1 ha
    rw [hx] at h1
    obtain ⟨t', h1, h2⟩ := h1
    have h3 : OutPath path (prepare host path) := by
      unfold prepare
      rw [h1]
      simp only [Option.getD_some]
      cases hf : findHoist t' with
      | none => exact h2
      | some t2 => exact findHoist_path path t' t2 hf h2
    unfold plan at hp
    split at hp
    · cases hp
      unfold genOffset
      split
      · exact layout_path path _ h3
      · exact setOut_path _ path _ (layout_path path _ h3)
    · cases hp
  obtain ⟨o, ts, l, h1, h2⟩ := hpath.at
  have h3 := hpath.ptr (hok.out 0) h1
  refine ⟨o, ts, l, h1, h2, by omega, ?_⟩
  rw [outs_outAt _ _ _ (hok.out 0), hpath.hasOut]; rfl

mutual
/-- There is no padding between the outline variant and the end of the type, and its payload has no offset
yet. -/
def Packed : Ty → Prop
  | .variant _ l => l.outline = true → l.termOff = 0
  | .struct fs sz _ => PackedFields fs sz
  | _ => True
def PackedFields : Fields → Nat → Prop
  | .nil, _ => True
  | .cons _ o t r, sz =>
    Packed t ∧ (t.hasOut = true → o + t.size = r.nextOff sz ∧ r.nextOff sz ≤ sz) ∧ PackedFields r sz
end

mutual
/-- `outDist_spec` for any alignment of the terms. -/
theorem outDist_packed : ∀ t : Ty, OutOne t → Packed t → t.hasOut = true →
    ∃ d a, outDist t = some (d, a) ∧ d ≤ t.size ∧ ∀ D da ptr : Nat,
      ptr + d = da + t.size + D → OutAt (setOut D t) da ptr
  | .variant ts l, hone, hp, ho => by
    simp only [Ty.hasOut] at ho
    have h0 := hp ho
    simp only [outDist, ho, if_true, setOut, Ty.size, OutAt]
    exact ⟨_, _, rfl, by omega, fun D da ptr h => ⟨fun _ => by omega, hone⟩⟩
  | .struct fs sz _, hone, hp, ho => by
    obtain ⟨d, a, h1, h2, h3⟩ := outDistFields_packed fs sz hone hp ho
    exact ⟨d, a, h1, h2, fun D da ptr h => h3 D da ptr h⟩
  | .int _ _ _, _, _, ho => by simp [Ty.hasOut] at ho
  | .float _ _, _, _, ho => by simp [Ty.hasOut] at ho
  | .unit, _, _, ho => by simp [Ty.hasOut] at ho
  | .array _ _ _ _, _, _, ho => by simp [Ty.hasOut] at ho
  | .vector _ _, _, _, ho => by simp [Ty.hasOut] at ho
termination_by structural t => t
theorem outDistFields_packed : ∀ (fs : Fields) (sz : Nat), OutOneFields fs → PackedFields fs sz →
    fs.hasOut = true → ∃ d a, outDistFields fs sz = some (d, a) ∧ d ≤ sz ∧ ∀ D da ptr : Nat,
      ptr + d = da + sz + D → OutAtFields (setOutFields D fs) da ptr
  | .nil, _, _, _, ho => by simp [Fields.hasOut] at ho
  | .cons c o t r, sz, hone, hp, ho => by
    have h1 := hone.1
    by_cases hc : t.hasOut = true
    · rw [if_pos hc] at h1
      obtain ⟨d, a, g1, g2, g3⟩ := outDist_packed t h1.1 hp.1 hc
      obtain ⟨p1, p2⟩ := hp.2.1 hc
      refine ⟨d + (sz - r.nextOff sz), a, by simp only [outDistFields, g1], by omega, fun D da ptr h => ?_⟩
      simp only [setOutFields, OutAtFields, setOut_hasOut, hc, if_true]
      rw [setOutFields_none D _ h1.2]
      exact ⟨⟨g3 D (da + o) ptr (by omega), h1.2⟩,
        noOut_outAtFields _ _ _ (outOne_noOutFields r hone.2 h1.2)⟩
    · rw [if_neg hc] at h1
      have hc' : t.hasOut = false := by simpa using hc
      have hor : r.hasOut = true := by simpa [Fields.hasOut, hc'] using ho
      obtain ⟨d, a, g1, g2, g3⟩ := outDistFields_packed r sz hone.2 hp.2.2 hor
      refine ⟨d, a, by simp only [outDistFields, outDist_none t hc']; exact g1, g2, fun D da ptr h => ?_⟩
      simp only [setOutFields, OutAtFields, setOut_hasOut, hc', Bool.false_eq_true, if_false]
      rw [setOut_none D _ hc']
      exact ⟨h1, g3 D da ptr h⟩
termination_by structural fs => fs
end

theorem outDist_align : ∀ (path : Path) (t : Ty) (o : Nat) (ts : Terms) (l : VarL) (x : Nat × Nat), OutOne t →
    OutPath path t → t.at path = some (o, ts, l) → outDist t = some x → x.2 = l.termAlign
  | [], t, _, _, _, _, _, h, _, _ => by cases t <;> exact h.elim
  | c :: p, .variant ts l, o, ts', l', x, _, h, ha, hd => by
    simp only [OutPath] at h
    simp only [Ty.at, Option.some.injEq, Prod.mk.injEq] at ha
    simp only [outDist, h, if_true, Option.some.injEq] at hd
    obtain ⟨_, _, rfl⟩ := ha
    rw [← hd]
  | c :: p, .struct fs sz al, o, ts', l', x, hone, h, ha, hd => by
    obtain ⟨o1, t, hf, h⟩ := h
    simp only [Ty.at, hf] at ha
    have key : ∀ (fs : Fields), OutOneFields fs → fs.find c = some (o1, t) →
        ∀ x, outDistFields fs sz = some x → ∃ y, outDist t = some y ∧ y.2 = x.2 ∧ OutOne t := by
      intro fs
      refine fs.rec (motive_1 := fun _ => True) (motive_2 := fun fs => OutOneFields fs →
        fs.find c = some (o1, t) → ∀ x, outDistFields fs sz = some x →
        ∃ y, outDist t = some y ∧ y.2 = x.2 ∧ OutOne t) (motive_3 := fun _ => True)
        ?_ ?_ ?_ ?_ ?_ ?_ ?_ ?_ ?_ ?_ ?_ <;> try (intros; trivial)
      · intro n o2 t2 r _ ih hone hf x hd
        simp only [Fields.find] at hf
        simp only [outDistFields] at hd
        have h1 := hone.1
        split at hf
        · cases hf
          rw [if_pos h.hasOut] at h1
          cases hy : outDist t with
          | none =>
            have := hy ▸ hd
            have hr := outDistFields_none r sz h1.2
            simp only [hr] at this
            cases this
          | some y =>
            rw [hy] at hd
            exact ⟨y, rfl, by cases hd; rfl, h1.1⟩
        · by_cases hc : t2.hasOut = true
          · rw [if_pos hc] at h1
            have := hasOut_find hf h.hasOut
            rw [h1.2] at this
            cases this
          · rw [outDist_none t2 (by simpa using hc)] at hd
            exact ih hone.2 hf x hd
    obtain ⟨y, hy, hyx, ht⟩ := key fs hone hf x hd
    cases hat : Ty.at p t with
    | none => rw [hat] at ha; cases ha
    | some z =>
      obtain ⟨o', ts2, l2⟩ := z
      rw [hat] at ha
      simp only [Option.some.injEq, Prod.mk.injEq] at ha
      obtain ⟨_, rfl, rfl⟩ := ha
      rw [← hyx]
      exact outDist_align p t o' ts2 l2 y ht h hat hy
  | c :: p, .int _ _ _, _, _, _, _, _, h, _, _ => h.elim
  | c :: p, .float _ _, _, _, _, _, _, h, _, _ => h.elim
  | c :: p, .unit, _, _, _, _, _, h, _, _ => h.elim
  | c :: p, .array _ _ _ _, _, _, _, _, _, h, _, _ => h.elim
  | c :: p, .vector _ _, _, _, _, _, _, h, _, _ => h.elim

theorem setOut_at (D : Nat) : ∀ (path : Path) (t : Ty) (o : Nat) (ts : Terms) (l : VarL), OutPath path t →
    t.at path = some (o, ts, l) → (setOut D t).at path = some (o, ts, { l with termOff := D })
  | [], t, _, _, _, h, _ => by cases t <;> exact h.elim
  | c :: p, .variant ts l, o, ts', l', h, ha => by
    simp only [OutPath] at h
    simp only [Ty.at, Option.some.injEq, Prod.mk.injEq] at ha
    obtain ⟨rfl, rfl, rfl⟩ := ha
    simp only [setOut, h, if_true, Ty.at]
  | c :: p, .struct fs sz al, o, ts', l', h, ha => by
    obtain ⟨o1, t, hf, h⟩ := h
    simp only [Ty.at, hf] at ha
    cases hat : Ty.at p t with
    | none => rw [hat] at ha; cases ha
    | some z =>
      obtain ⟨o', ts2, l2⟩ := z
      rw [hat] at ha
      simp only [Option.some.injEq, Prod.mk.injEq] at ha
      obtain ⟨rfl, rfl, rfl⟩ := ha
      simp only [setOut, Ty.at, setOutFields_find D hf, setOut_at D p t o' ts2 l2 h hat]
  | c :: p, .int _ _ _, _, _, _, h, _ => h.elim
  | c :: p, .float _ _, _, _, _, h, _ => h.elim
  | c :: p, .unit, _, _, _, h, _ => h.elim
  | c :: p, .array _ _ _ _, _, _, _, h, _ => h.elim
  | c :: p, .vector _ _, _, _, _, h, _ => h.elim

/-- `OutlineVariantOffsetGeneration` for terms of any alignment (the planner only makes terms of alignment 1):
the payload is behind the head, after the padding that `buffer_offset` stands for, and aligned if the head is. -/
theorem C20_offset (t : Ty) (path : Path) (o : Nat) (ts : Terms) (l : VarL) (hone : OutOne t) (hp : Packed t)
    (hq : OutPath path t) (ha : t.at path = some (o, ts, l)) (hal : 0 < l.termAlign) :
    ∃ l', (genOffset t).head.at path = some (o, ts, l') ∧
      o + l'.termOff = t.size + (genOffset t).bufOff ∧
      l.termAlign ∣ t.size + (genOffset t).bufOff ∧ (genOffset t).bufOff < l.termAlign := by
  obtain ⟨d, a, h1, h2, h3⟩ := outDist_packed t hone hp hq.hasOut
  have h4 := outDist_align path t o ts l (d, a) hone hq ha h1
  simp only at h4
  subst h4
  have hge : t.size ≤ roundUp t.size l.termAlign ∧ roundUp t.size l.termAlign < t.size + l.termAlign := by
    unfold roundUp divideUp
    have := Nat.div_add_mod (t.size + l.termAlign - 1) l.termAlign
    have := Nat.mod_lt (t.size + l.termAlign - 1) hal
    rw [Nat.mul_comm]
    omega
  have hg : genOffset t = Proto.mk (setOut (d + (roundUp t.size l.termAlign - t.size)) t)
      (roundUp t.size l.termAlign - t.size) := by
    simp only [genOffset, h1]
  rw [hg]
  have hq' := setOut_path (d + (roundUp t.size l.termAlign - t.size)) path t hq
  have hat := setOut_at (d + (roundUp t.size l.termAlign - t.size)) path t o ts l hq ha
  have h5 := hq'.ptr (h3 (d + (roundUp t.size l.termAlign - t.size)) 0
    (t.size + (roundUp t.size l.termAlign - t.size)) (by omega)) hat
  refine ⟨_, hat, by simp only at h5 ⊢; omega, ?_, by simp only; omega⟩
  simp only
  rw [Nat.add_sub_cancel' hge.1]
  exact Nat.dvd_mul_left _ _

/-- `struct { x : int32, v : variant { a : int64 } }` with a payload that wants to be aligned. -/
def C20.padded : Ty :=
  .struct (.cons ['x'] 0 (.int 4 .unsigned 1) (.cons ['v'] 4
    (.variant (.cons ['a'] 1 [] (.int 8 .signed 8) .nil)
      { outline := true, dflt := 0, termOff := 0, termSize := 0, tagOff := 0, tagW := 1, size := 1, align := 1,
        termAlign := 8 }) .nil)) 5 1

example : ∃ l', (genOffset C20.padded).head.at [['v'], ['_']] = some (4, .cons ['a'] 1 [] (.int 8 .signed 8) .nil, l') ∧
    4 + l'.termOff = 8 := by
  obtain ⟨l', h1, h2, _⟩ := C20_offset C20.padded [['v'], ['_']] 4 _ _
    ⟨trivial, ⟨⟨trivial, trivial⟩, rfl⟩, trivial⟩
    ⟨trivial, (fun h => by cases h), (fun _ => rfl), (fun _ => by decide), trivial⟩
    ⟨_, _, rfl, rfl⟩ rfl (by decide)
  exact ⟨l', h1, h2⟩

/-- If the tag path leads to no variant, nothing is outlined. -/
theorem C20_nothing_outlined (host : Ty) (path : Path) (p : Proto) (hh : HostTy host)
    (hp : plan host path = some p) (ha : host.at path = none) : p.head.outs = 0 ∧ p.bufOff = 0 := by
  have hb := (plan_ok host path p hh.sch hh.small hh.plain hh.noOut hp).2.1
  refine ⟨?_, hb⟩
  have h1 := tryOutline_path path host hh.sch hh.noOut
  rw [ha] at h1
  simp only at h1
  have h3 : (prepare host path).noOut := by
    unfold prepare
    rw [h1]
    simp only [Option.getD_none]
    cases hf : findHoist host with
    | none => exact hh.noOut
    | some t2 => exact (findHoist_out host t2 hf).1 hh.noOut
  have h4 := (layout_out (prepare host path)).1 h3
  unfold plan at hp
  split at hp
  · cases hp
    unfold genOffset
    rw [outDist_none _ (noOut_hasOut _ h4)]
    exact outs_noOut _ h4
  · cases hp

theorem readFields_at {m : Mem} : ∀ {fs : Fields} {c : Comp} {o : Nat} {t : Ty} {a : Nat}
    {vs : List (Comp × Val)}, readFields m fs a = some vs → fs.find c = some (o, t) →
    ∃ v, vs.lookup c = some v ∧ readVal m t (a + o) = some v
  | .nil, _, _, _, _, _, _, h => by simp [Fields.find] at h
  | .cons n o t r, c, o', t1, a, vs, hv, h => by
    simp only [readFields] at hv
    split at hv
    · rename_i v vs' h1 h2
      cases hv
      simp only [Fields.find] at h
      split at h
      · rename_i hn
        cases h
        exact ⟨v, by simp [List.lookup, hn], h1⟩
      · rename_i hn
        obtain ⟨v', h3, h4⟩ := readFields_at h2 h
        have : (c == n) = false := by simpa using fun e => hn e.symm
        exact ⟨v', by simp only [List.lookup, this]; exact h3, h4⟩
    · cases hv

theorem readTerm_mem {m : Mem} : ∀ {ts : Terms} {raw a : Nat} {v : Val}, readTerm m ts raw a = some v →
    ∃ u ∈ ts.toList, u.tag = raw ∧ ∃ x, readVal m u.ty a = some x ∧ v = .variant u.name x
  | .nil, _, _, _, h => by simp [readTerm] at h
  | .cons n g as t r, raw, a, v, h => by
    simp only [readTerm] at h
    split at h
    · rename_i hg
      split at h
      · rename_i x hx
        cases h
        exact ⟨⟨n, g, as, t⟩, by simp [Terms.toList], hg, x, hx, rfl⟩
      · cases h
    · obtain ⟨u, hu, h1⟩ := readTerm_mem h
      exact ⟨u, by simp [Terms.toList, hu], h1⟩

theorem readVal_at {m : Mem} : ∀ {path : Path} {t : Ty} {a o : Nat} {ts : Terms} {l : VarL} {v : Val},
    readVal m t a = some v → t.at path = some (o, ts, l) →
    ∃ u ∈ ts.toList, readN m (a + o + l.tagOff) l.tagW = u.tag ∧
      ∃ x, readVal m u.ty (a + o + l.termOff) = some x ∧ v.at path = some (u.name, x)
  | [], t, _, _, _, _, _, _, h => by cases t <;> simp [Ty.at] at h
  | c :: p, .variant ts l, a, o, ts', l', v, hv, h => by
    simp only [Ty.at, Option.some.injEq, Prod.mk.injEq] at h
    obtain ⟨rfl, rfl, rfl⟩ := h
    obtain ⟨u, hu, h1, x, h2, rfl⟩ := readTerm_mem hv
    exact ⟨u, hu, h1.symm, x, h2, rfl⟩
  | c :: p, .struct fs sz al, a, o, ts', l', v, hv, h => by
    simp only [readVal] at hv
    split at hv
    · rename_i vs hvs
      cases hv
      simp only [Ty.at] at h
      cases hc : fs.find c with
      | none => rw [hc] at h; cases h
      | some x =>
        obtain ⟨o1, t⟩ := x
        rw [hc] at h
        simp only at h
        cases hx : t.at p with
        | none => rw [hx] at h; cases h
        | some x =>
          rw [hx] at h
          obtain ⟨o2, ts2, l2⟩ := x
          simp only [Option.some.injEq, Prod.mk.injEq] at h
          obtain ⟨rfl, rfl, rfl⟩ := h
          obtain ⟨v', h1, h2⟩ := readFields_at hvs hc
          obtain ⟨u, hu, h3, x, h4, h5⟩ := readVal_at h2 hx
          rw [Nat.add_assoc a o1 o2] at h3 h4
          exact ⟨u, hu, h3, x, h4, by simp only [Val.at, h1, h5]⟩
    · cases hv
  | c :: p, .int _ _ _, _, _, _, _, _, _, h => by simp [Ty.at] at h
  | c :: p, .float _ _, _, _, _, _, _, _, h => by simp [Ty.at] at h
  | c :: p, .unit, _, _, _, _, _, _, h => by simp [Ty.at] at h
  | c :: p, .array _ _ _ _, _, _, _, _, _, _, h => by simp [Ty.at] at h
  | c :: p, .vector _ _, _, _, _, _, _, _, h => by simp [Ty.at] at h

/-- The encoder puts the payload there: behind the head, at `headSize + buffer_offset`, is the payload of
the object's variant, in the layout of the term whose tag the message has. -/
theorem C20_encoder_partial (E : Env) (host : Ty) (path : Path) (p : Proto) (obj buf : Nat) (mem : Mem)
    (v : Val) (hh : HostTy host) (hp : plan host path = some p) (ha : (host.at path).isSome)
    (hv : readVal E.S host obj = some v) (hq : fin p.head v (buf + p.head.size) < W64) :
    ∃ s o ts l, encode E host p [] obj buf mem = .ok s ∧ p.head.at path = some (o, ts, l) ∧
      ∃ u ∈ ts.toList, readN s.mem (buf + o + l.tagOff) l.tagW = u.tag ∧
        ∃ x, v.at path = some (u.name, x) ∧
          readVal s.mem u.ty (buf + (p.head.size + p.bufOff)) = some x := by
  obtain ⟨s, h1, _, h2, _⟩ := C01_round_trip_partial E host path p obj buf mem v hh hp hv hq
  obtain ⟨o, ts, l, h3, _, h5, _⟩ := C20_selected_partial host path p hh hp ha
  obtain ⟨u, hu, h6, x, h7, h8⟩ := readVal_at h2 h3
  exact ⟨s, o, ts, l, h1, h3, u, hu, h6, x, h8, by rw [← h5, ← Nat.add_assoc]; exact h7⟩

open Sample in
example : ∃ p, plan hostR pathR = some p ∧ (hostR.at pathR).isSome ∧ p.head.outs = 1 := by
  obtain ⟨p, hp⟩ := C01_plan hostR pathR hostR_ok hostR_elems
  have ha : (hostR.at pathR).isSome := rfl
  obtain ⟨_, _, _, _, _, _, h⟩ := C20_selected_partial hostR pathR p hostR_ok hp ha
  exact ⟨p, hp, ha, h⟩

/-! ## Shared structs -/

/-- `struct A { v : V }`, `struct T { x : A, y : A }`. -/
def C20.env : NEnv :=
  [(['T'], .struct [(['x'], .ref ['A']), (['y'], .ref ['A'])]), (['A'], .struct [(['v'], .ref ['V'])]),
   (['V'], .variant false)]

/-- Violation: outlining `x.v` also outlines `y.v`, because `A` is changed in place. -/
theorem C20_violated : ∃ t env', tryOutlineN 3 C20.env (.ref ['T']) [['x'], ['v'], ['_']] = some (t, env') ∧
    outPaths 3 C20.env (.ref ['T']) = [] ∧ outPaths 3 env' t = [[['x'], ['v']], [['y'], ['v']]] := by
  refine ⟨_, _, rfl, by decide, by decide⟩

/-- When no struct is used twice in the type, the change in place does no harm: exactly one variant is
outlined, and it is on the path.  (`outPaths` lists the outlined variants of the unfolded type.) -/
theorem C20_nominal_partial (fuel : Nat) (env env' : NEnv) (t t' : NTy) (path : Path)
    (h : tryOutlineN fuel env t path = some (t', env')) (hs : (nstructs fuel env t).Nodup)
    (hn : ∀ m ∈ nrefs fuel env t, ∀ k, m ≠ outlineName k) (ho : outPaths fuel env t = []) :
    ∃ q c r, path = q ++ c :: r ∧ outPaths fuel env' t' = [q] :=
  (tryOutlineN_spec fuel env t path t' env' h hs hn ho).out

/-- In any case, outlining adds one variant to the definitions, of a variant which was there before;
variants keep their definitions and structs keep the names of their fields. -/
theorem C20_definitions (fuel : Nat) (env env' : NEnv) (t t' : NTy) (path : Path)
    (h : tryOutlineN fuel env t path = some (t', env')) :
    ∃ n, env.lookup n = some (.variant false) ∧ ∀ m, m ≠ outlineName n →
      (∀ o, env.lookup m = some (.variant o) → env'.lookup m = some (.variant o)) ∧
      (env.lookup m = none → env'.lookup m = none) ∧
      (∀ fs, env.lookup m = some (.struct fs) →
        ∃ gs, env'.lookup m = some (.struct gs) ∧ gs.map (·.1) = fs.map (·.1)) :=
  tryOutlineN_defs fuel env t path t' env' h

/-- `struct A { v : V }`, `struct B { w : V }`, `struct T { x : A, y : B }`: the variant is used twice. -/
def C20.env2 : NEnv :=
  [(['T'], .struct [(['x'], .ref ['A']), (['y'], .ref ['B'])]), (['A'], .struct [(['v'], .ref ['V'])]),
   (['B'], .struct [(['w'], .ref ['V'])]), (['V'], .variant false)]

example : ∃ t env', tryOutlineN 3 C20.env2 (.ref ['T']) [['x'], ['v'], ['_']] = some (t, env') ∧
    ∃ q, outPaths 3 env' t = [q] := by
  have ht : ∃ t env', tryOutlineN 3 C20.env2 (.ref ['T']) [['x'], ['v'], ['_']] = some (t, env') := ⟨_, _, rfl⟩
  obtain ⟨t, env', ht⟩ := ht
  have hn : ∀ m ∈ nrefs 3 C20.env2 (.ref ['T']), ∀ k, m ≠ outlineName k := by
    have h1 : ∀ m ∈ nrefs 3 C20.env2 (.ref ['T']), m.head? ≠ some '_' := by
      simp [nrefs, C20.env2, List.lookup]
    exact fun m hm k h => h1 m hm (by rw [h]; rfl)
  obtain ⟨q, _, _, _, h2⟩ := C20_nominal_partial 3 C20.env2 env' _ t _ ht (by decide) hn (by decide)
  exact ⟨t, env', ht, q, h2⟩

end PJ
