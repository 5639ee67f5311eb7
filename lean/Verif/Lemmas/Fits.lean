import Verif.Spec.Fits
import Verif.Spec.Schema
import Verif.Lemmas.MainTri
import Verif.Lemmas.Hoist
/-!
# Values that fit
-/
namespace PJ

theorem wrapInt_inRange {w : Nat} {s : Sign} {x : Int} (h : InRange w s x) : wrapInt w s x = x := by
  have hpos : (0 : Int) < ((256 ^ w : Nat) : Int) := by
    have : 0 < 256 ^ w := Nat.pow_pos (by omega)
    omega
  have h1 := Int.emod_nonneg x (Int.ne_of_gt hpos)
  have h2 := Int.emod_lt_of_pos x hpos
  unfold InRange at h
  unfold wrapInt intValue toSigned
  by_cases hs : s = .signed
  · simp only [hs, if_true] at h ⊢
    rcases Int.lt_or_le x 0 with hx | hx
    · have : x % ((256 ^ w : Nat) : Int) = x + ((256 ^ w : Nat) : Int) := by
        rw [← Int.add_emod_right]
        exact Int.emod_eq_of_lt (by omega) (by omega)
      rw [this]
      split <;> omega
    · have : x % ((256 ^ w : Nat) : Int) = x := Int.emod_eq_of_lt hx (by omega)
      rw [this]
      split <;> omega
  · simp only [hs, if_false] at h ⊢
    rw [Int.emod_eq_of_lt h.1 h.2]
    omega

theorem FitsTerms_iff {c : Comp} {p : Val} : ∀ {ts : Terms}, FitsTerms ts c p ↔ ∀ t ∈ ts.toList, t.name = c →
    (attrsAllow p t.attrs).isSome = true ∧ (attrsAllow p t.attrs = some true → Fits t.ty p)
  | .nil => by simp [FitsTerms, Terms.toList]
  | .cons n g as t r => by
    simp only [FitsTerms, Terms.toList, List.forall_mem_cons, FitsTerms_iff (ts := r)]

theorem PlainTerms_iff : ∀ {ts : Terms}, PlainTerms ts ↔ ∀ t ∈ ts.toList, t.attrs = [] ∧ Plain t.ty
  | .nil => by simp [PlainTerms, Terms.toList]
  | .cons n g as t r => by
    simp only [PlainTerms, Terms.toList, List.forall_mem_cons, PlainTerms_iff (ts := r), and_assoc]

theorem SchTerms_iff : ∀ {ts : Terms}, SchTerms ts ↔ ∀ t ∈ ts.toList, Sch t.ty
  | .nil => by simp [SchTerms, Terms.toList]
  | .cons n g as t r => by
    simp only [SchTerms, Terms.toList, List.forall_mem_cons, SchTerms_iff (ts := r)]

theorem filter_name {c : Comp} : ∀ {l : List Term}, (l.map (·.name)).Nodup → (∀ t ∈ l, t.attrs = []) →
    ∀ t ∈ l, t.name = c → ∀ p,
    (l.filter fun t => decide (t.name = c ∧ attrsAllow p t.attrs = some true)).length = 1
  | [], _, _, t, ht, _, _ => by cases ht
  | x :: l, hn, ha, t, ht, hc, p => by
    have hn' := List.nodup_cons.1 hn
    have hx : attrsAllow p x.attrs = some true := by rw [ha x (by simp)]; rfl
    by_cases hxc : x.name = c
    · rw [List.filter_cons_of_pos (by simp [hxc, hx])]
      rw [List.filter_eq_nil_iff.2]
      · rfl
      · intro y hy h
        have h' := (of_decide_eq_true h).1
        exact hn'.1 (List.mem_map.2 ⟨y, hy, h'.trans hxc.symm⟩)
    · rw [List.filter_cons_of_neg (by simp [hxc])]
      rcases List.mem_cons.1 ht with rfl | ht
      · exact absurd hc hxc
      · exact filter_name hn'.2 (fun t ht => ha t (by simp [ht])) t ht hc p

mutual
/-- What is read from an object fits its type. -/
theorem readVal_fits (m : Mem) : ∀ (t : Ty) (a : Nat) (v : Val), Plain t → readVal m t a = some v → Fits t v
  | .int w s _, a, v, _, h => by
    simp only [readVal, Option.some.injEq] at h
    subst h
    exact ⟨_, rfl, intValue_inRange _ _ _ (readN_lt _ _ _)⟩
  | .float w _, a, v, _, h => by
    simp only [readVal, Option.some.injEq] at h
    subst h
    exact ⟨_, rfl⟩
  | .unit, a, v, _, h => by
    simp only [readVal, Option.some.injEq] at h
    subst h
    rfl
  | .struct fs _ _, a, v, hp, h => by
    simp only [readVal] at h
    split at h
    · rename_i vs hvs
      cases h
      exact ⟨vs, rfl, readFields_fits m fs a vs hp hvs⟩
    · cases h
  | .variant ts l, a, v, hp, h => by
    simp only [readVal] at h
    simp only [Plain] at hp
    obtain ⟨t, ht, p, hv, hf⟩ := readTerm_fits m ts _ _ v hp.2 h
    have hattr := (PlainTerms_iff.1 hp.2)
    refine ⟨t.name, p, hv, FitsTerms_iff.2 fun u hu hn => ?_, ?_⟩
    · have : u = t := by
        have h1 := List.mem_iff_getElem.1 hu
        have h2 := List.mem_iff_getElem.1 ht
        obtain ⟨i, hi, rfl⟩ := h1
        obtain ⟨j, hj, rfl⟩ := h2
        have := (List.getElem_inj (xs := ts.toList.map (·.name)) (i := i) (j := j) (h₀ := by simpa using hi)
          (h₁ := by simpa using hj) hp.1).1 (by simpa using hn)
        subst this; rfl
      subst this
      rw [(hattr u hu).1]
      exact ⟨rfl, fun _ => hf⟩
    · exact filter_name hp.1 (fun u hu => (hattr u hu).1) t ht rfl p
  | .array e n esz _, a, v, hp, h => by
    simp only [readVal] at h
    split at h
    · rename_i vs hvs
      cases h
      obtain ⟨h1, h2⟩ := collect_some hvs
      refine ⟨vs, rfl, h1, fun x hx => ?_⟩
      obtain ⟨i, hi, rfl⟩ := List.mem_iff_getElem.1 hx
      have := h2 i (by omega)
      rw [List.getElem?_eq_getElem hi] at this
      exact readVal_fits m e _ _ hp this
    · cases h
  | .vector e l, a, v, hp, h => by
    simp only [readVal] at h
    split at h
    · cases h
    · rename_i n hn
      split at h
      · rename_i hlt
        split at h
        · rename_i vs hvs
          cases h
          obtain ⟨h1, h2⟩ := collect_some hvs
          refine ⟨vs, rfl, by omega, fun k hk => ?_, fun x hx => ?_⟩
          · unfold lengthOp at hn
            rw [hk] at hn
            simp only at hn
            split at hn
            · cases hn; omega
            · split at hn
              · cases hn
              · split at hn
                · cases hn; omega
                · cases hn
          · obtain ⟨i, hi, rfl⟩ := List.mem_iff_getElem.1 hx
            have := h2 i (by omega)
            rw [List.getElem?_eq_getElem hi] at this
            exact readVal_fits m e _ _ hp this
        · cases h
      · cases h
termination_by structural t => t
theorem readFields_fits (m : Mem) : ∀ (fs : Fields) (a : Nat) (vs : List (Comp × Val)), PlainFields fs →
    readFields m fs a = some vs → FitsFields fs vs
  | .nil, a, vs, _, h => by
    simp only [readFields, Option.some.injEq] at h
    subst h; rfl
  | .cons c o t r, a, vs, hp, h => by
    simp only [readFields] at h
    split at h
    · rename_i v vs' h1 h2
      cases h
      exact ⟨v, vs', rfl, readVal_fits m t _ v hp.1 h1, readFields_fits m r a vs' hp.2 h2⟩
    · cases h
termination_by structural fs => fs
theorem readTerm_fits (m : Mem) : ∀ (ts : Terms) (raw a : Nat) (v : Val), PlainTerms ts →
    readTerm m ts raw a = some v → ∃ t ∈ ts.toList, ∃ p, v = .variant t.name p ∧ Fits t.ty p
  | .nil, raw, a, v, _, h => by simp [readTerm] at h
  | .cons n g as t r, raw, a, v, hp, h => by
    simp only [readTerm] at h
    split at h
    · split at h
      · rename_i p hv
        cases h
        exact ⟨⟨n, g, as, t⟩, by simp [Terms.toList], p, rfl, readVal_fits m t a p hp.2.1 hv⟩
      · cases h
    · obtain ⟨t', ht, x⟩ := readTerm_fits m r raw a v hp.2.2 h
      exact ⟨t', by simp [Terms.toList, ht], x⟩
termination_by structural ts => ts
end

theorem mapAll_id {f : Val → Option Val} : ∀ {l : List Val}, (∀ x ∈ l, f x = some x) → mapAll f l = some l
  | [], _ => rfl
  | x :: l, h => by
    simp only [mapAll, h x (by simp), mapAll_id (l := l) (fun y hy => h y (by simp [hy]))]

theorem FitsFields_keys : ∀ {fs : Fields} {vs : List (Comp × Val)}, FitsFields fs vs →
    vs.map (·.1) = fs.toList.map (·.1)
  | .nil, vs, h => by simp only [FitsFields] at h; subst h; rfl
  | .cons c o t r, vs, h => by
    obtain ⟨v, rest, rfl, _, h2⟩ := h
    simp [Fields.toList, FitsFields_keys h2]

mutual
/-- A value that fits is not changed by the conversion. -/
theorem conv_fits (F : Nat → Nat → Nat → Nat) : ∀ (t : Ty) (v : Val), WF t → Fits t v → conv F t v = some v
  | .int w s al, v, _, h => by
    obtain ⟨x, rfl, hx⟩ := h
    simp only [conv, wrapInt_inRange hx]
  | .float w al, v, _, h => by
    obtain ⟨b, rfl⟩ := h
    simp [conv]
  | .unit, v, _, h => by
    simp only [Fits] at h
    subst h
    simp [conv]
  | .struct fs _ _, v, hs, h => by
    obtain ⟨vs, rfl, hf⟩ := h
    simp only [WF] at hs
    have := convFields_fits F fs vs [] hs.1 hf (by rw [List.nil_append, FitsFields_keys hf]; exact hs.2.names)
    simp only [List.nil_append] at this
    simp only [conv, this]
  | .variant ts l, v, hs, h => by
    obtain ⟨c, p, rfl, hf, hl⟩ := h
    simp only [WF] at hs
    obtain ⟨t, ht⟩ := List.length_eq_one_iff.1 hl
    have hmem : t ∈ ts.toList.filter fun t => decide (t.name = c ∧ attrsAllow p t.attrs = some true) := by
      rw [ht]; simp
    obtain ⟨h1, h2⟩ := List.mem_filter.1 hmem
    have h3 := of_decide_eq_true h2
    have hn : ts.hasName c = true := List.any_eq_true.2 ⟨t, h1, by simp [h3.1]⟩
    simp only [conv, hn, if_true]
    exact convNamed_fits F ts c p hs.1 hf ⟨t, h1, h3⟩
  | .array e n _ _, v, hs, h => by
    obtain ⟨xs, rfl, hn, hx⟩ := h
    simp only [WF] at hs
    simp only [conv]
    rw [mapAll_id]
    · simp only
      rw [if_neg (by omega), List.take_of_length_le (by omega)]
    · intro x hx'
      exact conv_fits F e x hs.1 (hx x (List.mem_of_mem_take hx'))
  | .vector e l, v, hs, h => by
    obtain ⟨xs, rfl, _, hm, hx⟩ := h
    simp only [WF] at hs
    have hcut : cutTo l.maxLen xs = xs := by
      unfold cutTo
      cases hk : l.maxLen with
      | none => rfl
      | some m => exact List.take_of_length_le (hm m hk)
    simp only [conv, hcut]
    rw [mapAll_id]
    intro x hx'
    exact conv_fits F e x hs.1 (hx x hx')
termination_by structural t => t
theorem convFields_fits (F : Nat → Nat → Nat → Nat) : ∀ (fs : Fields) (vs pre : List (Comp × Val)),
    WFFields fs → FitsFields fs vs → ((pre ++ vs).map (·.1)).Nodup → convFields F fs (pre ++ vs) = some vs
  | .nil, vs, pre, _, h, _ => by
    simp only [FitsFields] at h
    subst h
    simp [convFields]
  | .cons c o t r, vs, pre, hs, h, hn => by
    obtain ⟨v, rest, rfl, h1, h2⟩ := h
    have hlk : (pre ++ (c, v) :: rest).lookup c = some v := by
      rw [List.lookup_append]
      have : pre.lookup c = none := by
        rw [List.lookup_eq_none_iff]
        intro x hx
        rw [List.map_append, List.nodup_append] at hn
        have := hn.2.2 x.1 (List.mem_map.2 ⟨x, hx, rfl⟩) c (by simp)
        simpa using fun e => this e.symm
      simp [this]
    have h3 := convFields_fits F r rest (pre ++ [(c, v)]) hs.2 h2 (by simpa using hn)
    rw [List.append_assoc, List.singleton_append] at h3
    simp only [convFields, hlk, conv_fits F t v hs.1 h1, h3]
termination_by structural fs => fs
theorem convNamed_fits (F : Nat → Nat → Nat → Nat) : ∀ (ts : Terms) (c : Comp) (p : Val),
    WFTerms ts → FitsTerms ts c p → (∃ t ∈ ts.toList, t.name = c ∧ attrsAllow p t.attrs = some true) →
    convNamed F ts c p = some (.variant c p)
  | .nil, c, p, _, _, h => by simp [Terms.toList] at h
  | .cons n g as t r, c, p, hs, hf, h => by
    simp only [convNamed]
    by_cases hn : n = c
    · rw [if_pos hn]
      obtain ⟨h1, h2⟩ := hf.1 hn
      cases ha : attrsAllow p as with
      | none => rw [ha] at h1; cases h1
      | some b =>
        cases b with
        | true => simp only [conv_fits F t p hs.1 (h2 ha), hn]
        | false =>
          simp only
          refine convNamed_fits F r c p hs.2 hf.2 ?_
          obtain ⟨u, hu, h3⟩ := h
          simp only [Terms.toList, List.mem_cons] at hu
          rcases hu with rfl | hu
          · rw [ha] at h3; cases h3.2
          · exact ⟨u, hu, h3⟩
    · rw [if_neg hn]
      refine convNamed_fits F r c p hs.2 hf.2 ?_
      obtain ⟨u, hu, h3⟩ := h
      simp only [Terms.toList, List.mem_cons] at hu
      rcases hu with rfl | hu
      · exact absurd h3.1 hn
      · exact ⟨u, hu, h3⟩
termination_by structural ts => ts
end

end PJ
