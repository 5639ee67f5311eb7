import Verif.Spec.Reflect
/-!
# Reflection: pool invariant and round trip
-/
namespace PJ

/-! ## Reachability -/

theorem Reach.trans {ctx : Ctx} {a b c : Ref} (h : Reach ctx a b) (g : Reach ctx b c) :
    Reach ctx a c := by
  induction h with
  | refl => exact g
  | step hk _ ih => exact .step hk (ih g)

theorem WFRef.reach {ctx : Ctx} {r x : Ref} (h : WFRef ctx r) (g : Reach ctx r x) : WFRef ctx x := by
  induction g with
  | refl => exact h
  | step hk _ ih => cases h with | mk _ _ hs => exact ih (hs _ hk)

theorem WFRef.acyclic {ctx : Ctx} {r : Ref} (h : WFRef ctx r) :
    ∀ c ∈ kids ctx r, ¬ Reach ctx c r := by
  induction h with
  | mk r _ _ ih =>
    intro c hc hr
    cases hr with
    | refl => exact ih _ hc _ hc (.refl _)
    | step hk ht => exact ih c hc _ hk (ht.trans (.step hc (.refl _)))

/-! ## `int32_t` -/

attribute [local irreducible] i32

theorem i32_small (n : Nat) (h : n < 2 ^ 31) : i32 n = n := by
  unfold i32; apply Int.bmod_eq_of_le <;> omega

theorem i32_sub (a b : Nat) (ha : a < 2 ^ 31) (hb : b < 2 ^ 31) :
    i32 ((a : Int) - b) = (a : Int) - b := by
  unfold i32; apply Int.bmod_eq_of_le <;> omega

/-! ## Lookups -/

theorem lookup_zipIdx [BEq α] [LawfulBEq α] (f : Nat → β) (rs : List α) (k : Nat) (r : α) (b : β)
    (h : ((rs.zipIdx k).map (fun p => (p.1, f p.2))).lookup r = some b) :
    ∃ j, rs[j]? = some r ∧ b = f (k + j) := by
  induction rs generalizing k with
  | nil => simp at h
  | cons x xs ih =>
    simp only [List.zipIdx_cons, List.map_cons, List.lookup_cons] at h
    split at h
    · rename_i he
      exact ⟨0, by simp [eq_of_beq he], by simpa using h.symm⟩
    · obtain ⟨j, h1, h2⟩ := ih (k + 1) h
      exact ⟨j + 1, by simpa using h1, by rw [h2]; congr 1; omega⟩

theorem lookup_zipIdx_none [BEq α] [LawfulBEq α] (f : Nat → β) (rs : List α) (k : Nat) (r : α)
    (h : ((rs.zipIdx k).map (fun p => (p.1, f p.2))).lookup r = none) : r ∉ rs := by
  induction rs generalizing k with
  | nil => simp
  | cons x xs ih =>
    simp only [List.zipIdx_cons, List.map_cons, List.lookup_cons] at h
    split at h
    · simp at h
    · rename_i he
      have := ih (k + 1) h
      simp only [List.mem_cons, not_or]
      exact ⟨fun hx => by simp [hx] at he, this⟩

/-! ## The pool -/

/-- Pool and cache stand for the list of types `rs`: entry `j` describes `rs[j]`, whose children come
earlier. -/
structure RInv (ctx : Ctx) (s : RState) (rs : List Ref) : Prop where
  cache : s.cache = (rs.zipIdx 0).map (fun p => (p.1, i32 (p.2 : Nat)))
  len : s.pool.length = rs.length
  nodup : rs.Nodup
  desc : ∀ j r, rs[j]? = some r → ∃ ks : List Nat, (∀ k ∈ ks, k < j) ∧
    ks.map (fun k => rs[k]?) = (kids ctx r).map some ∧
    (entry ctx r (ks.map fun k => i32 (k : Nat)) j).isSome ∧
    s.pool[j]? = entry ctx r (ks.map fun k => i32 (k : Nat)) j

theorem getElem?_grow {l l' : List α} {j : Nat} {x : α} (h : l[j]? = some x) : (l ++ l')[j]? = some x := by
  rw [List.getElem?_append_left (by
    rcases Nat.lt_or_ge j l.length with h' | h'
    · exact h'
    · rw [List.getElem?_eq_none h'] at h; simp at h)]
  exact h

theorem lt_of_getElem? {l : List α} {j : Nat} {x : α} (h : l[j]? = some x) : j < l.length := by
  rcases Nat.lt_or_ge j l.length with h' | h'
  · exact h'
  · rw [List.getElem?_eq_none h'] at h; simp at h

mutual
theorem reflect_inv (ctx : Ctx) (fuel : Nat) (r : Ref) (s : RState) (rs : List Ref) (i : Int)
    (s' : RState) (wf : WFRef ctx r) (hi : RInv ctx s rs) (h : reflect ctx fuel r s = some (i, s')) :
    ∃ new, RInv ctx s' (rs ++ new) ∧ (∀ x ∈ new, Reach ctx r x) ∧
      ∃ k : Nat, (rs ++ new)[k]? = some r ∧ i = i32 k := by
  match fuel with
  | 0 => simp [reflect] at h
  | fuel + 1 =>
    simp only [reflect] at h
    split at h
    · rename_i i' hl
      simp only [Option.some.injEq, Prod.mk.injEq] at h
      obtain ⟨rfl, rfl⟩ := h
      rw [hi.cache] at hl
      obtain ⟨j, h1, h2⟩ := lookup_zipIdx (fun n => i32 (n : Nat)) rs 0 r i' hl
      exact ⟨[], by simpa using hi, by simp, j, by simpa using h1, by simpa using h2⟩
    · rename_i hl
      rw [hi.cache] at hl
      have hn := lookup_zipIdx_none (fun n => i32 (n : Nat)) rs 0 r hl
      split at h
      · simp at h
      · rename_i is s1 hs
        split at h
        · simp at h
        · rename_i e he
          simp only [Option.some.injEq, Prod.mk.injEq] at h
          obtain ⟨hri, rfl⟩ := h
          obtain ⟨new, h1, h2, ks, h3, h4⟩ :=
            reflectAll_inv ctx fuel (kids ctx r) s rs is s1
              (by cases wf with | mk _ _ hs => exact hs) hi hs
          have hnr : r ∉ new := fun hm => by
            obtain ⟨c, hc, hr⟩ := h2 r hm
            exact wf.acyclic c hc hr
          have hlen : s1.pool.length = (rs ++ new).length := h1.len
          refine ⟨new ++ [r], ?_, ?_, (rs ++ new).length, ?_, ?_⟩
          · constructor
            · show s1.cache ++ [_] = _
              rw [h1.cache, ← List.append_assoc rs, List.zipIdx_append (xs := rs ++ new),
                List.map_append]
              simp only [List.zipIdx_cons, List.zipIdx_nil, List.map_cons, List.map_nil,
                List.length_append, List.length_singleton, hlen]
              congr 4
              simp
            · simp [hlen]; omega
            · rw [← List.append_assoc, List.nodup_append]
              refine ⟨h1.nodup, by simp, ?_⟩
              intro a ha b hb hab
              simp only [List.mem_singleton] at hb
              subst hb; subst hab
              rcases List.mem_append.1 ha with ha | ha
              · exact hn ha
              · exact hnr ha
            · intro j x hx
              rw [← List.append_assoc] at hx ⊢
              rcases Nat.lt_or_ge j (rs ++ new).length with hj | hj
              · rw [List.getElem?_append_left hj] at hx
                obtain ⟨ks', g1, g2, g3, g4⟩ := h1.desc j x hx
                refine ⟨ks', g1, ?_, g3, ?_⟩
                · rw [← g2]
                  apply List.map_congr_left
                  intro k hk
                  exact List.getElem?_append_left (by have := g1 k hk; omega)
                · show (s1.pool ++ [e])[j]? = _
                  rw [List.getElem?_append_left (by omega)]; exact g4
              · have hjl := lt_of_getElem? hx
                simp only [List.length_append, List.length_singleton] at hjl hj
                have hje : j = (rs ++ new).length := by simp; omega
                subst hje
                simp only [List.getElem?_append_right (Nat.le_refl _), Nat.sub_self,
                  List.getElem?_cons_zero, Option.some.injEq] at hx
                subst hx
                have hks : ∀ k ∈ ks, k < (rs ++ new).length := by
                  intro k hk
                  have hm : (rs ++ new)[k]? ∈ ks.map (fun k => (rs ++ new)[k]?) :=
                    List.mem_map_of_mem (f := fun k => (rs ++ new)[k]?) hk
                  rw [h3] at hm
                  obtain ⟨c, _, hc⟩ := List.mem_map.1 hm
                  exact lt_of_getElem? hc.symm
                refine ⟨ks, hks, ?_, ?_, ?_⟩
                · rw [← h3]
                  apply List.map_congr_left
                  intro k hk
                  exact List.getElem?_append_left (hks k hk)
                · rw [← h4, ← hlen, he]; rfl
                · show (s1.pool ++ [e])[_]? = _
                  rw [← h4, ← hlen, he]; simp
          · intro x hx
            rcases List.mem_append.1 hx with hx | hx
            · obtain ⟨c, hc, hr⟩ := h2 x hx
              exact .step hc hr
            · simp only [List.mem_singleton] at hx
              subst hx; exact .refl _
          · rw [← List.append_assoc]; simp
          · rw [← hri, ← hlen]; congr 1; simp
  termination_by (fuel, 0)
theorem reflectAll_inv (ctx : Ctx) (fuel : Nat) (l : List Ref) (s : RState) (rs : List Ref)
    (is : List Int) (s' : RState) (wf : ∀ c ∈ l, WFRef ctx c) (hi : RInv ctx s rs)
    (h : reflectAll (reflect ctx fuel) l s = some (is, s')) :
    ∃ new, RInv ctx s' (rs ++ new) ∧ (∀ x ∈ new, ∃ c ∈ l, Reach ctx c x) ∧
      ∃ ks : List Nat, ks.map (fun k => (rs ++ new)[k]?) = l.map some ∧
        is = ks.map fun k => i32 (k : Nat) := by
  match l with
  | [] =>
    simp only [reflectAll, Option.some.injEq, Prod.mk.injEq] at h
    obtain ⟨rfl, rfl⟩ := h
    exact ⟨[], by simpa using hi, by simp, [], by simp, by simp⟩
  | r :: l =>
    simp only [reflectAll] at h
    split at h
    · simp at h
    · rename_i i s1 h1
      split at h
      · simp at h
      · rename_i is' s2 h2
        simp only [Option.some.injEq, Prod.mk.injEq] at h
        obtain ⟨rfl, rfl⟩ := h
        obtain ⟨n1, a1, a2, k, a3, a4⟩ := reflect_inv ctx fuel r s rs i s1 (wf r (by simp)) hi h1
        obtain ⟨n2, b1, b2, ks, b3, b4⟩ := reflectAll_inv ctx fuel l s1 (rs ++ n1) is' s2
          (fun c hc => wf c (by simp [hc])) a1 h2
        refine ⟨n1 ++ n2, by rw [← List.append_assoc]; exact b1, ?_, k :: ks, ?_, ?_⟩
        · intro x hx
          rcases List.mem_append.1 hx with hx | hx
          · exact ⟨r, by simp, a2 x hx⟩
          · obtain ⟨c, hc, hr⟩ := b2 x hx
            exact ⟨c, by simp [hc], hr⟩
        · rw [← List.append_assoc]
          simp only [List.map_cons, b3, getElem?_grow a3]
        · simp [a4, b4]
  termination_by (fuel, l.length + 1)
end

/-- Children of pooled types are pooled. -/
theorem RInv.closed {ctx : Ctx} {s : RState} {rs : List Ref} (hi : RInv ctx s rs) {r x : Ref}
    (hr : r ∈ rs) (h : Reach ctx r x) : x ∈ rs := by
  induction h with
  | refl => exact hr
  | step hk _ ih =>
    apply ih
    obtain ⟨j, hj⟩ := List.mem_iff_getElem?.1 hr
    obtain ⟨ks, _, h2, _⟩ := hi.desc j _ hj
    have hm := List.mem_map_of_mem (f := some) hk
    rw [← h2] at hm
    obtain ⟨k, _, hk'⟩ := List.mem_map.1 hm
    exact List.mem_of_getElem? hk'

theorem RInv.nil (ctx : Ctx) : RInv ctx ⟨[], []⟩ [] :=
  ⟨rfl, rfl, by simp, by simp⟩

end PJ
