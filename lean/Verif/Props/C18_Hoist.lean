import Verif.Lemmas.Hoist
/-!
# C18: vector hoisting terminates and keeps the schema
-/
namespace PJ

/-- The vectors of a type that are reached through struct fields only. -/
inductive VecIn : VecL → Ty → Prop
  | here (e : Ty) (l : VecL) : VecIn l (.vector e l)
  | field {l : VecL} {t : Ty} {fs : Fields} {sz al : Nat} {x : Comp × Nat × Ty}
      (hx : x ∈ fs.toList) (ht : x.2.2 = t) (h : VecIn l t) : VecIn l (.struct fs sz al)

theorem eligible_field : ∀ (fs : Fields), eligibleFields fs = 0 → ∀ x ∈ fs.toList, eligible x.2.2 = 0
  | .nil, _, x, hx => by simp [Fields.toList] at hx
  | .cons n o t r, h, x, hx => by
    simp only [eligibleFields] at h
    simp only [Fields.toList, List.mem_cons] at hx
    rcases hx with rfl | hx
    · simp only; omega
    · exact eligible_field r (by omega) x hx

theorem eligible_vecIn {l : VecL} {t : Ty} (h : VecIn l t) (he : eligible t = 0) :
    l.wireMin = 0 ∨ l.maxLen = some l.wireMin := by
  induction h with
  | here e l =>
    simp only [eligible] at he
    split at he
    · assumption
    · cases he
  | @field l t fs sz al x hx ht _ ih =>
    subst ht
    exact ih (eligible_field fs (by simpa [eligible] using he) x hx)

/-- The loop of `findVariantAndHoist` stops, after at most `2^k - 1` rounds per term with `k` vectors to
split. -/
theorem C18_terminates (x : List Term × Nat) :
    ∃ y, hoistOnce y = none ∧ ∀ n, (x.1.map fun t => 2 ^ eligible t.ty - 1).sum ≤ n → hoistN n x = y :=
  ⟨hoist x, hoistN_done _ x (Nat.le_refl _), fun n hn => hoistN_stable n x hn⟩

/-- No vector with inline space that is not its full length is left in the terms. -/
theorem C18_none_left (x : List Term × Nat) : ∀ t ∈ (hoist x).1, ∀ l, VecIn l t.ty →
    l.wireMin = 0 ∨ l.maxLen = some l.wireMin := by
  intro t ht l hl
  have h := hoistN_done _ x (Nat.le_refl _)
  have h2 : splitFirst t.ty = none := by
    unfold hoistOnce at h
    split at h
    · cases h
    · rename_i hs; exact splitTerms_none hs t ht
  exact eligible_vecIn hl (splitFirst_none _ h2)

/-- The tags stay distinct. -/
theorem C18_tags (x : List Term × Nat) (h : (x.1.map (·.tag)).Nodup) : ((hoist x).1.map (·.tag)).Nodup :=
  hoist_inv (P := fun x => (x.1.map (·.tag)).Nodup) (fun _ _ s h => s.tags h) x h

theorem Step.mem {x y : List Term × Nat} (s : Step x y) (u : Term) : u ∈ y.1 ↔
    u ∈ s.pre ∨ u = s.t.longOf s.sp ∨ u ∈ s.post ∨ u = s.t.shortOf s.sp (freeTag (x.1.map (·.tag))) := by
  rw [s.perm.mem_iff]
  simp

theorem Step.mem_src {x y : List Term × Nat} (s : Step x y) (u : Term) : u ∈ x.1 ↔
    u ∈ s.pre ∨ u = s.t ∨ u ∈ s.post := by
  rw [s.src]; simp

/-- Every term keeps its name and its tag. -/
theorem C18_kept (x : List Term × Nat) : ∀ t ∈ x.1, ∃ u ∈ (hoist x).1, u.name = t.name ∧ u.tag = t.tag := by
  refine hoist_inv (P := fun y => ∀ t ∈ x.1, ∃ u ∈ y.1, u.name = t.name ∧ u.tag = t.tag)
    (fun a b s h t ht => ?_) x (fun t ht => ⟨t, ht, rfl, rfl⟩)
  obtain ⟨u, hu, h1, h2⟩ := h t ht
  rcases (s.mem_src u).1 hu with hu | rfl | hu
  · exact ⟨u, (s.mem u).2 (Or.inl hu), h1, h2⟩
  · exact ⟨_, (s.mem _).2 (Or.inr (Or.inl rfl)), h1, h2⟩
  · exact ⟨u, (s.mem u).2 (Or.inr (Or.inr (Or.inl hu))), h1, h2⟩

/-- `u` is `t` or comes from `t` by splits. -/
inductive SplitFrom : Term → Term → Prop
  | refl (t : Term) : SplitFrom t t
  | long {t u : Term} {s : Split} (h : SplitFrom t u) (hs : splitFirst u.ty = some s) :
      SplitFrom t ⟨u.name, u.tag, u.attrs ++ [.split false s.len s.path], s.long⟩
  | short {t u : Term} {s : Split} {g : Nat} (h : SplitFrom t u) (hs : splitFirst u.ty = some s) :
      SplitFrom t ⟨u.name, g, u.attrs ++ [.split true s.len s.path], s.short⟩

theorem SplitFrom.name {t u : Term} (h : SplitFrom t u) : u.name = t.name := by
  induction h with
  | refl => rfl
  | long _ _ ih => exact ih
  | short _ _ ih => exact ih

/-- The terms are those split from the original ones, and carry their names. -/
theorem C18_names (x : List Term × Nat) : ∀ u ∈ (hoist x).1, ∃ t ∈ x.1, SplitFrom t u ∧ u.name = t.name := by
  have h := hoist_inv (P := fun y => ∀ u ∈ y.1, ∃ t ∈ x.1, SplitFrom t u)
    (fun a b s h u hu => by
      have ht : s.t ∈ a.1 := (s.mem_src _).2 (Or.inr (Or.inl rfl))
      rcases (s.mem u).1 hu with hu | rfl | hu | rfl
      · exact h u ((s.mem_src u).2 (Or.inl hu))
      · obtain ⟨t, h1, h2⟩ := h _ ht
        exact ⟨t, h1, h2.long s.split⟩
      · exact h u ((s.mem_src u).2 (Or.inr (Or.inr hu)))
      · obtain ⟨t, h1, h2⟩ := h _ ht
        exact ⟨t, h1, h2.short s.split⟩) x (fun u hu => ⟨u, hu, .refl u⟩)
  intro u hu
  obtain ⟨t, h1, h2⟩ := h u hu
  exact ⟨t, h1, h2, h2.name⟩

/-- The default term keeps its name and its tag. -/
theorem C18_default (x : List Term × Nat) (t : Term) (ht : x.1[x.2]? = some t) :
    ∃ u, (hoist x).1[(hoist x).2]? = some u ∧ u.name = t.name ∧ u.tag = t.tag := by
  refine hoist_inv (P := fun y => ∃ u, y.1[y.2]? = some u ∧ u.name = t.name ∧ u.tag = t.tag)
    (fun a b s h => ?_) x ⟨t, ht, rfl, rfl⟩
  obtain ⟨u, h1, h2, h3⟩ := h
  have hlt : a.2 < a.1.length := (List.getElem?_eq_some_iff.1 h1).1
  rw [s.dflt hlt]
  rw [s.src] at h1 hlt
  rw [List.append_assoc]
  rcases Nat.lt_or_ge a.2 s.pre.length with hp | hp
  · rw [List.getElem?_append_left hp] at h1 ⊢
    exact ⟨u, h1, h2, h3⟩
  · rw [List.getElem?_append_right hp] at h1 ⊢
    cases hk : a.2 - s.pre.length with
    | zero =>
      rw [hk] at h1
      simp only [List.cons_append, List.getElem?_cons_zero, Option.some.injEq] at h1 ⊢
      subst h1
      exact ⟨_, rfl, h2, h3⟩
    | succ k =>
      rw [hk] at h1
      simp only [List.cons_append, List.getElem?_cons_succ] at h1 ⊢
      rw [List.getElem?_append_left (List.getElem?_eq_some_iff.1 h1).1]
      exact ⟨u, h1, h2, h3⟩

namespace Sample

def nmV : Comp := ['v']
/-- Host vector (pointer, length) with inline space for two elements on the wire. -/
def vecIn2L : VecL :=
  { minLen := 0, maxLen := none, wireMin := 2, ppl := 0, lenOff := 8, lenSize := 8, refOff := 0,
    refSize := 8, mode := .pointer, inlOff := 0, parOff := 0, elemW := 1, size := 16, align := 8 }
def vecIn2 : Ty := .vector (.int 1 .unsigned 1) vecIn2L
def twoVecs : Ty := .struct (.cons ['x'] 0 vecIn2 (.cons ['y'] 16 vecIn2 .nil)) 32 8
def hTerms : List Term := [⟨['a'], 7, [], .unit⟩, ⟨nmV, 1, [], twoVecs⟩]

/-- Two vectors in one term give four terms. -/
example : ((hoist (hTerms, 1)).1.map fun t => (t.name, t.tag)) =
    [(['a'], 7), (nmV, 1), (nmV, 2), (nmV, 3), (nmV, 4)] := by decide +kernel
example : (hTerms.map (·.tag)).Nodup := by decide
example : hTerms[1]? = some ⟨nmV, 1, [], twoVecs⟩ := rfl
example : ∃ l, VecIn l twoVecs ∧ ¬ (l.wireMin = 0 ∨ l.maxLen = some l.wireMin) :=
  ⟨_, .field (x := (['x'], 0, vecIn2)) (by simp [Fields.toList]) rfl (.here _ _), by decide⟩

end Sample
end PJ
