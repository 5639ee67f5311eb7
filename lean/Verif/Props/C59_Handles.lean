import Verif.Model.Handles
/-!
# C59: contexts and portals are deleted once
-/
namespace PJ

/-- A statement that C++ compiles, in a scope: new variables are new, and used ones live and have the right types. -/
def HOp.Typed (s : HState) : HOp → Prop
  | .context x | .portal x | .generated x => s.vars x = none
  | .compile x c => s.vars x = none ∧ ∃ v, s.vars c = some v ∧ v.kind ≠ .portal
  | .recompile x c => (∃ v, s.vars x = some v ∧ v.kind = .portal) ∧ ∃ v, s.vars c = some v ∧ v.kind ≠ .portal
  | .moveInit x y => s.vars x = none ∧ ∃ v, s.vars y = some v
  | .moveAssign x y => ∃ v w, s.vars x = some v ∧ s.vars y = some w ∧ v.kind = w.kind
  | .call x => ∃ v, s.vars x = some v ∧ v.kind = .generated
  | .drop x => ∃ v, s.vars x = some v

/-- It uses no variable that was moved from. -/
def HOp.Unmoved (s : HState) : HOp → Prop
  | .compile _ c | .recompile _ c => ∀ v, s.vars c = some v → v.ctx ≠ none
  | .call x => ∀ v, s.vars x = some v → v.portal ≠ none
  | _ => True

/-- All statements are such. -/
def HOps (P : HState → HOp → Prop) (s : HState) : List HOp → Prop
  | [] => True
  | op :: r => P s op ∧ ∀ s', s.step op = some s' → HOps P s' r

/-- The contexts and portals in a variable that is assigned to. -/
def HOp.overwrites (s : HState) : HOp → List Nat
  | .recompile x _ | .moveAssign x _ => match s.vars x with
    | none => []
    | some v => v.ctx.toList ++ v.portal.toList
  | _ => []

def overwritten (s : HState) : List HOp → List Nat
  | [] => []
  | op :: r => op.overwrites s ++ match s.step op with
    | none => []
    | some s' => overwritten s' r

def HVar.has (v : HVar) (o : Nat) : Prop := v.ctx = some o ∨ v.portal = some o

structure HInv (s : HState) (lost : List Nat) : Prop where
  nodup : s.freed.Nodup
  freedLt : ∀ o ∈ s.freed, o < s.next
  held : ∀ x v o, s.vars x = some v → v.has o → o < s.next ∧ o ∉ s.freed ∧ o ∉ lost
  once : ∀ x y v w o, s.vars x = some v → s.vars y = some w → v.has o → w.has o → x = y
  apart : ∀ x v o, s.vars x = some v → v.ctx = some o → v.portal ≠ some o
  fns : ∀ x v, s.vars x = some v → v.kind = .generated → v.portal ≠ none → v.fns = v.portal
  gone : ∀ o ∈ lost, o < s.next ∧ o ∉ s.freed
  all : ∀ o, o < s.next → o ∈ s.freed ∨ o ∈ lost ∨ ∃ x v, s.vars x = some v ∧ v.has o
  nctx : ∀ x v, s.vars x = some v → v.kind = .portal → v.ctx = none

theorem HInv.init : HInv .init [] := by
  constructor <;> simp [HState.init]

theorem HInv.step {s s' : HState} {lost : List Nat} (h : HInv s lost) {op : HOp} (ht : op.Typed s) (hs : s.step op = some s') :
    HInv s' (lost ++ op.overwrites s) := by
  obtain ⟨h1, h2, h3, h4, h5, h6, h7, h8, h9⟩ := h
  cases op with
  | context x =>
    simp only [HState.step, HState.set, Option.some.injEq, HOp.Typed] at hs ht
    subst hs
    simp only [HOp.overwrites, List.append_nil]
    constructor
    case all =>
      intro o ho
      by_cases e : o = s.next
      · exact .inr (.inr ⟨x, _, if_pos rfl, .inl (by rw [e])⟩)
      · simp only [HVar.has] at *
        grind
    all_goals simp only [HVar.has] at * <;> grind
  | portal x =>
    simp only [HState.step, HState.set, Option.some.injEq, HOp.Typed] at hs ht
    subst hs
    simp only [HOp.overwrites, List.append_nil]
    constructor <;> simp only [HVar.has] at * <;> grind
  | generated x =>
    simp only [HState.step, HState.set, Option.some.injEq, HOp.Typed] at hs ht
    subst hs
    simp only [HOp.overwrites, List.append_nil]
    constructor
    case all =>
      intro o ho
      by_cases e : o = s.next
      · exact .inr (.inr ⟨x, _, if_pos rfl, .inl (by rw [e])⟩)
      · by_cases e' : o = s.next + 1
        · exact .inr (.inr ⟨x, _, if_pos rfl, .inr (by rw [e'])⟩)
        · simp only [HVar.has] at *
          grind
    all_goals simp only [HVar.has] at * <;> grind
  | compile x c =>
    simp only [HOp.Typed] at ht
    obtain ⟨hx, w, hw, hk⟩ := ht
    simp only [HState.step, HState.set, hw, Option.bind_eq_bind, Option.bind_some, Option.bind_eq_some_iff, Option.some.injEq] at hs
    obtain ⟨-, -, rfl⟩ := hs
    simp only [HOp.overwrites, List.append_nil]
    constructor <;> simp only [HVar.has] at * <;> grind
  | recompile x c =>
    simp only [HOp.Typed] at ht
    obtain ⟨⟨u, hu, hk'⟩, w, hw, hk⟩ := ht
    simp only [HState.step, HState.set, hw, hu, Option.bind_eq_bind, Option.bind_some, Option.bind_eq_some_iff, Option.some.injEq] at hs
    obtain ⟨-, -, rfl⟩ := hs
    have hn := h9 x u hu hk'
    simp only [HOp.overwrites, hu, hn, Option.toList_none, List.nil_append]
    constructor <;> simp only [HVar.has, List.mem_append, Option.mem_toList] at * <;> grind
  | moveInit x y =>
    simp only [HOp.Typed] at ht
    obtain ⟨hx, w, hw⟩ := ht
    simp only [HState.step, HState.set, hw, HVar.moved, Option.bind_eq_bind, Option.bind_some, Option.some.injEq] at hs
    subst hs
    simp only [HOp.overwrites, List.append_nil]
    constructor <;> simp only [HVar.has] at * <;> grind
  | moveAssign x y =>
    simp only [HOp.Typed] at ht
    obtain ⟨u, w, hu, hw, hk⟩ := ht
    simp only [HState.step, HState.set, hu, hw, HVar.moved, Option.bind_eq_bind, Option.bind_some, Option.some.injEq] at hs
    subst hs
    simp only [HOp.overwrites, hu]
    constructor <;> simp only [HVar.has, List.mem_append, Option.mem_toList] at * <;> grind
  | call x =>
    simp only [HOp.Typed] at ht
    obtain ⟨u, hu, hk⟩ := ht
    simp only [HState.step, hu, Option.bind_eq_bind, Option.bind_some, Option.bind_eq_some_iff, Option.some.injEq] at hs
    obtain ⟨-, -, rfl⟩ := hs
    simp only [HOp.overwrites, List.append_nil]
    exact ⟨h1, h2, h3, h4, h5, h6, h7, h8, h9⟩
  | drop x =>
    simp only [HOp.Typed] at ht
    obtain ⟨u, hu⟩ := ht
    simp only [HState.step, HState.set, hu, Option.bind_eq_bind, Option.bind_some, Option.bind_eq_some_iff, Option.some.injEq] at hs
    obtain ⟨s1, hs1, s2, hs2, rfl⟩ := hs
    simp only [HOp.overwrites, List.append_nil]
    have fr : ∀ {a b : HState} {o : Option Nat}, a.free o = some b → b = { a with freed := o.toList ++ a.freed } := by
      intro a b o hab
      cases o with
      | none => simpa [HState.free] using hab.symm
      | some o =>
        simp only [HState.free] at hab
        split at hab
        · simp at hab
        · simpa using hab.symm
    rw [fr hs2, fr hs1]
    have g1 : ∀ o ∈ u.portal.toList, u.has o := fun o ho => .inr (by simpa using ho)
    have g2 : ∀ o ∈ u.ctx.toList, u.has o := fun o ho => .inl (by simpa using ho)
    have g3 : ∀ o, o ∈ u.ctx.toList ++ (u.portal.toList ++ s.freed) ↔ u.has o ∨ o ∈ s.freed := by
      intro o
      simp [HVar.has, or_assoc]
    constructor
    case nodup =>
      have k1 : ∀ o, u.ctx = some o → u.portal ≠ some o := fun o => h5 x u o hu
      have k2 : ∀ o, u.ctx = some o → o ∉ s.freed := fun o ho => (h3 x u o hu (.inl ho)).2.1
      have k3 : ∀ o, u.portal = some o → o ∉ s.freed := fun o ho => (h3 x u o hu (.inr ho)).2.1
      show (u.ctx.toList ++ (u.portal.toList ++ s.freed)).Nodup
      cases hc : u.ctx <;> cases hp : u.portal <;> simp_all
      exact fun e => k1 e.symm
    all_goals
      try simp only [g3]
      grind
theorem HInv.free {s : HState} {lost : List Nat} (h : HInv s lost) {x : Nat} {v : HVar} (hv : s.vars x = some v) :
    ∃ s1 s2, s.free v.portal = some s1 ∧ s1.free v.ctx = some s2 := by
  have k1 : ∀ o, v.ctx = some o → v.portal ≠ some o := fun o => h.apart x v o hv
  have k2 : ∀ o, v.ctx = some o → o ∉ s.freed := fun o ho => (h.held x v o hv (.inl ho)).2.1
  have k3 : ∀ o, v.portal = some o → o ∉ s.freed := fun o ho => (h.held x v o hv (.inr ho)).2.1
  cases hp : v.portal with
  | none =>
    refine ⟨s, ?_⟩
    cases hc : v.ctx with
    | none => exact ⟨s, rfl, rfl⟩
    | some o => exact ⟨_, rfl, if_neg (k2 o hc)⟩
  | some p =>
    refine ⟨{ s with freed := p :: s.freed }, ?_⟩
    cases hc : v.ctx with
    | none => exact ⟨_, if_neg (k3 p hp), rfl⟩
    | some o =>
      refine ⟨_, if_neg (k3 p hp), if_neg ?_⟩
      simp only [List.mem_cons, not_or]
      refine ⟨fun e => ?_, k2 o hc⟩
      subst e
      exact k1 o hc hp

theorem HInv.progress {s : HState} {lost : List Nat} (h : HInv s lost) {op : HOp} (ht : op.Typed s) (hu : op.Unmoved s) :
    ∃ s', s.step op = some s' := by
  have ctx : ∀ c v, s.vars c = some v → v.ctx ≠ none → s.deref v.ctx = some () := by
    intro c v hv hc
    cases e : v.ctx with
    | none => exact (hc e).elim
    | some o => exact if_neg (h.held c v o hv (.inl e)).2.1
  cases op with
  | context x => exact ⟨_, rfl⟩
  | portal x => exact ⟨_, rfl⟩
  | generated x => exact ⟨_, rfl⟩
  | compile x c =>
    obtain ⟨-, v, hv, -⟩ := ht
    simp [HState.step, hv, ctx c v hv (hu v hv)]
  | recompile x c =>
    obtain ⟨⟨w, hw, -⟩, v, hv, -⟩ := ht
    simp [HState.step, hv, hw, ctx c v hv (hu v hv)]
  | moveInit x y =>
    obtain ⟨-, v, hv⟩ := ht
    simp [HState.step, hv]
  | moveAssign x y =>
    obtain ⟨v, w, hv, hw, -⟩ := ht
    simp [HState.step, hv, hw]
  | call x =>
    obtain ⟨v, hv, hk⟩ := ht
    have hp := hu v hv
    have hf := h.fns x v hv hk hp
    cases e : v.portal with
    | none => exact (hp e).elim
    | some o =>
      have : s.deref v.fns = some () := by
        rw [hf, e]
        exact if_neg (h.held x v o hv (.inr e)).2.1
      simp [HState.step, hv, this]
  | drop x =>
    obtain ⟨v, hv⟩ := ht
    obtain ⟨s1, s2, h1, h2⟩ := h.free hv
    simp [HState.step, hv, h1, h2]

theorem HInv.run : ∀ {ops : List HOp} {s s' : HState} {lost : List Nat}, HInv s lost → HOps (fun s op => op.Typed s) s ops →
    s.run ops = some s' → HInv s' (lost ++ overwritten s ops)
  | [], s, s', lost, h, _, hr => by
    simp only [HState.run, Option.some.injEq] at hr
    subst hr
    simpa [overwritten] using h
  | op :: r, s, s', lost, h, ht, hr => by
    simp only [HState.run, Option.bind_eq_some_iff] at hr
    obtain ⟨s1, h1, h2⟩ := hr
    have := HInv.run (h.step ht.1 h1) (ht.2 s1 h1) h2
    simpa [overwritten, h1, List.append_assoc] using this

/-- **C59.**  Programs that use no variable after it was moved from: nothing is deleted twice, and nothing is used that was
deleted, nor through a null pointer. -/
theorem C59_safe (ops : List HOp) (ht : HOps (fun s op => op.Typed s ∧ op.Unmoved s) .init ops) : ∃ s, HState.init.run ops = some s := by
  have : ∀ (ops : List HOp) (s : HState) (lost : List Nat), HInv s lost → HOps (fun s op => op.Typed s ∧ op.Unmoved s) s ops →
      ∃ s', s.run ops = some s' := by
    intro ops
    induction ops with
    | nil => exact fun s _ _ _ => ⟨s, rfl⟩
    | cons op r ih =>
      intro s lost h ht
      obtain ⟨s1, h1⟩ := h.progress ht.1.1 ht.1.2
      obtain ⟨s2, h2⟩ := ih s1 _ (h.step ht.1.1 h1) (ht.2 s1 h1)
      exact ⟨s2, by simp [HState.run, h1, h2]⟩
  exact this ops _ [] .init ht

/-- When no variable lives any more, what was made has been deleted exactly once, except for what was in a variable
that was assigned to: that is never deleted. -/
theorem C59_exact_partial (ops : List HOp) (ht : HOps (fun s op => op.Typed s) .init ops) (s : HState) (hr : HState.init.run ops = some s)
    (hend : ∀ x, s.vars x = none) (o : Nat) (ho : o < s.next) :
    s.freed.count o = if o ∈ overwritten .init ops then 0 else 1 := by
  have h := HInv.run (lost := []) HInv.init ht hr
  simp only [List.nil_append] at h
  split
  · rename_i hl
    exact List.count_eq_zero.2 (h.gone o hl).2
  · rename_i hl
    rcases h.all o ho with g | g | ⟨x, v, hv, -⟩
    · have h1 := List.count_pos_iff.2 g
      have h2 := List.nodup_iff_count.1 h.nodup o
      omega
    · exact (hl g).elim
    · rw [hend x] at hv
      exact nomatch hv

/-- Assigning to a handle that holds something loses it. -/
theorem C59_violated : ∃ (ops : List HOp) (s : HState), HOps (fun s op => op.Typed s ∧ op.Unmoved s) .init ops ∧
    HState.init.run ops = some s ∧ (∀ x, s.vars x = none) ∧ 1 < s.next ∧ 1 ∉ s.freed := by
  -- `Context c; Portal p = c.compile(); p = c.compile();`
  refine ⟨[.context 0, .compile 1 0, .recompile 1 0, .drop 1, .drop 0], _, ?_, rfl, ?_, by decide, by decide⟩
  · simp [HOps, HOp.Typed, HOp.Unmoved, HState.step, HState.init, HState.set, HState.deref, HState.free]
  · intro x
    simp only [HState.set, HState.init]
    split
    · rfl
    · split <;> rfl

/-- A generated class keeps its functions when it is moved from: they work while the other one lives, and then dangle. -/
theorem C59_moved_violated : ∃ (ops : List HOp) (x y : Nat), HOps (fun s op => op.Typed s) .init (ops ++ [.call x, .drop y, .call x]) ∧
    HState.init.run (ops ++ [.call x, .drop y]) ≠ none ∧ HState.init.run (ops ++ [.call x, .drop y, .call x]) = none := by
  -- `A a; { A b = std::move(a); a.encode(...); } a.encode(...);`
  refine ⟨[.generated 0, .moveInit 1 0], 0, 1, ?_, Option.some_ne_none _, rfl⟩
  simp [HOps, HOp.Typed, HState.step, HState.init, HState.set, HState.deref, HState.free, HVar.moved]

/-! ## Samples -/

/-- Two objects of a generated class, one of them moved into a function, assigned from, and used. -/
example : ∃ s, HOps (fun s op => op.Typed s ∧ op.Unmoved s) .init
      [.generated 0, .moveInit 1 0, .call 1, .moveAssign 0 1, .call 0, .drop 1, .call 0, .drop 0] ∧
    HState.init.run [.generated 0, .moveInit 1 0, .call 1, .moveAssign 0 1, .call 0, .drop 1, .call 0, .drop 0] = some s ∧
    (∀ x, s.vars x = none) ∧ s.next = 2 ∧ s.freed.count 0 = 1 ∧ s.freed.count 1 = 1 := by
  refine ⟨_, ?_, rfl, ?_, rfl, rfl, rfl⟩
  · simp [HOps, HOp.Typed, HOp.Unmoved, HState.step, HState.init, HState.set, HState.deref, HState.free, HVar.moved]
  · intro x
    simp only [HState.set, HState.init]
    grind

/-- Self assignment loses both members. -/
example : overwritten .init [.generated 0, .moveAssign 0 0, .drop 0] = [0, 1] ∧
    ((HState.init.run [.generated 0, .moveAssign 0 0, .drop 0]).map (·.freed)) = some [] := ⟨rfl, rfl⟩

/-- What the constructor of a generated class does loses nothing: `portal_` is empty when it is assigned to. -/
example : overwritten .init [.context 0, .portal 1, .recompile 1 0, .drop 1, .drop 0] = [] ∧
    ((HState.init.run [.context 0, .portal 1, .recompile 1 0, .drop 1, .drop 0]).map (·.freed)) = some [0, 1] := ⟨rfl, rfl⟩

end PJ
