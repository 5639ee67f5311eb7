import Verif.Lemmas.Elab
/-!
# Schema files: invariants of elaboration
-/
namespace PJ

theorem nodup_fst_eq {α β : Type} {l : List (α × β)} (h : (l.map (·.1)).Nodup) {a : α} {b c : β} (hb : (a, b) ∈ l)
    (hc : (a, c) ∈ l) : b = c := by
  induction l with
  | nil => exact absurd hb (by simp)
  | cons x l ih =>
    simp only [List.map_cons, List.nodup_cons, List.mem_map, not_exists, not_and] at h
    rcases List.mem_cons.1 hb with hb' | hb' <;> rcases List.mem_cons.1 hc with hc' | hc'
    · exact (Prod.mk.inj (hb'.trans hc'.symm)).2
    · exact absurd (by rw [← hb']) (h.1 _ hc')
    · exact absurd (by rw [← hc']) (h.1 _ hb')
    · exact ih h.2 hb' hc'

theorem findDef_none_iff {α} {defs : List (SourceId × α)} {n : SourceId} : findDef defs n = none ↔ n ∉ defs.map (·.1) := by
  have h := C26_fails_iff defs [] n
  simp only [resolve, resolveFrom, List.length_nil] at h
  rw [h]
  constructor
  · intro h hn
    obtain ⟨e, he, rfl⟩ := List.mem_map.1 hn
    exact h 0 (by omega) e he (by simp)
  · intro h j _ d hd he
    refine h (List.mem_map.2 ⟨d, hd, ?_⟩)
    simpa using he

theorem nodup_snoc {α} {l : List (SourceId × α)} {n : SourceId} {a : α} (h : (l.map (·.1)).Nodup)
    (hn : findDef l n = none) : ((l ++ [(n, a)]).map (·.1)).Nodup := by
  rw [List.map_append]
  refine List.nodup_append.2 ⟨h, by simp, ?_⟩
  intro x hx y hy e
  simp only [List.map_cons, List.map_nil, List.mem_singleton] at hy
  subst hy
  subst e
  exact findDef_none_iff.1 hn hx

/-! ## Types -/

/-- Every named type inside a definition is a definition. -/
def DefsClosed (defs : List (SourceId × PTy)) : Prop :=
  ∀ e ∈ defs, ∀ u ∈ e.2.parts, ∀ n, u.name? = some n → (n, u) ∈ defs

theorem Formed.closed {defs : List (SourceId × PTy)} (hc : DefsClosed defs) : ∀ {t : PTy}, Formed defs t → ∀ u ∈ t.parts, ∀ n,
    u.name? = some n → (n, u) ∈ defs := by
  intro t h
  induction h with
  | int => intro u hu; simp only [PTy.parts, List.mem_singleton] at hu; subst hu; simp [PTy.name?]
  | float => intro u hu; simp only [PTy.parts, List.mem_singleton] at hu; subst hu; simp [PTy.name?]
  | any => intro u hu; simp only [PTy.parts, List.mem_singleton] at hu; subst hu; simp [PTy.name?]
  | ref n t h => exact hc (n, t) h
  | array e n _ _ ih =>
    intro u hu
    simp only [PTy.parts, List.mem_cons] at hu
    rcases hu with rfl | hu
    · simp [PTy.name?]
    · exact ih u hu
  | vector e a b _ _ _ _ ih =>
    intro u hu
    simp only [PTy.parts, List.mem_cons] at hu
    rcases hu with rfl | hu
    · simp [PTy.name?]
    · exact ih u hu

theorem ofList_parts : ∀ (l : List (Comp × PTy)) (u : PTy), u ∈ (PFields.ofList l).parts → ∃ x ∈ l, u ∈ x.2.parts
  | [], u, h => by simp [PFields.ofList, PFields.parts] at h
  | (c, t) :: r, u, h => by
    simp only [PFields.ofList, PFields.parts, List.mem_append] at h
    rcases h with h | h
    · exact ⟨(c, t), by simp, h⟩
    · obtain ⟨x, hx, hu⟩ := ofList_parts r u h
      exact ⟨x, by simp [hx], hu⟩

theorem make_parts (payload : Comp → PTy) : ∀ (l : List (Comp × Nat)) (u : PTy), u ∈ (PTerms.make payload l).parts →
    ∃ c, u ∈ (payload c).parts
  | [], u, h => by simp [PTerms.make, PTerms.parts] at h
  | (c, g) :: r, u, h => by
    simp only [PTerms.make, PTerms.parts, List.mem_append] at h
    rcases h with h | h
    · exact ⟨c, h⟩
    · exact make_parts payload r u h

/-- The named types inside a definition are the definition itself and earlier ones. -/
theorem Made.closed {defs : List (SourceId × PTy)} (hc : DefsClosed defs) {name : SourceId} {t : PTy} (h : Made defs name t) :
    ∀ u ∈ t.parts, ∀ n, u.name? = some n → (n, u) ∈ defs ∨ (n, u) = (name, t) := by
  cases h with
  | alias h => intro u hu n hn; exact .inl (h.closed hc u hu n hn)
  | ext =>
    intro u hu n hn
    simp only [PTy.parts, List.mem_singleton] at hu
    subst hu
    cases hn
    exact .inr rfl
  | struct l hl _ =>
    intro u hu n hn
    simp only [PTy.parts, List.mem_cons] at hu
    rcases hu with rfl | hu
    · cases hn; exact .inr rfl
    · obtain ⟨x, hx, hu⟩ := ofList_parts l u hu
      exact .inl ((hl x hx).closed hc u hu n hn)
  | variant decl terms k payload _ _ hp =>
    intro u hu n hn
    simp only [PTy.parts, List.mem_cons] at hu
    rcases hu with rfl | hu
    · cases hn; exact .inr rfl
    · obtain ⟨c, hu⟩ := make_parts payload _ u hu
      rcases hp c with h | h
      · rw [h] at hu
        simp only [PTy.parts, List.mem_singleton] at hu
        subst hu
        simp [PTy.name?] at hn
      · exact .inl (h.closed hc u hu n hn)

theorem DefsClosed.snoc {defs name t} (hc : DefsClosed defs) (h : Made defs name t) : DefsClosed (defs ++ [(name, t)]) := by
  intro e he u hu n hn
  rcases List.mem_append.1 he with he | he
  · exact List.mem_append_left _ (hc e he u hu n hn)
  · simp only [List.mem_singleton] at he
    subst he
    rcases h.closed hc u hu n hn with h | h
    · exact List.mem_append_left _ h
    · rw [h]; simp

/-- Every definition has the form the code generator expects. -/
def AllAccepted (defs : List (SourceId × PTy)) : Prop := ∀ e ∈ defs, ∀ s, e.2.sty = some s → Accepted s

theorem Formed.accepted {defs : List (SourceId × PTy)} (ha : AllAccepted defs) : ∀ {t : PTy}, Formed defs t →
    ∀ s, t.sty = some s → Accepted s := by
  intro t h
  induction h with
  | int w s h => intro q hq; simp only [PTy.sty, Option.some.injEq] at hq; subst hq; simpa only [Accepted] using h
  | float w h => intro q hq; simp only [PTy.sty, Option.some.injEq] at hq; subst hq; simpa only [Accepted] using h
  | any => intro q hq; simp [PTy.sty] at hq
  | ref n t h => exact ha (n, t) h
  | array e n h _ ih =>
    intro q hq
    simp only [PTy.sty, Option.map_eq_some_iff] at hq
    obtain ⟨s, hs, rfl⟩ := hq
    simp only [Accepted]
    exact ⟨(C38_array _).2 (by omega), h, ih s hs⟩
  | vector e a b h1 h2 h3 _ ih =>
    intro q hq
    simp only [PTy.sty, Option.map_eq_some_iff] at hq
    obtain ⟨s, hs, rfl⟩ := hq
    simp only [Accepted]
    exact ⟨h1, h2, h3, ih s hs⟩

theorem ofList_sty : ∀ (l : List (Comp × PTy)) (q : SFields), (PFields.ofList l).sty = some q →
    (∀ x ∈ l, ∀ s, x.2.sty = some s → Accepted s) → q.names = l.map (·.1) ∧ AcceptedFields q
  | [], q, h, _ => by
    simp only [PFields.ofList, PFields.sty, Option.some.injEq] at h
    subst h
    simp [SFields.names, AcceptedFields]
  | (c, t) :: r, q, h, ha => by
    simp only [PFields.ofList, PFields.sty] at h
    split at h
    · rename_i s q' hs hq
      cases h
      have ih := ofList_sty r q' hq (fun x hx => ha x (by simp [hx]))
      simp only [SFields.names, AcceptedFields, List.map_cons, ih.1]
      exact ⟨trivial, ha (c, t) (by simp) s hs, ih.2⟩
    · cases h

theorem make_sty (payload : Comp → PTy) (ha : ∀ c s, (payload c).sty = some s → Accepted s) :
    ∀ (l : List (Comp × Nat)) (q : STerms), (PTerms.make payload l).sty = some q → q.decls = l ∧ AcceptedTerms q
  | [], q, h => by
    simp only [PTerms.make, PTerms.sty, Option.some.injEq] at h
    subst h
    simp [STerms.decls, AcceptedTerms]
  | (c, g) :: r, q, h => by
    simp only [PTerms.make, PTerms.sty] at h
    split at h
    · rename_i s q' hs hq
      cases h
      have ih := make_sty payload ha r q' hq
      simp only [STerms.decls, AcceptedTerms, ih.1]
      exact ⟨trivial, ha c s hs, ih.2⟩
    · cases h

theorem Made.accepted {defs : List (SourceId × PTy)} (ha : AllAccepted defs) {name : SourceId} {t : PTy}
    (h : Made defs name t) : ∀ s, t.sty = some s → Accepted s := by
  cases h with
  | alias h => exact h.accepted ha
  | ext => intro s hs; simp [PTy.sty] at hs
  | struct l hl hv =>
    intro s hs
    simp only [PTy.sty, Option.map_eq_some_iff] at hs
    obtain ⟨q, hq, rfl⟩ := hs
    have := ofList_sty l q hq (fun x hx => (hl x hx).accepted ha)
    simp only [Accepted, this.1]
    exact ⟨hv, this.2⟩
  | variant decl terms k payload hl hd hp =>
    intro s hs
    simp only [PTy.sty, Option.map_eq_some_iff] at hs
    obtain ⟨q, hq, rfl⟩ := hs
    have := make_sty payload (fun c s hs => by
      rcases hp c with h | h
      · rw [h] at hs
        simp only [PTy.sty, Option.some.injEq] at hs
        subst hs
        simp only [Accepted]
      · exact h.accepted ha s hs) _ q hq
    simp only [Accepted, this.1]
    exact ⟨⟨decl, terms, k, hl, hd, rfl⟩, this.2⟩

theorem AllAccepted.snoc {defs name t} (ha : AllAccepted defs) (h : Made defs name t) :
    AllAccepted (defs ++ [(name, t)]) := by
  intro e he
  rcases List.mem_append.1 he with he | he
  · exact ha e he
  · simp only [List.mem_singleton] at he
    subst he
    exact h.accepted ha

/-! ## The whole state -/

theorem PortalOK.mono {defs defs' : List (SourceId × PTy)} {q : Portal} (h : PortalOK defs q) (hs : ∀ e ∈ defs, e ∈ defs') :
    PortalOK defs' q where
  sizers x hx := let ⟨t, h1, h2⟩ := h.sizers x hx; ⟨t, hs _ h1, h2⟩
  encoders x hx := let ⟨t, h1, h2⟩ := h.encoders x hx; ⟨t, hs _ h1, h2⟩
  decoders x hx := let ⟨t, h1, h2⟩ := h.decoders x hx; ⟨t, hs _ h1, h2⟩

structure ScopeInv (sc : Scope) : Prop where
  nodup : (sc.defs.map (·.1)).Nodup
  closed : DefsClosed sc.defs
  accepted : AllAccepted sc.defs
  specsNodup : (sc.specs.map (·.1)).Nodup
  specs : ∀ e ∈ sc.specs, (∃ m, (m, e.2.1) ∈ sc.defs) ∧ specPathOK e.2.1 e.2.2 = true ∧
    Path.Read e.2.2
  portalsNodup : (sc.portals.map (·.1)).Nodup
  portals : ∀ e ∈ sc.portals, PortalOK sc.defs e.2 ∧ e.2.proto ∈ sc.specs.map (·.1)
  filePortals : ∀ f, ∀ e ∈ (sc.files f).portals, e.1 ∈ sc.portals.map (·.1)
  filePrecomps : ∀ f, ∀ e ∈ (sc.files f).precomps, e.2.1 ∈ sc.portals.map (·.1) ∧ e.2.2 ∈ sc.specs.map (·.1)
  fileSpecs : ∀ f, ∀ e ∈ (sc.files f).specs, e ∈ sc.specs
  fileDecls : ∀ f, ∀ d ∈ (sc.files f).decls, ∀ e, d.type? = some e → e ∈ sc.defs

theorem ScopeInv.init : ScopeInv {} where
  nodup := by simp
  closed := by intro e he; simp at he
  accepted := by intro e he; simp at he
  specsNodup := by simp
  specs := by simp
  portalsNodup := by simp
  portals := by simp
  filePortals := by simp
  filePrecomps := by simp
  fileSpecs := by simp
  fileDecls := by simp

theorem ScopeInv.define {sc : Scope} (h : ScopeInv sc) {name t} (hn : findDef sc.defs name = none) (hm : Made sc.defs name t) :
    ScopeInv { sc with defs := sc.defs ++ [(name, t)] } where
  nodup := nodup_snoc h.nodup hn
  closed := h.closed.snoc hm
  accepted := h.accepted.snoc hm
  specsNodup := h.specsNodup
  specs e he := let ⟨⟨m, h1⟩, h2⟩ := h.specs e he; ⟨⟨m, List.mem_append_left _ h1⟩, h2⟩
  portalsNodup := h.portalsNodup
  portals e he := ⟨(h.portals e he).1.mono fun _ => List.mem_append_left _, (h.portals e he).2⟩
  filePortals := h.filePortals
  filePrecomps := h.filePrecomps
  fileSpecs := h.fileSpecs
  fileDecls f d hd e he := List.mem_append_left _ (h.fileDecls f d hd e he)

/-- A change to one file that keeps the invariant. -/
theorem ScopeInv.upd {sc : Scope} (h : ScopeInv sc) (f : Nat) (g : FileOut → FileOut)
    (h1 : ∀ e ∈ (g (sc.files f)).portals, e.1 ∈ sc.portals.map (·.1))
    (h2 : ∀ e ∈ (g (sc.files f)).precomps, e.2.1 ∈ sc.portals.map (·.1) ∧ e.2.2 ∈ sc.specs.map (·.1))
    (h3 : ∀ e ∈ (g (sc.files f)).specs, e ∈ sc.specs)
    (h4 : ∀ d ∈ (g (sc.files f)).decls, ∀ e, d.type? = some e → e ∈ sc.defs) : ScopeInv (sc.upd f g) where
  nodup := h.nodup
  closed := h.closed
  accepted := h.accepted
  specsNodup := h.specsNodup
  specs := h.specs
  portalsNodup := h.portalsNodup
  portals := h.portals
  filePortals i := by
    simp only [Scope.upd]
    split
    · rename_i hi; subst hi; exact h1
    · exact h.filePortals i
  filePrecomps i := by
    simp only [Scope.upd]
    split
    · rename_i hi; subst hi; exact h2
    · exact h.filePrecomps i
  fileSpecs i := by
    simp only [Scope.upd]
    split
    · rename_i hi; subst hi; exact h3
    · exact h.fileSpecs i
  fileDecls i := by
    simp only [Scope.upd]
    split
    · rename_i hi; subst hi; exact h4
    · exact h.fileDecls i

theorem ScopeInv.addDecl {sc : Scope} (h : ScopeInv sc) (f : Nat) (d : DeclOut) (hd : ∀ e, d.type? = some e → e ∈ sc.defs) :
    ScopeInv (sc.addDecl f d) := by
  refine h.upd f _ (h.filePortals f) (h.filePrecomps f) (h.fileSpecs f) ?_
  intro d' hd' e he
  rcases List.mem_append.1 hd' with hd' | hd'
  · exact h.fileDecls f d' hd' e he
  · simp only [List.mem_singleton] at hd'
    subst hd'
    exact hd e he

theorem emplacePortal_mem {name q} {l : List (SourceId × Portal)} {e} (h : e ∈ emplacePortal name q l) :
    e = (name, q) ∨ e ∈ l ∨ ∃ e' ∈ l, e'.1 = name ∧ e = (name, { e'.2 with proto := q.proto }) := by
  unfold emplacePortal at h
  split at h
  · rcases List.mem_append.1 h with h | h
    · exact .inr (.inl h)
    · exact .inl (by simpa using h)
  · obtain ⟨e', he', h⟩ := List.mem_map.1 h
    split at h
    · rename_i hn
      exact .inr (.inr ⟨e', he', hn, by rw [← h, hn]⟩)
    · subst h
      exact .inr (.inl he')

theorem emplacePortal_keys (name q) (l : List (SourceId × Portal)) :
    (emplacePortal name q l).map (·.1) = if findDef l name = none then l.map (·.1) ++ [name] else l.map (·.1) := by
  unfold emplacePortal
  split
  · rename_i h
    simp [h]
  · rename_i h
    rw [if_neg (by rw [h]; simp), List.map_map]
    apply List.map_congr_left
    intro e _
    simp only [Function.comp_apply]
    split <;> rfl

theorem emplacePortal_key (name q) (l : List (SourceId × Portal)) : name ∈ (emplacePortal name q l).map (·.1) := by
  rw [emplacePortal_keys]
  split
  · simp
  · rename_i h
    exact Classical.byContradiction fun hc => h (findDef_none_iff.2 hc)

theorem emplacePortal_keep {name q} {l : List (SourceId × Portal)} {n} (h : n ∈ l.map (·.1)) :
    n ∈ (emplacePortal name q l).map (·.1) := by
  rw [emplacePortal_keys]
  split
  · exact List.mem_append_left _ h
  · exact h

theorem ScopeInv.step {f sc sc'} (h : ScopeInv sc) (hs : DeclStep f sc sc') : ScopeInv sc' := by
  cases hs with
  | alias name t hn hf =>
    exact (h.define hn (.alias hf)).addDecl f _ (by intro e he; cases he; simp)
  | external name t hn hf =>
    refine h.define hn ?_
    rcases hf with hf | rfl
    · exact .alias hf
    · exact .ext
  | composite name t en ex hn hm _ =>
    exact (h.define hn hm).addDecl f _ (by intro e he; cases he; simp)
  | spec name m t p hn hm hp hr =>
    have h' : ScopeInv { sc with specs := sc.specs ++ [(name, t, p)] } :=
      { h with
        specsNodup := nodup_snoc h.specsNodup hn
        specs := by
          intro e he
          rcases List.mem_append.1 he with he | he
          · exact h.specs e he
          · simp only [List.mem_singleton] at he
            subst he
            exact ⟨⟨m, hm⟩, hp, hr⟩
        portals := fun e he => ⟨(h.portals e he).1, by
          simp only [List.map_append]; exact List.mem_append_left _ (h.portals e he).2⟩
        filePrecomps := fun i e he => ⟨(h.filePrecomps i e he).1, by
          simp only [List.map_append]; exact List.mem_append_left _ (h.filePrecomps i e he).2⟩
        fileSpecs := fun i e he => List.mem_append_left _ (h.fileSpecs i e he) }
    refine h'.upd f _ (h'.filePortals f) (h'.filePrecomps f) ?_ (h'.fileDecls f)
    intro e he
    rcases List.mem_append.1 he with he | he
    · exact h'.fileSpecs f e he
    · exact List.mem_append_right _ he
  | portal name q hq hok hn =>
    have h' : ScopeInv { sc with portals := emplacePortal name q sc.portals } :=
      { h with
        portalsNodup := by
          show ((emplacePortal name q sc.portals).map (·.1)).Nodup
          rw [emplacePortal_keys]
          split
          · rename_i hd
            simpa using nodup_snoc (a := q) h.portalsNodup hd
          · exact h.portalsNodup
        portals := by
          intro e he
          rcases emplacePortal_mem he with rfl | he | ⟨e', he', _, rfl⟩
          · exact ⟨hok, hq⟩
          · exact h.portals e he
          · have := (h.portals e' he').1
            exact ⟨⟨this.sizers, this.encoders, this.decoders⟩, hq⟩
        filePortals := fun i e he => emplacePortal_keep (h.filePortals i e he)
        filePrecomps := fun i e he => ⟨emplacePortal_keep (h.filePrecomps i e he).1, (h.filePrecomps i e he).2⟩ }
    refine h'.upd f _ ?_ (h'.filePrecomps f) (h'.fileSpecs f) (h'.fileDecls f)
    intro e he
    rcases List.mem_append.1 he with he | he
    · exact h'.filePortals f e he
    · simp only [List.mem_singleton] at he
      subst he
      exact emplacePortal_key name q sc.portals
  | precomp name q p hp hq _ _ =>
    refine h.upd f _ (h.filePortals f) ?_ (h.fileSpecs f) (h.fileDecls f)
    intro e he
    rcases List.mem_append.1 he with he | he
    · exact h.filePrecomps f e he
    · simp only [List.mem_singleton] at he
      subst he
      obtain ⟨x, hx, rfl⟩ := List.mem_map.1 hq
      exact ⟨h.filePortals f x hx, hp⟩
  | language space n text =>
    exact h.addDecl f _ (by intro e he; cases he)

theorem ScopeInv.run {pd f sc sc'} (hr : FileRun pd f sc sc') : ScopeInv sc → ScopeInv sc' := by
  induction hr with
  | nil => exact id
  | step _ s ih => exact fun h => (ih h).step s
  | import_ _ _ _ ih1 ih2 =>
    intro h
    have h := ih2 (ih1 h)
    exact h.upd _ _ (h.filePortals _) (h.filePrecomps _) (h.fileSpecs _) (h.fileDecls _)

/-! ## Definitions only grow -/

theorem DeclStep.defs {f sc sc'} (h : DeclStep f sc sc') : ∃ l, sc'.defs = sc.defs ++ l := by
  cases h with
  | alias name t => exact ⟨_, rfl⟩
  | external name t => exact ⟨_, rfl⟩
  | composite name t => exact ⟨_, rfl⟩
  | spec => exact ⟨[], (List.append_nil _).symm⟩
  | portal => exact ⟨[], (List.append_nil _).symm⟩
  | precomp => exact ⟨[], (List.append_nil _).symm⟩
  | language => exact ⟨[], (List.append_nil _).symm⟩

theorem FileRun.defs {pd f sc sc'} (h : FileRun pd f sc sc') : ∃ l, sc'.defs = sc.defs ++ l := by
  induction h with
  | nil => exact ⟨[], (List.append_nil _).symm⟩
  | step _ s ih =>
    obtain ⟨l, hl⟩ := ih
    obtain ⟨l', hl'⟩ := s.defs
    exact ⟨l ++ l', by rw [hl', hl, List.append_assoc]⟩
  | import_ _ _ _ ih1 ih2 =>
    obtain ⟨l, hl⟩ := ih1
    obtain ⟨l', hl'⟩ := ih2
    exact ⟨l ++ l', (hl'.trans (by rw [hl])).trans (List.append_assoc _ _ _)⟩

/-! ## Where definitions come from -/

theorem Reaches.mono {files files' : Nat → FileOut} (h : ∀ f, ∀ g ∈ (files f).imports, g ∈ (files' f).imports) {f g}
    (hr : Reaches files f g) : Reaches files' f g := by
  induction hr with
  | refl f => exact .refl f
  | step hg _ ih => exact .step (h _ _ hg) ih

theorem DeclStep.files {f sc sc'} (h : DeclStep f sc sc') : ∀ i, i ≠ f → sc'.files i = sc.files i := by
  intro i hi
  cases h <;> simp [Scope.upd, Scope.addDecl, hi]

theorem DeclStep.imports {f sc sc'} (h : DeclStep f sc sc') : ∀ i, (sc'.files i).imports = (sc.files i).imports := by
  intro i
  cases h <;> simp only [Scope.upd, Scope.addDecl] <;> split <;> rfl

theorem DeclStep.decls {f sc sc'} (h : DeclStep f sc sc') : ∀ i, ∃ l, (sc'.files i).decls = (sc.files i).decls ++ l := by
  intro i
  by_cases hi : i = f
  · subst hi
    cases h <;> simp [Scope.upd, Scope.addDecl] 
  · exact ⟨[], by rw [h.files i hi, List.append_nil]⟩

theorem upd_imports (sc : Scope) (f g : Nat) (i : Nat) :
    ∀ x ∈ (sc.files i).imports, x ∈ ((sc.upd f fun o => { o with imports := o.imports ++ [g] }).files i).imports := by
  intro x hx
  simp only [Scope.upd]
  split
  · exact List.mem_append_left _ hx
  · exact hx

theorem upd_imports_new (sc : Scope) (f g : Nat) :
    g ∈ ((sc.upd f fun o => { o with imports := o.imports ++ [g] }).files f).imports := by
  simp [Scope.upd]

theorem upd_imports_decls (sc : Scope) (f g : Nat) (i : Nat) :
    ((sc.upd f fun o => { o with imports := o.imports ++ [g] }).files i).decls = (sc.files i).decls := by
  simp only [Scope.upd]
  split <;> rfl

theorem FileRun.imports {pd f sc sc'} (h : FileRun pd f sc sc') : ∀ i, ∀ x ∈ (sc.files i).imports, x ∈ (sc'.files i).imports := by
  induction h with
  | nil => exact fun _ _ hx => hx
  | step _ s ih => intro i x hx; rw [s.imports i]; exact ih i x hx
  | import_ _ _ _ ih1 ih2 => exact fun i x hx => upd_imports _ _ _ i x (ih2 i x (ih1 i x hx))

theorem FileRun.decls {pd f sc sc'} (h : FileRun pd f sc sc') : ∀ i, ∃ l, (sc'.files i).decls = (sc.files i).decls ++ l := by
  induction h with
  | nil => exact fun _ => ⟨[], (List.append_nil _).symm⟩
  | step _ s ih =>
    intro i
    obtain ⟨l, hl⟩ := ih i
    obtain ⟨l', hl'⟩ := s.decls i
    exact ⟨l ++ l', by rw [hl', hl, List.append_assoc]⟩
  | import_ _ _ _ ih1 ih2 =>
    intro i
    obtain ⟨l, hl⟩ := ih1 i
    obtain ⟨l', hl'⟩ := ih2 i
    exact ⟨l ++ l', by rw [upd_imports_decls, hl', hl, List.append_assoc]⟩

/-- Files that wait are not changed. -/
theorem FileRun.pending {pd f sc sc'} (h : FileRun pd f sc sc') : f ∉ pd → ∀ i ∈ pd, sc'.files i = sc.files i := by
  induction h with
  | nil => exact fun _ _ _ => rfl
  | step _ s ih =>
    intro hf i hi
    rw [s.files i (fun e => hf (e ▸ hi)), ih hf i hi]
  | @import_ pd f g sc sc1 sc2 _ hg _ ih1 ih2 =>
    intro hf i hi
    rw [← ih1 hf i hi, ← ih2 hg i (by simp [hi])]
    simp only [Scope.upd]
    rw [if_neg (fun (e : i = f) => hf (e ▸ hi))]

/-- A named type is declared in a file. -/
def DeclaredIn (files : Nat → FileOut) (h : Nat) (n : SourceId) (u : PTy) : Prop :=
  ∃ en ex, DeclOut.composite n u en ex ∈ (files h).decls

theorem DeclaredIn.mono {files files' : Nat → FileOut} {h n u} (hd : DeclaredIn files h n u)
    (hm : ∃ l, (files' h).decls = (files h).decls ++ l) : DeclaredIn files' h n u := by
  obtain ⟨l, hl⟩ := hm
  obtain ⟨en, ex, hd⟩ := hd
  exact ⟨en, ex, by rw [hl]; exact List.mem_append_left _ hd⟩

/-- The new named types after one step. -/
theorem DeclStep.new {f sc sc'} (hi : ScopeInv sc) (h : DeclStep f sc sc') : ∀ e ∈ sc'.defs, e.2.name? = some e.1 →
    e ∈ sc.defs ∨ e.2 = .ext e.1 ∨ DeclaredIn sc'.files f e.1 e.2 := by
  have key : ∀ name t, findDef sc.defs name = none → Formed sc.defs t → t.name? ≠ some name := by
    intro name t hn hf ht
    refine findDef_none_iff.1 hn (List.mem_map.2 ⟨(name, t), hf.closed hi.closed t ?_ name ht, rfl⟩)
    cases t <;> simp [PTy.parts]
  intro e he hn
  cases h with
  | alias name t hd hf =>
    rcases List.mem_append.1 he with he | he
    · exact .inl he
    · simp only [List.mem_singleton] at he
      subst he
      exact absurd hn (key name t hd hf)
  | external name t hd hf =>
    rcases List.mem_append.1 he with he | he
    · exact .inl he
    · simp only [List.mem_singleton] at he
      subst he
      rcases hf with hf | hf
      · exact absurd hn (key name t hd hf)
      · exact .inr (.inl hf)
  | composite name t en ex _ _ _ =>
    rcases List.mem_append.1 he with he | he
    · exact .inl he
    · simp only [List.mem_singleton] at he
      subst he
      exact .inr (.inr ⟨en, ex, by simp [Scope.addDecl, Scope.upd]⟩)
  | spec => exact .inl he
  | portal => exact .inl he
  | precomp => exact .inl he
  | language => exact .inl he

/-- The new named types of a run are declared by the file or a file it imports. -/
theorem FileRun.new {pd f sc sc'} (h : FileRun pd f sc sc') : ScopeInv sc → f ∉ pd → ∀ e ∈ sc'.defs, e.2.name? = some e.1 →
    e ∈ sc.defs ∨ e.2 = .ext e.1 ∨ ∃ i, i ∉ pd ∧ Reaches sc'.files f i ∧ DeclaredIn sc'.files i e.1 e.2 := by
  induction h with
  | nil => exact fun _ _ e he _ => .inl he
  | @step pd f sc sc1 sc2 hr hs ih =>
    intro hi hf e he hn
    have hmono : ∀ i, ∀ g ∈ (sc1.files i).imports, g ∈ (sc2.files i).imports := fun i g hg => by rw [hs.imports i]; exact hg
    rcases hs.new (hi.run hr) e he hn with he | he | he
    · rcases ih hi hf e he hn with h | h | ⟨i, h1, h2, h3⟩
      · exact .inl h
      · exact .inr (.inl h)
      · exact .inr (.inr ⟨i, h1, h2.mono hmono, h3.mono (hs.decls i)⟩)
    · exact .inr (.inl he)
    · exact .inr (.inr ⟨f, hf, .refl f, he⟩)
  | @import_ pd f g sc sc1 sc2 hr hg hr2 ih1 ih2 =>
    intro hi hf e he hn
    have hdec : ∀ i, ∃ l, ((sc2.upd f fun o => { o with imports := o.imports ++ [g] }).files i).decls =
        (sc2.files i).decls ++ l := fun i => ⟨[], by rw [upd_imports_decls, List.append_nil]⟩
    rcases ih2 (hi.run hr) hg e he hn with he | he | ⟨i, h1, h2, h3⟩
    · rcases ih1 hi hf e he hn with h | h | ⟨i, h1, h2, h3⟩
      · exact .inl h
      · exact .inr (.inl h)
      · exact .inr (.inr ⟨i, h1, (h2.mono hr2.imports).mono (upd_imports _ _ _),
          (h3.mono (hr2.decls i)).mono (hdec i)⟩)
    · exact .inr (.inl he)
    · exact .inr (.inr ⟨i, fun hc => h1 (by simp [hc]),
        .step (upd_imports_new sc2 f g) (h2.mono (upd_imports _ _ _)), h3.mono (hdec i)⟩)

/-- A named type is provided by the user, declared in a list of declarations, or in a file which `f` imports. -/
def KnownType (files : Nat → FileOut) (f : Nat) (l : List DeclOut) (n : SourceId) (u : PTy) : Prop :=
  u = .ext n ∨ (∃ en ex, DeclOut.composite n u en ex ∈ l) ∨
    ∃ g ∈ (files f).imports, ∃ i, i ≠ f ∧ Reaches files g i ∧ DeclaredIn files i n u

theorem KnownType.mono {files files' : Nat → FileOut} {f l l' n u} (h : KnownType files f l n u)
    (hi : ∀ i, ∀ g ∈ (files i).imports, g ∈ (files' i).imports)
    (hd : ∀ i, ∃ l, (files' i).decls = (files i).decls ++ l) (hl : ∀ d ∈ l, d ∈ l') : KnownType files' f l' n u := by
  rcases h with h | ⟨en, ex, h⟩ | ⟨g, h1, i, h2, h3, h4⟩
  · exact .inl h
  · exact .inr (.inl ⟨en, ex, hl _ h⟩)
  · exact .inr (.inr ⟨g, hi f g h1, i, h2, h3.mono hi, h4.mono (hd i)⟩)

/-- The declarations of the file `f` use named types only after their declarations. -/
structure OrderedFile (f : Nat) (sc : Scope) : Prop where
  known : ∀ e ∈ sc.defs, e.2.name? = some e.1 → KnownType sc.files f (sc.files f).decls e.1 e.2
  order : ∀ l₁ d l₂, (sc.files f).decls = l₁ ++ d :: l₂ → ∀ n t, d.type? = some (n, t) → ∀ u ∈ t.parts, ∀ m,
    u.name? = some m → (m, u) = (n, t) ∨ KnownType sc.files f l₁ m u

theorem append_split {α} {l l₁ l₂ : List α} {x d : α} (h : l ++ [x] = l₁ ++ d :: l₂) :
    (l₁ = l ∧ d = x ∧ l₂ = []) ∨ ∃ r, l = l₁ ++ d :: r ∧ l₂ = r ++ [x] := by
  rcases List.eq_nil_or_concat l₂ with rfl | ⟨r, y, rfl⟩
  · have := List.append_inj' h rfl
    exact .inl ⟨this.1.symm, by simpa using this.2.symm, rfl⟩
  · have h : l ++ [x] = (l₁ ++ d :: r) ++ [y] := by simpa using h
    have := List.append_inj' h rfl
    exact .inr ⟨r, this.1, by have := this.2; simp at this; subst this; simp⟩

/-- Steps that leave the declarations and definitions as they are. -/
theorem OrderedFile.same {f sc sc'} (h : OrderedFile f sc) (hd : sc'.defs = sc.defs)
    (hl : (sc'.files f).decls = (sc.files f).decls)
    (hi : ∀ i, ∀ g ∈ (sc.files i).imports, g ∈ (sc'.files i).imports)
    (hm : ∀ i, ∃ l, (sc'.files i).decls = (sc.files i).decls ++ l) : OrderedFile f sc' where
  known e he hn := by
    rw [hd] at he
    rw [hl]
    exact (h.known e he hn).mono hi hm fun _ => id
  order l₁ d l₂ h1 n t ht u hu m hn := by
    rw [hl] at h1
    rcases h.order l₁ d l₂ h1 n t ht u hu m hn with h | h
    · exact .inl h
    · exact .inr (h.mono hi hm fun _ => id)

/-- A new declaration. -/
theorem OrderedFile.snoc {f sc} {sc' : Scope} (h : OrderedFile f sc) (d : DeclOut) (hl : (sc'.files f).decls = (sc.files f).decls ++ [d])
    (hi : ∀ i, ∀ g ∈ (sc.files i).imports, g ∈ (sc'.files i).imports)
    (hm : ∀ i, ∃ l, (sc'.files i).decls = (sc.files i).decls ++ l)
    (hk : ∀ e ∈ sc'.defs, e.2.name? = some e.1 → e ∈ sc.defs ∨ DeclaredIn sc'.files f e.1 e.2)
    (ho : ∀ n t, d.type? = some (n, t) → ∀ u ∈ t.parts, ∀ m, u.name? = some m → (m, u) = (n, t) ∨ (m, u) ∈ sc.defs) :
    OrderedFile f sc' where
  known e he hn := by
    rcases hk e he hn with he | he
    · exact (h.known e he hn).mono hi hm (fun d hd => by rw [hl]; exact List.mem_append_left _ hd)
    · exact .inr (.inl he)
  order l₁ d' l₂ h1 n t ht u hu m hn := by
    rw [hl] at h1
    rcases append_split h1 with ⟨rfl, rfl, rfl⟩ | ⟨r, h2, rfl⟩
    · rcases ho n t ht u hu m hn with h3 | h3
      · exact .inl h3
      · exact .inr ((h.known _ h3 hn).mono hi hm fun _ => id)
    · rcases h.order l₁ d' r h2 n t ht u hu m hn with h3 | h3
      · exact .inl h3
      · exact .inr (h3.mono hi hm fun _ => id)

theorem OrderedFile.step {f sc sc'} (hi : ScopeInv sc) (h : OrderedFile f sc) (hs : DeclStep f sc sc') : OrderedFile f sc' := by
  have himp : ∀ i, ∀ g ∈ (sc.files i).imports, g ∈ (sc'.files i).imports := fun i g hg => by rw [hs.imports i]; exact hg
  have hdec := hs.decls
  have hnew := hs.new hi
  cases hs with
  | alias name t hn hf =>
    refine h.snoc (.alias name t) (by simp [Scope.addDecl, Scope.upd]) himp hdec ?_ ?_
    · intro e he hne
      rcases List.mem_append.1 he with he | he
      · exact .inl he
      · simp only [List.mem_singleton] at he
        subst he
        refine absurd ?_ (findDef_none_iff.1 hn)
        exact List.mem_map.2 ⟨(name, t), hf.closed hi.closed t (by cases t <;> simp [PTy.parts]) name hne, rfl⟩
    · intro n t' ht u hu m hne
      cases ht
      exact .inr (hf.closed hi.closed u hu m hne)
  | external name t hn hf =>
    refine ⟨?_, h.order⟩
    intro e he hne
    rcases hnew e he hne with he | he | he
    · exact h.known e he hne
    · exact .inl he
    · exact .inr (.inl he)
  | composite name t en ex hn hm hne =>
    refine h.snoc (.composite name t en ex) (by simp [Scope.addDecl, Scope.upd]) himp hdec ?_ ?_
    · intro e he _
      rcases List.mem_append.1 he with he | he
      · exact .inl he
      · simp only [List.mem_singleton] at he
        subst he
        exact .inr ⟨en, ex, by simp [Scope.addDecl, Scope.upd]⟩
    · intro n t' ht u hu m hnm
      cases ht
      rcases hm.closed hi.closed u hu m hnm with h | h
      · exact .inr h
      · exact .inl h
  | spec => exact h.same rfl (by simp [Scope.upd]) himp hdec
  | portal => exact h.same rfl (by simp [Scope.upd]) himp hdec
  | precomp => exact h.same rfl (by simp [Scope.upd]) himp hdec
  | language space n text =>
    exact h.snoc (.language space n text) (by simp [Scope.addDecl, Scope.upd]) himp hdec (fun e he _ => .inl he)
      (by intro n t ht; cases ht)

theorem OrderedFile.run {pd f sc sc'} (hr : FileRun pd f sc sc') : ScopeInv sc → OrderedFile f sc → OrderedFile f sc' := by
  induction hr with
  | nil => exact fun _ h => h
  | step hr s ih => exact fun hi h => (ih hi h).step (hi.run hr) s
  | @import_ pd f g sc sc1 sc2 hr hg hr2 ih1 _ =>
    intro hi h
    have h1 := ih1 hi h
    have hff : sc2.files f = sc1.files f := hr2.pending hg f (by simp)
    have hnew := hr2.new (hi.run hr) hg
    constructor
    · intro e he hn
      rw [upd_imports_decls]
      rcases hnew e he hn with he | he | ⟨i, h2, h3, h4⟩
      · have := (h1.known e he hn).mono hr2.imports hr2.decls (l' := (sc2.files f).decls) (fun d hd => by rw [hff]; exact hd)
        exact this.mono (upd_imports _ _ _) (fun i => ⟨[], by rw [upd_imports_decls, List.append_nil]⟩) fun _ => id
      · exact .inl he
      · exact .inr (.inr ⟨g, upd_imports_new sc2 f g, i, fun hc => h2 (by simp [hc]), h3.mono (upd_imports _ _ _),
          h4.mono ⟨[], by rw [upd_imports_decls, List.append_nil]⟩⟩)
    · intro l₁ d l₂ h2 n t ht u hu m hn
      rw [upd_imports_decls, hff] at h2
      rcases h1.order l₁ d l₂ h2 n t ht u hu m hn with h3 | h3
      · exact .inl h3
      · exact .inr ((h3.mono hr2.imports hr2.decls fun _ => id).mono (upd_imports _ _ _)
          (fun i => ⟨[], by rw [upd_imports_decls, List.append_nil]⟩) fun _ => id)

theorem OrderedFile.init (f : Nat) : OrderedFile f {} where
  known := by simp
  order := by simp

end PJ
