import Verif.Lemmas.Written
import Verif.Props.C47_Grammar
/-!
# Schema files: the items can be written as text
-/
namespace PJ

/-- Tokens that can be written. -/
def LegalToks (k : List Tok) : Prop := ∀ t ∈ k, t.Legal

theorem LegalToks.nil : LegalToks [] := by simp [LegalToks]

theorem legalToks_cons {t : Tok} {k : List Tok} : LegalToks (t :: k) ↔ t.Legal ∧ LegalToks k := by
  simp [LegalToks]

theorem legalToks_append {a b : List Tok} : LegalToks (a ++ b) ↔ LegalToks a ∧ LegalToks b := by
  simp only [LegalToks, List.mem_append]
  exact ⟨fun h => ⟨fun t ht => h t (.inl ht), fun t ht => h t (.inr ht)⟩, fun h t ht => ht.elim (h.1 t) (h.2 t)⟩

theorem LegalToks.flatMap {α} {l : List α} {f : α → List Tok} (h : ∀ x ∈ l, LegalToks (f x)) : LegalToks (l.flatMap f) := by
  intro t ht
  obtain ⟨x, hx, h1⟩ := List.mem_flatMap.1 ht
  exact h x hx t h1

theorem legal_sym {c : Char} (h : c ∈ symbols := by decide) : (Tok.sym c).Legal := h

theorem legal_kwOpt (k : Kw) (b : Bool) : LegalToks (kwOpt k b) := by
  cases b <;> simp [kwOpt, LegalToks, Tok.Legal]

theorem LegalName.toks {n : SourceId} (h : LegalName n) : LegalToks (scopedToks n.comps) := by
  have h1 : ∀ c ∈ n.comps, IsIdent c := by
    intro c hc
    obtain ⟨s, hs, rfl⟩ := List.mem_map.1 hc
    exact h.2 s hs
  generalize n.comps = l at h1
  cases l with
  | nil => exact .nil
  | cons c cs =>
    simp only [scopedToks, legalToks_cons]
    refine ⟨h1 c (by simp), .flatMap fun d hd => ?_⟩
    simp only [legalToks_cons]
    exact ⟨legal_sym, h1 d (by simp [hd]), .nil⟩

theorem LegalName.comps_ne {n : SourceId} (h : LegalName n) : n.comps ≠ [] := by
  simpa [SourceId.comps] using h.1

theorem LegalName.own_ident {n : SourceId} (h : LegalName n) : IsIdent n.own := by
  have e : n.getLast?.getD [] = n.getLast h.1 := by rw [List.getLast?_eq_some_getLast h.1]; rfl
  rw [SourceId.own, e]
  exact h.2 _ (List.getLast_mem h.1)

theorem legal_numOpt (o : Option Nat) : LegalToks (numOpt o) := by
  cases o <;> simp [numOpt, LegalToks, Tok.Legal]

theorem legal_mod (m : ModAst) : LegalToks m.toks := by
  cases m with
  | fixed n => simp only [ModAst.toks, legalToks_cons]; exact ⟨legal_sym, trivial, legal_sym, .nil⟩
  | var a b =>
    simp only [ModAst.toks, legalToks_cons, legalToks_append]
    exact ⟨legal_sym, legal_numOpt a, legal_sym, legal_numOpt b, legal_sym, .nil⟩

theorem Usable.written_ok {defs : List (SourceId × PTy)} {space : SourceId} {t : PTy} (h : Usable defs space t) :
    t.written.OK ∧ LegalToks t.written.base.toks := by
  induction h with
  | int w s _ => cases s <;> exact ⟨trivial, by simp [PTy.written, BaseAst.toks, LegalToks, Tok.Legal]⟩
  | float w _ => exact ⟨trivial, by simp [PTy.written, BaseAst.toks, LegalToks, Tok.Legal]⟩
  | any => exact ⟨trivial, by simp [PTy.written, BaseAst.toks, LegalToks, Tok.Legal]⟩
  | ref n t h1 _ h3 h4 _ =>
    have key : (⟨.ref n.comps, []⟩ : TypeAst).OK ∧ LegalToks (BaseAst.toks (.ref n.comps)) := by
      refine ⟨⟨h3.comps_ne, ?_⟩, h3.toks⟩
      intro c hc
      cases n with
      | nil => simp [SourceId.comps] at hc
      | cons a n =>
        simp only [SourceId.comps, List.map_cons, List.head?_cons, Option.mem_def, Option.some.injEq] at hc
        subst hc
        exact h4 a (by simp)
    cases t <;> simp only [PTy.name?, reduceCtorEq, Option.some.injEq] at h1 <;> subst h1 <;> exact key
  | array e n _ _ ih => exact ih
  | vector e a b _ _ _ ih => exact ih

theorem Usable.toks {defs : List (SourceId × PTy)} {space : SourceId} {t : PTy} (h : Usable defs space t) :
    LegalToks t.written.toks := by
  simp only [TypeAst.toks, legalToks_append]
  exact ⟨h.written_ok.2, .flatMap fun m _ => legal_mod m⟩

theorem print_pathText : ∀ {p : Path}, p ≠ [] → LegalPath p → PathText p.print
  | [], h, _ => absurd rfl h
  | [c], _, h => .one (h c (by simp))
  | c :: d :: p, _, h => by
    have := PathText.cons (h c (by simp)) Gap.nil Gap.nil
      (print_pathText (p := d :: p) (by simp) fun e he => h e (by simp [he]))
    simpa [Path.print] using this

theorem LegalPath.toks {p : Path} (h : LegalPath p) : LegalToks (pathToks (writePath p)) := by
  cases p with
  | nil => exact .nil
  | cons c p =>
    simp only [writePath, pathToks, legalToks_cons]
    exact ⟨legal_sym, print_pathText (by simp) h, .nil⟩

theorem handlers_toks {l : List Path} (h : ∀ p ∈ l, LegalPath p ∧ p ≠ []) : LegalToks (handlerToks (writeHandlers l)) := by
  cases l with
  | nil => exact .nil
  | cons p l =>
    simp only [writeHandlers, handlerToks, legalToks_cons, legalToks_append, Bool.false_eq_true, if_false]
    refine ⟨legal_sym, trivial, legal_sym, print_pathText (h p (by simp)).2 (h p (by simp)).1, .flatMap fun q hq => ?_,
      .nil, legal_sym, legal_sym, legal_sym, .nil⟩
    obtain ⟨r, hr, rfl⟩ := List.mem_map.1 hq
    simp only [legalToks_cons]
    exact ⟨legal_sym, print_pathText (h r (by simp [hr])).2 (h r (by simp [hr])).1, .nil⟩

theorem legal_tag (o : Option TagAst) : LegalToks (tagToks o) := by
  match o with
  | none => exact .nil
  | some (.num n) => simp only [tagToks, legalToks_cons]; exact ⟨legal_sym, trivial, .nil⟩
  | some (.chr c) => simp only [tagToks, legalToks_cons]; exact ⟨legal_sym, trivial, .nil⟩

theorem VariantOK.term {defs : List (SourceId × PTy)} {space : SourceId} {ts : PTerms} {d : Nat} {en : Bool}
    (h : VariantOK defs space ts d en) : ∀ x ∈ writeTerms ts d, LegalToks x.toks ∧ (∀ y ∈ x.type, y.OK) ∧
      (en = true → x.type = none) := by
  intro x hx
  obtain ⟨y, hy, rfl⟩ := List.mem_map.1 hx
  have hy : y ∈ ts.toList := (writtenOrder_perm ts.toList).mem_iff.1 hy
  have hu : ∀ {z}, (writeTerm ((ts.toList.map (·.1)).getD d []) y).type = some z → LegalToks z.toks ∧ z.OK := by
    intro z hz
    simp only [writeTerm] at hz
    split at hz
    · cases hz
    · rename_i hne
      cases hz
      have := (h.types y hy).resolve_left hne
      exact ⟨this.toks, this.written_ok.1⟩
  refine ⟨?_, fun z hz => (hu hz).2, fun he => ?_⟩
  · simp only [TermAst.toks, legalToks_cons, legalToks_append]
    refine ⟨h.names y hy, ?_, legal_tag _, legal_kwOpt _ _, legal_sym, .nil⟩
    cases hz : (writeTerm ((ts.toList.map (·.1)).getD d []) y).type with
    | none => exact .nil
    | some z =>
      simp only [typeOptToks, legalToks_cons]
      exact ⟨legal_sym, (hu hz).1⟩
  · simp only [writeTerm, h.isEnum he y hy, if_true]

theorem inSpaces_toks {d : Decl} (h : LegalToks d.toks) (h' : d.OK) : ∀ {cs : List Comp}, (∀ c ∈ cs, IsIdent c) →
    LegalToks (inSpaces cs d).toks ∧ (inSpaces cs d).OK
  | [], _ => ⟨h, h'⟩
  | c :: cs, hc => by
    have ih := inSpaces_toks h h' (cs := cs) fun e he => hc e (by simp [he])
    refine ⟨?_, ?_⟩
    · simp only [inSpaces, Decl.toks, declToks, List.append_nil, legalToks_cons, legalToks_append]
      exact ⟨trivial, hc c (by simp), legal_sym, ih.1, legal_sym, .nil⟩
    · simp only [inSpaces, Decl.OK, DeclsOK]
      exact ⟨ih.2, trivial⟩

theorem Ends.src_path {defs : List (SourceId × PTy)} {space n : SourceId} {p : Path} (h : Ends defs space n (pathList p)) :
    LegalPath p := by
  obtain ⟨e, he, h1⟩ := List.mem_map.1 h.1.1
  subst h1
  cases p with
  | nil => intro c hc; cases hc
  | cons c p => exact (h.2 e.2 he (c :: p) (by simp [pathList])).1

theorem Ends.handlers {defs : List (SourceId × PTy)} {space n : SourceId} {l : List Path} (h : Ends defs space n l) :
    ∀ p ∈ l, LegalPath p ∧ p ≠ [] := by
  obtain ⟨e, he, h1⟩ := List.mem_map.1 h.1.1
  subst h1
  intro p hp
  obtain ⟨h2, q, c, _, _, _, h3, _⟩ := h.2 e.2 he p hp
  exact ⟨h2, by rw [h3]; simp⟩

theorem Item.inner_ok {f : Nat} {sc : Scope} {i : Item} (h : i.OK f sc) : LegalToks i.inner.toks ∧ i.inner.OK := by
  obtain ⟨hl, h⟩ := h
  have ho := hl.own_ident
  cases i with
  | alias n t =>
    simp only [Item.inner, Decl.toks, Decl.OK, legalToks_cons, legalToks_append]
    exact ⟨⟨trivial, ho, legal_kwOpt _ _, legal_sym, h.2.toks, legal_sym, .nil⟩, h.2.written_ok.1⟩
  | external n =>
    simp only [Item.inner, Decl.toks, Decl.OK, legalToks_cons, legalToks_append]
    exact ⟨⟨trivial, ho, legal_kwOpt _ _, legal_sym,
      by simp [TypeAst.toks, BaseAst.toks, LegalToks, Tok.Legal], legal_sym, .nil⟩, trivial⟩
  | struct n fs ex =>
    simp only [Item.inner, Decl.toks, Decl.OK, legalToks_cons, legalToks_append]
    refine ⟨⟨trivial, ho, legal_kwOpt _ _, legal_sym, .flatMap fun x hx => ?_, legal_sym, .nil⟩, fun x hx => ?_⟩
    · obtain ⟨y, hy, rfl⟩ := List.mem_map.1 hx
      simp only [FieldAst.toks, legalToks_cons, legalToks_append]
      exact ⟨(h.2.2 y hy).1, legal_sym, (h.2.2 y hy).2.toks, legal_sym, .nil⟩
    · obtain ⟨y, hy, rfl⟩ := List.mem_map.1 hx
      exact (h.2.2 y hy).2.written_ok.1
  | variant n ts d en ex =>
    cases en with
    | false =>
      simp only [Item.inner, Decl.toks, Decl.OK, legalToks_cons, legalToks_append]
      exact ⟨⟨trivial, ho, legal_kwOpt _ _, legal_sym, .flatMap fun x hx => (h.2.term x hx).1, legal_sym, .nil⟩,
        fun x hx => (h.2.term x hx).2.1⟩
    | true =>
      simp only [Item.inner, Decl.toks, Decl.OK, legalToks_cons, legalToks_append]
      exact ⟨⟨trivial, ho, legal_kwOpt _ _, legal_sym, .flatMap fun x hx => (h.2.term x hx).1, legal_sym, .nil⟩,
        fun x hx => (h.2.term x hx).2.2 rfl⟩
  | spec n head t p =>
    simp only [Item.inner, Decl.toks, Decl.OK, legalToks_cons, legalToks_append]
    exact ⟨⟨trivial, ho, legal_sym, h.2.2.1.2.1.toks, h.2.2.2.2.1.toks, legal_sym, .nil⟩, h.2.2.1.2.1.comps_ne⟩
  | portal n q =>
    obtain ⟨_, _, h1, h2, h3, h4⟩ := h
    simp only [Item.inner, Decl.toks, Decl.OK, legalToks_cons, legalToks_append]
    have key : ∀ x ∈ writePortal q, LegalToks x.toks ∧ x.OK := by
      intro x hx
      simp only [writePortal, List.mem_append] at hx
      rcases hx with hx | hx | hx <;> obtain ⟨y, hy, rfl⟩ := List.mem_map.1 hx
      · obtain ⟨h5, h6⟩ := h2 y hy
        simp only [PortalItem.toks, PortalItem.OK, legalToks_cons, legalToks_append]
        exact ⟨⟨trivial, h5, legal_kwOpt _ _, legal_sym, h6.1.2.1.toks, h6.src_path.toks, legal_sym, .nil⟩,
          h6.1.2.1.comps_ne⟩
      · obtain ⟨h5, h6⟩ := h3 y hy
        simp only [PortalItem.toks, PortalItem.OK, legalToks_cons, legalToks_append]
        exact ⟨⟨trivial, h5, legal_sym, h6.1.2.1.toks, h6.src_path.toks, legal_sym, .nil⟩, h6.1.2.1.comps_ne⟩
      · obtain ⟨h5, _, h6⟩ := h4 y hy
        simp only [PortalItem.toks, PortalItem.OK, legalToks_cons, legalToks_append]
        exact ⟨⟨trivial, h5, legal_sym, h6.1.2.1.toks, handlers_toks h6.handlers, legal_sym, .nil⟩, h6.1.2.1.comps_ne⟩
    exact ⟨⟨trivial, ho, legal_sym, h1.2.1.toks, legal_sym, .flatMap fun x hx => (key x hx).1, legal_sym, .nil⟩,
      h1.2.1.comps_ne, fun x hx => (key x hx).2⟩
  | precomp n po pr =>
    simp only [Item.inner, Decl.toks, Decl.OK, legalToks_cons, legalToks_append]
    exact ⟨⟨trivial, ho, legal_sym, h.2.1.2.1.toks, legal_sym, h.1.2.1.toks, legal_sym, legal_sym, .nil⟩,
      h.2.1.2.1.comps_ne, h.1.2.1.comps_ne⟩

theorem Item.decl_ok {f : Nat} {sc : Scope} {i : Item} (h : i.OK f sc) : LegalToks i.decl.toks ∧ i.decl.OK := by
  refine inSpaces_toks (Item.inner_ok h).1 (Item.inner_ok h).2 ?_
  intro c hc
  obtain ⟨s, hs, rfl⟩ := List.mem_map.1 hc
  exact h.1.2 s (List.dropLast_subset _ hs)

theorem ItemsOK.decls {f : Nat} : ∀ {items : List Item} {sc : Scope}, ItemsOK f sc items →
    LegalToks (declToks (items.map Item.decl)) ∧ DeclsOK (items.map Item.decl)
  | [], _, _ => ⟨.nil, trivial⟩
  | i :: is, sc, h => by
    have ih := ItemsOK.decls (items := is) h.2
    have hi := Item.decl_ok h.1
    simp only [List.map_cons, declToks, legalToks_append, DeclsOK]
    exact ⟨⟨hi.1, ih.1⟩, hi.2, ih.2⟩

/-- A text of the items. -/
theorem ItemsOK.text {f : Nat} {items : List Item} {sc : Scope} (h : ItemsOK f sc items) :
    ∃ s, parseText s = some (items.map Item.decl) := (C47_written _).2 h.decls

end PJ
