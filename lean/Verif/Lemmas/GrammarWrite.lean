import Verif.Lemmas.GrammarTop
/-!
# Writing declarations

Every list of declarations with legal names can be written, with one blank next to keywords and symbols.
-/
namespace PJ

/-! ## Numbers -/

theorem decimal_append (ds : List Char) (d : Char) : decimal (ds ++ [d]) = 10 * decimal ds + (d.toNat - 48) := by
  simp [decimal]

def digitChar (n : Nat) : Char := Char.ofNat (48 + n)

theorem digitChar_digit : ∀ n, n < 10 → (digitChar n).isDigit = true ∧ (digitChar n).toNat - 48 = n := by decide

/-- Every number can be written. -/
theorem exists_num : ∀ n : Nat, ∃ ds, IsNum ds n := by
  intro n
  induction n using Nat.strongRecOn with
  | ind n ih =>
    have hd := digitChar_digit (n % 10) (Nat.mod_lt _ (by omega))
    by_cases hn : n < 10
    · refine ⟨[digitChar (n % 10)], by simp, by simpa using hd.1, ?_⟩
      show 10 * 0 + ((digitChar (n % 10)).toNat - 48) = n
      rw [hd.2]
      omega
    · obtain ⟨ds, h1, h2, h3⟩ := ih (n / 10) (by omega)
      refine ⟨ds ++ [digitChar (n % 10)], by simp, ?_, ?_⟩
      · intro d hm
        rcases List.mem_append.1 hm with hm | hm
        · exact h2 d hm
        · simp only [List.mem_singleton] at hm
          rw [hm]
          exact hd.1
      · rw [decimal_append, h3, hd.2]
        omega

theorem Tok.Legal.spell {t : Tok} (h : t.Legal) : ∃ w, t.Spell w := by
  cases t with
  | kw k => exact ⟨_, rfl⟩
  | sym c => exact ⟨_, h, rfl⟩
  | id c => exact ⟨_, h, rfl⟩
  | num n => exact exists_num n
  | builtin b n =>
    obtain ⟨ds, hd⟩ := exists_num n
    exact ⟨_, ds, hd, rfl⟩
  | chr c => exact ⟨_, rfl⟩
  | path p => exact ⟨_, h, rfl⟩
  | text t => exact ⟨_, [' '], .inl ⟨' ', rfl, rfl⟩, rfl, h⟩

theorem Tok.Spell.legal {t : Tok} {w} (h : t.Spell w) : t.Legal := by
  cases t with
  | sym c => exact h.1
  | id c => exact h.1
  | path p => exact h.1
  | text t => exact h.choose_spec.2.2
  | _ => trivial

theorem Text0.legal : ∀ {k s}, Text0 k s → ∀ t ∈ k, t.Legal
  | [], _, _, t, ht => by cases ht
  | t :: k, s, h, t', ht => by
    obtain ⟨w, g, r, h1, _, _, _, _, h2⟩ := h
    rcases List.mem_cons.1 ht with rfl | ht
    · exact h1.legal
    · exact h2.legal t' ht

theorem Text.legal {k s} (h : Text k s) : ∀ t ∈ k, t.Legal := by
  obtain ⟨_, _, _, _, _, h⟩ := h
  exact h.legal

/-! ## Blanks -/

/-- Between any two tokens a blank is allowed, or the second begins with one. -/
def Blanks : List Tok → Prop
  | [] => True
  | t :: k => (t.padded = true ∨ startsPadded k = true ∨ startsText k = true ∨ k = []) ∧ Blanks k

theorem ends_blank (t : Tok) (r : List Char) {c} (hc : isSpace c = true ∨ c = '/') : t.Ends (c :: r) := by
  have h : identOther c = false := by
    rcases hc with hc | rfl
    · exact isSpace_ident hc
    · decide
  have h' : c.isDigit = false := by
    cases hd : c.isDigit with
    | false => rfl
    | true => rw [digit_other hd] at h; cases h
  cases t <;> simp [Tok.Ends, h, h']

theorem ends_nil (t : Tok) : t.Ends [] := by cases t <;> simp [Tok.Ends]

theorem write : ∀ {k : List Tok}, (∀ t ∈ k, t.Legal) → Blanks k → ∃ s, Text0 k s
  | [], _, _ => ⟨[], rfl⟩
  | t :: k, hl, hb => by
    obtain ⟨r, hr⟩ := write (fun x hx => hl x (List.mem_cons_of_mem _ hx)) hb.2
    obtain ⟨w, hw⟩ := (hl t (by simp)).spell
    have hsp : isSpace ' ' = true := rfl
    have pad : t.padded = true ∨ startsPadded k = true → ∃ s, Text0 (t :: k) s := fun h =>
      ⟨_, w, [' '], r, hw, .space hsp .nil, fun _ => h, ends_blank t r (.inl hsp), rfl, hr⟩
    rcases hb.1 with h | h | h | rfl
    · exact pad (.inl h)
    · exact pad (.inr h)
    · refine ⟨_, w, [], r, hw, .nil, fun h => absurd rfl h, ?_, rfl, hr⟩
      cases k with
      | nil => cases h
      | cons t' k =>
        cases t' with
        | text x =>
          obtain ⟨w', g', r', ⟨u, hu, rfl, _⟩, _, _, _, rfl, _⟩ := hr
          rcases hu with ⟨c, hc, rfl⟩ | ⟨b, _, rfl⟩
          · exact ends_blank t _ (.inl hc)
          · exact ends_blank t _ (.inr rfl)
        | _ => cases h
    · cases hr
      exact ⟨_, w, [], [], hw, .nil, fun h => absurd rfl h, ends_nil t, rfl, rfl⟩

theorem blanks_kwOpt {c : Kw} {e k} (h : Blanks k) : Blanks (kwOpt c e ++ k) := by cases e <;> simp [kwOpt, Blanks, Tok.padded, h]

theorem padded_kwOpt {c : Kw} {e d k} : startsPadded (kwOpt c e ++ .sym d :: k) = true := by cases e <;> rfl

theorem blanks_flatMap {α} {f : α → List Tok} (hf : ∀ x k, Blanks k → Blanks (f x ++ k)) :
    ∀ {xs : List α} {k}, Blanks k → Blanks (xs.flatMap f ++ k)
  | [], _, h => h
  | x :: xs, k, h => by
    rw [List.flatMap_cons, List.append_assoc]
    exact hf x _ (blanks_flatMap hf h)

theorem padded_flatMap {α} {f : α → List Tok} (hf : ∀ x k, startsPadded (f x ++ k) = true) {xs : List α} {k}
    (h : startsPadded k = true) : startsPadded (xs.flatMap f ++ k) = true := by
  cases xs with
  | nil => exact h
  | cons x xs => rw [List.flatMap_cons, List.append_assoc]; exact hf _ _

theorem blanks_scoped (i : List Comp) {k} (h : Blanks k) (hk : startsPadded k = true) : Blanks (scopedToks i ++ k) := by
  have key : ∀ (cs : List Comp), Blanks ((cs.flatMap fun d => [.sym '.', .id d]) ++ k) ∧
      startsPadded ((cs.flatMap fun d => [.sym '.', .id d]) ++ k) = true := by
    intro cs
    induction cs with
    | nil => exact ⟨h, hk⟩
    | cons c cs ih =>
      simp only [List.flatMap_cons, List.cons_append, List.nil_append]
      exact ⟨⟨.inl rfl, .inr (.inl ih.2), ih.1⟩, rfl⟩
  cases i with
  | nil => exact h
  | cons c cs => exact ⟨.inr (.inl (key cs).2), (key cs).1⟩

theorem blanks_numOpt {n : Option Nat} {k} (h : Blanks k) (hk : startsPadded k = true) : Blanks (numOpt n ++ k) := by
  cases n with
  | none => exact h
  | some n => exact ⟨.inr (.inl hk), h⟩

theorem blanks_mod (m : ModAst) (k) (h : Blanks k) : Blanks (m.toks ++ k) := by
  cases m with
  | fixed n => exact ⟨.inl rfl, .inr (.inl rfl), .inl rfl, h⟩
  | var a b =>
    simp only [ModAst.toks, List.cons_append, List.append_assoc, List.nil_append]
    exact ⟨.inl rfl, blanks_numOpt ⟨.inl rfl, blanks_numOpt ⟨.inl rfl, h⟩ rfl⟩ rfl⟩

theorem padded_mod (m : ModAst) (k) : startsPadded (m.toks ++ k) = true := by cases m <;> rfl

theorem blanks_type (t : TypeAst) {k} (h : Blanks k) (hk : startsPadded k = true) : Blanks (t.toks ++ k) := by
  rw [TypeAst.toks, List.append_assoc]
  have h1 := blanks_flatMap blanks_mod (xs := t.mods) h
  have h2 := padded_flatMap padded_mod (xs := t.mods) hk
  cases hb : t.base with
  | builtin b n => exact ⟨.inr (.inl h2), h1⟩
  | any => exact ⟨.inl rfl, h1⟩
  | ref i => exact blanks_scoped i h1 h2

theorem blanks_field (f : FieldAst) (k) (h : Blanks k) : Blanks (f.toks ++ k) := by
  simp only [FieldAst.toks, List.cons_append, List.append_assoc, List.nil_append]
  exact ⟨.inr (.inl rfl), .inl rfl, blanks_type _ ⟨.inl rfl, h⟩ rfl⟩

theorem blanks_term (t : TermAst) (k) (h : Blanks k) : Blanks (t.toks ++ k) := by
  simp only [TermAst.toks, List.cons_append, List.append_assoc, List.nil_append]
  have h1 : Blanks (kwOpt .default_ t.dflt ++ .sym ';' :: k) := blanks_kwOpt ⟨.inl rfl, h⟩
  have h2 : startsPadded (kwOpt .default_ t.dflt ++ .sym ';' :: k) = true := padded_kwOpt
  have h3 : Blanks (tagToks t.tag ++ (kwOpt .default_ t.dflt ++ .sym ';' :: k)) ∧
      startsPadded (tagToks t.tag ++ (kwOpt .default_ t.dflt ++ .sym ';' :: k)) = true := by
    rcases t.tag with _ | n | c
    · exact ⟨h1, h2⟩
    · exact ⟨⟨.inl rfl, .inr (.inl h2), h1⟩, rfl⟩
    · exact ⟨⟨.inl rfl, .inr (.inl h2), h1⟩, rfl⟩
  rcases t.type with _ | y
  · exact ⟨.inr (.inl h3.2), h3.1⟩
  · exact ⟨.inr (.inl rfl), .inl rfl, blanks_type _ h3.1 h3.2⟩

theorem blanks_path (p : Option RawPath) {k} (h : Blanks k) (hk : startsPadded k = true) : Blanks (pathToks p ++ k) ∧
    startsPadded (pathToks p ++ k) = true := by
  cases p with
  | none => exact ⟨h, hk⟩
  | some p => exact ⟨⟨.inl rfl, .inr (.inl hk), h⟩, rfl⟩

theorem blanks_handlers (x : Option (RawPath × List RawPath × Bool)) {k} (h : Blanks k) (hk : startsPadded k = true) :
    Blanks (handlerToks x ++ k) ∧ startsPadded (handlerToks x ++ k) = true := by
  rcases x with _ | ⟨p, ps, c⟩
  · exact ⟨h, hk⟩
  · refine ⟨?_, rfl⟩
    have h1 : Blanks ((if c then [.sym ','] else []) ++ (.sym ']' :: .sym ';' :: .sym '}' :: k)) ∧
        startsPadded ((if c then [.sym ','] else []) ++ (.sym ']' :: .sym ';' :: .sym '}' :: k)) = true := by
      cases c
      · exact ⟨⟨.inl rfl, .inl rfl, .inl rfl, h⟩, rfl⟩
      · exact ⟨⟨.inl rfl, .inl rfl, .inl rfl, .inl rfl, h⟩, rfl⟩
    have h2 : ∀ ps : List RawPath, Blanks (ps.flatMap (fun q => [.sym ',', .path q]) ++
        ((if c then [.sym ','] else []) ++ (.sym ']' :: .sym ';' :: .sym '}' :: k))) ∧
        startsPadded (ps.flatMap (fun q => [.sym ',', .path q]) ++
        ((if c then [.sym ','] else []) ++ (.sym ']' :: .sym ';' :: .sym '}' :: k))) = true := by
      intro ps
      induction ps with
      | nil => exact h1
      | cons q ps ih => exact ⟨⟨.inl rfl, .inr (.inl ih.2), ih.1⟩, rfl⟩
    simp only [handlerToks, List.cons_append, List.append_assoc, List.nil_append]
    exact ⟨.inl rfl, .inl rfl, .inl rfl, .inr (.inl (h2 ps).2), (h2 ps).1⟩

theorem blanks_item (x : PortalItem) (k) (h : Blanks k) : Blanks (x.toks ++ k) := by
  cases x with
  | sizer n u i p =>
    simp only [PortalItem.toks, List.cons_append, List.append_assoc, List.nil_append]
    have h1 := blanks_path p (k := .sym ';' :: k) ⟨.inl rfl, h⟩ rfl
    exact ⟨.inl rfl, .inr (.inl padded_kwOpt), blanks_kwOpt ⟨.inl rfl, blanks_scoped i h1.1 h1.2⟩⟩
  | encoder n i p =>
    simp only [PortalItem.toks, List.cons_append, List.append_assoc, List.nil_append]
    have h1 := blanks_path p (k := .sym ';' :: k) ⟨.inl rfl, h⟩ rfl
    exact ⟨.inl rfl, .inr (.inl rfl), .inl rfl, blanks_scoped i h1.1 h1.2⟩
  | decoder n i p =>
    simp only [PortalItem.toks, List.cons_append, List.append_assoc, List.nil_append]
    have h1 := blanks_handlers p (k := .sym ';' :: k) ⟨.inl rfl, h⟩ rfl
    exact ⟨.inl rfl, .inr (.inl rfl), .inl rfl, blanks_scoped i h1.1 h1.2⟩

theorem blanks_startsDecl (d : Decl) (k) : startsPadded (d.toks ++ k) = true := by
  obtain ⟨k', e⟩ := decl_kw d
  rw [e]
  rfl

mutual
theorem blanks_decl : ∀ (d : Decl) (k : List Tok), Blanks k → (startsPadded k = true ∨ k = []) → Blanks (d.toks ++ k)
  | .import_ i, k, h, _ => by
    simp only [Decl.toks, List.cons_append, List.append_assoc, List.nil_append]
    exact ⟨.inl rfl, blanks_scoped i ⟨.inl rfl, h⟩ rfl⟩
  | .struct n e fs, k, h, _ => by
    simp only [Decl.toks, List.cons_append, List.append_assoc, List.nil_append]
    exact ⟨.inl rfl, .inr (.inl padded_kwOpt), blanks_kwOpt ⟨.inl rfl, blanks_flatMap blanks_field ⟨.inl rfl, h⟩⟩⟩
  | .variant n e fs, k, h, _ => by
    simp only [Decl.toks, List.cons_append, List.append_assoc, List.nil_append]
    exact ⟨.inl rfl, .inr (.inl padded_kwOpt), blanks_kwOpt ⟨.inl rfl, blanks_flatMap blanks_term ⟨.inl rfl, h⟩⟩⟩
  | .enum n e fs, k, h, _ => by
    simp only [Decl.toks, List.cons_append, List.append_assoc, List.nil_append]
    exact ⟨.inl rfl, .inr (.inl padded_kwOpt), blanks_kwOpt ⟨.inl rfl, blanks_flatMap blanks_term ⟨.inl rfl, h⟩⟩⟩
  | .spec n i p, k, h, _ => by
    simp only [Decl.toks, List.cons_append, List.append_assoc, List.nil_append]
    have h1 := blanks_path p (k := .sym ';' :: k) ⟨.inl rfl, h⟩ rfl
    exact ⟨.inl rfl, .inr (.inl rfl), .inl rfl, blanks_scoped i h1.1 h1.2⟩
  | .type n e t, k, h, _ => by
    simp only [Decl.toks, List.cons_append, List.append_assoc, List.nil_append]
    exact ⟨.inl rfl, .inr (.inl padded_kwOpt), blanks_kwOpt ⟨.inl rfl, blanks_type t ⟨.inl rfl, h⟩ rfl⟩⟩
  | .space n ds, k, h, _ => by
    simp only [Decl.toks, List.cons_append, List.append_assoc, List.nil_append]
    exact ⟨.inl rfl, .inr (.inl rfl), .inl rfl, blanks_decls ds _ ⟨.inl rfl, h⟩ (.inl rfl)⟩
  | .language n t, k, h, hk => ⟨.inl rfl, .inr (.inr (.inl rfl)), hk.elim (fun h => .inr (.inl h)) (fun h => .inr (.inr (.inr h))), h⟩
  | .portal n q is, k, h, _ => by
    simp only [Decl.toks, List.cons_append, List.append_assoc, List.nil_append]
    exact ⟨.inl rfl, .inr (.inl rfl), .inl rfl, blanks_scoped q ⟨.inl rfl, blanks_flatMap blanks_item ⟨.inl rfl, h⟩⟩ rfl⟩
  | .precomp n i q, k, h, _ => by
    simp only [Decl.toks, List.cons_append, List.append_assoc, List.nil_append]
    exact ⟨.inl rfl, .inr (.inl rfl), .inl rfl, blanks_scoped i ⟨.inl rfl, blanks_scoped q ⟨.inl rfl, .inl rfl, h⟩ rfl⟩ rfl⟩
termination_by structural d => d
theorem blanks_decls : ∀ (ds : List Decl) (k : List Tok), Blanks k → (startsPadded k = true ∨ k = []) → Blanks (declToks ds ++ k)
  | [], k, h, _ => h
  | d :: ds, k, h, hk => by
    show Blanks (d.toks ++ declToks ds ++ k)
    rw [List.append_assoc]
    refine blanks_decl d _ (blanks_decls ds k h hk) ?_
    cases ds with
    | nil => exact hk
    | cons d' ds =>
      show startsPadded (d'.toks ++ declToks ds ++ k) = true ∨ _
      rw [List.append_assoc]
      exact .inl (blanks_startsDecl d' _)
termination_by structural ds => ds
end

/-! ## Files without declarations -/

theorem top_fail_gap {n g} (hg : Gap g) : topDecl n g = .fail := by
  cases n with
  | zero => rfl
  | succ n =>
    have hf : ∀ (kw : Kw) (f : Unit → Peg Decl), (keyword kw).bind f g = .fail := fun kw f => by
      apply Peg.bind_fail
      have := spaced_fail (p := bareKeyword kw) hg (r := []) (by intro c hc; cases hc) (by cases kw <;> rfl)
      rwa [List.append_nil] at this
    unfold topDecl importDecl structDecl variantDecl enumDecl specDecl typeDecl spaceDecl languageDecl portalDecl precompDecl
    rw [Peg.or_fail (hf _ _), Peg.or_fail (hf _ _), Peg.or_fail (hf _ _), Peg.or_fail (hf _ _), Peg.or_fail (hf _ _),
      Peg.or_fail (hf _ _), Peg.or_fail (hf _ _), Peg.or_fail (hf _ _), Peg.or_fail (hf _ _)]
    exact hf _ _

/-! ## Ends of files -/

/-- Tokens that anything may follow. -/
def Tok.closed : Tok → Bool
  | .sym _ => true
  | .text _ => true
  | _ => false

theorem decl_closed (d : Decl) : ∃ a t, d.toks = a ++ [t] ∧ t.closed = true := by
  cases d with
  | import_ i => exact ⟨.kw .import_ :: scopedToks i, _, rfl, rfl⟩
  | struct n e fs => exact ⟨.kw .struct_ :: .id n :: (kwOpt .external e ++ .sym '{' :: fs.flatMap FieldAst.toks), .sym '}', by simp [Decl.toks], rfl⟩
  | variant n e fs => exact ⟨.kw .variant_ :: .id n :: (kwOpt .external e ++ .sym '{' :: fs.flatMap TermAst.toks), .sym '}', by simp [Decl.toks], rfl⟩
  | enum n e fs => exact ⟨.kw .enum_ :: .id n :: (kwOpt .external e ++ .sym '{' :: fs.flatMap TermAst.toks), .sym '}', by simp [Decl.toks], rfl⟩
  | spec n h p => exact ⟨.kw .specification :: .id n :: .sym ':' :: (scopedToks h ++ pathToks p), .sym ';', by simp [Decl.toks], rfl⟩
  | type n e t => exact ⟨.kw .type_ :: .id n :: (kwOpt .external e ++ .sym '=' :: t.toks), .sym ';', by simp [Decl.toks], rfl⟩
  | space n ds => exact ⟨.kw .space_ :: .id n :: .sym '{' :: declToks ds, .sym '}', by simp [Decl.toks], rfl⟩
  | language n t => exact ⟨[.kw .language, .id n], .text t, rfl, rfl⟩
  | portal n q is => exact ⟨.kw .portal :: .id n :: .sym ':' :: (scopedToks q ++ .sym '{' :: is.flatMap PortalItem.toks), .sym '}', by simp [Decl.toks], rfl⟩
  | precomp n i q => exact ⟨.kw .precompile :: .id n :: .sym ':' :: (scopedToks i ++ .sym '(' :: (scopedToks q ++ [.sym ')'])), .sym ';', by simp [Decl.toks], rfl⟩

theorem Text0.ne_nil {t : Tok} {k s} (h : Text0 (t :: k) s) : s ≠ [] := by
  obtain ⟨w, g, r, h1, _, _, _, rfl, _⟩ := h
  by_cases ht : startsText [t] = false
  · obtain ⟨c, w', rfl, _⟩ := h1.begin ht
    simp
  · cases t with
    | text x => obtain ⟨u, _, rfl, _⟩ := h1; simp
    | _ => simp [startsText] at ht

theorem Tok.Ends.append {t : Tok} {r y} (h : t.Ends r) (hr : r ≠ []) : t.Ends (r ++ y) := by
  cases r with
  | nil => exact absurd rfl hr
  | cons c r => cases t <;> exact h

theorem startsPadded_append {a b : List Tok} (h : startsPadded a = true) : startsPadded (a ++ b) = true := by
  cases a with
  | nil => cases h
  | cons t a => exact h

theorem Text0.append : ∀ {a : List Tok} {t : Tok} {b x y}, t.closed = true → Text0 (a ++ [t]) x → Text b y → Text0 (a ++ [t] ++ b) (x ++ y)
  | [], t, b, x, y, ht, h, hb => by
    obtain ⟨w, g, r, h1, h2, h3, h4, rfl, rfl⟩ := h
    obtain ⟨g', y, h5, h6, rfl, h7⟩ := hb
    refine ⟨w, g ++ g', y, h1, h2.append h5, fun hne => ?_, ?_, by simp, h7⟩
    rotate_left
    · cases t <;> first | trivial | cases ht
    by_cases hg : g = []
    · subst hg
      exact .inr (h6 hne)
    · rcases h3 hg with h | h
      · exact .inl h
      · cases h
  | t' :: a, t, b, x, y, ht, h, hb => by
    obtain ⟨w, g, r, h1, h2, h3, h4, rfl, h5⟩ := h
    refine ⟨w, g, r ++ y, h1, h2, fun hne => (h3 hne).imp id startsPadded_append, ?_, by simp, Text0.append ht h5 hb⟩
    have hr : r ≠ [] := by
      cases a with
      | nil => exact h5.ne_nil
      | cons _ _ => exact h5.ne_nil
    rw [← List.append_assoc]
    exact h4.append (by simp [hr])

theorem Text.append {a : List Tok} {t : Tok} {b x y} (ht : t.closed = true) (h : Text (a ++ [t]) x) (hb : Text b y) :
    Text (a ++ [t] ++ b) (x ++ y) := by
  obtain ⟨g, x, h1, h2, rfl, h3⟩ := h
  exact ⟨g, x ++ y, h1, fun hne => startsPadded_append (h2 hne), by simp, Text0.append ht h3 hb⟩

theorem Text0.last_text : ∀ {a : List Tok} {t x}, Text0 (a ++ [.text t]) x → x.getLast? = some '"'
  | [], t, x, h => by
    obtain ⟨w, g, r, ⟨u, _, rfl, _⟩, _, h3, _, rfl, rfl⟩ := h
    have hg : g = [] := by
      cases g with
      | nil => rfl
      | cons c g => rcases h3 (by simp) with h | h <;> cases h
    subst hg
    rw [List.append_nil, List.append_nil, List.getLast?_append]
    rfl
  | t' :: a, t, x, h => by
    obtain ⟨w, g, r, _, _, _, _, rfl, h5⟩ := h
    have := Text0.last_text h5
    rw [List.getLast?_append, List.getLast?_append, this]
    rfl

theorem Gap.last {g : List Char} (h : Gap g) (hne : g ≠ []) : ∃ c, g.getLast? = some c ∧ isSpace c = true := by
  induction h with
  | nil => exact absurd rfl hne
  | @space c g hc _ ih =>
    cases g with
    | nil => exact ⟨c, rfl, hc⟩
    | cons d g => simpa using ih (by simp)
  | @comment body g _ _ ih =>
    cases g with
    | nil =>
      refine ⟨'\n', ?_, rfl⟩
      rw [show '/' :: '/' :: (body ++ ['\n']) = '/' :: '/' :: body ++ ['\n'] from rfl, List.getLast?_append]
      rfl
    | cons d g =>
      obtain ⟨c, h1, h2⟩ := ih (by simp)
      refine ⟨c, ?_, h2⟩
      rw [show '/' :: '/' :: (body ++ '\n' :: d :: g) = ('/' :: '/' :: body ++ ['\n']) ++ d :: g from by simp,
        List.getLast?_append, h1]
      rfl

/-- Appending a declaration to a file. -/
theorem Text.snoc {ds : List Decl} {s : List Char} (h : Text (declToks ds) s) (hne : s ≠ []) {b y} (hb : Text b y) :
    Text (declToks ds ++ b) (s ++ y) := by
  rcases ds.eq_nil_or_concat with rfl | ⟨ds, d, rfl⟩
  · exact absurd (Text.nil.1 h) hne
  · obtain ⟨a, t, e, ht⟩ := decl_closed d
    have e' : declToks (ds ++ [d]) = declToks ds ++ a ++ [t] := by simp [flat_declToks, e]
    rw [List.concat_eq_append, e'] at h ⊢
    exact h.append ht hb

theorem no_gap_after_text {ds : List Decl} {n t : List Char} {s g : List Char} (h : Text (declToks (ds ++ [.language n t])) s)
    (hd : DeclsOK ds) (hg : Gap g) (hne : g ≠ []) : parseText (s ++ g) = none := by
  cases hp : parseText (s ++ g) with
  | none => rfl
  | some ds' =>
    exfalso
    obtain ⟨h1, h2⟩ := parse_sound hp
    have hs : s ≠ [] := by
      rintro rfl
      obtain ⟨g', r, _, _, e, h3⟩ := h
      have : r = [] := (List.append_eq_nil_iff.1 e.symm).2
      subst this
      cases ds with
      | nil => exact h3.ne_nil rfl
      | cons d ds =>
        obtain ⟨k, e⟩ := decl_kw d
        have h3 : Text0 (d.toks ++ declToks (ds ++ [.language n t])) [] := h3
        rw [e] at h3
        exact h3.ne_nil rfl
    let x : Decl := .enum ['E'] false []
    let y : List Char := ['e', 'n', 'u', 'm', ' ', 'E', '{', '}']
    have hy : Text (declToks [x]) y := (parse_sound (ds := [x]) (s := y) (by rfl)).1
    have happ : ∀ ds : List Decl, declToks (ds ++ [x]) = declToks ds ++ declToks [x] := fun ds => by simp [flat_declToks]
    have hok : ∀ ds : List Decl, DeclsOK ds → DeclsOK (ds ++ [x]) := fun ds h => declsOK.2 fun d hd => by
      rcases List.mem_append.1 hd with hd | hd
      · exact declsOK.1 h d hd
      · cases List.mem_singleton.1 hd
        intro t ht
        cases ht
    have e1 := parse_complete (happ ds' ▸ h1.snoc (by simp [hs]) hy) (hok _ h2)
    have hl : DeclsOK (ds ++ [.language n t]) := declsOK.2 fun d hm => by
      rcases List.mem_append.1 hm with hm | hm
      · exact declsOK.1 hd d hm
      · cases List.mem_singleton.1 hm
        trivial
    have e2 := parse_complete (happ _ ▸ h.snoc hs (Text.gap hg (fun _ => rfl) hy)) (hok _ hl)
    rw [List.append_assoc, e2] at e1
    simp only [Option.some.injEq, List.append_cancel_right_eq] at e1
    subst e1
    have e3 : declToks (ds ++ [.language n t]) = declToks ds ++ [.kw .language, .id n] ++ [.text t] := by simp [flat_declToks, Decl.toks]
    rw [e3] at h1
    obtain ⟨g', r, _, _, e4, h5⟩ := h1
    have h6 := h5.last_text
    obtain ⟨c, h7, h8⟩ := hg.last hne
    have h9 : (s ++ g).getLast? = (g' ++ r).getLast? := by rw [e4]
    rw [List.getLast?_append, List.getLast?_append, h6, h7] at h9
    simp only [Option.some_or, Option.some.injEq] at h9
    rw [h9] at h8
    cases h8

end PJ
