import Verif.Lemmas.Grammar
/-!
# Tokens

Each rule for a token accepts exactly the texts that begin with that token.
-/
namespace PJ

open Peg

/-! ## Characters -/

theorem isSpace_ident {c : Char} (h : isSpace c = true) : identOther c = false := by
  simp only [isSpace, Bool.or_eq_true, beq_iff_eq] at h
  rcases h with ((((rfl | rfl) | rfl) | rfl) | rfl) | rfl <;> decide

theorem symbols_ident {c : Char} (h : c ∈ symbols) : identOther c = false ∧ isSpace c = false ∧ c ≠ '/' ∧ c ≠ '\'' := by
  simp only [symbols, List.mem_cons, List.not_mem_nil, or_false] at h
  rcases h with rfl | rfl | rfl | rfl | rfl | rfl | rfl | rfl | rfl | rfl | rfl | rfl <;> decide

theorem ident_noGap {c : Char} (h : identOther c = true) : isSpace c = false ∧ c ≠ '/' := by
  constructor
  · cases hs : isSpace c with
    | false => rfl
    | true => rw [isSpace_ident hs] at h; cases h
  · rintro rfl; exact absurd h (by decide)

theorem first_other {c : Char} (h : identFirst c = true) : identOther c = true := by simp [identOther, h]
theorem digit_other {c : Char} (h : c.isDigit = true) : identOther c = true := by simp [identOther, h]

theorem kw_ident (k : Kw) : ∀ c ∈ k.chars, identOther c = true := by cases k <;> decide
theorem builtin_ident (b : Builtin) : ∀ c ∈ b.chars, identOther c = true := by cases b <;> decide
theorem kw_inj {a b : Kw} (h : a.chars = b.chars) : a = b := by revert h; cases a <;> cases b <;> decide

theorem first_not_digit {c : Char} (h : identFirst c = true) : c.isDigit = false := by
  cases hd : c.isDigit with
  | false => rfl
  | true =>
    exfalso
    simp only [identFirst, Bool.or_eq_true, beq_iff_eq] at h
    rcases h with h | rfl
    · simp only [Char.isAlpha, Char.isUpper, Char.isLower, Char.isDigit, Bool.or_eq_true, Bool.and_eq_true,
        decide_eq_true_eq, ge_iff_le, UInt32.le_iff_toNat_le] at h hd
      have e1 : 'A'.val.toNat = 65 := rfl
      have e2 : 'a'.val.toNat = 97 := rfl
      have e3 : '9'.val.toNat = 57 := rfl
      omega
    · exact absurd hd (by decide)

/-- No character of identifiers follows. -/
def NoIdent (r : List Char) : Prop := ∀ c ∈ r.head?, identOther c = false

/-- No digit follows. -/
def NoDigit (r : List Char) : Prop := ∀ c ∈ r.head?, c.isDigit = false

theorem NoIdent.digit {r} (h : NoIdent r) : NoDigit r := fun c hc => by
  have := h c hc
  simp only [identOther, Bool.or_eq_false_iff] at this
  exact this.2

theorem munch {f : Char → Bool} {a r : List Char} (ha : ∀ c ∈ a, f c = true) (hr : ∀ c ∈ r.head?, f c = false) :
    (a ++ r).takeWhile f = a ∧ (a ++ r).dropWhile f = r := by
  have e : r.takeWhile f = [] ∧ r.dropWhile f = r := by
    cases r with
    | nil => exact ⟨rfl, rfl⟩
    | cons c r => simp [hr c rfl]
  rw [List.takeWhile_append_of_pos ha, List.dropWhile_append_of_pos ha, e.1, e.2]
  simp

theorem drop_head {f : Char → Bool} (s : List Char) : ∀ c ∈ (s.dropWhile f).head?, f c = false := by
  intro c hc
  induction s with
  | nil => simp at hc
  | cons d s ih =>
    by_cases hd : f d = true
    · simp only [List.dropWhile_cons, hd, if_true] at hc; exact ih hc
    · simp only [List.dropWhile_cons, hd] at hc
      simp at hc
      subst hc
      simpa using hd

theorem munch_unique {f : Char → Bool} {a r b r' : List Char} (ha : ∀ c ∈ a, f c = true) (hr : ∀ c ∈ r.head?, f c = false)
    (hb : ∀ c ∈ b, f c = true) (hr' : ∀ c ∈ r'.head?, f c = false) (e : a ++ r = b ++ r') : a = b ∧ r = r' := by
  have h1 := munch ha hr
  have h2 := munch hb hr'
  rw [e] at h1
  exact ⟨h1.1.symm.trans h2.1, h1.2.symm.trans h2.2⟩

theorem munch_prefix {f : Char → Bool} {a r b r' : List Char} (hr : ∀ c ∈ r.head?, f c = false)
    (hb : ∀ c ∈ b, f c = true) (e : a ++ r = b ++ r') : ∃ x, a = b ++ x := by
  rcases List.append_eq_append_iff.1 e with ⟨x, h1, h2⟩ | ⟨x, h1, _⟩
  · cases x with
    | nil => exact ⟨[], by simp [h1]⟩
    | cons c x =>
      have h3 : f c = true := hb c (by rw [h1]; simp)
      rw [hr c (by rw [h2]; rfl)] at h3
      cases h3
  · exact ⟨x, h1⟩

/-! ## Words -/

theorem ident_ok {s c r} : ident s = .ok c r ↔ IsIdent c ∧ s = c ++ r ∧ NoIdent r := by
  unfold ident
  rw [bind_ok]
  constructor
  · rintro ⟨d, r1, h1, h2⟩
    obtain ⟨cs, h3, rfl⟩ := map_ok.1 h2
    rw [star_one] at h3
    simp only [PRes.ok.injEq] at h3
    obtain ⟨h4, h5⟩ := one_ok.1 h1
    rw [← h3.1, ← h3.2]
    refine ⟨⟨h5, fun x hx => ?_⟩, by rw [h4]; simp, drop_head _⟩
    exact List.all_eq_true.1 (List.all_takeWhile (p := identOther)) x hx
  · rintro ⟨h1, rfl, h2⟩
    cases c with
    | nil => cases h1
    | cons d c =>
      refine ⟨d, c ++ r, one_ok.2 ⟨rfl, h1.1⟩, map_ok.2 ⟨c, ?_, rfl⟩⟩
      rw [star_one, (munch h1.2 h2).1, (munch h1.2 h2).2]

theorem ident_fail {s} (h : ∀ c ∈ s.head?, identFirst c = false) : ident s = .fail := by
  apply bind_fail
  cases s with
  | nil => rfl
  | cons c s => simp [one, h c rfl]

theorem ident_cases (s) : ident s = .fail ∨ ∃ c r, ident s = .ok c r := by
  unfold ident
  cases s with
  | nil => exact .inl rfl
  | cons c s =>
    by_cases h : identFirst c = true
    · right
      rw [bind_eq (a := c) (r := s) (one_ok.2 ⟨rfl, h⟩)]
      exact ⟨_, _, map_eq (star_one _ _)⟩
    · left
      exact bind_fail (by simp [one, h])

theorem num_ok {s n r} : num s = .ok n r ↔ ∃ ds, IsNum ds n ∧ s = ds ++ r ∧ NoDigit r := by
  unfold num
  rw [bind_ok]
  constructor
  · rintro ⟨d, r1, h1, h2⟩
    obtain ⟨cs, h3, rfl⟩ := map_ok.1 h2
    rw [star_one] at h3
    simp only [PRes.ok.injEq] at h3
    obtain ⟨h4, h5⟩ := one_ok.1 h1
    rw [← h3.1, ← h3.2]
    refine ⟨d :: r1.takeWhile Char.isDigit, ⟨by simp, fun x hx => ?_, rfl⟩, by rw [h4]; simp, drop_head _⟩
    rcases List.mem_cons.1 hx with rfl | hx
    · exact h5
    · exact List.all_eq_true.1 (List.all_takeWhile (p := Char.isDigit)) x hx
  · rintro ⟨ds, ⟨h0, h1, rfl⟩, rfl, h2⟩
    cases ds with
    | nil => exact absurd rfl h0
    | cons d c =>
      have hc : ∀ x ∈ c, x.isDigit = true := fun x hx => h1 x (by simp [hx])
      refine ⟨d, c ++ r, one_ok.2 ⟨rfl, h1 d (by simp)⟩, map_ok.2 ⟨c, ?_, rfl⟩⟩
      rw [star_one, (munch hc h2).1, (munch hc h2).2]

theorem num_fail {s} (h : ∀ c ∈ s.head?, c.isDigit = false) : num s = .fail := by
  apply bind_fail
  cases s with
  | nil => rfl
  | cons c s => simp [one, h c rfl]

theorem num_cases (s) : num s = .fail ∨ ∃ n r, num s = .ok n r := by
  unfold num
  cases s with
  | nil => exact .inl rfl
  | cons c s =>
    by_cases h : c.isDigit = true
    · right
      rw [bind_eq (a := c) (r := s) (one_ok.2 ⟨rfl, h⟩)]
      exact ⟨_, _, map_eq (star_one _ _)⟩
    · left
      exact bind_fail (by simp [one, h])

/-! ## Texts -/

/-- The tokens begin with the text of another language. -/
def startsText : List Tok → Bool
  | .text _ :: _ => true
  | _ => false

theorem PathText.head {p} (h : PathText p) : ∃ c p', p = c :: p' ∧ identFirst c = true := by
  cases h with
  | @one c h =>
    cases p with
    | nil => cases h
    | cons d p => exact ⟨d, p, rfl, h.1⟩
  | @cons c g g' p h =>
    cases c with
    | nil => cases h
    | cons d c => exact ⟨d, _, rfl, h.1⟩

/-- How tokens begin. -/
def Tok.Begin : Tok → Char → Prop
  | .kw k, c => k.chars.head? = some c
  | .sym d, c => c = d ∧ d ∈ symbols
  | .id _, c | .path _, c => identFirst c = true
  | .num _, c => c.isDigit = true
  | .builtin b _, c => b.chars.head? = some c
  | .chr _, c => c = '\''
  | .text _, _ => False

theorem Tok.Spell.begin {t : Tok} {w} (h : t.Spell w) (ht : startsText [t] = false) : ∃ c w', w = c :: w' ∧ t.Begin c := by
  cases t with
  | kw k => rw [show w = k.chars from h]; cases k <;> exact ⟨_, _, rfl, rfl⟩
  | sym d => obtain ⟨h1, rfl⟩ := h; exact ⟨_, _, rfl, rfl, h1⟩
  | id c =>
    obtain ⟨h1, rfl⟩ := h
    cases w with
    | nil => cases h1
    | cons d c => exact ⟨_, _, rfl, h1.1⟩
  | num n =>
    obtain ⟨h0, h1, _⟩ := h
    cases w with
    | nil => exact absurd rfl h0
    | cons d c => exact ⟨_, _, rfl, h1 d (by simp)⟩
  | builtin b n =>
    obtain ⟨ds, _, rfl⟩ := h
    cases b <;> exact ⟨_, _, rfl, rfl⟩
  | chr c => exact ⟨_, _, h, rfl⟩
  | path p => obtain ⟨h1, rfl⟩ := h; exact h1.head
  | text t => cases ht

theorem Tok.Begin.noGap {t : Tok} {c} (h : t.Begin c) : isSpace c = false ∧ c ≠ '/' := by
  cases t with
  | kw k => exact ident_noGap (kw_ident k c (List.mem_of_mem_head? h))
  | sym d => obtain ⟨rfl, h⟩ := h; have := symbols_ident h; exact ⟨this.2.1, this.2.2.1⟩
  | id _ => exact ident_noGap (first_other h)
  | num _ => exact ident_noGap (digit_other h)
  | builtin b _ => exact ident_noGap (builtin_ident b c (List.mem_of_mem_head? h))
  | chr _ => rw [show c = '\'' from h]; decide
  | path _ => exact ident_noGap (first_other h)
  | text _ => cases h

theorem startsText_cons {t : Tok} {k} (h : startsText (t :: k) = false) : startsText [t] = false := by
  cases t <;> first | rfl | cases h

theorem Text0.noGap {k s} (h : Text0 k s) (hk : startsText k = false) : NoGap s := by
  cases k with
  | nil => rw [show s = [] from h]; intro c hc; cases hc
  | cons t k =>
    obtain ⟨w, g, r, h1, _, _, _, rfl, _⟩ := h
    obtain ⟨c, w', rfl, h2⟩ := h1.begin (startsText_cons hk)
    intro d hd
    simp only [List.cons_append, List.head?_cons, Option.mem_def, Option.some.injEq] at hd
    subst hd
    exact h2.noGap

theorem Text0.text {k s} (h : Text0 k s) : Text k s := ⟨[], s, .nil, fun h => absurd rfl h, rfl, h⟩

theorem Text.nil {s} : Text [] s ↔ s = [] := by
  constructor
  · rintro ⟨g, r, _, h1, rfl, h2⟩
    rw [show r = [] from h2]
    cases g with
    | nil => rfl
    | cons c g => exact absurd (h1 (by simp)) (by simp [startsPadded])
  · rintro rfl
    exact Text0.text rfl

/-- Adding a gap in front of a text that may begin with one. -/
theorem Text.gap {k s g} (hg : Gap g) (hk : g ≠ [] → startsPadded k = true) (h : Text k s) : Text k (g ++ s) := by
  obtain ⟨g', r, h1, h2, rfl, h3⟩ := h
  refine ⟨g ++ g', r, hg.append h1, fun hne => ?_, by simp, h3⟩
  by_cases h : g = []
  · exact h2 (by rintro rfl; exact hne (by simp [h]))
  · exact hk h

/-- Adding a token in front of a text. -/
theorem Text.cons {t : Tok} {k w r} (hw : t.Spell w) (he : t.Ends r) (h : Text k r) : Text (t :: k) (w ++ r) := by
  obtain ⟨g', r, h1, h2, rfl, h3⟩ := h
  exact Text0.text ⟨w, g', r, hw, h1, fun hne => .inr (h2 hne), he, rfl, h3⟩

/-- Adding a token around which gaps are allowed. -/
theorem Text.cons_padded {t : Tok} {k w g g' r} (ht : t.padded = true) (hw : t.Spell w) (hg : Gap g) (hg' : Gap g')
    (he : t.Ends (g' ++ r)) (h : Text k r) : Text (t :: k) (g ++ (w ++ (g' ++ r))) := by
  obtain ⟨g2, r, h1, h2, rfl, h3⟩ := h
  exact ⟨g, _, hg, fun _ => ht, rfl, w, g' ++ g2, r, hw, hg'.append h1, fun _ => .inl ht, by rwa [List.append_assoc],
    by simp, h3⟩

theorem Text.uncons {t : Tok} {k s} (h : Text (t :: k) s) : ∃ g w r, Gap g ∧ (g ≠ [] → t.padded = true) ∧ s = g ++ (w ++ r) ∧
    t.Spell w ∧ t.Ends r ∧ ∃ g' r', Gap g' ∧ r = g' ++ r' ∧ (g' ≠ [] → t.padded = true ∨ startsPadded k = true) ∧ Text0 k r' := by
  obtain ⟨g, s, h1, h2, rfl, w, g', r, h3, h4, h5, h6, rfl, h7⟩ := h
  exact ⟨g, w, _, h1, h2, rfl, h3, h6, g', r, h4, rfl, h5, h7⟩

theorem Text.uncons_plain {t : Tok} {k s} (h : Text (t :: k) s) (ht : t.padded = false) :
    ∃ w r, s = w ++ r ∧ t.Spell w ∧ t.Ends r ∧ Text k r := by
  obtain ⟨g, w, r, h1, h2, rfl, h3, h4, g', r', h5, rfl, h6, h7⟩ := h.uncons
  have hg : g = [] := by
    cases g with
    | nil => rfl
    | cons c g => rw [h2 (by simp)] at ht; cases ht
  subst hg
  refine ⟨w, _, rfl, h3, h4, g', r', h5, fun h => ?_, rfl, h7⟩
  rcases h6 h with h | h
  · rw [h] at ht; cases ht
  · exact h

/-! ## Symbols and keywords -/

theorem spaced_ok {α} {p : Peg α} {s x r} (h : spaced p s = .ok x r) :
    ∃ g r1 r2 g', Gap g ∧ Gap g' ∧ s = g ++ r1 ∧ p r1 = .ok x r2 ∧ r2 = g' ++ r := by
  obtain ⟨_, r1, h1, h⟩ := bind_ok.1 h
  obtain ⟨a, r2, h2, h⟩ := bind_ok.1 h
  obtain ⟨_, r3, h3, h⟩ := bind_ok.1 h
  simp only [Peg.pure, PRes.ok.injEq] at h
  obtain ⟨rfl, rfl⟩ := h
  obtain ⟨g, hg, e⟩ := gap_sound h1
  obtain ⟨g', hg', e'⟩ := gap_sound h3
  exact ⟨g, r1, r2, g', hg, hg', e, h2, e'⟩

theorem spaced_complete {α} {p : Peg α} {x : α} {w g g' r} (hg : Gap g) (hg' : Gap g') (hw : NoGap (w ++ (g' ++ r)))
    (hr : NoGap r) (hp : p (w ++ (g' ++ r)) = .ok x (g' ++ r)) : spaced p (g ++ (w ++ (g' ++ r))) = .ok x r := by
  unfold spaced
  rw [bind_eq (gap_complete hg hw), bind_eq hp, bind_eq (gap_complete hg' hr)]
  rfl

theorem spaced_fail {α} {p : Peg α} {g r} (hg : Gap g) (hr : NoGap r) (hp : p r = .fail) : spaced p (g ++ r) = .fail := by
  unfold spaced
  rw [bind_eq (gap_complete hg hr), bind_fail hp]

theorem noGap_cons {c : Char} {s} (h : isSpace c = false ∧ c ≠ '/') : NoGap (c :: s) := by
  intro d hd
  simp only [List.head?_cons, Option.mem_def, Option.some.injEq] at hd
  subst hd
  exact h

theorem tok_sound {c s r} (hc : c ∈ symbols) (h : tok c s = .ok () r) (k : List Tok) (hk : Text k r) : Text (.sym c :: k) s := by
  obtain ⟨g, r1, r2, g', hg, hg', rfl, h1, rfl⟩ := spaced_ok h
  rw [(str_ok _).1 h1]
  exact .cons_padded rfl ⟨hc, rfl⟩ hg hg' trivial hk

theorem tok_complete {c k s} (h : Text (.sym c :: k) s) (hk : startsText k = false) :
    ∃ r, tok c s = .ok () r ∧ r.length < s.length ∧ Text k r := by
  obtain ⟨g, w, r, h1, _, rfl, ⟨hc, rfl⟩, h4, g', r', h5, rfl, _, h7⟩ := h.uncons
  refine ⟨r', spaced_complete h1 h5 (noGap_cons (Tok.Begin.noGap (t := .sym c) ⟨rfl, hc⟩)) (h7.noGap hk) ((str_ok _).2 rfl), ?_, h7.text⟩
  simp only [List.length_append, List.length_singleton]
  omega

theorem tok_fail {c k s} (hc : c ∈ symbols) (h : Text k s) (hk : startsText k = false) (hne : ∀ k', k ≠ .sym c :: k') :
    tok c s = .fail := by
  obtain ⟨g, r, h1, _, rfl, h3⟩ := h
  refine spaced_fail h1 (h3.noGap hk) (str_fail ?_)
  cases k with
  | nil => rw [show r = [] from h3]; simp
  | cons t k =>
    obtain ⟨w, g', r', h4, _, _, _, rfl, _⟩ := h3
    obtain ⟨d, w', rfl, h5⟩ := h4.begin (startsText_cons hk)
    intro x hx
    simp only [List.cons_append, List.cons.injEq] at hx
    obtain ⟨rfl, _⟩ := hx
    have hs := symbols_ident hc
    cases t with
    | kw k' => rw [kw_ident k' d (List.mem_of_mem_head? h5)] at hs; cases hs.1
    | sym e => exact hne k (by rw [h5.1])
    | id _ => rw [first_other h5] at hs; cases hs.1
    | num _ => rw [digit_other h5] at hs; cases hs.1
    | builtin b _ => rw [builtin_ident b d (List.mem_of_mem_head? h5)] at hs; cases hs.1
    | chr _ => exact hs.2.2.2 h5
    | path _ => rw [first_other h5] at hs; cases hs.1
    | text _ => cases h5

/-- A keyword without its padding. -/
abbrev bareKeyword (k : Kw) : Peg Unit := (Peg.str k.chars).bind fun _ => Peg.notAt (Peg.one identOther)

theorem notAt_one {f : Char → Bool} {s r} : (notAt (one f)) s = .ok () r ↔ r = s ∧ ∀ c ∈ s.head?, f c = false := by
  cases s with
  | nil => simp only [notAt, one, PRes.ok.injEq, true_and, List.head?_nil]; exact ⟨fun h => ⟨h.symm, fun c hc => by cases hc⟩, fun h => h.1.symm⟩
  | cons c s =>
    simp only [notAt, one, List.head?_cons, Option.mem_def, Option.some.injEq, forall_eq']
    by_cases h : f c = true
    · simp [h]
    · simp [h, eq_comm]

theorem bareKeyword_ok {k : Kw} {s r} : bareKeyword k s = .ok () r ↔ s = k.chars ++ r ∧ NoIdent r := by
  constructor
  · intro h
    obtain ⟨_, r1, h1, h2⟩ := bind_ok.1 h
    obtain ⟨rfl, h3⟩ := notAt_one.1 h2
    exact ⟨(str_ok _).1 h1, h3⟩
  · rintro ⟨rfl, h⟩
    exact bind_ok.2 ⟨(), r, (str_ok _).2 rfl, notAt_one.2 ⟨rfl, h⟩⟩

theorem bareKeyword_cases (k : Kw) (s) : bareKeyword k s = .fail ∨ ∃ r, bareKeyword k s = .ok () r := by
  rcases str_cases k.chars s with h | ⟨r, h⟩
  · exact .inl (bind_fail h)
  · show Peg.bind _ _ _ = _ ∨ ∃ r, Peg.bind _ _ _ = _
    rw [bind_eq h]
    cases r with
    | nil => exact .inr ⟨[], rfl⟩
    | cons c r =>
      simp only [notAt, one]
      by_cases h : identOther c = true <;> simp [h]

theorem bareKeyword_fail {k : Kw} {s} (h : ∀ r, s = k.chars ++ r → ¬ NoIdent r) : bareKeyword k s = .fail := by
  rcases bareKeyword_cases k s with h' | ⟨r, h'⟩
  · exact h'
  · obtain ⟨h1, h2⟩ := bareKeyword_ok.1 h'
    exact absurd h2 (h r h1)

theorem keyword_sound {c : Kw} {s r} (h : keyword c s = .ok () r) (k : List Tok) (hk : Text k r) : Text (.kw c :: k) s := by
  obtain ⟨g, r1, r2, g', hg, hg', rfl, h1, rfl⟩ := spaced_ok h
  obtain ⟨rfl, h2⟩ := bareKeyword_ok.1 h1
  exact .cons_padded rfl rfl hg hg' h2 hk

theorem keyword_complete {c : Kw} {k s} (h : Text (.kw c :: k) s) (hk : startsText k = false) :
    ∃ r, keyword c s = .ok () r ∧ r.length < s.length ∧ Text k r := by
  obtain ⟨g, w, r, h1, _, rfl, h3, h4, g', r', h5, rfl, _, h7⟩ := h.uncons
  obtain rfl : w = c.chars := h3
  have hb : ∃ d w', c.chars = d :: w' := by cases c <;> exact ⟨_, _, rfl⟩
  refine ⟨r', spaced_complete h1 h5 ?_ (h7.noGap hk) (bareKeyword_ok.2 ⟨rfl, h4⟩), ?_, h7.text⟩
  · obtain ⟨d, w', e⟩ := hb
    rw [e]
    exact noGap_cons (Tok.Begin.noGap (t := .kw c) (by simp [Tok.Begin, e]))
  · obtain ⟨d, w', e⟩ := hb
    rw [e]
    simp only [List.length_append, List.length_cons]
    omega

/-- Tokens that are not taken for the keyword. -/
def Tok.NotKw (c : Kw) : Tok → Prop
  | .kw k => k ≠ c
  | .id w => w ≠ c.chars
  | .sym _ | .num _ | .chr _ => True
  | _ => False

theorem IsIdent.chars {c} (h : IsIdent c) : ∀ d ∈ c, identOther d = true := by
  cases c with
  | nil => cases h
  | cons d c =>
    intro e he
    rcases List.mem_cons.1 he with rfl | he
    · exact first_other h.1
    · exact h.2 e he

theorem keyword_fail {c : Kw} {t k s} (h : Text (t :: k) s) (ht : t.NotKw c) : keyword c s = .fail := by
  have hst : startsText [t] = false := by cases t <;> first | rfl | cases ht
  obtain ⟨g, w, r, h1, _, rfl, h3, h4, _⟩ := h.uncons
  obtain ⟨d, w', hw, h5⟩ := h3.begin hst
  refine spaced_fail h1 (by rw [hw]; exact noGap_cons h5.noGap) (bareKeyword_fail fun x hx hn => ?_)
  have hd : ∃ d' y, c.chars = d' :: y ∧ identFirst d' = true := by cases c <;> exact ⟨_, _, rfl, by decide⟩
  obtain ⟨d', y, e, hd'⟩ := hd
  have hdd : d = d' := by
    rw [hw, e] at hx
    simp only [List.cons_append, List.cons.injEq] at hx
    exact hx.1
  subst hdd
  cases t with
  | kw k' =>
    obtain rfl : w = k'.chars := h3
    exact ht (kw_inj (munch_unique (kw_ident _) h4 (kw_ident _) hn hx).1)
  | id i =>
    obtain ⟨hi, rfl⟩ := h3
    exact ht (munch_unique hi.chars h4 (kw_ident _) hn hx).1
  | sym e =>
    have := (symbols_ident h5.2).1
    rw [← h5.1, first_other hd'] at this
    cases this
  | num _ =>
    have := first_not_digit hd'
    rw [h5] at this
    cases this
  | chr _ =>
    rw [show d = '\'' from h5] at hd'
    exact absurd hd' (by decide)
  | builtin _ _ => cases ht
  | path _ => cases ht
  | text _ => cases ht

theorem keyword_nil {c : Kw} : keyword c [] = .fail := by cases c <;> rfl

/-! ## Identifiers and numbers -/

theorem ident_sound {s c r} (h : ident s = .ok c r) (k : List Tok) (hk : Text k r) : Text (.id c :: k) s := by
  obtain ⟨h1, rfl, h2⟩ := ident_ok.1 h
  exact .cons ⟨h1, rfl⟩ h2 hk

theorem ident_complete {c k s} (h : Text (.id c :: k) s) :
    ∃ r, ident s = .ok c r ∧ r.length < s.length ∧ Text k r ∧ NoIdent r := by
  obtain ⟨w, r, rfl, ⟨h1, rfl⟩, h2, h3⟩ := h.uncons_plain rfl
  refine ⟨r, ident_ok.2 ⟨h1, rfl, h2⟩, ?_, h3, h2⟩
  cases w with
  | nil => cases h1
  | cons d c => simp only [List.length_append, List.length_cons]; omega

theorem ident_fail_sym {c k s} (h : Text (.sym c :: k) s) : ident s = .fail := by
  obtain ⟨g, w, r, h1, _, rfl, ⟨hc, rfl⟩, _⟩ := h.uncons
  apply ident_fail
  intro d hd
  cases hd' : identFirst d with
  | false => rfl
  | true =>
    exfalso
    cases h1 with
    | nil =>
      simp only [List.nil_append, List.cons_append, List.head?_cons, Option.mem_def, Option.some.injEq] at hd
      subst hd
      have := (symbols_ident hc).1
      rw [first_other hd'] at this
      cases this
    | space hs =>
      simp only [List.cons_append, List.head?_cons, Option.mem_def, Option.some.injEq] at hd
      subst hd
      have := isSpace_ident hs
      rw [first_other hd'] at this
      cases this
    | comment =>
      simp only [List.cons_append, List.head?_cons, Option.mem_def, Option.some.injEq] at hd
      subst hd
      exact absurd hd' (by decide)

theorem num_sound {s n r} (h : num s = .ok n r) (k : List Tok) (hk : Text k r) : Text (.num n :: k) s := by
  obtain ⟨ds, h1, rfl, h2⟩ := num_ok.1 h
  exact .cons h1 h2 hk

theorem num_complete {n k s} (h : Text (.num n :: k) s) : ∃ r, num s = .ok n r ∧ r.length < s.length ∧ Text k r := by
  obtain ⟨w, r, rfl, h1, h2, h3⟩ := h.uncons_plain rfl
  refine ⟨r, num_ok.2 ⟨w, h1, rfl, h2⟩, ?_, h3⟩
  cases w with
  | nil => exact absurd rfl h1.1
  | cons d c => simp only [List.length_append, List.length_cons]; omega

theorem num_fail_sym {c k s} (h : Text (.sym c :: k) s) : num s = .fail := by
  rcases num_cases s with h' | ⟨n, r, h'⟩
  · exact h'
  · exfalso
    obtain ⟨ds, ⟨h1, h2, _⟩, rfl, _⟩ := num_ok.1 h'
    cases ds with
    | nil => exact h1 rfl
    | cons d ds =>
      have hd := digit_other (h2 d (by simp))
      obtain ⟨g, w, r', h3, _, e, ⟨hc, rfl⟩, _⟩ := h.uncons
      cases h3 with
      | nil =>
        simp only [List.nil_append, List.cons_append, List.cons.injEq] at e
        rw [e.1, (symbols_ident hc).1] at hd
        cases hd
      | space hs =>
        simp only [List.cons_append, List.cons.injEq] at e
        rw [e.1, isSpace_ident hs] at hd
        cases hd
      | comment =>
        simp only [List.cons_append, List.cons.injEq] at e
        rw [e.1] at hd
        exact absurd hd (by decide)

theorem builtin_ok {b : Builtin} {s x r} : builtin b s = .ok x r ↔
    ∃ n ds, x = .builtin b n ∧ IsNum ds n ∧ s = b.chars ++ (ds ++ r) ∧ NoDigit r := by
  unfold builtin
  rw [bind_ok]
  constructor
  · rintro ⟨_, r1, h1, h2⟩
    obtain ⟨n, h3, rfl⟩ := map_ok.1 h2
    obtain ⟨ds, h4, rfl, h5⟩ := num_ok.1 h3
    exact ⟨n, ds, rfl, h4, (str_ok _).1 h1, h5⟩
  · rintro ⟨n, ds, rfl, h1, rfl, h2⟩
    exact ⟨(), _, (str_ok _).2 rfl, map_ok.2 ⟨n, num_ok.2 ⟨ds, h1, rfl, h2⟩, rfl⟩⟩

theorem builtin_fail {b : Builtin} {s} (h : ∀ d r, s = b.chars ++ d :: r → d.isDigit = false) : builtin b s = .fail := by
  unfold builtin
  rcases str_cases b.chars s with h1 | ⟨r, h1⟩
  · exact bind_fail h1
  · rw [bind_eq h1]
    apply map_fail
    apply num_fail
    intro d hd
    cases r with
    | nil => cases hd
    | cons e r =>
      simp only [List.head?_cons, Option.mem_def, Option.some.injEq] at hd
      subst hd
      exact h e r ((str_ok _).1 h1)

theorem builtin_sound {b : Builtin} {s x r} (h : builtin b s = .ok x r) :
    ∃ n, x = .builtin b n ∧ ∀ k, Text k r → Text (.builtin b n :: k) s := by
  obtain ⟨n, ds, rfl, h1, rfl, h2⟩ := builtin_ok.1 h
  refine ⟨n, rfl, fun k hk => ?_⟩
  rw [← List.append_assoc]
  exact .cons ⟨ds, h1, rfl⟩ h2 hk

theorem builtin_complete {b : Builtin} {n k s} (h : Text (.builtin b n :: k) s) :
    (∃ r, builtin b s = .ok (.builtin b n) r ∧ r.length < s.length ∧ Text k r) ∧ ∀ b', b' ≠ b → builtin b' s = .fail := by
  obtain ⟨w, r, rfl, ⟨ds, h1, rfl⟩, h2, h3⟩ := h.uncons_plain rfl
  refine ⟨⟨r, builtin_ok.2 ⟨n, ds, rfl, h1, by simp, h2⟩, ?_, h3⟩, fun b' hb => builtin_fail fun d r' e => ?_⟩
  · cases b <;> simp [Builtin.chars] <;> omega
  · exfalso
    cases b <;> cases b' <;> first | exact hb rfl | (simp [Builtin.chars] at e)

/-- Names that are not taken for a builtin type. -/
theorem builtin_ref {b : Builtin} {c k s} (h : Text (.id c :: k) s) (hc : RefName c) : builtin b s = .fail := by
  obtain ⟨w, r, rfl, ⟨h1, rfl⟩, h2, h3⟩ := h.uncons_plain rfl
  refine builtin_fail fun d r' e => ?_
  cases hd : d.isDigit with
  | false => rfl
  | true =>
    have e' : w ++ r = (b.chars ++ [d]) ++ r' := by simp [e]
    obtain ⟨x, hx⟩ := munch_prefix (f := identOther) h2 (fun y hy => by
      rcases List.mem_append.1 hy with hy | hy
      · exact builtin_ident b y hy
      · rw [List.mem_singleton.1 hy]; exact digit_other hd) e'
    have := hc.1 b d x (by simp [hx])
    rw [hd] at this
    cases this

theorem ref_builtin {c r : List Char} (hb : ∀ b, builtin b (c ++ r) = .fail) :
    ∀ (b : Builtin) (d : Char) (x : List Char), c = b.chars ++ d :: x → d.isDigit = false := by
  intro b d x e
  cases hd : d.isDigit with
  | false => rfl
  | true =>
    exfalso
    have := hb b
    rw [e] at this
    unfold builtin at this
    rw [List.append_assoc, bind_eq ((str_ok _).2 rfl)] at this
    simp only [List.cons_append] at this
    unfold num Peg.map at this
    rw [show (∀ (f : Nat → Peg BaseAst), ((one Char.isDigit).bind fun d =>
      (Peg.star (Peg.one Char.isDigit)).bind fun a => Peg.pure (decimal (d :: a))).bind f (d :: (x ++ r)) = _) from
      fun f => bind_eq (p := (one Char.isDigit).bind fun d => (Peg.star (Peg.one Char.isDigit)).bind fun a => Peg.pure (decimal (d :: a)))
        (by rw [bind_eq (one_ok.2 ⟨rfl, hd⟩), bind_eq (star_one _ _)]; rfl)] at this
    cases this

end PJ
