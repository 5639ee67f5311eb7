import Verif.Lemmas.GrammarRules
/-!
# Declarations

The rules for declarations accept exactly the texts of declarations.
-/
namespace PJ

open Peg

/-! ## Fields and terms -/

theorem field_sound : SoundFor fieldDecl (fun f => f.type.OK) FieldAst.toks := by
  intro s x r h
  obtain ⟨n, r1, h1, h⟩ := bind_ok.1 h
  obtain ⟨_, r2, h2, h⟩ := bind_ok.1 (must_ok.1 h)
  obtain ⟨t, r3, h3, h⟩ := bind_ok.1 h
  obtain ⟨_, h4, rfl⟩ := map_ok.1 h
  obtain ⟨h5, h6⟩ := type_sound _ _ _ h3
  refine ⟨h5, fun k hk => ?_⟩
  simp only [FieldAst.toks, List.cons_append, List.append_assoc, List.nil_append]
  exact ident_sound h1 _ (tok_sound (by decide) h2 _ (h6 _ (tok_sound (by decide) h4 _ hk)))

theorem base_noText {x : TypeAst} (hx : x.OK) (k : List Tok) : startsText (x.toks ++ k) = false := by
  rcases x with ⟨b | _ | i, ms⟩
  · rfl
  · rfl
  · cases i with
    | nil => exact absurd rfl hx.1
    | cons c cs => rfl

theorem field_complete : CompleteFor fieldDecl (fun f => f.type.OK) FieldAst.toks (fun k => startsText k = false) := by
  intro x k s hx hk h
  simp only [FieldAst.toks, List.cons_append, List.append_assoc, List.nil_append] at h
  obtain ⟨r1, e1, l1, h1, _⟩ := ident_complete h
  obtain ⟨r2, e2, l2, h2⟩ := tok_complete h1 (base_noText hx _)
  obtain ⟨r3, e3, l3, h3⟩ := type_complete x.type _ r2 hx (by simp [Fol]) h2
  obtain ⟨r4, e4, l4, h4⟩ := tok_complete h3 hk
  refine ⟨r4, ?_, by omega, h4⟩
  unfold fieldDecl
  rw [bind_eq e1]
  apply must_eq
  rw [bind_eq e2, bind_eq e3]
  exact map_eq e4

theorem chr_ok {s x r} : ((Peg.str ['\'']).bind fun _ => (Peg.one fun _ => true).bind fun c =>
    (Peg.str ['\'']).map fun _ => TagAst.chr c) s = .ok x r ↔ ∃ c, x = .chr c ∧ s = '\'' :: c :: '\'' :: r := by
  constructor
  · intro h
    obtain ⟨_, r1, h1, h⟩ := bind_ok.1 h
    obtain ⟨c, r2, h2, h⟩ := bind_ok.1 h
    obtain ⟨_, h3, rfl⟩ := map_ok.1 h
    rw [(str_ok _).1 h1, (one_ok.1 h2).1, (str_ok _).1 h3]
    exact ⟨c, rfl, rfl⟩
  · rintro ⟨c, rfl, rfl⟩
    exact bind_ok.2 ⟨(), _, (str_ok _).2 rfl, bind_ok.2 ⟨c, _, one_ok.2 ⟨rfl, rfl⟩, map_ok.2 ⟨(), (str_ok _).2 rfl, rfl⟩⟩⟩

theorem tagOpt_sound {s x r} (h : tagOpt s = .ok x r) (k : List Tok) (hk : Text k r) : Text (tagToks x ++ k) s := by
  rcases opt_ok.1 h with ⟨n, rfl, h2⟩ | ⟨rfl, _, rfl⟩
  · obtain ⟨_, r1, h3, h4⟩ := bind_ok.1 h2
    rcases or_ok.1 (must_ok.1 h4) with h5 | ⟨_, h5⟩
    · obtain ⟨m, h6, rfl⟩ := map_ok.1 h5
      exact tok_sound (by decide) h3 _ (num_sound h6 _ hk)
    · obtain ⟨c, rfl, rfl⟩ := chr_ok.1 h5
      exact tok_sound (by decide) h3 (.chr c :: k) (Text.cons (w := ['\'', c, '\'']) rfl trivial hk)
  · exact hk

theorem tagOpt_complete {x k s} (hk : Fol ['='] k) (h : Text (tagToks x ++ k) s) :
    ∃ r, tagOpt s = .ok x r ∧ r.length ≤ s.length ∧ Text k r := by
  rcases x with _ | n | c
  · exact ⟨s, opt_none (bind_fail (hk.tok_fail (by decide) (by simp) h)), Nat.le_refl _, h⟩
  · obtain ⟨r1, e1, l1, h1⟩ := tok_complete h rfl
    obtain ⟨r2, e2, l2, h2⟩ := num_complete h1
    exact ⟨r2, opt_eq (by rw [bind_eq e1]; exact must_eq (or_eq (map_eq e2))), by omega, h2⟩
  · obtain ⟨r1, e1, l1, h1⟩ := tok_complete h rfl
    obtain ⟨w, r2, rfl, h2, _, h3⟩ := h1.uncons_plain rfl
    obtain rfl : w = ['\'', c, '\''] := h2
    refine ⟨r2, opt_eq ?_, ?_, h3⟩
    · rw [bind_eq e1]
      apply must_eq
      unfold explicitTagRule
      rw [or_fail (map_fail (num_fail (by simp)))]
      exact chr_ok.2 ⟨c, rfl, rfl⟩
    · simp only [List.length_append] at l1; omega

theorem typeOpt_sound {s x r} (h : (Peg.opt ((tok ':').bind fun _ => typeRule)) s = .ok x r) :
    (∀ y ∈ x, y.OK) ∧ ∀ k, Text k r → Text (typeOptToks x ++ k) s := by
  rcases opt_ok.1 h with ⟨n, rfl, h2⟩ | ⟨rfl, _, rfl⟩
  · obtain ⟨_, r1, h3, h4⟩ := bind_ok.1 h2
    obtain ⟨h5, h6⟩ := type_sound _ _ _ h4
    exact ⟨by simpa using h5, fun k hk => tok_sound (by decide) h3 _ (h6 k hk)⟩
  · exact ⟨by simp, fun k hk => hk⟩

theorem typeOpt_complete {x k s} (hx : ∀ y ∈ x, TypeAst.OK y) (hk : Fol ['.', '[', ':'] k) (h : Text (typeOptToks x ++ k) s) :
    ∃ r, (Peg.opt ((tok ':').bind fun _ => typeRule)) s = .ok x r ∧ r.length ≤ s.length ∧ Text k r := by
  cases x with
  | none => exact ⟨s, opt_none (bind_fail (hk.tok_fail (by decide) (by simp) h)), Nat.le_refl _, h⟩
  | some t =>
    have ht := hx t rfl
    obtain ⟨r1, e1, l1, h1⟩ := tok_complete h (base_noText ht _)
    obtain ⟨r2, e2, l2, h2⟩ := type_complete t _ r1 ht (hk.mono (by simp)) h1
    exact ⟨r2, opt_eq (by rw [bind_eq e1]; exact e2), by omega, h2⟩

theorem variantField_sound : SoundFor variantField (fun t => ∀ y ∈ t.type, y.OK) TermAst.toks := by
  intro s x r h
  obtain ⟨n, r1, h1, h⟩ := bind_ok.1 h
  obtain ⟨t, r2, h2, h⟩ := bind_ok.1 (must_ok.1 h)
  obtain ⟨g, r3, h3, h⟩ := bind_ok.1 h
  obtain ⟨d, r4, h4, h⟩ := bind_ok.1 h
  obtain ⟨_, h5, rfl⟩ := map_ok.1 h
  obtain ⟨h6, h7⟩ := typeOpt_sound h2
  refine ⟨h6, fun k hk => ?_⟩
  simp only [TermAst.toks, List.cons_append, List.append_assoc, List.nil_append]
  exact ident_sound h1 _ (h7 _ (tagOpt_sound h3 _ (optKw_sound h4 _ (tok_sound (by decide) h5 _ hk))))

theorem term_fol {g : Option TagAst} {d : Bool} {k : List Tok} :
    Fol ['.', '[', ':'] (tagToks g ++ (kwOpt .default_ d ++ .sym ';' :: k)) := by
  rcases g with _ | n | c
  · cases d <;> simp [tagToks, kwOpt, Fol]
  · simp [tagToks, Fol]
  · simp [tagToks, Fol]

theorem default_fol {d : Bool} {k : List Tok} : Fol ['='] (kwOpt .default_ d ++ .sym ';' :: k) := by
  cases d <;> simp [kwOpt, Fol]

theorem variantField_complete : CompleteFor variantField (fun t => ∀ y ∈ t.type, y.OK) TermAst.toks
    (fun k => startsText k = false) := by
  intro x k s hx hk h
  simp only [TermAst.toks, List.cons_append, List.append_assoc, List.nil_append] at h
  obtain ⟨r1, e1, l1, h1, _⟩ := ident_complete h
  obtain ⟨r2, e2, l2, h2⟩ := typeOpt_complete hx term_fol h1
  obtain ⟨r3, e3, l3, h3⟩ := tagOpt_complete default_fol h2
  obtain ⟨r4, e4, l4, h4⟩ := optKw_complete h3
  obtain ⟨r5, e5, l5, h5⟩ := tok_complete h4 hk
  refine ⟨r5, ?_, by omega, h5⟩
  unfold variantField
  rw [bind_eq e1]
  apply must_eq
  rw [bind_eq e2, bind_eq e3, bind_eq (show defaultOpt r3 = _ from e4)]
  exact map_eq e5

theorem enumField_sound : SoundFor enumField (fun t => t.type = none) TermAst.toks := by
  intro s x r h
  obtain ⟨n, r1, h1, h⟩ := bind_ok.1 h
  obtain ⟨g, r3, h3, h⟩ := bind_ok.1 (must_ok.1 h)
  obtain ⟨d, r4, h4, h⟩ := bind_ok.1 h
  obtain ⟨_, h5, rfl⟩ := map_ok.1 h
  refine ⟨rfl, fun k hk => ?_⟩
  simp only [TermAst.toks, List.cons_append, List.append_assoc, List.nil_append]
  exact ident_sound h1 _ (tagOpt_sound h3 _ (optKw_sound h4 _ (tok_sound (by decide) h5 _ hk)))

theorem enumField_complete : CompleteFor enumField (fun t => t.type = none) TermAst.toks
    (fun k => startsText k = false) := by
  intro x k s hx hk h
  rcases x with ⟨n, t, g, d⟩
  obtain rfl : t = none := hx
  simp only [TermAst.toks, List.cons_append, List.append_assoc, List.nil_append] at h
  obtain ⟨r1, e1, l1, h1, _⟩ := ident_complete h
  obtain ⟨r3, e3, l3, h3⟩ := tagOpt_complete default_fol h1
  obtain ⟨r4, e4, l4, h4⟩ := optKw_complete h3
  obtain ⟨r5, e5, l5, h5⟩ := tok_complete h4 hk
  refine ⟨r5, ?_, by omega, h5⟩
  unfold enumField
  rw [bind_eq e1]
  apply must_eq
  rw [bind_eq e3, bind_eq (show defaultOpt r3 = _ from e4)]
  exact map_eq e5

/-! ## Paths -/

theorem path_sound {s p r} (h : pathRule s = .ok p r) (k : List Tok) (hk : Text k r) : Text (.path p :: k) s := by
  have key : ∀ n s as r1 c, starN (ident.bind fun _ => tok '.') n s = .ok as r1 → ident r1 = .ok c r →
      ∃ p, PathText p ∧ s = p ++ r ∧ NoIdent r := by
    intro n
    induction n with
    | zero =>
      intro s as r1 c h1 h2
      simp only [starN, PRes.ok.injEq] at h1
      obtain ⟨h3, h4, h5⟩ := ident_ok.1 h2
      exact ⟨c, .one h3, by rw [h1.2, h4], h5⟩
    | succ n ih =>
      intro s as r1 c h1 h2
      rcases starN_ok h1 with ⟨_, rfl, rfl⟩ | ⟨_, r2, bs, h3, h4, rfl⟩
      · obtain ⟨h3, h4, h5⟩ := ident_ok.1 h2
        exact ⟨c, .one h3, h4, h5⟩
      · obtain ⟨p, h5, h6, h7⟩ := ih _ _ _ _ h4 h2
        obtain ⟨d, r3, h8, h9⟩ := bind_ok.1 h3
        obtain ⟨g, r4, r5, g', hg, hg', rfl, h10, h11⟩ := spaced_ok h9
        obtain ⟨h12, h13, _⟩ := ident_ok.1 h8
        rw [(str_ok _).1 h10, h11, h6] at h13
        exact ⟨d ++ g ++ '.' :: g' ++ p, .cons h12 hg hg' h5, by rw [h13]; simp, h7⟩
  unfold pathRule text at h
  cases hp : ((Peg.star (ident.bind fun _ => tok '.')).bind fun _ => ident) s with
  | fail => rw [hp] at h; cases h
  | err => rw [hp] at h; cases h
  | ok c r' =>
    rw [hp] at h
    simp only [PRes.ok.injEq] at h
    obtain ⟨h0, rfl⟩ := h
    obtain ⟨as, r1, h1, h2⟩ := bind_ok.1 hp
    obtain ⟨q, h3, h4, h5⟩ := key _ _ _ _ _ h1 h2
    have : q = p := by
      rw [← h0, h4]
      simp
    subst this
    rw [h4]
    exact .cons ⟨h3, rfl⟩ h5 hk

theorem noIdent_gap {g : List Char} {c r} (hg : Gap g) (hc : identOther c = false) : NoIdent (g ++ c :: r) := by
  intro d hd
  cases hg with
  | nil => simp only [List.nil_append, List.head?_cons, Option.mem_def, Option.some.injEq] at hd; rw [← hd]; exact hc
  | space hs => simp only [List.cons_append, List.head?_cons, Option.mem_def, Option.some.injEq] at hd; rw [← hd]; exact isSpace_ident hs
  | comment => simp only [List.cons_append, List.head?_cons, Option.mem_def, Option.some.injEq] at hd; rw [← hd]; decide

theorem PathText.star {p r} (h : PathText p) (hr : NoIdent r) (hd : tok '.' r = .fail) :
    ∀ n, (p ++ r).length < n → ∃ as r1 c, starN (ident.bind fun _ => tok '.') n (p ++ r) = .ok as r1 ∧ ident r1 = .ok c r := by
  induction h with
  | @one c hc =>
    intro n _
    have hi := ident_ok.2 ⟨hc, rfl, hr⟩
    exact ⟨[], _, c, starN_stop _ (by rw [bind_eq hi]; exact hd), hi⟩
  | @cons c g g' p hc hg hg' hp ih =>
    intro n hn
    obtain ⟨n, rfl⟩ : ∃ m, n = m + 1 := ⟨n - 1, by omega⟩
    simp only [List.append_assoc, List.cons_append, List.length_append, List.length_cons] at hn ⊢
    obtain ⟨as, r1, d, h1, h2⟩ := ih n (by simp only [List.length_append]; omega)
    refine ⟨() :: as, r1, d, starN_cons ?_ h1, h2⟩
    rw [bind_eq (ident_ok.2 ⟨hc, rfl, noIdent_gap hg (by decide)⟩)]
    obtain ⟨e, p', rfl, he⟩ := hp.head
    exact spaced_complete (w := ['.']) hg hg' (noGap_cons (by decide)) (noGap_cons (ident_noGap (first_other he))) ((str_ok _).2 rfl)

theorem path_complete {p k s} (hk : Fol ['.'] k) (h : Text (.path p :: k) s) :
    ∃ r, pathRule s = .ok p r ∧ r.length < s.length ∧ Text k r := by
  obtain ⟨w, r, rfl, ⟨h1, rfl⟩, h2, h3⟩ := h.uncons_plain rfl
  obtain ⟨as, r1, c, h4, h5⟩ := h1.star h2 (hk.tok_fail (by decide) (by simp) h3) _ (Nat.lt_succ_self _)
  refine ⟨r, ?_, ?_, h3⟩
  · unfold pathRule text
    rw [bind_eq (show star _ _ = _ from h4), h5]
    simp
  · obtain ⟨c, p', rfl, _⟩ := h1.head
    simp only [List.length_append, List.length_cons]
    omega

theorem path_fail_sym {c k s} (h : Text (.sym c :: k) s) : pathRule s = .fail := by
  have hi := ident_fail_sym h
  unfold pathRule text
  rw [bind_eq (show star (ident.bind fun _ => tok '.') s = .ok [] s from starN_stop _ (bind_fail hi)), hi]

theorem pathOpt_sound {s x r} (h : pathOpt s = .ok x r) (k : List Tok) (hk : Text k r) : Text (pathToks x ++ k) s := by
  rcases opt_ok.1 h with ⟨n, rfl, h2⟩ | ⟨rfl, _, rfl⟩
  · obtain ⟨_, r1, h3, h4⟩ := bind_ok.1 h2
    exact tok_sound (by decide) h3 _ (path_sound (must_ok.1 h4) _ hk)
  · exact hk

theorem pathOpt_complete {x k s} (hk : Fol ['.', '@'] k) (h : Text (pathToks x ++ k) s) :
    ∃ r, pathOpt s = .ok x r ∧ r.length ≤ s.length ∧ Text k r := by
  cases x with
  | none => exact ⟨s, opt_none (bind_fail (hk.tok_fail (by decide) (by simp) h)), Nat.le_refl _, h⟩
  | some p =>
    obtain ⟨r1, e1, l1, h1⟩ := tok_complete h rfl
    obtain ⟨r2, e2, l2, h2⟩ := path_complete (hk.mono (by simp)) h1
    exact ⟨r2, opt_eq (by rw [bind_eq e1]; exact must_eq e2), by omega, h2⟩

/-! ## Portals -/

theorem sizer_sound : SoundFor sizerDecl PortalItem.OK PortalItem.toks := by
  intro s x r h
  obtain ⟨_, r1, h1, h⟩ := bind_ok.1 h
  obtain ⟨n, r2, h2, h⟩ := bind_ok.1 (must_ok.1 h)
  obtain ⟨u, r3, h3, h⟩ := bind_ok.1 h
  obtain ⟨_, r4, h4, h⟩ := bind_ok.1 h
  obtain ⟨i, r5, h5, h⟩ := bind_ok.1 h
  obtain ⟨p, r6, h6, h⟩ := bind_ok.1 h
  obtain ⟨_, h7, rfl⟩ := map_ok.1 h
  obtain ⟨h8, h9⟩ := scopedId_sound _ _ _ h5
  refine ⟨h8, fun k hk => ?_⟩
  simp only [PortalItem.toks, List.cons_append, List.append_assoc, List.nil_append]
  exact keyword_sound h1 _ (ident_sound h2 _ (optKw_sound h3 _ (tok_sound (by decide) h4 _ (h9 _ (pathOpt_sound h6 _
    (tok_sound (by decide) h7 _ hk))))))

theorem scoped_noText {i : List Comp} (hi : i ≠ []) (k : List Tok) : startsText (scopedToks i ++ k) = false := by
  cases i with
  | nil => exact absurd rfl hi
  | cons c cs => rfl

theorem path_fol {p : Option RawPath} {k : List Tok} : Fol ['.'] (pathToks p ++ .sym ';' :: k) := by
  cases p <;> simp [pathToks, Fol]

theorem kwOpt_noText {c : Kw} {e : Bool} {d : Char} {k : List Tok} : startsText (kwOpt c e ++ .sym d :: k) = false := by
  cases e <;> rfl

theorem sizer_complete {n u i p k s} (hi : i ≠ []) (hk : startsText k = false)
    (h : Text ((PortalItem.sizer n u i p).toks ++ k) s) : ∃ r, sizerDecl s = .ok (.sizer n u i p) r ∧ r.length < s.length ∧ Text k r := by
  simp only [PortalItem.toks, List.cons_append, List.append_assoc, List.nil_append] at h
  obtain ⟨r1, e1, l1, h1⟩ := keyword_complete h rfl
  obtain ⟨r2, e2, l2, h2, _⟩ := ident_complete h1
  obtain ⟨r3, e3, l3, h3⟩ := optKw_complete h2
  obtain ⟨r4, e4, l4, h4⟩ := tok_complete h3 (scoped_noText hi _)
  obtain ⟨r5, e5, l5, h5⟩ := scopedId_complete i _ r4 hi path_fol h4
  obtain ⟨r6, e6, l6, h6⟩ := pathOpt_complete (by simp [Fol]) h5
  obtain ⟨r7, e7, l7, h7⟩ := tok_complete h6 hk
  refine ⟨r7, ?_, by omega, h7⟩
  unfold sizerDecl
  rw [bind_eq e1]
  apply must_eq
  rw [bind_eq e2, bind_eq e3, bind_eq e4, bind_eq e5, bind_eq e6]
  exact map_eq e7

theorem encoder_sound : SoundFor encoderDecl PortalItem.OK PortalItem.toks := by
  intro s x r h
  obtain ⟨_, r1, h1, h⟩ := bind_ok.1 h
  obtain ⟨n, r2, h2, h⟩ := bind_ok.1 (must_ok.1 h)
  obtain ⟨_, r4, h4, h⟩ := bind_ok.1 h
  obtain ⟨i, r5, h5, h⟩ := bind_ok.1 h
  obtain ⟨p, r6, h6, h⟩ := bind_ok.1 h
  obtain ⟨_, h7, rfl⟩ := map_ok.1 h
  obtain ⟨h8, h9⟩ := scopedId_sound _ _ _ h5
  refine ⟨h8, fun k hk => ?_⟩
  simp only [PortalItem.toks, List.cons_append, List.append_assoc, List.nil_append]
  exact keyword_sound h1 _ (ident_sound h2 _ (tok_sound (by decide) h4 _ (h9 _ (pathOpt_sound h6 _
    (tok_sound (by decide) h7 _ hk)))))

theorem encoder_complete {n i p k s} (hi : i ≠ []) (hk : startsText k = false)
    (h : Text ((PortalItem.encoder n i p).toks ++ k) s) : ∃ r, encoderDecl s = .ok (.encoder n i p) r ∧ r.length < s.length ∧ Text k r := by
  simp only [PortalItem.toks, List.cons_append, List.append_assoc, List.nil_append] at h
  obtain ⟨r1, e1, l1, h1⟩ := keyword_complete h rfl
  obtain ⟨r2, e2, l2, h2, _⟩ := ident_complete h1
  obtain ⟨r4, e4, l4, h4⟩ := tok_complete h2 (scoped_noText hi _)
  obtain ⟨r5, e5, l5, h5⟩ := scopedId_complete i _ r4 hi path_fol h4
  obtain ⟨r6, e6, l6, h6⟩ := pathOpt_complete (by simp [Fol]) h5
  obtain ⟨r7, e7, l7, h7⟩ := tok_complete h6 hk
  refine ⟨r7, ?_, by omega, h7⟩
  unfold encoderDecl
  rw [bind_eq e1]
  apply must_eq
  rw [bind_eq e2, bind_eq e4, bind_eq e5, bind_eq e6]
  exact map_eq e7

theorem nextPath_sound : SoundFor ((tok ',').bind fun _ => pathRule) (fun _ => True) (fun q => [.sym ',', .path q]) := by
  intro s x r h
  obtain ⟨_, r1, h1, h⟩ := bind_ok.1 h
  exact ⟨trivial, fun k hk => tok_sound (by decide) h1 _ (path_sound h _ hk)⟩

theorem nextPath_complete : CompleteFor ((tok ',').bind fun _ => pathRule) (fun _ => True) (fun q => [.sym ',', .path q]) (Fol ['.']) := by
  intro x k s _ hk h
  obtain ⟨r1, e1, l1, h1⟩ := tok_complete h rfl
  obtain ⟨r2, e2, l2, h2⟩ := path_complete hk h1
  exact ⟨r2, by rw [bind_eq e1]; exact e2, by omega, h2⟩

def commaToks (c : Bool) : List Tok := if c then [.sym ','] else []

theorem comma_sound {s c r} (h : ((Peg.opt (tok ',')).map Option.isSome) s = .ok c r) (k : List Tok) (hk : Text k r) :
    Text (commaToks c ++ k) s := by
  obtain ⟨x, h1, rfl⟩ := map_ok.1 h
  rcases opt_ok.1 h1 with ⟨_, rfl, h2⟩ | ⟨rfl, _, rfl⟩
  · exact tok_sound (by decide) h2 k hk
  · exact hk

theorem comma_complete {c k s} (h : Text (commaToks c ++ .sym ']' :: k) s) :
    ∃ r, ((Peg.opt (tok ',')).map Option.isSome) s = .ok c r ∧ r.length ≤ s.length ∧ Text (.sym ']' :: k) r := by
  cases c with
  | false => exact ⟨s, map_eq (opt_none (tok_fail (by decide) h rfl (by simp [commaToks]))), Nat.le_refl _, h⟩
  | true =>
    obtain ⟨r, h1, h2, h3⟩ := tok_complete h rfl
    exact ⟨r, map_eq (opt_eq h1), by omega, h3⟩

theorem handlers_sound {s x r} (h : handlersDecl s = .ok x r) (k : List Tok) (hk : Text k r) : Text (handlerToks (some x) ++ k) s := by
  obtain ⟨_, r1, h1, h⟩ := bind_ok.1 h
  obtain ⟨_, r2, h2, h⟩ := bind_ok.1 (must_ok.1 h)
  obtain ⟨_, r3, h3, h⟩ := bind_ok.1 h
  obtain ⟨p, r4, h4, h⟩ := bind_ok.1 h
  obtain ⟨ps, r5, h5, h⟩ := bind_ok.1 h
  obtain ⟨c, r6, h6, h⟩ := bind_ok.1 h
  obtain ⟨_, r7, h7, h⟩ := bind_ok.1 h
  obtain ⟨_, r8, h8, h⟩ := bind_ok.1 h
  obtain ⟨_, h9, rfl⟩ := map_ok.1 h
  obtain ⟨_, h10⟩ := star_sound nextPath_sound _ _ _ h5
  simp only [handlerToks, List.cons_append, List.append_assoc, List.nil_append]
  exact tok_sound (by decide) h1 _ (keyword_sound h2 _ (tok_sound (by decide) h3 _ (path_sound h4 _ (h10 _
    (comma_sound h6 _ (tok_sound (by decide) h7 _ (tok_sound (by decide) h8 _ (tok_sound (by decide) h9 _ hk))))))))

theorem comma_fol {ps : List RawPath} {c : Bool} {k : List Tok} :
    Fol ['.'] (ps.flatMap (fun q => [Tok.sym ',', Tok.path q]) ++ (commaToks c ++ .sym ']' :: k)) := by
  cases ps with
  | nil => cases c <;> simp [commaToks, Fol]
  | cons p ps => simp [Fol]

theorem handlers_complete {x k s} (hk : startsText k = false) (h : Text (handlerToks (some x) ++ k) s) :
    ∃ r, handlersDecl s = .ok x r ∧ r.length ≤ s.length ∧ Text k r := by
  rcases x with ⟨p, ps, c⟩
  simp only [handlerToks, List.cons_append, List.append_assoc, List.nil_append] at h
  obtain ⟨r1, e1, l1, h1⟩ := tok_complete h rfl
  obtain ⟨r2, e2, l2, h2⟩ := keyword_complete h1 rfl
  obtain ⟨r3, e3, l3, h3⟩ := tok_complete h2 rfl
  obtain ⟨r4, e4, l4, h4⟩ := path_complete comma_fol h3
  obtain ⟨r5, e5, l5, h5⟩ := star_complete nextPath_complete (xs := ps) (k := commaToks c ++ .sym ']' :: .sym ';' :: .sym '}' :: k)
    (by simp) (fun q _ k' => by simp [Fol]) (comma_fol (ps := [])) (fun s hs => by
      cases c with
      | false => exact bind_fail (tok_fail (by decide) hs rfl (by simp [commaToks]))
      | true =>
        obtain ⟨r6, e6, _, h6⟩ := tok_complete (c := ',') hs rfl
        rw [bind_eq e6]
        exact path_fail_sym h6) h4
  obtain ⟨r6, e6, l6, h6⟩ := comma_complete h5
  obtain ⟨r7, e7, l7, h7⟩ := tok_complete h6 rfl
  obtain ⟨r8, e8, l8, h8⟩ := tok_complete h7 rfl
  obtain ⟨r9, e9, l9, h9⟩ := tok_complete h8 hk
  refine ⟨r9, ?_, by omega, h9⟩
  unfold handlersDecl
  rw [bind_eq e1]
  apply must_eq
  rw [bind_eq e2, bind_eq e3, bind_eq e4, bind_eq e5, bind_eq e6, bind_eq e7, bind_eq e8]
  exact map_eq e9

theorem decoder_sound : SoundFor decoderDecl PortalItem.OK PortalItem.toks := by
  intro s x r h
  obtain ⟨_, r1, h1, h⟩ := bind_ok.1 h
  obtain ⟨n, r2, h2, h⟩ := bind_ok.1 (must_ok.1 h)
  obtain ⟨_, r4, h4, h⟩ := bind_ok.1 h
  obtain ⟨i, r5, h5, h⟩ := bind_ok.1 h
  obtain ⟨p, r6, h6, h⟩ := bind_ok.1 h
  obtain ⟨_, h7, rfl⟩ := map_ok.1 h
  obtain ⟨h8, h9⟩ := scopedId_sound _ _ _ h5
  refine ⟨h8, fun k hk => ?_⟩
  simp only [PortalItem.toks, List.cons_append, List.append_assoc, List.nil_append]
  refine keyword_sound h1 _ (ident_sound h2 _ (tok_sound (by decide) h4 _ (h9 _ ?_)))
  have h10 := tok_sound (by decide) h7 _ hk
  rcases opt_ok.1 h6 with ⟨x, rfl, h11⟩ | ⟨rfl, _, rfl⟩
  · exact handlers_sound h11 _ h10
  · exact h10

theorem decoder_complete {n i x k s} (hi : i ≠ []) (hk : startsText k = false)
    (h : Text ((PortalItem.decoder n i x).toks ++ k) s) : ∃ r, decoderDecl s = .ok (.decoder n i x) r ∧ r.length < s.length ∧ Text k r := by
  simp only [PortalItem.toks, List.cons_append, List.append_assoc, List.nil_append] at h
  obtain ⟨r1, e1, l1, h1⟩ := keyword_complete h rfl
  obtain ⟨r2, e2, l2, h2, _⟩ := ident_complete h1
  obtain ⟨r4, e4, l4, h4⟩ := tok_complete h2 (scoped_noText hi _)
  obtain ⟨r5, e5, l5, h5⟩ := scopedId_complete i _ r4 hi (by rcases x with _ | ⟨p, ps, c⟩ <;> simp [handlerToks, Fol]) h4
  have h6 : ∃ r6, (Peg.opt handlersDecl) r5 = .ok x r6 ∧ r6.length ≤ r5.length ∧ Text (.sym ';' :: k) r6 := by
    cases x with
    | none => exact ⟨r5, opt_none (bind_fail (tok_fail (by decide) h5 rfl (by simp [handlerToks]))), Nat.le_refl _, h5⟩
    | some x =>
      obtain ⟨r6, e6, l6, h6⟩ := handlers_complete rfl h5
      exact ⟨r6, opt_eq e6, l6, h6⟩
  obtain ⟨r6, e6, l6, h6⟩ := h6
  obtain ⟨r7, e7, l7, h7⟩ := tok_complete h6 hk
  refine ⟨r7, ?_, by omega, h7⟩
  unfold decoderDecl
  rw [bind_eq e1]
  apply must_eq
  rw [bind_eq e2, bind_eq e4, bind_eq e5, bind_eq e6]
  exact map_eq e7

abbrev itemRule : Peg PortalItem := sizerDecl.or (encoderDecl.or decoderDecl)

theorem item_sound : SoundFor itemRule PortalItem.OK PortalItem.toks := by
  intro s x r h
  rcases or_ok.1 h with h | ⟨_, h⟩
  · exact sizer_sound _ _ _ h
  rcases or_ok.1 h with h | ⟨_, h⟩
  · exact encoder_sound _ _ _ h
  · exact decoder_sound _ _ _ h

theorem item_complete : CompleteFor itemRule PortalItem.OK PortalItem.toks (fun k => startsText k = false) := by
  intro x k s hx hk h
  cases x with
  | sizer n u i p =>
    obtain ⟨r, h1, h2, h3⟩ := sizer_complete hx hk h
    exact ⟨r, or_eq h1, h2, h3⟩
  | encoder n i p =>
    obtain ⟨r, h1, h2, h3⟩ := encoder_complete hx hk h
    refine ⟨r, ?_, h2, h3⟩
    show (sizerDecl.or _) s = _
    rw [or_fail (show sizerDecl s = .fail from bind_fail (keyword_fail (t := .kw .encoder) h (by simp [Tok.NotKw])))]
    exact or_eq h1
  | decoder n i x =>
    obtain ⟨r, h1, h2, h3⟩ := decoder_complete hx hk h
    refine ⟨r, ?_, h2, h3⟩
    show (sizerDecl.or _) s = _
    rw [or_fail (show sizerDecl s = .fail from bind_fail (keyword_fail (t := .kw .decoder) h (by simp [Tok.NotKw]))),
      or_fail (show encoderDecl s = .fail from bind_fail (keyword_fail (t := .kw .decoder) h (by simp [Tok.NotKw])))]
    exact h1

theorem item_fail {c k s} (h : Text (.sym c :: k) s) : itemRule s = .fail := by
  show (sizerDecl.or _) s = _
  rw [or_fail (show sizerDecl s = .fail from bind_fail (keyword_fail h trivial)),
    or_fail (show encoderDecl s = .fail from bind_fail (keyword_fail h trivial))]
  exact bind_fail (keyword_fail h trivial)

end PJ
