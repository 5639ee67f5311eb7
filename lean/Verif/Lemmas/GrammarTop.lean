import Verif.Lemmas.GrammarDecls
/-!
# Files

The rules for declarations and files accept exactly the texts of declarations and files.
-/
namespace PJ

open Peg

/-! ## Texts of other languages -/

theorem quotes_ok {s r} : quotes s = .ok () r ↔ s = '"' :: '"' :: '"' :: r := str_ok _

abbrev textChar : Peg Char := (Peg.notAt quotes).bind fun _ => Peg.one fun _ => true

theorem textChar_ok {s c r} : textChar s = .ok c r ↔ s = c :: r ∧ ∀ x, s ≠ '"' :: '"' :: '"' :: x := by
  constructor
  · intro h
    obtain ⟨_, r1, h1, h2⟩ := bind_ok.1 h
    obtain ⟨h3, rfl⟩ := notAt_eq h1
    refine ⟨(one_ok.1 h2).1, fun x hx => ?_⟩
    rw [quotes_ok.2 hx] at h3
    cases h3
  · rintro ⟨rfl, h⟩
    exact bind_ok.2 ⟨(), _, notAt_of_fail (str_fail h), one_ok.2 ⟨rfl, rfl⟩⟩

theorem until_sound : ∀ n s t r, starN textChar n s = .ok t ('"' :: '"' :: '"' :: r) →
    s = t ++ '"' :: '"' :: '"' :: r ∧ ∀ a b, t ++ ['"', '"'] ≠ a ++ '"' :: '"' :: '"' :: b
  | 0, s, t, r, h => by
    simp only [starN, PRes.ok.injEq] at h
    obtain ⟨rfl, rfl⟩ := h
    refine ⟨rfl, fun a b e => ?_⟩
    have := congrArg List.length e
    simp at this
    omega
  | n + 1, s, t, r, h => by
    rcases starN_ok h with ⟨_, rfl, rfl⟩ | ⟨c, r1, t, h1, h2, rfl⟩
    · refine ⟨rfl, fun a b e => ?_⟩
      have := congrArg List.length e
      simp at this
      omega
    · obtain ⟨h3, h4⟩ := until_sound n _ _ _ h2
      obtain ⟨h5, h6⟩ := textChar_ok.1 h1
      refine ⟨by rw [h5, h3]; rfl, fun a b e => ?_⟩
      cases a with
      | nil =>
        refine h6 (b ++ '"' :: r) ?_
        rw [h5, h3]
        have e : c :: (t ++ ['"', '"']) = '"' :: '"' :: '"' :: b := e
        have := congrArg (· ++ '"' :: r) e
        simpa using this
      | cons d a =>
        simp only [List.cons_append, List.cons.injEq] at e
        exact h4 a b e.2

theorem until_complete : ∀ n t r, (∀ a b, t ++ ['"', '"'] ≠ a ++ '"' :: '"' :: '"' :: b) → (t ++ '"' :: '"' :: '"' :: r).length < n →
    starN textChar n (t ++ '"' :: '"' :: '"' :: r) = .ok t ('"' :: '"' :: '"' :: r)
  | 0, _, _, _, h => by omega
  | n + 1, [], r, _, _ => starN_stop _ (bind_fail (notAt_fail (quotes_ok.2 rfl)))
  | n + 1, c :: t, r, h, hl => by
    simp only [List.cons_append, List.length_cons] at hl ⊢
    refine starN_cons (textChar_ok.2 ⟨rfl, fun x hx => ?_⟩) (until_complete n t r (fun a b e => h (c :: a) b (by simp [e])) (by omega))
    rcases t with _ | ⟨d, _ | ⟨e, t⟩⟩
    · simp only [List.nil_append, List.cons.injEq] at hx
      exact h [] [] (by simp [hx.1])
    · simp only [List.nil_append, List.cons_append, List.cons.injEq] at hx
      exact h [] ['"'] (by simp [hx.1, hx.2.1])
    · simp only [List.cons_append, List.cons.injEq] at hx
      exact h [] (t ++ ['"', '"']) (by simp [hx.1, hx.2.1, hx.2.2.1])

/-! ## Declarations -/

theorem import_sound : SoundFor importDecl Decl.OK Decl.toks := by
  intro s x r h
  obtain ⟨_, r1, h1, h⟩ := bind_ok.1 h
  obtain ⟨i, r2, h2, h⟩ := bind_ok.1 (must_ok.1 h)
  obtain ⟨_, h3, rfl⟩ := map_ok.1 h
  obtain ⟨h4, h5⟩ := scopedId_sound _ _ _ h2
  refine ⟨h4, fun k hk => ?_⟩
  simp only [Decl.toks, List.cons_append, List.append_assoc, List.nil_append]
  exact keyword_sound h1 _ (h5 _ (tok_sound (by decide) h3 _ hk))

theorem struct_sound : SoundFor structDecl Decl.OK Decl.toks := by
  intro s x r h
  obtain ⟨_, r1, h1, h⟩ := bind_ok.1 h
  obtain ⟨n, r2, h2, h⟩ := bind_ok.1 (must_ok.1 h)
  obtain ⟨e, r3, h3, h⟩ := bind_ok.1 h
  obtain ⟨_, r4, h4, h⟩ := bind_ok.1 h
  obtain ⟨fs, r5, h5, h⟩ := bind_ok.1 h
  obtain ⟨_, h6, rfl⟩ := map_ok.1 h
  obtain ⟨h7, h8⟩ := star_sound field_sound _ _ _ h5
  refine ⟨h7, fun k hk => ?_⟩
  simp only [Decl.toks, List.cons_append, List.append_assoc, List.nil_append]
  exact keyword_sound h1 _ (ident_sound h2 _ (optKw_sound h3 _ (tok_sound (by decide) h4 _ (h8 _ (tok_sound (by decide) h6 _ hk)))))

theorem variant_sound : SoundFor variantDecl Decl.OK Decl.toks := by
  intro s x r h
  obtain ⟨_, r1, h1, h⟩ := bind_ok.1 h
  obtain ⟨n, r2, h2, h⟩ := bind_ok.1 (must_ok.1 h)
  obtain ⟨e, r3, h3, h⟩ := bind_ok.1 h
  obtain ⟨_, r4, h4, h⟩ := bind_ok.1 h
  obtain ⟨fs, r5, h5, h⟩ := bind_ok.1 h
  obtain ⟨_, h6, rfl⟩ := map_ok.1 h
  obtain ⟨h7, h8⟩ := star_sound variantField_sound _ _ _ h5
  refine ⟨h7, fun k hk => ?_⟩
  simp only [Decl.toks, List.cons_append, List.append_assoc, List.nil_append]
  exact keyword_sound h1 _ (ident_sound h2 _ (optKw_sound h3 _ (tok_sound (by decide) h4 _ (h8 _ (tok_sound (by decide) h6 _ hk)))))

theorem enum_sound : SoundFor enumDecl Decl.OK Decl.toks := by
  intro s x r h
  obtain ⟨_, r1, h1, h⟩ := bind_ok.1 h
  obtain ⟨n, r2, h2, h⟩ := bind_ok.1 (must_ok.1 h)
  obtain ⟨e, r3, h3, h⟩ := bind_ok.1 h
  obtain ⟨_, r4, h4, h⟩ := bind_ok.1 h
  obtain ⟨fs, r5, h5, h⟩ := bind_ok.1 h
  obtain ⟨_, h6, rfl⟩ := map_ok.1 h
  obtain ⟨h7, h8⟩ := star_sound enumField_sound _ _ _ h5
  refine ⟨h7, fun k hk => ?_⟩
  simp only [Decl.toks, List.cons_append, List.append_assoc, List.nil_append]
  exact keyword_sound h1 _ (ident_sound h2 _ (optKw_sound h3 _ (tok_sound (by decide) h4 _ (h8 _ (tok_sound (by decide) h6 _ hk)))))

theorem spec_sound : SoundFor specDecl Decl.OK Decl.toks := by
  intro s x r h
  obtain ⟨_, r1, h1, h⟩ := bind_ok.1 h
  obtain ⟨n, r2, h2, h⟩ := bind_ok.1 (must_ok.1 h)
  obtain ⟨_, r3, h3, h⟩ := bind_ok.1 h
  obtain ⟨i, r4, h4, h⟩ := bind_ok.1 h
  obtain ⟨p, r5, h5, h⟩ := bind_ok.1 h
  obtain ⟨_, h6, rfl⟩ := map_ok.1 h
  obtain ⟨h7, h8⟩ := scopedId_sound _ _ _ h4
  refine ⟨h7, fun k hk => ?_⟩
  simp only [Decl.toks, List.cons_append, List.append_assoc, List.nil_append]
  exact keyword_sound h1 _ (ident_sound h2 _ (tok_sound (by decide) h3 _ (h8 _ (pathOpt_sound h5 _ (tok_sound (by decide) h6 _ hk)))))

theorem typeDecl_sound : SoundFor typeDecl Decl.OK Decl.toks := by
  intro s x r h
  obtain ⟨_, r1, h1, h⟩ := bind_ok.1 h
  obtain ⟨n, r2, h2, h⟩ := bind_ok.1 (must_ok.1 h)
  obtain ⟨e, r3, h3, h⟩ := bind_ok.1 h
  obtain ⟨_, r4, h4, h⟩ := bind_ok.1 h
  obtain ⟨t, r5, h5, h⟩ := bind_ok.1 h
  obtain ⟨_, h6, rfl⟩ := map_ok.1 h
  obtain ⟨h7, h8⟩ := type_sound _ _ _ h5
  refine ⟨h7, fun k hk => ?_⟩
  simp only [Decl.toks, List.cons_append, List.append_assoc, List.nil_append]
  exact keyword_sound h1 _ (ident_sound h2 _ (optKw_sound h3 _ (tok_sound (by decide) h4 _ (h8 _ (tok_sound (by decide) h6 _ hk)))))

theorem flat_declToks : ∀ ds : List Decl, declToks ds = ds.flatMap Decl.toks
  | [] => rfl
  | d :: ds => by rw [List.flatMap_cons, ← flat_declToks ds]; rfl

theorem declsOK : ∀ {ds : List Decl}, DeclsOK ds ↔ ∀ d ∈ ds, d.OK
  | [] => by simp [DeclsOK]
  | d :: ds => by
    show d.OK ∧ DeclsOK ds ↔ _
    rw [declsOK]
    simp

theorem space_sound {top : Peg Decl} (ht : SoundFor top Decl.OK Decl.toks) : SoundFor (spaceDecl top) Decl.OK Decl.toks := by
  intro s x r h
  obtain ⟨_, r1, h1, h⟩ := bind_ok.1 h
  obtain ⟨n, r2, h2, h⟩ := bind_ok.1 (must_ok.1 h)
  obtain ⟨_, r4, h4, h⟩ := bind_ok.1 h
  obtain ⟨ds, r5, h5, h⟩ := bind_ok.1 h
  obtain ⟨_, h6, rfl⟩ := map_ok.1 h
  obtain ⟨h7, h8⟩ := star_sound ht _ _ _ h5
  refine ⟨declsOK.2 h7, fun k hk => ?_⟩
  simp only [Decl.toks, List.cons_append, List.append_assoc, List.nil_append, flat_declToks]
  exact keyword_sound h1 _ (ident_sound h2 _ (tok_sound (by decide) h4 _ (h8 _ (tok_sound (by decide) h6 _ hk))))

theorem language_sound : SoundFor languageDecl Decl.OK Decl.toks := by
  intro s x r h
  obtain ⟨_, r1, h1, h⟩ := bind_ok.1 h
  obtain ⟨n, r2, h2, h⟩ := bind_ok.1 (must_ok.1 h)
  obtain ⟨_, r3, h3, h⟩ := bind_ok.1 h
  obtain ⟨_, r4, h4, h⟩ := bind_ok.1 h
  obtain ⟨t, r5, h5, h⟩ := bind_ok.1 h
  obtain ⟨_, h6, rfl⟩ := map_ok.1 h
  refine ⟨trivial, fun k hk => keyword_sound h1 _ (ident_sound h2 _ ?_)⟩
  obtain ⟨u, hu, rfl⟩ := spaceOrComment_ok.1 h3
  rw [quotes_ok.1 h6] at h5
  obtain ⟨h7, h8⟩ := until_sound _ _ _ _ h5
  rw [quotes_ok.1 h4, h7]
  have : u ++ '"' :: '"' :: '"' :: (t ++ '"' :: '"' :: '"' :: r) = (u ++ '"' :: '"' :: '"' :: t ++ ['"', '"', '"']) ++ r := by simp
  rw [this]
  exact .cons (t := .text t) ⟨u, hu, rfl, h8⟩ trivial hk

theorem portal_sound : SoundFor portalDecl Decl.OK Decl.toks := by
  intro s x r h
  obtain ⟨_, r1, h1, h⟩ := bind_ok.1 h
  obtain ⟨n, r2, h2, h⟩ := bind_ok.1 (must_ok.1 h)
  obtain ⟨_, r3, h3, h⟩ := bind_ok.1 h
  obtain ⟨i, r4, h4, h⟩ := bind_ok.1 h
  obtain ⟨_, r5, h5, h⟩ := bind_ok.1 h
  obtain ⟨is, r6, h6, h⟩ := bind_ok.1 h
  obtain ⟨_, h7, rfl⟩ := map_ok.1 h
  obtain ⟨h8, h9⟩ := scopedId_sound _ _ _ h4
  obtain ⟨h10, h11⟩ := star_sound item_sound _ _ _ h6
  refine ⟨⟨h8, h10⟩, fun k hk => ?_⟩
  simp only [Decl.toks, List.cons_append, List.append_assoc, List.nil_append]
  exact keyword_sound h1 _ (ident_sound h2 _ (tok_sound (by decide) h3 _ (h9 _ (tok_sound (by decide) h5 _ (h11 _
    (tok_sound (by decide) h7 _ hk))))))

theorem precomp_sound : SoundFor precompDecl Decl.OK Decl.toks := by
  intro s x r h
  obtain ⟨_, r1, h1, h⟩ := bind_ok.1 h
  obtain ⟨n, r2, h2, h⟩ := bind_ok.1 (must_ok.1 h)
  obtain ⟨_, r3, h3, h⟩ := bind_ok.1 h
  obtain ⟨i, r4, h4, h⟩ := bind_ok.1 h
  obtain ⟨_, r5, h5, h⟩ := bind_ok.1 h
  obtain ⟨q, r6, h6, h⟩ := bind_ok.1 h
  obtain ⟨_, r7, h7, h⟩ := bind_ok.1 h
  obtain ⟨_, h8, rfl⟩ := map_ok.1 h
  obtain ⟨h9, h10⟩ := scopedId_sound _ _ _ h4
  obtain ⟨h11, h12⟩ := scopedId_sound _ _ _ h6
  refine ⟨⟨h9, h11⟩, fun k hk => ?_⟩
  simp only [Decl.toks, List.cons_append, List.append_assoc, List.nil_append]
  exact keyword_sound h1 _ (ident_sound h2 _ (tok_sound (by decide) h3 _ (h10 _ (tok_sound (by decide) h5 _ (h12 _
    (tok_sound (by decide) h7 _ (tok_sound (by decide) h8 _ hk)))))))

theorem top_sound : ∀ n, SoundFor (topDecl n) Decl.OK Decl.toks
  | 0 => by intro s x r h; cases h
  | n + 1 => by
    intro s x r h
    unfold topDecl at h
    rcases or_ok.1 h with h | ⟨_, h⟩
    · exact import_sound _ _ _ h
    rcases or_ok.1 h with h | ⟨_, h⟩
    · exact struct_sound _ _ _ h
    rcases or_ok.1 h with h | ⟨_, h⟩
    · exact variant_sound _ _ _ h
    rcases or_ok.1 h with h | ⟨_, h⟩
    · exact enum_sound _ _ _ h
    rcases or_ok.1 h with h | ⟨_, h⟩
    · exact spec_sound _ _ _ h
    rcases or_ok.1 h with h | ⟨_, h⟩
    · exact typeDecl_sound _ _ _ h
    rcases or_ok.1 h with h | ⟨_, h⟩
    · exact space_sound (top_sound n) _ _ _ h
    rcases or_ok.1 h with h | ⟨_, h⟩
    · exact language_sound _ _ _ h
    rcases or_ok.1 h with h | ⟨_, h⟩
    · exact portal_sound _ _ _ h
    · exact precomp_sound _ _ _ h

/-- The keyword a declaration begins with. -/
def Decl.kw : Decl → Kw
  | .import_ _ => .import_
  | .struct _ _ _ => .struct_
  | .variant _ _ _ => .variant_
  | .enum _ _ _ => .enum_
  | .spec _ _ _ => .specification
  | .type _ _ _ => .type_
  | .space _ _ => .space_
  | .language _ _ => .language
  | .portal _ _ _ => .portal
  | .precomp _ _ _ => .precompile

theorem decl_kw (d : Decl) : ∃ k, d.toks = .kw d.kw :: k := by cases d <;> exact ⟨_, rfl⟩

theorem composite_complete {α} {rule : Peg α} {ok : α → Prop} {toks : α → List Tok} {kw : Kw} {mk : Comp → Bool → List α → Decl}
    (hr : CompleteFor rule ok toks (fun k => startsText k = false)) (hf : ∀ {c k s}, Text (.sym c :: k) s → rule s = .fail)
    (ht : ∀ x k, startsText (toks x ++ k) = false) {n e fs k s} (hok : ∀ f ∈ fs, ok f) (hk : startsText k = false)
    (h : Text (.kw kw :: .id n :: (kwOpt .external e ++ .sym '{' :: (fs.flatMap toks ++ [.sym '}'])) ++ k) s) :
    ∃ r, ((keyword kw).bind fun _ => Peg.must (ident.bind fun n => externalOpt.bind fun e =>
      (tok '{').bind fun _ => (Peg.star rule).bind fun fs => (tok '}').map fun _ => mk n e fs)) s = .ok (mk n e fs) r ∧
      r.length < s.length ∧ Text k r := by
  simp only [List.cons_append, List.append_assoc, List.nil_append] at h
  obtain ⟨r1, e1, l1, h1⟩ := keyword_complete h rfl
  obtain ⟨r2, e2, l2, h2, _⟩ := ident_complete h1
  obtain ⟨r3, e3, l3, h3⟩ := optKw_complete h2
  obtain ⟨r4, e4, l4, h4⟩ := tok_complete h3 (by
    cases fs with
    | nil => rfl
    | cons f fs => rw [List.flatMap_cons, List.append_assoc]; exact ht _ _)
  obtain ⟨r5, e5, l5, h5⟩ := star_complete hr hok (fun x _ k => ht x k) rfl (fun s hs => hf hs) h4
  obtain ⟨r6, e6, l6, h6⟩ := tok_complete h5 hk
  refine ⟨r6, ?_, by omega, h6⟩
  rw [bind_eq e1]
  apply must_eq
  rw [bind_eq e2, bind_eq (show externalOpt r2 = _ from e3), bind_eq e4, bind_eq e5]
  exact map_eq e6

theorem import_complete {i k s} (hi : i ≠ []) (hk : startsText k = false) (h : Text ((Decl.import_ i).toks ++ k) s) :
    ∃ r, importDecl s = .ok (.import_ i) r ∧ r.length < s.length ∧ Text k r := by
  simp only [Decl.toks, List.cons_append, List.append_assoc, List.nil_append] at h
  obtain ⟨r1, e1, l1, h1⟩ := keyword_complete h (scoped_noText hi _)
  obtain ⟨r2, e2, l2, h2⟩ := scopedId_complete i _ r1 hi (by simp [Fol]) h1
  obtain ⟨r3, e3, l3, h3⟩ := tok_complete h2 hk
  refine ⟨r3, ?_, by omega, h3⟩
  unfold importDecl
  rw [bind_eq e1]
  apply must_eq
  rw [bind_eq e2]
  exact map_eq e3

theorem spec_complete {n i p k s} (hi : i ≠ []) (hk : startsText k = false) (h : Text ((Decl.spec n i p).toks ++ k) s) :
    ∃ r, specDecl s = .ok (.spec n i p) r ∧ r.length < s.length ∧ Text k r := by
  simp only [Decl.toks, List.cons_append, List.append_assoc, List.nil_append] at h
  obtain ⟨r1, e1, l1, h1⟩ := keyword_complete h rfl
  obtain ⟨r2, e2, l2, h2, _⟩ := ident_complete h1
  obtain ⟨r4, e4, l4, h4⟩ := tok_complete h2 (scoped_noText hi _)
  obtain ⟨r5, e5, l5, h5⟩ := scopedId_complete i _ r4 hi path_fol h4
  obtain ⟨r6, e6, l6, h6⟩ := pathOpt_complete (by simp [Fol]) h5
  obtain ⟨r7, e7, l7, h7⟩ := tok_complete h6 hk
  refine ⟨r7, ?_, by omega, h7⟩
  unfold specDecl
  rw [bind_eq e1]
  apply must_eq
  rw [bind_eq e2, bind_eq e4, bind_eq e5, bind_eq e6]
  exact map_eq e7

theorem typeDecl_complete {n e t k s} (ht : TypeAst.OK t) (hk : startsText k = false) (h : Text ((Decl.type n e t).toks ++ k) s) :
    ∃ r, typeDecl s = .ok (.type n e t) r ∧ r.length < s.length ∧ Text k r := by
  simp only [Decl.toks, List.cons_append, List.append_assoc, List.nil_append] at h
  obtain ⟨r1, e1, l1, h1⟩ := keyword_complete h rfl
  obtain ⟨r2, e2, l2, h2, _⟩ := ident_complete h1
  obtain ⟨r3, e3, l3, h3⟩ := optKw_complete h2
  obtain ⟨r4, e4, l4, h4⟩ := tok_complete h3 (base_noText ht _)
  obtain ⟨r5, e5, l5, h5⟩ := type_complete t _ r4 ht (by simp [Fol]) h4
  obtain ⟨r6, e6, l6, h6⟩ := tok_complete h5 hk
  refine ⟨r6, ?_, by omega, h6⟩
  unfold typeDecl
  rw [bind_eq e1]
  apply must_eq
  rw [bind_eq e2, bind_eq (show externalOpt r2 = _ from e3), bind_eq e4, bind_eq e5]
  exact map_eq e6

theorem language_complete {n t k s} (h : Text ((Decl.language n t).toks ++ k) s) :
    ∃ r, languageDecl s = .ok (.language n t) r ∧ r.length < s.length ∧ Text k r := by
  simp only [Decl.toks, List.cons_append, List.nil_append] at h
  obtain ⟨r1, e1, l1, h1⟩ := keyword_complete h rfl
  obtain ⟨r2, e2, l2, h2, _⟩ := ident_complete h1
  obtain ⟨w, r, rfl, ⟨u, hu, rfl, ht⟩, _, h3⟩ := h2.uncons_plain rfl
  refine ⟨r, ?_, ?_, h3⟩
  · unfold languageDecl
    rw [bind_eq e1]
    apply must_eq
    have e3 : spaceOrComment (u ++ '"' :: '"' :: '"' :: t ++ ['"', '"', '"'] ++ r) =
        .ok () ('"' :: '"' :: '"' :: (t ++ '"' :: '"' :: '"' :: r)) := spaceOrComment_ok.2 ⟨u, hu, by simp⟩
    have e4 : star textChar (t ++ '"' :: '"' :: '"' :: r) = .ok t ('"' :: '"' :: '"' :: r) :=
      until_complete _ _ _ ht (Nat.lt_succ_self _)
    rw [bind_eq e2, bind_eq e3, bind_eq (quotes_ok.2 rfl), bind_eq e4]
    exact map_eq (quotes_ok.2 rfl)
  · simp only [List.length_append, List.length_cons] at l2 l1 ⊢
    omega

theorem item_noText (x : PortalItem) (k : List Tok) : startsText (x.toks ++ k) = false := by cases x <;> rfl

theorem portal_complete {n q is k s} (hq : q ≠ []) (hi : ∀ i ∈ is, PortalItem.OK i) (hk : startsText k = false)
    (h : Text ((Decl.portal n q is).toks ++ k) s) : ∃ r, portalDecl s = .ok (.portal n q is) r ∧ r.length < s.length ∧ Text k r := by
  simp only [Decl.toks, List.cons_append, List.append_assoc, List.nil_append] at h
  obtain ⟨r1, e1, l1, h1⟩ := keyword_complete h rfl
  obtain ⟨r2, e2, l2, h2, _⟩ := ident_complete h1
  obtain ⟨r3, e3, l3, h3⟩ := tok_complete h2 (scoped_noText hq _)
  obtain ⟨r4, e4, l4, h4⟩ := scopedId_complete q _ r3 hq (by simp [Fol]) h3
  obtain ⟨r5, e5, l5, h5⟩ := tok_complete h4 (by
    cases is with
    | nil => rfl
    | cons f fs => rw [List.flatMap_cons, List.append_assoc]; exact item_noText _ _)
  obtain ⟨r6, e6, l6, h6⟩ := star_complete item_complete hi (fun x _ k => item_noText x k) rfl (fun s hs => item_fail hs) h5
  obtain ⟨r7, e7, l7, h7⟩ := tok_complete h6 hk
  refine ⟨r7, ?_, by omega, h7⟩
  unfold portalDecl
  rw [bind_eq e1]
  apply must_eq
  rw [bind_eq e2, bind_eq e3, bind_eq e4, bind_eq e5, bind_eq e6]
  exact map_eq e7

theorem precomp_complete {n i q k s} (hi : i ≠ []) (hq : q ≠ []) (hk : startsText k = false)
    (h : Text ((Decl.precomp n i q).toks ++ k) s) : ∃ r, precompDecl s = .ok (.precomp n i q) r ∧ r.length < s.length ∧ Text k r := by
  simp only [Decl.toks, List.cons_append, List.append_assoc, List.nil_append] at h
  obtain ⟨r1, e1, l1, h1⟩ := keyword_complete h rfl
  obtain ⟨r2, e2, l2, h2, _⟩ := ident_complete h1
  obtain ⟨r3, e3, l3, h3⟩ := tok_complete h2 (scoped_noText hi _)
  obtain ⟨r4, e4, l4, h4⟩ := scopedId_complete i _ r3 hi (by simp [Fol]) h3
  obtain ⟨r5, e5, l5, h5⟩ := tok_complete h4 (scoped_noText hq _)
  obtain ⟨r6, e6, l6, h6⟩ := scopedId_complete q _ r5 hq (by simp [Fol]) h5
  obtain ⟨r7, e7, l7, h7⟩ := tok_complete h6 rfl
  obtain ⟨r8, e8, l8, h8⟩ := tok_complete h7 hk
  refine ⟨r8, ?_, by omega, h8⟩
  unfold precompDecl
  rw [bind_eq e1]
  apply must_eq
  rw [bind_eq e2, bind_eq e3, bind_eq e4, bind_eq e5, bind_eq e6, bind_eq e7]
  exact map_eq e8

theorem decl_noText (d : Decl) (k : List Tok) : startsText (d.toks ++ k) = false := by
  obtain ⟨k', e⟩ := decl_kw d
  rw [e]
  rfl

/-- Declarations followed by the end of the file, a closing brace or another declaration. -/
def DeclFol : List Tok → Prop
  | [] => True
  | .sym _ :: _ => True
  | .kw _ :: _ => True
  | _ => False

theorem DeclFol.noText {k} (h : DeclFol k) : startsText k = false := by
  cases k with
  | nil => rfl
  | cons t k => cases t <;> first | rfl | cases h

theorem top_fail_sym {n c k s} (h : Text (.sym c :: k) s) : topDecl n s = .fail := by
  cases n with
  | zero => rfl
  | succ n =>
    have hf : ∀ (kw : Kw) (f : Unit → Peg Decl), (keyword kw).bind f s = .fail := fun kw f => bind_fail (keyword_fail h trivial)
    unfold topDecl importDecl structDecl variantDecl enumDecl specDecl typeDecl spaceDecl languageDecl portalDecl precompDecl
    rw [or_fail (hf _ _), or_fail (hf _ _), or_fail (hf _ _), or_fail (hf _ _), or_fail (hf _ _), or_fail (hf _ _),
      or_fail (hf _ _), or_fail (hf _ _), or_fail (hf _ _)]
    exact hf _ _

theorem top_fail_nil {n} : topDecl n [] = .fail := by
  cases n with
  | zero => rfl
  | succ n =>
    have hf : ∀ (kw : Kw) (f : Unit → Peg Decl), (keyword kw).bind f [] = .fail := fun kw f => bind_fail keyword_nil
    unfold topDecl importDecl structDecl variantDecl enumDecl specDecl typeDecl spaceDecl languageDecl portalDecl precompDecl
    rw [or_fail (hf _ _), or_fail (hf _ _), or_fail (hf _ _), or_fail (hf _ _), or_fail (hf _ _), or_fail (hf _ _),
      or_fail (hf _ _), or_fail (hf _ _), or_fail (hf _ _)]
    exact hf _ _

theorem field_fail {c k s} (h : Text (.sym c :: k) s) : fieldDecl s = .fail := bind_fail (ident_fail_sym h)
theorem variantField_fail {c k s} (h : Text (.sym c :: k) s) : variantField s = .fail := bind_fail (ident_fail_sym h)
theorem enumField_fail {c k s} (h : Text (.sym c :: k) s) : enumField s = .fail := bind_fail (ident_fail_sym h)

theorem top_complete : ∀ n d k s, s.length < n → d.OK → DeclFol k → Text (d.toks ++ k) s →
    ∃ r, topDecl n s = .ok d r ∧ r.length < s.length ∧ Text k r
  | 0, _, _, _, h, _, _, _ => by omega
  | n + 1, d, k, s, hl, hd, hk, h => by
    obtain ⟨kt, hkt⟩ := decl_kw d
    have hf : ∀ (kw : Kw) (f : Unit → Peg Decl), d.kw ≠ kw → (keyword kw).bind f s = .fail := fun kw f hne => by
      rw [hkt] at h
      exact bind_fail (keyword_fail h hne)
    have key : ∀ {r : List Char}, (∃ r, (match d with
        | .import_ _ => importDecl
        | .struct _ _ _ => structDecl
        | .variant _ _ _ => variantDecl
        | .enum _ _ _ => enumDecl
        | .spec _ _ _ => specDecl
        | .type _ _ _ => typeDecl
        | .space _ _ => spaceDecl (topDecl n)
        | .language _ _ => languageDecl
        | .portal _ _ _ => portalDecl
        | .precomp _ _ _ => precompDecl) s = .ok d r ∧ r.length < s.length ∧ Text k r) →
        ∃ r, topDecl (n + 1) s = .ok d r ∧ r.length < s.length ∧ Text k r := by
      rintro _ ⟨r, h1, h2, h3⟩
      refine ⟨r, ?_, h2, h3⟩
      unfold topDecl
      have f1 : Kw.import_ ≠ d.kw → importDecl s = .fail := fun hne => hf _ _ (Ne.symm hne)
      have f2 : Kw.struct_ ≠ d.kw → structDecl s = .fail := fun hne => hf _ _ (Ne.symm hne)
      have f3 : Kw.variant_ ≠ d.kw → variantDecl s = .fail := fun hne => hf _ _ (Ne.symm hne)
      have f4 : Kw.enum_ ≠ d.kw → enumDecl s = .fail := fun hne => hf _ _ (Ne.symm hne)
      have f5 : Kw.specification ≠ d.kw → specDecl s = .fail := fun hne => hf _ _ (Ne.symm hne)
      have f6 : Kw.type_ ≠ d.kw → typeDecl s = .fail := fun hne => hf _ _ (Ne.symm hne)
      have f7 : Kw.space_ ≠ d.kw → spaceDecl (topDecl n) s = .fail := fun hne => hf _ _ (Ne.symm hne)
      have f8 : Kw.language ≠ d.kw → languageDecl s = .fail := fun hne => hf _ _ (Ne.symm hne)
      have f9 : Kw.portal ≠ d.kw → portalDecl s = .fail := fun hne => hf _ _ (Ne.symm hne)
      cases d <;> simp only [Decl.kw] at f1 f2 f3 f4 f5 f6 f7 f8 f9 h1 <;>
        first
        | exact or_eq h1
        | (rw [or_fail (f1 (by decide))]
           first
           | exact or_eq h1
           | (rw [or_fail (f2 (by decide))]
              first
              | exact or_eq h1
              | (rw [or_fail (f3 (by decide))]
                 first
                 | exact or_eq h1
                 | (rw [or_fail (f4 (by decide))]
                    first
                    | exact or_eq h1
                    | (rw [or_fail (f5 (by decide))]
                       first
                       | exact or_eq h1
                       | (rw [or_fail (f6 (by decide))]
                          first
                          | exact or_eq h1
                          | (rw [or_fail (f7 (by decide))]
                             first
                             | exact or_eq h1
                             | (rw [or_fail (f8 (by decide))]
                                first
                                | exact or_eq h1
                                | (rw [or_fail (f9 (by decide))]; exact h1)))))))))
    apply key (r := [])
    cases d with
    | import_ i => exact import_complete hd hk.noText h
    | struct m e fs =>
      exact composite_complete (mk := .struct) field_complete field_fail (fun _ _ => rfl) hd hk.noText h
    | variant m e fs =>
      exact composite_complete (mk := .variant) variantField_complete variantField_fail (fun _ _ => rfl) hd hk.noText h
    | enum m e fs =>
      exact composite_complete (mk := .enum) enumField_complete enumField_fail (fun _ _ => rfl) hd hk.noText h
    | spec m i p => exact spec_complete hd hk.noText h
    | type m e t => exact typeDecl_complete hd hk.noText h
    | space m ds =>
      simp only [Decl.toks, List.cons_append, List.append_assoc, List.nil_append, flat_declToks] at h
      obtain ⟨r1, e1, l1, h1⟩ := keyword_complete h rfl
      obtain ⟨r2, e2, l2, h2, _⟩ := ident_complete h1
      have hst : startsText (ds.flatMap Decl.toks ++ .sym '}' :: k) = false := by
        cases ds with
        | nil => rfl
        | cons d ds => rw [List.flatMap_cons, List.append_assoc]; exact decl_noText _ _
      obtain ⟨r3, e3, l3, h3⟩ := tok_complete h2 hst
      have hstar : ∀ m s, s.length < m → s.length < n → Text (ds.flatMap Decl.toks ++ .sym '}' :: k) s →
          ∃ r, starN (topDecl n) m s = .ok ds r ∧ r.length ≤ s.length ∧ Text (.sym '}' :: k) r := by
        have hd : ∀ d ∈ ds, d.OK := declsOK.1 hd
        clear h hkt hf key h1 h2 h3 hst
        induction ds with
        | nil => exact fun m s _ _ h => ⟨s, starN_stop _ (top_fail_sym h), Nat.le_refl _, h⟩
        | cons d ds ih =>
          intro m s hm hn h
          obtain ⟨m, rfl⟩ : ∃ m', m = m' + 1 := ⟨m - 1, by omega⟩
          rw [List.flatMap_cons, List.append_assoc] at h
          have hfol : DeclFol (ds.flatMap Decl.toks ++ .sym '}' :: k) := by
            cases ds with
            | nil => trivial
            | cons d' ds =>
              obtain ⟨k', e⟩ := decl_kw d'
              rw [List.flatMap_cons, e]
              trivial
          obtain ⟨r1, e1, l1, h1⟩ := top_complete n d _ s hn (hd d (by simp)) hfol h
          obtain ⟨r, e2, l2, h2⟩ := ih (declsOK.2 fun x hx => hd x (by simp [hx])) (fun x hx => hd x (by simp [hx])) m r1 (by omega) (by omega) h1
          exact ⟨r, starN_cons e1 e2, by omega, h2⟩
      obtain ⟨r4, e4, l4, h4⟩ := hstar _ r3 (Nat.lt_succ_self _) (by omega) h3
      obtain ⟨r5, e5, l5, h5⟩ := tok_complete h4 hk.noText
      refine ⟨r5, ?_, by omega, h5⟩
      show spaceDecl (topDecl n) s = _
      unfold spaceDecl
      rw [bind_eq e1]
      apply must_eq
      rw [bind_eq e2, bind_eq e3, bind_eq (show star (topDecl n) r3 = _ from e4)]
      exact map_eq e5
    | language m t => exact language_complete h
    | portal m q is => exact portal_complete hd.1 hd.2 hk.noText h
    | precomp m i q => exact precomp_complete hd.1 hd.2 hk.noText h

/-! ## Files -/

theorem parse_sound {s ds} (h : parseText s = some ds) : Text (declToks ds) s ∧ DeclsOK ds := by
  unfold parseText at h
  cases hp : (Peg.must ((Peg.star (topDecl (s.length + 1))).bind fun ds => Peg.eof.map fun _ => ds)) s with
  | fail => rw [hp] at h; cases h
  | err => rw [hp] at h; cases h
  | ok x r =>
    rw [hp] at h
    simp only [Option.some.injEq] at h
    subst h
    obtain ⟨ds, r1, h1, h2⟩ := bind_ok.1 (must_ok.1 hp)
    obtain ⟨_, h3, rfl⟩ := map_ok.1 h2
    obtain ⟨h4, h5⟩ := star_sound (top_sound _) _ _ _ h1
    have : r1 = [] := by cases r1 with
      | nil => rfl
      | cons c r1 => cases h3
    subst this
    have h6 := h5 [] (Text.nil.2 rfl)
    rw [List.append_nil] at h6
    exact ⟨flat_declToks ds ▸ h6, declsOK.2 h4⟩

theorem parse_complete {s ds} (h : Text (declToks ds) s) (hd : DeclsOK ds) : parseText s = some ds := by
  rw [flat_declToks] at h
  have hstar : ∀ m s', s'.length < m → s'.length ≤ s.length → Text (ds.flatMap Decl.toks) s' →
      starN (topDecl (s.length + 1)) m s' = .ok ds [] := by
    have hd : ∀ d ∈ ds, d.OK := declsOK.1 hd
    clear h
    induction ds with
    | nil => intro m s' _ _ h; rw [Text.nil.1 h]; exact starN_stop _ top_fail_nil
    | cons d ds ih =>
      intro m s' hm hn h
      obtain ⟨m, rfl⟩ : ∃ m', m = m' + 1 := ⟨m - 1, by omega⟩
      rw [List.flatMap_cons] at h
      have hfol : DeclFol (ds.flatMap Decl.toks) := by
        cases ds with
        | nil => trivial
        | cons d' ds =>
          obtain ⟨k', e⟩ := decl_kw d'
          rw [List.flatMap_cons, e]
          trivial
      obtain ⟨r1, e1, l1, h1⟩ := top_complete (s.length + 1) d _ s' (by omega) (hd d (by simp)) hfol h
      exact starN_cons e1 (ih (declsOK.2 fun x hx => hd x (by simp [hx])) (fun x hx => hd x (by simp [hx])) m r1 (by omega) (by omega) h1)
  have := hstar _ s (Nat.lt_succ_self _) (Nat.le_refl _) h
  unfold parseText
  rw [must_eq (a := ds) (r := [])]
  rw [bind_eq (show star _ s = _ from this)]
  rfl

end PJ
