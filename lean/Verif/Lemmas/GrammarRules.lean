import Verif.Lemmas.GrammarToks
/-!
# Rules of the grammar

Each rule accepts exactly the texts of its syntax trees.
-/
namespace PJ

open Peg

/-! ## Following tokens -/

/-- The tokens do not begin with one of these symbols, nor with a text of another language. -/
def Fol (cs : List Char) : List Tok → Prop
  | .sym c :: _ => c ∉ cs
  | .text _ :: _ => False
  | _ => True

theorem Fol.noText {cs k} (h : Fol cs k) : startsText k = false := by
  cases k with
  | nil => rfl
  | cons t k => cases t <;> first | rfl | cases h

theorem Fol.tok_fail {cs k s c} (h : Fol cs k) (hc : c ∈ symbols) (hcs : c ∈ cs) (ht : Text k s) : tok c s = .fail := by
  refine PJ.tok_fail hc ht h.noText ?_
  rintro k' rfl
  exact h hcs

theorem Fol.mono {cs cs' k} (h : Fol cs k) (hc : ∀ c ∈ cs', c ∈ cs) : Fol cs' k := by
  cases k with
  | nil => trivial
  | cons t k => cases t <;> first | trivial | exact h | exact fun h' => h (hc _ h')

/-! ## Repetition and options -/

def SoundFor {α} (p : Peg α) (ok : α → Prop) (toks : α → List Tok) : Prop :=
  ∀ s x r, p s = .ok x r → ok x ∧ ∀ k, Text k r → Text (toks x ++ k) s

def CompleteFor {α} (p : Peg α) (ok : α → Prop) (toks : α → List Tok) (fol : List Tok → Prop) : Prop :=
  ∀ x k s, ok x → fol k → Text (toks x ++ k) s → ∃ r, p s = .ok x r ∧ r.length < s.length ∧ Text k r

theorem star_sound {α} {p : Peg α} {ok toks} (hp : SoundFor p ok toks) :
    SoundFor (star p) (fun xs => ∀ x ∈ xs, ok x) (fun xs => xs.flatMap toks) := by
  have key : ∀ n s xs r, starN p n s = .ok xs r → (∀ x ∈ xs, ok x) ∧ ∀ k, Text k r → Text (xs.flatMap toks ++ k) s := by
    intro n
    induction n with
    | zero =>
      intro s xs r h
      simp only [starN, PRes.ok.injEq] at h
      obtain ⟨rfl, rfl⟩ := h
      exact ⟨by simp, fun k hk => hk⟩
    | succ n ih =>
      intro s xs r h
      rcases starN_ok h with ⟨_, rfl, rfl⟩ | ⟨a, r1, bs, h1, h2, rfl⟩
      · exact ⟨by simp, fun k hk => hk⟩
      · obtain ⟨h3, h4⟩ := hp _ _ _ h1
        obtain ⟨h5, h6⟩ := ih _ _ _ h2
        refine ⟨fun x hx => ?_, fun k hk => ?_⟩
        · rcases List.mem_cons.1 hx with rfl | hx
          · exact h3
          · exact h5 x hx
        · rw [List.flatMap_cons, List.append_assoc]
          exact h4 _ (h6 k hk)
  exact fun s xs r h => key _ s xs r h

theorem star_complete {α} {p : Peg α} {ok toks fol} (hp : CompleteFor p ok toks fol) {xs : List α} {k s}
    (hx : ∀ x ∈ xs, ok x) (hm : ∀ x ∈ xs, ∀ k, fol (toks x ++ k)) (hk : fol k) (hstop : ∀ s, Text k s → p s = .fail)
    (h : Text (xs.flatMap toks ++ k) s) : ∃ r, star p s = .ok xs r ∧ r.length ≤ s.length ∧ Text k r := by
  have key : ∀ n s, s.length < n → Text (xs.flatMap toks ++ k) s → ∃ r, starN p n s = .ok xs r ∧ r.length ≤ s.length ∧ Text k r := by
    clear h
    induction xs with
    | nil => exact fun n s _ h => ⟨s, starN_stop _ (hstop s h), Nat.le_refl _, h⟩
    | cons x xs ih =>
      intro n s hn h
      obtain ⟨n, rfl⟩ : ∃ m, n = m + 1 := ⟨n - 1, by omega⟩
      rw [List.flatMap_cons, List.append_assoc] at h
      have hf : fol (xs.flatMap toks ++ k) := by
        cases xs with
        | nil => exact hk
        | cons y ys => rw [List.flatMap_cons, List.append_assoc]; exact hm y (by simp) _
      obtain ⟨r1, h1, h2, h3⟩ := hp x _ s (hx x (by simp)) hf h
      obtain ⟨r, h4, h5, h6⟩ := ih (fun y hy => hx y (by simp [hy])) (fun y hy => hm y (by simp [hy])) n r1 (by omega) h3
      exact ⟨r, starN_cons h1 h4, by omega, h6⟩
  exact key _ s (Nat.lt_succ_self _) h

theorem optKw_sound {c : Kw} {s e r} (h : optKw c s = .ok e r) (k : List Tok) (hk : Text k r) : Text (kwOpt c e ++ k) s := by
  obtain ⟨x, h1, rfl⟩ := map_ok.1 h
  rcases opt_ok.1 h1 with ⟨_, rfl, h2⟩ | ⟨rfl, _, rfl⟩
  · exact keyword_sound h2 k hk
  · exact hk

theorem optKw_complete {c : Kw} {e d k s} (h : Text (kwOpt c e ++ .sym d :: k) s) :
    ∃ r, optKw c s = .ok e r ∧ r.length ≤ s.length ∧ Text (.sym d :: k) r := by
  cases e with
  | false => exact ⟨s, map_eq (opt_none (keyword_fail (t := .sym d) h trivial)), Nat.le_refl _, h⟩
  | true =>
    obtain ⟨r, h1, h2, h3⟩ := keyword_complete h rfl
    exact ⟨r, map_eq (opt_eq h1), by omega, h3⟩

/-! ## Qualified names -/

theorem suffix_sound : SoundFor ((tok '.').bind fun _ => .must ident) (fun _ => True) (fun d => [.sym '.', .id d]) := by
  intro s x r h
  obtain ⟨_, r1, h1, h2⟩ := bind_ok.1 h
  have h2 := must_ok.1 h2
  exact ⟨trivial, fun k hk => tok_sound (by decide) h1 _ (ident_sound h2 _ hk)⟩

theorem suffix_complete : CompleteFor ((tok '.').bind fun _ => .must ident) (fun _ => True) (fun d => [.sym '.', .id d])
    (fun _ => True) := by
  intro x k s _ _ h
  obtain ⟨r1, e1, l1, h1⟩ := tok_complete h rfl
  obtain ⟨r2, e2, l2, h2, _⟩ := ident_complete h1
  exact ⟨r2, by rw [bind_eq e1]; exact must_eq e2, by omega, h2⟩

theorem scopedId_sound : SoundFor scopedId (fun i => i ≠ []) scopedToks := by
  intro s x r h
  obtain ⟨c, r1, h1, h2⟩ := bind_ok.1 (must_ok.1 h)
  obtain ⟨cs, h3, rfl⟩ := map_ok.1 h2
  obtain ⟨_, h4⟩ := star_sound suffix_sound _ _ _ h3
  exact ⟨by simp, fun k hk => ident_sound h1 _ (h4 k hk)⟩

theorem scopedId_complete : CompleteFor scopedId (fun i => i ≠ []) scopedToks (Fol ['.']) := by
  intro x k s hx hk h
  cases x with
  | nil => exact absurd rfl hx
  | cons c cs =>
    obtain ⟨r1, e1, l1, h1, hn⟩ := ident_complete h
    obtain ⟨r2, e2, l2, h2⟩ := star_complete suffix_complete (xs := cs) (k := k) (by simp) (fun x hx k' => trivial) trivial
      (fun s hs => bind_fail (hk.tok_fail (by decide) (by simp) hs)) h1
    exact ⟨r2, must_eq (by rw [bind_eq e1]; exact map_eq e2), by omega, h2⟩

/-! ## Types -/

theorem baseType_sound : SoundFor baseType (fun b => (TypeAst.mk b []).OK) BaseAst.toks := by
  intro s x r h
  unfold baseType at h
  rcases or_ok.1 h with h | ⟨f1, h⟩
  · obtain ⟨n, rfl, h'⟩ := builtin_sound h; exact ⟨trivial, h'⟩
  rcases or_ok.1 h with h | ⟨f2, h⟩
  · obtain ⟨n, rfl, h'⟩ := builtin_sound h; exact ⟨trivial, h'⟩
  rcases or_ok.1 h with h | ⟨f3, h⟩
  · obtain ⟨n, rfl, h'⟩ := builtin_sound h; exact ⟨trivial, h'⟩
  rcases or_ok.1 h with h | ⟨f4, h⟩
  · obtain ⟨n, rfl, h'⟩ := builtin_sound h; exact ⟨trivial, h'⟩
  rcases or_ok.1 h with h | ⟨f5, h⟩
  · obtain ⟨_, h1, rfl⟩ := map_ok.1 h
    exact ⟨trivial, fun k hk => keyword_sound h1 k hk⟩
  · obtain ⟨i, h1, rfl⟩ := map_ok.1 h
    obtain ⟨h2, h3⟩ := scopedId_sound _ _ _ h1
    refine ⟨⟨h2, ?_⟩, h3⟩
    obtain ⟨c, r1, h4, h5⟩ := bind_ok.1 (must_ok.1 h1)
    obtain ⟨cs, _, rfl⟩ := map_ok.1 h5
    intro d hd
    simp only [List.head?_cons, Option.mem_def, Option.some.injEq] at hd
    subst hd
    obtain ⟨h6, rfl, h7⟩ := ident_ok.1 h4
    refine ⟨ref_builtin fun b => by cases b <;> assumption, ?_⟩
    rintro rfl
    have hn : NoGap (Kw.chars .any ++ r1) := noGap_cons (by decide)
    have : keyword .any (Kw.chars .any ++ r1) ≠ .fail := by
      intro hf
      obtain ⟨r2, hr2⟩ := gap_cases r1
      have h8 : gap ([] ++ (Kw.chars .any ++ r1)) = .ok () (Kw.chars .any ++ r1) := gap_complete .nil hn
      rw [List.nil_append] at h8
      unfold keyword spaced at hf
      rw [bind_eq h8, bind_eq (bareKeyword_ok.2 ⟨rfl, h7⟩), bind_eq hr2] at hf
      cases hf
    unfold Peg.map at f5
    cases hk : keyword .any (Kw.chars .any ++ r1) with
    | fail => exact this hk
    | err => unfold Peg.bind at f5; rw [hk] at f5; cases f5
    | ok a r2 => rw [bind_eq hk] at f5; cases f5

theorem baseType_complete : CompleteFor baseType (fun b => (TypeAst.mk b []).OK) BaseAst.toks (Fol ['.']) := by
  intro x k s hx hk h
  cases x with
  | builtin b n =>
    obtain ⟨⟨r, h1, h2, h3⟩, h4⟩ := builtin_complete h
    refine ⟨r, ?_, h2, h3⟩
    unfold baseType
    cases b with
    | uint => exact or_eq h1
    | int => rw [or_fail (h4 _ (by decide))]; exact or_eq h1
    | char => rw [or_fail (h4 _ (by decide)), or_fail (h4 _ (by decide))]; exact or_eq h1
    | float => rw [or_fail (h4 _ (by decide)), or_fail (h4 _ (by decide)), or_fail (h4 _ (by decide))]; exact or_eq h1
  | any =>
    obtain ⟨r, h1, h2, h3⟩ := keyword_complete h hk.noText
    have hb : ∀ b, builtin b s = .fail := by
      intro b
      obtain ⟨g, w, r', h5, _, rfl, h6, _⟩ := Text.uncons h
      obtain rfl : w = Kw.chars .any := h6
      refine builtin_fail fun d x e => ?_
      exfalso
      cases h5 with
      | nil => cases b <;> simp [Kw.chars, Builtin.chars] at e
      | @space c _ hs =>
        have : identOther c = true := by
          cases b <;> simp only [Builtin.chars, List.cons_append, List.cons.injEq] at e <;> rw [e.1] <;> decide
        rw [isSpace_ident hs] at this
        cases this
      | comment => cases b <;> simp [Builtin.chars] at e
    refine ⟨r, ?_, h2, h3⟩
    unfold baseType
    rw [or_fail (hb _), or_fail (hb _), or_fail (hb _), or_fail (hb _)]
    exact or_eq (map_eq h1)
  | ref i =>
    obtain ⟨r, h1, h2, h3⟩ := scopedId_complete i k s hx.1 hk h
    refine ⟨r, ?_, h2, h3⟩
    cases i with
    | nil => exact absurd rfl hx.1
    | cons c cs =>
      have hr : RefName c := hx.2 c rfl
      have h : Text (.id c :: (cs.flatMap (fun d => [Tok.sym '.', Tok.id d]) ++ k)) s := h
      have hb : ∀ b, builtin b s = .fail := fun b => builtin_ref h hr
      unfold baseType
      rw [or_fail (hb _), or_fail (hb _), or_fail (hb _), or_fail (hb _), or_fail (map_fail (keyword_fail h hr.2))]
      exact map_eq h1

theorem optNum_sound {s a r} (h : (Peg.opt num) s = .ok a r) (k : List Tok) (hk : Text k r) : Text (numOpt a ++ k) s := by
  rcases opt_ok.1 h with ⟨n, rfl, h2⟩ | ⟨rfl, _, rfl⟩
  · exact num_sound h2 k hk
  · exact hk

theorem optNum_complete {a c k s} (h : Text (numOpt a ++ .sym c :: k) s) :
    ∃ r, (Peg.opt num) s = .ok a r ∧ r.length ≤ s.length ∧ Text (.sym c :: k) r := by
  cases a with
  | none => exact ⟨s, opt_none (num_fail_sym h), Nat.le_refl _, h⟩
  | some n =>
    obtain ⟨r, h1, h2, h3⟩ := num_complete h
    exact ⟨r, opt_eq h1, by omega, h3⟩

theorem mod_sound : SoundFor (fixedMod.or varMod) (fun _ => True) ModAst.toks := by
  intro s x r h
  refine ⟨trivial, fun k hk => ?_⟩
  rcases or_ok.1 h with h | ⟨_, h⟩
  · obtain ⟨_, r1, h1, h⟩ := bind_ok.1 h
    obtain ⟨n, r2, h2, h⟩ := bind_ok.1 h
    obtain ⟨_, h3, rfl⟩ := map_ok.1 h
    exact tok_sound (by decide) h1 _ (num_sound h2 _ (tok_sound (by decide) h3 _ hk))
  · obtain ⟨_, r1, h1, h⟩ := bind_ok.1 h
    obtain ⟨a, r2, h2, h⟩ := bind_ok.1 h
    obtain ⟨_, r3, h3, h⟩ := bind_ok.1 h
    obtain ⟨b, r4, h4, h⟩ := bind_ok.1 h
    obtain ⟨_, h5, rfl⟩ := map_ok.1 h
    simp only [ModAst.toks, List.cons_append, List.append_assoc, List.nil_append]
    exact tok_sound (by decide) h1 _ (optNum_sound h2 _ (tok_sound (by decide) h3 _ (optNum_sound h4 _
      (tok_sound (by decide) h5 _ hk))))

theorem mod_complete : CompleteFor (fixedMod.or varMod) (fun _ => True) ModAst.toks (fun k => startsText k = false) := by
  intro x k s _ hk h
  cases x with
  | fixed n =>
    obtain ⟨r1, e1, l1, h1⟩ := tok_complete h rfl
    obtain ⟨r2, e2, l2, h2⟩ := num_complete h1
    obtain ⟨r3, e3, l3, h3⟩ := tok_complete h2 hk
    refine ⟨r3, or_eq ?_, by omega, h3⟩
    unfold fixedMod
    rw [bind_eq e1, bind_eq e2]
    exact map_eq e3
  | var a b =>
    simp only [ModAst.toks, List.cons_append, List.append_assoc, List.nil_append] at h
    obtain ⟨r1, e1, l1, h1⟩ := tok_complete h (by cases a <;> rfl)
    obtain ⟨r2, e2, l2, h2⟩ := optNum_complete h1
    obtain ⟨r3, e3, l3, h3⟩ := tok_complete h2 (by cases b <;> rfl)
    obtain ⟨r4, e4, l4, h4⟩ := optNum_complete h3
    obtain ⟨r5, e5, l5, h5⟩ := tok_complete h4 hk
    refine ⟨r5, ?_, by omega, h5⟩
    rw [or_fail]
    · unfold varMod
      rw [bind_eq e1, bind_eq e2, bind_eq e3, bind_eq e4]
      exact map_eq e5
    · unfold fixedMod
      rw [bind_eq e1]
      cases a with
      | none => exact bind_fail (num_fail_sym h1)
      | some n =>
        obtain ⟨r6, e6, _, h6⟩ := num_complete h1
        rw [bind_eq e6]
        exact map_fail (tok_fail (by decide) h6 rfl (by simp))

theorem type_sound : SoundFor typeRule TypeAst.OK TypeAst.toks := by
  intro s x r h
  obtain ⟨b, r1, h1, h⟩ := bind_ok.1 h
  obtain ⟨ms, h2, rfl⟩ := map_ok.1 h
  obtain ⟨h3, h4⟩ := baseType_sound _ _ _ h1
  obtain ⟨_, h5⟩ := star_sound mod_sound _ _ _ h2
  refine ⟨h3, fun k hk => ?_⟩
  rw [TypeAst.toks, List.append_assoc]
  exact h4 _ (h5 k hk)

theorem mod_fail {k s} (hk : Fol ['['] k) (h : Text k s) : (fixedMod.or varMod) s = .fail := by
  have := hk.tok_fail (c := '[') (by decide) (by simp) h
  rw [or_fail (show fixedMod s = .fail from bind_fail this)]
  exact bind_fail this

theorem type_complete : CompleteFor typeRule TypeAst.OK TypeAst.toks (Fol ['.', '[']) := by
  intro x k s hx hk h
  rw [TypeAst.toks, List.append_assoc] at h
  have hf : Fol ['.'] (x.mods.flatMap ModAst.toks ++ k) := by
    cases x.mods with
    | nil => exact hk.mono (by simp)
    | cons m ms => cases m <;> exact (by decide : '[' ∉ ['.'])
  obtain ⟨r1, e1, l1, h1⟩ := baseType_complete x.base _ s hx hf h
  obtain ⟨r2, e2, l2, h2⟩ := star_complete mod_complete (xs := x.mods) (by simp)
    (fun m _ _ => by cases m <;> rfl) hk.noText (fun s hs => mod_fail (hk.mono (by simp)) hs) h1
  refine ⟨r2, ?_, by omega, h2⟩
  unfold typeRule
  rw [bind_eq e1]
  exact map_eq e2

end PJ
