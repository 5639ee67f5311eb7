import Verif.Spec.Grammar
/-!
# Parsing expressions and tokens

How the parsing expressions for gaps and tokens relate to the text of tokens, in both directions.
-/
namespace PJ

namespace Peg
variable {α β : Type}

theorem bind_ok {p : Peg α} {f : α → Peg β} {s x r} :
    p.bind f s = .ok x r ↔ ∃ a r1, p s = .ok a r1 ∧ f a r1 = .ok x r := by
  unfold bind
  cases p s with
  | fail => simp
  | err => simp
  | ok a r' =>
    simp only [PRes.ok.injEq]
    constructor
    · exact fun h => ⟨a, r', ⟨rfl, rfl⟩, h⟩
    · rintro ⟨_, _, ⟨rfl, rfl⟩, h⟩
      exact h

theorem map_ok {f : α → β} {p : Peg α} {s x r} : p.map f s = .ok x r ↔ ∃ a, p s = .ok a r ∧ f a = x := by
  unfold map
  rw [bind_ok]
  constructor
  · rintro ⟨a, r1, h1, h2⟩
    simp only [pure, PRes.ok.injEq] at h2
    exact ⟨a, by rw [h1, h2.2], h2.1⟩
  · rintro ⟨a, h1, h2⟩
    exact ⟨a, r, h1, by rw [← h2]; rfl⟩

theorem must_ok {p : Peg α} {s x r} : p.must s = .ok x r ↔ p s = .ok x r := by
  unfold must
  cases p s <;> simp

theorem or_ok {p q : Peg α} {s x r} : p.or q s = .ok x r ↔ p s = .ok x r ∨ (p s = .fail ∧ q s = .ok x r) := by
  unfold or
  cases p s <;> simp

theorem opt_ok {p : Peg α} {s x r} :
    p.opt s = .ok x r ↔ (∃ a, x = some a ∧ p s = .ok a r) ∨ (x = none ∧ p s = .fail ∧ r = s) := by
  unfold opt
  cases p s with
  | fail => simp [eq_comm]
  | err => simp
  | ok a r' => simp only [PRes.ok.injEq, reduceCtorEq, false_and, and_false, or_false]; constructor
               · rintro ⟨rfl, rfl⟩; exact ⟨a, rfl, rfl, rfl⟩
               · rintro ⟨a, rfl, rfl, rfl⟩; exact ⟨rfl, rfl⟩

theorem bind_eq {p : Peg α} {f : α → Peg β} {s a r} (h : p s = .ok a r) : p.bind f s = f a r := by
  unfold bind
  rw [h]

theorem bind_fail {p : Peg α} {f : α → Peg β} {s} (h : p s = .fail) : p.bind f s = .fail := by
  unfold bind
  rw [h]

theorem map_eq {f : α → β} {p : Peg α} {s a r} (h : p s = .ok a r) : p.map f s = .ok (f a) r := by
  unfold map
  rw [bind_eq h]
  rfl

theorem map_fail {f : α → β} {p : Peg α} {s} (h : p s = .fail) : p.map f s = .fail := bind_fail h

theorem must_eq {p : Peg α} {s a r} (h : p s = .ok a r) : p.must s = .ok a r := must_ok.2 h

theorem or_eq {p q : Peg α} {s a r} (h : p s = .ok a r) : p.or q s = .ok a r := or_ok.2 (.inl h)

theorem or_fail {p q : Peg α} {s} (h : p s = .fail) : p.or q s = q s := by
  unfold or
  rw [h]

theorem opt_eq {p : Peg α} {s a r} (h : p s = .ok a r) : p.opt s = .ok (some a) r := opt_ok.2 (.inl ⟨a, rfl, h⟩)

theorem opt_none {p : Peg α} {s} (h : p s = .fail) : p.opt s = .ok none s := opt_ok.2 (.inr ⟨rfl, h, rfl⟩)

theorem starN_stop {p : Peg α} {s} (n : Nat) (h : p s = .fail) : starN p n s = .ok [] s := by
  cases n with
  | zero => rfl
  | succ n => simp only [starN, h]

theorem starN_cons {p : Peg α} {n s a r as r'} (h : p s = .ok a r) (h' : starN p n r = .ok as r') :
    starN p (n + 1) s = .ok (a :: as) r' := by
  simp only [starN, h, h']

theorem starN_ok {p : Peg α} {n s as r} (h : starN p (n + 1) s = .ok as r) :
    (p s = .fail ∧ as = [] ∧ s = r) ∨ ∃ a r1 bs, p s = .ok a r1 ∧ starN p n r1 = .ok bs r ∧ as = a :: bs := by
  unfold starN at h
  cases hp : p s with
  | fail => rw [hp] at h; simp only [PRes.ok.injEq] at h; exact .inl ⟨rfl, h.1.symm, h.2⟩
  | err => rw [hp] at h; cases h
  | ok a r1 =>
    simp only [hp] at h
    cases hs : starN p n r1 with
    | fail => simp only [hs] at h; cases h
    | err => simp only [hs] at h; cases h
    | ok bs r2 =>
      simp only [hs, PRes.ok.injEq] at h
      exact .inr ⟨a, r1, bs, rfl, by rw [hs, h.2], h.1.symm⟩

theorem starN_never {p : Peg α} (hp : ∀ s, p s ≠ .err) : ∀ n s, ∃ as r, starN p n s = .ok as r
  | 0, s => ⟨_, _, rfl⟩
  | n + 1, s => by
    cases h : p s with
    | fail => exact ⟨_, _, starN_stop _ h⟩
    | err => exact absurd h (hp s)
    | ok a r =>
      obtain ⟨as, r', h'⟩ := starN_never hp n r
      exact ⟨_, _, starN_cons h h'⟩

/-- Repeating a class of characters. -/
theorem starN_one (f : Char → Bool) : ∀ n s, s.length < n → starN (one f) n s = .ok (s.takeWhile f) (s.dropWhile f)
  | 0, s, h => by omega
  | n + 1, [], _ => by simp [starN, one]
  | n + 1, c :: s, h => by
    simp only [List.length_cons] at h
    by_cases hc : f c = true
    · rw [starN_cons (a := c) (r := s) (by simp [one, hc]) (starN_one f n s (by omega))]
      simp [hc]
    · rw [starN_stop _ (by simp [one, hc])]
      simp [hc]

theorem star_one (f : Char → Bool) (s) : star (one f) s = .ok (s.takeWhile f) (s.dropWhile f) :=
  starN_one f _ _ (by omega)

theorem str_ok : ∀ (w : List Char) {s r}, str w s = .ok () r ↔ s = w ++ r
  | [], s, r => by simp [str]
  | c :: w, [], r => by simp [str]
  | c :: w, d :: s, r => by
    simp only [str, List.cons_append, List.cons.injEq]
    by_cases h : d = c
    · rw [if_pos h, str_ok w]; simp [h]
    · rw [if_neg h]; simp [h]

theorem str_cases : ∀ (w : List Char) (s), str w s = .fail ∨ ∃ r, str w s = .ok () r
  | [], s => .inr ⟨_, rfl⟩
  | c :: w, [] => .inl rfl
  | c :: w, d :: s => by
    simp only [str]
    by_cases h : d = c
    · rw [if_pos h]; exact str_cases w s
    · rw [if_neg h]; exact .inl rfl

theorem str_fail {w s} (h : ∀ r, s ≠ w ++ r) : str w s = .fail := by
  rcases str_cases w s with h' | ⟨r, h'⟩
  · exact h'
  · exact absurd ((str_ok w).1 h') (h r)

theorem one_ok {f : Char → Bool} {s c r} : one f s = .ok c r ↔ s = c :: r ∧ f c = true := by
  cases s with
  | nil => simp [one]
  | cons d s =>
    simp only [one, List.cons.injEq]
    by_cases h : f d = true
    · rw [if_pos h]
      simp only [PRes.ok.injEq]
      exact ⟨fun e => ⟨e, e.1 ▸ h⟩, fun e => e.1⟩
    · rw [if_neg h]
      simp only [reduceCtorEq, false_iff]
      rintro ⟨⟨rfl, _⟩, h'⟩
      exact h h'

end Peg

open Peg

/-! ## Gaps -/

theorem Gap.append {a b : List Char} (ha : Gap a) (hb : Gap b) : Gap (a ++ b) := by
  induction ha with
  | nil => exact hb
  | space h _ ih => exact .space h ih
  | comment h _ ih =>
    simp only [List.cons_append, List.append_assoc]
    exact .comment h ih

theorem GapUnit.gap {u : List Char} (h : GapUnit u) {g} (hg : Gap g) : Gap (u ++ g) := by
  rcases h with ⟨c, hc, rfl⟩ | ⟨body, hb, rfl⟩
  · exact .space hc hg
  · have := Gap.comment hb hg
    simpa using this

/-- One character that does not begin the end of the line. -/
abbrev commentChar : Peg Char := (Peg.notAt eol).bind fun _ => Peg.one fun _ => true

theorem eol_ok {s r} : eol s = .ok () r ↔ s = '\n' :: r ∨ s = '\r' :: '\n' :: r := by
  unfold eol
  rw [or_ok, str_ok, str_ok]
  constructor
  · rintro (h | ⟨_, h⟩)
    · exact .inl h
    · exact .inr h
  · rintro (h | h)
    · exact .inl h
    · refine .inr ⟨str_fail fun r' => ?_, h⟩
      rw [h]
      simp

theorem eol_cases (s) : eol s = .fail ∨ ∃ r, eol s = .ok () r := by
  unfold eol
  rcases str_cases ['\n'] s with h | ⟨r, h⟩
  · rw [or_fail h]; exact str_cases _ s
  · exact .inr ⟨r, or_eq h⟩

theorem notAt_eq {α} {p : Peg α} {s r} (h : p.notAt s = .ok () r) : p s = .fail ∧ r = s := by
  unfold notAt at h
  cases hp : p s <;> rw [hp] at h <;> simp_all

theorem notAt_fail {α} {p : Peg α} {s a r} (h : p s = .ok a r) : p.notAt s = .fail := by
  unfold notAt
  rw [h]

theorem notAt_of_fail {α} {p : Peg α} {s} (h : p s = .fail) : p.notAt s = .ok () s := by
  unfold notAt
  rw [h]

theorem commentChar_ok {s c r} (h : commentChar s = .ok c r) : s = c :: r ∧ c ≠ '\n' := by
  obtain ⟨_, r1, h1, h2⟩ := bind_ok.1 h
  obtain ⟨h3, rfl⟩ := notAt_eq h1
  have h4 := (one_ok.1 h2).1
  refine ⟨h4, ?_⟩
  rintro rfl
  have : eol r1 = .ok () r := eol_ok.2 (.inl h4)
  rw [h3] at this
  cases this

theorem starN_comment_ok : ∀ n s as r, starN commentChar n s = .ok as r → s = as ++ r ∧ '\n' ∉ as
  | 0, s, as, r, h => by
    simp only [starN, PRes.ok.injEq] at h
    rw [← h.1, h.2]
    simp
  | n + 1, s, as, r, h => by
    rcases starN_ok h with ⟨_, rfl, rfl⟩ | ⟨a, r1, bs, hp, hs, rfl⟩
    · simp
    · obtain ⟨h1, h2⟩ := commentChar_ok hp
      obtain ⟨h3, h4⟩ := starN_comment_ok n r1 bs r hs
      rw [h1, h3]
      exact ⟨rfl, by simp [h4, Ne.symm h2]⟩

theorem starN_comment : ∀ n body g, '\n' ∉ body → (body ++ '\n' :: g).length < n →
    ∃ as r, starN commentChar n (body ++ '\n' :: g) = .ok as r ∧ eol r = .ok () g
  | 0, _, _, _, h => by omega
  | n + 1, [], g, _, _ => ⟨[], '\n' :: g, starN_stop _ (bind_fail (notAt_fail (eol_ok.2 (.inl rfl)))), eol_ok.2 (.inl rfl)⟩
  | n + 1, c :: b, g, hb, hl => by
    simp only [List.mem_cons, not_or] at hb
    simp only [List.cons_append, List.length_cons] at hl ⊢
    rcases eol_cases (c :: (b ++ '\n' :: g)) with h | ⟨r, h⟩
    · obtain ⟨as, r, h1, h2⟩ := starN_comment n b g hb.2 (by omega)
      refine ⟨c :: as, r, starN_cons ?_ h1, h2⟩
      show Peg.bind _ _ _ = _
      rw [bind_eq (notAt_of_fail h)]
      exact one_ok.2 ⟨rfl, rfl⟩
    · refine ⟨[], _, starN_stop _ (bind_fail (notAt_fail h)), ?_⟩
      rw [h]
      rcases eol_ok.1 h with h' | h'
      · cases h'; exact absurd rfl hb.1
      · simp only [List.cons.injEq] at h'
        cases b with
        | nil => simp only [List.nil_append, List.cons.injEq] at h'; rw [h'.2.2]
        | cons x b => simp only [List.cons_append, List.cons.injEq] at h'; exact absurd h'.2.1.symm (by simp_all)

theorem starN_commentN_cases (n s) : ∃ as r, starN commentChar n s = .ok as r := by
  refine starN_never (fun s h => ?_) n s
  unfold commentChar Peg.bind notAt at h
  rcases eol_cases s with h' | ⟨r, h'⟩ <;> rw [h'] at h <;> simp only [reduceCtorEq] at h
  cases s <;> simp [one] at h

theorem spaceOrComment_cases (s) : spaceOrComment s = .fail ∨ ∃ r, spaceOrComment s = .ok () r := by
  cases h : spaceOrComment s with
  | fail => exact .inl rfl
  | ok a r => exact .inr ⟨r, rfl⟩
  | err =>
    exfalso
    unfold spaceOrComment Peg.or at h
    cases h1 : ((Peg.one isSpace).map fun _ => ()) s with
    | ok a r => rw [h1] at h; cases h
    | err => cases s with
      | nil => simp [Peg.map, Peg.bind, one] at h1
      | cons c s => simp only [Peg.map, Peg.bind, one] at h1; by_cases hc : isSpace c = true <;> simp [hc, Peg.pure] at h1
    | fail =>
      rw [h1] at h
      simp only at h
      rcases str_cases ['/', '/'] s with h2 | ⟨r, h2⟩
      · rw [bind_fail h2] at h; cases h
      · rw [bind_eq h2] at h
        obtain ⟨as, r', h3⟩ := starN_commentN_cases (r.length + 1) r
        have h3 : star commentChar r = .ok as r' := h3
        rw [bind_eq h3] at h
        rcases eol_cases r' with h4 | ⟨_, h4⟩ <;> rw [h4] at h <;> cases h

theorem spaceOrComment_ok {s r} : spaceOrComment s = .ok () r ↔ ∃ u, GapUnit u ∧ s = u ++ r := by
  unfold spaceOrComment
  rw [or_ok]
  constructor
  · rintro (h | ⟨_, h⟩)
    · obtain ⟨c, h, _⟩ := map_ok.1 h
      obtain ⟨h1, h2⟩ := one_ok.1 h
      exact ⟨[c], .inl ⟨c, h2, rfl⟩, h1⟩
    · obtain ⟨_, r1, h1, h⟩ := bind_ok.1 h
      obtain ⟨as, r2, h2, h3⟩ := bind_ok.1 h
      obtain ⟨h4, h5⟩ := starN_comment_ok _ _ _ _ h2
      have h1 := (str_ok _).1 h1
      rcases eol_ok.1 h3 with h6 | h6
      · exact ⟨'/' :: '/' :: (as ++ ['\n']), .inr ⟨as, h5, rfl⟩, by rw [h1, h4, h6]; simp⟩
      · refine ⟨'/' :: '/' :: ((as ++ ['\r']) ++ ['\n']), .inr ⟨as ++ ['\r'], by simp [h5], rfl⟩, by rw [h1, h4, h6]; simp⟩
  · rintro ⟨u, ⟨c, hc, rfl⟩ | ⟨body, hb, rfl⟩, rfl⟩
    · exact .inl (map_eq (a := c) (one_ok.2 ⟨rfl, hc⟩))
    · refine .inr ⟨map_fail (by simp only [List.cons_append, one]; rw [if_neg (by decide)]), ?_⟩
      have e : '/' :: '/' :: (body ++ ['\n']) ++ r = ['/', '/'] ++ (body ++ '\n' :: r) := by simp
      rw [e, bind_eq ((str_ok _).2 rfl)]
      obtain ⟨as, r', h1, h2⟩ := starN_comment _ body r hb (Nat.lt_succ_self _)
      have h1 : star commentChar (body ++ '\n' :: r) = .ok as r' := h1
      rw [bind_eq h1, h2]

/-- The text does not begin with a gap. -/
def NoGap (r : List Char) : Prop := ∀ c ∈ r.head?, isSpace c = false ∧ c ≠ '/'

theorem spaceOrComment_noGap {r} (h : NoGap r) : spaceOrComment r = .fail := by
  rcases spaceOrComment_cases r with h' | ⟨r', h'⟩
  · exact h'
  · obtain ⟨u, ⟨c, hc, rfl⟩ | ⟨body, hb, rfl⟩, rfl⟩ := spaceOrComment_ok.1 h'
    · have := (h c (by simp)).1
      rw [hc] at this
      cases this
    · exact absurd rfl (h '/' (by simp)).2

theorem gap_complete {g r} (hg : Gap g) (hr : NoGap r) : gap (g ++ r) = .ok () r := by
  have key : ∀ n, (g ++ r).length < n → ∃ as, starN spaceOrComment n (g ++ r) = .ok as r := by
    induction hg with
    | nil => exact fun n _ => ⟨[], starN_stop _ (spaceOrComment_noGap hr)⟩
    | @space c g hc _ ih =>
      intro n hn
      simp only [List.cons_append, List.length_cons] at hn
      obtain ⟨n, rfl⟩ : ∃ m, n = m + 1 := ⟨n - 1, by omega⟩
      obtain ⟨as, h⟩ := ih n (by omega)
      exact ⟨_, starN_cons (spaceOrComment_ok.2 ⟨[c], .inl ⟨c, hc, rfl⟩, rfl⟩) h⟩
    | @comment body g hb _ ih =>
      intro n hn
      simp only [List.cons_append, List.length_cons, List.append_assoc, List.length_append] at hn
      obtain ⟨n, rfl⟩ : ∃ m, n = m + 1 := ⟨n - 1, by omega⟩
      obtain ⟨as, h⟩ := ih n (by simp only [List.length_append]; omega)
      exact ⟨_, starN_cons (spaceOrComment_ok.2 ⟨'/' :: '/' :: (body ++ ['\n']), .inr ⟨body, hb, rfl⟩, by simp⟩) h⟩
  obtain ⟨as, h⟩ := key _ (Nat.lt_succ_self _)
  exact map_eq (p := star spaceOrComment) h

theorem gap_sound {s r} (h : gap s = .ok () r) : ∃ g, Gap g ∧ s = g ++ r := by
  obtain ⟨as, h, _⟩ := map_ok.1 h
  have key : ∀ n s as, starN spaceOrComment n s = .ok as r → ∃ g, Gap g ∧ s = g ++ r := by
    intro n
    induction n with
    | zero => intro s as h; simp only [starN, PRes.ok.injEq] at h; exact ⟨[], .nil, h.2⟩
    | succ n ih =>
      intro s as h
      rcases starN_ok h with ⟨_, _, e⟩ | ⟨a, r1, bs, hp, hs, _⟩
      · exact ⟨[], .nil, e⟩
      · obtain ⟨g, hg, e⟩ := ih r1 bs hs
        obtain ⟨u, hu, e'⟩ := spaceOrComment_ok.1 hp
        exact ⟨u ++ g, hu.gap hg, by rw [e', e]; simp⟩
  exact key _ _ _ h

theorem gap_cases (s) : ∃ r, gap s = .ok () r := by
  obtain ⟨as, r, h⟩ := starN_never (p := spaceOrComment)
    (fun s h => by rcases spaceOrComment_cases s with h' | ⟨r, h'⟩ <;> rw [h'] at h <;> cases h) (s.length + 1) s
  exact ⟨r, map_eq (p := star spaceOrComment) h⟩

end PJ
