import Verif.Lemmas.GrammarEq
import Verif.Lemmas.GrammarWrite
/-!
# C47: what a schema file means

`parseText` is the parser.  `Text k s` says that the file `s` consists of the tokens `k` with white space and comments
where they are allowed, `declToks ds` are the tokens of the declarations `ds`, and `DeclsOK ds` says that names are not
empty and types are not referred to by names that read as builtin types.  The proof goes through every rule of the
grammar: it reads a text of its syntax tree and nothing else, whatever follows.
-/
namespace PJ

/-- A file is read as the declarations it is a text of, and rejected if there are none. -/
theorem C47_accepts (s : List Char) (ds : List Decl) : parseText s = some ds ↔ Text (declToks ds) s ∧ DeclsOK ds :=
  ⟨parse_sound, fun h => parse_complete h.1 h.2⟩

/-- No text has two readings. -/
theorem C47_unambiguous (s : List Char) (ds ds' : List Decl) (h : Text (declToks ds) s) (hd : DeclsOK ds)
    (h' : Text (declToks ds') s) (hd' : DeclsOK ds') : ds = ds' := by
  have h1 := parse_complete h hd
  rw [parse_complete h' hd'] at h1
  exact (Option.some.inj h1).symm

/-- Whatever the layout: files of the same tokens are read alike. -/
theorem C47_layout (s s' : List Char) (ds : List Decl) (h : Text (declToks ds) s) (h' : Text (declToks ds) s')
    (hd : DeclsOK ds) : parseText s = parseText s' := by
  rw [parse_complete h hd, parse_complete h' hd]

/-- The declarations that can be read are those whose tokens can be written: of any size and nesting, with any numbers
and any identifiers, also keywords, except for names that read as builtin types where a type is expected. -/
theorem C47_written (ds : List Decl) : (∃ s, parseText s = some ds) ↔ (∀ t ∈ declToks ds, t.Legal) ∧ DeclsOK ds := by
  constructor
  · rintro ⟨s, h⟩
    have h1 := parse_sound h
    exact ⟨h1.1.legal, h1.2⟩
  · rintro ⟨h1, h2⟩
    have hb := blanks_decls ds [] trivial (.inr rfl)
    rw [List.append_nil] at hb
    obtain ⟨s, hs⟩ := write h1 hb
    exact ⟨s, parse_complete hs.text h2⟩

/-- The empty file is read as no declarations, but a file of only white space and comments is rejected. -/
theorem C47_blank (g : List Char) (hg : Gap g) : parseText g = if g = [] then some [] else none := by
  have h : Peg.star (topDecl (g.length + 1)) g = .ok [] g := Peg.starN_stop _ (top_fail_gap hg)
  unfold parseText Peg.must
  rw [Peg.bind_eq h]
  cases g <;> rfl

theorem char_eq_iff (c d : Char) : c = d ↔ c.toNat = d.toNat :=
  ⟨fun h => by rw [h], fun h => by
    have := congrArg Char.ofNat h
    rwa [Char.ofNat_toNat, Char.ofNat_toNat] at this⟩

theorem identFirst_iff (c : Char) : identFirst c = true ↔
    65 ≤ c.toNat ∧ c.toNat ≤ 90 ∨ 97 ≤ c.toNat ∧ c.toNat ≤ 122 ∨ c.toNat = 95 := by
  simp only [identFirst, Char.isAlpha, Char.isUpper, Char.isLower, Bool.or_eq_true, Bool.and_eq_true, decide_eq_true_eq,
    beq_iff_eq, char_eq_iff c '_', ge_iff_le, UInt32.le_iff_toNat_le]
  change (65 ≤ c.toNat ∧ c.toNat ≤ 90 ∨ 97 ≤ c.toNat ∧ c.toNat ≤ 122) ∨ c.toNat = 95 ↔ _
  omega

theorem isDigit_iff (c : Char) : c.isDigit = true ↔ 48 ≤ c.toNat ∧ c.toNat ≤ 57 := by
  simp only [Char.isDigit, Bool.and_eq_true, decide_eq_true_eq, ge_iff_le, UInt32.le_iff_toNat_le]
  exact Iff.rfl

theorem isSpace_iff (c : Char) : isSpace c = true ↔ c.toNat = 32 ∨ 9 ≤ c.toNat ∧ c.toNat ≤ 13 := by
  simp only [isSpace, Bool.or_eq_true, beq_iff_eq, char_eq_iff c]
  change ((((c.toNat = 32 ∨ c.toNat = 10) ∨ c.toNat = 13) ∨ c.toNat = 9) ∨ c.toNat = 11) ∨ c.toNat = 12 ↔ _
  omega

/-- The characters of the language, by their codes: white space, the first and the other characters of identifiers, and
digits. -/
theorem C47_characters (c : Char) :
    (Gap [c] ↔ c.toNat = 32 ∨ 9 ≤ c.toNat ∧ c.toNat ≤ 13) ∧
    (IsIdent [c] ↔ 65 ≤ c.toNat ∧ c.toNat ≤ 90 ∨ 97 ≤ c.toNat ∧ c.toNat ≤ 122 ∨ c.toNat = 95) ∧
    (IsIdent ['x', c] ↔ 65 ≤ c.toNat ∧ c.toNat ≤ 90 ∨ 97 ≤ c.toNat ∧ c.toNat ≤ 122 ∨ c.toNat = 95 ∨
      48 ≤ c.toNat ∧ c.toNat ≤ 57) ∧
    ∀ n, IsNum [c] n ↔ c.toNat = n + 48 ∧ n < 10 := by
  refine ⟨?_, ?_, ?_, fun n => ?_⟩
  · rw [← isSpace_iff]
    constructor
    · intro h
      cases h with
      | space h _ => exact h
    · exact fun h => .space h .nil
  · simp [IsIdent, identFirst_iff]
  · simp only [IsIdent, List.mem_singleton, forall_eq, identOther, Bool.or_eq_true, identFirst_iff, isDigit_iff]
    have : (120 : Nat) = Char.toNat 'x' := rfl
    omega
  · simp only [IsNum, List.mem_singleton, forall_eq, isDigit_iff, decimal, List.foldl_cons, List.foldl_nil, ne_eq,
      List.cons_ne_nil, not_false_eq_true, true_and]
    omega

/-! ## Instances -/

/-- A file with a comment, a nested space, and most of the declarations. -/
example : parseText "import a.b;space s { // c
 struct P external { x:uint8[4][2:];y : int ; }
}variant V { p : s.P = 3 default ; q='c'; }enum E{a;b=0 default;}specification S:s.P@x . y;type T=float32[:7];
portal R : S { sizer z round_up : V; decoder d : V { handlers [a.b, c,]; } ; }precompile W:R(S);language cpp \"\"\"\"#\"\"\"".toList =
    some [.import_ [['a'], ['b']],
      .space ['s'] [.struct ['P'] true [⟨['x'], ⟨.builtin .uint 8, [.fixed 4, .var (some 2) none]⟩⟩,
        ⟨['y'], ⟨.ref [['i', 'n', 't']], []⟩⟩]],
      .variant ['V'] false [⟨['p'], some ⟨.ref [['s'], ['P']], []⟩, some (.num 3), true⟩, ⟨['q'], none, some (.chr 'c'), false⟩],
      .enum ['E'] false [⟨['a'], none, none, false⟩, ⟨['b'], none, some (.num 0), true⟩],
      .spec ['S'] [['s'], ['P']] (some ['x', ' ', '.', ' ', 'y']),
      .type ['T'] false ⟨.builtin .float 32, [.var none (some 7)]⟩,
      .portal ['R'] [['S']] [.sizer ['z'] true [['V']] none, .decoder ['d'] [['V']] (some (['a', '.', 'b'], [['c']], true))],
      .precomp ['W'] [['R']] [['S']],
      .language ['c', 'p', 'p'] ['"', '#']] := by
  decide +kernel

/-- Its declarations satisfy the hypotheses of the theorems above. -/
example : DeclsOK [.space ['s'] [.struct ['P'] true [⟨['x'], ⟨.ref [['i', 'n', 't']], [.fixed 4]⟩⟩]]] := by
  refine ⟨⟨fun f hf => ?_, trivial⟩, trivial⟩
  simp only [List.mem_singleton] at hf
  subst hf
  refine ⟨by simp, fun c hc => ⟨fun b d r h => ?_, ?_⟩⟩
  · cases hc
    cases b <;> simp [Builtin.chars] at h
  · cases hc
    decide

/-- Two files of the same tokens with a text of another language at the end. -/
example : Text (declToks ([.enum ['E'] false []] ++ [.language ['c'] ['x']])) "enum E{}language c \"\"\"x\"\"\"".toList ∧
    Text (declToks ([.enum ['E'] false []] ++ [.language ['c'] ['x']]))
      " enum E\n{ } // y\nlanguage //\n c\n\"\"\"x\"\"\"".toList ∧ Gap ['\n'] :=
  ⟨(parse_sound (by decide +kernel)).1, (parse_sound (by decide +kernel)).1, .space rfl .nil⟩

/-! ## What the grammar rejects -/

/-- The name `int8_t` can be given to a type, but the type cannot be used: after `int8` a modifier or the end of the
field is expected. -/
theorem C47_reserved_name : parseText "struct int8_t{}".toList = some [.struct ['i', 'n', 't', '8', '_', 't'] false []] ∧
    parseText "struct int8_t{}struct A{x:int8_t;}".toList = none := ⟨by decide +kernel, by decide +kernel⟩

/-- No file at all refers to it. -/
theorem C47_never_referred (s : List Char) (ds : List Decl) (h : parseText s = some ds) (n m : Comp) (e : Bool)
    (b : Builtin) (d : Char) (r : List Char) (hd : d.isDigit = true) (ms : List ModAst) (is : List Comp) :
    Decl.struct n e [⟨m, ⟨.ref ((b.chars ++ d :: r) :: is), ms⟩⟩] ∉ ds := by
  intro hm
  have h1 := declsOK.1 (parse_sound h).2 _ hm _ (List.mem_singleton.2 rfl)
  have h2 := (h1.2 _ rfl).1 b d r rfl
  rw [h2] at hd
  cases hd

/-- The newline at the end of a file whose last declaration is a text of another language is rejected. -/
theorem C47_text_at_end (n t : List Char) (ds : List Decl) (g : List Char) (hg : Gap g) (hne : g ≠ []) (s : List Char)
    (h : Text (declToks (ds ++ [.language n t])) s) (hd : DeclsOK ds) : parseText (s ++ g) = none := by
  exact no_gap_after_text h hd hg hne

/-- A comment in the last line of a file needs an end of line. -/
theorem C47_comment_at_end : parseText "enum E{}//x".toList = none ∧ parseText "enum E{}//x\n".toList = some [.enum ['E'] false []] :=
  ⟨by decide +kernel, by decide +kernel⟩

end PJ
