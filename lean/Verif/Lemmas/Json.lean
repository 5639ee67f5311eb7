import Verif.Model.Print
import Verif.Spec.Json
import Verif.Spec.Any
import Verif.Spec.Layout
import Verif.Lemmas.Same
/-!
# The printed text is read as what was printed
-/
namespace PJ
namespace Json

/-- What may follow a value. -/
def Stops (r : List Char) : Prop := r = [] ∨ ∃ c r', r = c :: r' ∧ (c = ',' ∨ c = '}' ∨ c = ']' ∨ c = '\n')

theorem Stops.notDigit {r : List Char} (h : Stops r) : ∀ c, r.head? = some c → c.isDigit = false ∧ c ≠ '.' ∧ c ≠ 'e' ∧ c ≠ 'E' := by
  intro c hc
  rcases h with rfl | ⟨d, r', rfl, hd⟩
  · cases hc
  · simp only [List.head?_cons, Option.some.injEq] at hc
    subst hc
    rcases hd with rfl | rfl | rfl | rfl <;> decide

theorem takeWhile_append {p : Char → Bool} : ∀ (l r : List Char), (∀ c ∈ l, p c = true) →
    (∀ c, r.head? = some c → p c = false) → (l ++ r).takeWhile p = l ∧ (l ++ r).dropWhile p = r
  | [], [], _, _ => by simp
  | [], c :: r, _, h => by simp [h c (by simp)]
  | c :: l, r, hl, h => by
    have := takeWhile_append l r (fun x hx => hl x (by simp [hx])) h
    simp [hl c (by simp), this]

theorem digits_head (n : Nat) : natText n = ['0'] ∨ ∃ c r, natText n = c :: r ∧ c ≠ '0' := by
  unfold natText
  induction n using Nat.strongRecOn with
  | ind n ih =>
    rw [Nat.toDigits_eq_if (by decide)]
    split
    · rename_i h
      by_cases h0 : n = 0
      · left; subst h0; rfl
      · right
        refine ⟨_, _, rfl, ?_⟩
        have : n = 1 ∨ n = 2 ∨ n = 3 ∨ n = 4 ∨ n = 5 ∨ n = 6 ∨ n = 7 ∨ n = 8 ∨ n = 9 := by omega
        rcases this with rfl | rfl | rfl | rfl | rfl | rfl | rfl | rfl | rfl <;> decide
    · rename_i h
      have hne : n / 10 ≠ 0 := by omega
      rcases ih (n / 10) (by omega) with h1 | ⟨c, r, h1, h2⟩
      · exfalso
        have := congrArg (fun l => Nat.ofDigitChars 10 l 0) h1
        simp only [Nat.ofDigitChars_ten_toDigits] at this
        exact hne this
      · right; exact ⟨c, _, by rw [h1]; rfl, h2⟩

theorem digits (n : Nat) : ∀ c ∈ natText n, c.isDigit = true := fun _ hc =>
  Nat.isDigit_of_mem_toDigits (by omega) (by omega) hc

theorem nat_text (n : Nat) (r : List Char) (h : Stops r) : nat (natText n ++ r) = some (n, r) := by
  obtain ⟨h1, h2⟩ := takeWhile_append (natText n) r (digits n) fun c hc => (h.notDigit c hc).1
  unfold nat
  simp only [h1, h2]
  rw [if_neg, if_neg, if_neg]
  · congr 2
    exact Nat.ofDigitChars_ten_toDigits
  · rintro (hc | hc | hc)
    · exact (h.notDigit _ hc).2.1 rfl
    · exact (h.notDigit _ hc).2.2.1 rfl
    · exact (h.notDigit _ hc).2.2.2 rfl
  · rintro ⟨ha, hb⟩
    rcases digits_head n with h0 | ⟨c, l, h0, hne⟩
    · rw [h0] at hb; exact hb rfl
    · rw [h0] at ha; simp at ha; exact hne ha
  · exact Nat.toDigits_ne_nil

theorem value_nat (k n : Nat) (r : List Char) (h : Stops r) : value (k + 1) (natText n ++ r) = some (.num n, r) := by
  have hn := nat_text n r h
  cases hd : natText n with
  | nil => exact absurd hd Nat.toDigits_ne_nil
  | cons c l =>
    have hc : c.isDigit = true := digits n c (by rw [hd]; simp)
    rw [hd, List.cons_append] at hn
    simp only [List.cons_append, value]
    rw [if_neg (by rintro rfl; simp at hc), if_neg (by rintro rfl; simp at hc), if_neg (by rintro rfl; simp at hc),
      if_neg (by rintro rfl; simp at hc), hn]
    rfl

theorem value_int (k : Nat) (i : Int) (r : List Char) (h : Stops r) :
    value (k + 1) (intText i ++ r) = some (.num i, r) := by
  unfold intText
  split
  · simp only [List.cons_append, value]
    rw [if_neg (by decide), if_neg (by decide), if_neg (by decide), if_pos trivial, nat_text _ r h]
    simp only [Option.map_some]
    congr 3; omega
  · rw [value_nat k _ r h]
    congr 3; omega

theorem str_text : ∀ (s r : List Char), (∀ c ∈ s, plainChar c = true) → str (s ++ '"' :: r) = some (s, r)
  | [], r, _ => by simp [str]
  | c :: s, r, h => by
    have hc := h c (by simp)
    have hq : c ≠ '"' := by rintro rfl; simp [plainChar] at hc
    simp only [List.cons_append, str, if_neg hq, hc, if_true, str_text s r fun x hx => h x (by simp [hx]), Option.map_some]

/-! ## More fuel -/

theorem more (n : Nat) : (∀ s x, value n s = some x → value (n + 1) s = some x) ∧
    (∀ s x, elements n s = some x → elements (n + 1) s = some x) ∧
    (∀ s x, members n s = some x → members (n + 1) s = some x) := by
  induction n with
  | zero => refine ⟨?_, ?_, ?_⟩ <;> intro s x h <;> simp [value, elements, members] at h
  | succ n ih =>
    obtain ⟨h1, h2, h3⟩ := ih
    refine ⟨?_, ?_, ?_⟩
    · intro s x h
      cases s with
      | nil => simp [value] at h
      | cons c r =>
        rw [value] at h ⊢
        by_cases hq : c = '"'
        · rw [if_pos hq] at h ⊢; exact h
        rw [if_neg hq] at h ⊢
        by_cases hb : c = '['
        · rw [if_pos hb] at h ⊢
          split at h
          · rename_i hc; rw [if_pos hc]; exact h
          · rename_i hc
            rw [if_neg hc]
            cases he : elements n r with
            | none => rw [he] at h; cases h
            | some y => rw [he] at h; rw [h2 r y he]; exact h
        rw [if_neg hb] at h ⊢
        by_cases ho : c = '{'
        · rw [if_pos ho] at h ⊢
          split at h
          · rename_i hc; rw [if_pos hc]; exact h
          · rename_i hc
            rw [if_neg hc]
            cases he : members n r with
            | none => rw [he] at h; cases h
            | some y => rw [he] at h; rw [h3 r y he]; exact h
        rw [if_neg ho] at h ⊢
        exact h
    · intro s x h
      rw [elements] at h ⊢
      cases hv : value n s with
      | none => rw [hv] at h; cases h
      | some y =>
        rw [hv] at h
        rw [h1 s y hv]
        obtain ⟨v, r⟩ := y
        simp only at h ⊢
        split at h
        · rename_i hc; rw [if_pos hc]; exact h
        · rename_i hc
          rw [if_neg hc]
          split at h
          · rename_i hd
            rw [if_pos hd]
            cases he : elements n r.tail with
            | none => rw [he] at h; cases h
            | some y => rw [he] at h; rw [h2 _ y he]; exact h
          · cases h
    · intro s x h
      rw [members] at h ⊢
      split at h
      · rename_i hq
        rw [if_pos hq]
        cases hs : str s.tail with
        | none => rw [hs] at h; cases h
        | some y =>
          obtain ⟨key, r⟩ := y
          rw [hs] at h
          simp only at h ⊢
          split at h
          · rename_i hc
            rw [if_pos hc]
            cases hv : value n r.tail with
            | none => rw [hv] at h; cases h
            | some y =>
              rw [hv] at h
              rw [h1 _ y hv]
              obtain ⟨v, r⟩ := y
              simp only at h ⊢
              split at h
              · rename_i hc; rw [if_pos hc]; exact h
              · rename_i hc
                rw [if_neg hc]
                split at h
                · rename_i hd
                  rw [if_pos hd]
                  cases he : members n r.tail with
                  | none => rw [he] at h; cases h
                  | some y => rw [he] at h; rw [h3 _ y he]; exact h
                · cases h
          · cases h
      · cases h

theorem value_mono {n : Nat} {s : List Char} {x} (h : value n s = some x) : ∀ {m}, n ≤ m → value m s = some x := by
  intro m hm
  induction m with
  | zero => cases Nat.le_zero.1 hm; exact h
  | succ m ih =>
    by_cases he : n = m + 1
    · subst he; exact h
    · exact (more m).1 s x (ih (by omega))

theorem lines_more : ∀ (n : Nat) (s : List Char) (vs), lines n s = some vs → lines (n + 1) s = some vs
  | 0, s, vs, h => by simp [lines] at h
  | n + 1, s, vs, h => by
    rw [lines] at h ⊢
    split at h
    · rename_i hs; rw [if_pos hs]; exact h
    · rename_i hs
      rw [if_neg hs]
      cases hv : value n s with
      | none => rw [hv] at h; cases h
      | some y =>
        rw [hv] at h
        rw [(more n).1 s y hv]
        obtain ⟨v, r⟩ := y
        simp only at h ⊢
        split at h
        · rename_i hc
          rw [if_pos hc]
          cases hl : lines n r.tail with
          | none => rw [hl] at h; cases h
          | some ws => rw [hl] at h; rw [lines_more n _ ws hl]; exact h
        · cases h

theorem lines_mono {n : Nat} {s : List Char} {x} (h : lines n s = some x) : ∀ {m}, n ≤ m → lines m s = some x := by
  intro m hm
  induction m with
  | zero => cases Nat.le_zero.1 hm; exact h
  | succ m ih =>
    by_cases he : n = m + 1
    · subst he; exact h
    · exact lines_more m s x (ih (by omega))

/-- A text says only one thing. -/
theorem Text.unique {s : List Char} {vs ws : List JVal} (h1 : Text s vs) (h2 : Text s ws) : vs = ws := by
  obtain ⟨n, h1⟩ := h1
  obtain ⟨m, h2⟩ := h2
  have e1 := lines_mono h1 (Nat.le_max_left n m)
  have e2 := lines_mono h2 (Nat.le_max_right n m)
  rw [e1] at e2
  exact Option.some.inj e2

end Json

/-! ## Printing -/

open Json

theorem printAny_head (F : Nat → Nat → List Char) (x : AVal) (h : Clean x) :
    ∃ c r, printAny F x = c :: r ∧ c ≠ ']' := by
  cases x with
  | int w s v =>
    simp only [printAny, intText]
    split
    · exact ⟨_, _, rfl, by decide⟩
    · cases hd : natText v.natAbs with
      | nil => exact absurd hd Nat.toDigits_ne_nil
      | cons c l =>
        refine ⟨c, l, rfl, ?_⟩
        rintro rfl
        have := digits v.natAbs ']' (by rw [hd]; simp)
        simp at this
  | float => exact absurd h (by simp [Clean])
  | unit => exact ⟨_, _, rfl, by decide⟩
  | struct fs => exact ⟨_, _, by simp only [printAny, List.cons_append]; rfl, by decide⟩
  | variant e g n v => exact ⟨'{', _, by simp only [printAny, textTag, List.append_assoc, List.cons_append]; exact rfl, by decide⟩
  | seq s l =>
    simp only [printAny]
    split <;> exact ⟨_, _, by rw [List.cons_append], by decide⟩

theorem stops_brace (r : List Char) : Stops ('}' :: r) := Or.inr ⟨_, _, rfl, by simp⟩
theorem stops_bracket (r : List Char) : Stops (']' :: r) := Or.inr ⟨_, _, rfl, by simp⟩
theorem stops_comma (r : List Char) : Stops (',' :: r) := Or.inr ⟨_, _, rfl, by simp⟩
theorem stops_newline (r : List Char) : Stops ('\n' :: r) := Or.inr ⟨_, _, rfl, by simp⟩

/-- A name with a value, and what follows. -/
theorem members_step {k : Nat} {name : List Char} {text r : List Char} {v : JVal} (hn : ∀ c ∈ name, plainChar c = true)
    (hv : value k (text ++ r) = some (v, r)) (h : r.head? = some '}' ∨ r.head? = some ',') :
    members (k + 1) (('"' :: name ++ textColon ++ text) ++ r) =
      if r.head? = some '}' then some ([(name, v)], r.tail)
      else (members k r.tail).map fun x => ((name, v) :: x.1, x.2) := by
  have hq : ('"' :: name ++ textColon ++ text) ++ r = '"' :: (name ++ '"' :: (':' :: (text ++ r))) := by
    simp [textColon]
  rw [hq, members]
  simp only [List.head?_cons, List.tail_cons, if_true, str_text name _ hn, hv]
  rcases h with h | h <;> simp [h]

mutual
theorem print_value (F : Nat → Nat → List Char) : ∀ (x : AVal), Clean x →
    ∃ n, ∀ k, n ≤ k → ∀ r, Stops r → value k (printAny F x ++ r) = some (jsonOf x, r)
  | .int w s v, _ => ⟨1, fun k hk r hr => by
    obtain ⟨k, rfl⟩ : ∃ j, k = j + 1 := ⟨k - 1, by omega⟩
    simp only [printAny, jsonOf]; exact value_int k v r hr⟩
  | .float w b, h => absurd h (by simp [Clean])
  | .unit, _ => ⟨1, fun k hk r hr => by
    obtain ⟨k, rfl⟩ : ∃ j, k = j + 1 := ⟨k - 1, by omega⟩
    simp [printAny, jsonOf, value]⟩
  | .struct fs, h => by
    obtain ⟨n, hn⟩ := print_members F fs h
    refine ⟨n + 1, fun k hk r hr => ?_⟩
    obtain ⟨k, rfl⟩ : ∃ j, k = j + 1 := ⟨k - 1, by omega⟩
    simp only [printAny, jsonOf, List.cons_append, List.append_assoc, List.nil_append, value]
    rw [if_neg (by decide), if_neg (by decide), if_pos trivial]
    cases fs with
    | nil => simp [printFields, jsonFields]
    | cons f fs =>
      have := hn k (by omega) r (by simp)
      rw [if_neg, this]
      · rfl
      · obtain ⟨c, v⟩ := f
        simp [printFields, printField]
  | .variant enum tag name v, h => by
    obtain ⟨n, hn⟩ := print_value F v h.2
    refine ⟨n + 5, fun k hk r hr => ?_⟩
    obtain ⟨k, rfl⟩ : ∃ j, k = j + 5 := ⟨k - 5, by omega⟩
    have hT : ∀ c ∈ keyTag, plainChar c = true := by decide
    have hN : ∀ c ∈ keyName, plainChar c = true := by decide
    have hD : ∀ c ∈ keyData, plainChar c = true := by decide
    have hval := fun r hr => hn (k + 1) (by omega) r hr
    -- the data
    have h3 : members (k + 2) (('"' :: keyData ++ textColon ++ printAny F v) ++ '}' :: r) =
        some ([(keyData, jsonOf v)], r) := by
      rw [members_step hD (hval _ (stops_brace r)) (Or.inl rfl)]
      simp
    -- the name
    have hname : ∀ r', value (k + 2) (('"' :: name ++ ['"']) ++ r') = some (.str name, r') := by
      intro r'
      simp only [List.cons_append, List.append_assoc, List.nil_append, value, if_true, str_text name r' h.1, Option.map_some]
    have h2 : members (k + 3) (('"' :: keyName ++ textColon ++ ('"' :: name ++ ['"'])) ++
        ((if enum then [] else textData ++ printAny F v) ++ '}' :: r)) =
        some ((keyName, .str name) :: (if enum then [] else [(keyData, jsonOf v)]), r) := by
      rw [members_step hN (hname _) (by cases enum <;> simp [textData])]
      cases enum with
      | true => simp
      | false =>
        have e : ((if false = true then [] else textData ++ printAny F v) ++ '}' :: r).tail =
            ('"' :: keyData ++ textColon ++ printAny F v) ++ '}' :: r := by simp [textData, textColon, keyData]
        rw [e, h3]
        simp [textData]
    -- the tag
    have h1 := members_step (k := k + 3) hT (value_nat (k + 2) tag (',' :: (('"' :: keyName ++ textColon ++
      ('"' :: name ++ ['"'])) ++ ((if enum then [] else textData ++ printAny F v) ++ '}' :: r)))
      (stops_comma _)) (Or.inr rfl)
    rw [List.tail_cons, h2] at h1
    have e : printAny F (.variant enum tag name v) ++ r = '{' :: (('"' :: keyTag ++ textColon ++ natText tag) ++
      ',' :: (('"' :: keyName ++ textColon ++
      ('"' :: name ++ ['"'])) ++ ((if enum then [] else textData ++ printAny F v) ++ '}' :: r))) := by
      simp only [printAny, List.append_assoc]
      simp [textTag, textName, textColon, keyTag, keyName]
    rw [e, value]
    rw [if_neg (by decide), if_neg (by decide), if_pos rfl, if_neg (by simp), h1]
    simp [jsonOf]
  | .seq true l, h => ⟨1, fun k hk r hr => by
    obtain ⟨k, rfl⟩ : ∃ j, k = j + 1 := ⟨k - 1, by omega⟩
    simp only [Clean, if_true] at h
    have hs : (l.map charText).flatten = l.map fun x => match x with | .int _ _ v => Char.ofNat v.toNat | _ => '?' := by
      clear hr hk
      induction l with
      | nil => rfl
      | cons x xs ih =>
        obtain ⟨w, s, v, rfl, h1, h2, _⟩ := h x (by simp)
        simp only [List.map_cons, List.flatten_cons, charText, ih fun y hy => h y (by simp [hy])]
        have : v % 256 = v := by omega
        simp [this]
    simp only [printAny, jsonOf, if_true, List.cons_append, List.append_assoc, List.nil_append, value]
    rw [hs, str_text]
    · rfl
    · intro c hc
      obtain ⟨x, hx, rfl⟩ := List.mem_map.1 hc
      obtain ⟨w, s, v, rfl, _, _, h3⟩ := h x hx
      exact h3⟩
  | .seq false l, h => by
    obtain ⟨n, hn⟩ := print_elements F l (by simpa [Clean] using h)
    refine ⟨n + 1, fun k hk r hr => ?_⟩
    obtain ⟨k, rfl⟩ : ∃ j, k = j + 1 := ⟨k - 1, by omega⟩
    simp only [printAny, jsonOf, Bool.false_eq_true, if_false, List.cons_append, List.append_assoc, List.nil_append, value]
    rw [if_neg (by decide), if_pos trivial]
    cases l with
    | nil => simp [printElems, jsonElems]
    | cons x xs =>
      have := hn k (by omega) r (by simp)
      rw [if_neg, this]
      · rfl
      · simp only [Clean, Bool.false_eq_true, if_false, CleanElems] at h
        obtain ⟨c, t, hc, hne⟩ := printAny_head F x h.1
        simp [printElems, hc, hne]
termination_by structural x => x
theorem print_members (F : Nat → Nat → List Char) : ∀ (fs : List (Comp × AVal)), CleanFields fs →
    ∃ n, ∀ k, n ≤ k → ∀ r, fs ≠ [] → members k (printFields F fs ++ '}' :: r) = some (jsonFields fs, r)
  | [], _ => ⟨0, fun _ _ _ h => absurd rfl h⟩
  | f :: fs, h => by
    obtain ⟨n1, h1⟩ := print_field F f h.1
    obtain ⟨n2, h2⟩ := print_members F fs h.2
    refine ⟨max n1 n2 + 1, fun k hk r _ => ?_⟩
    obtain ⟨k, rfl⟩ : ∃ j, k = j + 1 := ⟨k - 1, by omega⟩
    obtain ⟨c, v⟩ := f
    have h1 := h1 k (by omega)
    simp only [printFields, printField, List.append_assoc, jsonFields, jsonField] at h1 ⊢
    cases fs with
    | nil =>
      have := members_step (k := k) h.1.1 (h1 ('}' :: r) (stops_brace r)) (Or.inl rfl)
      simp only [List.append_assoc] at this
      simp only [printMoreFields, List.nil_append, this, jsonFields]
      simp
    | cons g gs =>
      have := members_step (k := k) h.1.1 (h1 (',' :: (printFields F (g :: gs) ++ '}' :: r)) (stops_comma _)) (Or.inr rfl)
      rw [List.tail_cons, h2 k (by omega) r (by simp)] at this
      simp only [List.append_assoc, printFields] at this
      simp only [printMoreFields, List.cons_append, List.append_assoc] at this ⊢
      rw [this]
      simp
termination_by structural fs => fs
theorem print_field (F : Nat → Nat → List Char) : ∀ (f : Comp × AVal), CleanField f →
    ∃ n, ∀ k, n ≤ k → ∀ r, Stops r → value k (printAny F f.2 ++ r) = some (jsonOf f.2, r)
  | (_, v), h => print_value F v h.2
termination_by structural f => f
theorem print_elements (F : Nat → Nat → List Char) : ∀ (l : List AVal), CleanElems l →
    ∃ n, ∀ k, n ≤ k → ∀ r, l ≠ [] → elements k (printElems F l ++ ']' :: r) = some (jsonElems l, r)
  | [], _ => ⟨0, fun _ _ _ h => absurd rfl h⟩
  | x :: xs, h => by
    obtain ⟨n1, h1⟩ := print_value F x h.1
    obtain ⟨n2, h2⟩ := print_elements F xs h.2
    refine ⟨max n1 n2 + 1, fun k hk r _ => ?_⟩
    obtain ⟨k, rfl⟩ : ∃ j, k = j + 1 := ⟨k - 1, by omega⟩
    have h1 := h1 k (by omega)
    simp only [printElems, List.append_assoc, jsonElems, elements]
    cases xs with
    | nil =>
      simp only [printMoreElems, List.nil_append, h1 (']' :: r) (stops_bracket r), jsonElems]
      simp
    | cons g gs =>
      have h2 := h2 k (by omega) r (by simp)
      simp only [printMoreElems, List.cons_append, List.append_assoc, h1 _ (stops_comma _), printElems] at h2 ⊢
      simp only [List.head?_cons, List.tail_cons, h2]
      simp
termination_by structural l => l
end

/-! ## Different values are printed differently -/

theorem ofNat_byte (n : Nat) (h : n < 256) : (Char.ofNat n).toNat = n := by
  have hv : n.isValidChar := Or.inl (by omega)
  unfold Char.ofNat
  rw [dif_pos hv]
  simp only [Char.toNat, Char.ofNatAux]
  rfl

theorem charOf_inj {a b : Int} (ha : 0 ≤ a ∧ a < 256) (hb : 0 ≤ b ∧ b < 256)
    (h : Char.ofNat a.toNat = Char.ofNat b.toNat) : a = b := by
  have h1 := ofNat_byte a.toNat (by omega)
  have h2 := ofNat_byte b.toNat (by omega)
  rw [h, h2] at h1
  omega

theorem mapAll_cons_some {α β} {f : α → Option β} {x : α} {xs : List α} {ys : List β} (h : mapAll f (x :: xs) = some ys) :
    ∃ y r, f x = some y ∧ mapAll f xs = some r ∧ ys = y :: r := by
  simp only [mapAll] at h
  split at h
  · rename_i y r hy hr
    cases h
    exact ⟨y, r, hy, hr, rfl⟩
  · cases h

theorem view_chars {e : Ty} (he : e.isChar = true) : ∀ (xs ys : List Val) (l k : List AVal),
    mapAll (view e) xs = some l → mapAll (view e) ys = some k →
    (∀ x ∈ l, ∃ w s v, x = .int w s v ∧ 0 ≤ v ∧ v < 256 ∧ plainChar (Char.ofNat v.toNat) = true) →
    (∀ x ∈ k, ∃ w s v, x = .int w s v ∧ 0 ≤ v ∧ v < 256 ∧ plainChar (Char.ofNat v.toNat) = true) →
    (l.map fun x => match x with | .int _ _ v => Char.ofNat v.toNat | _ => '?') =
      (k.map fun x => match x with | .int _ _ v => Char.ofNat v.toNat | _ => '?') → xs = ys := by
  obtain ⟨w, s, al, rfl⟩ : ∃ w s al, e = .int w s al := by
    cases e <;> simp [Ty.isChar] at he
    exact ⟨_, _, _, rfl⟩
  intro xs
  induction xs with
  | nil =>
    intro ys l k h1 h2 _ _ h
    simp only [mapAll, Option.some.injEq] at h1
    subst h1
    cases ys with
    | nil => rfl
    | cons y ys =>
      obtain ⟨a, r, _, _, rfl⟩ := mapAll_cons_some h2
      simp at h
  | cons x xs ih =>
    intro ys l k h1 h2 c1 c2 h
    obtain ⟨a, r, ha, hr, rfl⟩ := mapAll_cons_some h1
    cases ys with
    | nil =>
      simp only [mapAll, Option.some.injEq] at h2
      subst h2
      simp at h
    | cons y ys =>
      obtain ⟨b, q, hb, hq, rfl⟩ := mapAll_cons_some h2
      simp only [List.map_cons, List.cons.injEq] at h
      have hrest := ih ys r q hr hq (fun z hz => c1 z (by simp [hz])) (fun z hz => c2 z (by simp [hz])) h.2
      obtain ⟨_, _, v1, rfl, g1, g2, _⟩ := c1 a (by simp)
      obtain ⟨_, _, v2, rfl, g3, g4, _⟩ := c2 b (by simp)
      have := charOf_inj ⟨g1, g2⟩ ⟨g3, g4⟩ h.1
      subst this
      cases x <;> simp [view] at ha
      cases y <;> simp [view] at hb
      obtain ⟨_, _, rfl⟩ := ha
      obtain ⟨_, _, rfl⟩ := hb
      rw [hrest]

/-- A value of a variant, as seen. -/
theorem viewTerm_some {enum : Bool} {c : Comp} {p : Val} {x : AVal} : ∀ {ts : Terms}, viewTerm enum ts c p = some x →
    ∃ u ∈ ts.toList, u.name = c ∧ ∃ y, view u.ty p = some y ∧ x = .variant enum u.tag c y
  | .nil, h => by simp [viewTerm] at h
  | .cons n g as t r, h => by
    simp only [viewTerm] at h
    split at h
    · rename_i hn
      split at h
      · rename_i y hy
        cases h
        exact ⟨⟨n, g, as, t⟩, by simp [Terms.toList], hn, y, hy, by rw [← hn]⟩
      · cases h
    · obtain ⟨u, hu, h1⟩ := viewTerm_some (ts := r) h
      exact ⟨u, by simp [Terms.toList, hu], h1⟩

theorem enum_units : ∀ {ts : Terms}, ts.enum = true → ∀ t ∈ ts.toList, t.ty = .unit
  | .nil, _, t, ht => by simp [Terms.toList] at ht
  | .cons _ _ _ t r, h, u, hu => by
    simp only [Terms.enum, Bool.and_eq_true] at h
    simp only [Terms.toList, List.mem_cons] at hu
    rcases hu with rfl | hu
    · simp only
      cases t <;> first | rfl | (exact absurd h.1 (by simp [Ty.isUnit]))
    · exact enum_units h.2 u hu

theorem view_inj_elems {e : Ty} (ih : ∀ v w x y, view e v = some x → view e w = some y → Clean x → Clean y →
    jsonOf x = jsonOf y → v = w) : ∀ (xs ys : List Val) (l k : List AVal),
    mapAll (view e) xs = some l → mapAll (view e) ys = some k → CleanElems l → CleanElems k →
    jsonElems l = jsonElems k → xs = ys
  | [], ys, l, k, h1, h2, _, _, h => by
    simp only [mapAll, Option.some.injEq] at h1
    subst h1
    cases ys with
    | nil => rfl
    | cons y ys =>
      obtain ⟨a, r, _, _, rfl⟩ := mapAll_cons_some h2
      simp [jsonElems] at h
  | x :: xs, ys, l, k, h1, h2, c1, c2, h => by
    obtain ⟨a, r, ha, hr, rfl⟩ := mapAll_cons_some h1
    cases ys with
    | nil =>
      simp only [mapAll, Option.some.injEq] at h2
      subst h2
      simp [jsonElems] at h
    | cons y ys =>
      obtain ⟨b, q, hb, hq, rfl⟩ := mapAll_cons_some h2
      simp only [jsonElems, List.cons.injEq] at h
      rw [ih x y a b ha hb c1.1 c2.1 h.1, view_inj_elems ih xs ys r q hr hq c1.2 c2.2 h.2]

mutual
/-- Values of a type that look the same in JSON are the same. -/
theorem view_inj : ∀ (t : Ty) (v w : Val) (x y : AVal), WF t → view t v = some x → view t w = some y → Clean x → Clean y →
    jsonOf x = jsonOf y → v = w
  | .int _ _ _, v, w, x, y, _, h1, h2, _, _, h => by
    cases v <;> simp [view] at h1
    cases w <;> simp [view] at h2
    subst h1; subst h2
    simp only [jsonOf, JVal.num.injEq] at h
    rw [h]
  | .float _ _, v, w, x, y, _, h1, h2, c1, _, h => by
    cases v <;> simp [view] at h1
    obtain ⟨_, rfl⟩ := h1
    exact absurd c1 (by simp [Clean])
  | .unit, v, w, x, y, _, h1, h2, _, _, h => by
    cases v <;> simp [view] at h1
    cases w <;> simp [view] at h2
    rfl
  | .struct fs _ _, v, w, x, y, hw, h1, h2, c1, c2, h => by
    cases v <;> simp only [view, reduceCtorEq] at h1
    cases w <;> simp only [view, reduceCtorEq] at h2
    split at h1
    · rename_i l hl
      split at h2
      · rename_i k hk
        cases h1; cases h2
        simp only [jsonOf, JVal.obj.injEq] at h
        rw [viewFields_inj fs _ _ l k hw.1 hl hk c1 c2 h]
      · cases h2
    · cases h1
  | .variant ts l, v, w, x, y, hw, h1, h2, c1, c2, h => by
    cases v <;> simp only [view, reduceCtorEq] at h1
    cases w <;> simp only [view, reduceCtorEq] at h2
    obtain ⟨u1, hu1, rfl, y1, hy1, rfl⟩ := viewTerm_some h1
    obtain ⟨u2, hu2, rfl, y2, hy2, rfl⟩ := viewTerm_some h2
    simp only [jsonOf, JVal.obj.injEq, List.cons_append, List.nil_append, List.cons.injEq, Prod.mk.injEq, true_and,
      JVal.num.injEq, Int.natCast_inj, JVal.str.injEq] at h
    obtain ⟨h3, h4, h5⟩ := h
    have hu : u1 = u2 := nodup_map_inj (f := Term.tag) hw.2.tags hu1 hu2 h3
    subst hu
    cases hen : ts.enum with
    | true =>
      have := enum_units hen u1 hu1
      rw [this] at hy1 hy2
      rename_i p q
      cases p <;> simp [view] at hy1
      cases q <;> simp [view] at hy2
      rfl
    | false =>
      rw [hen] at h5
      simp only [Bool.false_eq_true, if_false, List.cons.injEq, Prod.mk.injEq, true_and, and_true] at h5
      rw [view_injTerms ts u1 hu1 _ _ y1 y2 hw.1 hy1 hy2 c1.2 c2.2 h5]
  | .array e _ _ _, v, w, x, y, hw, h1, h2, c1, c2, h => by
    cases v <;> simp only [view, reduceCtorEq] at h1
    cases w <;> simp only [view, reduceCtorEq] at h2
    split at h1
    · rename_i l hl
      split at h2
      · rename_i k hk
        cases h1; cases h2
        cases he : e.isChar with
        | true =>
          simp only [he, Clean, if_true, jsonOf, JVal.str.injEq] at c1 c2 h
          rw [view_chars he _ _ l k hl hk c1 c2 h]
        | false =>
          simp only [he, Clean, Bool.false_eq_true, if_false, jsonOf, JVal.arr.injEq] at c1 c2 h
          rw [view_inj_elems (fun v w x y => view_inj e v w x y hw.1) _ _ l k hl hk c1 c2 h]
      · cases h2
    · cases h1
  | .vector e _, v, w, x, y, hw, h1, h2, c1, c2, h => by
    cases v <;> simp only [view, reduceCtorEq] at h1
    cases w <;> simp only [view, reduceCtorEq] at h2
    split at h1
    · rename_i l hl
      split at h2
      · rename_i k hk
        cases h1; cases h2
        cases he : e.isChar with
        | true =>
          simp only [he, Clean, if_true, jsonOf, JVal.str.injEq] at c1 c2 h
          rw [view_chars he _ _ l k hl hk c1 c2 h]
        | false =>
          simp only [he, Clean, Bool.false_eq_true, if_false, jsonOf, JVal.arr.injEq] at c1 c2 h
          rw [view_inj_elems (fun v w x y => view_inj e v w x y hw.1) _ _ l k hl hk c1 c2 h]
      · cases h2
    · cases h1
termination_by structural t => t
theorem viewFields_inj : ∀ (fs : Fields) (vs ws : List (Comp × Val)) (l k : List (Comp × AVal)), WFFields fs →
    viewFields fs vs = some l → viewFields fs ws = some k → CleanFields l → CleanFields k →
    jsonFields l = jsonFields k → vs = ws
  | .nil, vs, ws, l, k, _, h1, h2, _, _, _ => by
    cases vs <;> simp [viewFields] at h1
    cases ws <;> simp [viewFields] at h2
    rfl
  | .cons c o t r, vs, ws, l, k, hw, h1, h2, c1, c2, h => by
    cases vs with
    | nil => simp [viewFields] at h1
    | cons v vs =>
    cases ws with
    | nil => simp [viewFields] at h2
    | cons w ws =>
    obtain ⟨n1, v⟩ := v
    obtain ⟨n2, w⟩ := w
    simp only [viewFields] at h1 h2
    split at h1
    · rename_i e1
      split at h2
      · rename_i e2
        split at h1
        · rename_i x xs hx hxs
          split at h2
          · rename_i y ys hy hys
            cases h1; cases h2
            simp only [jsonFields, jsonField, List.cons.injEq, Prod.mk.injEq, true_and] at h
            rw [e1, e2, view_inj t v w x y hw.1 hx hy c1.1.2 c2.1.2 h.1, viewFields_inj r vs ws xs ys hw.2 hxs hys c1.2 c2.2 h.2]
          · cases h2
        · cases h1
      · cases h2
    · cases h1
termination_by structural fs => fs
theorem view_injTerms : ∀ (ts : Terms) (u : Term), u ∈ ts.toList → ∀ (v w : Val) (x y : AVal), WFTerms ts →
    view u.ty v = some x → view u.ty w = some y → Clean x → Clean y → jsonOf x = jsonOf y → v = w
  | .nil, u, hu, _, _, _, _, _, _, _, _, _, _ => by simp [Terms.toList] at hu
  | .cons n g as t r, u, hu, v, w, x, y, hw, h1, h2, c1, c2, h => by
    simp only [Terms.toList, List.mem_cons] at hu
    rcases hu with rfl | hu
    · exact view_inj t v w x y hw.1 h1 h2 c1 c2 h
    · exact view_injTerms r u hu v w x y hw.2 h1 h2 c1 c2 h
termination_by structural ts => ts
end

end PJ
