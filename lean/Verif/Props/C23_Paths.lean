import Verif.Model.Path
/-!
# C23: path strings round-trip
-/
namespace PJ

/-- A path as the grammar can produce it: no component is empty or contains a dot. -/
def Path.WellFormed (p : Path) : Prop := ∀ c ∈ p, c ≠ [] ∧ '.' ∉ c

private theorem takeWhile_append_dot (c r : List Char) (h : '.' ∉ c) :
    (c ++ '.' :: r).takeWhile (· != '.') = c := by
  induction c with
  | nil => simp
  | cons a c ih =>
    simp only [List.mem_cons, not_or] at h
    have ha : (a != '.') = true := by simp; exact fun e => h.1 e.symm
    simp [ha, ih h.2]

private theorem dropWhile_append_dot (c r : List Char) (h : '.' ∉ c) :
    (c ++ '.' :: r).dropWhile (· != '.') = '.' :: r := by
  induction c with
  | nil => simp
  | cons a c ih =>
    simp only [List.mem_cons, not_or] at h
    have ha : (a != '.') = true := by simp; exact fun e => h.1 e.symm
    simp [ha, ih h.2]

private theorem takeWhile_nodot (c : List Char) (h : '.' ∉ c) :
    c.takeWhile (· != '.') = c := by
  induction c with
  | nil => simp
  | cons a c ih =>
    simp only [List.mem_cons, not_or] at h
    have ha : (a != '.') = true := by simp; exact fun e => h.1 e.symm
    simp [ha, ih h.2]

private theorem dropWhile_nodot (c : List Char) (h : '.' ∉ c) :
    c.dropWhile (· != '.') = [] := by
  induction c with
  | nil => simp
  | cons a c ih =>
    simp only [List.mem_cons, not_or] at h
    have ha : (a != '.') = true := by simp; exact fun e => h.1 e.symm
    simp [ha, ih h.2]

private theorem parse_print_tail (p : Path) (h : ∀ c ∈ p, c ≠ [] ∧ '.' ∉ c.tail) : Path.fromString p.print = p := by
  unfold Path.fromString
  induction p with
  | nil => simp [Path.print, Path.fromChars]
  | cons c p ih =>
    have hc := h c (by simp)
    have ih := ih (fun c hc => h c (by simp [hc]))
    obtain ⟨a, c, rfl⟩ := List.exists_cons_of_ne_nil hc.1
    have hd : '.' ∉ c := hc.2
    cases p with
    | nil => simp [Path.print, Path.fromChars, takeWhile_nodot c hd, dropWhile_nodot c hd]
    | cons d p =>
      simp only [Path.print, List.cons_append] at ih ⊢
      rw [Path.fromChars, takeWhile_append_dot c _ hd, dropWhile_append_dot c _ hd]
      simpa using ih

/-- Parsing the printed form of a path gives the path back. -/
theorem C23_parse_print (p : Path) (h : p.WellFormed) : Path.fromString p.print = p :=
  parse_print_tail p fun c hc => ⟨(h c hc).1, fun e => (h c hc).2 (List.mem_of_mem_tail e)⟩

/-- Whatever string a path was parsed from, parsing its printed form gives it back. -/
theorem C23_reparse (s : List Char) : Path.fromString (Path.fromString s).print = Path.fromString s := by
  refine parse_print_tail _ fun c hc => ?_
  unfold Path.fromString at hc
  induction s using Path.fromChars.induct with
  | case1 => simp [Path.fromChars] at hc
  | case2 a cs ih =>
    rw [Path.fromChars] at hc
    rcases List.mem_cons.1 hc with rfl | hc
    · refine ⟨by simp, fun e => ?_⟩
      have := List.all_takeWhile (p := (· != '.')) (l := cs)
      simpa using List.all_eq_true.1 this _ e
    · exact ih hc

/-- Two well-formed paths printing the same are equal. -/
theorem C23_print_injective (p q : Path) (hp : p.WellFormed) (hq : q.WellFormed)
    (h : p.print = q.print) : p = q := by
  rw [← C23_parse_print p hp, ← C23_parse_print q hq, h]

/-- What parsing followed by printing does to an arbitrary string: either the string comes back, or
it ended in a dot and exactly this last dot is lost. -/
theorem C23_print_parse_all (s : List Char) :
    (Path.fromString s).print = s ∨ (Path.fromString s).print ++ ['.'] = s := by
  unfold Path.fromString
  induction s using Path.fromChars.induct with
  | case1 => simp [Path.fromChars, Path.print]
  | case2 c cs ih =>
    rw [Path.fromChars]
    have hsplit : cs.takeWhile (· != '.') ++ cs.dropWhile (· != '.') = cs :=
      List.takeWhile_append_dropWhile
    cases hd : cs.dropWhile (· != '.') with
    | nil =>
      rw [hd] at hsplit
      simp only [List.append_nil] at hsplit
      left
      simp [Path.fromChars, Path.print, hsplit]
    | cons d rest =>
      have hdd : d = '.' := by
        have := List.head?_dropWhile_not (p := (· != '.')) (l := cs)
        rw [hd] at this
        simpa using this
      subst hdd
      rw [hd] at ih hsplit
      simp only [List.drop_succ_cons, List.drop_zero] at ih ⊢
      cases hr : rest with
      | nil =>
        subst hr
        right
        simp [Path.fromChars, Path.print, hsplit]
      | cons e rest' =>
        have hne : Path.fromChars rest ≠ [] := by rw [hr, Path.fromChars]; simp
        have hpr : Path.print ((c :: cs.takeWhile (· != '.')) :: Path.fromChars rest)
            = (c :: cs.takeWhile (· != '.')) ++ '.' :: Path.print (Path.fromChars rest) := by
          obtain ⟨x, y, hxy⟩ := List.exists_cons_of_ne_nil hne
          rw [hxy, Path.print]; simp
        rw [← hr, hpr]
        rcases ih with ih | ih
        · left; rw [ih]; simp [hsplit]
        · right
          simp only [List.append_assoc, List.cons_append]
          rw [ih, hsplit]

/-- Printing a parsed path gives the string back, for every string not ending in a dot. -/
theorem C23_print_parse (s : List Char) (h : s.getLast? ≠ some '.') :
    (Path.fromString s).print = s := by
  rcases C23_print_parse_all s with h' | h'
  · exact h'
  · exfalso; apply h; rw [← h']; simp

/-- The empty component never results from parsing, whatever the string. -/
theorem C23_parse_nonempty (s : List Char) : ∀ c ∈ Path.fromString s, c ≠ [] := by
  unfold Path.fromString
  induction s using Path.fromChars.induct with
  | case1 => simp [Path.fromChars]
  | case2 c cs ih =>
    rw [Path.fromChars]
    intro d hd
    rcases List.mem_cons.1 hd with rfl | hd
    · simp
    · exact ih d hd

/-- Going into a path that was expanded by a name gives the path back; going in by any other name
gives the empty path. -/
theorem C23_into_expand (p : Path) (a b : Comp) :
    (p.expand a).into b = if a = b then p else [] := by
  by_cases h : a = b <;> simp [Path.into, Path.expand, Path.startsWith, Path.narrow, h]

example : Path.WellFormed [['a'], ['b', 'c'], ['_']] := by
  intro c hc; simp at hc; rcases hc with rfl | rfl | rfl <;> decide
/-- The side condition of `C23_print_parse` is needed. -/
example : (Path.fromString "a.".toList).print ≠ "a.".toList := by
  rw [show "a.".toList = ['a', '.'] by rfl]; simp [Path.fromString, Path.fromChars, Path.print]
example : "head._".toList.getLast? ≠ some '.' := by decide

end PJ
