/-!
# Parsing a file with its imports

Models `parseProtoFile` (`pj/parse.cpp` 955-987), `ImportDecl` (644-668) and the part of
`defineType` (188-194) that makes repeated parsing visible.  A file is the sequence of its
imports and its type definitions; everything else in a file has no influence on the outcomes
modelled here.
-/
namespace PJ

/-- A declaration of a file: an import (by resolved path) or the definition of a type. -/
inductive FileDecl
  | imp (file : Nat)
  | defn (name : Nat)
deriving DecidableEq

/-- The file system: path and contents. -/
abbrev Files := List (Nat × List FileDecl)

/-- Contents of a file; `none` if it does not exist. -/
def Files.get (fs : Files) (f : Nat) : Option (List FileDecl) := fs.lookup f

/-- Ways parsing can fail. -/
inductive ParseErr
  /-- "Cycle in imports!" (`pj/parse.cpp` 956-965) -/
  | cycle
  /-- "Cannot find import" (`pj/parse.cpp` 666) -/
  | missing
  /-- "Cannot re-define type" (`pj/parse.cpp` 190) -/
  | redefine
deriving DecidableEq

/-- `ParsingScope`: defined types and (ghost) the files in the order in which parsing them
finished. -/
structure ParseScope where
  defs : List Nat
  finished : List Nat
deriving DecidableEq

/-- Number of files that are not being parsed at the moment (termination measure only). -/
def Files.remaining (fs : Files) (pending : List Nat) : Nat :=
  (fs.filter (fun e => !pending.contains e.1)).length

theorem Files.remaining_lt (fs : Files) (pending : List Nat) (f : Nat)
    (h : ¬ pending.contains f = true) (ds : List FileDecl) (hf : fs.get f = some ds) :
    fs.remaining (f :: pending) < fs.remaining pending := by
  unfold Files.get at hf
  unfold Files.remaining
  induction fs with
  | nil => simp at hf
  | cons e fs ih =>
    have hmono : ∀ l : Files, (l.filter (fun e => !(f :: pending).contains e.1)).length ≤
        (l.filter (fun e => !pending.contains e.1)).length := by
      intro l
      induction l with
      | nil => simp
      | cons a l ihl =>
        simp only [List.filter_cons]
        by_cases h1 : pending.contains a.1 = true
        · have : (f :: pending).contains a.1 = true := by
            simp at h1 ⊢; exact Or.inr h1
          rw [h1, this]; simpa using ihl
        · have h1' : pending.contains a.1 = false := by simpa using h1
          rw [h1']
          by_cases h2 : (f :: pending).contains a.1 = true
          · rw [h2]; simp only [Bool.not_true, Bool.false_eq_true, if_false, Bool.not_false,
              if_true, List.length_cons]; omega
          · have h2' : (f :: pending).contains a.1 = false := by simpa using h2
            rw [h2']; simpa using ihl
    obtain ⟨k, v⟩ := e
    simp only [List.lookup] at hf
    simp only [List.filter_cons]
    split at hf
    · rename_i hk
      have hk : k = f := by simpa using (beq_iff_eq.1 hk).symm
      subst hk
      have h1 : pending.contains k = false := by simpa using h
      have h2 : (k :: pending).contains k = true := by simp
      rw [h1, h2]
      have := hmono fs
      simp only [Bool.not_true, Bool.false_eq_true, if_false, Bool.not_false, if_true,
        List.length_cons]
      omega
    · have ih := ih hf
      by_cases h1 : pending.contains k = true
      · have : (f :: pending).contains k = true := by simp at h1 ⊢; exact Or.inr h1
        rw [h1, this]; simpa using ih
      · have h1' : pending.contains k = false := by simpa using h1
        rw [h1']
        by_cases h2 : (f :: pending).contains k = true
        · rw [h2]; simp only [Bool.not_true, Bool.false_eq_true, if_false, Bool.not_false, if_true,
            List.length_cons]; omega
        · have h2' : (f :: pending).contains k = false := by simpa using h2
          rw [h2']; simpa using ih

mutual
/-- `parseProtoFile` (`pj/parse.cpp` 955-987).  `pending` is `scope.pending_files` (equal to
`scope.stack` as a set): the files whose parsing has begun but not finished.  Note that, as in the
source, nothing is looked up in `parsed_files`: a file imported twice is parsed twice. -/
def parseFile (fs : Files) (pending : List Nat) (sc : ParseScope) (f : Nat) :
    Except ParseErr ParseScope :=
  if _h : pending.contains f then .error .cycle
  else
    match _hf : fs.get f with
    | none => .error .missing
    | some ds =>
      match parseDecls fs (f :: pending) sc ds with
      | .error e => .error e
      | .ok sc' => .ok { sc' with finished := sc'.finished ++ [f] }
termination_by (fs.remaining pending, 0)
decreasing_by exact Prod.Lex.left _ _ (Files.remaining_lt fs pending f _h ds _hf)

/-- The declarations of a file in order (`star<TopDecl>`, `pj/parse.cpp` 948-953), with the actions
for imports (644-668) and type definitions (188-194). -/
def parseDecls (fs : Files) (pending : List Nat) (sc : ParseScope) :
    List FileDecl → Except ParseErr ParseScope
  | [] => .ok sc
  | .imp g :: ds =>
    match parseFile fs pending sc g with
    | .error e => .error e
    | .ok sc' => parseDecls fs pending sc' ds
  | .defn n :: ds =>
    if sc.defs.contains n then .error .redefine
    else parseDecls fs pending { sc with defs := n :: sc.defs } ds
termination_by ds => (fs.remaining pending, ds.length + 1)
decreasing_by
  all_goals apply Prod.Lex.right; simp +arith
end

/-- Parsing a root file (`pjc.cpp`): nothing pending, nothing defined. -/
def parseRoot (fs : Files) (f : Nat) : Except ParseErr ParseScope := parseFile fs [] ⟨[], []⟩ f

end PJ
