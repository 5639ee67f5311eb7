import Verif.Model.Path
/-!
# Outlining with nominal types

`Model/Plan.lean` treats types as trees.  In the source structs and variants are nominal: a type value
is a reference to a definition, and `setTypeData` changes the definition for every place that refers to
it.  This module models `VariantOutlining` (`pj/variant_outlining.cpp` 8-56) on such definitions, with
everything left out that it does not look at: leaf types have no structure, variants have no terms.
-/
namespace PJ

/-- A type value: a leaf, or a `StructType`/`InlineVariantType`/`OutlineVariantType` by name. -/
inductive NTy
  | leaf
  | ref (name : Comp)
deriving DecidableEq, Repr

/-- The type data of a nominal type. -/
inductive NDef
  | struct (fs : List (Comp × NTy))
  | variant (outline : Bool)
deriving DecidableEq, Repr

/-- The definitions of the MLIR context; the first one of a name counts. -/
abbrev NEnv := List (Comp × NDef)

/-- `replaceStructField` (`pj/type_support.cpp`): field `i` gets another type. -/
def replaceField (fs : List (Comp × NTy)) (i : Nat) (t : NTy) : List (Comp × NTy) :=
  fs.mapIdx fun j f => if j = i then (f.1, t) else f

/-- `"__outline__" + name` (18). -/
def outlineName (n : Comp) : Comp := "__outline__".toList ++ n

/-- `tryOutlineVariant` (8-48): the new type and the definitions after it; the recursion depth is bounded
by `fuel` (definitions are acyclic). -/
def tryOutlineN : Nat → NEnv → NTy → Path → Option (NTy × NEnv)
  | 0, _, _, _ => none
  | _ + 1, _, .leaf, _ => none
  | fuel + 1, env, .ref n, path =>
    if path = [] then none
    else
      match env.lookup n with
      | none => none
      | some (.variant true) => none
      | some (.variant false) => some (.ref (outlineName n), (outlineName n, .variant true) :: env)
      | some (.struct fs) =>
        -- the loop over the fields (38-44)
        (List.range fs.length).findSome? fun i =>
          match fs[i]? with
          | none => none
          | some f =>
            match tryOutlineN fuel env f.2 (path.into f.1) with
            | none => none
            | some (t, env') => some (.ref n, (n, .struct (replaceField fs i t)) :: env')

/-- The paths of the outline variants in a type. -/
def outPaths : Nat → NEnv → NTy → List Path
  | 0, _, _ => []
  | _ + 1, _, .leaf => []
  | fuel + 1, env, .ref n =>
    match env.lookup n with
    | none => []
    | some (.variant o) => if o then [[]] else []
    | some (.struct fs) => fs.flatMap fun f => (outPaths fuel env f.2).map (f.1 :: ·)

end PJ
