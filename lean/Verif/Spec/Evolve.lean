import Verif.Spec.Schema
import Verif.Spec.Layout
/-!
# Schema evolution

Which changes of a schema are outside the known defects, in terms of the two schemas only: nothing here
mentions a wire type.
-/
namespace PJ

/-- Kept in any number of bytes that can hold it, the number does not set the top bit. -/
def TopFree (m : Nat) : Prop := ∀ w, 1 ≤ w → m < 256 ^ w → 2 * (m + 1) ≤ 256 ^ w

/-- Two enums outside the defects of the enum table (C11): every term of the sender is known with the same
tag, or the tags are too sparse for a table, or the default term has tag 0 and the largest tag leaves the
top bit free. -/
def EnumEvolves (dts : Terms) (dflt : Nat) (sts : Terms) : Prop :=
  (∀ t ∈ sts.toList, ∃ u ∈ dts.toList, u.name = t.name ∧ u.tag = t.tag) ∨
  4 * sts.toList.length < (sts.toList.map (·.tag)).foldl max 0 ∨
  (dts.toList[dflt]?.map (·.tag) = some 0 ∧ TopFree ((sts.toList.map (·.tag)).foldl max 0))

mutual
/-- The second schema can be received by the first: the kinds of things with the same name fit together,
and for enums and vectors the conditions for being outside the known defects hold. -/
def Evolves : Ty → Ty → Prop
  | .unit, _ => True
  | .int _ _ _, src =>
    match src with
    | .unit | .int _ _ _ => True
    | _ => False
  | .float _ _, src =>
    match src with
    | .unit | .float _ _ => True
    | _ => False
  | .struct dfs _ _, src =>
    match src with
    | .unit => True
    | .struct sfs _ _ => EvolvesFields dfs sfs
    | _ => False
  | .variant dts dl, src =>
    match src with
    | .unit => True
    | .variant sts _ =>
      ((∀ t ∈ dts.toList, t.ty.bytes = false) → (∀ t ∈ sts.toList, t.ty.bytes = false) →
        EnumEvolves dts dl.dflt sts) ∧
      ∀ t ∈ sts.toList, EvolvesNamed dts t.name t.ty ∧
        (dts.hasName t.name = false → EvolvesAt dts dl.dflt t.ty)
    | _ => False
  | .array de _ _ _, src =>
    match src with
    | .unit => True
    | .array se _ _ _ => Evolves de se
    | _ => False
  | .vector de dl, src =>
    match src with
    | .unit => True
    | .vector se sl => Evolves de se ∧ ∀ m, dl.maxLen = some m → sl.wireMin ≤ m
    | _ => False
/-- Fields are matched by name. -/
def EvolvesFields : Fields → Fields → Prop
  | .nil, _ => True
  | .cons c _ t r, sfs => (∀ x ∈ sfs.toList, x.1 = c → Evolves t x.2.2) ∧ EvolvesFields r sfs
/-- Terms are matched by name. -/
def EvolvesNamed : Terms → Comp → Ty → Prop
  | .nil, _, _ => True
  | .cons n _ _ t r, c, sty => (n = c → Evolves t sty) ∧ EvolvesNamed r c sty
/-- The default term takes the payload of an unknown term. -/
def EvolvesAt : Terms → Nat → Ty → Prop
  | .nil, _, _ => True
  | .cons _ _ _ t _, 0, sty => Evolves t sty
  | .cons _ _ _ _ r, i + 1, sty => EvolvesAt r i sty
end

mutual
/-- The second schema has room for every value of the first one: integers at least as wide, floats of the
same width, every field and every term, arrays and vectors at least as long. -/
def Kept : Ty → Ty → Prop
  | .unit, _ => True
  | .int w _ _, n => ∃ w' s al, n = .int w' s al ∧ w ≤ w'
  | .float w _, n => ∃ al, n = .float w al
  | .struct fs _ _, n => ∃ nfs sz al, n = .struct nfs sz al ∧ KeptFields fs nfs
  | .variant ts _, n => ∃ nts l, n = .variant nts l ∧ KeptTerms ts nts
  | .array e k _ _, n => ∃ ne nk esz al, n = .array ne nk esz al ∧ k ≤ nk ∧ Kept e ne
  | .vector e l, n => ∃ ne nl, n = .vector ne nl ∧ Kept e ne ∧
    ∀ m', nl.maxLen = some m' → ∃ m, l.maxLen = some m ∧ m ≤ m'
def KeptFields : Fields → Fields → Prop
  | .nil, _ => True
  | .cons c _ t r, nfs => (∃ x ∈ nfs.toList, x.1 = c ∧ Kept t x.2.2) ∧ KeptFields r nfs
def KeptTerms : Terms → Terms → Prop
  | .nil, _ => True
  | .cons c _ _ t r, nts => (∃ u ∈ nts.toList, u.name = c ∧ Kept t u.ty) ∧ KeptTerms r nts
end

mutual
/-- There is a vector which is reached through struct fields. -/
def Ty.hasVec : Ty → Prop
  | .vector _ _ => True
  | .struct fs _ _ => fs.hasVec
  | _ => False
def Fields.hasVec : Fields → Prop
  | .nil => False
  | .cons _ _ t r => t.hasVec ∨ r.hasVec
end

mutual
/-- No variant is reached through struct fields. -/
def Ty.still : Ty → Prop
  | .variant _ _ => False
  | .struct fs _ _ => fs.still
  | _ => True
def Fields.still : Fields → Prop
  | .nil => True
  | .cons _ _ t r => t.still ∧ r.still
end

mutual
/-- There is a vector with room in the head for some of its lengths but not for all, reached through struct
fields.  Terms with such a vector are split. -/
def Ty.splits : Ty → Prop
  | .vector _ l => l.wireMin ≠ 0 ∧ l.maxLen ≠ some l.wireMin
  | .struct fs _ _ => fs.splits
  | _ => False
def Fields.splits : Fields → Prop
  | .nil => False
  | .cons _ _ t r => t.splits ∨ r.splits
end

/-- The fields of a struct; other types have none. -/
def Ty.fields : Ty → Fields
  | .struct fs _ _ => fs
  | _ => .nil

/-- The type of a field; a field that is missing has no content. -/
def Fields.tyOf (fs : Fields) (c : Comp) : Ty :=
  match fs.find c with
  | some (_, t) => t
  | none => .unit

mutual
/-- Every vector of the first type on which a term is split is a vector of the second type, too. -/
def VecsIn : Ty → Ty → Prop
  | .vector _ l, s => l.wireMin ≠ 0 ∧ l.maxLen ≠ some l.wireMin → ∃ e l', s = .vector e l'
  | .struct fs _ _, s => VecsInFields fs s.fields
  | _, _ => True
def VecsInFields : Fields → Fields → Prop
  | .nil, _ => True
  | .cons c _ t r, sfs => VecsIn t (sfs.tyOf c) ∧ VecsInFields r sfs
end

mutual
/-- A sender of the second type has what the planned encoder of the first one looks at to choose between the
terms made by splitting: in the first variant reached through struct fields, the vectors of every term the sender
knows; and where the default term is used, that one must not be split. -/
def Supplied : Ty → Ty → Prop
  | .struct fs _ _, s => SuppliedFields fs s.fields
  | .variant ts l, s =>
    match s with
    | .variant sts _ => ∀ u ∈ sts.toList, (∀ t ∈ ts.toList, t.name = u.name → VecsIn t.ty u.ty) ∧
      (ts.hasName u.name = false → ∀ t, ts.toList[l.dflt]? = some t → ¬ t.ty.splits)
    | _ => ∀ t, ts.toList[l.dflt]? = some t → ¬ t.ty.splits
  | _, _ => True
def SuppliedFields : Fields → Fields → Prop
  | .nil, _ => True
  | .cons c _ t r, sfs => (t.still ∧ SuppliedFields r sfs) ∨ (¬ t.still ∧ Supplied t (sfs.tyOf c))
end

mutual
/-- The variant at the path, if there is one, is a variant of the second type, too. -/
def Led : Ty → Path → Ty → Prop
  | .struct fs _ _, path, s => LedFields fs path s.fields
  | .variant _ _, path, s => path = [] ∨ ∃ ts l, s = .variant ts l
  | _, _, _ => True
def LedFields : Fields → Path → Fields → Prop
  | .nil, _, _ => True
  | .cons c _ t r, path, sfs => Led t (path.into c) (sfs.tyOf c) ∧ LedFields r path sfs
end

end PJ
