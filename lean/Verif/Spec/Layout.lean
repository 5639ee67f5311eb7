import Verif.Model.Xcode
/-!
# Well-formed layouts and convertible pairs of types

The hypotheses of the transcoding theorems: what a sane memory layout is (no overlapping fields),
where an outlined payload has to be, and which pairs of types are outside the known defects.
-/
namespace PJ

/-- `n` bytes from `a` and `k` bytes from `b` do not overlap. -/
def Disj (a n b k : Nat) : Prop := n = 0 ∨ k = 0 ∨ a + n ≤ b ∨ b + k ≤ a

/-- Fields inside the struct, disjoint, with distinct names. -/
structure FieldsLayout (l : List (Comp × Nat × Ty)) (sz : Nat) : Prop where
  inside : ∀ x ∈ l, x.2.1 + x.2.2.size ≤ sz
  disj : l.Pairwise fun x y => Disj x.2.1 x.2.2.size y.2.1 y.2.2.size
  names : (l.map (·.1)).Nodup

/-- Tag inside the variant and apart from the payload, tags distinct, storable and below 2^63. -/
structure VarLayout (ts : List Term) (l : VarL) : Prop where
  tagW : 1 ≤ l.tagW ∧ l.tagW ≤ 8
  tags : (ts.map (·.tag)).Nodup
  tagLt : ∀ t ∈ ts, t.tag < 256 ^ l.tagW ∧ t.tag < 2 ^ 63
  dflt : l.dflt < ts.length
  tagIn : l.tagOff + l.tagW ≤ l.size
  inside : l.outline = false → ∀ t ∈ ts, l.termOff + t.ty.size ≤ l.size
  disj : l.outline = false → ∀ t ∈ ts, Disj l.tagOff l.tagW l.termOff t.ty.size

/-- Whether the outlined representation can occur. -/
def VecL.canOut (l : VecL) : Prop := l.minLen = 0 ∨ l.maxLen ≠ some l.minLen

/-- The length can be stored, and inline elements, reference and partial payload are inside the
vector and apart from what they coexist with. -/
structure VecLayout (l : VecL) (esz eal : Nat) : Prop where
  lenSize : 1 ≤ l.lenSize ∧ l.lenSize ≤ 8
  max : ∀ m, l.maxLen = some m → 0 < m ∧ m < 256 ^ l.lenSize ∧ m < 2 ^ 63 ∧ l.minLen ≤ m
  noMax : l.maxLen = none → l.lenSize = 8
  min : l.minLen < 2 ^ 63
  lenIn : l.lenOff + l.lenSize ≤ l.size
  stride : esz ≤ l.elemW
  ppl : l.ppl ≤ l.minLen
  inl : l.minLen ≠ 0 → l.inlOff + l.minLen * l.elemW ≤ l.size ∧
    Disj l.lenOff l.lenSize l.inlOff (l.minLen * l.elemW)
  ref : l.canOut → l.refSize = 8 ∧ l.refOff + 8 ≤ l.size ∧ Disj l.lenOff l.lenSize l.refOff 8
  par : l.canOut → l.ppl ≠ 0 → l.parOff + l.ppl * l.elemW ≤ l.size ∧
    Disj l.lenOff l.lenSize l.parOff (l.ppl * l.elemW) ∧
    Disj l.refOff 8 l.parOff (l.ppl * l.elemW)
  align : eal = 1 ∨ eal = 2 ∨ eal = 4 ∨ eal = 8

mutual
/-- Every node of the type has a sane layout. -/
def WF : Ty → Prop
  | .int w _ _ => 1 ≤ w ∧ w ≤ 8
  | .float w _ => w = 4 ∨ w = 8
  | .unit => True
  | .struct fs sz _ => WFFields fs ∧ FieldsLayout fs.toList sz
  | .variant ts l => WFTerms ts ∧ VarLayout ts.toList l
  | .array e _ esz _ => WF e ∧ e.size ≤ esz
  | .vector e l => WF e ∧ VecLayout l e.size e.align
def WFFields : Fields → Prop
  | .nil => True
  | .cons _ _ t r => WF t ∧ WFFields r
def WFTerms : Terms → Prop
  | .nil => True
  | .cons _ _ _ t r => WF t ∧ WFTerms r
end

mutual
/-- No outline variant anywhere. -/
def Ty.noOut : Ty → Prop
  | .struct fs _ _ => fs.noOut
  | .variant ts l => l.outline = false ∧ ts.noOut
  | .array e _ _ _ => e.noOut
  | .vector e _ => e.noOut
  | _ => True
def Fields.noOut : Fields → Prop
  | .nil => True
  | .cons _ _ t r => t.noOut ∧ r.noOut
def Terms.noOut : Terms → Prop
  | .nil => True
  | .cons _ _ _ t r => t.noOut ∧ r.noOut
end

mutual
/-- At most one outline variant, reachable through struct fields only, whose payload is at the
address `ptr` when the object is at `da`. -/
def OutAt : Ty → Nat → Nat → Prop
  | .struct fs _ _, da, ptr => OutAtFields fs da ptr
  | .variant ts l, da, ptr => (l.outline = true → ptr = da + l.termOff) ∧ ts.noOut
  | .array e _ _ _, _, _ => e.noOut
  | .vector e _, _, _ => e.noOut
  | _, _, _ => True
def OutAtFields : Fields → Nat → Nat → Prop
  | .nil, _, _ => True
  | .cons _ o t r, da, ptr =>
    (if t.hasOut then OutAt t (da + o) ptr ∧ r.hasOut = false else t.noOut) ∧ OutAtFields r da ptr
end

/-- The receiver's vector is not so short that the sender's partial payload overruns it
(see the finding about `transcodeOutlineVector`). -/
def VecCompat (dl sl : VecL) : Prop :=
  sl.ppl ≤ dl.maxBound ∨ (dl.minLen ≠ 0 ∧ dl.maxBound ≤ dl.minLen)

/-- The enum table covers the pair (see the findings about `CopyTagOp`, C11). -/
def EnumCompat (dts sts : Terms) (dl sl : VarL) : Prop :=
  (dts.toList.map (·.name)).Nodup ∧ (sts.toList.map (·.name)).Nodup ∧
  (exactMatch (enumTy sts sl) (enumTy dts dl) = true ∨
  (2 * tableSize (enumTy sts sl) ≤ 256 ^ sl.tagW ∧ (dts.toList[dl.dflt]?.map (·.tag)) = some 0))

mutual
/-- Destination and source type are outside the known defects: `VecCompat` for vectors,
`EnumCompat` for enums, and an outlined variant is never left to be defaulted. -/
def Compat : Ty → Ty → Prop
  | .struct dfs _ _, src =>
    match src with
    | .unit => dfs.hasOut = false
    | .struct sfs _ _ => CompatFields dfs sfs
    | _ => True
  | .variant dts dl, src =>
    match src with
    | .unit => dl.outline = false
    | .variant sts sl =>
      (enumFast dts sts dl sl = true → EnumCompat dts sts dl sl) ∧
      ∀ t ∈ sts.toList,
        if dts.hasName t.name then CompatNamed dts t.name t.ty else CompatAt dts dl.dflt t.ty
    | _ => True
  | .array de _ _ _, src =>
    match src with
    | .array se _ _ _ => Compat de se
    | _ => True
  | .vector de dl, src =>
    match src with
    | .vector se sl => Compat de se ∧ VecCompat dl sl
    | _ => True
  | _, _ => True
def CompatFields : Fields → Fields → Prop
  | .nil, _ => True
  | .cons c _ t r, sfs =>
    (match sfs.findLast c with
    | some (_, sty) => Compat t sty
    | none => t.hasOut = false) ∧ CompatFields r sfs
def CompatNamed : Terms → Comp → Ty → Prop
  | .nil, _, _ => True
  | .cons n _ _ t r, c, sty => (n = c → Compat t sty) ∧ CompatNamed r c sty
def CompatAt : Terms → Nat → Ty → Prop
  | .nil, _, _ => True
  | .cons _ _ _ t _, 0, sty => Compat t sty
  | .cons _ _ _ _ r, i + 1, sty => CompatAt r i sty
end

mutual
/-- What is needed for staying inside the destination: like `Compat`, but nothing about enums. -/
def Tame : Ty → Ty → Prop
  | .struct dfs _ _, src =>
    match src with
    | .unit => dfs.hasOut = false
    | .struct sfs _ _ => TameFields dfs sfs
    | _ => True
  | .variant dts dl, src =>
    match src with
    | .unit => dl.outline = false
    | .variant sts _ =>
      ∀ t ∈ sts.toList,
        if dts.hasName t.name then TameNamed dts t.name t.ty else TameAt dts dl.dflt t.ty
    | _ => True
  | .array de _ _ _, src =>
    match src with
    | .array se _ _ _ => Tame de se
    | _ => True
  | .vector de dl, src =>
    match src with
    | .vector se sl => Tame de se ∧ VecCompat dl sl
    | _ => True
  | _, _ => True
def TameFields : Fields → Fields → Prop
  | .nil, _ => True
  | .cons c _ t r, sfs =>
    (match sfs.findLast c with
    | some (_, sty) => Tame t sty
    | none => t.hasOut = false) ∧ TameFields r sfs
def TameNamed : Terms → Comp → Ty → Prop
  | .nil, _, _ => True
  | .cons n _ _ t r, c, sty => (n = c → Tame t sty) ∧ TameNamed r c sty
def TameAt : Terms → Nat → Ty → Prop
  | .nil, _, _ => True
  | .cons _ _ _ t _, 0, sty => Tame t sty
  | .cons _ _ _ _ r, i + 1, sty => TameAt r i sty
end

mutual
/-- No outlined variant of the destination is left to be defaulted. -/
def OutGiven : Ty → Ty → Prop
  | .struct dfs _ _, src =>
    match src with
    | .unit => dfs.hasOut = false
    | .struct sfs _ _ => OutGivenFields dfs sfs
    | _ => True
  | .variant dts dl, src =>
    match src with
    | .unit => dl.outline = false
    | .variant sts _ =>
      ∀ t ∈ sts.toList,
        if dts.hasName t.name then OutGivenNamed dts t.name t.ty else OutGivenAt dts dl.dflt t.ty
    | _ => True
  | .array de _ _ _, src =>
    match src with
    | .array se _ _ _ => OutGiven de se
    | _ => True
  | .vector de _, src =>
    match src with
    | .vector se _ => OutGiven de se
    | _ => True
  | _, _ => True
def OutGivenFields : Fields → Fields → Prop
  | .nil, _ => True
  | .cons c _ t r, sfs =>
    (match sfs.findLast c with
    | some (_, sty) => OutGiven t sty
    | none => t.hasOut = false) ∧ OutGivenFields r sfs
def OutGivenNamed : Terms → Comp → Ty → Prop
  | .nil, _, _ => True
  | .cons n _ _ t r, c, sty => (n = c → OutGiven t sty) ∧ OutGivenNamed r c sty
def OutGivenAt : Terms → Nat → Ty → Prop
  | .nil, _, _ => True
  | .cons _ _ _ t _, 0, sty => OutGiven t sty
  | .cons _ _ _ _ r, i + 1, sty => OutGivenAt r i sty
end

mutual
/-- No vector keeps part of an out-of-line payload in the object itself, like every host vector the
schema compiler generates (`partial_payload_size=0`). -/
def Ty.noPart : Ty → Prop
  | .struct fs _ _ => fs.noPart
  | .variant ts _ => ts.noPart
  | .array e _ _ _ => e.noPart
  | .vector e l => l.ppl = 0 ∧ e.noPart
  | _ => True
def Fields.noPart : Fields → Prop
  | .nil => True
  | .cons _ _ t r => t.noPart ∧ r.noPart
def Terms.noPart : Terms → Prop
  | .nil => True
  | .cons _ _ _ t r => t.noPart ∧ r.noPart
end

end PJ
