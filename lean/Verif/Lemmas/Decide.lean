import Verif.Model.FnCache
import Verif.Props.C01_RoundTrip
/-!
# The hypotheses on types can be decided

For concrete types.
-/
namespace PJ

instance (a n b k : Nat) : Decidable (Disj a n b k) :=
  inferInstanceAs (Decidable (n = 0 ∨ k = 0 ∨ a + n ≤ b ∨ b + k ≤ a))

instance (l : List (Comp × Nat × Ty)) (sz : Nat) : Decidable (FieldsLayout l sz) :=
  decidable_of_iff ((∀ x ∈ l, x.2.1 + x.2.2.size ≤ sz) ∧
    (l.Pairwise fun x y => Disj x.2.1 x.2.2.size y.2.1 y.2.2.size) ∧ (l.map (·.1)).Nodup)
    ⟨fun ⟨a, b, c⟩ => ⟨a, b, c⟩, fun ⟨a, b, c⟩ => ⟨a, b, c⟩⟩

instance (ts : List Term) (l : VarL) : Decidable (VarLayout ts l) :=
  decidable_of_iff ((1 ≤ l.tagW ∧ l.tagW ≤ 8) ∧ (ts.map (·.tag)).Nodup ∧
    (∀ t ∈ ts, t.tag < 256 ^ l.tagW ∧ t.tag < 2 ^ 63) ∧ l.dflt < ts.length ∧ l.tagOff + l.tagW ≤ l.size ∧
    (l.outline = false → ∀ t ∈ ts, l.termOff + t.ty.size ≤ l.size) ∧
    (l.outline = false → ∀ t ∈ ts, Disj l.tagOff l.tagW l.termOff t.ty.size))
    ⟨fun ⟨a, b, c, d, e, f, g⟩ => ⟨a, b, c, d, e, f, g⟩, fun ⟨a, b, c, d, e, f, g⟩ => ⟨a, b, c, d, e, f, g⟩⟩

instance decOptionAll {α} (o : Option α) (P : α → Prop) [DecidablePred P] : Decidable (∀ m, o = some m → P m) :=
  match o with
  | none => isTrue (by simp)
  | some m => decidable_of_iff (P m) (by simp)

instance (l : VecL) : Decidable l.canOut := inferInstanceAs (Decidable (l.minLen = 0 ∨ l.maxLen ≠ some l.minLen))

instance (l : VecL) (esz eal : Nat) : Decidable (VecLayout l esz eal) :=
  decidable_of_iff ((1 ≤ l.lenSize ∧ l.lenSize ≤ 8) ∧
    (∀ m, l.maxLen = some m → 0 < m ∧ m < 256 ^ l.lenSize ∧ m < 2 ^ 63 ∧ l.minLen ≤ m) ∧
    (l.maxLen = none → l.lenSize = 8) ∧ l.minLen < 2 ^ 63 ∧ l.lenOff + l.lenSize ≤ l.size ∧ esz ≤ l.elemW ∧
    l.ppl ≤ l.minLen ∧ (l.minLen ≠ 0 → l.inlOff + l.minLen * l.elemW ≤ l.size ∧
      Disj l.lenOff l.lenSize l.inlOff (l.minLen * l.elemW)) ∧
    (l.canOut → l.refSize = 8 ∧ l.refOff + 8 ≤ l.size ∧ Disj l.lenOff l.lenSize l.refOff 8) ∧
    (l.canOut → l.ppl ≠ 0 → l.parOff + l.ppl * l.elemW ≤ l.size ∧ Disj l.lenOff l.lenSize l.parOff (l.ppl * l.elemW) ∧
      Disj l.refOff 8 l.parOff (l.ppl * l.elemW)) ∧ (eal = 1 ∨ eal = 2 ∨ eal = 4 ∨ eal = 8))
    ⟨fun ⟨a, b, c, d, e, f, g, h, i, j, k⟩ => ⟨a, b, c, d, e, f, g, h, i, j, k⟩,
      fun ⟨a, b, c, d, e, f, g, h, i, j, k⟩ => ⟨a, b, c, d, e, f, g, h, i, j, k⟩⟩

mutual
def decWF : (t : Ty) → Decidable (WF t)
  | .int w _ _ => inferInstanceAs (Decidable (1 ≤ w ∧ w ≤ 8))
  | .float w _ => inferInstanceAs (Decidable (w = 4 ∨ w = 8))
  | .unit => isTrue trivial
  | .struct fs sz _ => haveI := decWFFields fs; inferInstanceAs (Decidable (WFFields fs ∧ FieldsLayout fs.toList sz))
  | .variant ts l => haveI := decWFTerms ts; inferInstanceAs (Decidable (WFTerms ts ∧ VarLayout ts.toList l))
  | .array e _ esz _ => haveI := decWF e; inferInstanceAs (Decidable (WF e ∧ e.size ≤ esz))
  | .vector e l => haveI := decWF e; inferInstanceAs (Decidable (WF e ∧ VecLayout l e.size e.align))
def decWFFields : (fs : Fields) → Decidable (WFFields fs)
  | .nil => isTrue trivial
  | .cons _ _ t r => haveI := decWF t; haveI := decWFFields r; inferInstanceAs (Decidable (WF t ∧ WFFields r))
def decWFTerms : (ts : Terms) → Decidable (WFTerms ts)
  | .nil => isTrue trivial
  | .cons _ _ _ t r => haveI := decWF t; haveI := decWFTerms r; inferInstanceAs (Decidable (WF t ∧ WFTerms r))
end
instance (t : Ty) : Decidable (WF t) := decWF t

mutual
def decSch : (t : Ty) → Decidable (Sch t)
  | .int w _ _ => inferInstanceAs (Decidable (1 ≤ w ∧ w ≤ 8))
  | .float w _ => inferInstanceAs (Decidable (w = 4 ∨ w = 8))
  | .unit => isTrue trivial
  | .struct fs _ _ => haveI := decSchFields fs; inferInstanceAs (Decidable ((fs.toList.map (·.1)).Nodup ∧ SchFields fs))
  | .variant ts l => haveI := decSchTerms ts
    inferInstanceAs (Decidable (l.dflt < ts.toList.length ∧ (ts.toList.map (·.tag)).Nodup ∧
      (∃ t ∈ ts.toList, t.tag ≠ 0) ∧ (∀ t ∈ ts.toList, t.tag < 2 ^ 63) ∧ SchTerms ts))
  | .array e _ _ _ => decSch e
  | .vector e l => haveI := decSch e
    inferInstanceAs (Decidable (Sch e ∧ l.wireMin < 2 ^ 63 ∧
      ∀ m, l.maxLen = some m → 0 < m ∧ m < 2 ^ 63 ∧ l.wireMin ≤ m))
def decSchFields : (fs : Fields) → Decidable (SchFields fs)
  | .nil => isTrue trivial
  | .cons _ _ t r => haveI := decSch t; haveI := decSchFields r; inferInstanceAs (Decidable (Sch t ∧ SchFields r))
def decSchTerms : (ts : Terms) → Decidable (SchTerms ts)
  | .nil => isTrue trivial
  | .cons _ _ _ t r => haveI := decSch t; haveI := decSchTerms r; inferInstanceAs (Decidable (Sch t ∧ SchTerms r))
end
instance (t : Ty) : Decidable (Sch t) := decSch t

mutual
def decPlain : (t : Ty) → Decidable (Plain t)
  | .int _ _ _ => isTrue trivial
  | .float _ _ => isTrue trivial
  | .unit => isTrue trivial
  | .struct fs _ _ => decPlainFields fs
  | .variant ts _ => haveI := decPlainTerms ts
    inferInstanceAs (Decidable ((ts.toList.map (·.name)).Nodup ∧ PlainTerms ts))
  | .array e _ _ _ => decPlain e
  | .vector e _ => decPlain e
def decPlainFields : (fs : Fields) → Decidable (PlainFields fs)
  | .nil => isTrue trivial
  | .cons _ _ t r => haveI := decPlain t; haveI := decPlainFields r
    inferInstanceAs (Decidable (Plain t ∧ PlainFields r))
def decPlainTerms : (ts : Terms) → Decidable (PlainTerms ts)
  | .nil => isTrue trivial
  | .cons _ _ as t r => haveI := decPlain t; haveI := decPlainTerms r
    inferInstanceAs (Decidable (as = [] ∧ Plain t ∧ PlainTerms r))
end
instance (t : Ty) : Decidable (Plain t) := decPlain t

mutual
def decNoOut : (t : Ty) → Decidable t.noOut
  | .int _ _ _ => isTrue trivial
  | .float _ _ => isTrue trivial
  | .unit => isTrue trivial
  | .struct fs _ _ => decNoOutFields fs
  | .variant ts l => haveI := decNoOutTerms ts; inferInstanceAs (Decidable (l.outline = false ∧ ts.noOut))
  | .array e _ _ _ => decNoOut e
  | .vector e _ => decNoOut e
def decNoOutFields : (fs : Fields) → Decidable fs.noOut
  | .nil => isTrue trivial
  | .cons _ _ t r => haveI := decNoOut t; haveI := decNoOutFields r; inferInstanceAs (Decidable (t.noOut ∧ r.noOut))
def decNoOutTerms : (ts : Terms) → Decidable ts.noOut
  | .nil => isTrue trivial
  | .cons _ _ _ t r => haveI := decNoOut t; haveI := decNoOutTerms r; inferInstanceAs (Decidable (t.noOut ∧ r.noOut))
end
instance (t : Ty) : Decidable t.noOut := decNoOut t

mutual
def decSmall : (t : Ty) → Decidable (Small t)
  | .int _ _ _ => isTrue trivial
  | .float _ _ => isTrue trivial
  | .unit => isTrue trivial
  | .struct fs _ _ => decSmallFields fs
  | .variant ts _ => inferInstanceAs (Decidable (ts.toList.length + rounds ts.toList < 2 ^ 63))
  | .array _ _ _ _ => isTrue trivial
  | .vector _ _ => isTrue trivial
def decSmallFields : (fs : Fields) → Decidable (SmallFields fs)
  | .nil => isTrue trivial
  | .cons _ _ t r => haveI := decSmall t; haveI := decSmallFields r; inferInstanceAs (Decidable (Small t ∧ SmallFields r))
end
instance (t : Ty) : Decidable (Small t) := decSmall t

instance (t : Ty) : Decidable (HostTy t) :=
  decidable_of_iff (WF t ∧ Sch t ∧ Small t ∧ Plain t ∧ t.noOut)
    ⟨fun ⟨a, b, c, d, e⟩ => ⟨a, b, c, d, e⟩, fun ⟨a, b, c, d, e⟩ => ⟨a, b, c, d, e⟩⟩

deriving instance DecidableEq for Proto

end PJ
