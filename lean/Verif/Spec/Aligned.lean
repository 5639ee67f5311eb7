import Verif.Spec.Layout
import Verif.Model.Aligned
/-!
# Aligned layouts and aligned objects
-/
namespace PJ

mutual
/-- In an object of the type whose address is a multiple of its alignment, every part is at a multiple of its own
alignment, and every tag, length and reference at a multiple of the alignment of an integer of its width. -/
def Told : Ty → Prop
  | .struct fs _ al => ToldFields fs al
  | .variant ts l =>
    (natAlign l.tagW ∣ l.tagOff ∧ natAlign l.tagW ∣ (Ty.variant ts l).align) ∧
    ToldTerms ts l.termOff (Ty.variant ts l).align
  | .array e n esz al => Told e ∧ (n ≠ 0 → e.align ∣ esz ∧ e.align ∣ al)
  | .vector e l =>
    Told e ∧ (natAlign l.lenSize ∣ l.lenOff ∧ natAlign l.lenSize ∣ l.align) ∧
    (l.canOut → natAlign l.refSize ∣ l.refOff ∧ natAlign l.refSize ∣ l.align) ∧ e.align ∣ l.elemW ∧
    (l.minLen ≠ 0 → e.align ∣ l.inlOff ∧ e.align ∣ l.align) ∧ (l.ppl ≠ 0 → e.align ∣ l.parOff)
  | _ => True
/-- Fields of a struct with the alignment `al`. -/
def ToldFields : Fields → Nat → Prop
  | .nil, _ => True
  | .cons _ off t r, al => (Told t ∧ t.align ∣ off ∧ t.align ∣ al) ∧ ToldFields r al
/-- Terms at the offset `off` of a variant with the alignment `al`. -/
def ToldTerms : Terms → Nat → Nat → Prop
  | .nil, _, _ => True
  | .cons _ _ _ t r, off, al => (Told t ∧ t.align ∣ off ∧ t.align ∣ al) ∧ ToldTerms r off al
end

mutual
/-- The references of every vector that the object at `a` holds point to multiples of the alignment of the
elements.  `path` is the term the encoder is told the object has. -/
def Ptrs (S : Mem) : Ty → Path → Nat → Prop
  | .struct fs _ _, path, a => PtrsFields S fs path a
  | .variant ts l, path, a => ∀ t, selectTerm S ts l path a = some (some t) → PtrsTerms S ts t.name t.tag (a + l.termOff)
  | .array e n esz _, _, a => ∀ i, i < n → Ptrs S e [] (elemAt a esz i)
  | .vector e l, _, a => ∀ n, lengthOp S l a = some n →
    (l.isInl n = true → ∀ i, i < n → Ptrs S e [] (elemAt (a + l.inlOff) l.elemW i)) ∧
    (l.isInl n = false → (∀ i, i < l.ppl → Ptrs S e [] (elemAt (a + l.parOff) l.elemW i)) ∧
      (l.ppl < n → e.align ∣ refStart S l a) ∧ ∀ i, i < n - l.ppl → Ptrs S e [] (elemAt (refStart S l a) l.elemW i))
  | _, _, _ => True
def PtrsFields (S : Mem) : Fields → Path → Nat → Prop
  | .nil, _, _ => True
  | .cons c off t r, path, a => Ptrs S t (path.into c) (a + off) ∧ PtrsFields S r path a
/-- The payload at `a` of the term with name `c` and tag `g`. -/
def PtrsTerms (S : Mem) : Terms → Comp → Nat → Nat → Prop
  | .nil, _, _, _ => True
  | .cons n h _ t r, c, g, a => (n = c ∧ h = g → Ptrs S t [] a) ∧ PtrsTerms S r c g a
end

end PJ
