import Verif.Model.OffsetSpan
/-!
# C32: self-relative spans survive copying
-/
namespace PJ

/-- Constructing a span at `this` from `data` gives a span denoting `data`. -/
theorem C32_construct (this data size : Nat) (hdata : data < 2 ^ 64) :
    (OffsetSpan.mk' this data size).base this = data ∧
    (OffsetSpan.mk' this data size).size = size := by
  simp [OffsetSpan.mk', OffsetSpan.base, add64, sub64, W64] at *; omega

/-- One copy keeps the elements pointed at and the size. -/
theorem C32_copy (s : OffsetSpan) (other this : Nat) :
    (s.copyTo other this).base this = s.base other ∧ (s.copyTo other this).size = s.size := by
  simp [OffsetSpan.copyTo, OffsetSpan.base, add64, sub64, W64] at *; omega

/-- Any history of copies to arbitrary addresses keeps the elements pointed at and the size. -/
theorem C32_chain (s : OffsetSpan) (a : Nat) (addrs : List Nat) :
    (s.copyChain a addrs).1.base (s.copyChain a addrs).2 = s.base a ∧
    (s.copyChain a addrs).1.size = s.size := by
  induction addrs generalizing s a with
  | nil => simp [OffsetSpan.copyChain]
  | cons x xs ih =>
    have hc := C32_copy s a x
    have := ih (s.copyTo a x) x
    simp only [OffsetSpan.copyChain]
    rw [this.1, this.2]; exact hc

example : ((OffsetSpan.mk' 1000 5000 3).copyChain 1000 [16, 2 ^ 64 - 8]).1.base (2 ^ 64 - 8) = 5000 := by
  decide

end PJ
