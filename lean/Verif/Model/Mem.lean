import Verif.Model.Bytes
/-!
# Memory

Byte addressed memory.  LLVM `load`/`store` of whole-byte integers are little endian (x86-64).
Simplification: alignment of accesses and validity of addresses are not represented.
-/
namespace PJ

/-- Memory: address to byte. -/
abbrev Mem := Nat → UInt8

/-- `n` bytes from address `a`. -/
def readBytes (m : Mem) : Nat → Nat → List UInt8
  | _, 0 => []
  | a, n + 1 => m a :: readBytes m (a + 1) n

/-- LLVM `load` of an `n` byte integer. -/
def readN (m : Mem) (a n : Nat) : Nat := ofLE (readBytes m a n)

/-- Stores a list of bytes at `a`. -/
def writeBytes (m : Mem) (a : Nat) (bs : List UInt8) : Mem :=
  fun x => if a ≤ x then (match bs[x - a]? with | some b => b | none => m x) else m x

/-- LLVM `store` of the `k` byte integer `n` (mod `256^k`). -/
def writeN (m : Mem) (a k n : Nat) : Mem := writeBytes m a (leBytes k n)

/-- `memset` of `n` bytes with undefined content, given by the oracle `J`
(`PoisonOpLowering`, `pj/llvm_gen2.cpp` 1068-1080). -/
def poisonMem (J : Mem) (m : Mem) (a n : Nat) : Mem :=
  fun x => if a ≤ x ∧ x < a + n then J x else m x

@[simp] theorem readBytes_length (m : Mem) (a n : Nat) : (readBytes m a n).length = n := by
  induction n generalizing a with
  | zero => rfl
  | succ n ih => simp [readBytes, ih]

theorem readBytes_getElem? (m : Mem) (a n i : Nat) (h : i < n) :
    (readBytes m a n)[i]? = some (m (a + i)) := by
  induction n generalizing a i with
  | zero => omega
  | succ n ih =>
    cases i with
    | zero => simp [readBytes]
    | succ i =>
      simp only [readBytes, List.getElem?_cons_succ]
      rw [ih (a + 1) i (by omega)]; congr 2; omega

theorem readBytes_congr {m m' : Mem} {a a' n : Nat} (h : ∀ i, i < n → m' (a' + i) = m (a + i)) :
    readBytes m' a' n = readBytes m a n := by
  apply List.ext_getElem?
  intro i
  by_cases hi : i < n
  · rw [readBytes_getElem? _ _ _ _ hi, readBytes_getElem? _ _ _ _ hi, h i hi]
  · rw [List.getElem?_eq_none (by simp; omega), List.getElem?_eq_none (by simp; omega)]

theorem readN_congr {m m' : Mem} {a a' n : Nat} (h : ∀ i, i < n → m' (a' + i) = m (a + i)) :
    readN m' a' n = readN m a n := by
  unfold readN; rw [readBytes_congr h]

theorem readN_lt (m : Mem) (a n : Nat) : readN m a n < 256 ^ n := by
  have := ofLE_lt (readBytes m a n)
  simpa [readN] using this

theorem writeBytes_out (m : Mem) (a : Nat) (bs : List UInt8) (x : Nat)
    (h : x < a ∨ a + bs.length ≤ x) : writeBytes m a bs x = m x := by
  unfold writeBytes
  split
  · rw [List.getElem?_eq_none (by omega)]
  · rfl

theorem writeN_out (m : Mem) (a k n x : Nat) (h : x < a ∨ a + k ≤ x) :
    writeN m a k n x = m x := writeBytes_out _ _ _ _ (by simpa using h)

theorem readN_writeN (m : Mem) (a k n : Nat) : readN (writeN m a k n) a k = n % 256 ^ k := by
  have : readBytes (writeN m a k n) a k = leBytes k n := by
    apply List.ext_getElem?
    intro i
    by_cases hi : i < k
    · rw [readBytes_getElem? _ _ _ _ hi]
      unfold writeN writeBytes
      rw [if_pos (by omega), Nat.add_sub_cancel_left, List.getElem?_eq_getElem (by simpa using hi)]
    · rw [List.getElem?_eq_none (by simp; omega), List.getElem?_eq_none (by simp; omega)]
  unfold readN; rw [this, ofLE_leBytes]

theorem poisonMem_out (J m : Mem) (a n x : Nat) (h : x < a ∨ a + n ≤ x) :
    poisonMem J m a n x = m x := by
  unfold poisonMem; rw [if_neg (by omega)]

end PJ
