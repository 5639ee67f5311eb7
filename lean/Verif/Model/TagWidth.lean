/-!
# Width of a variant tag

Models `compute_tag_width` (`pj/types.hpp` 493-502) and the helpers of `pj/include/pj/util.hpp`.
-/
namespace PJ

/-- `IsPowerOfTwo` (`util.hpp` 74-77): true for 0 as well. -/
def isPowerOfTwo (x : Nat) : Bool := x &&& (x - 1) == 0

/-- `RoundUpToPowerOfTwo` (`util.hpp` 84-90); `Nat.log2` is `GetMostSignificantSetBitIndex`
(79-82). -/
def roundUpToPowerOfTwo (size : Nat) : Nat :=
  if isPowerOfTwo size then size else 2 ^ (Nat.log2 size + 1)

/-- `DivideUp` (`util.hpp` 45-48). -/
def divideUp (x m : Nat) : Nat := (x + m - 1) / m

/-- `RoundUp` (`util.hpp` 50-53). -/
def roundUp (x m : Nat) : Nat := divideUp x m * m

/-- `llvm::Log2_64_Ceil` for `n ≥ 1`: the least `k` with `n ≤ 2^k`. -/
def log2Ceil (n : Nat) : Nat := if n ≤ 1 then 0 else Nat.log2 (n - 1) + 1

/-- `std::ceil(std::log2(n) / 8)` for `1 ≤ n < 2^64`.  Simplification: computed exactly, the least
`k` with `n ≤ 2^(8k)`.  The floating point computation of the source can differ only where rounding
`n` or its logarithm crosses a multiple of 8: at `2^40`, `2^48`, `2^56` and beyond (where it does
not change the power of two the result is rounded up to); near `2^8`, `2^16` and `2^32` the
logarithm is separated from the integer by far more than the precision of `double`. -/
def ceilLog2Bytes (n : Nat) : Nat := (log2Ceil n + 7) / 8

/-- `compute_tag_width` (`pj/types.hpp` 493-502) in bytes.  `tag + 1` is computed in `uint64_t`;
for the tag `2^64-1` it is 0 whose logarithm is `-inf`, and converting `-inf` to an integer is
undefined behaviour: `none`. -/
def computeTagWidth (tags : List Nat) : Option Nat :=
  if tags.isEmpty then some 1
  else
    let m := tags.foldl max 0
    let n := (m + 1) % 2 ^ 64
    if n = 0 then none else some (roundUpToPowerOfTwo (ceilLog2Bytes n))

end PJ
