import Verif.Spec
import Mathlib.Algebra.BigOperators.Intervals
import Mathlib.Algebra.BigOperators.Ring.Finset
import Mathlib.Tactic.Ring
/-
Specification vocabulary for products: the columns of a long multiplication.
-/
namespace BN

/-- Column `k` of the product of two little-endian digit lists: the sum of `a[i] * b[k-i]`. -/
def colSum (a b : List Nat) (k : Nat) : Nat := ∑ i ∈ Finset.range (k + 1), a.getD i 0 * b.getD (k - i) 0

end BN
