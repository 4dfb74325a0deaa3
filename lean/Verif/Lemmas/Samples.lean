import Verif.Spec
/-
Support for the examples beside the theorems: the hypotheses of the theorems are decidable for concrete numbers.
The instances are scoped, so that they play no part in the proofs.
-/
namespace BN

namespace Sample

scoped instance (B : Nat) (l : List Nat) : Decidable (InRange B l) := inferInstanceAs (Decidable (∀ d ∈ l, d < B))
scoped instance (l : List Nat) : Decidable (NoLeadingZero l) := inferInstanceAs (Decidable (l.getLast? ≠ some 0))
scoped instance (B : Nat) (l : List Nat) : Decidable (WFDigits B l) := inferInstanceAs (Decidable (_ ∧ _))
scoped instance (d : Desc) : Decidable (Signed d) := inferInstanceAs (Decidable (_ ∨ _))
scoped instance (L : Limits) (b : Bignum) : Decidable (WF L b) := inferInstanceAs (Decidable (_ ∧ _))

theorem base2 : Custom .base2 := ⟨8, 1, by decide, by decide, by decide, rfl⟩
theorem base8 : Custom .base8 := ⟨16, 7, by decide, by decide, by decide, rfl⟩
theorem base10 : Custom .base10 := ⟨32, 9, by decide, by decide, by decide, rfl⟩
theorem base16 : Custom .base16 := ⟨32, 15, by decide, by decide, by decide, rfl⟩
theorem ample : releaseEnv.Ample := fun _ => rfl

/-- 199. -/
abbrev n199 : Bignum := ⟨.pos, [9, 9, 1]⟩
/-- -23. -/
abbrev m23 : Bignum := ⟨.neg, [3, 2]⟩
/-- 23. -/
abbrev n23 : Bignum := ⟨.pos, [3, 2]⟩
/-- 1. -/
abbrev n1 : Bignum := ⟨.pos, [1]⟩
/-- 2. -/
abbrev n2 : Bignum := ⟨.pos, [2]⟩

end Sample

/-- Decide a hypothesis about concrete numbers. -/
macro "sample" : tactic => `(tactic| (open scoped BN.Sample in first | decide | decide +kernel))

end BN
