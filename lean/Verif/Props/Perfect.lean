import Verif.Props.MillerRabin
import Verif.Props.Bisect
import Mathlib.NumberTheory.Divisors
/-
C175: sums of divisors and perfect numbers.
-/
namespace BN
open Bignum

/-- `while (d != x) { if (x / d * d == x) s = s + d; d = d + one; } return s;` -/
def aliquotLoop {F : Type} (o : FloatOps F) (L : Limits) (env : Env) (n : Nat) (one x : Bignum) : Nat → Bignum → Bignum → Res Bignum
  | 0, _, _ => .error .timeout
  | k + 1, d, s => do
    if ← d.eq x then .ok s
    else
      let q ← x.div L env n d
      let p ← q.mul o L env n d
      let s ← if ← p.eq x then s.add L env n d else .ok s
      let d ← d.add L env n one
      aliquotLoop o L env n one x k d s

/-- `bignum d = one, s;` and the loop above: the sum of the divisors below `x`. -/
def aliquot {F : Type} (o : FloatOps F) (L : Limits) (env : Env) (n k : Nat) (one x : Bignum) : Res Bignum :=
  aliquotLoop o L env n one x k one Bignum.default

/-- `return aliquot(x) == x;` -/
def perfect {F : Type} (o : FloatOps F) (L : Limits) (env : Env) (n k : Nat) (one x : Bignum) : Res Bool := do
  let s ← aliquot o L env n k one x
  s.eq x

variable {L : Limits} {env : Env}

section
variable {F : Type} {o : FloatOps F} (M : Ieee o) {K : Nat} (hp : Preset L K) (hm : env.Ample) (hd : env.debug = false)
include M hp hm hd

theorem aliquotLoop_run {x : Nat} (hK : 2 * (numeral L .pos x).digits.length ≤ K) {n : Nat} (hn : (x * x).size + 40 ≤ n) : ∀ j d s, d + j = x → 0 < d →
    s ≤ d * x → ∀ k, j < k → aliquotLoop o L env n (numeral L .pos 1) (numeral L .pos x) k (numeral L .pos d) (numeral L .pos s) =
      .ok (numeral L .pos (s + ∑ i ∈ Finset.Ico d x with i ∣ x, i)) := by
  have hB := hp.custom.supported.base_ge
  intro j
  induction j with
  | zero =>
    intro d s hj d0 _ k hk
    obtain ⟨k, rfl⟩ : ∃ j, k = j + 1 := ⟨k - 1, by omega⟩
    obtain rfl : d = x := by omega
    rw [aliquotLoop, pos_eq_pos hB, ok_bind, if_pos (by simp)]
    simp
  | succ j ih =>
    intro d s hj d0 hs k hk
    obtain ⟨k, rfl⟩ : ∃ j, k = j + 1 := ⟨k - 1, by omega⟩
    have hsx : s ≤ x * x := hs.trans (Nat.mul_le_mul_right _ (by omega))
    have hq : 0 < x / d := Nat.div_pos (by omega) d0
    have l1 := length_numeral_mono (L := L) hB (Nat.div_le_self x d)
    have l2 := length_numeral_mono (L := L) hB (show d ≤ x by omega)
    have hxx : x ≤ x * x := Nat.le_mul_self x
    have z1 := Nat.size_le_size hxx
    have z2 := Nat.size_le_size hsx
    have z3 := Nat.size_le_size (show d ≤ x * x by omega)
    have z4 := Nat.size_le_size (show 1 ≤ x * x by omega)
    rw [aliquotLoop, pos_eq_pos hB, ok_bind, if_neg (by simp; omega), pos_div hp.custom hm hd (by omega) (.inl (by omega)) (by omega) (by omega), ok_bind,
      pos_mul M hp hm (.inl (by omega)) (by omega) (by omega), ok_bind, pos_eq_pos hB]
    have hsum : ∑ i ∈ Finset.Ico d x with i ∣ x, i = (if d ∣ x then d else 0) + ∑ i ∈ Finset.Ico (d + 1) x with i ∣ x, i := by
      rw [Finset.sum_filter, Finset.sum_filter, Finset.sum_eq_sum_Ico_succ_bot (by omega)]
    have hdx : d ≤ x := by omega
    by_cases hdv : d ∣ x
    · rw [ok_bind, if_pos (by simpa using Nat.div_mul_cancel hdv), add_numerals hp.custom.supported hm (by omega) (by omega), ok_bind,
        add_numerals hp.custom.supported hm (by omega) (by omega)]
      beta_reduce
      rw [ok_bind, ih (d + 1) (s + d) (by omega) (by omega) (by rw [Nat.add_mul]; omega) k (by omega),
        hsum, if_pos hdv, Nat.add_assoc]
    · rw [ok_bind, if_neg (by simpa using fun h => hdv ⟨x / d, by rw [Nat.mul_comm]; exact h.symm⟩), ok_bind,
        add_numerals hp.custom.supported hm (by omega) (by omega)]
      beta_reduce
      rw [ok_bind, ih (d + 1) s (by omega) (by omega) (by rw [Nat.add_mul]; omega) k (by omega),
        hsum, if_neg hdv, Nat.zero_add]

theorem aliquot_num {x : Nat} (hx : 0 < x) (hK : 2 * (numeral L .pos x).digits.length ≤ K) {n : Nat} (hn : (x * x).size + 40 + x ≤ n) :
    aliquot o L env n n (numeral L .pos 1) (numeral L .pos x) = .ok (numeral L .pos (∑ i ∈ x.properDivisors, i)) := by
  have := aliquotLoop_run M hp hm hd hK (n := n) (by omega) (x - 1) 1 0 (by omega) (by omega) (by omega) n (by omega)
  rw [Nat.zero_add, show numeral L .pos 0 = Bignum.default by simp [numeral, Bignum.default]] at this
  exact this

/-- The loop sums the divisors of every positive number. -/
theorem C175_divisors {one x : Bignum} (h1w : WF L one) (h1 : one.toInt L = 1) (hxw : WF L x) (hx : 0 < x.toInt L) (hK : 2 * x.size ≤ K) :
    ∃ s, Evaluates (fun n => aliquot o L env n n one x) (.ok s) ∧ WF L s ∧ s.toInt L = (∑ i ∈ (x.toInt L).toNat.properDivisors, i : Nat) := by
  have hB := hp.custom.supported.base_ge
  have e1 := eq_pos hB h1w (by omega)
  have ex := eq_pos hB hxw hx
  rw [h1, show ((1 : Int)).toNat = 1 from rfl] at e1
  have x0 : 0 < (x.toInt L).toNat := by omega
  clear hx
  generalize (x.toInt L).toNat = v at *
  subst e1 ex
  exact ⟨_, ⟨_, fun n hn => aliquot_num M hp hm hd x0 hK hn⟩, numeral_wf hB (.inl rfl) _, by rw [toInt_of_pos rfl, numeral_mag]⟩

/-- The answer is true exactly for the perfect numbers. -/
theorem C175_perfect {one x : Bignum} (h1w : WF L one) (h1 : one.toInt L = 1) (hxw : WF L x) (hx : 0 < x.toInt L) (hK : 2 * x.size ≤ K) :
    ∃ b, Evaluates (fun n => perfect o L env n n one x) (.ok b) ∧ (b = true ↔ (x.toInt L).toNat.Perfect) := by
  have hB := hp.custom.supported.base_ge
  have e1 := eq_pos hB h1w (by omega)
  have ex := eq_pos hB hxw hx
  rw [h1, show ((1 : Int)).toNat = 1 from rfl] at e1
  have x0 : 0 < (x.toInt L).toNat := by omega
  clear hx
  generalize (x.toInt L).toNat = v at *
  subst e1 ex
  refine ⟨decide (∑ i ∈ v.properDivisors, i = v), ⟨(v * v).size + 40 + v, fun n hn => ?_⟩, ?_⟩
  · beta_reduce
    rw [perfect, aliquot_num M hp hm hd x0 hK hn, ok_bind, pos_eq_pos hB]
  · rw [decide_eq_true_iff, Nat.Perfect]
    exact ⟨fun h => ⟨h, x0⟩, fun h => h.1⟩

end

example {F : Type} {o : FloatOps F} (M : Ieee o) := C175_divisors M .base10 Sample.ample rfl (one := ⟨.pos, [1]⟩) (x := ⟨.pos, [2, 1]⟩)
  (by sample) (by sample) (by sample) (by sample) (by sample)

/-- 28 = 1 + 2 + 4 + 7 + 14 -/
example {F : Type} {o : FloatOps F} (M : Ieee o) := C175_perfect M .base10 Sample.ample rfl (one := ⟨.pos, [1]⟩) (x := ⟨.pos, [8, 2]⟩)
  (by sample) (by sample) (by sample) (by sample) (by sample)

end BN
