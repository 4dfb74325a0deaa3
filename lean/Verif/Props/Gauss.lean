import Verif.Props.Rsa
import Verif.Props.Bisect
import Mathlib.Algebra.BigOperators.Intervals
/-
C176: sums by closed formulas.
-/
namespace BN
open Bignum

/-- `x * (x + one) / two` -/
def triangular {F : Type} (o : FloatOps F) (L : Limits) (env : Env) (n : Nat) (one two x : Bignum) : Res Bignum := do
  let y ← x.add L env n one
  let p ← x.mul o L env n y
  p.div L env n two

/-- `x * (x + one) * (x + x + one) / six` -/
def pyramid {F : Type} (o : FloatOps F) (L : Limits) (env : Env) (n : Nat) (one six x : Bignum) : Res Bignum := do
  let y ← x.add L env n one
  let p ← x.mul o L env n y
  let z ← x.add L env n x
  let z ← z.add L env n one
  let p ← p.mul o L env n z
  p.div L env n six

variable {L : Limits} {env : Env}

theorem sum_id (v : Nat) : v * (v + 1) = 2 * ∑ i ∈ Finset.range (v + 1), i := by
  induction v with
  | zero => simp
  | succ v ih => rw [Finset.sum_range_succ, Nat.mul_add 2, ← ih]; ring

theorem sum_sq (v : Nat) : v * (v + 1) * (v + v + 1) = 6 * ∑ i ∈ Finset.range (v + 1), i ^ 2 := by
  induction v with
  | zero => simp
  | succ v ih => rw [Finset.sum_range_succ, Nat.mul_add 6, ← ih]; ring

section
variable {F : Type} {o : FloatOps F} (M : Ieee o) {K : Nat} (hp : Preset L K) (hm : env.Ample) (hd : env.debug = false)
include M hp hm hd

theorem triangular_num {v : Nat} (h1 : 0 < v) (hK : 2 * (numeral L .pos (v + 1)).digits.length ≤ K) {n : Nat} (hn : (v * (v + 1)).size + 40 ≤ n) :
    triangular o L env n (numeral L .pos 1) (numeral L .pos 2) (numeral L .pos v) =
      if v = 1 then .ok ⟨.pos, [0]⟩ else .ok (numeral L .pos (∑ i ∈ Finset.range (v + 1), i)) := by
  have hB := hp.custom.supported.base_ge
  have l1 := length_numeral_mono (L := L) hB (show v ≤ v + 1 by omega)
  have h2 : v + 1 ≤ v * (v + 1) := Nat.le_mul_of_pos_left _ h1
  have z1 := Nat.size_le_size (show v ≤ v * (v + 1) by omega)
  have z2 := Nat.size_le_size (show 1 ≤ v * (v + 1) by omega)
  rw [triangular, add_numerals hp.custom.supported hm (by omega) (by omega), ok_bind, pos_mul M hp hm (.inl (by omega)) (by omega) (by omega), ok_bind]
  split
  · subst v
    exact div_numeral_self hp.custom.supported hm le_rfl n
  · have h6 : 6 ≤ v * (v + 1) := by
      calc 6 = 2 * 3 := rfl
        _ ≤ v * (v + 1) := Nat.mul_le_mul (by omega) (by omega)
    rw [pos_div hp.custom hm hd (by omega) (.inl (by omega)) (by omega) (by omega), sum_id, Nat.mul_div_cancel_left _ (by omega)]

theorem pyramid_num {v : Nat} (h1 : 0 < v) (hK : 4 * (numeral L .pos (v + v + 1)).digits.length ≤ K) {n : Nat} (hn : (v * (v + 1) * (v + v + 1)).size + 40 ≤ n) :
    pyramid o L env n (numeral L .pos 1) (numeral L .pos 6) (numeral L .pos v) =
      if v = 1 then .ok ⟨.pos, [0]⟩ else .ok (numeral L .pos (∑ i ∈ Finset.range (v + 1), i ^ 2)) := by
  have hB := hp.custom.supported.base_ge
  have l1 := length_numeral_mono (L := L) hB (show v ≤ v + v + 1 by omega)
  have l2 := length_numeral_mono (L := L) hB (show v + 1 ≤ v + v + 1 by omega)
  have l3 := length_numeral_mul (L := L) hB v (v + 1)
  have h2 : v + 1 ≤ v * (v + 1) := Nat.le_mul_of_pos_left _ h1
  have h3 : v + v + 1 ≤ v * (v + 1) * (v + v + 1) := Nat.le_mul_of_pos_left _ (by omega)
  have z1 := Nat.size_le_size (show v ≤ v * (v + 1) * (v + v + 1) by omega)
  have z2 := Nat.size_le_size (show 1 ≤ v * (v + 1) * (v + v + 1) by omega)
  have z3 := Nat.size_le_size (show v + v ≤ v * (v + 1) * (v + v + 1) by omega)
  rw [pyramid, add_numerals hp.custom.supported hm (by omega) (by omega), ok_bind, pos_mul M hp hm (.inl (by omega)) (by omega) (by omega), ok_bind,
    add_numerals hp.custom.supported hm (by omega) (by omega), ok_bind, add_numerals hp.custom.supported hm (by omega) (by omega), ok_bind,
    pos_mul M hp hm (.inr (by omega)) (by omega) (by omega), ok_bind]
  split
  · subst v
    exact div_numeral_self hp.custom.supported hm (b := 6) (by omega) n
  · have h6 : 30 ≤ v * (v + 1) * (v + v + 1) := by
      calc 30 = 2 * 3 * 5 := rfl
        _ ≤ v * (v + 1) * (v + v + 1) := Nat.mul_le_mul (Nat.mul_le_mul (by omega) (by omega)) (by omega)
    rw [pos_div hp.custom hm hd (by omega) (.inl (by omega)) (by omega) (by omega), sum_sq, Nat.mul_div_cancel_left _ (by omega)]

/-- From two on both formulas give the sums. Missing: one. -/
theorem C176_sums_partial {one two six x : Bignum} (h1w : WF L one) (h1 : one.toInt L = 1) (h2w : WF L two) (h2 : two.toInt L = 2) (h6w : WF L six)
    (h6 : six.toInt L = 6) (hxw : WF L x) (hx : 2 ≤ x.toInt L) (hK : 4 * (x.size + 1) ≤ K) :
    (∃ s, Evaluates (fun n => triangular o L env n one two x) (.ok s) ∧ WF L s ∧ s.toInt L = ∑ i ∈ Finset.range ((x.toInt L).toNat + 1), (i : Int)) ∧
    (∃ s, Evaluates (fun n => pyramid o L env n one six x) (.ok s) ∧ WF L s ∧ s.toInt L = ∑ i ∈ Finset.range ((x.toInt L).toNat + 1), (i : Int) ^ 2) := by
  have hB := hp.custom.supported.base_ge
  have e1 := eq_pos hB h1w (by omega)
  have e2 := eq_pos hB h2w (by omega)
  have e6 := eq_pos hB h6w (by omega)
  have ex := eq_pos hB hxw (by omega)
  rw [h1, show ((1 : Int)).toNat = 1 from rfl] at e1
  rw [h2, show ((2 : Int)).toNat = 2 from rfl] at e2
  rw [h6, show ((6 : Int)).toNat = 6 from rfl] at e6
  have v2 : 2 ≤ (x.toInt L).toNat := by omega
  clear h1 h2 h6 hx
  generalize (x.toInt L).toNat = v at *
  subst e1 e2 e6 ex
  change 4 * ((numeral L .pos v).digits.length + 1) ≤ K at hK
  have lv : (numeral L .pos (v + v + 1)).digits.length ≤ (numeral L .pos v).digits.length + 1 := length_numeral_le hB (by
    have : v < L.base ^ (numeral L .pos v).digits.length := by
      have := mag_lt (numeral_wf (L := L) hB (d := .pos) (.inl rfl) v)
      rwa [numeral_mag] at this
    rw [pow_succ]
    nlinarith)
  have l1 := length_numeral_mono (L := L) hB (show v + 1 ≤ v + v + 1 by omega)
  refine ⟨⟨_, ⟨(v * (v + 1)).size + 40, fun n hn => ?_⟩, numeral_wf hB (.inl rfl) (∑ i ∈ Finset.range (v + 1), i), ?_⟩,
    ⟨_, ⟨(v * (v + 1) * (v + v + 1)).size + 40, fun n hn => ?_⟩, numeral_wf hB (.inl rfl) (∑ i ∈ Finset.range (v + 1), i ^ 2), ?_⟩⟩
  · beta_reduce
    rw [triangular_num M hp hm hd (by omega) (by omega) hn, if_neg (by omega)]
  · rw [toInt_of_pos rfl, numeral_mag]; push_cast; rfl
  · beta_reduce
    rw [pyramid_num M hp hm hd (by omega) (by omega) hn, if_neg (by omega)]
  · rw [toInt_of_pos rfl, numeral_mag]; push_cast; rfl

/-- For one both formulas give zero. -/
theorem C176_one {one two six x : Bignum} (h1w : WF L one) (h1 : one.toInt L = 1) (h2w : WF L two) (h2 : two.toInt L = 2) (h6w : WF L six)
    (h6 : six.toInt L = 6) (hxw : WF L x) (hx : x.toInt L = 1) (hK : 8 ≤ K) :
    (∃ s, Evaluates (fun n => triangular o L env n one two x) (.ok s) ∧ s.toInt L = 0) ∧
    (∃ s, Evaluates (fun n => pyramid o L env n one six x) (.ok s) ∧ s.toInt L = 0) := by
  have hB := hp.custom.supported.base_ge
  have e1 := eq_pos hB h1w (by omega)
  have e2 := eq_pos hB h2w (by omega)
  have e6 := eq_pos hB h6w (by omega)
  have ex := eq_pos hB hxw (by omega)
  rw [h1, show ((1 : Int)).toNat = 1 from rfl] at e1
  rw [h2, show ((2 : Int)).toNat = 2 from rfl] at e2
  rw [h6, show ((6 : Int)).toNat = 6 from rfl] at e6
  rw [hx, show ((1 : Int)).toNat = 1 from rfl] at ex
  rw [e1, e2, e6, ex]
  have l3 : (numeral L .pos (1 + 1 + 1)).digits.length ≤ 2 := length_numeral_le hB (by nlinarith)
  have l2 := length_numeral_mono (L := L) hB (show 1 + 1 ≤ 1 + 1 + 1 by omega)
  refine ⟨⟨⟨.pos, [0]⟩, ⟨(1 * (1 + 1)).size + 40, fun n hn => ?_⟩, by simp [Bignum.toInt, Bignum.mag]⟩,
    ⟨⟨.pos, [0]⟩, ⟨(1 * (1 + 1) * (1 + 1 + 1)).size + 40, fun n hn => ?_⟩, by simp [Bignum.toInt, Bignum.mag]⟩⟩
  · beta_reduce
    rw [triangular_num M hp hm hd (by omega) (by omega) hn, if_pos rfl]
  · beta_reduce
    rw [pyramid_num M hp hm hd (by omega) (by omega) hn, if_pos rfl]

end

/-- 1 + 2 + ... + 100 -/
example {F : Type} {o : FloatOps F} (M : Ieee o) := C176_sums_partial M .base10 Sample.ample rfl (one := ⟨.pos, [1]⟩) (two := ⟨.pos, [2]⟩) (six := ⟨.pos, [6]⟩)
  (x := ⟨.pos, [0, 0, 1]⟩) (by sample) (by sample) (by sample) (by sample) (by sample) (by sample) (by sample) (by sample) (by sample)

example {F : Type} {o : FloatOps F} (M : Ieee o) := C176_one M .base10 Sample.ample rfl (one := ⟨.pos, [1]⟩) (two := ⟨.pos, [2]⟩) (six := ⟨.pos, [6]⟩)
  (x := ⟨.pos, [1]⟩) (by sample) (by sample) (by sample) (by sample) (by sample) (by sample) (by sample) (by sample) (by norm_num)

end BN
