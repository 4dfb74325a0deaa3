import Verif.Lemmas.Samples
import Verif.Lemmas.MulLong
import Verif.Props.MulThreshold
/-
C122: how long the factors of a product may be, up to the longest tables.
-/
namespace BN

open Bignum

/-- Base 10: the product of two numbers all of whose digits are 9 is undefined as soon as both have 47 722 000 digits. -/
theorem C122_base10_ub {F : Type} {o : FloatOps F} (M : Ieee o) {env : Env} (hm : env.Ample) {x : Bignum} {r : Rhs} {p q fuel : Nat}
    (hx : Signed x.desc) (hp : x.digits = List.replicate p 9) (hq : (r.get x).digits = List.replicate q 9)
    (h : p + q ≤ 2 ^ 32) (h1 : 47722000 ≤ p) (h2 : 47722000 ≤ q) (hf : 32 < fuel) :
    mulAssign o .base10 env fuel x r = .ub .floatToInt := by
  apply mulAssign_ub hx
  rw [hp, hq]
  refine replicate_low_ub M (.inr ⟨32, 9, by norm_num, by norm_num, by norm_num, rfl⟩) hm hf (D := 9) (t := 47721999) (K := 31)
    (w := 32) (e := 5000) (X := 2000) (c2 := 81 * 2 ^ 47) rfl (by norm_num) (by omega) (by omega) rfl (by norm_num) (by norm_num)
    (by omega) (by norm_num) (by norm_num) (by norm_num) (by norm_num) (by norm_num) ?_ (by norm_num) (by norm_num)
  norm_num [errBound, uro, eta]

/-- Base 16: the same for numbers all of whose digits are 15, when both have 17 895 800 digits. -/
theorem C122_base16_ub {F : Type} {o : FloatOps F} (M : Ieee o) {env : Env} (hm : env.Ample) {x : Bignum} {r : Rhs} {p q fuel : Nat}
    (hx : Signed x.desc) (hp : x.digits = List.replicate p 15) (hq : (r.get x).digits = List.replicate q 15)
    (h : p + q ≤ 2 ^ 32) (h1 : 17895800 ≤ p) (h2 : 17895800 ≤ q) (hf : 32 < fuel) :
    mulAssign o .base16 env fuel x r = .ub .floatToInt := by
  apply mulAssign_ub hx
  rw [hp, hq]
  refine replicate_low_ub M (.inr ⟨32, 15, by norm_num, by norm_num, by norm_num, rfl⟩) hm hf (D := 15) (t := 17895799) (K := 31)
    (w := 32) (e := 10000) (X := 4000) (c2 := 225 * 2 ^ 47) rfl (by norm_num) (by omega) (by omega) rfl (by norm_num) (by norm_num)
    (by omega) (by norm_num) (by norm_num) (by norm_num) (by norm_num) (by norm_num) ?_ (by norm_num) (by norm_num)
  norm_num [errBound, uro, eta]

example {F : Type} {o : FloatOps F} (M : Ieee o) (n : Nat) (h : n = 50000000) := C122_base10_ub M Sample.ample
  (x := ⟨.pos, List.replicate n 9⟩) (r := .self) (p := n) (q := n) (fuel := 33) (.inl rfl) rfl rfl (by omega) (by omega) (by omega)
  (by decide)

example {F : Type} {o : FloatOps F} (M : Ieee o) (n : Nat) (h : n = 18000000) := C122_base16_ub M Sample.ample
  (x := ⟨.neg, List.replicate n 15⟩) (r := .other ⟨.pos, List.replicate (n + 1) 15⟩) (p := n) (q := n + 1) (fuel := 33) (.inr rfl) rfl
  rfl (by omega) (by omega) (by omega) (by decide)

theorem min_lt_of_cube {p q k : Nat} (h : min p q * (p * q) < 2 ^ k * (2 ^ k * 2 ^ k)) : min p q < 2 ^ k := by
  by_contra hc
  have h1 : 2 ^ k ≤ min p q := by omega
  have h2 := Nat.mul_le_mul h1 (Nat.mul_le_mul (show 2 ^ k ≤ p by omega) (show 2 ^ k ≤ q by omega))
  omega

/-- Base 10: factors of unequal lengths. The product is exact when the lengths satisfy `min p q * p * q ≤ 2 ^ 70`, for all
lengths up to 2^32 digits together. -/
theorem C122_base10 {F : Type} {o : FloatOps F} (M : Ieee o) {env : Env} (hm : env.Ample) {x : Bignum} {r : Rhs}
    (hx : WF .base10 x) (hy : WF .base10 (r.get x)) (h1 : 1 ≤ x.digits.length + (r.get x).digits.length)
    (h2 : x.digits.length + (r.get x).digits.length ≤ 2 ^ 32)
    (h3 : min x.digits.length (r.get x).digits.length * (x.digits.length * (r.get x).digits.length) ≤ 2 ^ 70) :
    ∃ z, (∀ n, 32 < n → mulAssign o .base10 env n x r = .ok z) ∧ WF .base10 z ∧ NoLeadingZero z.digits ∧
      z.desc = signRule x.desc (r.get x).desc ∧ z.toInt .base10 = x.toInt .base10 * (r.get x).toInt .base10 := by
  have hN := min_lt_of_cube (k := 24) (lt_of_le_of_lt h3 (by norm_num))
  refine C24_exact_general M (.inr ⟨32, 9, by norm_num, by norm_num, by norm_num, rfl⟩) hm hx hy (K := 32) (D := 9)
    (N := 2 ^ 24) (c2 := (81 * 2 ^ 35 : ℕ)) (by norm_num) h1 h2 (by decide) hx.2.1 hy.2.1 (by omega) (by decide) (by norm_num)
    (by norm_num) (Nat.cast_nonneg _) ?_ (by norm_num) ?_
  · have h4 := Nat.mul_le_mul_left (9 ^ 4) h3
    have h5 : (9 ^ 4 * 2 ^ 70 : ℕ) ≤ (81 * 2 ^ 35) ^ 2 := by norm_num
    exact_mod_cast Nat.le_trans h4 h5
  · norm_num [errBound, uro, eta]

/-- A number of 2^30 digits times one of 2^20 digits, far beyond the limit of C24 on the total length. -/
example {F : Type} {o : FloatOps F} (M : Ieee o) (n m : Nat) (hn : n = 2 ^ 30) (hm : m = 2 ^ 20)
    (h1 : WF .base10 ⟨.pos, List.replicate n 9⟩) (h2 : WF .base10 ⟨.neg, List.replicate m 9⟩) :=
  C122_base10 M Sample.ample (x := ⟨.pos, List.replicate n 9⟩) (r := .other ⟨.neg, List.replicate m 9⟩) h1 h2
    (by simp only [Rhs.get, List.length_replicate]; omega) (by simp only [Rhs.get, List.length_replicate]; omega)
    (by simp only [Rhs.get, List.length_replicate, hn, hm]; norm_num)

/-- Base 16: the same with `2 ^ 66`. -/
theorem C122_base16 {F : Type} {o : FloatOps F} (M : Ieee o) {env : Env} (hm : env.Ample) {x : Bignum} {r : Rhs}
    (hx : WF .base16 x) (hy : WF .base16 (r.get x)) (h1 : 1 ≤ x.digits.length + (r.get x).digits.length)
    (h2 : x.digits.length + (r.get x).digits.length ≤ 2 ^ 32)
    (h3 : min x.digits.length (r.get x).digits.length * (x.digits.length * (r.get x).digits.length) ≤ 2 ^ 66) :
    ∃ z, (∀ n, 32 < n → mulAssign o .base16 env n x r = .ok z) ∧ WF .base16 z ∧ NoLeadingZero z.digits ∧
      z.desc = signRule x.desc (r.get x).desc ∧ z.toInt .base16 = x.toInt .base16 * (r.get x).toInt .base16 := by
  have hN := min_lt_of_cube (k := 23) (lt_of_le_of_lt h3 (by norm_num))
  refine C24_exact_general M (.inr ⟨32, 15, by norm_num, by norm_num, by norm_num, rfl⟩) hm hx hy (K := 32) (D := 15)
    (N := 2 ^ 23) (c2 := (225 * 2 ^ 33 : ℕ)) (by norm_num) h1 h2 (by decide) hx.2.1 hy.2.1 (by omega) (by decide) (by norm_num)
    (by norm_num) (Nat.cast_nonneg _) ?_ (by norm_num) ?_
  · have h4 := Nat.mul_le_mul_left (15 ^ 4) h3
    have h5 : (15 ^ 4 * 2 ^ 66 : ℕ) ≤ (225 * 2 ^ 33) ^ 2 := by norm_num
    exact_mod_cast Nat.le_trans h4 h5
  · norm_num [errBound, uro, eta]

example {F : Type} {o : FloatOps F} (M : Ieee o) := C122_base16 M Sample.ample (x := ⟨.neg, [15, 15]⟩) (r := .self) (by sample)
  (by sample) (by decide) (by decide) (by decide)

/-- Base 10, as a statement about lengths: all products of `p` by `q` digits are exact if the total is at most 2^25 or
`min p q * p * q ≤ 2 ^ 70`, and they are not all exact once both lengths reach 47 722 000. -/
theorem C122_lengths10 {F : Type} {o : FloatOps F} (M : Ieee o) {env : Env} (hm : env.Ample) {p q : Nat} (h1 : 1 ≤ p + q)
    (h2 : p + q ≤ 2 ^ 32) :
    (p + q ≤ 2 ^ 25 ∨ min p q * (p * q) ≤ 2 ^ 70 → AllExact o .base10 env p q) ∧
    (AllExact o .base10 env p q → min p q < 47722000) := by
  constructor
  · intro hc x y hx hy hp hq
    subst hp hq
    rcases hc with hc | hc
    · obtain ⟨z, hz, -, -, -, hv⟩ := C24_base10 M hm (r := .other y) hx hy h1 hc
      exact ⟨z, ⟨33, fun n hn => hz n (by omega)⟩, hv⟩
    · obtain ⟨z, hz, -, -, -, hv⟩ := C122_base10 M hm (r := .other y) hx hy h1 h2 hc
      exact ⟨z, ⟨33, fun n hn => hz n (by omega)⟩, hv⟩
  · intro ha
    by_contra hc
    exact not_allExact (L := .base10) (D := 9) (by decide) (by decide) (by omega) (by omega)
      (fun n hn => C122_base10_ub M hm (p := p) (q := q) (.inl rfl) rfl rfl h2 (by omega) (by omega) hn) ha

example {F : Type} {o : FloatOps F} (M : Ieee o) := C122_lengths10 M Sample.ample (p := 2 ^ 31) (q := 2 ^ 19) (by norm_num) (by norm_num)

/-- Base 16, as a statement about lengths. -/
theorem C122_lengths16 {F : Type} {o : FloatOps F} (M : Ieee o) {env : Env} (hm : env.Ample) {p q : Nat} (h1 : 1 ≤ p + q)
    (h2 : p + q ≤ 2 ^ 32) :
    (p + q ≤ 2 ^ 24 ∨ min p q * (p * q) ≤ 2 ^ 66 → AllExact o .base16 env p q) ∧
    (AllExact o .base16 env p q → min p q < 17895800) := by
  constructor
  · intro hc x y hx hy hp hq
    subst hp hq
    rcases hc with hc | hc
    · obtain ⟨z, hz, -, -, -, hv⟩ := C24_base16 M hm (r := .other y) hx hy h1 hc
      exact ⟨z, ⟨33, fun n hn => hz n (by omega)⟩, hv⟩
    · obtain ⟨z, hz, -, -, -, hv⟩ := C122_base16 M hm (r := .other y) hx hy h1 h2 hc
      exact ⟨z, ⟨33, fun n hn => hz n (by omega)⟩, hv⟩
  · intro ha
    by_contra hc
    exact not_allExact (L := .base16) (D := 15) (by decide) (by decide) (by omega) (by omega)
      (fun n hn => C122_base16_ub M hm (p := p) (q := q) (.inl rfl) rfl rfl h2 (by omega) (by omega) hn) ha

example {F : Type} {o : FloatOps F} (M : Ieee o) := C122_lengths16 M Sample.ample (p := 2 ^ 31) (q := 2 ^ 17) (by norm_num) (by norm_num)

end BN
