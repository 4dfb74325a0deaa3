import Verif.Lemmas.FloatErr
import Mathlib.Algebra.Order.BigOperators.Ring.Finset
/-
Rounding errors of the transforms, in the mean-square sense.
-/
namespace BN
open Complex Finset

/-- Cauchy–Schwarz in the form used here. -/
theorem cs {s : Finset ℕ} {a b : ℕ → ℝ} {α β R : ℝ} (hα : 0 ≤ α) (hβ : 0 ≤ β) (hR : 0 ≤ R)
    (h1 : ∑ j ∈ s, a j ^ 2 ≤ α ^ 2 * R) (h2 : ∑ j ∈ s, b j ^ 2 ≤ β ^ 2 * R) : ∑ j ∈ s, a j * b j ≤ α * β * R := by
  have h := sum_mul_sq_le_sq_mul_sq s a b
  apply le_of_sq_le_sq _ (by positivity)
  calc (∑ j ∈ s, a j * b j) ^ 2 ≤ (∑ j ∈ s, a j ^ 2) * ∑ j ∈ s, b j ^ 2 := h
    _ ≤ (α ^ 2 * R) * (β ^ 2 * R) := mul_le_mul h1 h2 (sum_nonneg fun _ _ => sq_nonneg _) (by positivity)
    _ = (α * β * R) ^ 2 := by ring

/-- Minkowski. -/
theorem mink {s : Finset ℕ} {a b : ℕ → ℝ} {α β R : ℝ} (hα : 0 ≤ α) (hβ : 0 ≤ β) (hR : 0 ≤ R)
    (h1 : ∑ j ∈ s, a j ^ 2 ≤ α ^ 2 * R) (h2 : ∑ j ∈ s, b j ^ 2 ≤ β ^ 2 * R) :
    ∑ j ∈ s, (a j + b j) ^ 2 ≤ (α + β) ^ 2 * R := by
  have h := cs hα hβ hR h1 h2
  have e : ∑ j ∈ s, (a j + b j) ^ 2 = ∑ j ∈ s, a j ^ 2 + 2 * ∑ j ∈ s, a j * b j + ∑ j ∈ s, b j ^ 2 := by
    rw [mul_sum, ← sum_add_distrib, ← sum_add_distrib]
    apply sum_congr rfl; intro j _; ring
  rw [e]
  nlinarith

section
variable {F : Type} {o : FloatOps F} (M : Ieee o)

theorem mul_err {a b A B e f : ℝ} (h1 : |a - A| ≤ e) (h2 : |b - B| ≤ f) : |a * b - A * B| ≤ e * |b| + |A| * f := by
  have : a * b - A * B = (a - A) * b + A * (b - B) := by ring
  rw [this]
  refine le_trans (abs_add_le _ _) ?_
  rw [abs_mul, abs_mul]
  exact add_le_add (mul_le_mul_of_nonneg_right h1 (abs_nonneg _)) (mul_le_mul_of_nonneg_left h2 (abs_nonneg _))

/-- The argument of the twiddle factor. -/
theorem arg_ok {k j : ℕ} (hk : k ≤ 40) (hj : 2 * j ≤ 2 ^ k) :
    let w := o.div (o.mul (o.mul o.negTwo (o.ofNat j)) o.pi) (o.ofNat (2 ^ k))
    M.fin w ∧ |M.val w - (-2 * j * Real.pi / (2 ^ k : ℕ))| ≤ 12 * uro ∧ |M.val w| ≤ 4 := by
  have hu := uro_pos
  have hu' := uro_le
  have he := eta_pos
  have he' := eta_le
  have hpi1 := Real.pi_lt_d2
  have hpi2 := Real.pi_gt_d2
  have hN53 : (2 : ℕ) ^ k ≤ 2 ^ 40 := Nat.pow_le_pow_right (by omega) hk
  have h53 : (2 : ℕ) ^ 40 ≤ 2 ^ 53 := by norm_num
  obtain ⟨fn, vn⟩ := M.ofNat_ok (2 ^ k) (by omega)
  obtain ⟨fj, vj⟩ := M.ofNat_ok j (by omega)
  obtain ⟨ft, vt⟩ := M.negTwo_ok
  obtain ⟨fp, vp⟩ := M.pi_ok
  set N : ℝ := ((2 ^ k : ℕ) : ℝ) with hN
  have hN1 : 1 ≤ N := by rw [hN]; exact_mod_cast Nat.one_le_two_pow
  have hN2 : N ≤ 2 ^ 40 := by rw [hN]; exact_mod_cast hN53
  have hjN : 2 * (j : ℝ) ≤ N := by rw [hN]; exact_mod_cast hj
  have hj0 : (0 : ℝ) ≤ j := Nat.cast_nonneg _
  have hbig := big_ge
  have hb' : (2 : ℝ) ^ 190 = 2 ^ 40 * 2 ^ 150 := by norm_num
  have hb'' : (1000 : ℝ) ≤ 2 ^ 150 := by norm_num
  have hbN : N * 1000 ≤ big := by nlinarith
  -- first product
  have a1 : |M.val o.negTwo * M.val (o.ofNat j)| = 2 * j := by
    rw [vt, vj, abs_mul, abs_of_nonneg hj0]; norm_num
  obtain ⟨f1, e1⟩ := M.mul_ok _ _ ft fj (by rw [a1]; nlinarith)
  rw [a1, vt, vj] at e1
  set p1 := M.val (o.mul o.negTwo (o.ofNat j))
  have hN0 : 0 < N := by linarith
  have hq0 : 0 ≤ uro * N + eta := add_nonneg (mul_nonneg hu.le hN0.le) he.le
  have e1' : |p1 - -2 * j| ≤ uro * N + eta := le_trans e1 (by nlinarith)
  -- second product
  have hpiB : |M.val o.pi| ≤ 3.151 := by rw [abs_le] at vp ⊢; constructor <;> linarith [vp.1, vp.2]
  have e2 := mul_err e1' vp
  have a2j : |-2 * (j : ℝ)| ≤ N := by rw [abs_mul, abs_of_nonneg hj0]; norm_num; exact hjN
  have e2' : |p1 * M.val o.pi - -2 * j * Real.pi| ≤ 5.151 * (uro * N) + 3.151 * eta := by
    refine le_trans e2 ?_
    have t1 : (uro * N + eta) * |M.val o.pi| ≤ (uro * N + eta) * 3.151 := mul_le_mul_of_nonneg_left hpiB hq0
    have t2 : |-2 * (j : ℝ)| * (2 * uro) ≤ N * (2 * uro) := mul_le_mul_of_nonneg_right a2j (by linarith)
    linarith
  have huN : uro * N ≤ N / 10 ^ 15 := by
    have := mul_le_mul_of_nonneg_right hu' (le_trans zero_le_one hN1)
    linarith
  have hetaN : eta ≤ uro * N / 10 ^ 15 := by
    refine le_trans he' ?_
    apply div_le_div_of_nonneg_right _ (by norm_num)
    nlinarith
  have aX : |-2 * (j : ℝ) * Real.pi| ≤ 3.15 * N := by
    rw [abs_mul, abs_of_pos Real.pi_pos]
    nlinarith [abs_nonneg (-2 * (j : ℝ)), mul_le_mul a2j hpi1.le Real.pi_pos.le (by linarith)]
  have a2 : |p1 * M.val o.pi| ≤ 3.1501 * N := by
    have := abs_add_le (-2 * (j : ℝ) * Real.pi) (p1 * M.val o.pi - -2 * j * Real.pi)
    rw [add_sub_cancel] at this
    linarith
  obtain ⟨f2, e3⟩ := M.mul_ok _ _ f1 fp (by change |p1 * M.val o.pi| ≤ big; linarith)
  set p2 := M.val (o.mul (o.mul o.negTwo (o.ofNat j)) o.pi)
  change |p2 - p1 * M.val o.pi| ≤ uro * |p1 * M.val o.pi| + eta at e3
  have e4 : |p2 - -2 * j * Real.pi| ≤ 8.31 * (uro * N) := by
    have := abs_add_le (p2 - p1 * M.val o.pi) (p1 * M.val o.pi - -2 * j * Real.pi)
    rw [sub_add_sub_cancel] at this
    have t : uro * |p1 * M.val o.pi| ≤ uro * (3.1501 * N) := mul_le_mul_of_nonneg_left a2 hu.le
    have : 0 ≤ uro * N := mul_nonneg hu.le hN0.le
    linarith
  -- quotient
  have e5 : |p2 / N - -2 * j * Real.pi / N| ≤ 8.31 * uro := by
    rw [← sub_div, abs_div, abs_of_pos (by linarith : 0 < N), div_le_iff₀ (by linarith)]
    linarith
  have aY : |-2 * (j : ℝ) * Real.pi / N| ≤ 3.15 := by
    rw [abs_div, abs_of_pos (by linarith : 0 < N), div_le_iff₀ (by linarith)]; exact aX
  have a3 : |p2 / N| ≤ 3.1501 := by
    have := abs_add_le (-2 * (j : ℝ) * Real.pi / N) (p2 / N - -2 * j * Real.pi / N)
    rw [add_sub_cancel] at this
    linarith
  obtain ⟨f3, e6⟩ := M.div_ok _ _ f2 fn (by rw [vn]; exact hN0.ne') (by rw [vn]; change |p2 / N| ≤ big; linarith)
  rw [vn] at e6
  change |_ - p2 / N| ≤ uro * |p2 / N| + eta at e6
  have hfin : |M.val (o.div (o.mul (o.mul o.negTwo (o.ofNat j)) o.pi) (o.ofNat (2 ^ k))) - -2 * j * Real.pi / N| ≤ 12 * uro := by
    have := abs_add_le (M.val (o.div (o.mul (o.mul o.negTwo (o.ofNat j)) o.pi) (o.ofNat (2 ^ k))) - p2 / N) (p2 / N - -2 * j * Real.pi / N)
    rw [sub_add_sub_cancel] at this
    have t : uro * |p2 / N| ≤ uro * 3.1501 := mul_le_mul_of_nonneg_left a3 hu.le
    linarith
  refine ⟨f3, hfin, ?_⟩
  have := abs_add_le (-2 * (j : ℝ) * Real.pi / N) (M.val (o.div (o.mul (o.mul o.negTwo (o.ofNat j)) o.pi) (o.ofNat (2 ^ k))) - -2 * j * Real.pi / N)
  rw [add_sub_cancel] at this
  linarith

theorem twiddle_ok {k j : ℕ} (hk : k ≤ 40) (hj : 2 * j ≤ 2 ^ k) :
    M.finC (twiddle o (2 ^ k) j) ∧ ‖M.c (twiddle o (2 ^ k) j) - rt k ^ j‖ ≤ 23 * uro := by
  obtain ⟨h1, h2, h3⟩ := arg_ok M hk hj
  obtain ⟨c1, c2⟩ := M.cos_ok _ h1 h3
  obtain ⟨s1, s2⟩ := M.sin_ok _ h1 h3
  refine ⟨⟨c1, s1⟩, ?_⟩
  have hu := uro_pos
  rw [rt_pow_eq]
  have k1 := Real.abs_cos_sub_cos_le (M.val (o.div (o.mul (o.mul o.negTwo (o.ofNat j)) o.pi) (o.ofNat (2 ^ k)))) (-2 * j * Real.pi / (2 ^ k : ℕ))
  have k2 := Real.abs_sin_sub_sin_le (M.val (o.div (o.mul (o.mul o.negTwo (o.ofNat j)) o.pi) (o.ofNat (2 ^ k)))) (-2 * j * Real.pi / (2 ^ k : ℕ))
  refine le_trans (norm_le_of_both (s := 16 * uro) ?_ ?_) (by linarith)
  · rw [sub_re]
    change |M.val (o.cos _) - Real.cos _| ≤ _
    refine le_trans (abs_sub_le _ _ _) (le_trans (add_le_add c2 (le_trans k1 h2)) (by linarith))
  · rw [sub_im]
    change |M.val (o.sin _) - Real.sin _| ≤ _
    refine le_trans (abs_sub_le _ _ _) (le_trans (add_le_add s2 (le_trans k2 h2)) (by linarith))

end
end BN
