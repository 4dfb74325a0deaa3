import Verif.Lemmas.FftErr2
/-
Error of the pointwise products, of the inverse transform and of the resulting coefficients.
-/
namespace BN
open Complex Finset

/-- Mirroring the indices permutes them. -/
theorem sum_mirror {N : ℕ} (g : ℕ → ℝ) : ∑ j ∈ range N, g ((N - j) % N) = ∑ j ∈ range N, g j := by
  cases N with
  | zero => simp
  | succ n =>
    rw [sum_range_succ', sum_range_succ' (fun j => g j)]
    congr 1
    · rw [← sum_range_reflect]
      apply sum_congr rfl
      intro j hj
      have := mem_range.1 hj
      congr 1
      rw [Nat.mod_eq_of_lt (by omega)]; omega
    · simp

/-- The sum of squares of nonnegative numbers is at most the square of their sum. -/
theorem sum_sq_le {s : Finset ℕ} {g : ℕ → ℝ} (h : ∀ j ∈ s, 0 ≤ g j) : ∑ j ∈ s, g j ^ 2 ≤ (∑ j ∈ s, g j) ^ 2 := by
  rw [sq (∑ j ∈ s, g j), sum_mul]
  apply sum_le_sum
  intro j hj
  rw [sq]
  exact mul_le_mul_of_nonneg_left (single_le_sum h hj) (h j hj)

section
variable {F : Type} {o : FloatOps F} (M : Ieee o)

/-- The pointwise product at one index: `T j`, `T m` are the exact transforms and `s` bounds the sum of their errors. -/
theorem point_ok {t1 t2 : Cx F} (h1 : M.finC t1) (h2 : M.finC t2) {T1 T2 : ℂ} {s : ℝ}
    (hs : ‖M.c t1 - T1‖ + ‖M.c t2 - T2‖ ≤ s) (hb1 : ‖M.c t1‖ ≤ 2 ^ 92) (hb2 : ‖M.c t2‖ ≤ 2 ^ 92) :
    let α := ‖T1 + (starRingEnd ℂ) T2‖
    let β := ‖T1 - (starRingEnd ℂ) T2‖
    let x3 := Cx.mul o (Cx.add o t1 (Cx.conj o t2)) (Cx.sub o t1 (Cx.conj o t2))
    let p := Cx.scale o ⟨x3.im, o.neg x3.re⟩ o.quarter
    M.finC p ∧ ‖M.c p - (T1 + (starRingEnd ℂ) T2) * (T1 - (starRingEnd ℂ) T2) * (-I / 4)‖ ≤
      (s * (α + β) + s ^ 2) / 4 + 1.63 * uro * ((α + s) * (β + s)) + 4 * eta := by
  intro α β x3 p
  have hu := uro_pos
  have hu' := uro_le
  have heta := eta_pos
  have heta' := eta_le
  have heta1 : eta ≤ 1 := by
    have : uro / 10 ^ 15 ≤ 1 := by
      rw [div_le_iff₀ (by norm_num)]; linarith
    linarith
  have hbig := big_ge
  have hbigeq : big = 2 ^ 200 := rfl
  have h190 : (2 : ℝ) ^ 92 * 8 ≤ 2 ^ 190 := by norm_num
  obtain ⟨fc, vc⟩ := cconj_ok M h2
  have nc : ‖M.c (Cx.conj o t2)‖ = ‖M.c t2‖ := by rw [vc, RCLike.norm_conj]
  -- exact sums of the computed values
  set y1 := M.c t1 + M.c (Cx.conj o t2) with hy1
  set y2 := M.c t1 - M.c (Cx.conj o t2) with hy2
  have s0 : 0 ≤ s := le_trans (by positivity) hs
  have d1 : ‖y1 - (T1 + (starRingEnd ℂ) T2)‖ ≤ s := by
    have : y1 - (T1 + (starRingEnd ℂ) T2) = (M.c t1 - T1) + (starRingEnd ℂ) (M.c t2 - T2) := by
      rw [hy1, vc, map_sub]; ring
    rw [this]
    refine le_trans (norm_add_le _ _) ?_
    rw [RCLike.norm_conj]; exact hs
  have d2 : ‖y2 - (T1 - (starRingEnd ℂ) T2)‖ ≤ s := by
    have : y2 - (T1 - (starRingEnd ℂ) T2) = (M.c t1 - T1) - (starRingEnd ℂ) (M.c t2 - T2) := by
      rw [hy2, vc, map_sub]; ring
    rw [this]
    refine le_trans (norm_sub_le _ _) ?_
    rw [RCLike.norm_conj]; exact hs
  have hα : 0 ≤ α := norm_nonneg _
  have hβ : 0 ≤ β := norm_nonneg _
  have n1 : ‖y1‖ ≤ α + s := by
    have := norm_add_le (T1 + (starRingEnd ℂ) T2) (y1 - (T1 + (starRingEnd ℂ) T2))
    rw [add_sub_cancel] at this
    exact le_trans this (add_le_add le_rfl d1)
  have n2 : ‖y2‖ ≤ β + s := by
    have := norm_add_le (T1 - (starRingEnd ℂ) T2) (y2 - (T1 - (starRingEnd ℂ) T2))
    rw [add_sub_cancel] at this
    exact le_trans this (add_le_add le_rfl d2)
  have m1 : ‖y1‖ ≤ 2 ^ 93 := by
    refine le_trans (norm_add_le _ _) ?_
    rw [nc]; have : (2 : ℝ) ^ 93 = 2 ^ 92 + 2 ^ 92 := by norm_num
    linarith
  have m2 : ‖y2‖ ≤ 2 ^ 93 := by
    refine le_trans (norm_sub_le _ _) ?_
    rw [nc]; have : (2 : ℝ) ^ 93 = 2 ^ 92 + 2 ^ 92 := by norm_num
    linarith
  have h193 : (2 : ℝ) ^ 93 ≤ 2 ^ 190 := by norm_num
  obtain ⟨fx1, ex1⟩ := cadd_ok M h1 fc (by rw [← hy1]; linarith)
  obtain ⟨fx2, ex2⟩ := csub_ok M h1 fc (by rw [← hy2]; linarith)
  rw [← hy1] at ex1
  rw [← hy2] at ex2
  set x1 := M.c (Cx.add o t1 (Cx.conj o t2))
  set x2 := M.c (Cx.sub o t1 (Cx.conj o t2))
  have ny1 := norm_nonneg y1
  have ny2 := norm_nonneg y2
  have q1 : ‖x1‖ ≤ (1 + uro) * ‖y1‖ := by
    have := norm_add_le y1 (x1 - y1)
    rw [add_sub_cancel] at this
    linarith
  have q2 : ‖x2‖ ≤ (1 + uro) * ‖y2‖ := by
    have := norm_add_le y2 (x2 - y2)
    rw [add_sub_cancel] at this
    linarith
  have pY : ‖y1‖ * ‖y2‖ ≤ (α + s) * (β + s) := mul_le_mul n1 n2 ny2 (by linarith)
  set Y := ‖y1‖ * ‖y2‖ with hY
  have hY0 : 0 ≤ Y := by positivity
  have hY1 : Y ≤ 2 ^ 93 * 2 ^ 93 := mul_le_mul m1 m2 ny2 (by positivity)
  have qq : ‖x1‖ * ‖x2‖ ≤ (1 + 3 * uro) * Y := by
    have h := mul_le_mul q1 q2 (norm_nonneg _) (by positivity)
    have e : (1 + uro) * ‖y1‖ * ((1 + uro) * ‖y2‖) = (1 + 2 * uro + uro * uro) * Y := by rw [hY]; ring
    rw [e] at h
    refine le_trans h (mul_le_mul_of_nonneg_right ?_ hY0)
    have : uro * uro ≤ 1 * uro := mul_le_mul_of_nonneg_right (by linarith) hu.le
    linarith
  have hYu : uro * Y ≤ 1 / 10 ^ 15 * Y := mul_le_mul_of_nonneg_right hu' hY0
  have h186 : (2 : ℝ) ^ 93 * 2 ^ 93 * 8 ≤ 2 ^ 190 := by norm_num
  obtain ⟨fx3, ex3⟩ := cmul_ok M fx1 fx2 (by
    change ‖x1‖ * ‖x2‖ ≤ big / 4
    linarith)
  change ‖M.c x3 - x1 * x2‖ ≤ 3 * uro * (‖x1‖ * ‖x2‖) + 3 * eta at ex3
  have k1 : ‖x1 * x2 - y1 * y2‖ ≤ 2.01 * (uro * Y) := by
    have e : x1 * x2 - y1 * y2 = (x1 - y1) * x2 + y1 * (x2 - y2) := by ring
    rw [e]
    refine le_trans (norm_add_le _ _) ?_
    rw [norm_mul, norm_mul]
    have t1 : ‖x1 - y1‖ * ‖x2‖ ≤ (uro * ‖y1‖) * ((1 + uro) * ‖y2‖) := mul_le_mul ex1 q2 (norm_nonneg _) (by positivity)
    have t2 : ‖y1‖ * ‖x2 - y2‖ ≤ ‖y1‖ * (uro * ‖y2‖) := mul_le_mul_of_nonneg_left ex2 ny1
    have e1 : (uro * ‖y1‖) * ((1 + uro) * ‖y2‖) = uro * Y + uro * (uro * Y) := by rw [hY]; ring
    have e2 : ‖y1‖ * (uro * ‖y2‖) = uro * Y := by rw [hY]; ring
    have t3 : uro * (uro * Y) ≤ 1 / 10 ^ 15 * (uro * Y) := mul_le_mul_of_nonneg_right hu' (by positivity)
    have : 0 ≤ uro * Y := by positivity
    linarith
  have huY0 : 0 ≤ uro * Y := by positivity
  have k2 : ‖y1 * y2 - (T1 + (starRingEnd ℂ) T2) * (T1 - (starRingEnd ℂ) T2)‖ ≤ s * (α + β) + s ^ 2 := by
    have e : y1 * y2 - (T1 + (starRingEnd ℂ) T2) * (T1 - (starRingEnd ℂ) T2) =
        (y1 - (T1 + (starRingEnd ℂ) T2)) * y2 + (T1 + (starRingEnd ℂ) T2) * (y2 - (T1 - (starRingEnd ℂ) T2)) := by ring
    rw [e]
    refine le_trans (norm_add_le _ _) ?_
    rw [norm_mul, norm_mul]
    have t1 := mul_le_mul d1 n2 ny2 s0
    have t2 := mul_le_mul_of_nonneg_left d2 hα
    change ‖T1 + (starRingEnd ℂ) T2‖ * _ ≤ _ at t2
    linarith
  have k3 : ‖M.c x3 - x1 * x2‖ ≤ 3.01 * (uro * Y) + 3 * eta := by
    refine le_trans ex3 ?_
    have t1 : 3 * uro * (‖x1‖ * ‖x2‖) ≤ 3 * uro * ((1 + 3 * uro) * Y) := mul_le_mul_of_nonneg_left qq (by linarith)
    have t3 : uro * (uro * Y) ≤ 1 / 10 ^ 15 * (uro * Y) := mul_le_mul_of_nonneg_right hu' (by positivity)
    linarith
  have n3 : ‖M.c x3‖ ≤ 1.01 * Y + 3 * eta := by
    have e : M.c x3 = y1 * y2 + ((M.c x3 - x1 * x2) + (x1 * x2 - y1 * y2)) := by ring
    rw [e]
    have t := le_trans (norm_add_le (y1 * y2) ((M.c x3 - x1 * x2) + (x1 * x2 - y1 * y2))) (add_le_add le_rfl (norm_add_le _ _))
    rw [norm_mul y1 y2] at t
    linarith
  -- scaling by one quarter
  obtain ⟨fq, vq⟩ := M.quarter_ok
  obtain ⟨fneg, vneg⟩ := M.neg_ok x3.re fx3.1
  have b3 : ‖M.c x3‖ ≤ 2 ^ 190 := by
    have : (1 : ℝ) ≤ 2 ^ 93 * 2 ^ 93 := by norm_num
    linarith
  have are : |M.val x3.re| ≤ ‖M.c x3‖ := abs_re_le_norm (M.c x3)
  have aim : |M.val x3.im| ≤ ‖M.c x3‖ := abs_im_le_norm (M.c x3)
  have n3' := norm_nonneg (M.c x3)
  have abs4 : ∀ {r v : ℝ}, |r| ≤ v → |r * (1 / 4)| ≤ v / 4 := by
    intro r v h; rw [abs_mul, abs_of_pos (by norm_num : (0 : ℝ) < 1 / 4)]; linarith
  obtain ⟨fre, ere⟩ := M.mul_ok _ _ fx3.2 fq (by rw [vq]; have := abs4 aim; linarith)
  obtain ⟨fim, eim⟩ := M.mul_ok _ _ fneg fq (by rw [vq, vneg]; have := abs4 (r := - M.val x3.re) (v := ‖M.c x3‖) (by rw [abs_neg]; exact are); linarith)
  rw [vq] at ere
  rw [vq, vneg] at eim
  refine ⟨⟨fre, fim⟩, ?_⟩
  have k4 : ‖M.c p - M.c x3 * (-I / 4)‖ ≤ 1.42 * (uro * (‖M.c x3‖ / 4) + eta) := by
    apply norm_le_of_both
    · have e : (M.c x3 * (-I / 4)).re = M.val x3.im * (1 / 4) := by simp [Ieee.c]; ring
      rw [sub_re, e]
      exact le_trans ere (add_le_add (mul_le_mul_of_nonneg_left (abs4 aim) hu.le) le_rfl)
    · have e : (M.c x3 * (-I / 4)).im = - M.val x3.re * (1 / 4) := by simp [Ieee.c]; ring
      rw [sub_im, e]
      exact le_trans eim (add_le_add (mul_le_mul_of_nonneg_left (abs4 (by rw [abs_neg]; exact are)) hu.le) le_rfl)
  have e : M.c p - (T1 + (starRingEnd ℂ) T2) * (T1 - (starRingEnd ℂ) T2) * (-I / 4) =
      (M.c p - M.c x3 * (-I / 4)) + ((M.c x3 - x1 * x2) + ((x1 * x2 - y1 * y2) +
        (y1 * y2 - (T1 + (starRingEnd ℂ) T2) * (T1 - (starRingEnd ℂ) T2)))) * (-I / 4) := by ring
  rw [e]
  refine le_trans (norm_add_le _ _) ?_
  rw [norm_mul]
  have hI : ‖-I / (4 : ℂ)‖ = 1 / 4 := by simp
  rw [hI]
  have t := le_trans (norm_add_le (M.c x3 - x1 * x2) ((x1 * x2 - y1 * y2) +
        (y1 * y2 - (T1 + (starRingEnd ℂ) T2) * (T1 - (starRingEnd ℂ) T2)))) (add_le_add le_rfl (norm_add_le _ _))
  have t2 : uro * ‖M.c x3‖ ≤ uro * (1.01 * Y + 3 * eta) := mul_le_mul_of_nonneg_left n3 hu.le
  have t3 : uro * eta ≤ 1 / 10 ^ 15 * eta := mul_le_mul_of_nonneg_right hu' heta.le
  have t4 : uro * Y ≤ uro * ((α + s) * (β + s)) := mul_le_mul_of_nonneg_left pY hu.le
  linarith

/-- Relative error of the pointwise products in the mean. -/
noncomputable def psi (k : ℕ) : ℝ := 1.42 * theta k + 4 * uro

/-- All pointwise products. -/
theorem points_ok {k : ℕ} (hk : k ≤ 40) {t : ℕ → Cx F} {T : ℕ → ℂ} {R : ℝ} (hR1 : 2 ^ k ≤ R) (hR2 : R ≤ 2 ^ 180)
    (hf : ∀ j < 2 ^ k, M.finC (t j)) (hT : ∑ j ∈ range (2 ^ k), ‖T j‖ ^ 2 ≤ R)
    (he : ∑ j ∈ range (2 ^ k), ‖M.c (t j) - T j‖ ^ 2 ≤ theta k ^ 2 * R) :
    let P := fun j => (T j + (starRingEnd ℂ) (T ((2 ^ k - j) % 2 ^ k))) * (T j - (starRingEnd ℂ) (T ((2 ^ k - j) % 2 ^ k))) * (-I / 4)
    (∀ j < 2 ^ k, M.finC (pointF o (2 ^ k) t j)) ∧
    ∑ j ∈ range (2 ^ k), ‖M.c (pointF o (2 ^ k) t j) - P j‖ ≤ psi k * R ∧ ∑ j ∈ range (2 ^ k), ‖P j‖ ≤ R / 2 := by
  intro P
  have hu := uro_pos
  have hu' := uro_le
  have heta := eta_pos
  have heta' := eta_le
  have hθ := theta_nonneg k
  have hθ1 := theta_le_one hk
  have h2k : (0 : ℝ) < 2 ^ k := by positivity
  have hR0 : 0 ≤ R := by linarith
  have hmir : ∀ {j}, j < 2 ^ k → (2 ^ k - j) % 2 ^ k < 2 ^ k := fun _ => Nat.mod_lt _ (by positivity)
  have hsz : ∑ j ∈ range (2 ^ k), ‖M.c (t j)‖ ^ 2 ≤ (1 + theta k) ^ 2 * R := by
    have h := mink (a := fun j => ‖T j‖) (b := fun j => ‖M.c (t j) - T j‖) (α := 1) zero_le_one hθ hR0 (by rw [one_pow, one_mul]; exact hT) he
    refine le_trans (sum_le_sum fun j _ => ?_) h
    apply pow_le_pow_left₀ (norm_nonneg _)
    have := norm_add_le (T j) (M.c (t j) - T j)
    rwa [add_sub_cancel] at this
  have hbt : ∀ j < 2 ^ k, ‖M.c (t j)‖ ≤ 2 ^ 92 := by
    intro j hj
    have h1 := single_le_sum (f := fun j => ‖M.c (t j)‖ ^ 2) (fun _ _ => by positivity) (mem_range.2 hj)
    have h2 : (1 + theta k) ^ 2 * R ≤ 4 * 2 ^ 180 := mul_le_mul (by nlinarith) hR2 hR0 (by norm_num)
    have h3 : (4 : ℝ) * 2 ^ 180 ≤ (2 ^ 92) ^ 2 := by norm_num
    exact le_of_sq_le_sq (by linarith) (by positivity)
  let m := fun j => (2 ^ k - j) % 2 ^ k
  let s := fun j => ‖M.c (t j) - T j‖ + ‖M.c (t (m j)) - T (m j)‖
  let α := fun j => ‖T j + (starRingEnd ℂ) (T (m j))‖
  let β := fun j => ‖T j - (starRingEnd ℂ) (T (m j))‖
  have hpt : ∀ j < 2 ^ k, _ := fun j hj => point_ok M (hf j hj) (hf _ (hmir hj)) (T1 := T j) (T2 := T (m j)) (s := s j) le_rfl
    (hbt j hj) (hbt _ (hmir hj))
  have hs2 : ∑ j ∈ range (2 ^ k), s j ^ 2 ≤ (2 * theta k) ^ 2 * R := by
    have h1 : ∀ j ∈ range (2 ^ k), s j ^ 2 ≤ 2 * ‖M.c (t j) - T j‖ ^ 2 + 2 * ‖M.c (t (m j)) - T (m j)‖ ^ 2 := by
      intro j _
      simp only [s]
      nlinarith [sq_nonneg (‖M.c (t j) - T j‖ - ‖M.c (t (m j)) - T (m j)‖)]
    refine le_trans (sum_le_sum h1) ?_
    rw [sum_add_distrib, ← mul_sum, ← mul_sum, sum_mirror (fun j => ‖M.c (t j) - T j‖ ^ 2)]
    nlinarith
  have hab2 : ∑ j ∈ range (2 ^ k), (α j ^ 2 + β j ^ 2) ≤ 4 * R := by
    have h1 : ∀ j ∈ range (2 ^ k), α j ^ 2 + β j ^ 2 = 2 * ‖T j‖ ^ 2 + 2 * ‖T (m j)‖ ^ 2 := by
      intro j _
      simp only [α, β]
      rw [para, RCLike.norm_conj]; ring
    rw [sum_congr rfl h1, sum_add_distrib, ← mul_sum, ← mul_sum, sum_mirror (fun j => ‖T j‖ ^ 2)]
    linarith
  have hsab : ∑ j ∈ range (2 ^ k), s j * (α j + β j) ≤ 5.66 * theta k * R := by
    have h1 : ∑ j ∈ range (2 ^ k), (α j + β j) ^ 2 ≤ 2.83 ^ 2 * R := by
      have h2 : ∀ j ∈ range (2 ^ k), (α j + β j) ^ 2 ≤ 2 * (α j ^ 2 + β j ^ 2) := by
        intro j _; nlinarith [sq_nonneg (α j - β j)]
      refine le_trans (sum_le_sum h2) ?_
      rw [← mul_sum]
      norm_num
      linarith
    have := cs (by positivity) (by norm_num) hR0 hs2 h1
    linarith
  have hab : ∑ j ∈ range (2 ^ k), α j * β j ≤ 2 * R := by
    have h2 : ∀ j ∈ range (2 ^ k), α j * β j ≤ 1 / 2 * (α j ^ 2 + β j ^ 2) := by
      intro j _; nlinarith [sq_nonneg (α j - β j)]
    refine le_trans (sum_le_sum h2) ?_
    rw [← mul_sum]
    linarith
  refine ⟨fun j hj => (hpt j hj).1, ?_, ?_⟩
  · refine le_trans (sum_le_sum fun j hj => (hpt j (mem_range.1 hj)).2) ?_
    have e : ∀ j ∈ range (2 ^ k), (s j * (α j + β j) + s j ^ 2) / 4 + 1.63 * uro * ((α j + s j) * (β j + s j)) + 4 * eta =
        (1 / 4 + 1.63 * uro) * (s j * (α j + β j)) + (1 / 4 + 1.63 * uro) * s j ^ 2 + 1.63 * uro * (α j * β j) + 4 * eta := by
      intro j _; ring
    refine le_trans (le_of_eq (sum_congr rfl e)) ?_
    rw [sum_add_distrib, sum_add_distrib, sum_add_distrib, ← mul_sum, ← mul_sum, ← mul_sum]
    simp only [sum_const, card_range, nsmul_eq_mul]
    push_cast
    have hc : 1 / 4 + 1.63 * uro ≤ 0.25000001 := by linarith
    have hc0 : 0 ≤ 1 / 4 + 1.63 * uro := by linarith
    have hθR : 0 ≤ theta k * R := by positivity
    have hS0 : 0 ≤ ∑ j ∈ range (2 ^ k), s j ^ 2 := sum_nonneg fun _ _ => sq_nonneg _
    have t1 : (1 / 4 + 1.63 * uro) * ∑ j ∈ range (2 ^ k), s j * (α j + β j) ≤ 0.25000001 * (5.66 * theta k * R) :=
      mul_le_mul hc hsab (sum_nonneg fun j _ => by simp only [s, α, β]; positivity) (by norm_num)
    have t2 : (1 / 4 + 1.63 * uro) * ∑ j ∈ range (2 ^ k), s j ^ 2 ≤ 0.25000001 * ((2 * theta k) ^ 2 * R) :=
      mul_le_mul hc hs2 hS0 (by norm_num)
    have t3 : 1.63 * uro * ∑ j ∈ range (2 ^ k), α j * β j ≤ 1.63 * uro * (2 * R) := mul_le_mul_of_nonneg_left hab (by linarith)
    have t4 : theta k * (theta k * R) ≤ 1 / 10 ^ 11 * (theta k * R) := mul_le_mul_of_nonneg_right hθ1 hθR
    have t5 : 2 ^ k * (4 * eta) ≤ R * (4 * (uro / 10 ^ 15)) := mul_le_mul hR1 (by linarith) (by linarith) hR0
    have t6 : 0 ≤ uro * R := by positivity
    unfold psi
    nlinarith
  · have h1 : ∀ j ∈ range (2 ^ k), ‖P j‖ = 1 / 4 * (α j * β j) := by
      intro j _
      simp only [P, α, β, m]
      rw [norm_mul, norm_mul]
      simp; ring
    rw [sum_congr rfl h1, ← mul_sum]
    linarith

end
end BN
