import Verif.Lemmas.PrecErr2
/-
Error of the pointwise products in any format.
-/
namespace BN.FP
open Complex Finset BN

section
variable {φ : Prec} {F : Type} {o : FloatOps F} (M : Laws φ.toFormat o)

/-- The pointwise product at one index: `T j`, `T m` are the exact transforms and `s` bounds the sum of their errors. -/
theorem point_ok {t1 t2 : Cx F} (h1 : M.finC t1) (h2 : M.finC t2) {T1 T2 : ℂ} {s : ℝ}
    (hs : ‖M.c t1 - T1‖ + ‖M.c t2 - T2‖ ≤ s) (hb1 : ‖M.c t1‖ ≤ 4 * φ.A) (hb2 : ‖M.c t2‖ ≤ 4 * φ.A) :
    let α := ‖T1 + (starRingEnd ℂ) T2‖
    let β := ‖T1 - (starRingEnd ℂ) T2‖
    let x3 := Cx.mul o (Cx.add o t1 (Cx.conj o t2)) (Cx.sub o t1 (Cx.conj o t2))
    let p := Cx.scale o ⟨x3.im, o.neg x3.re⟩ o.quarter
    M.finC p ∧ ‖M.c p - (T1 + (starRingEnd ℂ) T2) * (T1 - (starRingEnd ℂ) T2) * (-I / 4)‖ ≤
      (s * (α + β) + s ^ 2) / 4 + 1.63 * φ.u * ((α + s) * (β + s)) + 4 * φ.eta := by
  intro α β x3 p
  have hu := φ.u_pos
  have hu' := φ.u_le
  have heta := φ.eta_pos
  have heta' := φ.eta_le
  have heta1 : φ.eta ≤ 1 := by
    have : φ.u / 10 ^ 15 ≤ 1 := by
      rw [div_le_iff₀ (by norm_num)]; linarith
    linarith
  have hbig := φ.big_ge
  have hA1 := φ.A_one
  have hA2 := φ.A_sq
  have h190 : (4 * φ.A) * 8 ≤ 1024 * φ.A ^ 2 := by linarith
  obtain ⟨fc, vc⟩ := cconj_ok M h2
  have nc : ‖M.c (Cx.conj o t2)‖ = ‖M.c t2‖ := by rw [vc, RCLike.norm_conj]
  -- exact sums of the computed values
  set y1 := M.c t1 + M.c (Cx.conj o t2) with hy1
  set y2 := M.c t1 - M.c (Cx.conj o t2) with hy2
  have s0 : 0 ≤ s := le_trans (by positivity) hs
  have d1 : ‖y1 - (T1 + (starRingEnd ℂ) T2)‖ ≤ s := by
    have : y1 - (T1 + (starRingEnd ℂ) T2) = (M.c t1 - T1) + (starRingEnd ℂ) (M.c t2 - T2) := by
      rw [hy1, vc, map_sub]; ring
    rw [this]
    refine le_trans (norm_add_le _ _) ?_
    rw [RCLike.norm_conj]; exact hs
  have d2 : ‖y2 - (T1 - (starRingEnd ℂ) T2)‖ ≤ s := by
    have : y2 - (T1 - (starRingEnd ℂ) T2) = (M.c t1 - T1) - (starRingEnd ℂ) (M.c t2 - T2) := by
      rw [hy2, vc, map_sub]; ring
    rw [this]
    refine le_trans (norm_sub_le _ _) ?_
    rw [RCLike.norm_conj]; exact hs
  have hα : 0 ≤ α := norm_nonneg _
  have hβ : 0 ≤ β := norm_nonneg _
  have n1 : ‖y1‖ ≤ α + s := by
    have := norm_add_le (T1 + (starRingEnd ℂ) T2) (y1 - (T1 + (starRingEnd ℂ) T2))
    rw [add_sub_cancel] at this
    exact le_trans this (add_le_add le_rfl d1)
  have n2 : ‖y2‖ ≤ β + s := by
    have := norm_add_le (T1 - (starRingEnd ℂ) T2) (y2 - (T1 - (starRingEnd ℂ) T2))
    rw [add_sub_cancel] at this
    exact le_trans this (add_le_add le_rfl d2)
  have m1 : ‖y1‖ ≤ 8 * φ.A := by
    refine le_trans (norm_add_le _ _) ?_
    rw [nc]; have : (8 * φ.A) = 4 * φ.A + 4 * φ.A := by ring
    linarith
  have m2 : ‖y2‖ ≤ 8 * φ.A := by
    refine le_trans (norm_sub_le _ _) ?_
    rw [nc]; have : (8 * φ.A) = 4 * φ.A + 4 * φ.A := by ring
    linarith
  have h193 : (8 * φ.A) ≤ 1024 * φ.A ^ 2 := by linarith
  obtain ⟨fx1, ex1⟩ := cadd_ok M h1 fc (by rw [← hy1]; linarith)
  obtain ⟨fx2, ex2⟩ := csub_ok M h1 fc (by rw [← hy2]; linarith)
  rw [← hy1] at ex1
  rw [← hy2] at ex2
  set x1 := M.c (Cx.add o t1 (Cx.conj o t2))
  set x2 := M.c (Cx.sub o t1 (Cx.conj o t2))
  have ny1 := norm_nonneg y1
  have ny2 := norm_nonneg y2
  have q1 : ‖x1‖ ≤ (1 + φ.u) * ‖y1‖ := by
    have := norm_add_le y1 (x1 - y1)
    rw [add_sub_cancel] at this
    linarith
  have q2 : ‖x2‖ ≤ (1 + φ.u) * ‖y2‖ := by
    have := norm_add_le y2 (x2 - y2)
    rw [add_sub_cancel] at this
    linarith
  have pY : ‖y1‖ * ‖y2‖ ≤ (α + s) * (β + s) := mul_le_mul n1 n2 ny2 (by linarith)
  set Y := ‖y1‖ * ‖y2‖ with hY
  have hY0 : 0 ≤ Y := by positivity
  have hY1 : Y ≤ 8 * φ.A * (8 * φ.A) := mul_le_mul m1 m2 ny2 (by positivity)
  have qq : ‖x1‖ * ‖x2‖ ≤ (1 + 3 * φ.u) * Y := by
    have h := mul_le_mul q1 q2 (norm_nonneg _) (by positivity)
    have e : (1 + φ.u) * ‖y1‖ * ((1 + φ.u) * ‖y2‖) = (1 + 2 * φ.u + φ.u * φ.u) * Y := by rw [hY]; ring
    rw [e] at h
    refine le_trans h (mul_le_mul_of_nonneg_right ?_ hY0)
    have : φ.u * φ.u ≤ 1 * φ.u := mul_le_mul_of_nonneg_right (by linarith) hu.le
    linarith
  have hYu : φ.u * Y ≤ 6 / 10 ^ 8 * Y := mul_le_mul_of_nonneg_right hu' hY0
  have h186 : 8 * φ.A * (8 * φ.A) * 8 ≤ 1024 * φ.A ^ 2 := by nlinarith
  obtain ⟨fx3, ex3⟩ := cmul_ok M fx1 fx2 (by
    change ‖x1‖ * ‖x2‖ ≤ φ.big / 4
    linarith)
  change ‖M.c x3 - x1 * x2‖ ≤ 3 * φ.u * (‖x1‖ * ‖x2‖) + 3 * φ.eta at ex3
  have k1 : ‖x1 * x2 - y1 * y2‖ ≤ 2.01 * (φ.u * Y) := by
    have e : x1 * x2 - y1 * y2 = (x1 - y1) * x2 + y1 * (x2 - y2) := by ring
    rw [e]
    refine le_trans (norm_add_le _ _) ?_
    rw [norm_mul, norm_mul]
    have t1 : ‖x1 - y1‖ * ‖x2‖ ≤ (φ.u * ‖y1‖) * ((1 + φ.u) * ‖y2‖) := mul_le_mul ex1 q2 (norm_nonneg _) (by positivity)
    have t2 : ‖y1‖ * ‖x2 - y2‖ ≤ ‖y1‖ * (φ.u * ‖y2‖) := mul_le_mul_of_nonneg_left ex2 ny1
    have e1 : (φ.u * ‖y1‖) * ((1 + φ.u) * ‖y2‖) = φ.u * Y + φ.u * (φ.u * Y) := by rw [hY]; ring
    have e2 : ‖y1‖ * (φ.u * ‖y2‖) = φ.u * Y := by rw [hY]; ring
    have t3 : φ.u * (φ.u * Y) ≤ 6 / 10 ^ 8 * (φ.u * Y) := mul_le_mul_of_nonneg_right hu' (by positivity)
    have : 0 ≤ φ.u * Y := by positivity
    linarith
  have huY0 : 0 ≤ φ.u * Y := by positivity
  have k2 : ‖y1 * y2 - (T1 + (starRingEnd ℂ) T2) * (T1 - (starRingEnd ℂ) T2)‖ ≤ s * (α + β) + s ^ 2 := by
    have e : y1 * y2 - (T1 + (starRingEnd ℂ) T2) * (T1 - (starRingEnd ℂ) T2) =
        (y1 - (T1 + (starRingEnd ℂ) T2)) * y2 + (T1 + (starRingEnd ℂ) T2) * (y2 - (T1 - (starRingEnd ℂ) T2)) := by ring
    rw [e]
    refine le_trans (norm_add_le _ _) ?_
    rw [norm_mul, norm_mul]
    have t1 := mul_le_mul d1 n2 ny2 s0
    have t2 := mul_le_mul_of_nonneg_left d2 hα
    change ‖T1 + (starRingEnd ℂ) T2‖ * _ ≤ _ at t2
    linarith
  have k3 : ‖M.c x3 - x1 * x2‖ ≤ 3.01 * (φ.u * Y) + 3 * φ.eta := by
    refine le_trans ex3 ?_
    have t1 : 3 * φ.u * (‖x1‖ * ‖x2‖) ≤ 3 * φ.u * ((1 + 3 * φ.u) * Y) := mul_le_mul_of_nonneg_left qq (by linarith)
    have t3 : φ.u * (φ.u * Y) ≤ 6 / 10 ^ 8 * (φ.u * Y) := mul_le_mul_of_nonneg_right hu' (by positivity)
    linarith
  have n3 : ‖M.c x3‖ ≤ 1.01 * Y + 3 * φ.eta := by
    have e : M.c x3 = y1 * y2 + ((M.c x3 - x1 * x2) + (x1 * x2 - y1 * y2)) := by ring
    rw [e]
    have t := le_trans (norm_add_le (y1 * y2) ((M.c x3 - x1 * x2) + (x1 * x2 - y1 * y2))) (add_le_add le_rfl (norm_add_le _ _))
    rw [norm_mul y1 y2] at t
    linarith
  -- scaling by one quarter
  obtain ⟨fq, vq⟩ := M.quarter_ok
  obtain ⟨fneg, vneg⟩ := M.neg_ok x3.re fx3.1
  have b3 : ‖M.c x3‖ ≤ 1024 * φ.A ^ 2 := by
    have : (1 : ℝ) ≤ 8 * φ.A * (8 * φ.A) := by nlinarith
    linarith
  have are : |M.val x3.re| ≤ ‖M.c x3‖ := abs_re_le_norm (M.c x3)
  have aim : |M.val x3.im| ≤ ‖M.c x3‖ := abs_im_le_norm (M.c x3)
  have n3' := norm_nonneg (M.c x3)
  have abs4 : ∀ {r v : ℝ}, |r| ≤ v → |r * (1 / 4)| ≤ v / 4 := by
    intro r v h; rw [abs_mul, abs_of_pos (by norm_num : (0 : ℝ) < 1 / 4)]; linarith
  obtain ⟨fre, ere⟩ := M.mul_ok _ _ fx3.2 fq (by rw [vq]; have := abs4 aim; linarith)
  obtain ⟨fim, eim⟩ := M.mul_ok _ _ fneg fq (by rw [vq, vneg]; have := abs4 (r := - M.val x3.re) (v := ‖M.c x3‖) (by rw [abs_neg]; exact are); linarith)
  rw [vq] at ere
  rw [vq, vneg] at eim
  refine ⟨⟨fre, fim⟩, ?_⟩
  have k4 : ‖M.c p - M.c x3 * (-I / 4)‖ ≤ 1.42 * (φ.u * (‖M.c x3‖ / 4) + φ.eta) := by
    apply norm_le_of_both
    · have e : (M.c x3 * (-I / 4)).re = M.val x3.im * (1 / 4) := by simp [Laws.c]; ring
      rw [sub_re, e]
      exact le_trans ere (add_le_add (mul_le_mul_of_nonneg_left (abs4 aim) hu.le) le_rfl)
    · have e : (M.c x3 * (-I / 4)).im = - M.val x3.re * (1 / 4) := by simp [Laws.c]; ring
      rw [sub_im, e]
      exact le_trans eim (add_le_add (mul_le_mul_of_nonneg_left (abs4 (by rw [abs_neg]; exact are)) hu.le) le_rfl)
  have e : M.c p - (T1 + (starRingEnd ℂ) T2) * (T1 - (starRingEnd ℂ) T2) * (-I / 4) =
      (M.c p - M.c x3 * (-I / 4)) + ((M.c x3 - x1 * x2) + ((x1 * x2 - y1 * y2) +
        (y1 * y2 - (T1 + (starRingEnd ℂ) T2) * (T1 - (starRingEnd ℂ) T2)))) * (-I / 4) := by ring
  rw [e]
  refine le_trans (norm_add_le _ _) ?_
  rw [norm_mul]
  have hI : ‖-I / (4 : ℂ)‖ = 1 / 4 := by simp
  rw [hI]
  have t := le_trans (norm_add_le (M.c x3 - x1 * x2) ((x1 * x2 - y1 * y2) +
        (y1 * y2 - (T1 + (starRingEnd ℂ) T2) * (T1 - (starRingEnd ℂ) T2)))) (add_le_add le_rfl (norm_add_le _ _))
  have t2 : φ.u * ‖M.c x3‖ ≤ φ.u * (1.01 * Y + 3 * φ.eta) := mul_le_mul_of_nonneg_left n3 hu.le
  have t3 : φ.u * φ.eta ≤ 6 / 10 ^ 8 * φ.eta := mul_le_mul_of_nonneg_right hu' heta.le
  have t4 : φ.u * Y ≤ φ.u * ((α + s) * (β + s)) := mul_le_mul_of_nonneg_left pY hu.le
  linarith

/-- Relative error of the pointwise products in the mean. -/
noncomputable def psi (φ : Prec) (k : ℕ) : ℝ := 1.42 * theta φ k + 4 * φ.u

/-- All pointwise products. -/
theorem points_ok {k : ℕ} (hk : k ≤ φ.K) {t : ℕ → Cx F} {T : ℕ → ℂ} {R : ℝ} (hR1 : 2 ^ k ≤ R) (hR2 : R ≤ φ.A ^ 2)
    (hf : ∀ j < 2 ^ k, M.finC (t j)) (hT : ∑ j ∈ range (2 ^ k), ‖T j‖ ^ 2 ≤ R)
    (he : ∑ j ∈ range (2 ^ k), ‖M.c (t j) - T j‖ ^ 2 ≤ theta φ k ^ 2 * R) :
    let P := fun j => (T j + (starRingEnd ℂ) (T ((2 ^ k - j) % 2 ^ k))) * (T j - (starRingEnd ℂ) (T ((2 ^ k - j) % 2 ^ k))) * (-I / 4)
    (∀ j < 2 ^ k, M.finC (pointF o (2 ^ k) t j)) ∧
    ∑ j ∈ range (2 ^ k), ‖M.c (pointF o (2 ^ k) t j) - P j‖ ≤ psi φ k * R ∧ ∑ j ∈ range (2 ^ k), ‖P j‖ ≤ R / 2 := by
  intro P
  have hu := φ.u_pos
  have hu' := φ.u_le
  have heta := φ.eta_pos
  have heta' := φ.eta_le
  have hθ := theta_nonneg φ k
  have hθ1 := theta_le_one hk
  have h2k : (0 : ℝ) < 2 ^ k := by positivity
  have hR0 : 0 ≤ R := by linarith
  have hmir : ∀ {j}, j < 2 ^ k → (2 ^ k - j) % 2 ^ k < 2 ^ k := fun _ => Nat.mod_lt _ (by positivity)
  have hsz : ∑ j ∈ range (2 ^ k), ‖M.c (t j)‖ ^ 2 ≤ (1 + theta φ k) ^ 2 * R := by
    have h := mink (a := fun j => ‖T j‖) (b := fun j => ‖M.c (t j) - T j‖) (α := 1) zero_le_one hθ hR0 (by rw [one_pow, one_mul]; exact hT) he
    refine le_trans (sum_le_sum fun j _ => ?_) h
    apply pow_le_pow_left₀ (norm_nonneg _)
    have := norm_add_le (T j) (M.c (t j) - T j)
    rwa [add_sub_cancel] at this
  have hbt : ∀ j < 2 ^ k, ‖M.c (t j)‖ ≤ 4 * φ.A := by
    intro j hj
    have h1 := single_le_sum (f := fun j => ‖M.c (t j)‖ ^ 2) (fun _ _ => by positivity) (mem_range.2 hj)
    have h2 : (1 + theta φ k) ^ 2 * R ≤ 4 * φ.A ^ 2 := mul_le_mul (by nlinarith) hR2 hR0 (by norm_num)
    have h3 : (4 : ℝ) * φ.A ^ 2 ≤ (4 * φ.A) ^ 2 := by nlinarith [sq_nonneg φ.A]
    exact le_of_sq_le_sq (by linarith) (by have := φ.A_one; linarith)
  let m := fun j => (2 ^ k - j) % 2 ^ k
  let s := fun j => ‖M.c (t j) - T j‖ + ‖M.c (t (m j)) - T (m j)‖
  let α := fun j => ‖T j + (starRingEnd ℂ) (T (m j))‖
  let β := fun j => ‖T j - (starRingEnd ℂ) (T (m j))‖
  have hpt : ∀ j < 2 ^ k, _ := fun j hj => point_ok M (hf j hj) (hf _ (hmir hj)) (T1 := T j) (T2 := T (m j)) (s := s j) le_rfl
    (hbt j hj) (hbt _ (hmir hj))
  have hs2 : ∑ j ∈ range (2 ^ k), s j ^ 2 ≤ (2 * theta φ k) ^ 2 * R := by
    have h1 : ∀ j ∈ range (2 ^ k), s j ^ 2 ≤ 2 * ‖M.c (t j) - T j‖ ^ 2 + 2 * ‖M.c (t (m j)) - T (m j)‖ ^ 2 := by
      intro j _
      simp only [s]
      nlinarith [sq_nonneg (‖M.c (t j) - T j‖ - ‖M.c (t (m j)) - T (m j)‖)]
    refine le_trans (sum_le_sum h1) ?_
    rw [sum_add_distrib, ← mul_sum, ← mul_sum, sum_mirror (fun j => ‖M.c (t j) - T j‖ ^ 2)]
    nlinarith
  have hab2 : ∑ j ∈ range (2 ^ k), (α j ^ 2 + β j ^ 2) ≤ 4 * R := by
    have h1 : ∀ j ∈ range (2 ^ k), α j ^ 2 + β j ^ 2 = 2 * ‖T j‖ ^ 2 + 2 * ‖T (m j)‖ ^ 2 := by
      intro j _
      simp only [α, β]
      rw [para, RCLike.norm_conj]; ring
    rw [sum_congr rfl h1, sum_add_distrib, ← mul_sum, ← mul_sum, sum_mirror (fun j => ‖T j‖ ^ 2)]
    linarith
  have hsab : ∑ j ∈ range (2 ^ k), s j * (α j + β j) ≤ 5.66 * theta φ k * R := by
    have h1 : ∑ j ∈ range (2 ^ k), (α j + β j) ^ 2 ≤ 2.83 ^ 2 * R := by
      have h2 : ∀ j ∈ range (2 ^ k), (α j + β j) ^ 2 ≤ 2 * (α j ^ 2 + β j ^ 2) := by
        intro j _; nlinarith [sq_nonneg (α j - β j)]
      refine le_trans (sum_le_sum h2) ?_
      rw [← mul_sum]
      norm_num
      linarith
    have := cs (by positivity) (by norm_num) hR0 hs2 h1
    linarith
  have hab : ∑ j ∈ range (2 ^ k), α j * β j ≤ 2 * R := by
    have h2 : ∀ j ∈ range (2 ^ k), α j * β j ≤ 1 / 2 * (α j ^ 2 + β j ^ 2) := by
      intro j _; nlinarith [sq_nonneg (α j - β j)]
    refine le_trans (sum_le_sum h2) ?_
    rw [← mul_sum]
    linarith
  refine ⟨fun j hj => (hpt j hj).1, ?_, ?_⟩
  · refine le_trans (sum_le_sum fun j hj => (hpt j (mem_range.1 hj)).2) ?_
    have e : ∀ j ∈ range (2 ^ k), (s j * (α j + β j) + s j ^ 2) / 4 + 1.63 * φ.u * ((α j + s j) * (β j + s j)) + 4 * φ.eta =
        (1 / 4 + 1.63 * φ.u) * (s j * (α j + β j)) + (1 / 4 + 1.63 * φ.u) * s j ^ 2 + 1.63 * φ.u * (α j * β j) + 4 * φ.eta := by
      intro j _; ring
    refine le_trans (le_of_eq (sum_congr rfl e)) ?_
    rw [sum_add_distrib, sum_add_distrib, sum_add_distrib, ← mul_sum, ← mul_sum, ← mul_sum]
    simp only [sum_const, card_range, nsmul_eq_mul]
    push_cast
    have hc : 1 / 4 + 1.63 * φ.u ≤ 0.250001 := by linarith
    have hc0 : 0 ≤ 1 / 4 + 1.63 * φ.u := by linarith
    have hθR : 0 ≤ theta φ k * R := by positivity
    have hS0 : 0 ≤ ∑ j ∈ range (2 ^ k), s j ^ 2 := sum_nonneg fun _ _ => sq_nonneg _
    have t1 : (1 / 4 + 1.63 * φ.u) * ∑ j ∈ range (2 ^ k), s j * (α j + β j) ≤ 0.250001 * (5.66 * theta φ k * R) :=
      mul_le_mul hc hsab (sum_nonneg fun j _ => by simp only [s, α, β]; positivity) (by norm_num)
    have t2 : (1 / 4 + 1.63 * φ.u) * ∑ j ∈ range (2 ^ k), s j ^ 2 ≤ 0.250001 * ((2 * theta φ k) ^ 2 * R) :=
      mul_le_mul hc hs2 hS0 (by norm_num)
    have t3 : 1.63 * φ.u * ∑ j ∈ range (2 ^ k), α j * β j ≤ 1.63 * φ.u * (2 * R) := mul_le_mul_of_nonneg_left hab (by linarith)
    have t4 : theta φ k * (theta φ k * R) ≤ 1 / 10 ^ 4 * (theta φ k * R) := mul_le_mul_of_nonneg_right hθ1 hθR
    have t5 : 2 ^ k * (4 * φ.eta) ≤ R * (4 * (φ.u / 10 ^ 15)) := mul_le_mul hR1 (by linarith) (by linarith) hR0
    have t6 : 0 ≤ φ.u * R := by positivity
    unfold psi
    nlinarith
  · have h1 : ∀ j ∈ range (2 ^ k), ‖P j‖ = 1 / 4 * (α j * β j) := by
      intro j _
      simp only [P, α, β, m]
      rw [norm_mul, norm_mul]
      simp; ring
    rw [sum_congr rfl h1, ← mul_sum]
    linarith

end
end BN.FP
