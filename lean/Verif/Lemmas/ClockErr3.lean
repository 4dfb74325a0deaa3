import Verif.Lemmas.ClockErr2
import Verif.Lemmas.PrecErr3
/-
Error of the pointwise products when the arithmetic changes with time.
-/
namespace BN.FP
open Complex Finset BN

section
variable {φ : Prec} {F : Type} {val : F → ℝ} {fin : F → Prop} {O : ℕ → FloatOps F} (M : ∀ t, LawfulAt φ.toFormat val fin (O t))
include M

local notation "V" => cv val

/-- The pointwise product at one index. -/
theorem pointT_ok {t1 t2 : Cx F} (h1 : fC fin t1) (h2 : fC fin t2) {T1 T2 : ℂ} {s : ℝ}
    (hs : ‖V t1 - T1‖ + ‖V t2 - T2‖ ≤ s) (hb1 : ‖V t1‖ ≤ 4 * φ.A) (hb2 : ‖V t2‖ ≤ 4 * φ.A) :
    let α := ‖T1 + (starRingEnd ℂ) T2‖
    let β := ‖T1 - (starRingEnd ℂ) T2‖
    Runs (do
      let tc ← Cx.conjT O t2
      let x1 ← Cx.addT O t1 tc
      let x2 ← Cx.subT O t1 tc
      let x3 ← Cx.mulT O x1 x2
      let m ← tick O fun o => o.neg x3.re
      Cx.quarterT O ⟨x3.im, m⟩) fun p =>
      fC fin p ∧ ‖V p - (T1 + (starRingEnd ℂ) T2) * (T1 - (starRingEnd ℂ) T2) * (-I / 4)‖ ≤
        (s * (α + β) + s ^ 2) / 4 + 1.63 * φ.u * ((α + s) * (β + s)) + 4 * φ.eta := by
  intro α β
  have hu := φ.u_pos
  have hu' := φ.u_le
  have heta := φ.eta_pos
  have heta' := φ.eta_le
  have heta1 : φ.eta ≤ 1 := by
    have : φ.u / 10 ^ 15 ≤ 1 := by
      rw [div_le_iff₀ (by norm_num)]; linarith
    linarith
  have hbig := φ.big_ge
  have hA1 := φ.A_one
  have hA2 := φ.A_sq
  have h190 : (4 * φ.A) * 8 ≤ 1024 * φ.A ^ 2 := by linarith
  refine runs_bind (conjT_ok M h2) fun tc ⟨fc, vc⟩ => ?_
  have nc : ‖V tc‖ = ‖V t2‖ := by rw [vc, RCLike.norm_conj]
  -- exact sums of the computed values
  set y1 := V t1 + V tc with hy1
  set y2 := V t1 - V tc with hy2
  have s0 : 0 ≤ s := le_trans (by positivity) hs
  have d1 : ‖y1 - (T1 + (starRingEnd ℂ) T2)‖ ≤ s := by
    have : y1 - (T1 + (starRingEnd ℂ) T2) = (V t1 - T1) + (starRingEnd ℂ) (V t2 - T2) := by
      rw [hy1, vc, map_sub]; ring
    rw [this]
    refine le_trans (norm_add_le _ _) ?_
    rw [RCLike.norm_conj]; exact hs
  have d2 : ‖y2 - (T1 - (starRingEnd ℂ) T2)‖ ≤ s := by
    have : y2 - (T1 - (starRingEnd ℂ) T2) = (V t1 - T1) - (starRingEnd ℂ) (V t2 - T2) := by
      rw [hy2, vc, map_sub]; ring
    rw [this]
    refine le_trans (norm_sub_le _ _) ?_
    rw [RCLike.norm_conj]; exact hs
  have hα : 0 ≤ α := norm_nonneg _
  have hβ : 0 ≤ β := norm_nonneg _
  have n1 : ‖y1‖ ≤ α + s := by
    have := norm_add_le (T1 + (starRingEnd ℂ) T2) (y1 - (T1 + (starRingEnd ℂ) T2))
    rw [add_sub_cancel] at this
    exact le_trans this (add_le_add le_rfl d1)
  have n2 : ‖y2‖ ≤ β + s := by
    have := norm_add_le (T1 - (starRingEnd ℂ) T2) (y2 - (T1 - (starRingEnd ℂ) T2))
    rw [add_sub_cancel] at this
    exact le_trans this (add_le_add le_rfl d2)
  have m1 : ‖y1‖ ≤ 8 * φ.A := by
    refine le_trans (norm_add_le _ _) ?_
    rw [nc]; have : (8 * φ.A) = 4 * φ.A + 4 * φ.A := by ring
    linarith
  have m2 : ‖y2‖ ≤ 8 * φ.A := by
    refine le_trans (norm_sub_le _ _) ?_
    rw [nc]; have : (8 * φ.A) = 4 * φ.A + 4 * φ.A := by ring
    linarith
  have h193 : (8 * φ.A) ≤ 1024 * φ.A ^ 2 := by linarith
  refine runs_bind (addT_ok M h1 fc (by rw [← hy1]; linarith)) fun r1 ⟨fx1, ex1⟩ => ?_
  refine runs_bind (subT_ok M h1 fc (by rw [← hy2]; linarith)) fun r2 ⟨fx2, ex2⟩ => ?_
  rw [← hy1] at ex1
  rw [← hy2] at ex2
  set x1 := V r1
  set x2 := V r2
  have ny1 := norm_nonneg y1
  have ny2 := norm_nonneg y2
  have q1 : ‖x1‖ ≤ (1 + φ.u) * ‖y1‖ := by
    have := norm_add_le y1 (x1 - y1)
    rw [add_sub_cancel] at this
    linarith
  have q2 : ‖x2‖ ≤ (1 + φ.u) * ‖y2‖ := by
    have := norm_add_le y2 (x2 - y2)
    rw [add_sub_cancel] at this
    linarith
  have pY : ‖y1‖ * ‖y2‖ ≤ (α + s) * (β + s) := mul_le_mul n1 n2 ny2 (by linarith)
  set Y := ‖y1‖ * ‖y2‖ with hY
  have hY0 : 0 ≤ Y := by positivity
  have hY1 : Y ≤ 8 * φ.A * (8 * φ.A) := mul_le_mul m1 m2 ny2 (by positivity)
  have qq : ‖x1‖ * ‖x2‖ ≤ (1 + 3 * φ.u) * Y := by
    have h := mul_le_mul q1 q2 (norm_nonneg _) (by positivity)
    have e : (1 + φ.u) * ‖y1‖ * ((1 + φ.u) * ‖y2‖) = (1 + 2 * φ.u + φ.u * φ.u) * Y := by rw [hY]; ring
    rw [e] at h
    refine le_trans h (mul_le_mul_of_nonneg_right ?_ hY0)
    have : φ.u * φ.u ≤ 1 * φ.u := mul_le_mul_of_nonneg_right (by linarith) hu.le
    linarith
  have hYu : φ.u * Y ≤ 6 / 10 ^ 8 * Y := mul_le_mul_of_nonneg_right hu' hY0
  have h186 : 8 * φ.A * (8 * φ.A) * 8 ≤ 1024 * φ.A ^ 2 := by nlinarith
  refine runs_bind (mulT_ok M fx1 fx2 (by
    change ‖x1‖ * ‖x2‖ ≤ φ.big / 4
    linarith)) fun x3 ⟨fx3, ex3⟩ => ?_
  change ‖V x3 - x1 * x2‖ ≤ 3 * φ.u * (‖x1‖ * ‖x2‖) + 3 * φ.eta at ex3
  have k1 : ‖x1 * x2 - y1 * y2‖ ≤ 2.01 * (φ.u * Y) := by
    have e : x1 * x2 - y1 * y2 = (x1 - y1) * x2 + y1 * (x2 - y2) := by ring
    rw [e]
    refine le_trans (norm_add_le _ _) ?_
    rw [norm_mul, norm_mul]
    have t1 : ‖x1 - y1‖ * ‖x2‖ ≤ (φ.u * ‖y1‖) * ((1 + φ.u) * ‖y2‖) := mul_le_mul ex1 q2 (norm_nonneg _) (by positivity)
    have t2 : ‖y1‖ * ‖x2 - y2‖ ≤ ‖y1‖ * (φ.u * ‖y2‖) := mul_le_mul_of_nonneg_left ex2 ny1
    have e1 : (φ.u * ‖y1‖) * ((1 + φ.u) * ‖y2‖) = φ.u * Y + φ.u * (φ.u * Y) := by rw [hY]; ring
    have e2 : ‖y1‖ * (φ.u * ‖y2‖) = φ.u * Y := by rw [hY]; ring
    have t3 : φ.u * (φ.u * Y) ≤ 6 / 10 ^ 8 * (φ.u * Y) := mul_le_mul_of_nonneg_right hu' (by positivity)
    have : 0 ≤ φ.u * Y := by positivity
    linarith
  have huY0 : 0 ≤ φ.u * Y := by positivity
  have k2 : ‖y1 * y2 - (T1 + (starRingEnd ℂ) T2) * (T1 - (starRingEnd ℂ) T2)‖ ≤ s * (α + β) + s ^ 2 := by
    have e : y1 * y2 - (T1 + (starRingEnd ℂ) T2) * (T1 - (starRingEnd ℂ) T2) =
        (y1 - (T1 + (starRingEnd ℂ) T2)) * y2 + (T1 + (starRingEnd ℂ) T2) * (y2 - (T1 - (starRingEnd ℂ) T2)) := by ring
    rw [e]
    refine le_trans (norm_add_le _ _) ?_
    rw [norm_mul, norm_mul]
    have t1 := mul_le_mul d1 n2 ny2 s0
    have t2 := mul_le_mul_of_nonneg_left d2 hα
    change ‖T1 + (starRingEnd ℂ) T2‖ * _ ≤ _ at t2
    linarith
  have k3 : ‖V x3 - x1 * x2‖ ≤ 3.01 * (φ.u * Y) + 3 * φ.eta := by
    refine le_trans ex3 ?_
    have t1 : 3 * φ.u * (‖x1‖ * ‖x2‖) ≤ 3 * φ.u * ((1 + 3 * φ.u) * Y) := mul_le_mul_of_nonneg_left qq (by linarith)
    have t3 : φ.u * (φ.u * Y) ≤ 6 / 10 ^ 8 * (φ.u * Y) := mul_le_mul_of_nonneg_right hu' (by positivity)
    linarith
  have n3 : ‖V x3‖ ≤ 1.01 * Y + 3 * φ.eta := by
    have e : V x3 = y1 * y2 + ((V x3 - x1 * x2) + (x1 * x2 - y1 * y2)) := by ring
    rw [e]
    have t := le_trans (norm_add_le (y1 * y2) ((V x3 - x1 * x2) + (x1 * x2 - y1 * y2))) (add_le_add le_rfl (norm_add_le _ _))
    rw [norm_mul y1 y2] at t
    linarith
  -- scaling by one quarter
  have b3 : ‖V x3‖ ≤ 1024 * φ.A ^ 2 := by
    have : (1 : ℝ) ≤ 8 * φ.A * (8 * φ.A) := by nlinarith
    linarith
  have are : |val x3.re| ≤ ‖V x3‖ := abs_re_le_norm (V x3)
  have aim : |val x3.im| ≤ ‖V x3‖ := abs_im_le_norm (V x3)
  have n3' := norm_nonneg (V x3)
  have abs4 : ∀ {r v : ℝ}, |r| ≤ v → |r * (1 / 4)| ≤ v / 4 := by
    intro r v h; rw [abs_mul, abs_of_pos (by norm_num : (0 : ℝ) < 1 / 4)]; linarith
  refine next_exact (fun t => (M t).neg_ok x3.re fx3.1) fun m fneg vneg => ?_
  refine next_near (val := val) (fin := fin) (v := val x3.im * (1 / 4)) (e := φ.u * |val x3.im * (1 / 4)| + φ.eta) (fun t => ?_) fun pr fre ere => ?_
  · obtain ⟨fq, vq⟩ := (M t).quarter_ok
    have h := (M t).mul_ok _ _ fx3.2 fq (by rw [vq]; have := abs4 aim; linarith)
    rw [vq] at h
    exact h
  refine next_near (val := val) (fin := fin) (v := - val x3.re * (1 / 4)) (e := φ.u * |- val x3.re * (1 / 4)| + φ.eta) (fun t => ?_) fun pi fim eim => ?_
  · obtain ⟨fq, vq⟩ := (M t).quarter_ok
    have h := (M t).mul_ok _ _ fneg fq (by rw [vq, vneg]; have := abs4 (r := - val x3.re) (v := ‖V x3‖) (by rw [abs_neg]; exact are); linarith)
    rw [vq, vneg] at h
    exact h
  refine runs_pure ⟨⟨fre, fim⟩, ?_⟩
  have k4 : ‖V ⟨pr, pi⟩ - V x3 * (-I / 4)‖ ≤ 1.42 * (φ.u * (‖V x3‖ / 4) + φ.eta) := by
    apply norm_le_of_both
    · have e : (V x3 * (-I / 4)).re = val x3.im * (1 / 4) := by simp [cv]; ring
      rw [sub_re, e]
      exact le_trans ere (add_le_add (mul_le_mul_of_nonneg_left (abs4 aim) hu.le) le_rfl)
    · have e : (V x3 * (-I / 4)).im = - val x3.re * (1 / 4) := by simp [cv]; ring
      rw [sub_im, e]
      exact le_trans eim (add_le_add (mul_le_mul_of_nonneg_left (abs4 (by rw [abs_neg]; exact are)) hu.le) le_rfl)
  have e : V ⟨pr, pi⟩ - (T1 + (starRingEnd ℂ) T2) * (T1 - (starRingEnd ℂ) T2) * (-I / 4) =
      (V ⟨pr, pi⟩ - V x3 * (-I / 4)) + ((V x3 - x1 * x2) + ((x1 * x2 - y1 * y2) +
        (y1 * y2 - (T1 + (starRingEnd ℂ) T2) * (T1 - (starRingEnd ℂ) T2)))) * (-I / 4) := by ring
  rw [e]
  refine le_trans (norm_add_le _ _) ?_
  rw [norm_mul]
  have hI : ‖-I / (4 : ℂ)‖ = 1 / 4 := by simp
  rw [hI]
  have t := le_trans (norm_add_le (V x3 - x1 * x2) ((x1 * x2 - y1 * y2) +
        (y1 * y2 - (T1 + (starRingEnd ℂ) T2) * (T1 - (starRingEnd ℂ) T2)))) (add_le_add le_rfl (norm_add_le _ _))
  have t2 : φ.u * ‖V x3‖ ≤ φ.u * (1.01 * Y + 3 * φ.eta) := mul_le_mul_of_nonneg_left n3 hu.le
  have t3 : φ.u * φ.eta ≤ 6 / 10 ^ 8 * φ.eta := mul_le_mul_of_nonneg_right hu' heta.le
  have t4 : φ.u * Y ≤ φ.u * ((α + s) * (β + s)) := mul_le_mul_of_nonneg_left pY hu.le
  linarith

end

section
variable {φ : Prec}

/-- Sizes of computed transforms. -/
theorem points_bound {k : ℕ} (hk : k ≤ φ.K) {t T : ℕ → ℂ} {R : ℝ} (hR1 : 2 ^ k ≤ R) (hR2 : R ≤ φ.A ^ 2)
    (hT : ∑ j ∈ range (2 ^ k), ‖T j‖ ^ 2 ≤ R) (he : ∑ j ∈ range (2 ^ k), ‖t j - T j‖ ^ 2 ≤ theta φ k ^ 2 * R) :
    ∀ j < 2 ^ k, ‖t j‖ ≤ 4 * φ.A := by
  have hθ := theta_nonneg φ k
  have hθ1 := theta_le_one hk
  have hR0 : 0 ≤ R := le_trans (by positivity) hR1
  have hsz : ∑ j ∈ range (2 ^ k), ‖t j‖ ^ 2 ≤ (1 + theta φ k) ^ 2 * R := by
    have h := mink (a := fun j => ‖T j‖) (b := fun j => ‖t j - T j‖) (α := 1) zero_le_one hθ hR0 (by rw [one_pow, one_mul]; exact hT) he
    refine le_trans (sum_le_sum fun j _ => ?_) h
    apply pow_le_pow_left₀ (norm_nonneg _)
    have := norm_add_le (T j) (t j - T j)
    rwa [add_sub_cancel] at this
  intro j hj
  have h1 := single_le_sum (f := fun j => ‖t j‖ ^ 2) (fun _ _ => by positivity) (mem_range.2 hj)
  have h2 : (1 + theta φ k) ^ 2 * R ≤ 4 * φ.A ^ 2 := mul_le_mul (by nlinarith) hR2 hR0 (by norm_num)
  have h3 : (4 : ℝ) * φ.A ^ 2 ≤ (4 * φ.A) ^ 2 := by nlinarith [sq_nonneg φ.A]
  exact le_of_sq_le_sq (by linarith) (by have := φ.A_one; linarith)

/-- The error of one computed product. -/
noncomputable def pointErr (φ : Prec) (k : ℕ) (t T : ℕ → ℂ) (j : ℕ) : ℝ :=
  let m := (2 ^ k - j) % 2 ^ k
  let s := ‖t j - T j‖ + ‖t m - T m‖
  let α := ‖T j + (starRingEnd ℂ) (T m)‖
  let β := ‖T j - (starRingEnd ℂ) (T m)‖
  (s * (α + β) + s ^ 2) / 4 + 1.63 * φ.u * ((α + s) * (β + s)) + 4 * φ.eta

/-- All pointwise products. -/
theorem points_sum {k : ℕ} (hk : k ≤ φ.K) {t T p : ℕ → ℂ} {R : ℝ} (hR1 : 2 ^ k ≤ R)
    (hT : ∑ j ∈ range (2 ^ k), ‖T j‖ ^ 2 ≤ R) (he : ∑ j ∈ range (2 ^ k), ‖t j - T j‖ ^ 2 ≤ theta φ k ^ 2 * R) :
    let P := fun j => (T j + (starRingEnd ℂ) (T ((2 ^ k - j) % 2 ^ k))) * (T j - (starRingEnd ℂ) (T ((2 ^ k - j) % 2 ^ k))) * (-I / 4)
    (∀ j < 2 ^ k, ‖p j - P j‖ ≤ pointErr φ k t T j) →
    ∑ j ∈ range (2 ^ k), ‖p j - P j‖ ≤ psi φ k * R ∧ ∑ j ∈ range (2 ^ k), ‖P j‖ ≤ R / 2 := by
  intro P hp
  have hu := φ.u_pos
  have hu' := φ.u_le
  have heta := φ.eta_pos
  have heta' := φ.eta_le
  have hθ := theta_nonneg φ k
  have hθ1 := theta_le_one hk
  have h2k : (0 : ℝ) < 2 ^ k := by positivity
  have hR0 : 0 ≤ R := by linarith
  let m := fun j => (2 ^ k - j) % 2 ^ k
  let s := fun j => ‖t j - T j‖ + ‖t (m j) - T (m j)‖
  let α := fun j => ‖T j + (starRingEnd ℂ) (T (m j))‖
  let β := fun j => ‖T j - (starRingEnd ℂ) (T (m j))‖
  have hs2 : ∑ j ∈ range (2 ^ k), s j ^ 2 ≤ (2 * theta φ k) ^ 2 * R := by
    have h1 : ∀ j ∈ range (2 ^ k), s j ^ 2 ≤ 2 * ‖t j - T j‖ ^ 2 + 2 * ‖t (m j) - T (m j)‖ ^ 2 := by
      intro j _
      simp only [s]
      nlinarith [sq_nonneg (‖t j - T j‖ - ‖t (m j) - T (m j)‖)]
    refine le_trans (sum_le_sum h1) ?_
    rw [sum_add_distrib, ← mul_sum, ← mul_sum, sum_mirror (fun j => ‖t j - T j‖ ^ 2)]
    nlinarith
  have hab2 : ∑ j ∈ range (2 ^ k), (α j ^ 2 + β j ^ 2) ≤ 4 * R := by
    have h1 : ∀ j ∈ range (2 ^ k), α j ^ 2 + β j ^ 2 = 2 * ‖T j‖ ^ 2 + 2 * ‖T (m j)‖ ^ 2 := by
      intro j _
      simp only [α, β]
      rw [para, RCLike.norm_conj]; ring
    rw [sum_congr rfl h1, sum_add_distrib, ← mul_sum, ← mul_sum, sum_mirror (fun j => ‖T j‖ ^ 2)]
    linarith
  have hsab : ∑ j ∈ range (2 ^ k), s j * (α j + β j) ≤ 5.66 * theta φ k * R := by
    have h1 : ∑ j ∈ range (2 ^ k), (α j + β j) ^ 2 ≤ 2.83 ^ 2 * R := by
      have h2 : ∀ j ∈ range (2 ^ k), (α j + β j) ^ 2 ≤ 2 * (α j ^ 2 + β j ^ 2) := by
        intro j _; nlinarith [sq_nonneg (α j - β j)]
      refine le_trans (sum_le_sum h2) ?_
      rw [← mul_sum]
      norm_num
      linarith
    have := cs (by positivity) (by norm_num) hR0 hs2 h1
    linarith
  have hab : ∑ j ∈ range (2 ^ k), α j * β j ≤ 2 * R := by
    have h2 : ∀ j ∈ range (2 ^ k), α j * β j ≤ 1 / 2 * (α j ^ 2 + β j ^ 2) := by
      intro j _; nlinarith [sq_nonneg (α j - β j)]
    refine le_trans (sum_le_sum h2) ?_
    rw [← mul_sum]
    linarith
  refine ⟨?_, ?_⟩
  · refine le_trans (sum_le_sum fun j hj => hp j (mem_range.1 hj)) ?_
    have e : ∀ j ∈ range (2 ^ k), (s j * (α j + β j) + s j ^ 2) / 4 + 1.63 * φ.u * ((α j + s j) * (β j + s j)) + 4 * φ.eta =
        (1 / 4 + 1.63 * φ.u) * (s j * (α j + β j)) + (1 / 4 + 1.63 * φ.u) * s j ^ 2 + 1.63 * φ.u * (α j * β j) + 4 * φ.eta := by
      intro j _; ring
    refine le_trans (le_of_eq (sum_congr rfl e)) ?_
    rw [sum_add_distrib, sum_add_distrib, sum_add_distrib, ← mul_sum, ← mul_sum, ← mul_sum]
    simp only [sum_const, card_range, nsmul_eq_mul]
    push_cast
    have hc : 1 / 4 + 1.63 * φ.u ≤ 0.250001 := by linarith
    have hc0 : 0 ≤ 1 / 4 + 1.63 * φ.u := by linarith
    have hθR : 0 ≤ theta φ k * R := by positivity
    have hS0 : 0 ≤ ∑ j ∈ range (2 ^ k), s j ^ 2 := sum_nonneg fun _ _ => sq_nonneg _
    have t1 : (1 / 4 + 1.63 * φ.u) * ∑ j ∈ range (2 ^ k), s j * (α j + β j) ≤ 0.250001 * (5.66 * theta φ k * R) :=
      mul_le_mul hc hsab (sum_nonneg fun j _ => by simp only [s, α, β]; positivity) (by norm_num)
    have t2 : (1 / 4 + 1.63 * φ.u) * ∑ j ∈ range (2 ^ k), s j ^ 2 ≤ 0.250001 * ((2 * theta φ k) ^ 2 * R) :=
      mul_le_mul hc hs2 hS0 (by norm_num)
    have t3 : 1.63 * φ.u * ∑ j ∈ range (2 ^ k), α j * β j ≤ 1.63 * φ.u * (2 * R) := mul_le_mul_of_nonneg_left hab (by linarith)
    have t4 : theta φ k * (theta φ k * R) ≤ 1 / 10 ^ 4 * (theta φ k * R) := mul_le_mul_of_nonneg_right hθ1 hθR
    have t5 : 2 ^ k * (4 * φ.eta) ≤ R * (4 * (φ.u / 10 ^ 15)) := mul_le_mul hR1 (by linarith) (by linarith) hR0
    have t6 : 0 ≤ φ.u * R := by positivity
    unfold psi
    nlinarith
  · have h1 : ∀ j ∈ range (2 ^ k), ‖P j‖ = 1 / 4 * (α j * β j) := by
      intro j _
      simp only [P, α, β, m]
      rw [norm_mul, norm_mul]
      simp; ring
    rw [sum_congr rfl h1, ← mul_sum]
    linarith

end

section
variable {φ : Prec} {F : Type} {val : F → ℝ} {fin : F → Prop} {O : ℕ → FloatOps F} (M : ∀ t, LawfulAt φ.toFormat val fin (O t))
include M

local notation "V" => cv val

/-- The pointwise loop. -/
theorem pointsT_ok {k : ℕ} (hk : k ≤ φ.K) {t : ℕ → Cx F} {T : ℕ → ℂ} {R : ℝ} (hR1 : 2 ^ k ≤ R) (hR2 : R ≤ φ.A ^ 2)
    (hf : ∀ j < 2 ^ k, fC fin (t j)) (hT : ∑ j ∈ range (2 ^ k), ‖T j‖ ^ 2 ≤ R)
    (he : ∑ j ∈ range (2 ^ k), ‖V (t j) - T j‖ ^ 2 ≤ theta φ k ^ 2 * R) :
    let P := fun j => (T j + (starRingEnd ℂ) (T ((2 ^ k - j) % 2 ^ k))) * (T j - (starRingEnd ℂ) (T ((2 ^ k - j) % 2 ^ k))) * (-I / 4)
    Runs (eachT (convolutePointT O (tab (2 ^ k) t) (2 ^ k)) (List.range (2 ^ k))) fun ps => ∃ p, ps = tab (2 ^ k) p ∧
      (∀ j < 2 ^ k, fC fin (p j)) ∧
      ∑ j ∈ range (2 ^ k), ‖V (p j) - P j‖ ≤ psi φ k * R ∧ ∑ j ∈ range (2 ^ k), ‖P j‖ ≤ R / 2 := by
  intro P
  have hb := points_bound (t := fun j => V (t j)) hk hR1 hR2 hT he
  have hmir : ∀ {j}, j < 2 ^ k → (2 ^ k - j) % 2 ^ k < 2 ^ k := fun _ => Nat.mod_lt _ (by positivity)
  have hl : List.range (2 ^ k) = tab (2 ^ k) fun i => i := by simp [tab]
  rw [hl]
  refine runs_mono (runs_each_tab (R := fun j p => fC fin p ∧ ‖V p - P j‖ ≤ pointErr φ k (fun j => V (t j)) T j) (t 0) fun j hj => ?_)
    fun ps hps => ?_
  · unfold convolutePointT
    refine runs_bind (P := fun a => a = t j) (runs_still (rdAt_tab t hj) rfl) fun a ha => ?_
    refine runs_bind (P := fun a => a = t ((2 ^ k - j) % 2 ^ k))
      (runs_still (by rw [negIdx_eq (by have := φ.K_le; omega) hj]; exact rdAt_tab t (hmir hj)) rfl) fun b hb' => ?_
    subst ha hb'
    exact pointT_ok M (hf j hj) (hf _ (hmir hj)) (T1 := T j) (T2 := T ((2 ^ k - j) % 2 ^ k)) le_rfl (hb j hj) (hb _ (hmir hj))
  · obtain ⟨p, rfl, h⟩ := hps
    have hs := points_sum (t := fun j => V (t j)) (p := fun j => V (p j)) hk hR1 hT he fun j hj => (h j hj).2
    exact ⟨p, rfl, fun j hj => (h j hj).1, hs.1, hs.2⟩

end
end BN.FP
