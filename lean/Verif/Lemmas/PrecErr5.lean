import Verif.Lemmas.PrecErr2
import Mathlib.Analysis.Real.Sqrt
/-
Error of transforming a list and transforming it back, in any format.
-/
namespace BN.FP
open Complex Finset BN

section
variable {φ : Prec} {F : Type} {o : FloatOps F} (M : Laws φ.toFormat o)

theorem cdivBy_ok {x : Cx F} (hx : M.finC x) {s : F} (hs : M.fin s) {N : ℝ} (hN : 1 ≤ N) (hv : M.val s = N) (hb : ‖M.c x‖ ≤ φ.big) :
    M.finC (Cx.divBy o x s) ∧ ‖M.c (Cx.divBy o x s) - M.c x / (N : ℂ)‖ ≤ φ.u * (2 * (‖M.c x‖ / N)) + 2 * φ.eta := by
  have hN0 : 0 < N := by linarith
  have key : ∀ y : F, M.fin y → |M.val y| ≤ ‖M.c x‖ →
      M.fin (o.div y s) ∧ |M.val (o.div y s) - M.val y / N| ≤ φ.u * (‖M.c x‖ / N) + φ.eta := by
    intro y hy hle
    have h1 : |M.val y / N| ≤ ‖M.c x‖ / N := by
      rw [abs_div, abs_of_pos hN0]; exact div_le_div_of_nonneg_right hle hN0.le
    have h2 : ‖M.c x‖ / N ≤ φ.big := le_trans (div_le_self (norm_nonneg _) hN) hb
    obtain ⟨f, e⟩ := M.div_ok y s hy hs (by rw [hv]; exact hN0.ne') (by rw [hv]; linarith)
    rw [hv] at e
    refine ⟨f, le_trans e ?_⟩
    have := mul_le_mul_of_nonneg_left h1 φ.u_pos.le
    linarith
  obtain ⟨f1, e1⟩ := key x.re hx.1 (abs_re_le_norm (M.c x))
  obtain ⟨f2, e2⟩ := key x.im hx.2 (abs_im_le_norm (M.c x))
  refine ⟨⟨f1, f2⟩, le_trans (norm_le_abs_re_add_abs_im _) ?_⟩
  have r1 : (M.c (Cx.divBy o x s) - M.c x / (N : ℂ)).re = M.val (o.div x.re s) - M.val x.re / N := by
    rw [sub_re, div_ofReal_re]; rfl
  have r2 : (M.c (Cx.divBy o x s) - M.c x / (N : ℂ)).im = M.val (o.div x.im s) - M.val x.im / N := by
    rw [sub_im, div_ofReal_im]; rfl
  rw [r1, r2]
  linarith

set_option maxHeartbeats 1000000 in
/-- The inverse transform of computed data that is close to the exact transform of `f`. -/
theorem roundTrip_ok {k : ℕ} (hk : k ≤ φ.K) {f : ℕ → Cx F} (hf : ∀ t < 2 ^ k, M.finC (f t))
    (hb : 2 ^ k * (2 ^ k * gsz (2 ^ k) (fun t => M.c (f t))) ≤ φ.A ^ 2 / 2) :
    (∀ j < 2 ^ k, M.finC (ifftF o k (fftF o k f) j)) ∧
    ∑ j ∈ range (2 ^ k), ‖M.c (ifftF o k (fftF o k f) j) - M.c (f j)‖ ^ 2 ≤
      ((63 * k + 3) * φ.u) ^ 2 * gsz (2 ^ k) (fun t => M.c (f t)) := by
  have hu := φ.u_pos
  have hu' := φ.u_le
  have heta := φ.eta_pos
  have heta' := φ.eta_le
  have hθ := theta_nonneg φ k
  have hθ1 := theta_le_one hk
  have hθ2 := theta_le hk
  set g := gsz (2 ^ k) (fun t => M.c (f t)) with hg
  set N : ℝ := 2 ^ k with hN
  have hN1 : 1 ≤ N := one_le_pow₀ (by norm_num)
  have hN0 : 0 < N := by linarith
  have hgN : N ≤ g := by
    rw [hg, gsz_eq]; push_cast
    have : 0 ≤ ∑ t ∈ range (2 ^ k), ‖M.c (f t)‖ ^ 2 := sum_nonneg fun _ _ => by positivity
    linarith
  have hg0 : 0 ≤ g := by linarith
  have hNg : N * g ≤ N * (N * g) := le_mul_of_one_le_left (by positivity) hN1
  have h179 : φ.A ^ 2 / 2 ≤ φ.A ^ 2 := by have := sq_nonneg φ.A; linarith
  obtain ⟨fy, ey⟩ := fftF_ok M hk hf (by linarith)
  set y := fftF o k f with hy
  set Y := dft k (fun t => M.c (f t)) with hY
  have sy := size_of_err (x := fun j => M.c (y j)) (X := Y) hθ (dft_energy k _) ey
  rw [← hg, ← hN] at sy ey
  -- the conjugated data
  set q := fun t => Cx.conj o (y t) with hq
  have fq : ∀ t < 2 ^ k, M.finC (q t) := fun t ht => (cconj_ok M (fy t ht)).1
  have vq : ∀ t < 2 ^ k, M.c (q t) = (starRingEnd ℂ) (M.c (y t)) := fun t ht => (cconj_ok M (fy t ht)).2
  have gq : gsz (2 ^ k) (fun t => M.c (q t)) = (∑ j ∈ range (2 ^ k), ‖M.c (y j)‖ ^ 2) + N := by
    rw [gsz_eq]; push_cast
    congr 1
    exact sum_congr rfl fun j hj => by rw [vq j (mem_range.1 hj), RCLike.norm_conj]
  have gq' : gsz (2 ^ k) (fun t => M.c (q t)) ≤ (1 + theta φ k) ^ 2 * (N * g) := by rw [gq]; linarith
  have h1θ : (1 + theta φ k) ^ 2 ≤ 1.001 := by nlinarith
  have hq180 : N * gsz (2 ^ k) (fun t => M.c (q t)) ≤ φ.A ^ 2 := by
    have h1 : N * gsz (2 ^ k) (fun t => M.c (q t)) ≤ N * (1.001 * (N * g)) := by
      apply mul_le_mul_of_nonneg_left _ hN0.le
      exact le_trans gq' (mul_le_mul_of_nonneg_right h1θ (by positivity))
    have h2 : N * (1.001 * (N * g)) = 1.001 * (N * (N * g)) := by ring
    have h3 : (1.001 : ℝ) * (φ.A ^ 2 / 2) ≤ φ.A ^ 2 := by have := sq_nonneg φ.A; linarith
    nlinarith
  obtain ⟨fw, ew⟩ := fftF_ok M hk (f := q) fq hq180
  set w := fftF o k q with hw
  set W := dft k (fun t => M.c (q t)) with hW
  have sw := size_of_err (x := fun j => M.c (w j)) (X := W) hθ (dft_energy k _) ew
  rw [← hN] at ew sw
  -- distance to the transform of the exact data
  set V := dft k (fun t => (starRingEnd ℂ) (Y t)) with hV
  have e1 : ∑ j ∈ range (2 ^ k), ‖M.c (w j) - W j‖ ^ 2 ≤ (theta φ k * (1 + theta φ k)) ^ 2 * (N ^ 2 * g) := by
    refine le_trans ew ?_
    have := mul_le_mul_of_nonneg_left gq' (show 0 ≤ theta φ k ^ 2 * N by positivity)
    nlinarith
  have e2 : ∑ j ∈ range (2 ^ k), ‖W j - V j‖ ^ 2 ≤ theta φ k ^ 2 * (N ^ 2 * g) := by
    have : ∑ j ∈ range (2 ^ k), ‖W j - V j‖ ^ 2 = N * ∑ t ∈ range (2 ^ k), ‖M.c (y t) - Y t‖ ^ 2 := by
      simp only [hW, hV, dft_sub]
      rw [dft_energy, ← hN]
      congr 1
      refine sum_congr rfl fun t ht => ?_
      rw [vq t (mem_range.1 ht), ← map_sub, RCLike.norm_conj]
    rw [this]
    have := mul_le_mul_of_nonneg_left ey hN0.le
    nlinarith
  have e3 := mink2 (by positivity) hθ (by positivity) e1 e2
  have hVx : ∀ j < 2 ^ k, (starRingEnd ℂ) (V j) / (N : ℂ) = M.c (f j) := by
    intro j hj
    have h := idft_conj k Y j
    rw [idft_dft k _ hj] at h
    rw [← h, hN]; push_cast; rfl
  -- the division
  have h2n : (2 : ℕ) ^ k ≤ φ.N := le_trans (Nat.pow_le_pow_right (by omega) hk) φ.K_N
  obtain ⟨fn, vn⟩ := M.ofNat_ok (2 ^ k) h2n
  have vn' : M.val (o.ofNat (2 ^ k)) = N := by rw [vn, hN]; push_cast; rfl
  have hbig := φ.big_ge
  have gq0 : 0 ≤ gsz (2 ^ k) (fun t => M.c (q t)) := gsz_nonneg _ _
  have swle : ∑ j ∈ range (2 ^ k), ‖M.c (w j)‖ ^ 2 ≤ 1.001 ^ 2 * (N ^ 2 * g) := by
    have h1 : (1 + theta φ k) ^ 2 * (N * gsz (2 ^ k) (fun t => M.c (q t))) ≤ 1.001 * (N * (1.001 * (N * g))) := by
      apply mul_le_mul h1θ _ (by positivity) (by norm_num)
      apply mul_le_mul_of_nonneg_left _ hN0.le
      exact le_trans gq' (mul_le_mul_of_nonneg_right h1θ (by positivity))
    nlinarith
  have wb : ∀ j < 2 ^ k, ‖M.c (w j)‖ ≤ φ.big := by
    intro j hj
    have h1 := single_le_sum (f := fun j => ‖M.c (w j)‖ ^ 2) (fun _ _ => by positivity) (mem_range.2 hj)
    have h2 : ‖M.c (w j)‖ ^ 2 ≤ φ.A ^ 2 := by
      refine le_trans h1 (le_trans swle ?_)
      have : N ^ 2 * g = N * (N * g) := by ring
      rw [this]
      have h3 : (1.001 : ℝ) ^ 2 * (φ.A ^ 2 / 2) ≤ φ.A ^ 2 := by have := sq_nonneg φ.A; linarith
      nlinarith
    have h4 := le_of_sq_le_sq h2 (by have := φ.A_one; linarith)
    have h5 : φ.A ≤ 1024 * φ.A ^ 2 := by have := φ.A_sq; have := sq_nonneg φ.A; linarith
    linarith
  have hd : ∀ j < 2 ^ k, M.finC (ifftF o k y j) ∧
      ‖M.c (ifftF o k y j) - (starRingEnd ℂ) (M.c (w j)) / (N : ℂ)‖ ≤ φ.u * (2 * (‖M.c (w j)‖ / N)) + 2 * φ.eta := by
    intro j hj
    obtain ⟨c1, c2⟩ := cconj_ok M (fw j hj)
    have := cdivBy_ok M c1 fn hN1 vn' (by rw [c2, RCLike.norm_conj]; exact wb j hj)
    rw [c2, RCLike.norm_conj] at this
    exact this
  refine ⟨fun j hj => (hd j hj).1, ?_⟩
  have he0 : 0 ≤ 2 * φ.eta := by linarith
  have hu0 : 0 ≤ 2 * 1.001 * φ.u := by linarith
  have d1 : ∑ j ∈ range (2 ^ k), ‖M.c (ifftF o k y j) - (starRingEnd ℂ) (M.c (w j)) / (N : ℂ)‖ ^ 2 ≤
      (2 * 1.001 * φ.u + 2 * φ.eta) ^ 2 * g := by
    have a1 : ∑ j ∈ range (2 ^ k), (φ.u * (2 * (‖M.c (w j)‖ / N))) ^ 2 ≤ (2 * 1.001 * φ.u) ^ 2 * g := by
      have : ∑ j ∈ range (2 ^ k), (φ.u * (2 * (‖M.c (w j)‖ / N))) ^ 2 =
          (2 * φ.u / N) ^ 2 * ∑ j ∈ range (2 ^ k), ‖M.c (w j)‖ ^ 2 := by
        rw [mul_sum]; exact sum_congr rfl fun j _ => by ring
      rw [this]
      have h := mul_le_mul_of_nonneg_left swle (show 0 ≤ (2 * φ.u / N) ^ 2 by positivity)
      refine le_trans h (le_of_eq ?_)
      field_simp
    have a2 : ∑ _j ∈ range (2 ^ k), (2 * φ.eta) ^ 2 ≤ (2 * φ.eta) ^ 2 * g := by
      rw [sum_const, card_range, nsmul_eq_mul]
      push_cast
      rw [mul_comm]
      exact mul_le_mul_of_nonneg_left hgN (sq_nonneg _)
    refine le_trans (sum_le_sum fun j hj => ?_) (mink hu0 he0 hg0 a1 a2)
    exact pow_le_pow_left₀ (norm_nonneg _) (hd j (mem_range.1 hj)).2 2
  have d2 : ∑ j ∈ range (2 ^ k), ‖(starRingEnd ℂ) (M.c (w j)) / (N : ℂ) - M.c (f j)‖ ^ 2 ≤
      (theta φ k * (1 + theta φ k) + theta φ k) ^ 2 * g := by
    have : ∑ j ∈ range (2 ^ k), ‖(starRingEnd ℂ) (M.c (w j)) / (N : ℂ) - M.c (f j)‖ ^ 2 =
        (1 / N) ^ 2 * ∑ j ∈ range (2 ^ k), ‖M.c (w j) - V j‖ ^ 2 := by
      rw [mul_sum]
      refine sum_congr rfl fun j hj => ?_
      rw [← hVx j (mem_range.1 hj), ← sub_div, ← map_sub, norm_div, RCLike.norm_conj, Complex.norm_real,
        Real.norm_of_nonneg hN0.le]
      ring
    rw [this]
    refine le_trans (mul_le_mul_of_nonneg_left e3 (by positivity)) (le_of_eq ?_)
    field_simp
  refine le_trans (mink2 (add_nonneg hu0 he0) (by positivity) hg0 d1 d2) ?_
  apply mul_le_mul_of_nonneg_right _ hg0
  apply pow_le_pow_left₀ (add_nonneg (add_nonneg hu0 he0) (by positivity))
  have hk0 : (0 : ℝ) ≤ k := Nat.cast_nonneg _
  have h1 : theta φ k * theta φ k ≤ theta φ k * (1 / 10 ^ 4) := mul_le_mul_of_nonneg_left hθ1 hθ
  have h2 : 0 ≤ k * φ.u := by positivity
  nlinarith

end
end BN.FP
