import Verif.Lemmas.FftErr3
import Verif.Lemmas.MulStrassen
import Mathlib.Analysis.Real.Sqrt
/-
Error of the computed coefficients, and rounding them to integers.
-/
namespace BN
open Complex Finset

section
variable {F : Type} {o : FloatOps F} (M : Ieee o)

/-- Rounding to the nearest integer and adding the carry. -/
theorem roundsTo_of_near {x : F} {C m : ℕ} (hx : M.fin x) (hm : |M.val x - m| + uro * (m + 1) < 1 / 2)
    (hC : C + m ≤ 2 ^ 53) : RoundsTo o C x m := by
  intro c hc
  have hu := uro_pos
  have hm0 : (0 : ℝ) ≤ m := Nat.cast_nonneg _
  have hpos : 0 ≤ uro * (m + 1) := by positivity
  obtain ⟨fh, vh⟩ := M.half_ok
  have hx1 := (abs_le.1 (le_of_lt (show |M.val x - m| < 1 / 2 by linarith))).1
  have hx2 := (abs_le.1 (le_of_lt (show |M.val x - m| < 1 / 2 by linarith))).2
  have hs0 : 0 ≤ M.val x + 1 / 2 := by linarith
  have hs1 : M.val x + 1 / 2 ≤ m + 1 := by linarith
  have hbig := big_ge
  have hmb : (m : ℝ) ≤ 2 ^ 53 := by exact_mod_cast (by omega : m ≤ 2 ^ 53)
  have h190 : (2 : ℝ) ^ 53 + 1 ≤ 2 ^ 190 := by norm_num
  obtain ⟨fy, ey⟩ := M.add_ok x o.half hx fh (by rw [vh, abs_of_nonneg hs0]; linarith)
  rw [vh, abs_of_nonneg hs0] at ey
  have ey' : |M.val (o.add x o.half) - (M.val x + 1 / 2)| ≤ uro * (m + 1) := le_trans ey (mul_le_mul_of_nonneg_left hs1 hu.le)
  obtain ⟨l1, l2⟩ := abs_le.1 ey'
  have a1 := neg_abs_le (M.val x - m)
  have a2 := le_abs_self (M.val x - m)
  obtain ⟨ff, vf⟩ := M.floor_ok _ fy
  have hfl : ⌊M.val (o.add x o.half)⌋ = (m : ℤ) := by
    rw [Int.floor_eq_iff]
    push_cast
    constructor <;> linarith
  rw [hfl] at vf
  obtain ⟨fc, vc⟩ := M.ofNat_ok c (by omega)
  have hcm : |(c : ℤ) + m| ≤ 2 ^ 53 := by rw [abs_of_nonneg (by positivity)]; exact_mod_cast (by omega : c + m ≤ 2 ^ 53)
  obtain ⟨fs, vs⟩ := M.addInt_ok _ _ (c : ℤ) (m : ℤ) fc ff (by rw [vc]; simp) vf hcm
  rw [M.trunc_ok _ fs, vs, Int.floor_intCast, if_pos (by exact_mod_cast (by omega : (0 : ℤ) ≤ c + m))]
  simp

theorem pack_ok {a b : List ℕ} (ha : InRange (2 ^ 53) a) (hb : InRange (2 ^ 53) b) (t : ℕ) :
    M.finC (packF o a b t) ∧ M.c (packF o a b t) = sig a t + I * sig b t := by
  have key : ∀ {l : List ℕ}, InRange (2 ^ 53) l → l.getD t 0 ≤ 2 ^ 53 := by
    intro l hl
    by_cases h : t < l.length
    · rw [List.getD_eq_getElem _ _ h]; exact (hl _ (List.getElem_mem h)).le
    · rw [List.getD_eq_default _ _ (by omega)]; exact Nat.zero_le _
  obtain ⟨f1, v1⟩ := M.ofNat_ok _ (key ha)
  obtain ⟨f2, v2⟩ := M.ofNat_ok _ (key hb)
  refine ⟨⟨f1, f2⟩, ?_⟩
  apply Complex.ext
  · change M.val (o.ofNat (a.getD t 0)) = _
    rw [v1]; simp [sig]
  · change M.val (o.ofNat (b.getD t 0)) = _
    rw [v2]; simp [sig]

/-- Error of a computed coefficient before the final division is rounded. -/
noncomputable def coefErr (k : ℕ) (G c2 : ℝ) : ℝ := psi k * G + theta k * (c2 + psi k * (√(2 ^ k) * G) + 1)

/-- Error of a computed coefficient: `G` bounds the size of the packed signal and `c2` the Euclidean norm of the exact coefficients. -/
theorem coef_ok {k : ℕ} (hk : k ≤ 32) {a b : List ℕ} (hlen : a.length + b.length ≤ 2 ^ k)
    (ha : InRange (2 ^ 53) a) (hb : InRange (2 ^ 53) b) {G c2 : ℝ}
    (hG : gsz (2 ^ k) (fun t => sig a t + I * sig b t) ≤ G) (hGb : 2 ^ k * G ≤ 2 ^ 72) (hc20 : 0 ≤ c2)
    (hc2 : ∑ i ∈ range (2 ^ k), ((colSum a b i : ℕ) : ℝ) ^ 2 ≤ c2 ^ 2) {X : ℝ} (hE : coefErr k G c2 ≤ X)
    {i : ℕ} (hi : i < 2 ^ k) (hci : colSum a b i + X ≤ 2 ^ 190) :
    M.fin (coefF o k a b i) ∧
      |M.val (coefF o k a b i) - colSum a b i| ≤ coefErr k G c2 + uro * (colSum a b i + X) + eta := by
  have hu := uro_pos
  have hu' := uro_le
  have heta := eta_pos
  have heta' := eta_le
  have hθ := theta_nonneg k
  have hθ1 := theta_le_one (k := k) (by omega)
  have h2k : (1 : ℝ) ≤ 2 ^ k := one_le_pow₀ (by norm_num)
  have h2k' : (2 : ℝ) ^ k ≤ 2 ^ 32 := pow_le_pow_right₀ (by norm_num) hk
  have hψ : 0 ≤ psi k := by unfold psi; positivity
  set f := packF o a b with hf
  have hfe : (fun t => M.c (f t)) = fun t => sig a t + I * sig b t := by
    funext t; exact (pack_ok M ha hb t).2
  set g := gsz (2 ^ k) (fun t => sig a t + I * sig b t) with hg
  have hg1 : 2 ^ k ≤ g := by
    rw [hg, gsz_eq]; push_cast
    have : 0 ≤ ∑ t ∈ range (2 ^ k), ‖sig a t + I * sig b t‖ ^ 2 := sum_nonneg fun _ _ => by positivity
    linarith
  have hg0 : 0 ≤ g := by linarith
  have hG0 : 0 ≤ G := by linarith
  have hgG : 2 ^ k * g ≤ 2 ^ k * G := mul_le_mul_of_nonneg_left hG (by linarith)
  have h72 : (2 : ℝ) ^ 72 ≤ 2 ^ 180 := by norm_num
  obtain ⟨ft, et⟩ := fftF_ok M (k := k) (by omega) (f := f) (fun t _ => (pack_ok M ha hb t).1) (by rw [hfe]; linarith)
  rw [hfe, ← hg] at et
  set T := dft k (fun t => sig a t + I * sig b t) with hT
  have hTe : ∑ j ∈ range (2 ^ k), ‖T j‖ ^ 2 ≤ 2 ^ k * g := by
    rw [hT, dft_energy, hg, gsz_eq]
    apply mul_le_mul_of_nonneg_left _ (by linarith)
    have : (0 : ℝ) ≤ ((2 ^ k : ℕ) : ℝ) := Nat.cast_nonneg _
    linarith
  obtain ⟨fp, ep, np⟩ := points_ok M (k := k) (by omega) (t := fftF o k f) (T := T) (R := 2 ^ k * g) (by nlinarith) (by linarith) ft hTe et
  set p := pointF o (2 ^ k) (fftF o k f) with hp
  set P := fun j => (T j + (starRingEnd ℂ) (T ((2 ^ k - j) % 2 ^ k))) * (T j - (starRingEnd ℂ) (T ((2 ^ k - j) % 2 ^ k))) * (-I / 4) with hP
  have hPd : ∀ j < 2 ^ k, P j = dft k (fun t => (colSum a b t : ℂ)) j := by
    intro j hj
    simp only [hP, hT]
    rw [(unpack a b hj).1, (unpack a b hj).2, dft_colSum hlen]
    linear_combination (-(dft k (sig a) j) * dft k (sig b) j) * I_sq
  -- the input of the inverse transform
  set q := fun t => Cx.conj o (p t) with hq
  have fq : ∀ t < 2 ^ k, M.finC (q t) := fun t ht => (cconj_ok M (fp t ht)).1
  have vq : ∀ t < 2 ^ k, M.c (q t) = (starRingEnd ℂ) (M.c (p t)) := fun t ht => (cconj_ok M (fp t ht)).2
  have nq : ∀ t < 2 ^ k, ‖M.c (q t)‖ = ‖M.c (p t)‖ := fun t ht => by rw [vq t ht, RCLike.norm_conj]
  set N : ℝ := 2 ^ k with hN
  set r := √N with hr
  have hr2 : r ^ 2 = N := Real.sq_sqrt (by linarith)
  have hr0 : 0 ≤ r := Real.sqrt_nonneg _
  have hr1 : 1 ≤ r := by rw [hr]; exact Real.one_le_sqrt.2 h2k
  have sP : ∑ j ∈ range (2 ^ k), ‖P j‖ ^ 2 ≤ (r * c2) ^ 2 * 1 := by
    rw [sum_congr rfl (g := fun j => ‖dft k (fun t => (colSum a b t : ℂ)) j‖ ^ 2) (fun j hj => by rw [hPd j (mem_range.1 hj)]), dft_energy, ← hN, mul_pow, hr2, mul_one]
    apply mul_le_mul_of_nonneg_left _ (by linarith)
    simpa using hc2
  have sD : ∑ j ∈ range (2 ^ k), ‖M.c (p j) - P j‖ ^ 2 ≤ (psi k * (N * g)) ^ 2 * 1 := by
    rw [mul_one]
    refine le_trans (sum_sq_le fun _ _ => norm_nonneg _) ?_
    exact pow_le_pow_left₀ (sum_nonneg fun _ _ => norm_nonneg _) ep 2
  have sp : ∑ j ∈ range (2 ^ k), ‖M.c (p j)‖ ^ 2 ≤ (r * c2 + psi k * (N * g)) ^ 2 := by
    have h := mink (a := fun j => ‖P j‖) (b := fun j => ‖M.c (p j) - P j‖) (by positivity) (by positivity) zero_le_one sP sD
    rw [mul_one] at h
    refine le_trans (sum_le_sum fun j _ => ?_) h
    apply pow_le_pow_left₀ (norm_nonneg _)
    have := norm_add_le (P j) (M.c (p j) - P j)
    rwa [add_sub_cancel] at this
  have hψ1 : psi k ≤ 1 / 2 := by unfold psi; linarith
  have sp' : ∑ j ∈ range (2 ^ k), ‖M.c (p j)‖ ^ 2 ≤ (N * g) ^ 2 := by
    refine le_trans (sum_sq_le fun _ _ => norm_nonneg _) ?_
    apply pow_le_pow_left₀ (sum_nonneg fun _ _ => norm_nonneg _)
    have h1 : ∀ j ∈ range (2 ^ k), ‖M.c (p j)‖ ≤ ‖M.c (p j) - P j‖ + ‖P j‖ := by
      intro j _
      have := norm_add_le (M.c (p j) - P j) (P j)
      rwa [sub_add_cancel] at this
    have h2 := sum_le_sum h1
    rw [sum_add_distrib] at h2
    have h3 : psi k * (N * g) ≤ 1 / 2 * (N * g) := mul_le_mul_of_nonneg_right hψ1 (by positivity)
    linarith
  have gq : gsz (2 ^ k) (fun t => M.c (q t)) = (∑ j ∈ range (2 ^ k), ‖M.c (p j)‖ ^ 2) + N := by
    rw [gsz_eq]; push_cast
    congr 1
    exact sum_congr rfl fun j hj => by rw [nq j (mem_range.1 hj)]
  have hq180 : N * gsz (2 ^ k) (fun t => M.c (q t)) ≤ 2 ^ 180 := by
    rw [gq]
    have h1 : (N * g) ^ 2 ≤ (2 ^ 72) ^ 2 := pow_le_pow_left₀ (by positivity) (by linarith) 2
    have h2 : N * ((∑ j ∈ range (2 ^ k), ‖M.c (p j)‖ ^ 2) + N) ≤ 2 ^ 32 * ((2 ^ 72) ^ 2 + 2 ^ 32) :=
      mul_le_mul h2k' (by linarith) (add_nonneg (sum_nonneg fun _ _ => by positivity) (by linarith)) (by positivity)
    refine le_trans h2 (by norm_num)
  obtain ⟨fz, ez⟩ := fftF_ok M (k := k) (by omega) (f := q) fq hq180
  set z := fftF o k q with hz
  set Z := dft k (fun t => M.c (q t)) with hZ
  set K := r * c2 + psi k * (N * g) + r with hK
  have hK0 : 0 ≤ K := by positivity
  have ezi : ‖M.c (z i) - Z i‖ ≤ theta k * (r * K) := by
    apply le_of_sq_le_sq _ (by positivity)
    have h1 := single_le_sum (f := fun j => ‖M.c (z j) - Z j‖ ^ 2) (fun _ _ => by positivity) (mem_range.2 hi)
    refine le_trans h1 (le_trans ez ?_)
    rw [mul_pow, mul_pow, hr2]
    apply mul_le_mul_of_nonneg_left _ (by positivity)
    apply mul_le_mul_of_nonneg_left _ (by linarith)
    rw [gq]
    have : 0 ≤ (r * c2 + psi k * (N * g)) * r := by positivity
    nlinarith
  -- exact inverse of the computed products
  have hinv : (starRingEnd ℂ) (Z i) / (2 ^ k : ℕ) = idft k (fun t => M.c (p t)) i := by
    rw [← idft_conj, hZ]
    congr 2
    unfold dft
    apply sum_congr rfl
    intro t ht
    simp only [vq t (mem_range.1 ht)]
  have hexact : idft k P i = (colSum a b i : ℂ) := by
    rw [idft_congr hPd, idft_dft k _ hi]
  have hNc : ((2 ^ k : ℕ) : ℂ) = (N : ℂ) := by rw [hN]; push_cast; rfl
  have hN0 : 0 < N := by linarith
  have hdiff : ‖idft k (fun t => M.c (p t)) i - (colSum a b i : ℂ)‖ ≤ psi k * g := by
    rw [← hexact]
    unfold idft
    rw [← sub_div, norm_div, hNc, Complex.norm_real, Real.norm_of_nonneg hN0.le, div_le_iff₀ hN0, ← sum_sub_distrib]
    refine le_trans (norm_sum_le _ _) ?_
    have e : ∀ j ∈ range (2 ^ k), ‖M.c (p j) * (rt k)⁻¹ ^ (i * j) - P j * (rt k)⁻¹ ^ (i * j)‖ = ‖M.c (p j) - P j‖ := by
      intro j _
      rw [← sub_mul, norm_mul, norm_pow, inv_rt_norm, one_pow, mul_one]
    rw [sum_congr rfl e]
    linarith
  have hre : |M.val (z i).re / N - colSum a b i| ≤ coefErr k G c2 := by
    have e1 : M.val (z i).re / N - colSum a b i =
        ((starRingEnd ℂ) (M.c (z i) - Z i) / (N : ℂ) + (idft k (fun t => M.c (p t)) i - (colSum a b i : ℂ))).re := by
      rw [← hinv, hNc, map_sub, sub_div, sub_add_sub_cancel, sub_re, div_ofReal_re]
      simp [Ieee.c]
    rw [e1]
    refine le_trans (abs_re_le_norm _) (le_trans (norm_add_le _ _) ?_)
    rw [norm_div, RCLike.norm_conj, Complex.norm_real, Real.norm_of_nonneg hN0.le]
    have t1 : ‖M.c (z i) - Z i‖ / N ≤ theta k * (c2 + psi k * (r * g) + 1) := by
      rw [div_le_iff₀ hN0]
      refine le_trans ezi (le_of_eq ?_)
      rw [hK, ← hr2]; ring
    have t2 : psi k * g ≤ psi k * G := mul_le_mul_of_nonneg_left hG hψ
    have t3 : theta k * (c2 + psi k * (r * g) + 1) ≤ theta k * (c2 + psi k * (r * G) + 1) := by
      apply mul_le_mul_of_nonneg_left _ hθ
      have : psi k * (r * g) ≤ psi k * (r * G) := mul_le_mul_of_nonneg_left (mul_le_mul_of_nonneg_left hG hr0) hψ
      linarith
    unfold coefErr
    linarith
  -- the final division
  have hc0 : (0 : ℝ) ≤ (colSum a b i : ℕ) := Nat.cast_nonneg _
  have hab : |M.val (z i).re / N| ≤ colSum a b i + X := by
    have := abs_add_le ((colSum a b i : ℕ) : ℝ) (M.val (z i).re / N - colSum a b i)
    rw [add_sub_cancel, abs_of_nonneg hc0] at this
    linarith
  have h2n : (2 : ℕ) ^ k ≤ 2 ^ 32 := Nat.pow_le_pow_right (by omega) hk
  obtain ⟨fn, vn⟩ := M.ofNat_ok (2 ^ k) (by omega)
  have vn' : M.val (o.ofNat (2 ^ k)) = N := by rw [vn, hN]; push_cast; rfl
  have hbig := big_ge
  obtain ⟨fd, ed⟩ := M.div_ok (z i).re (o.ofNat (2 ^ k)) (fz i hi).1 fn (by rw [vn']; exact hN0.ne') (by rw [vn']; linarith)
  rw [vn'] at ed
  refine ⟨fd, ?_⟩
  change |M.val (o.div (z i).re (o.ofNat (2 ^ k))) - _| ≤ _
  refine le_trans (abs_sub_le _ (M.val (z i).re / N) _) ?_
  have : uro * |M.val (z i).re / N| ≤ uro * (colSum a b i + X) := mul_le_mul_of_nonneg_left hab hu.le
  linarith

end
end BN
