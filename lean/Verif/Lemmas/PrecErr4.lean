import Verif.Lemmas.PrecErr3
import Mathlib.Analysis.Real.Sqrt
/-
Error of the computed coefficients and the products it makes exact, in any format.
-/
namespace BN.FP
open Complex Finset BN

section
variable {φ : Prec} {F : Type} {o : FloatOps F} (M : Laws φ.toFormat o)

/-- Rounding to the nearest integer and adding the carry. -/
theorem roundsTo_of_near {x : F} {C m : ℕ} (hx : M.fin x) (hm : |M.val x - m| + φ.u * (m + 1) < 1 / 2)
    (hC : C + m ≤ φ.N) : RoundsTo o C x m := by
  intro c hc
  have hu := φ.u_pos
  have hm0 : (0 : ℝ) ≤ m := Nat.cast_nonneg _
  have hpos : 0 ≤ φ.u * (m + 1) := by positivity
  obtain ⟨fh, vh⟩ := M.half_ok
  have hx1 := (abs_le.1 (le_of_lt (show |M.val x - m| < 1 / 2 by linarith))).1
  have hx2 := (abs_le.1 (le_of_lt (show |M.val x - m| < 1 / 2 by linarith))).2
  have hs0 : 0 ≤ M.val x + 1 / 2 := by linarith
  have hs1 : M.val x + 1 / 2 ≤ m + 1 := by linarith
  have hbig := φ.big_ge
  have hA := φ.A_sq
  have hA1 := φ.A_one
  have hNA := φ.N_le
  have hmb : (m : ℝ) ≤ φ.N := by exact_mod_cast (by omega : m ≤ φ.N)
  have h190 : (φ.N : ℝ) + 1 ≤ 1024 * φ.A ^ 2 := by linarith
  obtain ⟨fy, ey⟩ := M.add_ok x o.half hx fh (by rw [vh, abs_of_nonneg hs0]; linarith)
  rw [vh, abs_of_nonneg hs0] at ey
  have ey' : |M.val (o.add x o.half) - (M.val x + 1 / 2)| ≤ φ.u * (m + 1) := le_trans ey (mul_le_mul_of_nonneg_left hs1 hu.le)
  obtain ⟨l1, l2⟩ := abs_le.1 ey'
  have a1 := neg_abs_le (M.val x - m)
  have a2 := le_abs_self (M.val x - m)
  obtain ⟨ff, vf⟩ := M.floor_ok _ fy
  have hfl : ⌊M.val (o.add x o.half)⌋ = (m : ℤ) := by
    rw [Int.floor_eq_iff]
    push_cast
    constructor <;> linarith
  rw [hfl] at vf
  obtain ⟨fc, vc⟩ := M.ofNat_ok c (by omega)
  have hcm : |(c : ℤ) + m| ≤ (φ.N : ℤ) := by rw [abs_of_nonneg (by positivity)]; exact_mod_cast (by omega : c + m ≤ φ.N)
  obtain ⟨fs, vs⟩ := M.addInt_ok _ _ (c : ℤ) (m : ℤ) fc ff (by rw [vc]; simp) vf hcm
  rw [M.trunc_ok _ fs, vs, Int.floor_intCast, if_pos (by exact_mod_cast (by omega : (0 : ℤ) ≤ c + m))]
  simp

theorem pack_ok {a b : List ℕ} (ha : InRange (φ.N) a) (hb : InRange (φ.N) b) (t : ℕ) :
    M.finC (packF o a b t) ∧ M.c (packF o a b t) = sig a t + I * sig b t := by
  have key : ∀ {l : List ℕ}, InRange (φ.N) l → l.getD t 0 ≤ φ.N := by
    intro l hl
    by_cases h : t < l.length
    · rw [List.getD_eq_getElem _ _ h]; exact (hl _ (List.getElem_mem h)).le
    · rw [List.getD_eq_default _ _ (by omega)]; exact Nat.zero_le _
  obtain ⟨f1, v1⟩ := M.ofNat_ok _ (key ha)
  obtain ⟨f2, v2⟩ := M.ofNat_ok _ (key hb)
  refine ⟨⟨f1, f2⟩, ?_⟩
  apply Complex.ext
  · change M.val (o.ofNat (a.getD t 0)) = _
    rw [v1]; simp [sig]
  · change M.val (o.ofNat (b.getD t 0)) = _
    rw [v2]; simp [sig]

/-- Error of a computed coefficient before the final division is rounded. -/
noncomputable def coefErr (φ : Prec) (k : ℕ) (G c2 : ℝ) : ℝ := psi φ k * G + theta φ k * (c2 + psi φ k * (√(2 ^ k) * G) + 1)

set_option maxHeartbeats 1000000 in
/-- Error of a computed coefficient: `G` bounds the size of the packed signal and `c2` the Euclidean norm of the exact coefficients. -/
theorem coef_ok {k : ℕ} (hk : k ≤ φ.K) {a b : List ℕ} (hlen : a.length + b.length ≤ 2 ^ k)
    (ha : InRange (φ.N) a) (hb : InRange (φ.N) b) {G c2 : ℝ}
    (hG : gsz (2 ^ k) (fun t => sig a t + I * sig b t) ≤ G) (hGb : 2 ^ k * G ≤ φ.B) (hc20 : 0 ≤ c2)
    (hc2 : ∑ i ∈ range (2 ^ k), ((colSum a b i : ℕ) : ℝ) ^ 2 ≤ c2 ^ 2) {X : ℝ} (hE : coefErr φ k G c2 ≤ X)
    {i : ℕ} (hi : i < 2 ^ k) (hci : colSum a b i + X ≤ φ.big) :
    M.fin (coefF o k a b i) ∧
      |M.val (coefF o k a b i) - colSum a b i| ≤ coefErr φ k G c2 + φ.u * (colSum a b i + X) + φ.eta := by
  have hu := φ.u_pos
  have hu' := φ.u_le
  have heta := φ.eta_pos
  have heta' := φ.eta_le
  have hθ := theta_nonneg φ k
  have hθ1 := theta_le_one (φ := φ) (k := k) (by omega)
  have h2k : (1 : ℝ) ≤ 2 ^ k := one_le_pow₀ (by norm_num)
  have h2k' : (2 : ℝ) ^ k ≤ 2 ^ φ.K := pow_le_pow_right₀ (by norm_num) hk
  have hBA := φ.B_le
  have hB0 := φ.B_pos
  have hψ : 0 ≤ psi φ k := by unfold psi; positivity
  set f := packF o a b with hf
  have hfe : (fun t => M.c (f t)) = fun t => sig a t + I * sig b t := by
    funext t; exact (pack_ok M ha hb t).2
  set g := gsz (2 ^ k) (fun t => sig a t + I * sig b t) with hg
  have hg1 : 2 ^ k ≤ g := by
    rw [hg, gsz_eq]; push_cast
    have : 0 ≤ ∑ t ∈ range (2 ^ k), ‖sig a t + I * sig b t‖ ^ 2 := sum_nonneg fun _ _ => by positivity
    linarith
  have hg0 : 0 ≤ g := by linarith
  have hG0 : 0 ≤ G := by linarith
  have hgG : 2 ^ k * g ≤ 2 ^ k * G := mul_le_mul_of_nonneg_left hG (by linarith)
  have h1K : (1 : ℝ) ≤ 2 ^ φ.K := one_le_pow₀ (by norm_num)
  have h72 : φ.B ≤ φ.A ^ 2 := by
    have h1 : φ.B ^ 2 + 2 ^ φ.K ≤ 2 ^ φ.K * (φ.B ^ 2 + 2 ^ φ.K) := le_mul_of_one_le_left (by positivity) h1K
    nlinarith [sq_nonneg (φ.B - 1)]
  obtain ⟨ft, et⟩ := fftF_ok M (k := k) (by omega) (f := f) (fun t _ => (pack_ok M ha hb t).1) (by rw [hfe]; linarith)
  rw [hfe, ← hg] at et
  set T := dft k (fun t => sig a t + I * sig b t) with hT
  have hTe : ∑ j ∈ range (2 ^ k), ‖T j‖ ^ 2 ≤ 2 ^ k * g := by
    rw [hT, dft_energy, hg, gsz_eq]
    apply mul_le_mul_of_nonneg_left _ (by linarith)
    have : (0 : ℝ) ≤ ((2 ^ k : ℕ) : ℝ) := Nat.cast_nonneg _
    linarith
  obtain ⟨fp, ep, np⟩ := points_ok M (k := k) (by omega) (t := fftF o k f) (T := T) (R := 2 ^ k * g) (by nlinarith) (by linarith) ft hTe et
  set p := pointF o (2 ^ k) (fftF o k f) with hp
  set P := fun j => (T j + (starRingEnd ℂ) (T ((2 ^ k - j) % 2 ^ k))) * (T j - (starRingEnd ℂ) (T ((2 ^ k - j) % 2 ^ k))) * (-I / 4) with hP
  have hPd : ∀ j < 2 ^ k, P j = dft k (fun t => (colSum a b t : ℂ)) j := by
    intro j hj
    simp only [hP, hT]
    rw [(unpack a b hj).1, (unpack a b hj).2, dft_colSum hlen]
    linear_combination (-(dft k (sig a) j) * dft k (sig b) j) * I_sq
  -- the input of the inverse transform
  set q := fun t => Cx.conj o (p t) with hq
  have fq : ∀ t < 2 ^ k, M.finC (q t) := fun t ht => (cconj_ok M (fp t ht)).1
  have vq : ∀ t < 2 ^ k, M.c (q t) = (starRingEnd ℂ) (M.c (p t)) := fun t ht => (cconj_ok M (fp t ht)).2
  have nq : ∀ t < 2 ^ k, ‖M.c (q t)‖ = ‖M.c (p t)‖ := fun t ht => by rw [vq t ht, RCLike.norm_conj]
  set N : ℝ := 2 ^ k with hN
  set r := √N with hr
  have hr2 : r ^ 2 = N := Real.sq_sqrt (by linarith)
  have hr0 : 0 ≤ r := Real.sqrt_nonneg _
  have hr1 : 1 ≤ r := by rw [hr]; exact Real.one_le_sqrt.2 h2k
  have sP : ∑ j ∈ range (2 ^ k), ‖P j‖ ^ 2 ≤ (r * c2) ^ 2 * 1 := by
    rw [sum_congr rfl (g := fun j => ‖dft k (fun t => (colSum a b t : ℂ)) j‖ ^ 2) (fun j hj => by rw [hPd j (mem_range.1 hj)]), dft_energy, ← hN, mul_pow, hr2, mul_one]
    apply mul_le_mul_of_nonneg_left _ (by linarith)
    simpa using hc2
  have sD : ∑ j ∈ range (2 ^ k), ‖M.c (p j) - P j‖ ^ 2 ≤ (psi φ k * (N * g)) ^ 2 * 1 := by
    rw [mul_one]
    refine le_trans (sum_sq_le fun _ _ => norm_nonneg _) ?_
    exact pow_le_pow_left₀ (sum_nonneg fun _ _ => norm_nonneg _) ep 2
  have sp : ∑ j ∈ range (2 ^ k), ‖M.c (p j)‖ ^ 2 ≤ (r * c2 + psi φ k * (N * g)) ^ 2 := by
    have h := mink (a := fun j => ‖P j‖) (b := fun j => ‖M.c (p j) - P j‖) (by positivity) (by positivity) zero_le_one sP sD
    rw [mul_one] at h
    refine le_trans (sum_le_sum fun j _ => ?_) h
    apply pow_le_pow_left₀ (norm_nonneg _)
    have := norm_add_le (P j) (M.c (p j) - P j)
    rwa [add_sub_cancel] at this
  have hψ1 : psi φ k ≤ 1 / 2 := by unfold psi; linarith
  have sp' : ∑ j ∈ range (2 ^ k), ‖M.c (p j)‖ ^ 2 ≤ (N * g) ^ 2 := by
    refine le_trans (sum_sq_le fun _ _ => norm_nonneg _) ?_
    apply pow_le_pow_left₀ (sum_nonneg fun _ _ => norm_nonneg _)
    have h1 : ∀ j ∈ range (2 ^ k), ‖M.c (p j)‖ ≤ ‖M.c (p j) - P j‖ + ‖P j‖ := by
      intro j _
      have := norm_add_le (M.c (p j) - P j) (P j)
      rwa [sub_add_cancel] at this
    have h2 := sum_le_sum h1
    rw [sum_add_distrib] at h2
    have h3 : psi φ k * (N * g) ≤ 1 / 2 * (N * g) := mul_le_mul_of_nonneg_right hψ1 (by positivity)
    linarith
  have gq : gsz (2 ^ k) (fun t => M.c (q t)) = (∑ j ∈ range (2 ^ k), ‖M.c (p j)‖ ^ 2) + N := by
    rw [gsz_eq]; push_cast
    congr 1
    exact sum_congr rfl fun j hj => by rw [nq j (mem_range.1 hj)]
  have hq180 : N * gsz (2 ^ k) (fun t => M.c (q t)) ≤ φ.A ^ 2 := by
    rw [gq]
    have h1 : (N * g) ^ 2 ≤ φ.B ^ 2 := pow_le_pow_left₀ (by positivity) (by linarith) 2
    have h2 : N * ((∑ j ∈ range (2 ^ k), ‖M.c (p j)‖ ^ 2) + N) ≤ 2 ^ φ.K * (φ.B ^ 2 + 2 ^ φ.K) :=
      mul_le_mul h2k' (by linarith) (add_nonneg (sum_nonneg fun _ _ => by positivity) (by linarith)) (by positivity)
    exact le_trans h2 hBA
  obtain ⟨fz, ez⟩ := fftF_ok M (k := k) (by omega) (f := q) fq hq180
  set z := fftF o k q with hz
  set Z := dft k (fun t => M.c (q t)) with hZ
  set K := r * c2 + psi φ k * (N * g) + r with hK
  have hK0 : 0 ≤ K := by positivity
  have ezi : ‖M.c (z i) - Z i‖ ≤ theta φ k * (r * K) := by
    apply le_of_sq_le_sq _ (by positivity)
    have h1 := single_le_sum (f := fun j => ‖M.c (z j) - Z j‖ ^ 2) (fun _ _ => by positivity) (mem_range.2 hi)
    refine le_trans h1 (le_trans ez ?_)
    rw [mul_pow, mul_pow, hr2]
    apply mul_le_mul_of_nonneg_left _ (by positivity)
    apply mul_le_mul_of_nonneg_left _ (by linarith)
    rw [gq]
    have h3 : 0 ≤ (r * c2 + psi φ k * (N * g)) * r := by positivity
    have h4 : K ^ 2 = (r * c2 + psi φ k * (N * g)) ^ 2 + 2 * ((r * c2 + psi φ k * (N * g)) * r) + r ^ 2 := by rw [hK]; ring
    rw [h4]
    linarith
  -- exact inverse of the computed products
  have hinv : (starRingEnd ℂ) (Z i) / (2 ^ k : ℕ) = idft k (fun t => M.c (p t)) i := by
    rw [← idft_conj, hZ]
    congr 2
    unfold dft
    apply sum_congr rfl
    intro t ht
    simp only [vq t (mem_range.1 ht)]
  have hexact : idft k P i = (colSum a b i : ℂ) := by
    rw [idft_congr hPd, idft_dft k _ hi]
  have hNc : ((2 ^ k : ℕ) : ℂ) = (N : ℂ) := by rw [hN]; push_cast; rfl
  have hN0 : 0 < N := by linarith
  have hdiff : ‖idft k (fun t => M.c (p t)) i - (colSum a b i : ℂ)‖ ≤ psi φ k * g := by
    rw [← hexact]
    unfold idft
    rw [← sub_div, norm_div, hNc, Complex.norm_real, Real.norm_of_nonneg hN0.le, div_le_iff₀ hN0, ← sum_sub_distrib]
    refine le_trans (norm_sum_le _ _) ?_
    have e : ∀ j ∈ range (2 ^ k), ‖M.c (p j) * (rt k)⁻¹ ^ (i * j) - P j * (rt k)⁻¹ ^ (i * j)‖ = ‖M.c (p j) - P j‖ := by
      intro j _
      rw [← sub_mul, norm_mul, norm_pow, inv_rt_norm, one_pow, mul_one]
    rw [sum_congr rfl e]
    linarith
  have hre : |M.val (z i).re / N - colSum a b i| ≤ coefErr φ k G c2 := by
    have e1 : M.val (z i).re / N - colSum a b i =
        ((starRingEnd ℂ) (M.c (z i) - Z i) / (N : ℂ) + (idft k (fun t => M.c (p t)) i - (colSum a b i : ℂ))).re := by
      rw [← hinv, hNc, map_sub, sub_div, sub_add_sub_cancel, sub_re, div_ofReal_re]
      simp [Laws.c]
    rw [e1]
    refine le_trans (abs_re_le_norm _) (le_trans (norm_add_le _ _) ?_)
    rw [norm_div, RCLike.norm_conj, Complex.norm_real, Real.norm_of_nonneg hN0.le]
    have t1 : ‖M.c (z i) - Z i‖ / N ≤ theta φ k * (c2 + psi φ k * (r * g) + 1) := by
      rw [div_le_iff₀ hN0]
      refine le_trans ezi (le_of_eq ?_)
      rw [hK, ← hr2]; ring
    have t2 : psi φ k * g ≤ psi φ k * G := mul_le_mul_of_nonneg_left hG hψ
    have t3 : theta φ k * (c2 + psi φ k * (r * g) + 1) ≤ theta φ k * (c2 + psi φ k * (r * G) + 1) := by
      apply mul_le_mul_of_nonneg_left _ hθ
      have : psi φ k * (r * g) ≤ psi φ k * (r * G) := mul_le_mul_of_nonneg_left (mul_le_mul_of_nonneg_left hG hr0) hψ
      linarith
    unfold coefErr
    linarith
  -- the final division
  have hc0 : (0 : ℝ) ≤ (colSum a b i : ℕ) := Nat.cast_nonneg _
  have hab : |M.val (z i).re / N| ≤ colSum a b i + X := by
    have := abs_add_le ((colSum a b i : ℕ) : ℝ) (M.val (z i).re / N - colSum a b i)
    rw [add_sub_cancel, abs_of_nonneg hc0] at this
    linarith
  have h2n : (2 : ℕ) ^ k ≤ φ.N := le_trans (Nat.pow_le_pow_right (by omega) hk) φ.K_N
  obtain ⟨fn, vn⟩ := M.ofNat_ok (2 ^ k) (by omega)
  have vn' : M.val (o.ofNat (2 ^ k)) = N := by rw [vn, hN]; push_cast; rfl
  have hbig := φ.big_ge
  obtain ⟨fd, ed⟩ := M.div_ok (z i).re (o.ofNat (2 ^ k)) (fz i hi).1 fn (by rw [vn']; exact hN0.ne') (by rw [vn']; linarith)
  rw [vn'] at ed
  refine ⟨fd, ?_⟩
  change |M.val (o.div (z i).re (o.ofNat (2 ^ k))) - _| ≤ _
  refine le_trans (abs_sub_le _ (M.val (z i).re / N) _) ?_
  have : φ.u * |M.val (z i).re / N| ≤ φ.u * (colSum a b i + X) := mul_le_mul_of_nonneg_left hab hu.le
  linarith

end
/-- The total error allowance for tables of up to `2 ^ K` entries with digits up to `D`, at most `n` of them in the shorter
operand, and coefficients of Euclidean norm at most `c2`. -/
noncomputable def errBound (φ : Prec) (K D n : ℕ) (c2 : ℝ) : ℝ :=
  (44.02 * K + 4) * φ.u * ((D ^ 2 + 1) * 2 ^ K) +
    31 * K * φ.u * (c2 + (44.02 * K + 4) * φ.u * (2 ^ K * ((D ^ 2 + 1) * 2 ^ K)) + 1) + 2 * (φ.u * (n * D ^ 2 + 1)) + φ.eta

theorem coefErr_le {φ : Prec} {k K : ℕ} (hk : k ≤ K) (hK : K ≤ φ.K) {G G' c2 : ℝ} (hG0 : 0 ≤ G) (hG : G ≤ G') (hc2 : 0 ≤ c2) :
    coefErr φ k G c2 ≤ (44.02 * K + 4) * φ.u * G' + 31 * K * φ.u * (c2 + (44.02 * K + 4) * φ.u * (2 ^ K * G') + 1) := by
  have hu := φ.u_pos
  have hkK : (k : ℝ) ≤ K := by exact_mod_cast hk
  have hk0 : (0 : ℝ) ≤ k := Nat.cast_nonneg _
  have hθ0 := theta_nonneg φ k
  have hθ : theta φ k ≤ 31 * K * φ.u := by
    refine le_trans (theta_le (by omega)) ?_
    have := mul_le_mul_of_nonneg_right hkK hu.le
    nlinarith
  have hψ : psi φ k ≤ (44.02 * K + 4) * φ.u := by unfold psi; linarith
  have hψ0 : 0 ≤ psi φ k := by unfold psi; linarith
  have hr : √((2 : ℝ) ^ k) ≤ 2 ^ K := by
    rw [Real.sqrt_le_left (by positivity)]
    have h1 : (2 : ℝ) ^ k ≤ 2 ^ K := pow_le_pow_right₀ (by norm_num) hk
    have h2 : (1 : ℝ) ≤ 2 ^ K := one_le_pow₀ (by norm_num)
    nlinarith
  have hS0 : 0 ≤ (44.02 * (K : ℝ) + 4) * φ.u := by positivity
  unfold coefErr
  have t1 : psi φ k * G ≤ (44.02 * K + 4) * φ.u * G' := mul_le_mul hψ hG hG0 hS0
  have t2 : psi φ k * (√(2 ^ k) * G) ≤ (44.02 * K + 4) * φ.u * (2 ^ K * G') :=
    mul_le_mul hψ (mul_le_mul hr hG hG0 (by positivity)) (by positivity) hS0
  have t3 : theta φ k * (c2 + psi φ k * (√(2 ^ k) * G) + 1) ≤ 31 * K * φ.u * (c2 + (44.02 * K + 4) * φ.u * (2 ^ K * G') + 1) :=
    mul_le_mul hθ (by linarith) (by positivity) (by positivity)
  linarith

/-- With arithmetic obeying the rounding laws every coefficient is close to its exact value as long as the error allowance
stays below one half. -/
theorem near_ieee {φ : Prec} {F : Type} {o : FloatOps F} (M : Laws φ.toFormat o) {a b : List Nat} {k K D : Nat} (hK : K ≤ φ.K) (hkK : k ≤ K)
    (hl : a.length + b.length ≤ 2 ^ k) (had : InRange (D + 1) a) (hbd : InRange (D + 1) b)
    (h53 : D < φ.N) (hm53 : min a.length b.length * (D * (D + 1)) ≤ φ.N) {c2 : ℝ} (hc0 : 0 ≤ c2)
    (hc2 : ((D ^ 4 * (min a.length b.length * (a.length * b.length)) : ℕ) : ℝ) ≤ c2 ^ 2)
    (hsz : ((2 : ℝ) ^ K * ((D ^ 2 + 1) * 2 ^ K)) ≤ φ.B) (hE : errBound φ K D (min a.length b.length) c2 < 1 / 2) :
    ∀ i, i < 2 ^ k → M.fin (coefF o k a b i) ∧
      |M.val (coefF o k a b i) - colSum a b i| + φ.u * (colSum a b i + 1) < 1 / 2 := by
  intro i hi
  have hup := φ.u_pos
  have hcol : colSum a b i ≤ min a.length b.length * (D * D) := by simpa using colSum_le had hbd i
  have hsum : min a.length b.length * D + min a.length b.length * (D * D) = min a.length b.length * (D * (D + 1)) := by ring
  have ha53 : InRange (φ.N) a := fun d hd => by have := had d hd; omega
  have hb53 : InRange (φ.N) b := fun d hd => by have := hbd d hd; omega
  have h2k : (2 : ℝ) ^ k ≤ 2 ^ K := pow_le_pow_right₀ (by norm_num) hkK
  have hlR : (a.length : ℝ) + b.length ≤ 2 ^ k := by exact_mod_cast hl
  have hD0 : (0 : ℝ) ≤ (D : ℝ) ^ 2 := by positivity
  have hG : gsz (2 ^ k) (fun t => sig a t + I * sig b t) ≤ (D ^ 2 + 1) * 2 ^ k := by
    refine le_trans (gsz_pack had hbd _) ?_
    push_cast
    nlinarith
  have hGG : ((D : ℝ) ^ 2 + 1) * 2 ^ k ≤ (D ^ 2 + 1) * 2 ^ K := mul_le_mul_of_nonneg_left h2k (by positivity)
  have hGb : (2 : ℝ) ^ k * ((D ^ 2 + 1) * 2 ^ k) ≤ φ.B :=
    le_trans (mul_le_mul h2k hGG (by positivity) (by positivity)) hsz
  have hce := coefErr_le (k := k) (K := K) hkK (by omega) (by positivity) hGG hc0
  have hcc : ∑ i ∈ range (2 ^ k), ((colSum a b i : ℕ) : ℝ) ^ 2 ≤ c2 ^ 2 := by
    refine le_trans ?_ hc2
    exact_mod_cast sum_sq_col had hbd hl
  have hmin0 : (0 : ℝ) ≤ (min a.length b.length : ℕ) := Nat.cast_nonneg _
  have hcolR : ((colSum a b i : ℕ) : ℝ) ≤ (min a.length b.length : ℕ) * D ^ 2 := by
    rw [sq]; exact_mod_cast hcol
  have hub : φ.u * ((colSum a b i : ℕ) + 1 : ℝ) ≤ φ.u * ((min a.length b.length : ℕ) * D ^ 2 + 1) :=
    mul_le_mul_of_nonneg_left (by linarith) hup.le
  have heta := φ.eta_pos
  have hpos : 0 ≤ φ.u * ((min a.length b.length : ℕ) * (D : ℝ) ^ 2 + 1) := by positivity
  have hmin' : (0 : ℝ) ≤ (min a.length b.length : ℕ) * (D : ℝ) ^ 2 := by positivity
  have hc53 : ((colSum a b i : ℕ) : ℝ) ≤ φ.N := by exact_mod_cast (by omega : colSum a b i ≤ φ.N)
  have h190 : (φ.N : ℝ) + 1 ≤ φ.big := by have := φ.A_sq; have := φ.A_one; have := φ.N_le; have := φ.big_ge; linarith
  unfold errBound at hE
  obtain ⟨f1, e1⟩ := coef_ok M (le_trans hkK hK) hl ha53 hb53 hG hGb hc0 hcc (X := 1) (by linarith) hi (by linarith)
  exact ⟨f1, by linarith⟩

/-- ... and rounded to it. -/
theorem rounds_ieee {φ : Prec} {F : Type} {o : FloatOps F} (M : Laws φ.toFormat o) {a b : List Nat} {k K D : Nat} (hK : K ≤ φ.K) (hkK : k ≤ K)
    (hl : a.length + b.length ≤ 2 ^ k) (had : InRange (D + 1) a) (hbd : InRange (D + 1) b)
    (h53 : D < φ.N) (hm53 : min a.length b.length * (D * (D + 1)) ≤ φ.N) {c2 : ℝ} (hc0 : 0 ≤ c2)
    (hc2 : ((D ^ 4 * (min a.length b.length * (a.length * b.length)) : ℕ) : ℝ) ≤ c2 ^ 2)
    (hsz : ((2 : ℝ) ^ K * ((D ^ 2 + 1) * 2 ^ K)) ≤ φ.B) (hE : errBound φ K D (min a.length b.length) c2 < 1 / 2) :
    ∀ i, i < 2 ^ k → RoundsTo o (min a.length b.length * D) (coefF o k a b i) (colSum a b i) := by
  intro i hi
  have hcol : colSum a b i ≤ min a.length b.length * (D * D) := by simpa using colSum_le had hbd i
  have hsum : min a.length b.length * D + min a.length b.length * (D * D) = min a.length b.length * (D * (D + 1)) := by ring
  obtain ⟨h1, h2⟩ := near_ieee M hK hkK hl had hbd h53 hm53 hc0 hc2 hsz hE i hi
  exact roundsTo_of_near M h1 h2 (by omega)

theorem errBound_mono {φ : Prec} {K D n n' : ℕ} (h : n ≤ n') (c2 : ℝ) : errBound φ K D n c2 ≤ errBound φ K D n' c2 := by
  unfold errBound
  have h1 : (n : ℝ) ≤ n' := by exact_mod_cast h
  have h2 : φ.u * (n * (D : ℝ) ^ 2 + 1) ≤ φ.u * (n' * (D : ℝ) ^ 2 + 1) := by
    apply mul_le_mul_of_nonneg_left _ φ.u_pos.le
    have := mul_le_mul_of_nonneg_right h1 (sq_nonneg (D : ℝ))
    linarith
  linarith

/-- With arithmetic obeying the rounding laws the product is exact as long as the error allowance stays below one half. -/
theorem mulStrassen_ieee {φ : Prec} {F : Type} {o : FloatOps F} (M : Laws φ.toFormat o) {L : Limits} (h : Supported L) {env : Env} {fuel : Nat}
    (hfuel : 32 < fuel) {a b : List Nat} {K D : Nat} (hK : K ≤ φ.K) (hK32 : K ≤ 32) (h1 : 1 ≤ a.length + b.length)
    (hlen : a.length + b.length ≤ 2 ^ K) (hal : env.alloc (fftTableSize a.length b.length) = true)
    (hD : D < L.base) (had : InRange (D + 1) a) (hbd : InRange (D + 1) b)
    (hfit : L.double.raw.fits ((min a.length b.length * (D * (D + 1)) - 1 : Nat) : Int) = true)
    (h53 : D < φ.N) (hm53 : min a.length b.length * (D * (D + 1)) ≤ φ.N) {c2 : ℝ} (hc0 : 0 ≤ c2)
    (hc2 : ((D ^ 4 * (min a.length b.length * (a.length * b.length)) : ℕ) : ℝ) ≤ c2 ^ 2)
    (hsz : ((2 : ℝ) ^ K * ((D ^ 2 + 1) * 2 ^ K)) ≤ φ.B) (hE : errBound φ K D (min a.length b.length) c2 < 1 / 2) :
    ∃ c, mulStrassen o L env fuel a b = .ok c ∧ InRange L.base c ∧ NoLeadingZero c ∧
      natOf L.base c = natOf L.base a * natOf L.base b := by
  have hle32 : (2 : ℕ) ^ K ≤ 2 ^ 32 := Nat.pow_le_pow_right (by omega) hK32
  obtain ⟨k, hk, hs, hl, hu⟩ := fftTableSize_eq h1 (by omega)
  have hkK : k ≤ K := by
    by_contra hc
    have : 2 ^ (K + 1) ≤ 2 ^ k := Nat.pow_le_pow_right (by omega) (by omega)
    rw [pow_succ] at this
    omega
  exact mulStrassen_eq o h hfuel hk hs hl hal hD had hbd hfit (rounds_ieee M hK hkK hl had hbd h53 hm53 hc0 hc2 hsz hE)

end BN.FP
