import Verif.Lemmas.ClockErr3
import Verif.Lemmas.PrecErr4
import Verif.Lemmas.PrecErr5
/-
Error of the computed coefficients when the arithmetic changes with time.
-/
namespace BN.FP
open Complex Finset BN

section
variable {φ : Prec} {F : Type} {val : F → ℝ} {fin : F → Prop} {O : ℕ → FloatOps F} (M : ∀ t, LawfulAt φ.toFormat val fin (O t))
include M

local notation "V" => cv val

/-- The table of the packed operands is exact. -/
theorem tableT_ok {a b : List ℕ} (ha : InRange (φ.N) a) (hb : InRange (φ.N) b) :
    Runs (createFftTableT O a b) fun ys => ∃ f, ys = tab (fftTableSize a.length b.length) f ∧
      ∀ t < fftTableSize a.length b.length, fC fin (f t) ∧ V (f t) = sig a t + I * sig b t := by
  have key : ∀ {l : List ℕ} (t : ℕ), InRange (φ.N) l → l.getD t 0 ≤ φ.N := by
    intro l t hl
    by_cases h : t < l.length
    · rw [List.getD_eq_getElem _ _ h]; exact (hl _ (List.getElem_mem h)).le
    · rw [List.getD_eq_default _ _ (by omega)]; exact Nat.zero_le _
  unfold createFftTableT
  have hl : ∀ n, List.range n = tab n fun i => i := fun n => by simp [tab]
  rw [hl]
  refine runs_each_tab (R := fun t y => fC fin y ∧ V y = sig a t + I * sig b t) (⟨(O 0).pi, (O 0).pi⟩ : Cx F) fun t _ => ?_
  refine runs_bind (P := fun d => d = a.getD t 0) (runs_still (cellOrZero_eq a t) rfl) fun d hd => ?_
  refine runs_bind (P := fun d => d = b.getD t 0) (runs_still (cellOrZero_eq b t) rfl) fun e he => ?_
  subst hd he
  refine next_exact (fun s => (M s).ofNat_ok _ (key t ha)) fun x f1 v1 => ?_
  refine next_exact (fun s => (M s).ofNat_ok _ (key t hb)) fun y f2 v2 => ?_
  refine runs_pure ⟨⟨f1, f2⟩, ?_⟩
  apply Complex.ext
  · change val x = _
    rw [v1]; simp [sig]
  · change val y = _
    rw [v2]; simp [sig]

/-- The inverse transform: a computed transform `z` of the conjugated data, conjugated and divided by the length. -/
theorem ifftT_ok {k n : ℕ} (hk : k ≤ φ.K) (hn : k < n) {p : ℕ → Cx F} (fp : ∀ t < 2 ^ k, fC fin (p t))
    (hb : 2 ^ k * gsz (2 ^ k) (fun t => V (p t)) ≤ φ.A ^ 2) :
    Runs (ifftComplexT O n (tab (2 ^ k) p)) fun ys => ∃ (y : ℕ → Cx F) (z : ℕ → ℂ), ys = tab (2 ^ k) y ∧
      ∑ j ∈ range (2 ^ k), ‖z j - dft k (fun t => (starRingEnd ℂ) (V (p t))) j‖ ^ 2 ≤ theta φ k ^ 2 * (2 ^ k * gsz (2 ^ k) (fun t => V (p t))) ∧
      ∀ j < 2 ^ k, fC fin (y j) ∧ |val (y j).re - (z j).re / 2 ^ k| ≤ φ.u * |(z j).re / 2 ^ k| + φ.eta ∧
        ‖V (y j) - (starRingEnd ℂ) (z j) / ((2 ^ k : ℝ) : ℂ)‖ ≤ φ.u * (2 * (‖z j‖ / 2 ^ k)) + 2 * φ.eta := by
  unfold ifftComplexT
  refine runs_bind (runs_each_tab (R := fun t q => fC fin q ∧ V q = (starRingEnd ℂ) (V (p t))) (p 0) fun t ht => conjT_ok M (fp t ht)) fun qs hqs => ?_
  obtain ⟨q, rfl, hq⟩ := hqs
  have gq : gsz (2 ^ k) (fun t => V (q t)) = gsz (2 ^ k) (fun t => V (p t)) := by
    rw [gsz_eq, gsz_eq]
    congr 1
    exact sum_congr rfl fun j hj => by rw [(hq j (mem_range.1 hj)).2, RCLike.norm_conj]
  have eq : dft k (fun t => V (q t)) = dft k (fun t => (starRingEnd ℂ) (V (p t))) := by
    funext j
    unfold dft
    exact sum_congr rfl fun t ht => by simp only []; rw [(hq t (mem_range.1 ht)).2]
  refine runs_bind (fftT_ok M hk (fun t ht => (hq t ht).1) (by rw [gq]; exact hb) hn) fun zs hzs => ?_
  obtain ⟨z, rfl, fz, ez⟩ := hzs
  rw [eq, gq] at ez
  set g := gsz (2 ^ k) (fun t => V (p t)) with hg
  have hN1 : (1 : ℝ) ≤ 2 ^ k := one_le_pow₀ (by norm_num)
  have hg1 : (2 : ℝ) ^ k ≤ g := by
    rw [hg, gsz_eq]; push_cast
    have : 0 ≤ ∑ t ∈ range (2 ^ k), ‖V (p t)‖ ^ 2 := sum_nonneg fun _ _ => by positivity
    linarith
  have hb' := points_bound (t := fun j => V (z j)) (T := dft k (fun t => (starRingEnd ℂ) (V (p t)))) (R := 2 ^ k * g) hk (by nlinarith) hb
    (by
      rw [dft_energy]
      apply mul_le_mul_of_nonneg_left _ (by linarith)
      rw [hg, gsz_eq]
      have h1 : (0 : ℝ) ≤ ((2 ^ k : ℕ) : ℝ) := Nat.cast_nonneg _
      have h2 : ∑ t ∈ range (2 ^ k), ‖(starRingEnd ℂ) (V (p t))‖ ^ 2 = ∑ t ∈ range (2 ^ k), ‖V (p t)‖ ^ 2 :=
        sum_congr rfl fun t _ => by rw [RCLike.norm_conj]
      linarith) ez
  have h2n : (2 : ℕ) ^ k ≤ φ.N := le_trans (Nat.pow_le_pow_right (by omega) hk) φ.K_N
  have hbig := φ.big_ge
  have hA1 := φ.A_one
  have hAA : 4 * φ.A ≤ φ.big := by nlinarith
  rw [tab_length]
  refine next_exact (fun t => (M t).ofNat_ok _ h2n) fun s fs vs => ?_
  have vs' : val s = 2 ^ k := by rw [vs]; push_cast; rfl
  refine runs_mono (runs_each_tab (R := fun j y => fC fin y ∧ |val y.re - (V (z j)).re / 2 ^ k| ≤ φ.u * |(V (z j)).re / 2 ^ k| + φ.eta ∧
        ‖V y - (starRingEnd ℂ) (V (z j)) / ((2 ^ k : ℝ) : ℂ)‖ ≤ φ.u * (2 * (‖V (z j)‖ / 2 ^ k)) + 2 * φ.eta) (p 0) fun j hj => ?_) fun ys hys => ?_
  · refine runs_bind (conjT_ok M (fz j hj)) fun c ⟨fc, vc⟩ => ?_
    have hcb : ‖V c‖ ≤ φ.big := by rw [vc, RCLike.norm_conj]; exact le_trans (hb' j hj) hAA
    refine runs_mono (divByT_ok M fc fs hN1 vs' hcb) fun y ⟨fy, e1, e2⟩ => ?_
    have r : val c.re = (V (z j)).re := by
      have := congrArg Complex.re vc
      rw [conj_re] at this
      exact this
    rw [vc, RCLike.norm_conj] at e2
    rw [r] at e1
    exact ⟨fy, e1, e2⟩
  · obtain ⟨y, rfl, hy⟩ := hys
    exact ⟨y, fun j => V (z j), rfl, ez, hy⟩

set_option maxHeartbeats 1000000 in
/-- Error of the computed coefficients: `G` bounds the size of the packed signal and `c2` the Euclidean norm of the exact coefficients. -/
theorem coefT_ok {k n : ℕ} (hk : k ≤ φ.K) (hn : k < n) {a b : List ℕ} (hs : fftTableSize a.length b.length = 2 ^ k)
    (hlen : a.length + b.length ≤ 2 ^ k) (ha : InRange (φ.N) a) (hb : InRange (φ.N) b) {G c2 : ℝ}
    (hG : gsz (2 ^ k) (fun t => sig a t + I * sig b t) ≤ G) (hGb : 2 ^ k * G ≤ φ.B) (hc20 : 0 ≤ c2)
    (hc2 : ∑ i ∈ range (2 ^ k), ((colSum a b i : ℕ) : ℝ) ^ 2 ≤ c2 ^ 2) {X : ℝ} (hE : coefErr φ k G c2 ≤ X) :
    Runs (do
      let table ← createFftTableT O a b
      let table ← convoluteFftT O n table
      ifftComplexT O n table) fun ys => ∃ y, ys = tab (2 ^ k) y ∧ ∀ i < 2 ^ k, fin (y i).re ∧
        |val (y i).re - colSum a b i| ≤ coefErr φ k G c2 + φ.u * (colSum a b i + X) + φ.eta := by
  have hu := φ.u_pos
  have hu' := φ.u_le
  have heta := φ.eta_pos
  have heta' := φ.eta_le
  have hθ := theta_nonneg φ k
  have hθ1 := theta_le_one (φ := φ) (k := k) (by omega)
  have h2k : (1 : ℝ) ≤ 2 ^ k := one_le_pow₀ (by norm_num)
  have h2k' : (2 : ℝ) ^ k ≤ 2 ^ φ.K := pow_le_pow_right₀ (by norm_num) hk
  have hBA := φ.B_le
  have hB0 := φ.B_pos
  have hψ : 0 ≤ psi φ k := by unfold psi; positivity
  set g := gsz (2 ^ k) (fun t => sig a t + I * sig b t) with hg
  have hg1 : 2 ^ k ≤ g := by
    rw [hg, gsz_eq]; push_cast
    have : 0 ≤ ∑ t ∈ range (2 ^ k), ‖sig a t + I * sig b t‖ ^ 2 := sum_nonneg fun _ _ => by positivity
    linarith
  have hg0 : 0 ≤ g := by linarith
  have hG0 : 0 ≤ G := by linarith
  have hgG : 2 ^ k * g ≤ 2 ^ k * G := mul_le_mul_of_nonneg_left hG (by linarith)
  have h1K : (1 : ℝ) ≤ 2 ^ φ.K := one_le_pow₀ (by norm_num)
  have h72 : φ.B ≤ φ.A ^ 2 := by
    have h1 : φ.B ^ 2 + 2 ^ φ.K ≤ 2 ^ φ.K * (φ.B ^ 2 + 2 ^ φ.K) := le_mul_of_one_le_left (by positivity) h1K
    nlinarith [sq_nonneg (φ.B - 1)]
  have hgs : 0 ≤ 2 ^ k * g := by positivity
  rw [show (do
      let table ← createFftTableT O a b
      let table ← convoluteFftT O n table
      ifftComplexT O n table) = createFftTableT O a b >>= fun table => convoluteFftT O n table >>= fun table => ifftComplexT O n table from rfl]
  refine runs_bind (tableT_ok M ha hb) fun table ⟨f, hf1, hf2⟩ => ?_
  rw [hs] at hf1 hf2
  subst hf1
  have hfe : gsz (2 ^ k) (fun t => V (f t)) = g := by
    rw [hg, gsz_eq, gsz_eq]
    congr 1
    exact sum_congr rfl fun t ht => by rw [(hf2 t (mem_range.1 ht)).2]
  have hfd : dft k (fun t => V (f t)) = dft k (fun t => sig a t + I * sig b t) := by
    funext j
    unfold dft
    exact sum_congr rfl fun t ht => by simp only []; rw [(hf2 t (mem_range.1 ht)).2]
  unfold convoluteFftT
  rw [tab_length]
  simp only [bind_assoc]
  refine runs_bind (fftT_ok M hk (fun t ht => (hf2 t ht).1) (by rw [hfe]; linarith) hn) fun ts hts => ?_
  obtain ⟨tf, rfl, ft, et⟩ := hts
  rw [hfe, hfd] at et
  set T := dft k (fun t => sig a t + I * sig b t) with hT
  have hTe : ∑ j ∈ range (2 ^ k), ‖T j‖ ^ 2 ≤ 2 ^ k * g := by
    rw [hT, dft_energy, hg, gsz_eq]
    apply mul_le_mul_of_nonneg_left _ (by linarith)
    have : (0 : ℝ) ≤ ((2 ^ k : ℕ) : ℝ) := Nat.cast_nonneg _
    linarith
  refine runs_bind (pointsT_ok M hk (t := tf) (T := T) (R := 2 ^ k * g) (by nlinarith) (by linarith) ft hTe et) fun ps hps => ?_
  obtain ⟨p, rfl, fp, ep, np⟩ := hps
  set P := fun j => (T j + (starRingEnd ℂ) (T ((2 ^ k - j) % 2 ^ k))) * (T j - (starRingEnd ℂ) (T ((2 ^ k - j) % 2 ^ k))) * (-I / 4) with hP
  have hPd : ∀ j < 2 ^ k, P j = dft k (fun t => (colSum a b t : ℂ)) j := by
    intro j hj
    simp only [hP, hT]
    rw [(unpack a b hj).1, (unpack a b hj).2, dft_colSum hlen]
    linear_combination (-(dft k (sig a) j) * dft k (sig b) j) * I_sq
  -- the input of the inverse transform
  set N : ℝ := 2 ^ k with hN
  set r := √N with hr
  have hr2 : r ^ 2 = N := Real.sq_sqrt (by linarith)
  have hr0 : 0 ≤ r := Real.sqrt_nonneg _
  have hr1 : 1 ≤ r := by rw [hr]; exact Real.one_le_sqrt.2 h2k
  have sP : ∑ j ∈ range (2 ^ k), ‖P j‖ ^ 2 ≤ (r * c2) ^ 2 * 1 := by
    rw [sum_congr rfl (g := fun j => ‖dft k (fun t => (colSum a b t : ℂ)) j‖ ^ 2) (fun j hj => by rw [hPd j (mem_range.1 hj)]), dft_energy, ← hN, mul_pow, hr2, mul_one]
    apply mul_le_mul_of_nonneg_left _ (by linarith)
    simpa using hc2
  have sD : ∑ j ∈ range (2 ^ k), ‖V (p j) - P j‖ ^ 2 ≤ (psi φ k * (N * g)) ^ 2 * 1 := by
    rw [mul_one]
    refine le_trans (sum_sq_le fun _ _ => norm_nonneg _) ?_
    exact pow_le_pow_left₀ (sum_nonneg fun _ _ => norm_nonneg _) ep 2
  have sp : ∑ j ∈ range (2 ^ k), ‖V (p j)‖ ^ 2 ≤ (r * c2 + psi φ k * (N * g)) ^ 2 := by
    have h := mink (a := fun j => ‖P j‖) (b := fun j => ‖V (p j) - P j‖) (by positivity) (by positivity) zero_le_one sP sD
    rw [mul_one] at h
    refine le_trans (sum_le_sum fun j _ => ?_) h
    apply pow_le_pow_left₀ (norm_nonneg _)
    have := norm_add_le (P j) (V (p j) - P j)
    rwa [add_sub_cancel] at this
  have hψ1 : psi φ k ≤ 1 / 2 := by unfold psi; linarith
  have sp' : ∑ j ∈ range (2 ^ k), ‖V (p j)‖ ^ 2 ≤ (N * g) ^ 2 := by
    refine le_trans (sum_sq_le fun _ _ => norm_nonneg _) ?_
    apply pow_le_pow_left₀ (sum_nonneg fun _ _ => norm_nonneg _)
    have h1 : ∀ j ∈ range (2 ^ k), ‖V (p j)‖ ≤ ‖V (p j) - P j‖ + ‖P j‖ := by
      intro j _
      have := norm_add_le (V (p j) - P j) (P j)
      rwa [sub_add_cancel] at this
    have h2 := sum_le_sum h1
    rw [sum_add_distrib] at h2
    have h3 : psi φ k * (N * g) ≤ 1 / 2 * (N * g) := mul_le_mul_of_nonneg_right hψ1 (by positivity)
    linarith
  have gq : gsz (2 ^ k) (fun t => V (p t)) = (∑ j ∈ range (2 ^ k), ‖V (p j)‖ ^ 2) + N := by
    rw [gsz_eq]; push_cast
    rfl
  have hq180 : N * gsz (2 ^ k) (fun t => V (p t)) ≤ φ.A ^ 2 := by
    rw [gq]
    have h1 : (N * g) ^ 2 ≤ φ.B ^ 2 := pow_le_pow_left₀ (by positivity) (by linarith) 2
    have h2 : N * ((∑ j ∈ range (2 ^ k), ‖V (p j)‖ ^ 2) + N) ≤ 2 ^ φ.K * (φ.B ^ 2 + 2 ^ φ.K) :=
      mul_le_mul h2k' (by linarith) (add_nonneg (sum_nonneg fun _ _ => by positivity) (by linarith)) (by positivity)
    exact le_trans h2 hBA
  refine runs_mono (ifftT_ok M hk hn fp hq180) fun ys ⟨y, z, hy, ez, hyz⟩ => ⟨y, hy, fun i hi => ?_⟩
  rw [← hN] at hyz ez
  set Z := dft k (fun t => (starRingEnd ℂ) (V (p t))) with hZ
  set K := r * c2 + psi φ k * (N * g) + r with hK
  have hK0 : 0 ≤ K := by positivity
  have ezi : ‖z i - Z i‖ ≤ theta φ k * (r * K) := by
    apply le_of_sq_le_sq _ (by positivity)
    have h1 := single_le_sum (f := fun j => ‖z j - Z j‖ ^ 2) (fun _ _ => by positivity) (mem_range.2 hi)
    refine le_trans h1 (le_trans ez ?_)
    rw [mul_pow, mul_pow, hr2]
    apply mul_le_mul_of_nonneg_left _ (by positivity)
    apply mul_le_mul_of_nonneg_left _ (by linarith)
    rw [gq]
    have h3 : 0 ≤ (r * c2 + psi φ k * (N * g)) * r := by positivity
    have h4 : K ^ 2 = (r * c2 + psi φ k * (N * g)) ^ 2 + 2 * ((r * c2 + psi φ k * (N * g)) * r) + r ^ 2 := by rw [hK]; ring
    rw [h4]
    linarith
  -- exact inverse of the computed products
  have hinv : (starRingEnd ℂ) (Z i) / (2 ^ k : ℕ) = idft k (fun t => V (p t)) i := by
    rw [← idft_conj, hZ]
  have hexact : idft k P i = (colSum a b i : ℂ) := by
    rw [idft_congr hPd, idft_dft k _ hi]
  have hNc : ((2 ^ k : ℕ) : ℂ) = (N : ℂ) := by rw [hN]; push_cast; rfl
  have hN0 : 0 < N := by linarith
  have hdiff : ‖idft k (fun t => V (p t)) i - (colSum a b i : ℂ)‖ ≤ psi φ k * g := by
    rw [← hexact]
    unfold idft
    rw [← sub_div, norm_div, hNc, Complex.norm_real, Real.norm_of_nonneg hN0.le, div_le_iff₀ hN0, ← sum_sub_distrib]
    refine le_trans (norm_sum_le _ _) ?_
    have e : ∀ j ∈ range (2 ^ k), ‖V (p j) * (rt k)⁻¹ ^ (i * j) - P j * (rt k)⁻¹ ^ (i * j)‖ = ‖V (p j) - P j‖ := by
      intro j _
      rw [← sub_mul, norm_mul, norm_pow, inv_rt_norm, one_pow, mul_one]
    rw [sum_congr rfl e]
    linarith
  have hre : |(z i).re / N - colSum a b i| ≤ coefErr φ k G c2 := by
    have e1 : (z i).re / N - colSum a b i =
        ((starRingEnd ℂ) (z i - Z i) / (N : ℂ) + (idft k (fun t => V (p t)) i - (colSum a b i : ℂ))).re := by
      rw [← hinv, hNc, map_sub, sub_div, sub_add_sub_cancel, sub_re, div_ofReal_re]
      simp
    rw [e1]
    refine le_trans (abs_re_le_norm _) (le_trans (norm_add_le _ _) ?_)
    rw [norm_div, RCLike.norm_conj, Complex.norm_real, Real.norm_of_nonneg hN0.le]
    have t1 : ‖z i - Z i‖ / N ≤ theta φ k * (c2 + psi φ k * (r * g) + 1) := by
      rw [div_le_iff₀ hN0]
      refine le_trans ezi (le_of_eq ?_)
      rw [hK, ← hr2]; ring
    have t2 : psi φ k * g ≤ psi φ k * G := mul_le_mul_of_nonneg_left hG hψ
    have t3 : theta φ k * (c2 + psi φ k * (r * g) + 1) ≤ theta φ k * (c2 + psi φ k * (r * G) + 1) := by
      apply mul_le_mul_of_nonneg_left _ hθ
      have : psi φ k * (r * g) ≤ psi φ k * (r * G) := mul_le_mul_of_nonneg_left (mul_le_mul_of_nonneg_left hG hr0) hψ
      linarith
    unfold coefErr
    linarith
  -- the final division
  have hc0 : (0 : ℝ) ≤ (colSum a b i : ℕ) := Nat.cast_nonneg _
  have hab : |(z i).re / N| ≤ colSum a b i + X := by
    have := abs_add_le ((colSum a b i : ℕ) : ℝ) ((z i).re / N - colSum a b i)
    rw [add_sub_cancel, abs_of_nonneg hc0] at this
    linarith
  obtain ⟨fd, ed, -⟩ := hyz i hi
  refine ⟨fd.1, ?_⟩
  refine le_trans (abs_sub_le _ ((z i).re / N) _) ?_
  have : φ.u * |(z i).re / N| ≤ φ.u * (colSum a b i + X) := mul_le_mul_of_nonneg_left hab hu.le
  linarith

end
end BN.FP
