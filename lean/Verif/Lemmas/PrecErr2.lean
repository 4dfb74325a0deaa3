import Verif.Lemmas.PrecErr
/-
Mean-square error of the forward transform in any format.
-/
namespace BN.FP
open Complex Finset BN

section
variable {φ : Prec} {F : Type} {o : FloatOps F} (M : Laws φ.toFormat o)

/-- Multiplication by a twiddle factor. -/
theorem twmul_ok {k j : ℕ} (hk : k ≤ φ.K) (hj : 2 * j ≤ 2 ^ k) {d : Cx F} (hd : M.finC d) (hb : ‖M.c d‖ ≤ 4 * φ.A) :
    M.finC (Cx.mul o (twiddle o (2 ^ k) j) d) ∧
      ‖M.c (Cx.mul o (twiddle o (2 ^ k) j) d) - rt k ^ j * M.c d‖ ≤ 27 * φ.u * ‖M.c d‖ + 3 * φ.eta := by
  obtain ⟨h1, h2⟩ := twiddle_ok M hk hj
  have hu := φ.u_pos
  have hu' := φ.u_le
  have hbig := φ.big_ge
  have hw : ‖rt k ^ j‖ = 1 := by rw [norm_pow, rt_norm, one_pow]
  have hn : ‖M.c (twiddle o (2 ^ k) j)‖ ≤ 1 + 23 * φ.u := by
    have := norm_add_le (rt k ^ j) (M.c (twiddle o (2 ^ k) j) - rt k ^ j)
    rw [add_sub_cancel, hw] at this
    linarith
  have hd0 := norm_nonneg (M.c d)
  have hp : ‖M.c (twiddle o (2 ^ k) j)‖ * ‖M.c d‖ ≤ (1 + 23 * φ.u) * ‖M.c d‖ := mul_le_mul_of_nonneg_right hn hd0
  have hp2 : (1 + 23 * φ.u) * ‖M.c d‖ ≤ 2 * ‖M.c d‖ := mul_le_mul_of_nonneg_right (by linarith) hd0
  have h190 : (4 * φ.A) * 8 ≤ 1024 * φ.A ^ 2 := by have := φ.A_sq; have := φ.A_one; linarith
  obtain ⟨h3, h4⟩ := cmul_ok M h1 hd (by linarith)
  refine ⟨h3, ?_⟩
  have e : M.c (Cx.mul o (twiddle o (2 ^ k) j) d) - rt k ^ j * M.c d =
      (M.c (Cx.mul o (twiddle o (2 ^ k) j) d) - M.c (twiddle o (2 ^ k) j) * M.c d) +
        (M.c (twiddle o (2 ^ k) j) - rt k ^ j) * M.c d := by ring
  rw [e]
  refine le_trans (norm_add_le _ _) ?_
  rw [norm_mul]
  have t1 : ‖M.c (twiddle o (2 ^ k) j) - rt k ^ j‖ * ‖M.c d‖ ≤ 23 * φ.u * ‖M.c d‖ := mul_le_mul_of_nonneg_right h2 hd0
  have t2 : 3 * φ.u * (‖M.c (twiddle o (2 ^ k) j)‖ * ‖M.c d‖) ≤ 3 * φ.u * ((1 + 23 * φ.u) * ‖M.c d‖) :=
    mul_le_mul_of_nonneg_left hp (by linarith)
  have t3 : φ.u * (φ.u * ‖M.c d‖) ≤ 6 / 10 ^ 8 * (φ.u * ‖M.c d‖) := mul_le_mul_of_nonneg_right hu' (by positivity)
  have t4 : 0 ≤ φ.u * ‖M.c d‖ := by positivity
  nlinarith

/-- One butterfly. -/
theorem butterfly_ok {k j : ℕ} (hk : k ≤ φ.K) (hj : 2 * j ≤ 2 ^ k) {e d : Cx F} (he : M.finC e) (hd : M.finC d)
    (hbe : ‖M.c e‖ ≤ 4 * φ.A) (hbd : ‖M.c d‖ ≤ 4 * φ.A) :
    (M.finC (Cx.add o e (Cx.mul o (twiddle o (2 ^ k) j) d)) ∧
      ‖M.c (Cx.add o e (Cx.mul o (twiddle o (2 ^ k) j) d)) - (M.c e + rt k ^ j * M.c d)‖ ^ 2 ≤
        (30 * φ.u) ^ 2 * (‖M.c e‖ ^ 2 + ‖M.c d‖ ^ 2 + 1)) ∧
    (M.finC (Cx.sub o e (Cx.mul o (twiddle o (2 ^ k) j) d)) ∧
      ‖M.c (Cx.sub o e (Cx.mul o (twiddle o (2 ^ k) j) d)) - (M.c e - rt k ^ j * M.c d)‖ ^ 2 ≤
        (30 * φ.u) ^ 2 * (‖M.c e‖ ^ 2 + ‖M.c d‖ ^ 2 + 1)) := by
  obtain ⟨h1, h2⟩ := twmul_ok M hk hj hd hbd
  set p := Cx.mul o (twiddle o (2 ^ k) j) d
  have hu := φ.u_pos
  have hu' := φ.u_le
  have heta := φ.eta_pos
  have heta' := φ.eta_le
  have hbig := φ.big_ge
  have h190 : (4 * φ.A) * 8 ≤ 1024 * φ.A ^ 2 := by have := φ.A_sq; have := φ.A_one; linarith
  have hw : ‖rt k ^ j * M.c d‖ = ‖M.c d‖ := by rw [norm_mul, norm_pow, rt_norm, one_pow, one_mul]
  have hd0 := norm_nonneg (M.c d)
  have he0 := norm_nonneg (M.c e)
  have hud : φ.u * ‖M.c d‖ ≤ 6 / 10 ^ 8 * ‖M.c d‖ := mul_le_mul_of_nonneg_right hu' hd0
  have hp : ‖M.c p‖ ≤ (1 + 1 / 10 ^ 5) * ‖M.c d‖ + 3 * φ.eta := by
    have := norm_add_le (rt k ^ j * M.c d) (M.c p - rt k ^ j * M.c d)
    rw [add_sub_cancel, hw] at this
    linarith
  have tot : ∀ {r : ℂ} {x : ℂ}, ‖r - (M.c e + x)‖ ≤ φ.u * ‖M.c e + x‖ → ‖x‖ = ‖M.c p‖ → ∀ {y : ℂ}, ‖x - y‖ ≤ 27 * φ.u * ‖M.c d‖ + 3 * φ.eta →
      ‖r - (M.c e + y)‖ ^ 2 ≤ (30 * φ.u) ^ 2 * (‖M.c e‖ ^ 2 + ‖M.c d‖ ^ 2 + 1) := by
    intro r x h3 h4 y h5
    have h6 : ‖r - (M.c e + y)‖ ≤ φ.u * ‖M.c e + x‖ + (27 * φ.u * ‖M.c d‖ + 3 * φ.eta) := by
      have : r - (M.c e + y) = (r - (M.c e + x)) + (x - y) := by ring
      rw [this]
      exact le_trans (norm_add_le _ _) (add_le_add h3 h5)
    have h7 : ‖M.c e + x‖ ≤ ‖M.c e‖ + ((1 + 1 / 10 ^ 5) * ‖M.c d‖ + 3 * φ.eta) := by
      refine le_trans (norm_add_le _ _) ?_
      rw [h4]; linarith
    have h8 : φ.u * ‖M.c e + x‖ ≤ φ.u * (‖M.c e‖ + ((1 + 1 / 10 ^ 5) * ‖M.c d‖ + 3 * φ.eta)) := mul_le_mul_of_nonneg_left h7 hu.le
    have h9 : φ.u * φ.eta ≤ 1 * φ.eta := mul_le_mul_of_nonneg_right (by linarith) heta.le
    have hud0 : 0 ≤ φ.u * ‖M.c d‖ := by positivity
    have h10 : ‖r - (M.c e + y)‖ ≤ φ.u * (‖M.c e‖ + 29 * ‖M.c d‖ + 1) := by nlinarith
    have h11 : ‖r - (M.c e + y)‖ ^ 2 ≤ (φ.u * (‖M.c e‖ + 29 * ‖M.c d‖ + 1)) ^ 2 := pow_le_pow_left₀ (norm_nonneg _) h10 2
    refine le_trans h11 ?_
    rw [mul_pow, mul_pow, mul_assoc, mul_comm ((30 : ℝ) ^ 2), mul_assoc]
    apply mul_le_mul_of_nonneg_left _ (by positivity)
    nlinarith [sq_nonneg (29 * ‖M.c e‖ - ‖M.c d‖), sq_nonneg (‖M.c e‖ - 1), sq_nonneg (‖M.c d‖ - 29), sq_nonneg (‖M.c d‖), sq_nonneg ‖M.c e‖]
  have heb : φ.eta ≤ 1 := by
    have : φ.u / 10 ^ 15 ≤ 1 := by
      rw [div_le_iff₀ (by norm_num)]; linarith
    linarith
  have b92 : (1 : ℝ) ≤ 4 * φ.A := by have := φ.A_one; linarith
  constructor
  · obtain ⟨f, g⟩ := cadd_ok M he h1 (le_trans (norm_add_le _ _) (by linarith))
    exact ⟨f, tot g rfl h2⟩
  · obtain ⟨f, g⟩ := csub_ok M he h1 (le_trans (norm_sub_le _ _) (by linarith))
    refine ⟨f, ?_⟩
    have := tot (r := M.c (Cx.sub o e p)) (x := - M.c p) (by rw [← sub_eq_add_neg]; exact g) (norm_neg _)
      (y := - (rt k ^ j * M.c d)) (by rw [neg_sub_neg, norm_sub_rev]; exact h2)
    rw [← sub_eq_add_neg] at this
    exact this

/-- Relative mean-square error after `k` levels. -/
noncomputable def theta (φ : Prec) (k : ℕ) : ℝ := (1 + 30 * φ.u) ^ k - 1

theorem theta_succ (φ : Prec) (k : ℕ) : theta φ (k + 1) = theta φ k + 30 * φ.u * (1 + theta φ k) := by
  unfold theta; rw [pow_succ]; ring

theorem theta_nonneg (φ : Prec) (k : ℕ) : 0 ≤ theta φ k := by
  unfold theta
  have := one_le_pow₀ (a := 1 + 30 * φ.u) (by have := φ.u_pos; linarith) (n := k)
  linarith

theorem theta_le {k : ℕ} (hk : k ≤ φ.K) : theta φ k ≤ 31 * k * φ.u := by
  have hu := φ.u_pos
  have hu' := φ.u_le
  induction k with
  | zero => simp [theta]
  | succ n ih =>
    have h := ih (by omega)
    rw [theta_succ]
    have hn : (n : ℝ) ≤ 40 := by have := φ.K_le; exact_mod_cast (by omega : n ≤ 40)
    have hn0 : (0 : ℝ) ≤ n := Nat.cast_nonneg _
    have h1 : 30 * φ.u * theta φ n ≤ 30 * φ.u * (31 * n * φ.u) := mul_le_mul_of_nonneg_left h (by linarith)
    have h2 : n * φ.u ≤ 40 * (6 / 10 ^ 8) := mul_le_mul hn hu' hu.le (by norm_num)
    have h3 : φ.u * (n * φ.u) ≤ φ.u * (40 * (6 / 10 ^ 8)) := mul_le_mul_of_nonneg_left h2 hu.le
    push_cast
    nlinarith

theorem theta_le_one {k : ℕ} (hk : k ≤ φ.K) : theta φ k ≤ 1 / 10 ^ 4 := by
  have h := theta_le hk
  have hu := φ.u_pos
  have hu' := φ.u_le
  have hn : (k : ℝ) ≤ 40 := by exact_mod_cast le_trans hk φ.K_le
  have : k * φ.u ≤ 40 * (6 / 10 ^ 8) := mul_le_mul hn hu' hu.le (by norm_num)
  linarith

/-- The forward transform. -/
theorem fftF_ok : ∀ {k : ℕ}, k ≤ φ.K → ∀ {f : ℕ → Cx F}, (∀ t < 2 ^ k, M.finC (f t)) →
    2 ^ k * gsz (2 ^ k) (fun t => M.c (f t)) ≤ φ.A ^ 2 →
    (∀ j < 2 ^ k, M.finC (fftF o k f j)) ∧
    ∑ j ∈ range (2 ^ k), ‖M.c (fftF o k f j) - dft k (fun t => M.c (f t)) j‖ ^ 2 ≤
      theta φ k ^ 2 * (2 ^ k * gsz (2 ^ k) (fun t => M.c (f t)))
  | 0, _, f, hf, _ => by
    refine ⟨fun j _ => hf 0 (by norm_num), ?_⟩
    simp [fftF, dft_zero, theta]
  | k + 1, hk, f, hf, hb => by
    have e2 : (2 : ℕ) ^ (k + 1) = 2 * 2 ^ k := by rw [pow_succ]; ring
    have e2' : (2 : ℝ) ^ (k + 1) = 2 * 2 ^ k := by rw [pow_succ]; ring
    set fe : ℕ → Cx F := fun t => f (2 * t) with hfe
    set fo : ℕ → Cx F := fun t => f (2 * t + 1) with hfo
    set Ge := gsz (2 ^ k) (fun t => M.c (fe t)) with hGe
    set Go := gsz (2 ^ k) (fun t => M.c (fo t)) with hGo
    have hG : gsz (2 ^ (k + 1)) (fun t => M.c (f t)) = Ge + Go := by rw [e2, gsz_split]
    have hGe0 : 0 ≤ Ge := gsz_nonneg _ _
    have hGo0 : 0 ≤ Go := gsz_nonneg _ _
    have h2k : (0 : ℝ) < 2 ^ k := by positivity
    rw [hG, e2'] at hb
    have hpe : 0 ≤ 2 ^ k * Ge := by positivity
    have hpo : 0 ≤ 2 ^ k * Go := by positivity
    obtain ⟨fine, erre⟩ := fftF_ok (k := k) (by omega) (f := fe) (fun t ht => hf _ (by omega)) (by nlinarith)
    obtain ⟨fino, erro⟩ := fftF_ok (k := k) (by omega) (f := fo) (fun t ht => hf _ (by omega)) (by nlinarith)
    rw [← hGe] at erre
    rw [← hGo] at erro
    set e := fun j => M.c (fftF o k fe j) with he
    set d := fun j => M.c (fftF o k fo j) with hd
    set E := dft k (fun t => M.c (fe t)) with hE
    set D := dft k (fun t => M.c (fo t)) with hD
    have hθ := theta_nonneg φ k
    have hθ1 := theta_le_one (φ := φ) (k := k) (by omega)
    have se := size_of_err hθ (dft_energy k (fun t => M.c (fe t))) erre
    have so := size_of_err hθ (dft_energy k (fun t => M.c (fo t))) erro
    rw [← hGe] at se
    rw [← hGo] at so
    have hθ2 : (1 + theta φ k) ^ 2 ≤ 4 := by nlinarith
    have bound : ∀ {x : ℕ → ℂ} {P : ℝ}, 0 ≤ P → P ≤ φ.A ^ 2 → ∑ j ∈ range (2 ^ k), ‖x j‖ ^ 2 ≤ (1 + theta φ k) ^ 2 * P - 2 ^ k →
        ∀ j < 2 ^ k, ‖x j‖ ≤ 4 * φ.A := by
      intro x P hP0 hP hs j hj
      have h1 := single_le_sum (f := fun j => ‖x j‖ ^ 2) (fun _ _ => by positivity) (mem_range.2 hj)
      apply le_of_sq_le_sq _ (by have := φ.A_one; linarith)
      have h2 : (1 + theta φ k) ^ 2 * P ≤ 4 * φ.A ^ 2 := mul_le_mul hθ2 hP hP0 (by norm_num)
      have h3 : (4 : ℝ) * φ.A ^ 2 ≤ (4 * φ.A) ^ 2 := by nlinarith [sq_nonneg φ.A]
      linarith
    have be := bound hpe (by nlinarith) se
    have bo := bound hpo (by nlinarith) so
    have bf : ∀ j < 2 ^ k, _ := fun j hj => butterfly_ok M (k := k + 1) (j := j) hk (by omega) (fine j hj) (fino j hj) (be j hj) (bo j hj)
    have lo : ∀ j < 2 ^ k, fftF o (k + 1) f j = Cx.add o (fftF o k fe j) (Cx.mul o (twiddle o (2 ^ (k + 1)) j) (fftF o k fo j)) := by
      intro j hj; rw [fftF, if_pos hj]
    have hi : ∀ j < 2 ^ k, fftF o (k + 1) f (2 ^ k + j) = Cx.sub o (fftF o k fe j) (Cx.mul o (twiddle o (2 ^ (k + 1)) j) (fftF o k fo j)) := by
      intro j hj; rw [fftF, if_neg (by omega), show 2 ^ k + j - 2 ^ k = j by omega]
    refine ⟨?_, ?_⟩
    · intro j hj
      by_cases hjk : j < 2 ^ k
      · rw [lo j hjk]; exact (bf j hjk).1.1
      · obtain ⟨i, rfl⟩ : ∃ i, j = 2 ^ k + i := ⟨j - 2 ^ k, by omega⟩
        rw [hi i (by omega)]; exact (bf i (by omega)).2.1
    -- local errors and propagated errors
    set W := fun j => rt (k + 1) ^ j with hW
    have dlo : ∀ j < 2 ^ k, dft (k + 1) (fun t => M.c (f t)) j = E j + W j * D j := by
      intro j hj; rw [dft_rec, if_pos hj]
    have dhi : ∀ j < 2 ^ k, dft (k + 1) (fun t => M.c (f t)) (2 ^ k + j) = E j - W j * D j := by
      intro j hj; rw [dft_rec, if_neg (by omega), show 2 ^ k + j - 2 ^ k = j by omega]
    let loc : ℕ → ℝ := fun j => if j < 2 ^ k then ‖M.c (fftF o (k + 1) f j) - (e j + W j * d j)‖
      else ‖M.c (fftF o (k + 1) f j) - (e (j - 2 ^ k) - W (j - 2 ^ k) * d (j - 2 ^ k))‖
    let prop : ℕ → ℝ := fun j => if j < 2 ^ k then ‖(e j - E j) + W j * (d j - D j)‖
      else ‖(e (j - 2 ^ k) - E (j - 2 ^ k)) - W (j - 2 ^ k) * (d (j - 2 ^ k) - D (j - 2 ^ k))‖
    have hsplit : ∀ g : ℕ → ℝ, ∑ j ∈ range (2 ^ (k + 1)), g j = ∑ j ∈ range (2 ^ k), (g j + g (2 ^ k + j)) := by
      intro g
      rw [e2, two_mul, sum_range_add, sum_add_distrib]
    have hpt : ∀ j ∈ range (2 ^ (k + 1)), ‖M.c (fftF o (k + 1) f j) - dft (k + 1) (fun t => M.c (f t)) j‖ ^ 2 ≤ (loc j + prop j) ^ 2 := by
      intro j hj
      have hj := mem_range.1 hj
      apply pow_le_pow_left₀ (norm_nonneg _)
      by_cases hjk : j < 2 ^ k
      · simp only [loc, prop, if_pos hjk]
        rw [dlo j hjk]
        refine le_trans (le_of_eq ?_) (norm_add_le _ _)
        congr 1; ring
      · simp only [loc, prop, if_neg hjk]
        obtain ⟨i, rfl⟩ : ∃ i, j = 2 ^ k + i := ⟨j - 2 ^ k, by omega⟩
        rw [dhi i (by omega), show 2 ^ k + i - 2 ^ k = i by omega]
        refine le_trans (le_of_eq ?_) (norm_add_le _ _)
        congr 1; ring
    refine le_trans (sum_le_sum hpt) ?_
    have hR : (0 : ℝ) ≤ 2 ^ (k + 1) * (Ge + Go) := by positivity
    have hu := φ.u_pos
    have hloc : ∑ j ∈ range (2 ^ (k + 1)), loc j ^ 2 ≤ (30 * φ.u * (1 + theta φ k)) ^ 2 * (2 ^ (k + 1) * (Ge + Go)) := by
      rw [hsplit]
      have h1 : ∀ j ∈ range (2 ^ k), loc j ^ 2 + loc (2 ^ k + j) ^ 2 ≤ 2 * (30 * φ.u) ^ 2 * (‖e j‖ ^ 2 + ‖d j‖ ^ 2 + 1) := by
        intro j hj
        have hj := mem_range.1 hj
        have b := bf j hj
        simp only [loc, if_pos hj, if_neg (show ¬ 2 ^ k + j < 2 ^ k by omega), show 2 ^ k + j - 2 ^ k = j by omega]
        rw [lo j hj, hi j hj]
        have b1 := b.1.2
        have b2 := b.2.2
        simp only [e, d, W]
        linarith
      refine le_trans (sum_le_sum h1) ?_
      rw [← mul_sum, sum_add_distrib, sum_add_distrib]
      simp only [sum_const, card_range, nsmul_eq_mul, mul_one]
      push_cast
      have h2 : (∑ j ∈ range (2 ^ k), ‖e j‖ ^ 2) + (∑ j ∈ range (2 ^ k), ‖d j‖ ^ 2) + 2 ^ k ≤ (1 + theta φ k) ^ 2 * (2 ^ k * (Ge + Go)) := by
        simp only [e, d]
        linarith
      calc 2 * (30 * φ.u) ^ 2 * ((∑ j ∈ range (2 ^ k), ‖e j‖ ^ 2) + (∑ j ∈ range (2 ^ k), ‖d j‖ ^ 2) + 2 ^ k)
          ≤ 2 * (30 * φ.u) ^ 2 * ((1 + theta φ k) ^ 2 * (2 ^ k * (Ge + Go))) := mul_le_mul_of_nonneg_left h2 (by positivity)
        _ = _ := by rw [e2']; ring
    have hprop : ∑ j ∈ range (2 ^ (k + 1)), prop j ^ 2 ≤ theta φ k ^ 2 * (2 ^ (k + 1) * (Ge + Go)) := by
      rw [hsplit]
      have h1 : ∀ j ∈ range (2 ^ k), prop j ^ 2 + prop (2 ^ k + j) ^ 2 = 2 * (‖e j - E j‖ ^ 2 + ‖d j - D j‖ ^ 2) := by
        intro j hj
        have hj := mem_range.1 hj
        simp only [prop, if_pos hj, if_neg (show ¬ 2 ^ k + j < 2 ^ k by omega), show 2 ^ k + j - 2 ^ k = j by omega]
        rw [para, norm_mul, norm_pow, rt_norm, one_pow, one_mul]
      rw [sum_congr rfl h1, ← mul_sum, sum_add_distrib]
      rw [e2']
      nlinarith
    have hm := mink (mul_nonneg (by positivity) (by linarith)) hθ hR hloc hprop
    rw [hG, theta_succ]
    refine le_trans hm (le_of_eq ?_)
    ring

end
end BN.FP
