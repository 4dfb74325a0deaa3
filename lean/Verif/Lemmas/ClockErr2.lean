import Verif.Lemmas.ClockErr
import Verif.Lemmas.PrecErr2
/-
Mean-square error of the forward transform when the arithmetic changes with time.
-/
namespace BN.FP
open Complex Finset BN

section
variable {φ : Prec}

/-- Sizes of computed transforms. -/
theorem fft_bound {k : ℕ} (hk : k ≤ φ.K) {f x : ℕ → ℂ} (hP : 2 ^ k * gsz (2 ^ k) f ≤ φ.A ^ 2)
    (err : ∑ j ∈ range (2 ^ k), ‖x j - dft k f j‖ ^ 2 ≤ theta φ k ^ 2 * (2 ^ k * gsz (2 ^ k) f)) :
    ∀ j < 2 ^ k, ‖x j‖ ≤ 4 * φ.A := by
  have hθ := theta_nonneg φ k
  have hθ1 := theta_le_one (φ := φ) (k := k) hk
  have hs := size_of_err hθ (dft_energy k f) err
  have hθ2 : (1 + theta φ k) ^ 2 ≤ 4 := by nlinarith
  have hP0 : 0 ≤ 2 ^ k * gsz (2 ^ k) f := mul_nonneg (by positivity) (gsz_nonneg _ _)
  intro j hj
  have h1 := single_le_sum (f := fun j => ‖x j‖ ^ 2) (fun _ _ => by positivity) (mem_range.2 hj)
  apply le_of_sq_le_sq _ (by have := φ.A_one; linarith)
  have h2 : (1 + theta φ k) ^ 2 * (2 ^ k * gsz (2 ^ k) f) ≤ 4 * φ.A ^ 2 := mul_le_mul hθ2 hP hP0 (by norm_num)
  have h3 : (4 : ℝ) * φ.A ^ 2 ≤ (4 * φ.A) ^ 2 := by nlinarith [sq_nonneg φ.A]
  have h4 : (0 : ℝ) < 2 ^ k := by positivity
  linarith

/-- One level of the transform: `e` and `d` are computed transforms of the even and odd entries, `x` the computed result. -/
theorem fft_level {k : ℕ} {f e d x : ℕ → ℂ}
    (erre : ∑ j ∈ range (2 ^ k), ‖e j - dft k (fun t => f (2 * t)) j‖ ^ 2 ≤ theta φ k ^ 2 * (2 ^ k * gsz (2 ^ k) fun t => f (2 * t)))
    (erro : ∑ j ∈ range (2 ^ k), ‖d j - dft k (fun t => f (2 * t + 1)) j‖ ^ 2 ≤
      theta φ k ^ 2 * (2 ^ k * gsz (2 ^ k) fun t => f (2 * t + 1)))
    (lo : ∀ j < 2 ^ k, ‖x j - (e j + rt (k + 1) ^ j * d j)‖ ^ 2 ≤ (30 * φ.u) ^ 2 * (‖e j‖ ^ 2 + ‖d j‖ ^ 2 + 1))
    (hi : ∀ j < 2 ^ k, ‖x (2 ^ k + j) - (e j - rt (k + 1) ^ j * d j)‖ ^ 2 ≤ (30 * φ.u) ^ 2 * (‖e j‖ ^ 2 + ‖d j‖ ^ 2 + 1)) :
    ∑ j ∈ range (2 ^ (k + 1)), ‖x j - dft (k + 1) f j‖ ^ 2 ≤ theta φ (k + 1) ^ 2 * (2 ^ (k + 1) * gsz (2 ^ (k + 1)) f) := by
  have e2 : (2 : ℕ) ^ (k + 1) = 2 * 2 ^ k := by rw [pow_succ]; ring
  have e2' : (2 : ℝ) ^ (k + 1) = 2 * 2 ^ k := by rw [pow_succ]; ring
  set fe : ℕ → ℂ := fun t => f (2 * t) with hfe
  set fo : ℕ → ℂ := fun t => f (2 * t + 1) with hfo
  set Ge := gsz (2 ^ k) fe with hGe
  set Go := gsz (2 ^ k) fo with hGo
  have hG : gsz (2 ^ (k + 1)) f = Ge + Go := by rw [e2, gsz_split]
  have hGe0 : 0 ≤ Ge := gsz_nonneg _ _
  have hGo0 : 0 ≤ Go := gsz_nonneg _ _
  have h2k : (0 : ℝ) < 2 ^ k := by positivity
  set E := dft k fe with hE
  set D := dft k fo with hD
  have hθ := theta_nonneg φ k
  have se := size_of_err hθ (dft_energy k fe) erre
  have so := size_of_err hθ (dft_energy k fo) erro
  rw [← hGe] at se
  rw [← hGo] at so
  -- local errors and propagated errors
  set W := fun j => rt (k + 1) ^ j with hW
  have dlo : ∀ j < 2 ^ k, dft (k + 1) f j = E j + W j * D j := by
    intro j hj; rw [dft_rec, if_pos hj]
  have dhi : ∀ j < 2 ^ k, dft (k + 1) f (2 ^ k + j) = E j - W j * D j := by
    intro j hj; rw [dft_rec, if_neg (by omega), show 2 ^ k + j - 2 ^ k = j by omega]
  let loc : ℕ → ℝ := fun j => if j < 2 ^ k then ‖x j - (e j + W j * d j)‖
    else ‖x j - (e (j - 2 ^ k) - W (j - 2 ^ k) * d (j - 2 ^ k))‖
  let prop : ℕ → ℝ := fun j => if j < 2 ^ k then ‖(e j - E j) + W j * (d j - D j)‖
    else ‖(e (j - 2 ^ k) - E (j - 2 ^ k)) - W (j - 2 ^ k) * (d (j - 2 ^ k) - D (j - 2 ^ k))‖
  have hsplit : ∀ g : ℕ → ℝ, ∑ j ∈ range (2 ^ (k + 1)), g j = ∑ j ∈ range (2 ^ k), (g j + g (2 ^ k + j)) := by
    intro g
    rw [e2, two_mul, sum_range_add, sum_add_distrib]
  have hpt : ∀ j ∈ range (2 ^ (k + 1)), ‖x j - dft (k + 1) f j‖ ^ 2 ≤ (loc j + prop j) ^ 2 := by
    intro j hj
    have hj := mem_range.1 hj
    apply pow_le_pow_left₀ (norm_nonneg _)
    by_cases hjk : j < 2 ^ k
    · simp only [loc, prop, if_pos hjk]
      rw [dlo j hjk]
      refine le_trans (le_of_eq ?_) (norm_add_le _ _)
      congr 1; ring
    · simp only [loc, prop, if_neg hjk]
      obtain ⟨i, rfl⟩ : ∃ i, j = 2 ^ k + i := ⟨j - 2 ^ k, by omega⟩
      rw [dhi i (by omega), show 2 ^ k + i - 2 ^ k = i by omega]
      refine le_trans (le_of_eq ?_) (norm_add_le _ _)
      congr 1; ring
  refine le_trans (sum_le_sum hpt) ?_
  have hR : (0 : ℝ) ≤ 2 ^ (k + 1) * (Ge + Go) := by positivity
  have hu := φ.u_pos
  have hloc : ∑ j ∈ range (2 ^ (k + 1)), loc j ^ 2 ≤ (30 * φ.u * (1 + theta φ k)) ^ 2 * (2 ^ (k + 1) * (Ge + Go)) := by
    rw [hsplit]
    have h1 : ∀ j ∈ range (2 ^ k), loc j ^ 2 + loc (2 ^ k + j) ^ 2 ≤ 2 * (30 * φ.u) ^ 2 * (‖e j‖ ^ 2 + ‖d j‖ ^ 2 + 1) := by
      intro j hj
      have hj := mem_range.1 hj
      simp only [loc, if_pos hj, if_neg (show ¬ 2 ^ k + j < 2 ^ k by omega), show 2 ^ k + j - 2 ^ k = j by omega]
      have b1 := lo j hj
      have b2 := hi j hj
      simp only [W]
      linarith
    refine le_trans (sum_le_sum h1) ?_
    rw [← mul_sum, sum_add_distrib, sum_add_distrib]
    simp only [sum_const, card_range, nsmul_eq_mul, mul_one]
    push_cast
    have h2 : (∑ j ∈ range (2 ^ k), ‖e j‖ ^ 2) + (∑ j ∈ range (2 ^ k), ‖d j‖ ^ 2) + 2 ^ k ≤ (1 + theta φ k) ^ 2 * (2 ^ k * (Ge + Go)) := by
      linarith
    calc 2 * (30 * φ.u) ^ 2 * ((∑ j ∈ range (2 ^ k), ‖e j‖ ^ 2) + (∑ j ∈ range (2 ^ k), ‖d j‖ ^ 2) + 2 ^ k)
        ≤ 2 * (30 * φ.u) ^ 2 * ((1 + theta φ k) ^ 2 * (2 ^ k * (Ge + Go))) := mul_le_mul_of_nonneg_left h2 (by positivity)
      _ = _ := by rw [e2']; ring
  have hprop : ∑ j ∈ range (2 ^ (k + 1)), prop j ^ 2 ≤ theta φ k ^ 2 * (2 ^ (k + 1) * (Ge + Go)) := by
    rw [hsplit]
    have h1 : ∀ j ∈ range (2 ^ k), prop j ^ 2 + prop (2 ^ k + j) ^ 2 = 2 * (‖e j - E j‖ ^ 2 + ‖d j - D j‖ ^ 2) := by
      intro j hj
      have hj := mem_range.1 hj
      simp only [prop, if_pos hj, if_neg (show ¬ 2 ^ k + j < 2 ^ k by omega), show 2 ^ k + j - 2 ^ k = j by omega]
      rw [para, norm_mul, norm_pow, rt_norm, one_pow, one_mul]
    rw [sum_congr rfl h1, ← mul_sum, sum_add_distrib]
    rw [e2']
    nlinarith
  have hm := mink (mul_nonneg (by positivity) (by linarith)) hθ hR hloc hprop
  rw [hG, theta_succ]
  refine le_trans hm (le_of_eq ?_)
  ring

end

section
variable {φ : Prec} {F : Type} {val : F → ℝ} {fin : F → Prop} {O : ℕ → FloatOps F} (M : ∀ t, LawfulAt φ.toFormat val fin (O t))
include M

local notation "V" => cv val

/-- Multiplication by a computed twiddle factor. -/
theorem twmulT_ok {k j : ℕ} {w : Cx F} (hw : fC fin w) (hw' : ‖V w - rt k ^ j‖ ≤ 23 * φ.u) {d : Cx F} (hd : fC fin d)
    (hb : ‖V d‖ ≤ 4 * φ.A) :
    Runs (Cx.mulT O w d) fun p => fC fin p ∧ ‖V p - rt k ^ j * V d‖ ≤ 27 * φ.u * ‖V d‖ + 3 * φ.eta := by
  have hu := φ.u_pos
  have hu' := φ.u_le
  have hbig := φ.big_ge
  have hr : ‖rt k ^ j‖ = 1 := by rw [norm_pow, rt_norm, one_pow]
  have hn : ‖V w‖ ≤ 1 + 23 * φ.u := by
    have := norm_add_le (rt k ^ j) (V w - rt k ^ j)
    rw [add_sub_cancel, hr] at this
    linarith
  have hd0 := norm_nonneg (V d)
  have hp : ‖V w‖ * ‖V d‖ ≤ (1 + 23 * φ.u) * ‖V d‖ := mul_le_mul_of_nonneg_right hn hd0
  have hp2 : (1 + 23 * φ.u) * ‖V d‖ ≤ 2 * ‖V d‖ := mul_le_mul_of_nonneg_right (by linarith) hd0
  have h190 : (4 * φ.A) * 8 ≤ 1024 * φ.A ^ 2 := by have := φ.A_sq; have := φ.A_one; linarith
  refine runs_mono (mulT_ok M hw hd (by linarith)) fun p ⟨h3, h4⟩ => ⟨h3, ?_⟩
  have e : V p - rt k ^ j * V d = (V p - V w * V d) + (V w - rt k ^ j) * V d := by ring
  rw [e]
  refine le_trans (norm_add_le _ _) ?_
  rw [norm_mul]
  have t1 : ‖V w - rt k ^ j‖ * ‖V d‖ ≤ 23 * φ.u * ‖V d‖ := mul_le_mul_of_nonneg_right hw' hd0
  have t2 : 3 * φ.u * (‖V w‖ * ‖V d‖) ≤ 3 * φ.u * ((1 + 23 * φ.u) * ‖V d‖) := mul_le_mul_of_nonneg_left hp (by linarith)
  have t3 : φ.u * (φ.u * ‖V d‖) ≤ 6 / 10 ^ 8 * (φ.u * ‖V d‖) := mul_le_mul_of_nonneg_right hu' (by positivity)
  have t4 : 0 ≤ φ.u * ‖V d‖ := by positivity
  nlinarith

omit M in
/-- The rounded sum of an entry and a product. -/
theorem butterfly_tot {E D r x y : ℂ} {p : ℝ} (hp : p ≤ (1 + 1 / 10 ^ 5) * ‖D‖ + 3 * φ.eta) (h3 : ‖r - (E + x)‖ ≤ φ.u * ‖E + x‖)
    (h4 : ‖x‖ = p) (h5 : ‖x - y‖ ≤ 27 * φ.u * ‖D‖ + 3 * φ.eta) :
    ‖r - (E + y)‖ ^ 2 ≤ (30 * φ.u) ^ 2 * (‖E‖ ^ 2 + ‖D‖ ^ 2 + 1) := by
  have hu := φ.u_pos
  have hu' := φ.u_le
  have heta := φ.eta_pos
  have heta' := φ.eta_le
  have hd0 := norm_nonneg D
  have he0 := norm_nonneg E
  have hud : φ.u * ‖D‖ ≤ 6 / 10 ^ 8 * ‖D‖ := mul_le_mul_of_nonneg_right hu' hd0
  have h6 : ‖r - (E + y)‖ ≤ φ.u * ‖E + x‖ + (27 * φ.u * ‖D‖ + 3 * φ.eta) := by
    have : r - (E + y) = (r - (E + x)) + (x - y) := by ring
    rw [this]
    exact le_trans (norm_add_le _ _) (add_le_add h3 h5)
  have h7 : ‖E + x‖ ≤ ‖E‖ + ((1 + 1 / 10 ^ 5) * ‖D‖ + 3 * φ.eta) := by
    refine le_trans (norm_add_le _ _) ?_
    rw [h4]; linarith
  have h8 : φ.u * ‖E + x‖ ≤ φ.u * (‖E‖ + ((1 + 1 / 10 ^ 5) * ‖D‖ + 3 * φ.eta)) := mul_le_mul_of_nonneg_left h7 hu.le
  have h9 : φ.u * φ.eta ≤ 1 * φ.eta := mul_le_mul_of_nonneg_right (by linarith) heta.le
  have hud0 : 0 ≤ φ.u * ‖D‖ := by positivity
  have h10 : ‖r - (E + y)‖ ≤ φ.u * (‖E‖ + 29 * ‖D‖ + 1) := by nlinarith
  have h11 : ‖r - (E + y)‖ ^ 2 ≤ (φ.u * (‖E‖ + 29 * ‖D‖ + 1)) ^ 2 := pow_le_pow_left₀ (norm_nonneg _) h10 2
  refine le_trans h11 ?_
  rw [mul_pow, mul_pow, mul_assoc, mul_comm ((30 : ℝ) ^ 2), mul_assoc]
  apply mul_le_mul_of_nonneg_left _ (by positivity)
  nlinarith [sq_nonneg (29 * ‖E‖ - ‖D‖), sq_nonneg (‖E‖ - 1), sq_nonneg (‖D‖ - 29), sq_nonneg (‖D‖), sq_nonneg ‖E‖]

omit M in
theorem product_size {k j : ℕ} {D p : ℂ} (h : ‖p - rt k ^ j * D‖ ≤ 27 * φ.u * ‖D‖ + 3 * φ.eta) :
    ‖p‖ ≤ (1 + 1 / 10 ^ 5) * ‖D‖ + 3 * φ.eta := by
  have hu' := φ.u_le
  have hw : ‖rt k ^ j * D‖ = ‖D‖ := by rw [norm_mul, norm_pow, rt_norm, one_pow, one_mul]
  have hud : φ.u * ‖D‖ ≤ 6 / 10 ^ 8 * ‖D‖ := mul_le_mul_of_nonneg_right hu' (norm_nonneg _)
  have := norm_add_le (rt k ^ j * D) (p - rt k ^ j * D)
  rw [add_sub_cancel, hw] at this
  have := norm_nonneg D
  linarith

/-- Both results of a butterfly, written to a table. -/
theorem butterflyT_ok {k j : ℕ} {w : Cx F} (hw : fC fin w) (hw' : ‖V w - rt k ^ j‖ ≤ 23 * φ.u) {e d : Cx F}
    (he : fC fin e) (hd : fC fin d) (hbe : ‖V e‖ ≤ 4 * φ.A) (hbd : ‖V d‖ ≤ 4 * φ.A) {β : Type} {Q : β → Prop} {g : Cx F → Cx F → Timed β}
    (hg : ∀ lo hi, fC fin lo → ‖V lo - (V e + rt k ^ j * V d)‖ ^ 2 ≤ (30 * φ.u) ^ 2 * (‖V e‖ ^ 2 + ‖V d‖ ^ 2 + 1) → fC fin hi →
      ‖V hi - (V e - rt k ^ j * V d)‖ ^ 2 ≤ (30 * φ.u) ^ 2 * (‖V e‖ ^ 2 + ‖V d‖ ^ 2 + 1) → Runs (g lo hi) Q) :
    Runs (do
      let p ← Cx.mulT O w d
      let lo ← Cx.addT O e p
      let q ← Cx.mulT O w d
      let hi ← Cx.subT O e q
      g lo hi) Q := by
  have hbig := φ.big_ge
  have h190 : (4 * φ.A) * 8 ≤ 1024 * φ.A ^ 2 := by have := φ.A_sq; have := φ.A_one; linarith
  have heb : φ.eta ≤ 1 := by have := φ.eta_le_quarter; linarith
  have b92 : (1 : ℝ) ≤ 4 * φ.A := by have := φ.A_one; linarith
  have hd0 := norm_nonneg (V d)
  refine runs_bind (twmulT_ok M hw hw' hd hbd) fun p ⟨p1, p2⟩ => ?_
  have hp := product_size p2
  refine runs_bind (addT_ok M he p1 (le_trans (norm_add_le _ _) (by linarith))) fun lo ⟨l1, l2⟩ => ?_
  refine runs_bind (twmulT_ok M hw hw' hd hbd) fun q ⟨q1, q2⟩ => ?_
  have hq := product_size q2
  refine runs_bind (subT_ok M he q1 (le_trans (norm_sub_le _ _) (by linarith))) fun hi ⟨h1, h2⟩ => ?_
  refine hg lo hi l1 (butterfly_tot hp l2 rfl p2) h1 ?_
  have := butterfly_tot (r := V hi) (E := V e) (x := - V q) hq (by rw [← sub_eq_add_neg]; exact h2) (norm_neg _)
    (y := - (rt k ^ j * V d)) (by rw [neg_sub_neg, norm_sub_rev]; exact q2)
  rw [← sub_eq_add_neg] at this
  exact this

/-- The combination loop. -/
theorem combineT_ok {k : ℕ} (hk : k + 1 ≤ φ.K) {e d f : ℕ → Cx F} (he : ∀ j < 2 ^ k, fC fin (e j)) (hd : ∀ j < 2 ^ k, fC fin (d j))
    (hbe : ∀ j < 2 ^ k, ‖V (e j)‖ ≤ 4 * φ.A) (hbd : ∀ j < 2 ^ k, ‖V (d j)‖ ≤ 4 * φ.A) : ∀ i ≤ 2 ^ k,
    Runs (fftCombineT O (2 ^ (k + 1)) (2 ^ k) (tab (2 ^ k) e) (tab (2 ^ k) d) i (tab (2 ^ (k + 1)) f)) fun ys =>
      ∃ y, ys = tab (2 ^ (k + 1)) y ∧ ∀ j < i,
        (fC fin (y j) ∧ ‖V (y j) - (V (e j) + rt (k + 1) ^ j * V (d j))‖ ^ 2 ≤
          (30 * φ.u) ^ 2 * (‖V (e j)‖ ^ 2 + ‖V (d j)‖ ^ 2 + 1)) ∧
        (fC fin (y (2 ^ k + j)) ∧ ‖V (y (2 ^ k + j)) - (V (e j) - rt (k + 1) ^ j * V (d j))‖ ^ 2 ≤
          (30 * φ.u) ^ 2 * (‖V (e j)‖ ^ 2 + ‖V (d j)‖ ^ 2 + 1))
  | 0, _ => runs_pure ⟨f, rfl, fun j hj => absurd hj (by omega)⟩
  | i + 1, hi => by
    have e2 : (2 : ℕ) ^ (k + 1) = 2 * 2 ^ k := by rw [pow_succ]; ring
    rw [fftCombineT]
    refine runs_bind (combineT_ok hk he hd hbe hbd i (by omega)) fun x hx => ?_
    obtain ⟨y, rfl, hy⟩ := hx
    refine runs_bind (twiddleT_ok M hk (j := i) (by omega)) fun w ⟨w1, w2⟩ => ?_
    refine runs_bind (P := fun a => a = e i) (runs_still (rdAt_tab e (by omega)) rfl) fun a ha => ?_
    refine runs_bind (P := fun a => a = d i) (runs_still (rdAt_tab d (by omega)) rfl) fun b hb => ?_
    subst ha hb
    rw [if_pos (by simp only [tab_length]; omega)]
    refine butterflyT_ok M (k := k + 1) (j := i) w1 w2 (he i (by omega)) (hd i (by omega)) (hbe i (by omega))
      (hbd i (by omega)) fun lo hi l1 l2 h1 h2 => runs_pure ?_
    rw [tab_set, tab_set]
    refine ⟨_, rfl, fun j hj => ?_⟩
    by_cases hji : j = i
    · subst hji
      simp only
      rw [if_neg (by omega), if_pos trivial, if_pos (by omega)]
      exact ⟨⟨l1, l2⟩, h1, h2⟩
    · rw [if_neg (by omega), if_neg hji, if_neg (by omega), if_neg (by omega)]
      exact hy j (by omega)

/-- The forward transform. -/
theorem fftT_ok : ∀ {k : ℕ}, k ≤ φ.K → ∀ {f : ℕ → Cx F}, (∀ t < 2 ^ k, fC fin (f t)) →
    2 ^ k * gsz (2 ^ k) (fun t => V (f t)) ≤ φ.A ^ 2 → ∀ {n : ℕ}, k < n →
    Runs (fftComplexT O n (tab (2 ^ k) f)) fun ys => ∃ y, ys = tab (2 ^ k) y ∧ (∀ j < 2 ^ k, fC fin (y j)) ∧
      ∑ j ∈ range (2 ^ k), ‖V (y j) - dft k (fun t => V (f t)) j‖ ^ 2 ≤ theta φ k ^ 2 * (2 ^ k * gsz (2 ^ k) (fun t => V (f t)))
  | 0, _, f, hf, _, n, hn => by
    obtain ⟨n, rfl⟩ : ∃ m, n = m + 1 := ⟨n - 1, by omega⟩
    rw [fftComplexT]
    simp only [tab_length, pow_zero, if_true]
    refine runs_pure ⟨f, rfl, fun j hj => hf j (by simpa using hj), ?_⟩
    simp [dft_zero, theta]
  | k + 1, hk, f, hf, hb, n, hn => by
    obtain ⟨n, rfl⟩ : ∃ m, n = m + 1 := ⟨n - 1, by omega⟩
    have hp : 0 < 2 ^ k := Nat.pow_pos (by omega)
    have e2 : (2 : ℕ) ^ (k + 1) = 2 * 2 ^ k := by rw [pow_succ]; ring
    have e2' : (2 : ℝ) ^ (k + 1) = 2 * 2 ^ k := by rw [pow_succ]; ring
    have eh : (2 : ℕ) ^ (k + 1) / 2 = 2 ^ k := by omega
    have hG : gsz (2 ^ (k + 1)) (fun t => V (f t)) = gsz (2 ^ k) (fun t => V (f (2 * t))) + gsz (2 ^ k) (fun t => V (f (2 * t + 1))) := by
      rw [e2, gsz_split]
    have hGe0 : 0 ≤ 2 ^ k * gsz (2 ^ k) (fun t => V (f (2 * t))) := mul_nonneg (by positivity) (gsz_nonneg _ _)
    have hGo0 : 0 ≤ 2 ^ k * gsz (2 ^ k) (fun t => V (f (2 * t + 1))) := mul_nonneg (by positivity) (gsz_nonneg _ _)
    have hb' := hb
    rw [hG, e2'] at hb'
    have hbE : 2 ^ k * gsz (2 ^ k) (fun t => V (f (2 * t))) ≤ φ.A ^ 2 := by nlinarith
    have hbO : 2 ^ k * gsz (2 ^ k) (fun t => V (f (2 * t + 1))) ≤ φ.A ^ 2 := by nlinarith
    rw [fftComplexT]
    simp only [tab_length]
    rw [if_neg (by omega), eh]
    refine runs_bind (P := fun a => a = (tab (2 ^ k) (fun t => f (2 * t)), tab (2 ^ k) (fun t => f (2 * t + 1))))
      (runs_still (by rw [e2]; exact fftPartition_eq f _ le_rfl) rfl) fun p hp => ?_
    subst hp
    refine runs_bind (fftT_ok (k := k) (by omega) (f := fun t => f (2 * t)) (fun t ht => hf _ (by omega)) hbE (by omega)) fun xs hx => ?_
    obtain ⟨e, rfl, fe, ee⟩ := hx
    refine runs_bind (fftT_ok (k := k) (by omega) (f := fun t => f (2 * t + 1)) (fun t ht => hf _ (by omega)) hbO (by omega)) fun xs hx => ?_
    obtain ⟨d, rfl, fd, ed⟩ := hx
    have be := fft_bound (k := k) (by omega) (f := fun t => V (f (2 * t))) (x := fun j => V (e j)) hbE ee
    have bd := fft_bound (k := k) (by omega) (f := fun t => V (f (2 * t + 1))) (x := fun j => V (d j)) hbO ed
    refine runs_mono (combineT_ok M hk fe fd be bd (2 ^ k) le_rfl) fun ys hys => ?_
    obtain ⟨y, rfl, hy⟩ := hys
    refine ⟨y, rfl, fun j hj => ?_, fft_level (f := fun t => V (f t)) (e := fun j => V (e j)) (d := fun j => V (d j))
      (x := fun j => V (y j)) ee ed (fun j hj => (hy j hj).1.2) fun j hj => (hy j hj).2.2⟩
    by_cases hjk : j < 2 ^ k
    · exact (hy j hjk).1.1
    · obtain ⟨i, rfl⟩ : ∃ i, j = 2 ^ k + i := ⟨j - 2 ^ k, by omega⟩
      exact (hy i (by omega)).2.1

end
end BN.FP
