import Verif.SpecFloat
import Verif.Lemmas.FftExact
import Mathlib.Analysis.SpecialFunctions.Trigonometric.Bounds
import Mathlib.Analysis.Real.Pi.Bounds
/-
Rounding errors of the complex operations and of the twiddle factors.
-/
namespace BN
open Complex

theorem uro_pos : 0 < uro := by unfold uro; positivity
theorem eta_pos : 0 < eta := by unfold eta; positivity
theorem uro_le : uro ≤ 1 / 10 ^ 15 := by unfold uro; norm_num
theorem eta_le : eta ≤ uro / 10 ^ 15 := by unfold uro eta; norm_num
theorem big_ge : 2 ^ 190 ≤ big := by unfold big; norm_num

theorem norm_le_of_comp {z w : ℂ} {s : ℝ} (hs : 0 ≤ s) (h1 : |z.re| ≤ s * |w.re|) (h2 : |z.im| ≤ s * |w.im|) :
    ‖z‖ ≤ s * ‖w‖ := by
  apply le_of_sq_le_sq _ (by positivity)
  rw [mul_pow, Complex.sq_norm, Complex.sq_norm, normSq_apply, normSq_apply]
  have e1 := mul_self_le_mul_self (abs_nonneg _) h1
  have e2 := mul_self_le_mul_self (abs_nonneg _) h2
  rw [abs_mul_abs_self] at e1 e2
  have f1 := abs_mul_abs_self w.re
  have f2 := abs_mul_abs_self w.im
  nlinarith

theorem norm_le_of_both {z : ℂ} {s : ℝ} (h1 : |z.re| ≤ s) (h2 : |z.im| ≤ s) : ‖z‖ ≤ 1.42 * s := by
  have hs : 0 ≤ s := le_trans (abs_nonneg _) h1
  apply le_of_sq_le_sq _ (by positivity)
  rw [Complex.sq_norm, normSq_apply]
  have e1 := mul_self_le_mul_self (abs_nonneg _) h1
  have e2 := mul_self_le_mul_self (abs_nonneg _) h2
  rw [abs_mul_abs_self] at e1 e2
  nlinarith

section
variable {F : Type} {o : FloatOps F} (M : Ieee o)

/-- Value of a pair. -/
def Ieee.c (x : Cx F) : ℂ := ⟨M.val x.re, M.val x.im⟩
/-- Both parts are finite. -/
def Ieee.finC (x : Cx F) : Prop := M.fin x.re ∧ M.fin x.im

theorem cadd_ok {x y : Cx F} (hx : M.finC x) (hy : M.finC y) (hb : ‖M.c x + M.c y‖ ≤ big) :
    M.finC (Cx.add o x y) ∧ ‖M.c (Cx.add o x y) - (M.c x + M.c y)‖ ≤ uro * ‖M.c x + M.c y‖ := by
  have h1 := M.add_ok x.re y.re hx.1 hy.1 (le_trans (abs_re_le_norm (M.c x + M.c y)) hb)
  have h2 := M.add_ok x.im y.im hx.2 hy.2 (le_trans (abs_im_le_norm (M.c x + M.c y)) hb)
  exact ⟨⟨h1.1, h2.1⟩, norm_le_of_comp uro_pos.le h1.2 h2.2⟩

theorem csub_ok {x y : Cx F} (hx : M.finC x) (hy : M.finC y) (hb : ‖M.c x - M.c y‖ ≤ big) :
    M.finC (Cx.sub o x y) ∧ ‖M.c (Cx.sub o x y) - (M.c x - M.c y)‖ ≤ uro * ‖M.c x - M.c y‖ := by
  have h1 := M.sub_ok x.re y.re hx.1 hy.1 (le_trans (abs_re_le_norm (M.c x - M.c y)) hb)
  have h2 := M.sub_ok x.im y.im hx.2 hy.2 (le_trans (abs_im_le_norm (M.c x - M.c y)) hb)
  exact ⟨⟨h1.1, h2.1⟩, norm_le_of_comp uro_pos.le h1.2 h2.2⟩

theorem cconj_ok {x : Cx F} (hx : M.finC x) :
    M.finC (Cx.conj o x) ∧ M.c (Cx.conj o x) = (starRingEnd ℂ) (M.c x) := by
  have h := M.neg_ok x.im hx.2
  exact ⟨⟨hx.1, h.1⟩, Complex.ext rfl h.2⟩

/-- `|ac| + |bd|` is at most the product of the norms. -/
theorem cross_le (z w : ℂ) : |z.re * w.re| + |z.im * w.im| ≤ ‖z‖ * ‖w‖ ∧ |z.re * w.im| + |z.im * w.re| ≤ ‖z‖ * ‖w‖ := by
  have hz := Complex.sq_norm z
  have hw := Complex.sq_norm w
  rw [normSq_apply] at hz hw
  have key : ∀ a b c d : ℝ, 0 ≤ a → 0 ≤ b → 0 ≤ c → 0 ≤ d → a * a + b * b = ‖z‖ ^ 2 → c * c + d * d = ‖w‖ ^ 2 →
      a * c + b * d ≤ ‖z‖ * ‖w‖ := by
    intro a b c d ha hb hc hd h1 h2
    apply le_of_sq_le_sq _ (by positivity)
    rw [mul_pow, ← h1, ← h2]
    nlinarith [sq_nonneg (a * d - b * c)]
  have a1 := abs_mul_abs_self z.re
  have a2 := abs_mul_abs_self z.im
  have a3 := abs_mul_abs_self w.re
  have a4 := abs_mul_abs_self w.im
  constructor
  · rw [abs_mul, abs_mul]
    exact key _ _ _ _ (abs_nonneg _) (abs_nonneg _) (abs_nonneg _) (abs_nonneg _) (by rw [a1, a2, hz]) (by rw [a3, a4, hw])
  · rw [abs_mul, abs_mul]
    exact key _ _ _ _ (abs_nonneg _) (abs_nonneg _) (abs_nonneg _) (abs_nonneg _) (by rw [a1, a2, hz]) (by rw [a3, a4, hw]; ring)

/-- Error of a sum or difference `r` of two rounded products. -/
theorem prod2_err {p q r s t R : ℝ} (hp : |p - s| ≤ uro * |s| + eta) (hq : |q - t| ≤ uro * |t| + eta)
    (hr : |r - (p + q)| ≤ uro * |p + q|) (hR : |s| + |t| ≤ R) : |r - (s + t)| ≤ (2 + 1 / 10 ^ 10) * uro * R + 2.1 * eta := by
  have hu := uro_pos
  have hu' := uro_le
  have he := eta_pos
  have h1 : |p + q| ≤ |s| + |t| + (uro * |s| + eta) + (uro * |t| + eta) := by
    have : p + q = s + t + ((p - s) + (q - t)) := by ring
    rw [this]
    have a1 := abs_add_le (s + t) ((p - s) + (q - t))
    have a2 := abs_add_le s t
    have a3 := abs_add_le (p - s) (q - t)
    linarith
  have h2 : |r - (s + t)| ≤ |r - (p + q)| + |p - s| + |q - t| := by
    have : r - (s + t) = (r - (p + q)) + ((p - s) + (q - t)) := by ring
    rw [this]
    have a1 := abs_add_le (r - (p + q)) ((p - s) + (q - t))
    have a3 := abs_add_le (p - s) (q - t)
    linarith
  have hR0 : 0 ≤ R := le_trans (by positivity) hR
  have h3 : uro * (|s| + |t|) ≤ uro * R := mul_le_mul_of_nonneg_left hR hu.le
  have h4 : uro * |p + q| ≤ uro * (|s| + |t| + (uro * |s| + eta) + (uro * |t| + eta)) := mul_le_mul_of_nonneg_left h1 hu.le
  have h5 : uro * (uro * (|s| + |t|)) ≤ 1 / 10 ^ 15 * (uro * R) :=
    mul_le_mul hu' h3 (by positivity) (by norm_num)
  have h6 : uro * eta ≤ 1 / 10 ^ 15 * eta := mul_le_mul_of_nonneg_right hu' he.le
  have h7 : 0 ≤ uro * R := by positivity
  nlinarith

/-- The same if the first product is not rounded. -/
theorem prod1_err {q r s t R : ℝ} (hq : |q - t| ≤ uro * |t| + eta)
    (hr : |r - (s + q)| ≤ uro * |s + q| + eta) (hR : |s| + |t| ≤ R) : |r - (s + t)| ≤ (2 + 1 / 10 ^ 10) * uro * R + 2.1 * eta := by
  have hu := uro_pos
  have hu' := uro_le
  have he := eta_pos
  have h1 : |s + q| ≤ |s| + |t| + (uro * |t| + eta) := by
    have : s + q = s + t + (q - t) := by ring
    rw [this]
    have a1 := abs_add_le (s + t) (q - t)
    have a2 := abs_add_le s t
    linarith
  have h2 : |r - (s + t)| ≤ |r - (s + q)| + |q - t| := by
    have : r - (s + t) = (r - (s + q)) + (q - t) := by ring
    rw [this]
    exact abs_add_le _ _
  have hs := abs_nonneg s
  have hR0 : 0 ≤ R := le_trans (by positivity) hR
  have h3 : uro * (|s| + |t|) ≤ uro * R := mul_le_mul_of_nonneg_left hR hu.le
  have h4 : uro * |s + q| ≤ uro * (|s| + |t| + (uro * |t| + eta)) := mul_le_mul_of_nonneg_left h1 hu.le
  have h5 : uro * (uro * (|s| + |t|)) ≤ 1 / 10 ^ 15 * (uro * R) :=
    mul_le_mul hu' h3 (by positivity) (by norm_num)
  have h6 : uro * eta ≤ 1 / 10 ^ 15 * eta := mul_le_mul_of_nonneg_right hu' he.le
  have h7 : 0 ≤ uro * R := by positivity
  have h8 : 0 ≤ uro * |s| := by positivity
  have h9 : 0 ≤ uro * (uro * |s|) := by positivity
  nlinarith

/-- A rounded product is at most about twice the product. -/
theorem rounded_le {p s : ℝ} (h : |p - s| ≤ uro * |s| + eta) : |p| ≤ 2 * |s| + eta := by
  have a1 := abs_add_le s (p - s)
  rw [show s + (p - s) = p by ring] at a1
  have : uro * |s| ≤ 1 * |s| := mul_le_mul_of_nonneg_right (by linarith [uro_le]) (abs_nonneg _)
  linarith

theorem eta_le_quarter : eta ≤ 1 / 4 := by
  have h1 := eta_le
  have h2 := uro_le
  have : uro / 10 ^ 15 ≤ 1 / 4 := by
    rw [div_le_iff₀ (by norm_num)]; linarith
  linarith

/-- A difference of products, however it is evaluated. -/
theorem mulSub_err {x y z w : F} (hx : M.fin x) (hy : M.fin y) (hz : M.fin z) (hw : M.fin w) {R : ℝ}
    (hR : |M.val x * M.val y| + |M.val z * M.val w| ≤ R) (hb : R ≤ big / 4) :
    M.fin (o.mulSub x y z w) ∧
      |M.val (o.mulSub x y z w) - (M.val x * M.val y - M.val z * M.val w)| ≤ (2 + 1 / 10 ^ 10) * uro * R + 2.1 * eta := by
  have hbig : 1 ≤ big := by unfold big; norm_num
  have n1 := abs_nonneg (M.val x * M.val y)
  have n2 := abs_nonneg (M.val z * M.val w)
  have he := eta_le_quarter
  obtain ⟨f1, e1⟩ := M.mul_ok x y hx hy (by linarith)
  obtain ⟨f2, e2⟩ := M.mul_ok z w hz hw (by linarith)
  have b1 := rounded_le e1
  have b2 := rounded_le e2
  have e2' : |-M.val (o.mul z w) - -(M.val z * M.val w)| ≤ uro * |-(M.val z * M.val w)| + eta := by
    rw [abs_neg, neg_sub_neg, abs_sub_comm]; exact e2
  rcases M.mulSub_ok x y z w hx hy hz hw (by linarith) (by linarith) with h | h | h
  · rw [h]
    have r1 := M.sub_ok _ _ f1 f2 (by have := abs_sub (M.val (o.mul x y)) (M.val (o.mul z w)); linarith)
    refine ⟨r1.1, ?_⟩
    have := prod2_err e1 e2' (r := M.val (o.sub (o.mul x y) (o.mul z w))) (by simpa [sub_eq_add_neg] using r1.2) (R := R)
      (by rw [abs_neg]; exact hR)
    simpa [sub_eq_add_neg] using this
  · have r1 := h (by have := abs_sub (M.val x * M.val y) (M.val (o.mul z w)); linarith)
    refine ⟨r1.1, ?_⟩
    have := prod1_err e2' (r := M.val (o.mulSub x y z w)) (s := M.val x * M.val y) (by simpa [sub_eq_add_neg] using r1.2) (R := R)
      (by rw [abs_neg]; exact hR)
    simpa [sub_eq_add_neg] using this
  · have r1 := h (by have := abs_sub (M.val (o.mul x y)) (M.val z * M.val w); linarith)
    refine ⟨r1.1, ?_⟩
    have := prod1_err e1 (r := M.val (o.mulSub x y z w)) (s := -(M.val z * M.val w))
      (by rw [neg_add_eq_sub]; exact r1.2) (R := R) (by rw [abs_neg, add_comm]; exact hR)
    rwa [neg_add_eq_sub] at this

/-- A sum of products, however it is evaluated. -/
theorem mulAdd_err {x y z w : F} (hx : M.fin x) (hy : M.fin y) (hz : M.fin z) (hw : M.fin w) {R : ℝ}
    (hR : |M.val x * M.val y| + |M.val z * M.val w| ≤ R) (hb : R ≤ big / 4) :
    M.fin (o.mulAdd x y z w) ∧
      |M.val (o.mulAdd x y z w) - (M.val x * M.val y + M.val z * M.val w)| ≤ (2 + 1 / 10 ^ 10) * uro * R + 2.1 * eta := by
  have hbig : 1 ≤ big := by unfold big; norm_num
  have n1 := abs_nonneg (M.val x * M.val y)
  have n2 := abs_nonneg (M.val z * M.val w)
  have he := eta_le_quarter
  obtain ⟨f1, e1⟩ := M.mul_ok x y hx hy (by linarith)
  obtain ⟨f2, e2⟩ := M.mul_ok z w hz hw (by linarith)
  have b1 := rounded_le e1
  have b2 := rounded_le e2
  rcases M.mulAdd_ok x y z w hx hy hz hw (by linarith) (by linarith) with h | h | h
  · rw [h]
    have r1 := M.add_ok _ _ f1 f2 (by have := abs_add_le (M.val (o.mul x y)) (M.val (o.mul z w)); linarith)
    exact ⟨r1.1, prod2_err e1 e2 r1.2 hR⟩
  · have r1 := h (by have := abs_add_le (M.val x * M.val y) (M.val (o.mul z w)); linarith)
    exact ⟨r1.1, prod1_err e2 r1.2 hR⟩
  · have r1 := h (by have := abs_add_le (M.val (o.mul x y)) (M.val z * M.val w); linarith)
    refine ⟨r1.1, ?_⟩
    have := prod1_err e1 (r := M.val (o.mulAdd x y z w)) (s := M.val z * M.val w) (by rw [add_comm (M.val z * _)]; exact r1.2) (R := R)
      (by rw [add_comm]; exact hR)
    rwa [add_comm (M.val z * _)] at this

theorem cmul_ok {x y : Cx F} (hx : M.finC x) (hy : M.finC y) (hb : ‖M.c x‖ * ‖M.c y‖ ≤ big / 4) :
    M.finC (Cx.mul o x y) ∧ ‖M.c (Cx.mul o x y) - M.c x * M.c y‖ ≤ 3 * uro * (‖M.c x‖ * ‖M.c y‖) + 3 * eta := by
  obtain ⟨hc1, hc2⟩ := cross_le (M.c x) (M.c y)
  have hu := uro_pos
  have he := eta_pos
  obtain ⟨r1, e1⟩ := mulSub_err M hx.1 hy.1 hx.2 hy.2 hc1 hb
  obtain ⟨r2, e2⟩ := mulAdd_err M hx.1 hy.2 hx.2 hy.1 hc2 hb
  refine ⟨⟨r1, r2⟩, ?_⟩
  have e := norm_le_of_both (z := M.c (Cx.mul o x y) - M.c x * M.c y) (s := (2 + 1 / 10 ^ 10) * uro * (‖M.c x‖ * ‖M.c y‖) + 2.1 * eta)
    (by rw [sub_re, mul_re]; exact e1) (by rw [sub_im, mul_im]; exact e2)
  have hR : 0 ≤ uro * (‖M.c x‖ * ‖M.c y‖) := by positivity
  nlinarith

end
end BN
