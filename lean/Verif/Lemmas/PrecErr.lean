import Verif.SpecFormat
import Verif.Lemmas.FftNum
import Verif.Lemmas.FftErr5
/-
Rounding errors of the transforms in any floating-point format: the steps of FloatErr and FftErr to FftErr5 with the constants of
`double` replaced by those of the format.
-/
namespace BN.FP
open Complex Finset BN

/-- A format with room for transforms of up to 2^K entries: entries up to `4 * A` can be combined, and products of packed numbers of
size up to `B` can be transformed back. -/
structure Prec extends Format where
  K : ℕ
  A : ℝ
  B : ℝ
  u_pos : 0 < u
  u_le : u ≤ 6 / 10 ^ 8
  eta_pos : 0 < eta
  eta_le : eta ≤ u / 10 ^ 15
  big_ge : 1024 * A ^ 2 ≤ big
  A_ge : 2 ^ 30 ≤ A
  B_pos : 0 < B
  B_le : 2 ^ K * (B ^ 2 + 2 ^ K) ≤ A ^ 2
  K_le : K ≤ 40
  K_N : 2 ^ K ≤ N
  N_le : (N : ℝ) ≤ A

theorem Prec.A_one (φ : Prec) : 1 ≤ φ.A := by have := φ.A_ge; linarith
theorem Prec.A_sq (φ : Prec) : φ.A ≤ φ.A ^ 2 := by have := φ.A_one; nlinarith
theorem Prec.A_sq' (φ : Prec) : 2 ^ 60 ≤ φ.A ^ 2 := by have := φ.A_ge; nlinarith

section
variable {φ : Prec} {F : Type} {o : FloatOps F} (M : Laws φ.toFormat o)

theorem cadd_ok {x y : Cx F} (hx : M.finC x) (hy : M.finC y) (hb : ‖M.c x + M.c y‖ ≤ φ.big) :
    M.finC (Cx.add o x y) ∧ ‖M.c (Cx.add o x y) - (M.c x + M.c y)‖ ≤ φ.u * ‖M.c x + M.c y‖ := by
  have h1 := M.add_ok x.re y.re hx.1 hy.1 (le_trans (abs_re_le_norm (M.c x + M.c y)) hb)
  have h2 := M.add_ok x.im y.im hx.2 hy.2 (le_trans (abs_im_le_norm (M.c x + M.c y)) hb)
  exact ⟨⟨h1.1, h2.1⟩, norm_le_of_comp φ.u_pos.le h1.2 h2.2⟩

theorem csub_ok {x y : Cx F} (hx : M.finC x) (hy : M.finC y) (hb : ‖M.c x - M.c y‖ ≤ φ.big) :
    M.finC (Cx.sub o x y) ∧ ‖M.c (Cx.sub o x y) - (M.c x - M.c y)‖ ≤ φ.u * ‖M.c x - M.c y‖ := by
  have h1 := M.sub_ok x.re y.re hx.1 hy.1 (le_trans (abs_re_le_norm (M.c x - M.c y)) hb)
  have h2 := M.sub_ok x.im y.im hx.2 hy.2 (le_trans (abs_im_le_norm (M.c x - M.c y)) hb)
  exact ⟨⟨h1.1, h2.1⟩, norm_le_of_comp φ.u_pos.le h1.2 h2.2⟩

theorem cconj_ok {x : Cx F} (hx : M.finC x) :
    M.finC (Cx.conj o x) ∧ M.c (Cx.conj o x) = (starRingEnd ℂ) (M.c x) := by
  have h := M.neg_ok x.im hx.2
  exact ⟨⟨hx.1, h.1⟩, Complex.ext rfl h.2⟩

/-- Error of a sum or difference `r` of two rounded products. -/
theorem prod2_err {p q r s t R : ℝ} (hp : |p - s| ≤ φ.u * |s| + φ.eta) (hq : |q - t| ≤ φ.u * |t| + φ.eta)
    (hr : |r - (p + q)| ≤ φ.u * |p + q|) (hR : |s| + |t| ≤ R) : |r - (s + t)| ≤ (2 + 1 / 10 ^ 6) * φ.u * R + 2.1 * φ.eta := by
  have hu := φ.u_pos
  have hu' := φ.u_le
  have he := φ.eta_pos
  have h1 : |p + q| ≤ |s| + |t| + (φ.u * |s| + φ.eta) + (φ.u * |t| + φ.eta) := by
    have : p + q = s + t + ((p - s) + (q - t)) := by ring
    rw [this]
    have a1 := abs_add_le (s + t) ((p - s) + (q - t))
    have a2 := abs_add_le s t
    have a3 := abs_add_le (p - s) (q - t)
    linarith
  have h2 : |r - (s + t)| ≤ |r - (p + q)| + |p - s| + |q - t| := by
    have : r - (s + t) = (r - (p + q)) + ((p - s) + (q - t)) := by ring
    rw [this]
    have a1 := abs_add_le (r - (p + q)) ((p - s) + (q - t))
    have a3 := abs_add_le (p - s) (q - t)
    linarith
  have hR0 : 0 ≤ R := le_trans (by positivity) hR
  have h3 : φ.u * (|s| + |t|) ≤ φ.u * R := mul_le_mul_of_nonneg_left hR hu.le
  have h4 : φ.u * |p + q| ≤ φ.u * (|s| + |t| + (φ.u * |s| + φ.eta) + (φ.u * |t| + φ.eta)) := mul_le_mul_of_nonneg_left h1 hu.le
  have h5 : φ.u * (φ.u * (|s| + |t|)) ≤ 6 / 10 ^ 8 * (φ.u * R) :=
    mul_le_mul hu' h3 (by positivity) (by norm_num)
  have h6 : φ.u * φ.eta ≤ 6 / 10 ^ 8 * φ.eta := mul_le_mul_of_nonneg_right hu' he.le
  have h7 : 0 ≤ φ.u * R := by positivity
  nlinarith

/-- The same if the first product is not rounded. -/
theorem prod1_err {q r s t R : ℝ} (hq : |q - t| ≤ φ.u * |t| + φ.eta)
    (hr : |r - (s + q)| ≤ φ.u * |s + q| + φ.eta) (hR : |s| + |t| ≤ R) : |r - (s + t)| ≤ (2 + 1 / 10 ^ 6) * φ.u * R + 2.1 * φ.eta := by
  have hu := φ.u_pos
  have hu' := φ.u_le
  have he := φ.eta_pos
  have h1 : |s + q| ≤ |s| + |t| + (φ.u * |t| + φ.eta) := by
    have : s + q = s + t + (q - t) := by ring
    rw [this]
    have a1 := abs_add_le (s + t) (q - t)
    have a2 := abs_add_le s t
    linarith
  have h2 : |r - (s + t)| ≤ |r - (s + q)| + |q - t| := by
    have : r - (s + t) = (r - (s + q)) + (q - t) := by ring
    rw [this]
    exact abs_add_le _ _
  have hs := abs_nonneg s
  have hR0 : 0 ≤ R := le_trans (by positivity) hR
  have h3 : φ.u * (|s| + |t|) ≤ φ.u * R := mul_le_mul_of_nonneg_left hR hu.le
  have h4 : φ.u * |s + q| ≤ φ.u * (|s| + |t| + (φ.u * |t| + φ.eta)) := mul_le_mul_of_nonneg_left h1 hu.le
  have h5 : φ.u * (φ.u * (|s| + |t|)) ≤ 6 / 10 ^ 8 * (φ.u * R) :=
    mul_le_mul hu' h3 (by positivity) (by norm_num)
  have h6 : φ.u * φ.eta ≤ 6 / 10 ^ 8 * φ.eta := mul_le_mul_of_nonneg_right hu' he.le
  have h7 : 0 ≤ φ.u * R := by positivity
  have h8 : 0 ≤ φ.u * |s| := by positivity
  have h9 : 0 ≤ φ.u * (φ.u * |s|) := by positivity
  nlinarith

/-- A rounded product is at most about twice the product. -/
theorem rounded_le {p s : ℝ} (h : |p - s| ≤ φ.u * |s| + φ.eta) : |p| ≤ 2 * |s| + φ.eta := by
  have a1 := abs_add_le s (p - s)
  rw [show s + (p - s) = p by ring] at a1
  have : φ.u * |s| ≤ 1 * |s| := mul_le_mul_of_nonneg_right (by linarith [φ.u_le]) (abs_nonneg _)
  linarith

theorem _root_.BN.FP.Prec.eta_le_quarter (φ : Prec) : φ.eta ≤ 1 / 4 := by
  have h1 := φ.eta_le
  have h2 := φ.u_le
  have : φ.u / 10 ^ 15 ≤ 1 / 4 := by
    rw [div_le_iff₀ (by norm_num)]; linarith
  linarith

/-- A difference of products, however it is evaluated. -/
theorem mulSub_err {x y z w : F} (hx : M.fin x) (hy : M.fin y) (hz : M.fin z) (hw : M.fin w) {R : ℝ}
    (hR : |M.val x * M.val y| + |M.val z * M.val w| ≤ R) (hb : R ≤ φ.big / 4) :
    M.fin (o.mulSub x y z w) ∧
      |M.val (o.mulSub x y z w) - (M.val x * M.val y - M.val z * M.val w)| ≤ (2 + 1 / 10 ^ 6) * φ.u * R + 2.1 * φ.eta := by
  have hbig : 1 ≤ φ.big := by have := φ.A_sq'; have := φ.big_ge; linarith
  have n1 := abs_nonneg (M.val x * M.val y)
  have n2 := abs_nonneg (M.val z * M.val w)
  have he := φ.eta_le_quarter
  obtain ⟨f1, e1⟩ := M.mul_ok x y hx hy (by linarith)
  obtain ⟨f2, e2⟩ := M.mul_ok z w hz hw (by linarith)
  have b1 := rounded_le e1
  have b2 := rounded_le e2
  have e2' : |-M.val (o.mul z w) - -(M.val z * M.val w)| ≤ φ.u * |-(M.val z * M.val w)| + φ.eta := by
    rw [abs_neg, neg_sub_neg, abs_sub_comm]; exact e2
  rcases M.mulSub_ok x y z w hx hy hz hw (by linarith) (by linarith) with h | h | h
  · rw [h]
    have r1 := M.sub_ok _ _ f1 f2 (by have := abs_sub (M.val (o.mul x y)) (M.val (o.mul z w)); linarith)
    refine ⟨r1.1, ?_⟩
    have := prod2_err e1 e2' (r := M.val (o.sub (o.mul x y) (o.mul z w))) (by simpa [sub_eq_add_neg] using r1.2) (R := R)
      (by rw [abs_neg]; exact hR)
    simpa [sub_eq_add_neg] using this
  · have r1 := h (by have := abs_sub (M.val x * M.val y) (M.val (o.mul z w)); linarith)
    refine ⟨r1.1, ?_⟩
    have := prod1_err e2' (r := M.val (o.mulSub x y z w)) (s := M.val x * M.val y) (by simpa [sub_eq_add_neg] using r1.2) (R := R)
      (by rw [abs_neg]; exact hR)
    simpa [sub_eq_add_neg] using this
  · have r1 := h (by have := abs_sub (M.val (o.mul x y)) (M.val z * M.val w); linarith)
    refine ⟨r1.1, ?_⟩
    have := prod1_err e1 (r := M.val (o.mulSub x y z w)) (s := -(M.val z * M.val w))
      (by rw [neg_add_eq_sub]; exact r1.2) (R := R) (by rw [abs_neg, add_comm]; exact hR)
    rwa [neg_add_eq_sub] at this

/-- A sum of products, however it is evaluated. -/
theorem mulAdd_err {x y z w : F} (hx : M.fin x) (hy : M.fin y) (hz : M.fin z) (hw : M.fin w) {R : ℝ}
    (hR : |M.val x * M.val y| + |M.val z * M.val w| ≤ R) (hb : R ≤ φ.big / 4) :
    M.fin (o.mulAdd x y z w) ∧
      |M.val (o.mulAdd x y z w) - (M.val x * M.val y + M.val z * M.val w)| ≤ (2 + 1 / 10 ^ 6) * φ.u * R + 2.1 * φ.eta := by
  have hbig : 1 ≤ φ.big := by have := φ.A_sq'; have := φ.big_ge; linarith
  have n1 := abs_nonneg (M.val x * M.val y)
  have n2 := abs_nonneg (M.val z * M.val w)
  have he := φ.eta_le_quarter
  obtain ⟨f1, e1⟩ := M.mul_ok x y hx hy (by linarith)
  obtain ⟨f2, e2⟩ := M.mul_ok z w hz hw (by linarith)
  have b1 := rounded_le e1
  have b2 := rounded_le e2
  rcases M.mulAdd_ok x y z w hx hy hz hw (by linarith) (by linarith) with h | h | h
  · rw [h]
    have r1 := M.add_ok _ _ f1 f2 (by have := abs_add_le (M.val (o.mul x y)) (M.val (o.mul z w)); linarith)
    exact ⟨r1.1, prod2_err e1 e2 r1.2 hR⟩
  · have r1 := h (by have := abs_add_le (M.val x * M.val y) (M.val (o.mul z w)); linarith)
    exact ⟨r1.1, prod1_err e2 r1.2 hR⟩
  · have r1 := h (by have := abs_add_le (M.val (o.mul x y)) (M.val z * M.val w); linarith)
    refine ⟨r1.1, ?_⟩
    have := prod1_err e1 (r := M.val (o.mulAdd x y z w)) (s := M.val z * M.val w) (by rw [add_comm (M.val z * _)]; exact r1.2) (R := R)
      (by rw [add_comm]; exact hR)
    rwa [add_comm (M.val z * _)] at this

theorem cmul_ok {x y : Cx F} (hx : M.finC x) (hy : M.finC y) (hb : ‖M.c x‖ * ‖M.c y‖ ≤ φ.big / 4) :
    M.finC (Cx.mul o x y) ∧ ‖M.c (Cx.mul o x y) - M.c x * M.c y‖ ≤ 3 * φ.u * (‖M.c x‖ * ‖M.c y‖) + 3 * φ.eta := by
  obtain ⟨hc1, hc2⟩ := cross_le (M.c x) (M.c y)
  have hu := φ.u_pos
  have he := φ.eta_pos
  obtain ⟨r1, e1⟩ := mulSub_err M hx.1 hy.1 hx.2 hy.2 hc1 hb
  obtain ⟨r2, e2⟩ := mulAdd_err M hx.1 hy.2 hx.2 hy.1 hc2 hb
  refine ⟨⟨r1, r2⟩, ?_⟩
  have e := norm_le_of_both (z := M.c (Cx.mul o x y) - M.c x * M.c y) (s := (2 + 1 / 10 ^ 6) * φ.u * (‖M.c x‖ * ‖M.c y‖) + 2.1 * φ.eta)
    (by rw [sub_re, mul_re]; exact e1) (by rw [sub_im, mul_im]; exact e2)
  have hR : 0 ≤ φ.u * (‖M.c x‖ * ‖M.c y‖) := by positivity
  nlinarith

end
section
variable {φ : Prec} {F : Type} {o : FloatOps F} (M : Laws φ.toFormat o)

/-- The argument of the twiddle factor. -/
theorem arg_ok {k j : ℕ} (hk : k ≤ φ.K) (hj : 2 * j ≤ 2 ^ k) :
    let w := o.div (o.mul (o.mul o.negTwo (o.ofNat j)) o.pi) (o.ofNat (2 ^ k))
    M.fin w ∧ |M.val w - (-2 * j * Real.pi / (2 ^ k : ℕ))| ≤ 12 * φ.u ∧ |M.val w| ≤ 4 := by
  have hu := φ.u_pos
  have hu' := φ.u_le
  have he := φ.eta_pos
  have he' := φ.eta_le
  have hpi1 := Real.pi_lt_d2
  have hpi2 := Real.pi_gt_d2
  have hN53 : (2 : ℕ) ^ k ≤ 2 ^ 40 := Nat.pow_le_pow_right (by omega) (le_trans hk φ.K_le)
  have h53 : (2 : ℕ) ^ k ≤ φ.N := le_trans (Nat.pow_le_pow_right (by omega) hk) φ.K_N
  obtain ⟨fn, vn⟩ := M.ofNat_ok (2 ^ k) (by omega)
  obtain ⟨fj, vj⟩ := M.ofNat_ok j (by omega)
  obtain ⟨ft, vt⟩ := M.negTwo_ok
  obtain ⟨fp, vp⟩ := M.pi_ok
  set N : ℝ := ((2 ^ k : ℕ) : ℝ) with hN
  have hN1 : 1 ≤ N := by rw [hN]; exact_mod_cast Nat.one_le_two_pow
  have hN2 : N ≤ 2 ^ 40 := by rw [hN]; exact_mod_cast hN53
  have hjN : 2 * (j : ℝ) ≤ N := by rw [hN]; exact_mod_cast hj
  have hj0 : (0 : ℝ) ≤ j := Nat.cast_nonneg _
  have hbig := φ.big_ge
  have hA := φ.A_sq'
  have hbN : N * 1000 ≤ φ.big := by nlinarith
  -- first product
  have a1 : |M.val o.negTwo * M.val (o.ofNat j)| = 2 * j := by
    rw [vt, vj, abs_mul, abs_of_nonneg hj0]; norm_num
  obtain ⟨f1, e1⟩ := M.mul_ok _ _ ft fj (by rw [a1]; nlinarith)
  rw [a1, vt, vj] at e1
  set p1 := M.val (o.mul o.negTwo (o.ofNat j))
  have hN0 : 0 < N := by linarith
  have hq0 : 0 ≤ φ.u * N + φ.eta := add_nonneg (mul_nonneg hu.le hN0.le) he.le
  have e1' : |p1 - -2 * j| ≤ φ.u * N + φ.eta := le_trans e1 (by nlinarith)
  -- second product
  have hpiB : |M.val o.pi| ≤ 3.151 := by rw [abs_le] at vp ⊢; constructor <;> linarith [vp.1, vp.2]
  have e2 := mul_err e1' vp
  have a2j : |-2 * (j : ℝ)| ≤ N := by rw [abs_mul, abs_of_nonneg hj0]; norm_num; exact hjN
  have e2' : |p1 * M.val o.pi - -2 * j * Real.pi| ≤ 5.151 * (φ.u * N) + 3.151 * φ.eta := by
    refine le_trans e2 ?_
    have t1 : (φ.u * N + φ.eta) * |M.val o.pi| ≤ (φ.u * N + φ.eta) * 3.151 := mul_le_mul_of_nonneg_left hpiB hq0
    have t2 : |-2 * (j : ℝ)| * (2 * φ.u) ≤ N * (2 * φ.u) := mul_le_mul_of_nonneg_right a2j (by linarith)
    linarith
  have huN : φ.u * N ≤ 6 / 10 ^ 8 * N := by
    have := mul_le_mul_of_nonneg_right hu' (le_trans zero_le_one hN1)
    linarith
  have hetaN : φ.eta ≤ φ.u * N / 10 ^ 15 := by
    refine le_trans he' ?_
    apply div_le_div_of_nonneg_right _ (by norm_num)
    nlinarith
  have aX : |-2 * (j : ℝ) * Real.pi| ≤ 3.15 * N := by
    rw [abs_mul, abs_of_pos Real.pi_pos]
    nlinarith [abs_nonneg (-2 * (j : ℝ)), mul_le_mul a2j hpi1.le Real.pi_pos.le (by linarith)]
  have a2 : |p1 * M.val o.pi| ≤ 3.1501 * N := by
    have := abs_add_le (-2 * (j : ℝ) * Real.pi) (p1 * M.val o.pi - -2 * j * Real.pi)
    rw [add_sub_cancel] at this
    linarith
  obtain ⟨f2, e3⟩ := M.mul_ok _ _ f1 fp (by change |p1 * M.val o.pi| ≤ φ.big; linarith)
  set p2 := M.val (o.mul (o.mul o.negTwo (o.ofNat j)) o.pi)
  change |p2 - p1 * M.val o.pi| ≤ φ.u * |p1 * M.val o.pi| + φ.eta at e3
  have e4 : |p2 - -2 * j * Real.pi| ≤ 8.31 * (φ.u * N) := by
    have := abs_add_le (p2 - p1 * M.val o.pi) (p1 * M.val o.pi - -2 * j * Real.pi)
    rw [sub_add_sub_cancel] at this
    have t : φ.u * |p1 * M.val o.pi| ≤ φ.u * (3.1501 * N) := mul_le_mul_of_nonneg_left a2 hu.le
    have : 0 ≤ φ.u * N := mul_nonneg hu.le hN0.le
    linarith
  -- quotient
  have e5 : |p2 / N - -2 * j * Real.pi / N| ≤ 8.31 * φ.u := by
    rw [← sub_div, abs_div, abs_of_pos (by linarith : 0 < N), div_le_iff₀ (by linarith)]
    linarith
  have aY : |-2 * (j : ℝ) * Real.pi / N| ≤ 3.15 := by
    rw [abs_div, abs_of_pos (by linarith : 0 < N), div_le_iff₀ (by linarith)]; exact aX
  have a3 : |p2 / N| ≤ 3.1501 := by
    have := abs_add_le (-2 * (j : ℝ) * Real.pi / N) (p2 / N - -2 * j * Real.pi / N)
    rw [add_sub_cancel] at this
    linarith
  obtain ⟨f3, e6⟩ := M.div_ok _ _ f2 fn (by rw [vn]; exact hN0.ne') (by rw [vn]; change |p2 / N| ≤ φ.big; linarith)
  rw [vn] at e6
  change |_ - p2 / N| ≤ φ.u * |p2 / N| + φ.eta at e6
  have hfin : |M.val (o.div (o.mul (o.mul o.negTwo (o.ofNat j)) o.pi) (o.ofNat (2 ^ k))) - -2 * j * Real.pi / N| ≤ 12 * φ.u := by
    have := abs_add_le (M.val (o.div (o.mul (o.mul o.negTwo (o.ofNat j)) o.pi) (o.ofNat (2 ^ k))) - p2 / N) (p2 / N - -2 * j * Real.pi / N)
    rw [sub_add_sub_cancel] at this
    have t : φ.u * |p2 / N| ≤ φ.u * 3.1501 := mul_le_mul_of_nonneg_left a3 hu.le
    linarith
  refine ⟨f3, hfin, ?_⟩
  have := abs_add_le (-2 * (j : ℝ) * Real.pi / N) (M.val (o.div (o.mul (o.mul o.negTwo (o.ofNat j)) o.pi) (o.ofNat (2 ^ k))) - -2 * j * Real.pi / N)
  rw [add_sub_cancel] at this
  linarith

theorem twiddle_ok {k j : ℕ} (hk : k ≤ φ.K) (hj : 2 * j ≤ 2 ^ k) :
    M.finC (twiddle o (2 ^ k) j) ∧ ‖M.c (twiddle o (2 ^ k) j) - rt k ^ j‖ ≤ 23 * φ.u := by
  obtain ⟨h1, h2, h3⟩ := arg_ok M hk hj
  obtain ⟨c1, c2⟩ := M.cos_ok _ h1 h3
  obtain ⟨s1, s2⟩ := M.sin_ok _ h1 h3
  refine ⟨⟨c1, s1⟩, ?_⟩
  have hu := φ.u_pos
  rw [rt_pow_eq]
  have k1 := Real.abs_cos_sub_cos_le (M.val (o.div (o.mul (o.mul o.negTwo (o.ofNat j)) o.pi) (o.ofNat (2 ^ k)))) (-2 * j * Real.pi / (2 ^ k : ℕ))
  have k2 := Real.abs_sin_sub_sin_le (M.val (o.div (o.mul (o.mul o.negTwo (o.ofNat j)) o.pi) (o.ofNat (2 ^ k)))) (-2 * j * Real.pi / (2 ^ k : ℕ))
  refine le_trans (norm_le_of_both (s := 16 * φ.u) ?_ ?_) (by linarith)
  · rw [sub_re]
    change |M.val (o.cos _) - Real.cos _| ≤ _
    refine le_trans (abs_sub_le _ _ _) (le_trans (add_le_add c2 (le_trans k1 h2)) (by linarith))
  · rw [sub_im]
    change |M.val (o.sin _) - Real.sin _| ≤ _
    refine le_trans (abs_sub_le _ _ _) (le_trans (add_le_add s2 (le_trans k2 h2)) (by linarith))

end
end BN.FP
