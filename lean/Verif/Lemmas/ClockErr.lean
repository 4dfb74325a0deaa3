import Verif.SpecClock
import Verif.Lemmas.Clock
import Verif.Lemmas.PrecErr
/-
Rounding errors when the arithmetic changes with time: operations on complex numbers and twiddle factors.
-/
namespace BN.FP
open Complex Finset BN

/-- Value of a pair. -/
def cv {F : Type} (val : F → ℝ) (x : Cx F) : ℂ := ⟨val x.re, val x.im⟩
/-- Both parts are finite. -/
def fC {F : Type} (fin : F → Prop) (x : Cx F) : Prop := fin x.re ∧ fin x.im

section
variable {F : Type} {val : F → ℝ} {fin : F → Prop} {O : ℕ → FloatOps F} {β : Type} {Q : β → Prop} {f : FloatOps F → F} {g : F → Timed β}
  {v e : ℝ}

/-- An operation with a bounded error, and what follows. -/
theorem next_near (h : ∀ t, fin (f (O t)) ∧ |val (f (O t)) - v| ≤ e) (hg : ∀ a, fin a → |val a - v| ≤ e → Runs (g a) Q) :
    Runs (tick O f >>= g) Q :=
  runs_bind (P := fun a => fin a ∧ |val a - v| ≤ e) (runs_tick h) fun a ha => hg a ha.1 ha.2

/-- An exact operation, and what follows. -/
theorem next_exact (h : ∀ t, fin (f (O t)) ∧ val (f (O t)) = v) (hg : ∀ a, fin a → val a = v → Runs (g a) Q) :
    Runs (tick O f >>= g) Q :=
  runs_bind (P := fun a => fin a ∧ val a = v) (runs_tick h) fun a ha => hg a ha.1 ha.2

end

section
variable {φ : Prec} {F : Type} {val : F → ℝ} {fin : F → Prop} {O : ℕ → FloatOps F} (M : ∀ t, LawfulAt φ.toFormat val fin (O t))
include M

local notation "V" => cv val

theorem addT_ok {x y : Cx F} (hx : fC fin x) (hy : fC fin y) (hb : ‖V x + V y‖ ≤ φ.big) :
    Runs (Cx.addT O x y) fun r => fC fin r ∧ ‖V r - (V x + V y)‖ ≤ φ.u * ‖V x + V y‖ :=
  next_near (fun t => (M t).add_ok x.re y.re hx.1 hy.1 (le_trans (abs_re_le_norm (V x + V y)) hb)) fun _ f1 e1 =>
    next_near (fun t => (M t).add_ok x.im y.im hx.2 hy.2 (le_trans (abs_im_le_norm (V x + V y)) hb)) fun _ f2 e2 =>
      runs_pure ⟨⟨f1, f2⟩, norm_le_of_comp φ.u_pos.le e1 e2⟩

theorem subT_ok {x y : Cx F} (hx : fC fin x) (hy : fC fin y) (hb : ‖V x - V y‖ ≤ φ.big) :
    Runs (Cx.subT O x y) fun r => fC fin r ∧ ‖V r - (V x - V y)‖ ≤ φ.u * ‖V x - V y‖ :=
  next_near (fun t => (M t).sub_ok x.re y.re hx.1 hy.1 (le_trans (abs_re_le_norm (V x - V y)) hb)) fun _ f1 e1 =>
    next_near (fun t => (M t).sub_ok x.im y.im hx.2 hy.2 (le_trans (abs_im_le_norm (V x - V y)) hb)) fun _ f2 e2 =>
      runs_pure ⟨⟨f1, f2⟩, norm_le_of_comp φ.u_pos.le e1 e2⟩

theorem conjT_ok {x : Cx F} (hx : fC fin x) : Runs (Cx.conjT O x) fun r => fC fin r ∧ V r = (starRingEnd ℂ) (V x) :=
  next_exact (fun t => (M t).neg_ok x.im hx.2) fun _ f e => runs_pure ⟨⟨hx.1, f⟩, Complex.ext rfl e⟩

theorem mulSubT_err (t : ℕ) {x y z w : F} (hx : fin x) (hy : fin y) (hz : fin z) (hw : fin w) {R : ℝ}
    (hR : |val x * val y| + |val z * val w| ≤ R) (hb : R ≤ φ.big / 4) :
    fin ((O t).mulSub x y z w) ∧
      |val ((O t).mulSub x y z w) - (val x * val y - val z * val w)| ≤ (2 + 1 / 10 ^ 6) * φ.u * R + 2.1 * φ.eta := by
  have hbig : 1 ≤ φ.big := by have := φ.A_sq'; have := φ.big_ge; linarith
  have n1 := abs_nonneg (val x * val y)
  have n2 := abs_nonneg (val z * val w)
  have he := φ.eta_le_quarter
  obtain ⟨p, q, e1, e2, h⟩ := (M t).mulSub_ok x y z w hx hy hz hw (by linarith) (by linarith)
  have b1 := rounded_le e1
  have b2 := rounded_le e2
  have e2' : |-q - -(val z * val w)| ≤ φ.u * |-(val z * val w)| + φ.eta := by
    rw [abs_neg, neg_sub_neg, abs_sub_comm]; exact e2
  rcases h with h | h | h
  · have r1 := h (by have := abs_sub p q; linarith)
    refine ⟨r1.1, ?_⟩
    have := prod2_err e1 e2' (r := val ((O t).mulSub x y z w)) (by simpa [sub_eq_add_neg] using r1.2) (R := R)
      (by rw [abs_neg]; exact hR)
    simpa [sub_eq_add_neg] using this
  · have r1 := h (by have := abs_sub (val x * val y) q; linarith)
    refine ⟨r1.1, ?_⟩
    have := prod1_err e2' (r := val ((O t).mulSub x y z w)) (s := val x * val y) (by simpa [sub_eq_add_neg] using r1.2) (R := R)
      (by rw [abs_neg]; exact hR)
    simpa [sub_eq_add_neg] using this
  · have r1 := h (by have := abs_sub p (val z * val w); linarith)
    refine ⟨r1.1, ?_⟩
    have := prod1_err e1 (r := val ((O t).mulSub x y z w)) (s := -(val z * val w))
      (by rw [neg_add_eq_sub]; exact r1.2) (R := R) (by rw [abs_neg, add_comm]; exact hR)
    rwa [neg_add_eq_sub] at this

theorem mulAddT_err (t : ℕ) {x y z w : F} (hx : fin x) (hy : fin y) (hz : fin z) (hw : fin w) {R : ℝ}
    (hR : |val x * val y| + |val z * val w| ≤ R) (hb : R ≤ φ.big / 4) :
    fin ((O t).mulAdd x y z w) ∧
      |val ((O t).mulAdd x y z w) - (val x * val y + val z * val w)| ≤ (2 + 1 / 10 ^ 6) * φ.u * R + 2.1 * φ.eta := by
  have hbig : 1 ≤ φ.big := by have := φ.A_sq'; have := φ.big_ge; linarith
  have n1 := abs_nonneg (val x * val y)
  have n2 := abs_nonneg (val z * val w)
  have he := φ.eta_le_quarter
  obtain ⟨p, q, e1, e2, h⟩ := (M t).mulAdd_ok x y z w hx hy hz hw (by linarith) (by linarith)
  have b1 := rounded_le e1
  have b2 := rounded_le e2
  rcases h with h | h | h
  · have r1 := h (by have := abs_add_le p q; linarith)
    exact ⟨r1.1, prod2_err e1 e2 r1.2 hR⟩
  · have r1 := h (by have := abs_add_le (val x * val y) q; linarith)
    exact ⟨r1.1, prod1_err e2 r1.2 hR⟩
  · have r1 := h (by have := abs_add_le p (val z * val w); linarith)
    refine ⟨r1.1, ?_⟩
    have := prod1_err e1 (r := val ((O t).mulAdd x y z w)) (s := val z * val w) (by rw [add_comm (val z * _)]; exact r1.2) (R := R)
      (by rw [add_comm]; exact hR)
    rwa [add_comm (val z * _)] at this

theorem mulT_ok {x y : Cx F} (hx : fC fin x) (hy : fC fin y) (hb : ‖V x‖ * ‖V y‖ ≤ φ.big / 4) :
    Runs (Cx.mulT O x y) fun r => fC fin r ∧ ‖V r - V x * V y‖ ≤ 3 * φ.u * (‖V x‖ * ‖V y‖) + 3 * φ.eta := by
  obtain ⟨hc1, hc2⟩ := cross_le (V x) (V y)
  have hu := φ.u_pos
  have he := φ.eta_pos
  refine next_near (fun t => mulSubT_err M t hx.1 hy.1 hx.2 hy.2 hc1 hb) fun a f1 e1 => ?_
  refine next_near (fun t => mulAddT_err M t hx.1 hy.2 hx.2 hy.1 hc2 hb) fun b f2 e2 => ?_
  refine runs_pure ⟨⟨f1, f2⟩, ?_⟩
  have e := norm_le_of_both (z := V ⟨a, b⟩ - V x * V y) (s := (2 + 1 / 10 ^ 6) * φ.u * (‖V x‖ * ‖V y‖) + 2.1 * φ.eta)
    (by rw [sub_re, mul_re]; exact e1) (by rw [sub_im, mul_im]; exact e2)
  have hR : 0 ≤ φ.u * (‖V x‖ * ‖V y‖) := by positivity
  nlinarith

theorem divByT_ok {x : Cx F} (hx : fC fin x) {s : F} (hs : fin s) {N : ℝ} (hN : 1 ≤ N) (hv : val s = N) (hb : ‖V x‖ ≤ φ.big) :
    Runs (Cx.divByT O x s) fun r => fC fin r ∧ |val r.re - val x.re / N| ≤ φ.u * |val x.re / N| + φ.eta ∧
      ‖V r - V x / (N : ℂ)‖ ≤ φ.u * (2 * (‖V x‖ / N)) + 2 * φ.eta := by
  have hN0 : 0 < N := by linarith
  have h1 : ∀ y : F, |val y| ≤ ‖V x‖ → |val y / N| ≤ ‖V x‖ / N := by
    intro y hle
    rw [abs_div, abs_of_pos hN0]; exact div_le_div_of_nonneg_right hle hN0.le
  have h2 : ‖V x‖ / N ≤ φ.big := le_trans (div_le_self (norm_nonneg _) hN) hb
  have key : ∀ y : F, fin y → |val y| ≤ ‖V x‖ → ∀ t,
      fin ((O t).div y s) ∧ |val ((O t).div y s) - val y / N| ≤ φ.u * |val y / N| + φ.eta := by
    intro y hy hle t
    have h3 := h1 y hle
    have h := (M t).div_ok y s hy hs (by rw [hv]; exact hN0.ne') (by rw [hv]; linarith)
    rwa [hv] at h
  refine next_near (key x.re hx.1 (abs_re_le_norm (V x))) fun a f1 e1 => ?_
  refine next_near (key x.im hx.2 (abs_im_le_norm (V x))) fun b f2 e2 => ?_
  refine runs_pure ⟨⟨f1, f2⟩, e1, le_trans (norm_le_abs_re_add_abs_im _) ?_⟩
  have m1 := mul_le_mul_of_nonneg_left (h1 x.re (abs_re_le_norm (V x))) φ.u_pos.le
  have m2 := mul_le_mul_of_nonneg_left (h1 x.im (abs_im_le_norm (V x))) φ.u_pos.le
  have r1 : (V ⟨a, b⟩ - V x / (N : ℂ)).re = val a - val x.re / N := by
    rw [sub_re, div_ofReal_re]; rfl
  have r2 : (V ⟨a, b⟩ - V x / (N : ℂ)).im = val b - val x.im / N := by
    rw [sub_im, div_ofReal_im]; rfl
  rw [r1, r2]
  linarith

/-- A twiddle factor. -/
theorem twiddleT_ok {k j : ℕ} (hk : k ≤ φ.K) (hj : 2 * j ≤ 2 ^ k) :
    Runs (twiddleT O (2 ^ k) j) fun r => fC fin r ∧ ‖V r - rt k ^ j‖ ≤ 23 * φ.u := by
  have hu := φ.u_pos
  have hu' := φ.u_le
  have he := φ.eta_pos
  have he' := φ.eta_le
  have hpi1 := Real.pi_lt_d2
  have hpi2 := Real.pi_gt_d2
  have hN53 : (2 : ℕ) ^ k ≤ 2 ^ 40 := Nat.pow_le_pow_right (by omega) (le_trans hk φ.K_le)
  have h53 : (2 : ℕ) ^ k ≤ φ.N := le_trans (Nat.pow_le_pow_right (by omega) hk) φ.K_N
  set N : ℝ := ((2 ^ k : ℕ) : ℝ) with hN
  have hN1 : 1 ≤ N := by rw [hN]; exact_mod_cast Nat.one_le_two_pow
  have hN2 : N ≤ 2 ^ 40 := by rw [hN]; exact_mod_cast hN53
  have hjN : 2 * (j : ℝ) ≤ N := by rw [hN]; exact_mod_cast hj
  have hj0 : (0 : ℝ) ≤ j := Nat.cast_nonneg _
  have hbig := φ.big_ge
  have hA := φ.A_sq'
  have hbN : N * 1000 ≤ φ.big := by nlinarith
  have hN0 : 0 < N := by linarith
  have hq0 : 0 ≤ φ.u * N + φ.eta := add_nonneg (mul_nonneg hu.le hN0.le) he.le
  refine next_exact (fun t => (M t).ofNat_ok j (by omega)) fun kf fj vj => ?_
  -- first product
  refine runs_bind (P := fun a => fin a ∧ |val a - -2 * j| ≤ φ.u * N + φ.eta) (runs_tick fun t => ?_) fun a ⟨f1, e1'⟩ => ?_
  · obtain ⟨ft, vt⟩ := (M t).negTwo_ok
    have a1 : |val (O t).negTwo * val kf| = 2 * j := by
      rw [vt, vj, abs_mul, abs_of_nonneg hj0]; norm_num
    obtain ⟨f1, e1⟩ := (M t).mul_ok _ _ ft fj (by rw [a1]; nlinarith)
    rw [a1, vt, vj] at e1
    exact ⟨f1, le_trans e1 (by nlinarith)⟩
  have a2j : |-2 * (j : ℝ)| ≤ N := by rw [abs_mul, abs_of_nonneg hj0]; norm_num; exact hjN
  have huN : φ.u * N ≤ 6 / 10 ^ 8 * N := by
    have := mul_le_mul_of_nonneg_right hu' (le_trans zero_le_one hN1)
    linarith
  have hetaN : φ.eta ≤ φ.u * N / 10 ^ 15 := by
    refine le_trans he' ?_
    apply div_le_div_of_nonneg_right _ (by norm_num)
    nlinarith
  have aX : |-2 * (j : ℝ) * Real.pi| ≤ 3.15 * N := by
    rw [abs_mul, abs_of_pos Real.pi_pos]
    nlinarith [abs_nonneg (-2 * (j : ℝ)), mul_le_mul a2j hpi1.le Real.pi_pos.le (by linarith)]
  -- second product
  refine runs_bind (P := fun b => fin b ∧ |val b - -2 * j * Real.pi| ≤ 8.31 * (φ.u * N)) (runs_tick fun t => ?_) fun b ⟨f2, e4⟩ => ?_
  · obtain ⟨fp, vp⟩ := (M t).pi_ok
    have hpiB : |val (O t).pi| ≤ 3.151 := by rw [abs_le] at vp ⊢; constructor <;> linarith [vp.1, vp.2]
    have e2 := mul_err e1' vp
    have e2' : |val a * val (O t).pi - -2 * j * Real.pi| ≤ 5.151 * (φ.u * N) + 3.151 * φ.eta := by
      refine le_trans e2 ?_
      have t1 : (φ.u * N + φ.eta) * |val (O t).pi| ≤ (φ.u * N + φ.eta) * 3.151 := mul_le_mul_of_nonneg_left hpiB hq0
      have t2 : |-2 * (j : ℝ)| * (2 * φ.u) ≤ N * (2 * φ.u) := mul_le_mul_of_nonneg_right a2j (by linarith)
      linarith
    have a2 : |val a * val (O t).pi| ≤ 3.1501 * N := by
      have := abs_add_le (-2 * (j : ℝ) * Real.pi) (val a * val (O t).pi - -2 * j * Real.pi)
      rw [add_sub_cancel] at this
      linarith
    obtain ⟨f2, e3⟩ := (M t).mul_ok _ _ f1 fp (by linarith)
    refine ⟨f2, ?_⟩
    have := abs_add_le (val ((O t).mul a (O t).pi) - val a * val (O t).pi) (val a * val (O t).pi - -2 * j * Real.pi)
    rw [sub_add_sub_cancel] at this
    have t : φ.u * |val a * val (O t).pi| ≤ φ.u * (3.1501 * N) := mul_le_mul_of_nonneg_left a2 hu.le
    have : 0 ≤ φ.u * N := mul_nonneg hu.le hN0.le
    linarith
  -- quotient
  refine next_exact (fun t => (M t).ofNat_ok (2 ^ k) (by omega)) fun nf fn vn => ?_
  rw [← hN] at vn
  refine runs_bind (P := fun w => fin w ∧ |val w - -2 * j * Real.pi / N| ≤ 12 * φ.u ∧ |val w| ≤ 4) (runs_tick fun t => ?_)
    fun w ⟨h1, h2, h3⟩ => ?_
  · have e5 : |val b / N - -2 * j * Real.pi / N| ≤ 8.31 * φ.u := by
      rw [← sub_div, abs_div, abs_of_pos (by linarith : 0 < N), div_le_iff₀ (by linarith)]
      linarith
    have aY : |-2 * (j : ℝ) * Real.pi / N| ≤ 3.15 := by
      rw [abs_div, abs_of_pos (by linarith : 0 < N), div_le_iff₀ (by linarith)]; exact aX
    have a3 : |val b / N| ≤ 3.1501 := by
      have := abs_add_le (-2 * (j : ℝ) * Real.pi / N) (val b / N - -2 * j * Real.pi / N)
      rw [add_sub_cancel] at this
      linarith
    obtain ⟨f3, e6⟩ := (M t).div_ok _ _ f2 fn (by rw [vn]; exact hN0.ne') (by rw [vn]; linarith)
    rw [vn] at e6
    have hfin : |val ((O t).div b nf) - -2 * j * Real.pi / N| ≤ 12 * φ.u := by
      have := abs_add_le (val ((O t).div b nf) - val b / N) (val b / N - -2 * j * Real.pi / N)
      rw [sub_add_sub_cancel] at this
      have t : φ.u * |val b / N| ≤ φ.u * 3.1501 := mul_le_mul_of_nonneg_left a3 hu.le
      linarith
    refine ⟨f3, hfin, ?_⟩
    have := abs_add_le (-2 * (j : ℝ) * Real.pi / N) (val ((O t).div b nf) - -2 * j * Real.pi / N)
    rw [add_sub_cancel] at this
    linarith
  refine next_near (fun t => (M t).cos_ok _ h1 h3) fun c c1 c2 => ?_
  refine next_near (fun t => (M t).sin_ok _ h1 h3) fun s s1 s2 => ?_
  refine runs_pure ⟨⟨c1, s1⟩, ?_⟩
  rw [rt_pow_eq]
  have k1 := Real.abs_cos_sub_cos_le (val w) (-2 * j * Real.pi / (2 ^ k : ℕ))
  have k2 := Real.abs_sin_sub_sin_le (val w) (-2 * j * Real.pi / (2 ^ k : ℕ))
  refine le_trans (norm_le_of_both (s := 16 * φ.u) ?_ ?_) (by linarith)
  · rw [sub_re]
    change |val c - Real.cos _| ≤ _
    refine le_trans (abs_sub_le _ _ _) (le_trans (add_le_add c2 (le_trans k1 h2)) (by linarith))
  · rw [sub_im]
    change |val s - Real.sin _| ≤ _
    refine le_trans (abs_sub_le _ _ _) (le_trans (add_le_add s2 (le_trans k2 h2)) (by linarith))

end
end BN.FP
