import Verif.SpecFloat
import Verif.Lemmas.FloatErr
import Mathlib.Data.Int.Log
import Mathlib.Algebra.Order.Round
/-
A number system satisfying the rounding laws: reals rounded to 53 significant bits, ties resolved by `round`, with an
unbounded exponent range. It shows that the laws are consistent.
-/
namespace BN

/-- Exponent of the last place of x. -/
noncomputable def lastPlace (x : ℝ) : ℤ := Int.log 2 |x| - 52
/-- Rounding to 53 significant bits. -/
noncomputable def rnd (x : ℝ) : ℝ := if x = 0 then 0 else round (x / 2 ^ lastPlace x) * 2 ^ lastPlace x
/-- Numbers with at most 53 significant bits. -/
def Rep (x : ℝ) : Prop := ∃ m e : ℤ, x = m * 2 ^ e ∧ |m| ≤ 2 ^ 53

theorem two_zpow_pos (e : ℤ) : (0 : ℝ) < 2 ^ e := zpow_pos (by norm_num) _

theorem lastPlace_le {x : ℝ} (hx : x ≠ 0) : 2 ^ lastPlace x * 2 ^ 52 ≤ |x| := by
  have h := Int.zpow_log_le_self (b := 2) (R := ℝ) (by norm_num) (abs_pos.2 hx)
  have : (2 : ℝ) ^ lastPlace x * 2 ^ 52 = 2 ^ Int.log 2 |x| := by
    unfold lastPlace
    rw [zpow_sub₀ (by norm_num), show (52 : ℤ) = ((52 : ℕ) : ℤ) by rfl, zpow_natCast]
    field_simp
  rw [this]
  exact_mod_cast h

theorem lt_lastPlace (x : ℝ) : |x| < 2 ^ lastPlace x * 2 ^ 53 := by
  have h := Int.lt_zpow_succ_log_self (b := 2) (R := ℝ) (by norm_num) |x|
  have : (2 : ℝ) ^ lastPlace x * 2 ^ 53 = 2 ^ (Int.log 2 |x| + 1) := by
    unfold lastPlace
    rw [zpow_sub₀ (by norm_num), zpow_add₀ (by norm_num), show (52 : ℤ) = ((52 : ℕ) : ℤ) by rfl, zpow_natCast]
    field_simp
  rw [this]
  exact_mod_cast h

theorem rnd_abs_err (x : ℝ) : |rnd x - x| ≤ 2 ^ lastPlace x / 2 := by
  unfold rnd
  split
  · rename_i h; subst h; simp; exact div_nonneg (two_zpow_pos _).le (by norm_num)
  · have hp := two_zpow_pos (lastPlace x)
    have h := abs_sub_round (x / 2 ^ lastPlace x)
    have e : (round (x / 2 ^ lastPlace x) : ℝ) * 2 ^ lastPlace x - x =
        -((x / 2 ^ lastPlace x - round (x / 2 ^ lastPlace x)) * 2 ^ lastPlace x) := by
      field_simp; ring
    rw [e, abs_neg, abs_mul, abs_of_pos hp]
    have := mul_le_mul_of_nonneg_right h hp.le
    linarith

theorem rnd_err (x : ℝ) : |rnd x - x| ≤ uro * |x| := by
  by_cases hx : x = 0
  · subst hx; simp [rnd]
  · refine le_trans (rnd_abs_err x) ?_
    have := lastPlace_le hx
    have hu : 1 / 2 ^ 53 ≤ uro := by norm_num [uro]
    have := mul_le_mul_of_nonneg_right hu (abs_nonneg x)
    linarith

theorem rnd_rep (x : ℝ) : Rep (rnd x) := by
  unfold rnd
  split
  · exact ⟨0, 0, by simp, by norm_num⟩
  · refine ⟨_, _, rfl, ?_⟩
    have hp := two_zpow_pos (lastPlace x)
    have h := lt_lastPlace x
    have h1 : |x / 2 ^ lastPlace x| < 2 ^ 53 := by
      rw [abs_div, abs_of_pos hp, div_lt_iff₀ hp]; linarith
    have h2 := abs_sub_round (x / 2 ^ lastPlace x)
    have h3 : |((round (x / 2 ^ lastPlace x) : ℤ) : ℝ)| < 2 ^ 53 + 1 := by
      have := abs_sub_abs_le_abs_sub ((round (x / 2 ^ lastPlace x) : ℤ) : ℝ) (x / 2 ^ lastPlace x)
      rw [abs_sub_comm] at this
      linarith
    have h4 : |round (x / 2 ^ lastPlace x)| < 2 ^ 53 + 1 := by exact_mod_cast h3
    omega

theorem rnd_int {n : ℤ} (h : |n| ≤ 2 ^ 53) : rnd n = n := by
  unfold rnd
  split
  · rename_i h0; rw [h0]
  · rename_i h0
    have hp := two_zpow_pos (lastPlace n)
    have key : ∃ m : ℤ, (n : ℝ) / 2 ^ lastPlace n = m := by
      have hl := lastPlace_le h0
      by_cases he : lastPlace n ≤ 0
      · obtain ⟨t, ht⟩ := Int.eq_ofNat_of_zero_le (show 0 ≤ - lastPlace n by omega)
        refine ⟨n * 2 ^ t, ?_⟩
        rw [show lastPlace n = -(t : ℤ) by omega, zpow_neg, zpow_natCast]
        push_cast; field_simp
      · have hnR : |(n : ℝ)| ≤ 2 ^ 53 := by exact_mod_cast h
        have he1 : lastPlace n = 1 := by
          by_contra hc
          have h2 : (2 : ℝ) ^ (2 : ℤ) ≤ 2 ^ lastPlace n := zpow_le_zpow_right₀ (by norm_num) (by omega)
          norm_num at h2 hl hnR
          linarith
        rw [he1] at hl ⊢
        have hge : (2 : ℝ) ^ 53 ≤ |(n : ℝ)| := by norm_num at hl ⊢; linarith
        have hge' : 2 ^ 53 ≤ |n| := by exact_mod_cast hge
        have heq : |n| = 2 ^ 53 := le_antisymm h hge'
        rcases abs_choice n with hc | hc
        · refine ⟨2 ^ 52, ?_⟩
          rw [show n = 2 ^ 53 by omega]; norm_num
        · refine ⟨- 2 ^ 52, ?_⟩
          rw [show n = - 2 ^ 53 by omega]; norm_num
    obtain ⟨m, hm⟩ := key
    rw [hm, round_intCast, ← hm]; field_simp

theorem rep_int {n : ℤ} (h : |n| ≤ 2 ^ 53) : Rep n := ⟨n, 0, by simp, h⟩

theorem rep_neg {x : ℝ} (h : Rep x) : Rep (-x) := by
  obtain ⟨m, e, rfl, hm⟩ := h
  exact ⟨-m, e, by push_cast; ring, by rw [abs_neg]; exact hm⟩

theorem rep_even {x : ℝ} (h : Rep x) (hx : 2 ^ 53 ≤ |x|) : ∃ m : ℤ, x = ((2 * m : ℤ) : ℝ) := by
  obtain ⟨m, e, rfl, hm⟩ := h
  by_cases he : 1 ≤ e
  · obtain ⟨t, ht⟩ := Int.eq_ofNat_of_zero_le (show 0 ≤ e - 1 by omega)
    refine ⟨m * 2 ^ t, ?_⟩
    rw [show e = (t : ℤ) + 1 by omega, zpow_add₀ (by norm_num), zpow_natCast]
    push_cast; ring
  · have hmR : |(m : ℝ)| ≤ 2 ^ 53 := by exact_mod_cast hm
    have h1 : (2 : ℝ) ^ e ≤ 1 := by
      have := zpow_le_zpow_right₀ (a := (2 : ℝ)) (by norm_num) (show e ≤ 0 by omega)
      simpa using this
    have hp := two_zpow_pos e
    rw [abs_mul, abs_of_pos hp] at hx
    have h2 : |(m : ℝ)| * 2 ^ e ≤ |(m : ℝ)| * 1 := mul_le_mul_of_nonneg_left h1 (abs_nonneg _)
    have hmeq : |(m : ℝ)| = 2 ^ 53 := by linarith
    have hee : (2 : ℝ) ^ e = 1 := by
      rw [hmeq] at hx
      have : (2 : ℝ) ^ 53 * 1 ≤ 2 ^ 53 * 2 ^ e := by linarith
      have := le_of_mul_le_mul_left this (by positivity)
      linarith
    have hmz : |m| = 2 ^ 53 := by exact_mod_cast hmeq
    rw [hee, mul_one]
    rcases abs_choice m with hc | hc
    · exact ⟨2 ^ 52, by rw [show m = 2 ^ 53 by omega]; norm_num⟩
    · exact ⟨- 2 ^ 52, by rw [show m = - 2 ^ 53 by omega]; norm_num⟩

theorem rep_floor {x : ℝ} (h : Rep x) : Rep (⌊x⌋ : ℤ) := by
  by_cases hx : |x| ≤ 2 ^ 53 - 1
  · apply rep_int
    have h1 := Int.floor_le x
    have h2 := Int.lt_floor_add_one x
    obtain ⟨h3, h4⟩ := abs_le.1 hx
    have h5 : (-2 ^ 53 : ℝ) ≤ (⌊x⌋ : ℤ) := by linarith
    have h6 : ((⌊x⌋ : ℤ) : ℝ) ≤ 2 ^ 53 := by linarith
    have h5' : -2 ^ 53 ≤ ⌊x⌋ := by exact_mod_cast h5
    have h6' : ⌊x⌋ ≤ 2 ^ 53 := by exact_mod_cast h6
    exact abs_le.2 ⟨h5', h6'⟩
  · obtain ⟨m, e, rfl, hm⟩ := h
    have hmR : |(m : ℝ)| ≤ 2 ^ 53 := by exact_mod_cast hm
    have hp := two_zpow_pos e
    have he : 0 ≤ e := by
      by_contra hc
      have h1 : (2 : ℝ) ^ e ≤ 2 ^ (-1 : ℤ) := zpow_le_zpow_right₀ (by norm_num) (by omega)
      norm_num at h1
      rw [abs_mul, abs_of_pos hp] at hx
      have : |(m : ℝ)| * 2 ^ e ≤ 2 ^ 53 * (1 / 2) := mul_le_mul hmR h1 hp.le (by positivity)
      norm_num at this hx
      linarith
    obtain ⟨t, rfl⟩ := Int.eq_ofNat_of_zero_le he
    have : (m : ℝ) * 2 ^ (t : ℤ) = ((m * 2 ^ t : ℤ) : ℝ) := by push_cast; rw [zpow_natCast]
    rw [this, Int.floor_intCast, ← this]
    exact ⟨m, t, rfl, hm⟩

/-- Arithmetic on rounded reals. -/
noncomputable def roundOps : FloatOps ℝ where
  ofNat n := rnd n
  add x y := rnd (x + y)
  sub x y := rnd (x - y)
  mul x y := rnd (x * y)
  mulSub x y z w := rnd (rnd (x * y) - rnd (z * w))
  mulAdd x y z w := rnd (rnd (x * y) + rnd (z * w))
  div x y := rnd (x / y)
  neg x := -x
  cos x := rnd (Real.cos x)
  sin x := rnd (Real.sin x)
  floor x := (⌊x⌋ : ℤ)
  trunc x := if 0 ≤ x then ⌊x⌋ else ⌈x⌉
  pi := rnd Real.pi
  negTwo := -2
  half := 1 / 2
  quarter := 1 / 4

theorem rnd_le_four {x : ℝ} (h : |x| ≤ 1) : |rnd x - x| ≤ 4 * uro := by
  refine le_trans (rnd_err x) ?_
  have := uro_pos
  nlinarith

/-- The laws hold of it. -/
noncomputable def roundIeee : Ieee roundOps where
  val x := x
  fin := Rep
  ofNat_ok n hn := by
    have h := rnd_int (n := (n : ℤ)) (by rw [abs_of_nonneg (by positivity)]; exact_mod_cast hn)
    rw [Int.cast_natCast] at h
    refine ⟨rnd_rep _, h⟩
  add_ok x y _ _ _ := ⟨rnd_rep _, rnd_err _⟩
  sub_ok x y _ _ _ := ⟨rnd_rep _, rnd_err _⟩
  mul_ok x y _ _ _ := ⟨rnd_rep _, le_trans (rnd_err _) (le_add_of_nonneg_right eta_pos.le)⟩
  mulSub_ok _ _ _ _ _ _ _ _ _ _ := .inl rfl
  mulAdd_ok _ _ _ _ _ _ _ _ _ _ := .inl rfl
  div_ok x y _ _ _ _ := ⟨rnd_rep _, le_trans (rnd_err _) (le_add_of_nonneg_right eta_pos.le)⟩
  neg_ok x hx := ⟨rep_neg hx, rfl⟩
  cos_ok x _ _ := ⟨rnd_rep _, rnd_le_four (Real.abs_cos_le_one x)⟩
  sin_ok x _ _ := ⟨rnd_rep _, rnd_le_four (Real.abs_sin_le_one x)⟩
  floor_ok x hx := ⟨rep_floor hx, rfl⟩
  trunc_ok x _ := rfl
  pi_ok := by
    refine ⟨rnd_rep _, le_trans (rnd_abs_err Real.pi) ?_⟩
    have hl : Int.log 2 |Real.pi| = 1 := by
      rw [abs_of_pos Real.pi_pos]
      apply le_antisymm
      · have := (Int.lt_zpow_iff_log_lt (b := 2) (R := ℝ) (x := 2) (by norm_num) Real.pi_pos).1 (by
          have := Real.pi_lt_d2; norm_num; linarith)
        omega
      · exact (Int.zpow_le_iff_le_log (b := 2) (R := ℝ) (x := 1) (by norm_num) Real.pi_pos).1 (by
          have := Real.pi_gt_three; norm_num; linarith)
    unfold lastPlace uro
    rw [hl]
    norm_num
  negTwo_ok := ⟨by have := rep_int (n := -2) (by norm_num); norm_num at this; exact this, rfl⟩
  half_ok := ⟨⟨1, -1, by norm_num [roundOps], by norm_num⟩, rfl⟩
  quarter_ok := ⟨⟨1, -2, by norm_num [roundOps], by norm_num⟩, rfl⟩
  addInt_ok x y m n _ _ hx hy h := by
    refine ⟨rnd_rep _, ?_⟩
    change rnd (x + y) = _
    rw [hx, hy, ← Int.cast_add, rnd_int h]

theorem roundIeee_noExcess : roundIeee.NoExcess := fun _ hx h => rep_even hx h

end BN
