import Verif.Lemmas.Binary32
import Verif.Lemmas.Rounding
/-
Rounding to binary32 is rounding to nearest, ties to even, with the overflow threshold of the standard.
-/
namespace BN
namespace B32
open B64 (nan inf num toRat neg nearestEven zpow_pos' nearestEven_best log_le lt_log sign_abs abs_sub_abs_sign)

/-- IEEE 725-2008, 4.3.1: r is the finite datum nearest to x; of two nearest ones the one with an even significand. -/
structure Rounded (x : ℚ) (r : B64) : Prop where
  finite : Finite r
  nearest : ∀ y, Finite y → |toRat r - x| ≤ |toRat y - x|
  even : ∀ y, Finite y → |toRat y - x| = |toRat r - x| → toRat y ≠ toRat r →
    ∃ s k e, r = num s (2 * k) e ∧ (2 ^ 23 ≤ 2 * k ∨ e = -149)

theorem sig_best (x : ℚ) (n : ℤ) :
    abs ((sig x : ℚ) * 2 ^ lastPlace x - |x|) ≤ abs ((n : ℚ) * 2 ^ lastPlace x - |x|) ∧
    (abs ((n : ℚ) * 2 ^ lastPlace x - |x|) = abs ((sig x : ℚ) * 2 ^ lastPlace x - |x|) → n ≠ sig x → sig x % 2 = 0) := by
  have hp := zpow_pos' (lastPlace x)
  have e : ∀ m : ℤ, abs ((m : ℚ) * 2 ^ lastPlace x - |x|) = abs ((m : ℚ) - |x| / 2 ^ lastPlace x) * 2 ^ lastPlace x := by
    intro m
    have : (m : ℚ) * 2 ^ lastPlace x - |x| = ((m : ℚ) - |x| / 2 ^ lastPlace x) * 2 ^ lastPlace x := by field_simp
    rw [this, abs_mul, abs_of_pos hp]
  obtain ⟨h1, h2⟩ := nearestEven_best (|x| / 2 ^ lastPlace x) n
  rw [e, e]
  exact ⟨mul_le_mul_of_nonneg_right h1 hp.le, fun h3 h4 => h2 (mul_right_cancel₀ hp.ne' h3) h4⟩

theorem le_sig {x : ℚ} (hx : x ≠ 0) (h : lastPlace x ≠ -149) : 2 ^ 23 * 2 ^ lastPlace x ≤ |x| := by
  have hl : Int.log 2 |x| = 23 + lastPlace x := by unfold lastPlace at h ⊢; omega
  have h1 := log_le hx
  rw [hl, zpow_add₀ (by norm_num)] at h1
  exact_mod_cast h1

theorem sig_ge {x : ℚ} (hx : x ≠ 0) (h : lastPlace x ≠ -149) : 2 ^ 23 ≤ sig x := by
  by_contra hc
  have h1 := le_sig hx h
  have hp := zpow_pos' (lastPlace x)
  obtain ⟨h2, -⟩ := sig_best x (2 ^ 23)
  have h3 : (sig x : ℚ) ≤ 2 ^ 23 - 1 := by exact_mod_cast (show sig x ≤ 2 ^ 23 - 1 by omega)
  have h4 : (sig x : ℚ) * 2 ^ lastPlace x ≤ (2 ^ 23 - 1) * 2 ^ lastPlace x := mul_le_mul_of_nonneg_right h3 hp.le
  generalize |x| = y at *
  push_cast at h2
  rw [abs_of_nonpos (by linarith), abs_of_nonpos (by linarith)] at h2
  linarith

/-- No finite datum is nearer than the rounded significand. -/
theorem sig_nearest {x : ℚ} (hx : x ≠ 0) {y : B64} (hy : Finite y) :
    abs ((sig x : ℚ) * 2 ^ lastPlace x - |x|) ≤ abs (|toRat y| - |x|) ∧
    (abs (|toRat y| - |x|) = abs ((sig x : ℚ) * 2 ^ lastPlace x - |x|) → |toRat y| ≠ sig x * 2 ^ lastPlace x → sig x % 2 = 0) := by
  obtain ⟨m, f, hy', hm, h1, h2⟩ := toRat_rep hy
  have hpf := zpow_pos' f
  have habs : |toRat y| = |(m : ℚ)| * 2 ^ f := by rw [hy', abs_mul, abs_of_pos hpf]
  have hmR : |(m : ℚ)| < 2 ^ 24 := by exact_mod_cast hm
  by_cases hle : lastPlace x ≤ f
  · obtain ⟨t, ht⟩ := Int.eq_ofNat_of_zero_le (show 0 ≤ f - lastPlace x by omega)
    have e : |toRat y| = ((|m| * 2 ^ t : ℤ) : ℚ) * 2 ^ lastPlace x := by
      rw [habs, show f = (t : ℤ) + lastPlace x by omega, zpow_add₀ (by norm_num), zpow_natCast]
      push_cast
      ring
    rw [e]
    obtain ⟨h3, h4⟩ := sig_best x (|m| * 2 ^ t)
    exact ⟨h3, fun h5 h6 => h4 h5 fun h7 => h6 (by rw [h7])⟩
  · have hne : lastPlace x ≠ -149 := by omega
    have h3 := le_sig hx hne
    have h4 : (2 : ℚ) ^ (f + 1) ≤ 2 ^ lastPlace x := zpow_le_zpow_right₀ (by norm_num) (by omega)
    rw [zpow_add₀ (by norm_num)] at h4
    have h5 : |toRat y| < 2 ^ 23 * 2 ^ lastPlace x := by
      rw [habs]
      have := mul_lt_mul_of_pos_right hmR hpf
      norm_num at h4 this ⊢
      linarith
    obtain ⟨h6, -⟩ := sig_best x (2 ^ 23)
    have h7 : abs (((2 ^ 23 : ℤ) : ℚ) * 2 ^ lastPlace x - |x|) < abs (|toRat y| - |x|) := by
      clear h6 habs
      generalize |x| = u at *
      generalize |toRat y| = v at *
      rw [abs_of_nonpos (by push_cast; linarith), abs_of_nonpos (by linarith)]
      push_cast
      linarith
    exact ⟨h6.trans h7.le, fun h8 => by linarith⟩

theorem place_bounds {x : ℚ} (hx : x ≠ 0) (h : |x| < 2 ^ 128 - 2 ^ 103) :
    lastPlace x ≤ 104 ∧ (sig x = 2 ^ 24 → lastPlace x ≤ 103) := by
  have hlog : Int.log 2 |x| ≤ 127 := by
    by_contra hc
    have h1 := log_le hx
    have h2 : (2 : ℚ) ^ (128 : ℤ) ≤ 2 ^ Int.log 2 |x| := zpow_le_zpow_right₀ (by norm_num) (by omega)
    have h3 : (2 : ℚ) ^ (128 : ℤ) = 2 ^ 128 := zpow_natCast 2 128
    have h4 : (0 : ℚ) < 2 ^ 103 := by positivity
    rw [h3] at h2
    generalize (2 : ℚ) ^ 103 = p at *
    generalize (2 : ℚ) ^ 128 = q at *
    linarith
  have hl : lastPlace x ≤ 104 := by unfold lastPlace; omega
  refine ⟨hl, fun hs => ?_⟩
  by_contra hc
  have he : lastPlace x = 104 := by omega
  have h1 := sig_err x
  rw [hs, he] at h1
  have h2 : (2 : ℚ) ^ (104 : ℤ) = 2 * 2 ^ 103 := by
    rw [show (104 : ℤ) = 1 + ((103 : ℕ) : ℤ) by norm_num, zpow_add₀ (by norm_num), zpow_natCast]; norm_num
  have h3 : (2 : ℚ) ^ 128 = 2 ^ 25 * 2 ^ 103 := by rw [← pow_add]
  have h4 : (0 : ℚ) < 2 ^ 103 := by positivity
  rw [h2] at h1
  rw [h3] at h
  push_cast at h1
  have := (abs_le.1 h1).2
  generalize (2 : ℚ) ^ 103 = p at *
  norm_num at this h
  linarith

theorem round_form (z : Bool) {x : ℚ} (hx : x ≠ 0) (h : |x| < 2 ^ 128 - 2 ^ 103) (he : sig x % 2 = 0) :
    ∃ s k e, roundQ z x = num s (2 * k) e ∧ (2 ^ 23 ≤ 2 * k ∨ e = -149) := by
  obtain ⟨h1, h2⟩ := place_bounds hx h
  have hs0 := sig_nonneg x
  unfold roundQ
  rw [if_neg hx]
  simp only
  rw [show nearestEven (|x| / 2 ^ lastPlace x) = sig x from rfl]
  by_cases h24 : (sig x).toNat = 2 ^ 24
  · have := h2 (by omega)
    rw [if_pos h24, if_pos (by omega)]
    exact ⟨_, 2 ^ 22, _, rfl, .inl (by norm_num)⟩
  · rw [if_neg h24, if_pos (by omega)]
    refine ⟨_, (sig x).toNat / 2, _, by congr 1; omega, ?_⟩
    by_cases hl : lastPlace x = -149
    · exact .inr hl
    · have := sig_ge hx hl
      left; omega

theorem rounded (z : Bool) {x : ℚ} (h : |x| < 2 ^ 128 - 2 ^ 103) : Rounded x (roundQ z x) := by
  by_cases hx : x = 0
  · subst hx
    obtain ⟨h1, h2⟩ := roundQ_zero z
    refine ⟨h1, fun y _ => by rw [h2]; simp, fun y _ h3 h4 => absurd ?_ h4⟩
    rw [h2] at h3 ⊢
    simpa using h3
  obtain ⟨h1, h2⟩ := place_bounds hx h
  obtain ⟨h3, h4⟩ := roundQ_spec z hx h1 h2
  refine ⟨h3, fun y hy => ?_, fun y hy h5 h6 => ?_⟩
  · rw [h4, abs_sub_abs_sign]
    exact (sig_nearest hx hy).1.trans (abs_abs_sub_abs_le _ _)
  · obtain ⟨h7, h8⟩ := sig_nearest hx hy
    rw [h4, abs_sub_abs_sign] at h5
    have h9 := abs_abs_sub_abs_le (toRat y) x
    refine round_form z hx h (h8 (le_antisymm (h9.trans h5.le) h7) fun h10 => h6 ?_)
    have h11 : abs (|toRat y| - |x|) = |toRat y - x| := by rw [h10]; exact h5.symm
    rw [h4, ← h10]
    rcases le_total 0 (toRat y) with hy0 | hy0 <;> rcases lt_or_gt_of_ne hx with hx0 | hx0
    · rw [abs_of_nonneg hy0, abs_of_neg hx0] at h11
      rw [if_pos hx0, abs_of_nonneg hy0]
      have h12 : toRat y - x = |toRat y - x| := (abs_of_nonneg (by linarith)).symm
      rw [← h12] at h11
      rcases abs_choice (toRat y - -x) with h13 | h13 <;> rw [h13] at h11 <;> linarith
    · rw [if_neg (by linarith), abs_of_nonneg hy0, one_mul]
    · rw [if_pos hx0, abs_of_nonpos hy0]; ring
    · rw [abs_of_nonpos hy0, abs_of_pos hx0] at h11
      rw [if_neg (by linarith), abs_of_nonpos hy0]
      have h12 : -(toRat y - x) = |toRat y - x| := (abs_of_nonpos (by linarith)).symm
      rw [← h12] at h11
      rcases abs_choice (-toRat y - x) with h13 | h13 <;> rw [h13] at h11 <;> linarith

theorem overflow (z : Bool) {x : ℚ} (h : 2 ^ 128 - 2 ^ 103 ≤ |x|) : roundQ z x = inf (decide (x < 0)) := by
  have hbig : (2 : ℚ) ^ 127 ≤ 2 ^ 128 - 2 ^ 103 := by
    have h3 : (2 : ℚ) ^ 128 = 2 ^ 25 * 2 ^ 103 := by rw [← pow_add]
    have h3' : (2 : ℚ) ^ 127 = 2 ^ 24 * 2 ^ 103 := by rw [← pow_add]
    have h4 : (0 : ℚ) < 2 ^ 103 := by positivity
    rw [h3, h3']
    clear h h3 h3'
    generalize (2 : ℚ) ^ 103 = p at *
    norm_num
    linarith
  have hx : x ≠ 0 := by
    rintro rfl
    have : (0 : ℚ) < 2 ^ 127 := by positivity
    rw [abs_zero] at h
    exact absurd (this.trans_le (hbig.trans h)) (lt_irrefl _)
  have hlog : 127 ≤ Int.log 2 |x| := by
    by_contra hc
    have h1 := lt_log x
    have h2 : (2 : ℚ) ^ (Int.log 2 |x| + 1) ≤ 2 ^ (127 : ℤ) := zpow_le_zpow_right₀ (by norm_num) (by omega)
    have h3 : (2 : ℚ) ^ (127 : ℤ) = 2 ^ 127 := zpow_natCast 2 127
    rw [h3] at h2
    exact absurd (h1.trans_le (h2.trans (hbig.trans h))) (lt_irrefl _)
  have hl : lastPlace x = Int.log 2 |x| - 23 := by unfold lastPlace; omega
  unfold roundQ
  rw [if_neg hx]
  simp only
  rw [show nearestEven (|x| / 2 ^ lastPlace x) = sig x from rfl]
  by_cases h71 : lastPlace x = 104
  · have hs : sig x = 2 ^ 24 := by
      have h2 : (2 : ℚ) ^ (104 : ℤ) = 2 * 2 ^ 103 := by
        rw [show (104 : ℤ) = 1 + ((103 : ℕ) : ℤ) by norm_num, zpow_add₀ (by norm_num), zpow_natCast]; norm_num
      have h3 : (2 : ℚ) ^ 128 = 2 ^ 25 * 2 ^ 103 := by rw [← pow_add]
      have h4 : (0 : ℚ) < 2 ^ 103 := by positivity
      have hq : ((2 : ℚ) ^ 24 - 1 / 2) ≤ |x| / 2 ^ lastPlace x := by
        rw [h71, h2, le_div_iff₀ (by positivity)]
        rw [h3] at h
        generalize (2 : ℚ) ^ 103 = p at *
        norm_num at h ⊢
        linarith
      have hq' := div_lt_24 x
      have hf : ⌊|x| / 2 ^ lastPlace x⌋ = 2 ^ 24 - 1 := by
        rw [Int.floor_eq_iff]
        push_cast at hq' ⊢
        constructor <;> linarith
      unfold sig nearestEven
      rw [hf]
      push_cast
      rw [if_neg (by linarith)]
      norm_num
    rw [if_pos (by omega), if_neg (by omega)]
  · rw [if_neg (show ¬ lastPlace x + 1 ≤ 104 by omega), if_neg (show ¬ lastPlace x ≤ 104 by omega)]
    split_ifs <;> rfl

end B32
end BN
