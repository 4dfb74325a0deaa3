import Verif.Lemmas.Binary64
/-
`roundQ` is rounding to nearest, ties to even, with the overflow threshold of the standard.
-/
namespace BN
namespace B64

/-- IEEE 754-2008, 4.3.1: r is the finite datum nearest to x; of two nearest ones the one with an even significand. -/
structure Rounded (x : ℚ) (r : B64) : Prop where
  finite : Finite r
  nearest : ∀ y, Finite y → |toRat r - x| ≤ |toRat y - x|
  even : ∀ y, Finite y → |toRat y - x| = |toRat r - x| → toRat y ≠ toRat r →
    ∃ s k e, r = num s (2 * k) e ∧ (2 ^ 52 ≤ 2 * k ∨ e = -1074)

theorem nearestEven_best (q : ℚ) (n : ℤ) : |(nearestEven q : ℚ) - q| ≤ |(n : ℚ) - q| ∧
    (|(n : ℚ) - q| = |(nearestEven q : ℚ) - q| → n ≠ nearestEven q → nearestEven q % 2 = 0) := by
  have h0 := Int.floor_le q
  have h1 := Int.lt_floor_add_one q
  generalize hf : ⌊q⌋ = f at h0 h1
  unfold nearestEven
  rw [hf]
  have hn : (n : ℚ) ≤ f ∨ n = f + 1 ∨ (f : ℚ) + 2 ≤ n := by
    rcases lt_trichotomy n (f + 1) with h | h | h
    · left; exact_mod_cast (show n ≤ f by omega)
    · right; left; exact h
    · right; right; exact_mod_cast (show f + 2 ≤ n by omega)
  have e1 : |(f : ℚ) - q| = q - f := by rw [abs_of_nonpos (by linarith)]; ring
  have e2 : |((f + 1 : ℤ) : ℚ) - q| = f + 1 - q := by rw [abs_of_nonneg (by push_cast; linarith)]; push_cast; ring
  have e3 : (n : ℚ) ≤ f → |(n : ℚ) - q| = q - n := fun h => by rw [abs_of_nonpos (by linarith)]; ring
  have e4 : (f : ℚ) + 2 ≤ n → |(n : ℚ) - q| = n - q := fun h => by rw [abs_of_nonneg (by linarith)]
  split_ifs with a b c
  · rw [e1]
    rcases hn with h | h | h
    · rw [e3 h]
      refine ⟨by linarith, fun h2 h3 => absurd ?_ h3⟩
      have : (n : ℚ) = f := by linarith
      exact_mod_cast this
    · rw [h, e2]
      exact ⟨by linarith, fun h2 _ => by linarith⟩
    · rw [e4 h]
      exact ⟨by linarith, fun h2 _ => by linarith⟩
  · rw [e2]
    rcases hn with h | h | h
    · rw [e3 h]
      exact ⟨by linarith, fun h2 _ => by linarith⟩
    · rw [h, e2]
      exact ⟨le_rfl, fun _ h3 => absurd rfl h3⟩
    · rw [e4 h]
      exact ⟨by linarith, fun h2 _ => by linarith⟩
  · rw [e1]
    refine ⟨?_, fun _ _ => c⟩
    rcases hn with h | h | h
    · rw [e3 h]; linarith
    · rw [h, e2]; linarith
    · rw [e4 h]; linarith
  · rw [e2]
    refine ⟨?_, fun _ _ => by omega⟩
    rcases hn with h | h | h
    · rw [e3 h]; linarith
    · rw [h, e2]
    · rw [e4 h]; linarith

theorem sig_best (x : ℚ) (n : ℤ) :
    abs ((sig x : ℚ) * 2 ^ lastPlace x - |x|) ≤ abs ((n : ℚ) * 2 ^ lastPlace x - |x|) ∧
    (abs ((n : ℚ) * 2 ^ lastPlace x - |x|) = abs ((sig x : ℚ) * 2 ^ lastPlace x - |x|) → n ≠ sig x → sig x % 2 = 0) := by
  have hp := zpow_pos' (lastPlace x)
  have e : ∀ m : ℤ, abs ((m : ℚ) * 2 ^ lastPlace x - |x|) = abs ((m : ℚ) - |x| / 2 ^ lastPlace x) * 2 ^ lastPlace x := by
    intro m
    have : (m : ℚ) * 2 ^ lastPlace x - |x| = ((m : ℚ) - |x| / 2 ^ lastPlace x) * 2 ^ lastPlace x := by field_simp
    rw [this, abs_mul, abs_of_pos hp]
  obtain ⟨h1, h2⟩ := nearestEven_best (|x| / 2 ^ lastPlace x) n
  rw [e, e]
  exact ⟨mul_le_mul_of_nonneg_right h1 hp.le, fun h3 h4 => h2 (mul_right_cancel₀ hp.ne' h3) h4⟩

theorem le_sig {x : ℚ} (hx : x ≠ 0) (h : lastPlace x ≠ -1074) : 2 ^ 52 * 2 ^ lastPlace x ≤ |x| := by
  have hl : Int.log 2 |x| = 52 + lastPlace x := by unfold lastPlace at h ⊢; omega
  have h1 := log_le hx
  rw [hl, zpow_add₀ (by norm_num)] at h1
  exact_mod_cast h1

theorem sig_ge {x : ℚ} (hx : x ≠ 0) (h : lastPlace x ≠ -1074) : 2 ^ 52 ≤ sig x := by
  by_contra hc
  have h1 := le_sig hx h
  have hp := zpow_pos' (lastPlace x)
  obtain ⟨h2, -⟩ := sig_best x (2 ^ 52)
  have h3 : (sig x : ℚ) ≤ 2 ^ 52 - 1 := by exact_mod_cast (show sig x ≤ 2 ^ 52 - 1 by omega)
  have h4 : (sig x : ℚ) * 2 ^ lastPlace x ≤ (2 ^ 52 - 1) * 2 ^ lastPlace x := mul_le_mul_of_nonneg_right h3 hp.le
  generalize |x| = y at *
  push_cast at h2
  rw [abs_of_nonpos (by linarith), abs_of_nonpos (by linarith)] at h2
  linarith

theorem abs_sub_abs_sign (x r : ℚ) : |(if x < 0 then (-1 : ℚ) else 1) * r - x| = abs (r - |x|) := by
  have h : (if x < 0 then (-1 : ℚ) else 1) * r - x = (if x < 0 then -1 else 1) * (r - |x|) := by
    rw [mul_sub, ← sign_abs x]
  rw [h, abs_mul]
  have : |(if x < 0 then (-1 : ℚ) else 1)| = 1 := by split_ifs <;> simp
  rw [this, one_mul]

/-- No finite datum is nearer than the rounded significand. -/
theorem sig_nearest {x : ℚ} (hx : x ≠ 0) {y : B64} (hy : Finite y) :
    abs ((sig x : ℚ) * 2 ^ lastPlace x - |x|) ≤ abs (|toRat y| - |x|) ∧
    (abs (|toRat y| - |x|) = abs ((sig x : ℚ) * 2 ^ lastPlace x - |x|) → |toRat y| ≠ sig x * 2 ^ lastPlace x → sig x % 2 = 0) := by
  obtain ⟨m, f, hy', hm, h1, h2⟩ := toRat_rep hy
  have hpf := zpow_pos' f
  have habs : |toRat y| = |(m : ℚ)| * 2 ^ f := by rw [hy', abs_mul, abs_of_pos hpf]
  have hmR : |(m : ℚ)| < 2 ^ 53 := by exact_mod_cast hm
  by_cases hle : lastPlace x ≤ f
  · obtain ⟨t, ht⟩ := Int.eq_ofNat_of_zero_le (show 0 ≤ f - lastPlace x by omega)
    have e : |toRat y| = ((|m| * 2 ^ t : ℤ) : ℚ) * 2 ^ lastPlace x := by
      rw [habs, show f = (t : ℤ) + lastPlace x by omega, zpow_add₀ (by norm_num), zpow_natCast]
      push_cast
      ring
    rw [e]
    obtain ⟨h3, h4⟩ := sig_best x (|m| * 2 ^ t)
    exact ⟨h3, fun h5 h6 => h4 h5 fun h7 => h6 (by rw [h7])⟩
  · have hne : lastPlace x ≠ -1074 := by omega
    have h3 := le_sig hx hne
    have h4 : (2 : ℚ) ^ (f + 1) ≤ 2 ^ lastPlace x := zpow_le_zpow_right₀ (by norm_num) (by omega)
    rw [zpow_add₀ (by norm_num)] at h4
    have h5 : |toRat y| < 2 ^ 52 * 2 ^ lastPlace x := by
      rw [habs]
      have := mul_lt_mul_of_pos_right hmR hpf
      norm_num at h4 this ⊢
      linarith
    obtain ⟨h6, -⟩ := sig_best x (2 ^ 52)
    have h7 : abs (((2 ^ 52 : ℤ) : ℚ) * 2 ^ lastPlace x - |x|) < abs (|toRat y| - |x|) := by
      clear h6 habs
      generalize |x| = u at *
      generalize |toRat y| = v at *
      rw [abs_of_nonpos (by push_cast; linarith), abs_of_nonpos (by linarith)]
      push_cast
      linarith
    exact ⟨h6.trans h7.le, fun h8 => by linarith⟩

theorem place_bounds {x : ℚ} (hx : x ≠ 0) (h : |x| < 2 ^ 1024 - 2 ^ 970) :
    lastPlace x ≤ 971 ∧ (sig x = 2 ^ 53 → lastPlace x ≤ 970) := by
  have hlog : Int.log 2 |x| ≤ 1023 := by
    by_contra hc
    have h1 := log_le hx
    have h2 : (2 : ℚ) ^ (1024 : ℤ) ≤ 2 ^ Int.log 2 |x| := zpow_le_zpow_right₀ (by norm_num) (by omega)
    have h3 : (2 : ℚ) ^ (1024 : ℤ) = 2 ^ 1024 := zpow_natCast 2 1024
    have h4 : (0 : ℚ) < 2 ^ 970 := by positivity
    rw [h3] at h2
    generalize (2 : ℚ) ^ 970 = p at *
    generalize (2 : ℚ) ^ 1024 = q at *
    linarith
  have hl : lastPlace x ≤ 971 := by unfold lastPlace; omega
  refine ⟨hl, fun hs => ?_⟩
  by_contra hc
  have he : lastPlace x = 971 := by omega
  have h1 := sig_err x
  rw [hs, he] at h1
  have h2 : (2 : ℚ) ^ (971 : ℤ) = 2 * 2 ^ 970 := by
    rw [show (971 : ℤ) = 1 + ((970 : ℕ) : ℤ) by norm_num, zpow_add₀ (by norm_num), zpow_natCast]; norm_num
  have h3 : (2 : ℚ) ^ 1024 = 2 ^ 54 * 2 ^ 970 := by rw [← pow_add]
  have h4 : (0 : ℚ) < 2 ^ 970 := by positivity
  rw [h2] at h1
  rw [h3] at h
  push_cast at h1
  have := (abs_le.1 h1).2
  generalize (2 : ℚ) ^ 970 = p at *
  norm_num at this h
  linarith

theorem round_form (z : Bool) {x : ℚ} (hx : x ≠ 0) (h : |x| < 2 ^ 1024 - 2 ^ 970) (he : sig x % 2 = 0) :
    ∃ s k e, roundQ z x = num s (2 * k) e ∧ (2 ^ 52 ≤ 2 * k ∨ e = -1074) := by
  obtain ⟨h1, h2⟩ := place_bounds hx h
  have hs0 := sig_nonneg x
  unfold roundQ
  rw [if_neg hx]
  simp only
  rw [show nearestEven (|x| / 2 ^ lastPlace x) = sig x from rfl]
  by_cases h53 : (sig x).toNat = 2 ^ 53
  · have := h2 (by omega)
    rw [if_pos h53, if_pos (by omega)]
    exact ⟨_, 2 ^ 51, _, rfl, .inl (by norm_num)⟩
  · rw [if_neg h53, if_pos (by omega)]
    refine ⟨_, (sig x).toNat / 2, _, by congr 1; omega, ?_⟩
    by_cases hl : lastPlace x = -1074
    · exact .inr hl
    · have := sig_ge hx hl
      left; omega

theorem rounded (z : Bool) {x : ℚ} (h : |x| < 2 ^ 1024 - 2 ^ 970) : Rounded x (roundQ z x) := by
  by_cases hx : x = 0
  · subst hx
    obtain ⟨h1, h2⟩ := roundQ_zero z
    refine ⟨h1, fun y _ => by rw [h2]; simp, fun y _ h3 h4 => absurd ?_ h4⟩
    rw [h2] at h3 ⊢
    simpa using h3
  obtain ⟨h1, h2⟩ := place_bounds hx h
  obtain ⟨h3, h4⟩ := roundQ_spec z hx h1 h2
  refine ⟨h3, fun y hy => ?_, fun y hy h5 h6 => ?_⟩
  · rw [h4, abs_sub_abs_sign]
    exact (sig_nearest hx hy).1.trans (abs_abs_sub_abs_le _ _)
  · obtain ⟨h7, h8⟩ := sig_nearest hx hy
    rw [h4, abs_sub_abs_sign] at h5
    have h9 := abs_abs_sub_abs_le (toRat y) x
    refine round_form z hx h (h8 (le_antisymm (h9.trans h5.le) h7) fun h10 => h6 ?_)
    have h11 : abs (|toRat y| - |x|) = |toRat y - x| := by rw [h10]; exact h5.symm
    rw [h4, ← h10]
    rcases le_total 0 (toRat y) with hy0 | hy0 <;> rcases lt_or_gt_of_ne hx with hx0 | hx0
    · rw [abs_of_nonneg hy0, abs_of_neg hx0] at h11
      rw [if_pos hx0, abs_of_nonneg hy0]
      have h12 : toRat y - x = |toRat y - x| := (abs_of_nonneg (by linarith)).symm
      rw [← h12] at h11
      rcases abs_choice (toRat y - -x) with h13 | h13 <;> rw [h13] at h11 <;> linarith
    · rw [if_neg (by linarith), abs_of_nonneg hy0, one_mul]
    · rw [if_pos hx0, abs_of_nonpos hy0]; ring
    · rw [abs_of_nonpos hy0, abs_of_pos hx0] at h11
      rw [if_neg (by linarith), abs_of_nonpos hy0]
      have h12 : -(toRat y - x) = |toRat y - x| := (abs_of_nonpos (by linarith)).symm
      rw [← h12] at h11
      rcases abs_choice (-toRat y - x) with h13 | h13 <;> rw [h13] at h11 <;> linarith

theorem overflow (z : Bool) {x : ℚ} (h : 2 ^ 1024 - 2 ^ 970 ≤ |x|) : roundQ z x = inf (decide (x < 0)) := by
  have hbig : (2 : ℚ) ^ 1023 ≤ 2 ^ 1024 - 2 ^ 970 := by
    have h3 : (2 : ℚ) ^ 1024 = 2 ^ 54 * 2 ^ 970 := by rw [← pow_add]
    have h3' : (2 : ℚ) ^ 1023 = 2 ^ 53 * 2 ^ 970 := by rw [← pow_add]
    have h4 : (0 : ℚ) < 2 ^ 970 := by positivity
    rw [h3, h3']
    clear h h3 h3'
    generalize (2 : ℚ) ^ 970 = p at *
    norm_num
    linarith
  have hx : x ≠ 0 := by
    rintro rfl
    have : (0 : ℚ) < 2 ^ 1023 := by positivity
    rw [abs_zero] at h
    exact absurd (this.trans_le (hbig.trans h)) (lt_irrefl _)
  have hlog : 1023 ≤ Int.log 2 |x| := by
    by_contra hc
    have h1 := lt_log x
    have h2 : (2 : ℚ) ^ (Int.log 2 |x| + 1) ≤ 2 ^ (1023 : ℤ) := zpow_le_zpow_right₀ (by norm_num) (by omega)
    have h3 : (2 : ℚ) ^ (1023 : ℤ) = 2 ^ 1023 := zpow_natCast 2 1023
    rw [h3] at h2
    exact absurd (h1.trans_le (h2.trans (hbig.trans h))) (lt_irrefl _)
  have hl : lastPlace x = Int.log 2 |x| - 52 := by unfold lastPlace; omega
  unfold roundQ
  rw [if_neg hx]
  simp only
  rw [show nearestEven (|x| / 2 ^ lastPlace x) = sig x from rfl]
  by_cases h71 : lastPlace x = 971
  · have hs : sig x = 2 ^ 53 := by
      have h2 : (2 : ℚ) ^ (971 : ℤ) = 2 * 2 ^ 970 := by
        rw [show (971 : ℤ) = 1 + ((970 : ℕ) : ℤ) by norm_num, zpow_add₀ (by norm_num), zpow_natCast]; norm_num
      have h3 : (2 : ℚ) ^ 1024 = 2 ^ 54 * 2 ^ 970 := by rw [← pow_add]
      have h4 : (0 : ℚ) < 2 ^ 970 := by positivity
      have hq : ((2 : ℚ) ^ 53 - 1 / 2) ≤ |x| / 2 ^ lastPlace x := by
        rw [h71, h2, le_div_iff₀ (by positivity)]
        rw [h3] at h
        generalize (2 : ℚ) ^ 970 = p at *
        norm_num at h ⊢
        linarith
      have hq' := div_lt_53 x
      have hf : ⌊|x| / 2 ^ lastPlace x⌋ = 2 ^ 53 - 1 := by
        rw [Int.floor_eq_iff]
        push_cast at hq' ⊢
        constructor <;> linarith
      unfold sig nearestEven
      rw [hf]
      push_cast
      rw [if_neg (by linarith)]
      norm_num
    rw [if_pos (by omega), if_neg (by omega)]
  · rw [if_neg (show ¬ lastPlace x + 1 ≤ 971 by omega), if_neg (show ¬ lastPlace x ≤ 971 by omega)]
    split_ifs <;> rfl

end B64
end BN
