import Verif.Model.Binary32
import Verif.Lemmas.Binary64
import Verif.SpecFormat
/-
Rounding to binary32: error bounds and exact cases, as in Lemmas/Binary64.
-/
namespace BN
namespace B32
open B64 (nan inf num toRat neg nearestEven zpow_pos' nearestEven_err nearestEven_int nearestEven_nonneg nearestEven_le log_le lt_log toRat_num sign_abs log_of_le toRat_neg)

theorem div_lt_24 (x : ℚ) : |x| / 2 ^ lastPlace x < (2 ^ 24 : ℤ) := by
  rw [div_lt_iff₀ (zpow_pos' _)]
  refine (lt_log x).trans_le ?_
  have : (2 : ℚ) ^ (Int.log 2 |x| + 1) ≤ 2 ^ (24 + lastPlace x) :=
    zpow_le_zpow_right₀ (by norm_num) (by unfold lastPlace; omega)
  rw [zpow_add₀ (by norm_num) 24] at this
  refine this.trans_eq ?_
  norm_num

/-- The integer significand. -/
def sig (x : ℚ) : ℤ := nearestEven (|x| / 2 ^ lastPlace x)

theorem sig_nonneg (x : ℚ) : 0 ≤ sig x := nearestEven_nonneg (div_nonneg (abs_nonneg _) (zpow_pos' _).le)

theorem sig_le (x : ℚ) : sig x ≤ 2 ^ 24 := nearestEven_le (div_lt_24 x)

theorem sig_err (x : ℚ) : abs ((sig x : ℚ) * 2 ^ lastPlace x - |x|) ≤ 2 ^ lastPlace x / 2 := by
  have h := nearestEven_err (|x| / 2 ^ lastPlace x)
  have hp := zpow_pos' (lastPlace x)
  have e : (sig x : ℚ) * 2 ^ lastPlace x - |x| = ((sig x : ℚ) - |x| / 2 ^ lastPlace x) * 2 ^ lastPlace x := by
    field_simp
  rw [e, abs_mul, abs_of_pos hp]
  have := mul_le_mul_of_nonneg_right h hp.le
  unfold sig
  linarith

/-- Below the overflow threshold rounding gives a finite datum whose value is the rounded significand times the last
place, with the sign of x. -/
theorem roundQ_spec (z : Bool) {x : ℚ} (hx : x ≠ 0) (hb : lastPlace x ≤ 104) (hb' : sig x = 2 ^ 24 → lastPlace x ≤ 103) :
    Finite (roundQ z x) ∧ toRat (roundQ z x) = (if x < 0 then -1 else 1) * (sig x * 2 ^ lastPlace x) := by
  have hs0 := sig_nonneg x
  have hs1 := sig_le x
  have hk : ((sig x).toNat : ℤ) = sig x := Int.toNat_of_nonneg hs0
  have he' : -149 ≤ lastPlace x := le_max_right _ _
  have hk' : (((sig x).toNat : ℕ) : ℚ) = (sig x : ℚ) := by exact_mod_cast congrArg (Int.cast (R := ℚ)) hk
  unfold roundQ
  rw [if_neg hx]
  simp only
  rw [show nearestEven (|x| / 2 ^ lastPlace x) = sig x from rfl]
  by_cases h24 : (sig x).toNat = 2 ^ 24
  · have := hb' (by omega)
    rw [if_pos h24, if_pos (by omega)]
    refine ⟨⟨by norm_num, by omega, by omega⟩, ?_⟩
    rw [toRat_num]
    have h : (sig x : ℚ) = 2 ^ 24 := by rw [← hk', h24]; norm_num
    rw [h, zpow_add₀ (by norm_num)]
    by_cases hn : x < 0
    · simp only [hn, decide_true, if_true]; push_cast; ring
    · simp only [hn, decide_false, if_false, Bool.false_eq_true]; push_cast; ring
  · rw [if_neg h24, if_pos (by omega)]
    refine ⟨⟨by omega, by omega, by omega⟩, ?_⟩
    rw [toRat_num, hk']
    by_cases hn : x < 0 <;> simp [hn]

theorem roundQ_zero (z : Bool) : Finite (roundQ z 0) ∧ toRat (roundQ z 0) = 0 := by
  refine ⟨⟨by norm_num, by norm_num, by norm_num⟩, ?_⟩
  unfold roundQ
  rw [if_pos rfl]
  simp [toRat]

theorem round_err (z : Bool) {x : ℚ} (hx : x ≠ 0) (hb : |x| ≤ 2 ^ 127) :
    Finite (roundQ z x) ∧ |toRat (roundQ z x) - x| ≤ 2 ^ lastPlace x / 2 := by
  have hlog := log_of_le hx (n := 127) (by exact_mod_cast hb)
  have hl : lastPlace x ≤ 104 := by unfold lastPlace; omega
  have hs := roundQ_spec z hx hl (fun h => by
    by_contra hc
    have hl : lastPlace x = 104 := by omega
    have h1 : |x| / 2 ^ lastPlace x ≤ ((2 ^ 23 : ℤ) : ℚ) := by
      rw [hl, div_le_iff₀ (zpow_pos' _)]
      refine hb.trans ?_
      norm_num
    have h2 : sig x < 2 ^ 24 := by
      unfold sig
      have := nearestEven_le (q := |x| / 2 ^ lastPlace x) (n := 2 ^ 23 + 1) (lt_of_le_of_lt h1 (by norm_num))
      omega
    omega)
  refine ⟨hs.1, ?_⟩
  rw [hs.2]
  conv_lhs => rw [show (if x < 0 then (-1 : ℚ) else 1) * (sig x * 2 ^ lastPlace x) - x =
    (if x < 0 then -1 else 1) * (sig x * 2 ^ lastPlace x - |x|) by rw [mul_sub, ← sign_abs x]]
  rw [abs_mul]
  have : |(if x < 0 then (-1 : ℚ) else 1)| = 1 := by split_ifs <;> simp
  rw [this, one_mul]
  exact sig_err x

/-- Exact cases: an integer multiple of the last place. -/
theorem round_exact (z : Bool) {x : ℚ} (hb : x ≠ 0 → Int.log 2 |x| ≤ 127) {m : ℤ} (h : x ≠ 0 → |x| = m * 2 ^ lastPlace x) :
    Finite (roundQ z x) ∧ toRat (roundQ z x) = x := by
  by_cases hx : x = 0
  · subst hx; exact roundQ_zero z
  have hq : |x| / 2 ^ lastPlace x = m := by rw [h hx, mul_div_assoc, div_self (zpow_pos' _).ne', mul_one]
  have hsig : sig x = m := by unfold sig; rw [hq, nearestEven_int]
  have hm : m < 2 ^ 24 := by
    have := div_lt_24 x
    rw [hq] at this
    exact_mod_cast this
  have hs := roundQ_spec z hx (by have := hb hx; unfold lastPlace; omega) (by omega)
  refine ⟨hs.1, ?_⟩
  rw [hs.2, hsig, ← h hx]
  exact (sign_abs x).symm

/-- Numbers with 24 bits and a last place the format has are rounded to themselves. -/
theorem round_rep (z : Bool) {x : ℚ} {m e : ℤ} (hx : x = m * 2 ^ e) (hm : |m| ≤ 2 ^ 24) (he : -149 ≤ e)
    (hb : x ≠ 0 → Int.log 2 |x| ≤ 127) : Finite (roundQ z x) ∧ toRat (roundQ z x) = x := by
  by_cases h0 : x = 0
  · subst h0; exact roundQ_zero z
  have hp := zpow_pos' e
  have habs : |x| = |(m : ℚ)| * 2 ^ e := by rw [hx, abs_mul, abs_of_pos hp]
  have hmR : |(m : ℚ)| ≤ 2 ^ 24 := by exact_mod_cast hm
  have hlog : Int.log 2 |x| ≤ 24 + e := by
    refine log_of_le h0 ?_
    rw [habs, zpow_add₀ (by norm_num)]
    exact mul_le_mul_of_nonneg_right (by exact_mod_cast hmR) hp.le
  by_cases hle : lastPlace x ≤ e
  · obtain ⟨t, ht⟩ := Int.eq_ofNat_of_zero_le (show 0 ≤ e - lastPlace x by omega)
    refine round_exact z hb (m := |m| * 2 ^ t) fun _ => ?_
    rw [habs, show e = (t : ℤ) + lastPlace x by omega, zpow_add₀ (by norm_num), zpow_natCast]
    push_cast
    ring
  · have hlp : lastPlace x = Int.log 2 |x| - 23 := by unfold lastPlace at hle ⊢; omega
    have hl : Int.log 2 |x| = 24 + e := by omega
    have h2 := log_le h0
    rw [hl, habs, zpow_add₀ (by norm_num)] at h2
    have h3 : (2 : ℚ) ^ 24 ≤ |(m : ℚ)| := by exact_mod_cast le_of_mul_le_mul_right h2 hp
    have h4 : |(m : ℚ)| = 2 ^ 24 := le_antisymm hmR h3
    refine round_exact z hb (m := 2 ^ 23) fun _ => ?_
    rw [habs, h4, hlp, hl, show (24 + e - 23 : ℤ) = e + 1 by ring, zpow_add₀ (by norm_num)]
    push_cast
    ring

theorem toRat_rep {x : B64} (h : Finite x) : ∃ m e : ℤ, toRat x = m * 2 ^ e ∧ |m| < 2 ^ 24 ∧ -149 ≤ e ∧ e ≤ 104 := by
  cases x with
  | nan => exact h.elim
  | inf s => exact h.elim
  | num s k e =>
    obtain ⟨h1, h2, h3⟩ := h
    refine ⟨if s then -k else k, e, ?_, ?_, h2, h3⟩
    · unfold toRat
      cases s <;> simp
    · cases s
      · simp only [Bool.false_eq_true, if_false]; rw [abs_of_nonneg (by positivity)]; exact_mod_cast h1
      · simp only [if_true]; rw [abs_neg, abs_of_nonneg (by positivity)]; exact_mod_cast h1

theorem log_finite {x : B64} (h : Finite x) (h0 : toRat x ≠ 0) : Int.log 2 |toRat x| ≤ 127 := by
  obtain ⟨m, e, hx, hm, h1, h2⟩ := toRat_rep h
  have hp := zpow_pos' e
  have hmR : |(m : ℚ)| < 2 ^ 24 := by exact_mod_cast hm
  by_contra hc
  have h3 := log_le h0
  have h4 : (2 : ℚ) ^ (24 + e) ≤ 2 ^ Int.log 2 |toRat x| := zpow_le_zpow_right₀ (by norm_num) (by omega)
  have h5 : |toRat x| < 2 ^ (24 + e) := by
    rw [hx, abs_mul, abs_of_pos hp, zpow_add₀ (by norm_num)]
    exact mul_lt_mul_of_pos_right (by exact_mod_cast hmR) hp
  linarith

theorem place_le {x : ℚ} (hx : x ≠ 0) (h : lastPlace x ≠ -149) : (2 : ℚ) ^ lastPlace x / 2 ≤ |x| / 2 ^ 24 := by
  have hl : lastPlace x = Int.log 2 |x| - 23 := by unfold lastPlace at h ⊢; omega
  have h1 := log_le hx
  rw [hl, zpow_sub₀ (by norm_num)]
  have : (2 : ℚ) ^ (23 : ℤ) = 2 ^ 23 := by norm_num
  rw [this, div_div]
  have e : (2 : ℚ) ^ 23 * 2 = 2 ^ 24 := by norm_num
  rw [e]
  exact div_le_div_of_nonneg_right h1 (by positivity)

/-- Relative error in the normal range, half the smallest number below it. -/
theorem round_err' (z : Bool) {x : ℚ} (h : |x| ≤ 2 ^ 127) :
    Finite (roundQ z x) ∧ |toRat (roundQ z x) - x| ≤ |x| / 2 ^ 24 + 1 / 2 ^ 150 := by
  by_cases hx : x = 0
  · subst hx
    obtain ⟨h1, h2⟩ := roundQ_zero z
    refine ⟨h1, ?_⟩
    rw [h2]
    simp
  obtain ⟨h1, h2⟩ := round_err z hx h
  refine ⟨h1, h2.trans ?_⟩
  by_cases hp : lastPlace x = -149
  · rw [hp]
    have h3 : (2 : ℚ) ^ (-149 : ℤ) / 2 = 1 / 2 ^ 150 := by
      rw [zpow_neg, show (149 : ℤ) = ((149 : ℕ) : ℤ) by rfl, zpow_natCast, pow_succ 2 149]
      field_simp
    rw [h3]
    have : 0 ≤ |x| / 2 ^ 24 := by positivity
    linarith
  · have h4 : (0 : ℚ) < 1 / 2 ^ 150 := by positivity
    linarith [place_le hx hp]

/-- No error below the normal range for multiples of the smallest number, such as sums and differences. -/
theorem round_err_grid (z : Bool) {x : ℚ} (h : |x| ≤ 2 ^ 127) {m : ℤ} (hm : x = m * 2 ^ (-149 : ℤ)) :
    Finite (roundQ z x) ∧ |toRat (roundQ z x) - x| ≤ |x| / 2 ^ 24 := by
  by_cases hx : x = 0
  · subst hx
    obtain ⟨h1, h2⟩ := roundQ_zero z
    refine ⟨h1, ?_⟩
    rw [h2]
    simp
  by_cases hp : lastPlace x = -149
  · obtain ⟨h1, h2⟩ := round_exact z (x := x) (fun _ => log_of_le hx (n := 127) (by exact_mod_cast h)) (m := |m|) fun _ => by
      rw [hp]
      conv_lhs => rw [hm]
      rw [abs_mul, abs_of_pos (zpow_pos' _)]
      push_cast
      rfl
    refine ⟨h1, ?_⟩
    rw [h2]
    simp
    positivity
  · obtain ⟨h1, h2⟩ := round_err z hx h
    exact ⟨h1, h2.trans (place_le hx hp)⟩

theorem grid {x : B64} (h : Finite x) : ∃ m : ℤ, toRat x = m * 2 ^ (-149 : ℤ) := by
  obtain ⟨m, e, hx, -, h1, -⟩ := toRat_rep h
  obtain ⟨t, ht⟩ := Int.eq_ofNat_of_zero_le (show 0 ≤ e + 149 by omega)
  refine ⟨m * 2 ^ t, ?_⟩
  rw [hx, show e = (t : ℤ) + -149 by omega, zpow_add₀ (by norm_num), zpow_natCast]
  push_cast
  ring

theorem finite_neg {x : B64} (h : Finite x) : Finite (neg x) := by
  cases x with
  | nan => exact h
  | inf s => exact h
  | num s k e => exact h

theorem add_eq {x y : B64} (hx : Finite x) (hy : Finite y) : ∃ z, add x y = roundQ z (toRat x + toRat y) := by
  cases x with
  | nan => exact hx.elim
  | inf s => exact hx.elim
  | num s k e =>
    cases y with
    | nan => exact hy.elim
    | inf s => exact hy.elim
    | num t l f => exact ⟨s && t, rfl⟩

theorem mul_eq {x y : B64} (hx : Finite x) (hy : Finite y) : ∃ z, mul x y = roundQ z (toRat x * toRat y) := by
  cases x with
  | nan => exact hx.elim
  | inf s => exact hx.elim
  | num s k e =>
    cases y with
    | nan => exact hy.elim
    | inf s => exact hy.elim
    | num t l f => exact ⟨s != t, rfl⟩

theorem fma_eq {x y z : B64} (hx : Finite x) (hy : Finite y) (hz : Finite z) :
    ∃ b, fma x y z = roundQ b (toRat x * toRat y + toRat z) := by
  cases x with
  | nan => exact hx.elim
  | inf s => exact hx.elim
  | num s k e =>
    cases y with
    | nan => exact hy.elim
    | inf s => exact hy.elim
    | num t l f =>
      cases z with
      | nan => exact hz.elim
      | inf s => exact hz.elim
      | num u m g => exact ⟨(s != t) && u, rfl⟩

theorem div_eq {x y : B64} (hx : Finite x) (hy : Finite y) (h0 : toRat y ≠ 0) : ∃ z, div x y = roundQ z (toRat x / toRat y) := by
  cases x with
  | nan => exact hx.elim
  | inf s => exact hx.elim
  | num s k e =>
    cases y with
    | nan => exact hy.elim
    | inf s => exact hy.elim
    | num t l f =>
      refine ⟨s != t, ?_⟩
      have : l ≠ 0 := by
        rintro rfl
        apply h0
        simp
      unfold div
      exact if_neg this

theorem floor_eq {x : B64} (hx : Finite x) : ∃ z, floor x = roundQ z ⌊toRat x⌋ := by
  cases x with
  | nan => exact hx.elim
  | inf s => exact hx.elim
  | num s k e => exact ⟨s, rfl⟩

theorem add_grid {x y : B64} (hx : Finite x) (hy : Finite y) : ∃ m : ℤ, toRat x + toRat y = m * 2 ^ (-149 : ℤ) := by
  obtain ⟨m, hm⟩ := grid hx
  obtain ⟨n, hn⟩ := grid hy
  exact ⟨m + n, by rw [hm, hn]; push_cast; ring⟩

/-- An integer below 2^24 or a finite datum that is an integer is rounded to itself, as `std::floor` needs. -/
theorem floor_exact (z : Bool) {x : B64} (hx : Finite x) :
    Finite (roundQ z ⌊toRat x⌋) ∧ toRat (roundQ z ⌊toRat x⌋) = ⌊toRat x⌋ := by
  obtain ⟨m, e, he, hm, h1, h2⟩ := toRat_rep hx
  by_cases h0 : 0 ≤ e
  · obtain ⟨t, rfl⟩ := Int.eq_ofNat_of_zero_le h0
    have hi : toRat x = ((m * 2 ^ t : ℤ) : ℚ) := by rw [he, zpow_natCast]; push_cast; rfl
    have hf : ((⌊toRat x⌋ : ℤ) : ℚ) = toRat x := by rw [hi, Int.floor_intCast]
    rw [hf]
    exact round_rep z he hm.le (by omega) fun hne => log_finite hx hne
  · have hp := zpow_pos' e
    have h3 : (2 : ℚ) ^ e ≤ 1 := by
      have := zpow_le_zpow_right₀ (a := (2 : ℚ)) (by norm_num) (show e ≤ 0 by omega)
      simpa using this
    have hmR : |(m : ℚ)| ≤ 2 ^ 24 := by exact_mod_cast hm.le
    have h4 : |toRat x| ≤ 2 ^ 24 := by
      rw [he, abs_mul, abs_of_pos hp]
      calc |(m : ℚ)| * 2 ^ e ≤ 2 ^ 24 * 1 := mul_le_mul hmR h3 hp.le (by positivity)
        _ = 2 ^ 24 := by ring
    have h5 : |⌊toRat x⌋| ≤ 2 ^ 24 := by
      obtain ⟨ha, hb⟩ := abs_le.1 h4
      rw [abs_le]
      constructor
      · rw [Int.le_floor]; push_cast; exact ha
      · have : ((⌊toRat x⌋ : ℤ) : ℚ) ≤ 2 ^ 24 := (Int.floor_le _).trans hb
        exact_mod_cast this
    refine round_rep z (m := ⌊toRat x⌋) (e := 0) (by simp) h5 (by norm_num) fun hne => ?_
    refine (log_of_le hne (n := 24) ?_).trans (by norm_num)
    exact_mod_cast h5

theorem round_int (z : Bool) {n : ℤ} (h : |n| ≤ 2 ^ 24) : Finite (roundQ z n) ∧ toRat (roundQ z n) = n := by
  refine round_rep z (m := n) (e := 0) (by simp) h (by norm_num) fun hne => ?_
  refine (log_of_le hne (n := 24) ?_).trans (by norm_num)
  exact_mod_cast h

/-- Storing an angle in a `float`. -/
theorem round_angle (z : Bool) {x : ℚ} (hx : |x| ≤ 4) :
    Finite (roundQ z x) ∧ |toRat (roundQ z x) - x| ≤ 1 / 2 ^ 23 ∧ |toRat (roundQ z x)| ≤ 5 := by
  suffices h : Finite (roundQ z x) ∧ |toRat (roundQ z x) - x| ≤ 1 / 2 ^ 23 by
    refine ⟨h.1, h.2, ?_⟩
    have h1 := abs_le.1 h.2
    have h2 := abs_le.1 hx
    rw [abs_le]
    norm_num at h1
    constructor <;> linarith
  by_cases h0 : x = 0
  · subst h0
    obtain ⟨h1, h2⟩ := roundQ_zero z
    exact ⟨h1, by rw [h2]; norm_num⟩
  by_cases h4 : |x| = 4
  · have : ∃ m : ℤ, x = m * 2 ^ (0 : ℤ) ∧ |m| ≤ 2 ^ 24 := by
      rcases abs_eq (by norm_num : (0 : ℚ) ≤ 4) |>.1 h4 with rfl | rfl
      · exact ⟨4, by norm_num, by norm_num⟩
      · exact ⟨-4, by norm_num, by norm_num⟩
    obtain ⟨m, hm, hb⟩ := this
    obtain ⟨h1, h2⟩ := round_rep z hm hb (by norm_num) fun hne => (log_of_le hne (n := 127) (hx.trans (by norm_num)))
    exact ⟨h1, by rw [h2]; norm_num⟩
  · obtain ⟨h1, h2⟩ := round_err z h0 (hx.trans (by norm_num))
    refine ⟨h1, h2.trans ?_⟩
    have hl : lastPlace x ≤ -22 := by
      have h3 := log_le h0
      have : Int.log 2 |x| < 2 := by
        by_contra hc
        have h5 : (2 : ℚ) ^ (2 : ℤ) ≤ 2 ^ Int.log 2 |x| := zpow_le_zpow_right₀ (by norm_num) (by omega)
        have h6 : |x| < 4 := lt_of_le_of_ne hx h4
        norm_num at h5
        linarith
      unfold lastPlace
      omega
    have := zpow_le_zpow_right₀ (a := (2 : ℚ)) (by norm_num) hl
    norm_num at this ⊢
    linarith

/-- A `float` is a `double`. -/
theorem Finite.double {x : B64} (h : Finite x) : B64.Finite x := by
  cases x with
  | nan => exact h
  | inf s => exact h
  | num s k e => exact ⟨h.1.trans (by norm_num), by have := h.2.1; omega, by have := h.2.2; omega⟩

end B32

/-- The library's sine and cosine for `float` are finite and within a unit in the last place below 1, for arguments up to 5. -/
def MathLib.AccurateSingle (lib : MathLib) : Prop :=
  ∀ x : B64, B32.Finite x → |(x.toRat : ℝ)| ≤ 5 →
    B32.Finite (lib.cos x) ∧ |((lib.cos x).toRat : ℝ) - Real.cos x.toRat| ≤ 1 / 2 ^ 24 ∧
    B32.Finite (lib.sin x) ∧ |((lib.sin x).toRat : ℝ) - Real.sin x.toRat| ≤ 1 / 2 ^ 24

end BN
