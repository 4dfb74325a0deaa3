import Verif.Model.Binary64
import Verif.SpecFloat
import Verif.Lemmas.FloatErr
import Mathlib.Analysis.Real.Pi.Bounds
/-
Rounding to binary64: error bounds and exact cases.
-/
namespace BN
namespace B64

theorem zpow_pos' (e : ℤ) : (0 : ℚ) < 2 ^ e := zpow_pos (by norm_num) e

theorem nearestEven_err (q : ℚ) : |(nearestEven q : ℚ) - q| ≤ 1 / 2 := by
  have h0 := Int.floor_le q
  have h1 := Int.lt_floor_add_one q
  unfold nearestEven
  split_ifs with a b c <;> rw [abs_le] <;> push_cast <;> constructor <;> linarith

theorem nearestEven_int (n : ℤ) : nearestEven n = n := by
  unfold nearestEven
  simp

theorem nearestEven_nonneg {q : ℚ} (h : 0 ≤ q) : 0 ≤ nearestEven q := by
  have : 0 ≤ ⌊q⌋ := Int.floor_nonneg.2 h
  unfold nearestEven
  split_ifs <;> omega

theorem nearestEven_le {q : ℚ} {n : ℤ} (h : q < n) : nearestEven q ≤ n := by
  have : ⌊q⌋ < n := Int.floor_lt.2 h
  unfold nearestEven
  split_ifs <;> omega

theorem log_le {x : ℚ} (hx : x ≠ 0) : (2 : ℚ) ^ Int.log 2 |x| ≤ |x| := by
  exact_mod_cast Int.zpow_log_le_self (b := 2) (by norm_num) (abs_pos.2 hx)

theorem lt_log (x : ℚ) : |x| < (2 : ℚ) ^ (Int.log 2 |x| + 1) := by
  exact_mod_cast Int.lt_zpow_succ_log_self (b := 2) (by norm_num) |x|

theorem div_lt_53 (x : ℚ) : |x| / 2 ^ lastPlace x < (2 ^ 53 : ℤ) := by
  rw [div_lt_iff₀ (zpow_pos' _)]
  refine (lt_log x).trans_le ?_
  have : (2 : ℚ) ^ (Int.log 2 |x| + 1) ≤ 2 ^ (53 + lastPlace x) :=
    zpow_le_zpow_right₀ (by norm_num) (by unfold lastPlace; omega)
  rw [zpow_add₀ (by norm_num) 53] at this
  refine this.trans_eq ?_
  norm_num

/-- The integer significand. -/
def sig (x : ℚ) : ℤ := nearestEven (|x| / 2 ^ lastPlace x)

theorem sig_nonneg (x : ℚ) : 0 ≤ sig x := nearestEven_nonneg (div_nonneg (abs_nonneg _) (zpow_pos' _).le)

theorem sig_le (x : ℚ) : sig x ≤ 2 ^ 53 := nearestEven_le (div_lt_53 x)

theorem sig_err (x : ℚ) : abs ((sig x : ℚ) * 2 ^ lastPlace x - |x|) ≤ 2 ^ lastPlace x / 2 := by
  have h := nearestEven_err (|x| / 2 ^ lastPlace x)
  have hp := zpow_pos' (lastPlace x)
  have e : (sig x : ℚ) * 2 ^ lastPlace x - |x| = ((sig x : ℚ) - |x| / 2 ^ lastPlace x) * 2 ^ lastPlace x := by
    field_simp
  rw [e, abs_mul, abs_of_pos hp]
  have := mul_le_mul_of_nonneg_right h hp.le
  unfold sig
  linarith

@[simp] theorem toRat_num (s : Bool) (k : Nat) (e : Int) : toRat (num s k e) = (if s then -1 else 1) * (k * 2 ^ e) := rfl

/-- Below the overflow threshold rounding gives a finite datum whose value is the rounded significand times the last
place, with the sign of x. -/
theorem roundQ_spec (z : Bool) {x : ℚ} (hx : x ≠ 0) (hb : lastPlace x ≤ 971) (hb' : sig x = 2 ^ 53 → lastPlace x ≤ 970) :
    Finite (roundQ z x) ∧ toRat (roundQ z x) = (if x < 0 then -1 else 1) * (sig x * 2 ^ lastPlace x) := by
  have hs0 := sig_nonneg x
  have hs1 := sig_le x
  have hk : ((sig x).toNat : ℤ) = sig x := Int.toNat_of_nonneg hs0
  have he' : -1074 ≤ lastPlace x := le_max_right _ _
  have hk' : (((sig x).toNat : ℕ) : ℚ) = (sig x : ℚ) := by exact_mod_cast congrArg (Int.cast (R := ℚ)) hk
  unfold roundQ
  rw [if_neg hx]
  simp only
  rw [show nearestEven (|x| / 2 ^ lastPlace x) = sig x from rfl]
  by_cases h53 : (sig x).toNat = 2 ^ 53
  · have := hb' (by omega)
    rw [if_pos h53, if_pos (by omega)]
    refine ⟨⟨by norm_num, by omega, by omega⟩, ?_⟩
    rw [toRat_num]
    have h : (sig x : ℚ) = 2 ^ 53 := by rw [← hk', h53]; norm_num
    rw [h, zpow_add₀ (by norm_num)]
    by_cases hn : x < 0
    · simp only [hn, decide_true, if_true]; push_cast; ring
    · simp only [hn, decide_false, if_false, Bool.false_eq_true]; push_cast; ring
  · rw [if_neg h53, if_pos (by omega)]
    refine ⟨⟨by omega, by omega, by omega⟩, ?_⟩
    rw [toRat_num, hk']
    by_cases hn : x < 0 <;> simp [hn]

theorem sign_abs (x : ℚ) : x = (if x < 0 then -1 else 1) * |x| := by
  by_cases h : x < 0
  · rw [if_pos h, abs_of_neg h]; ring
  · rw [if_neg h, abs_of_nonneg (not_lt.1 h)]; ring

theorem roundQ_zero (z : Bool) : Finite (roundQ z 0) ∧ toRat (roundQ z 0) = 0 := by
  refine ⟨⟨by norm_num, by norm_num, by norm_num⟩, ?_⟩
  unfold roundQ
  rw [if_pos rfl]
  simp [toRat]

theorem round_err (z : Bool) {x : ℚ} (hx : x ≠ 0) (hb : Int.log 2 |x| ≤ 1022) :
    Finite (roundQ z x) ∧ |toRat (roundQ z x) - x| ≤ 2 ^ lastPlace x / 2 := by
  have hl : lastPlace x ≤ 970 := by unfold lastPlace; omega
  have hs := roundQ_spec z hx (by omega) (fun _ => hl)
  refine ⟨hs.1, ?_⟩
  rw [hs.2]
  conv_lhs => rw [show (if x < 0 then (-1 : ℚ) else 1) * (sig x * 2 ^ lastPlace x) - x =
    (if x < 0 then -1 else 1) * (sig x * 2 ^ lastPlace x - |x|) by rw [mul_sub, ← sign_abs x]]
  rw [abs_mul]
  have : |(if x < 0 then (-1 : ℚ) else 1)| = 1 := by split_ifs <;> simp
  rw [this, one_mul]
  exact sig_err x

theorem log_of_le {x : ℚ} (hx : x ≠ 0) {n : ℤ} (h : |x| ≤ 2 ^ n) : Int.log 2 |x| ≤ n := by
  by_contra hc
  have h1 := log_le hx
  have h2 : (2 : ℚ) ^ n < 2 ^ Int.log 2 |x| := zpow_lt_zpow_right₀ (by norm_num) (by omega)
  linarith

/-- Exact cases: an integer multiple of the last place. -/
theorem round_exact (z : Bool) {x : ℚ} (hb : x ≠ 0 → Int.log 2 |x| ≤ 1023) {m : ℤ} (h : x ≠ 0 → |x| = m * 2 ^ lastPlace x) :
    Finite (roundQ z x) ∧ toRat (roundQ z x) = x := by
  by_cases hx : x = 0
  · subst hx; exact roundQ_zero z
  have hq : |x| / 2 ^ lastPlace x = m := by rw [h hx, mul_div_assoc, div_self (zpow_pos' _).ne', mul_one]
  have hsig : sig x = m := by unfold sig; rw [hq, nearestEven_int]
  have hm : m < 2 ^ 53 := by
    have := div_lt_53 x
    rw [hq] at this
    exact_mod_cast this
  have hs := roundQ_spec z hx (by have := hb hx; unfold lastPlace; omega) (by omega)
  refine ⟨hs.1, ?_⟩
  rw [hs.2, hsig, ← h hx]
  exact (sign_abs x).symm

/-- Numbers with 53 bits and a last place the format has are rounded to themselves. -/
theorem round_rep (z : Bool) {x : ℚ} {m e : ℤ} (hx : x = m * 2 ^ e) (hm : |m| ≤ 2 ^ 53) (he : -1074 ≤ e)
    (hb : x ≠ 0 → Int.log 2 |x| ≤ 1023) : Finite (roundQ z x) ∧ toRat (roundQ z x) = x := by
  by_cases h0 : x = 0
  · subst h0; exact roundQ_zero z
  have hp := zpow_pos' e
  have habs : |x| = |(m : ℚ)| * 2 ^ e := by rw [hx, abs_mul, abs_of_pos hp]
  have hmR : |(m : ℚ)| ≤ 2 ^ 53 := by exact_mod_cast hm
  have hlog : Int.log 2 |x| ≤ 53 + e := by
    refine log_of_le h0 ?_
    rw [habs, zpow_add₀ (by norm_num)]
    exact mul_le_mul_of_nonneg_right (by exact_mod_cast hmR) hp.le
  by_cases hle : lastPlace x ≤ e
  · obtain ⟨t, ht⟩ := Int.eq_ofNat_of_zero_le (show 0 ≤ e - lastPlace x by omega)
    refine round_exact z hb (m := |m| * 2 ^ t) fun _ => ?_
    rw [habs, show e = (t : ℤ) + lastPlace x by omega, zpow_add₀ (by norm_num), zpow_natCast]
    push_cast
    ring
  · have hlp : lastPlace x = Int.log 2 |x| - 52 := by unfold lastPlace at hle ⊢; omega
    have hl : Int.log 2 |x| = 53 + e := by omega
    have h2 := log_le h0
    rw [hl, habs, zpow_add₀ (by norm_num)] at h2
    have h3 : (2 : ℚ) ^ 53 ≤ |(m : ℚ)| := by exact_mod_cast le_of_mul_le_mul_right h2 hp
    have h4 : |(m : ℚ)| = 2 ^ 53 := le_antisymm hmR h3
    refine round_exact z hb (m := 2 ^ 52) fun _ => ?_
    rw [habs, h4, hlp, hl, show (53 + e - 52 : ℤ) = e + 1 by ring, zpow_add₀ (by norm_num)]
    push_cast
    ring

theorem toRat_rep {x : B64} (h : Finite x) : ∃ m e : ℤ, toRat x = m * 2 ^ e ∧ |m| < 2 ^ 53 ∧ -1074 ≤ e ∧ e ≤ 971 := by
  cases x with
  | nan => exact h.elim
  | inf s => exact h.elim
  | num s k e =>
    obtain ⟨h1, h2, h3⟩ := h
    refine ⟨if s then -k else k, e, ?_, ?_, h2, h3⟩
    · unfold toRat
      cases s <;> simp
    · cases s
      · simp only [Bool.false_eq_true, if_false]; rw [abs_of_nonneg (by positivity)]; exact_mod_cast h1
      · simp only [if_true]; rw [abs_neg, abs_of_nonneg (by positivity)]; exact_mod_cast h1

theorem log_finite {x : B64} (h : Finite x) (h0 : toRat x ≠ 0) : Int.log 2 |toRat x| ≤ 1023 := by
  obtain ⟨m, e, hx, hm, h1, h2⟩ := toRat_rep h
  have hp := zpow_pos' e
  have hmR : |(m : ℚ)| < 2 ^ 53 := by exact_mod_cast hm
  by_contra hc
  have h3 := log_le h0
  have h4 : (2 : ℚ) ^ (53 + e) ≤ 2 ^ Int.log 2 |toRat x| := zpow_le_zpow_right₀ (by norm_num) (by omega)
  have h5 : |toRat x| < 2 ^ (53 + e) := by
    rw [hx, abs_mul, abs_of_pos hp, zpow_add₀ (by norm_num)]
    exact mul_lt_mul_of_pos_right (by exact_mod_cast hmR) hp
  linarith

theorem log_200 {x : ℚ} (hx : x ≠ 0) (h : |x| ≤ 2 ^ 200) : Int.log 2 |x| ≤ 1022 :=
  (log_of_le hx (n := 200) (by exact_mod_cast h)).trans (by norm_num)

theorem place_le {x : ℚ} (hx : x ≠ 0) (h : lastPlace x ≠ -1074) : (2 : ℚ) ^ lastPlace x / 2 ≤ |x| / 2 ^ 53 := by
  have hl : lastPlace x = Int.log 2 |x| - 52 := by unfold lastPlace at h ⊢; omega
  have h1 := log_le hx
  rw [hl, zpow_sub₀ (by norm_num)]
  have : (2 : ℚ) ^ (52 : ℤ) = 2 ^ 52 := by norm_num
  rw [this, div_div]
  have e : (2 : ℚ) ^ 52 * 2 = 2 ^ 53 := by norm_num
  rw [e]
  exact div_le_div_of_nonneg_right h1 (by positivity)

/-- Relative error in the normal range, half the smallest number below it. -/
theorem round_err' (z : Bool) {x : ℚ} (h : |x| ≤ 2 ^ 200) :
    Finite (roundQ z x) ∧ |toRat (roundQ z x) - x| ≤ |x| / 2 ^ 53 + 1 / 2 ^ 1075 := by
  by_cases hx : x = 0
  · subst hx
    obtain ⟨h1, h2⟩ := roundQ_zero z
    refine ⟨h1, ?_⟩
    rw [h2]
    simp
  obtain ⟨h1, h2⟩ := round_err z hx (log_200 hx h)
  refine ⟨h1, h2.trans ?_⟩
  by_cases hp : lastPlace x = -1074
  · rw [hp]
    have h3 : (2 : ℚ) ^ (-1074 : ℤ) / 2 = 1 / 2 ^ 1075 := by
      rw [zpow_neg, show (1074 : ℤ) = ((1074 : ℕ) : ℤ) by rfl, zpow_natCast, pow_succ 2 1074]
      field_simp
    rw [h3]
    have : 0 ≤ |x| / 2 ^ 53 := by positivity
    linarith
  · have h4 : (0 : ℚ) < 1 / 2 ^ 1075 := by positivity
    linarith [place_le hx hp]

/-- No error below the normal range for multiples of the smallest number, such as sums and differences. -/
theorem round_err_grid (z : Bool) {x : ℚ} (h : |x| ≤ 2 ^ 200) {m : ℤ} (hm : x = m * 2 ^ (-1074 : ℤ)) :
    Finite (roundQ z x) ∧ |toRat (roundQ z x) - x| ≤ |x| / 2 ^ 53 := by
  by_cases hx : x = 0
  · subst hx
    obtain ⟨h1, h2⟩ := roundQ_zero z
    refine ⟨h1, ?_⟩
    rw [h2]
    simp
  by_cases hp : lastPlace x = -1074
  · obtain ⟨h1, h2⟩ := round_exact z (x := x) (fun _ => (log_200 hx h).trans (by norm_num)) (m := |m|) fun _ => by
      rw [hp]
      conv_lhs => rw [hm]
      rw [abs_mul, abs_of_pos (zpow_pos' _)]
      push_cast
      rfl
    refine ⟨h1, ?_⟩
    rw [h2]
    simp
    positivity
  · obtain ⟨h1, h2⟩ := round_err z hx (log_200 hx h)
    exact ⟨h1, h2.trans (place_le hx hp)⟩

theorem grid {x : B64} (h : Finite x) : ∃ m : ℤ, toRat x = m * 2 ^ (-1074 : ℤ) := by
  obtain ⟨m, e, hx, -, h1, -⟩ := toRat_rep h
  obtain ⟨t, ht⟩ := Int.eq_ofNat_of_zero_le (show 0 ≤ e + 1074 by omega)
  refine ⟨m * 2 ^ t, ?_⟩
  rw [hx, show e = (t : ℤ) + -1074 by omega, zpow_add₀ (by norm_num), zpow_natCast]
  push_cast
  ring

theorem toRat_neg (x : B64) : toRat (neg x) = - toRat x := by
  cases x with
  | nan => simp [neg, toRat]
  | inf s => simp [neg, toRat]
  | num s k e => cases s <;> simp [neg]

theorem finite_neg {x : B64} (h : Finite x) : Finite (neg x) := by
  cases x with
  | nan => exact h
  | inf s => exact h
  | num s k e => exact h

theorem add_eq {x y : B64} (hx : Finite x) (hy : Finite y) : ∃ z, add x y = roundQ z (toRat x + toRat y) := by
  cases x with
  | nan => exact hx.elim
  | inf s => exact hx.elim
  | num s k e =>
    cases y with
    | nan => exact hy.elim
    | inf s => exact hy.elim
    | num t l f => exact ⟨s && t, rfl⟩

theorem mul_eq {x y : B64} (hx : Finite x) (hy : Finite y) : ∃ z, mul x y = roundQ z (toRat x * toRat y) := by
  cases x with
  | nan => exact hx.elim
  | inf s => exact hx.elim
  | num s k e =>
    cases y with
    | nan => exact hy.elim
    | inf s => exact hy.elim
    | num t l f => exact ⟨s != t, rfl⟩

theorem fma_eq {x y z : B64} (hx : Finite x) (hy : Finite y) (hz : Finite z) :
    ∃ b, fma x y z = roundQ b (toRat x * toRat y + toRat z) := by
  cases x with
  | nan => exact hx.elim
  | inf s => exact hx.elim
  | num s k e =>
    cases y with
    | nan => exact hy.elim
    | inf s => exact hy.elim
    | num t l f =>
      cases z with
      | nan => exact hz.elim
      | inf s => exact hz.elim
      | num u m g => exact ⟨(s != t) && u, rfl⟩

theorem div_eq {x y : B64} (hx : Finite x) (hy : Finite y) (h0 : toRat y ≠ 0) : ∃ z, div x y = roundQ z (toRat x / toRat y) := by
  cases x with
  | nan => exact hx.elim
  | inf s => exact hx.elim
  | num s k e =>
    cases y with
    | nan => exact hy.elim
    | inf s => exact hy.elim
    | num t l f =>
      refine ⟨s != t, ?_⟩
      have : l ≠ 0 := by
        rintro rfl
        apply h0
        simp
      unfold div
      exact if_neg this

theorem floor_eq {x : B64} (hx : Finite x) : ∃ z, floor x = roundQ z ⌊toRat x⌋ := by
  cases x with
  | nan => exact hx.elim
  | inf s => exact hx.elim
  | num s k e => exact ⟨s, rfl⟩

theorem add_grid {x y : B64} (hx : Finite x) (hy : Finite y) : ∃ m : ℤ, toRat x + toRat y = m * 2 ^ (-1074 : ℤ) := by
  obtain ⟨m, hm⟩ := grid hx
  obtain ⟨n, hn⟩ := grid hy
  exact ⟨m + n, by rw [hm, hn]; push_cast; ring⟩

/-- An integer below 2^53 or a finite datum that is an integer is rounded to itself, as `std::floor` needs. -/
theorem floor_exact (z : Bool) {x : B64} (hx : Finite x) :
    Finite (roundQ z ⌊toRat x⌋) ∧ toRat (roundQ z ⌊toRat x⌋) = ⌊toRat x⌋ := by
  obtain ⟨m, e, he, hm, h1, h2⟩ := toRat_rep hx
  by_cases h0 : 0 ≤ e
  · obtain ⟨t, rfl⟩ := Int.eq_ofNat_of_zero_le h0
    have hi : toRat x = ((m * 2 ^ t : ℤ) : ℚ) := by rw [he, zpow_natCast]; push_cast; rfl
    have hf : ((⌊toRat x⌋ : ℤ) : ℚ) = toRat x := by rw [hi, Int.floor_intCast]
    rw [hf]
    exact round_rep z he hm.le (by omega) fun hne => log_finite hx hne
  · have hp := zpow_pos' e
    have h3 : (2 : ℚ) ^ e ≤ 1 := by
      have := zpow_le_zpow_right₀ (a := (2 : ℚ)) (by norm_num) (show e ≤ 0 by omega)
      simpa using this
    have hmR : |(m : ℚ)| ≤ 2 ^ 53 := by exact_mod_cast hm.le
    have h4 : |toRat x| ≤ 2 ^ 53 := by
      rw [he, abs_mul, abs_of_pos hp]
      calc |(m : ℚ)| * 2 ^ e ≤ 2 ^ 53 * 1 := mul_le_mul hmR h3 hp.le (by positivity)
        _ = 2 ^ 53 := by ring
    have h5 : |⌊toRat x⌋| ≤ 2 ^ 53 := by
      obtain ⟨ha, hb⟩ := abs_le.1 h4
      rw [abs_le]
      constructor
      · rw [Int.le_floor]; push_cast; exact ha
      · have : ((⌊toRat x⌋ : ℤ) : ℚ) ≤ 2 ^ 53 := (Int.floor_le _).trans hb
        exact_mod_cast this
    refine round_rep z (m := ⌊toRat x⌋) (e := 0) (by simp) h5 (by norm_num) fun hne => ?_
    refine (log_of_le hne (n := 53) ?_).trans (by norm_num)
    exact_mod_cast h5

theorem round_int (z : Bool) {n : ℤ} (h : |n| ≤ 2 ^ 53) : Finite (roundQ z n) ∧ toRat (roundQ z n) = n := by
  refine round_rep z (m := n) (e := 0) (by simp) h (by norm_num) fun hne => ?_
  refine (log_of_le hne (n := 53) ?_).trans (by norm_num)
  exact_mod_cast h

theorem even_of_large {x : B64} (hx : Finite x) (h : 2 ^ 53 ≤ |toRat x|) : ∃ m : ℤ, toRat x = ((2 * m : ℤ) : ℚ) := by
  obtain ⟨m, e, he, hm, h1, h2⟩ := toRat_rep hx
  have hp := zpow_pos' e
  have hmR : |(m : ℚ)| < 2 ^ 53 := by exact_mod_cast hm
  have h0 : 1 ≤ e := by
    by_contra hc
    have h3 : (2 : ℚ) ^ e ≤ 1 := by
      have := zpow_le_zpow_right₀ (a := (2 : ℚ)) (by norm_num) (show e ≤ 0 by omega)
      simpa using this
    rw [he, abs_mul, abs_of_pos hp] at h
    have : |(m : ℚ)| * 2 ^ e ≤ |(m : ℚ)| * 1 := mul_le_mul_of_nonneg_left h3 (abs_nonneg _)
    linarith
  obtain ⟨t, ht⟩ := Int.eq_ofNat_of_zero_le (show 0 ≤ e - 1 by omega)
  refine ⟨m * 2 ^ t, ?_⟩
  rw [he, show e = (t : ℤ) + 1 by omega, zpow_add₀ (by norm_num), zpow_natCast]
  push_cast
  ring

end B64

/-- The library's sine and cosine are finite and within two units in the last place near 1, for arguments up to 4. -/
def MathLib.Accurate (lib : MathLib) : Prop :=
  ∀ x : B64, x.Finite → |(x.toRat : ℝ)| ≤ 4 →
    (lib.cos x).Finite ∧ |((lib.cos x).toRat : ℝ) - Real.cos x.toRat| ≤ 4 / 2 ^ 53 ∧
    (lib.sin x).Finite ∧ |((lib.sin x).toRat : ℝ) - Real.sin x.toRat| ≤ 4 / 2 ^ 53

open B64

theorem real_err {x y c : ℚ} (h : |y - x| ≤ |x| / 2 ^ 53 + c) : |(y : ℝ) - (x : ℝ)| ≤ uro * |(x : ℝ)| + c := by
  have : ((|y - x| : ℚ) : ℝ) ≤ ((|x| / 2 ^ 53 + c : ℚ) : ℝ) := by exact_mod_cast h
  push_cast at this
  have hu : 1 / 2 ^ 53 ≤ uro := by norm_num [uro]
  have := mul_le_mul_of_nonneg_right hu (abs_nonneg (x : ℝ))
  linarith

theorem real_err0 {x y : ℚ} (h : |y - x| ≤ |x| / 2 ^ 53) : |(y : ℝ) - (x : ℝ)| ≤ uro * |(x : ℝ)| := by
  have := real_err (x := x) (y := y) (c := 0) (by linarith)
  simpa using this

theorem le_big {x : ℚ} (h : |(x : ℝ)| ≤ big) : |x| ≤ 2 ^ 200 := by
  unfold big at h
  have : ((|x| : ℚ) : ℝ) ≤ ((2 ^ 200 : ℚ) : ℝ) := by push_cast; exact h
  exact_mod_cast this

theorem tiny_eta : ((1 / 2 ^ 1075 : ℚ) : ℝ) ≤ eta := by
  unfold eta
  push_cast
  exact div_le_div_of_nonneg_left (by norm_num) (by positivity) (pow_le_pow_right₀ (by norm_num) (by norm_num))

theorem pi64 : roundQ false (31415926535897932384626433832795 / 10 ^ 31) = num false 7074237752028440 (-51) := by decide +kernel

theorem fma_err {x y z : B64} (hx : Finite x) (hy : Finite y) (hz : Finite z)
    (hb : |(toRat x : ℝ) * toRat y + toRat z| ≤ big) :
    Finite (fma x y z) ∧ |(toRat (fma x y z) : ℝ) - (toRat x * toRat y + toRat z)| ≤ uro * |(toRat x : ℝ) * toRat y + toRat z| + eta := by
  obtain ⟨b, hz⟩ := fma_eq hx hy hz
  have := round_err' b (x := toRat x * toRat y + toRat z) (le_big (by push_cast; exact hb))
  rw [hz]
  have h2 := real_err this.2
  rw [Rat.cast_add, Rat.cast_mul] at h2
  exact ⟨this.1, h2.trans (by linarith [tiny_eta])⟩

theorem mul_finite {x y : B64} (hx : Finite x) (hy : Finite y) (hb : |(toRat x : ℝ) * toRat y| ≤ big / 2) : Finite (mul x y) := by
  obtain ⟨z, hz⟩ := mul_eq hx hy
  rw [hz]
  have : (0 : ℝ) < big := by unfold big; positivity
  exact (round_err' z (x := toRat x * toRat y) (le_big (by push_cast; linarith))).1

/-- The laws hold of binary64. -/
noncomputable def ieee64 (lib : MathLib) (h : lib.Accurate) (fuse : Fusing) : Ieee (binary64 lib fuse) where
  val x := (x.toRat : ℝ)
  fin := Finite
  ofNat_ok n hn := by
    have := round_int false (n := (n : ℤ)) (by rw [abs_of_nonneg (by positivity)]; exact_mod_cast hn)
    refine ⟨this.1, ?_⟩
    have h2 := this.2
    rw [Int.cast_natCast] at h2
    show ((toRat (roundQ false n) : ℚ) : ℝ) = n
    rw [h2]
    simp
  add_ok x y hx hy hb := by
    obtain ⟨z, hz⟩ := add_eq hx hy
    obtain ⟨m, hm⟩ := add_grid hx hy
    have := round_err_grid z (x := toRat x + toRat y) (le_big (by push_cast; exact hb)) hm
    show Finite (add x y) ∧ |((toRat (add x y) : ℚ) : ℝ) - _| ≤ _
    rw [hz]
    have h2 := real_err0 this.2
    push_cast at h2
    exact ⟨this.1, h2⟩
  sub_ok x y hx hy hb := by
    have hy' := finite_neg hy
    obtain ⟨z, hz⟩ := add_eq hx hy'
    obtain ⟨m, hm⟩ := add_grid hx hy'
    rw [toRat_neg, ← sub_eq_add_neg] at hz hm
    have := round_err_grid z (x := toRat x - toRat y) (le_big (by push_cast; exact hb)) hm
    show Finite (add x (neg y)) ∧ |((toRat (add x (neg y)) : ℚ) : ℝ) - _| ≤ _
    rw [hz]
    have h2 := real_err0 this.2
    push_cast at h2
    exact ⟨this.1, h2⟩
  mul_ok x y hx hy hb := by
    obtain ⟨z, hz⟩ := mul_eq hx hy
    have := round_err' z (x := toRat x * toRat y) (le_big (by push_cast; exact hb))
    show Finite (mul x y) ∧ |((toRat (mul x y) : ℚ) : ℝ) - _| ≤ _
    rw [hz]
    have h2 := real_err this.2
    rw [Rat.cast_mul] at h2
    exact ⟨this.1, h2.trans (by linarith [tiny_eta])⟩
  mulSub_ok x y z w hx hy hz hw b1 b2 := by
    show (match fuse x y z w with
      | .separate => B64.sub (B64.mul x y) (B64.mul z w)
      | .first => B64.fma x y (B64.neg (B64.mul z w))
      | .second => B64.fma (B64.neg z) w (B64.mul x y)) = _ ∨ _
    cases hf : fuse x y z w with
    | separate => exact .inl rfl
    | first =>
      refine .inr (.inl fun hb => ?_)
      have := fma_err hx hy (finite_neg (mul_finite hz hw b2)) (by
        rw [toRat_neg]; push_cast; rw [← sub_eq_add_neg]; exact hb)
      rw [toRat_neg] at this
      push_cast at this
      rw [← sub_eq_add_neg] at this
      simp only [binary64, hf]
      exact this
    | second =>
      refine .inr (.inr fun hb => ?_)
      have e : ((toRat (neg z) : ℚ) : ℝ) * toRat w + toRat (mul x y) = toRat (mul x y) - toRat z * toRat w := by
        rw [toRat_neg]; push_cast; ring
      have := fma_err (finite_neg hz) hw (mul_finite hx hy b1) (by rw [e]; exact hb)
      rw [e] at this
      simp only [binary64, hf]
      exact this
  mulAdd_ok x y z w hx hy hz hw b1 b2 := by
    show (match fuse x y z w with
      | .separate => B64.add (B64.mul x y) (B64.mul z w)
      | .first => B64.fma x y (B64.mul z w)
      | .second => B64.fma z w (B64.mul x y)) = _ ∨ _
    cases hf : fuse x y z w with
    | separate => exact .inl rfl
    | first =>
      refine .inr (.inl fun hb => ?_)
      have := fma_err hx hy (mul_finite hz hw b2) hb
      simp only [binary64, hf]
      exact this
    | second =>
      refine .inr (.inr fun hb => ?_)
      have e : ((toRat z : ℚ) : ℝ) * toRat w + toRat (mul x y) = toRat (mul x y) + toRat z * toRat w := by ring
      have := fma_err hz hw (mul_finite hx hy b1) (by rw [e]; exact hb)
      rw [e] at this
      simp only [binary64, hf]
      exact this
  div_ok x y hx hy h0 hb := by
    have h0' : toRat y ≠ 0 := fun hc => h0 (by rw [hc]; simp)
    obtain ⟨z, hz⟩ := div_eq hx hy h0'
    have := round_err' z (x := toRat x / toRat y) (le_big (by push_cast; exact hb))
    show Finite (div x y) ∧ |((toRat (div x y) : ℚ) : ℝ) - _| ≤ _
    rw [hz]
    have h2 := real_err this.2
    rw [Rat.cast_div] at h2
    exact ⟨this.1, h2.trans (by linarith [tiny_eta])⟩
  neg_ok x hx := ⟨finite_neg hx, by
    show ((toRat (neg x) : ℚ) : ℝ) = _
    rw [toRat_neg]; push_cast; rfl⟩
  cos_ok x hx hb := by
    obtain ⟨h1, h2, -, -⟩ := h x hx hb
    refine ⟨h1, h2.trans ?_⟩
    norm_num [uro]
  sin_ok x hx hb := by
    obtain ⟨-, -, h1, h2⟩ := h x hx hb
    refine ⟨h1, h2.trans ?_⟩
    norm_num [uro]
  floor_ok x hx := by
    obtain ⟨z, hz⟩ := floor_eq hx
    have := floor_exact z hx
    show Finite (floor x) ∧ ((toRat (floor x) : ℚ) : ℝ) = _
    rw [hz]
    refine ⟨this.1, ?_⟩
    rw [this.2, Rat.cast_intCast, Rat.floor_cast]
  trunc_ok x hx := by
    cases x with
    | nan => exact hx.elim
    | inf s => exact hx.elim
    | num s k e =>
      show trunc (num s k e) = _
      unfold trunc
      rw [Rat.floor_cast, Rat.ceil_cast]
      simp only [Rat.cast_nonneg]
  pi_ok := by
    show Finite (roundQ false _) ∧ |((toRat (roundQ false _) : ℚ) : ℝ) - _| ≤ _
    rw [pi64]
    refine ⟨⟨by norm_num, by norm_num, by norm_num⟩, ?_⟩
    have h1 := Real.pi_gt_d20
    have h2 := Real.pi_lt_d20
    rw [toRat_num]
    unfold uro
    rw [abs_le]
    norm_num at h1 h2 ⊢
    constructor <;> linarith
  negTwo_ok := by
    have := round_int false (n := -2) (by norm_num)
    refine ⟨by exact_mod_cast this.1, ?_⟩
    show ((toRat (roundQ false (-2)) : ℚ) : ℝ) = -2
    have h2 := this.2
    push_cast at h2
    rw [h2]
    norm_num
  half_ok := by
    have e : roundQ false (1 / 2) = num false (2 ^ 52) (-53) := by decide +kernel
    show Finite (roundQ false (1 / 2)) ∧ ((toRat (roundQ false (1 / 2)) : ℚ) : ℝ) = 1 / 2
    rw [e]
    refine ⟨⟨by norm_num, by norm_num, by norm_num⟩, ?_⟩
    rw [toRat_num]
    norm_num
  quarter_ok := by
    have e : roundQ false (1 / 4) = num false (2 ^ 52) (-54) := by decide +kernel
    show Finite (roundQ false (1 / 4)) ∧ ((toRat (roundQ false (1 / 4)) : ℚ) : ℝ) = 1 / 4
    rw [e]
    refine ⟨⟨by norm_num, by norm_num, by norm_num⟩, ?_⟩
    rw [toRat_num]
    norm_num
  addInt_ok x y m n hx hy hxm hyn hb := by
    obtain ⟨z, hz⟩ := add_eq hx hy
    have e1 : toRat x = m := by exact_mod_cast hxm
    have e2 : toRat y = n := by exact_mod_cast hyn
    have := round_int z (n := m + n) hb
    show Finite (add x y) ∧ ((toRat (add x y) : ℚ) : ℝ) = _
    rw [hz, e1, e2, ← Int.cast_add]
    refine ⟨this.1, ?_⟩
    rw [this.2]
    simp

theorem ieee64_noExcess (lib : MathLib) (h : lib.Accurate) (fuse : Fusing) : (ieee64 lib h fuse).NoExcess := by
  intro x hx hb
  have : (2 : ℚ) ^ 53 ≤ |toRat x| := by
    have : ((2 ^ 53 : ℚ) : ℝ) ≤ ((|toRat x| : ℚ) : ℝ) := by push_cast; exact hb
    exact_mod_cast this
  obtain ⟨m, hm⟩ := even_of_large hx this
  refine ⟨m, ?_⟩
  show ((toRat x : ℚ) : ℝ) = _
  rw [hm]
  simp

end BN
