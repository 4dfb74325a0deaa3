import Verif.Model.Directed64
import Verif.Lemmas.Rounding
import Verif.SpecFormat
/-
Rounding to binary64 in the four modes: what the results are, error bounds and exact cases.
-/
namespace BN
namespace B64

theorem integerIn_nonneg (s : Bool) {q : ℚ} (h : 0 ≤ q) (m : Mode) : 0 ≤ integerIn s q m := by
  have h1 : 0 ≤ ⌊q⌋ := Int.floor_nonneg.2 h
  have h2 : 0 ≤ ⌈q⌉ := Int.ceil_nonneg h
  cases m <;> cases s <;> simp [integerIn, nearestEven_nonneg h, h1, h2]

theorem integerIn_le (s : Bool) {q : ℚ} {n : ℤ} (h : q < n) (m : Mode) : integerIn s q m ≤ n := by
  have h1 : ⌊q⌋ ≤ n := (Int.floor_lt.2 h).le
  have h2 : ⌈q⌉ ≤ n := Int.ceil_le.2 h.le
  have h3 := nearestEven_le h
  cases m <;> cases s <;> simp [integerIn, h1, h2, h3]

theorem integerIn_err (s : Bool) (q : ℚ) (m : Mode) : |(integerIn s q m : ℚ) - q| ≤ 1 := by
  have h0 := Int.floor_le q
  have h1 := Int.lt_floor_add_one q
  have c0 := Int.le_ceil q
  have c1 := Int.ceil_lt_add_one q
  have hf : |(⌊q⌋ : ℚ) - q| ≤ 1 := by rw [abs_le]; constructor <;> linarith
  have hc : |(⌈q⌉ : ℚ) - q| ≤ 1 := by rw [abs_le]; constructor <;> linarith
  have hn := (nearestEven_err q).trans (by norm_num : (1 / 2 : ℚ) ≤ 1)
  cases m <;> cases s <;> simp only [integerIn, if_true, if_false, Bool.false_eq_true] <;> assumption

theorem integerIn_int (s : Bool) (n : ℤ) (m : Mode) : integerIn s n m = n := by
  cases m <;> cases s <;> simp [integerIn, nearestEven_int]

/-- The integer significand in a mode. -/
def sigIn (m : Mode) (x : ℚ) : ℤ := integerIn (decide (x < 0)) (|x| / 2 ^ lastPlace x) m

theorem sigIn_nonneg (m : Mode) (x : ℚ) : 0 ≤ sigIn m x := integerIn_nonneg _ (div_nonneg (abs_nonneg _) (zpow_pos' _).le) m

theorem sigIn_le (m : Mode) (x : ℚ) : sigIn m x ≤ 2 ^ 53 := integerIn_le _ (div_lt_53 x) m

theorem sigIn_err (m : Mode) (x : ℚ) : abs ((sigIn m x : ℚ) * 2 ^ lastPlace x - |x|) ≤ 2 ^ lastPlace x := by
  have h := integerIn_err (decide (x < 0)) (|x| / 2 ^ lastPlace x) m
  have hp := zpow_pos' (lastPlace x)
  have e : (sigIn m x : ℚ) * 2 ^ lastPlace x - |x| = ((sigIn m x : ℚ) - |x| / 2 ^ lastPlace x) * 2 ^ lastPlace x := by
    field_simp
  rw [e, abs_mul, abs_of_pos hp]
  have := mul_le_mul_of_nonneg_right h hp.le
  unfold sigIn
  linarith

theorem roundIn_spec (m : Mode) (z : Bool) {x : ℚ} (hx : x ≠ 0) (hb : lastPlace x ≤ 971) (hb' : sigIn m x = 2 ^ 53 → lastPlace x ≤ 970) :
    Finite (roundIn m z x) ∧ toRat (roundIn m z x) = (if x < 0 then -1 else 1) * (sigIn m x * 2 ^ lastPlace x) := by
  have hs0 := sigIn_nonneg m x
  have hs1 := sigIn_le m x
  have hk : ((sigIn m x).toNat : ℤ) = sigIn m x := Int.toNat_of_nonneg hs0
  have he' : -1074 ≤ lastPlace x := le_max_right _ _
  have hk' : (((sigIn m x).toNat : ℕ) : ℚ) = (sigIn m x : ℚ) := by exact_mod_cast congrArg (Int.cast (R := ℚ)) hk
  unfold roundIn
  rw [if_neg hx]
  simp only
  rw [show integerIn (decide (x < 0)) (|x| / 2 ^ lastPlace x) m = sigIn m x from rfl]
  by_cases h53 : (sigIn m x).toNat = 2 ^ 53
  · have := hb' (by omega)
    rw [if_pos h53, if_pos (by omega)]
    refine ⟨⟨by norm_num, by omega, by omega⟩, ?_⟩
    rw [toRat_num]
    have h : (sigIn m x : ℚ) = 2 ^ 53 := by rw [← hk', h53]; norm_num
    rw [h, zpow_add₀ (by norm_num)]
    by_cases hn : x < 0
    · simp only [hn, decide_true, if_true]; push_cast; ring
    · simp only [hn, decide_false, if_false, Bool.false_eq_true]; push_cast; ring
  · rw [if_neg h53, if_pos (by omega)]
    refine ⟨⟨by omega, by omega, by omega⟩, ?_⟩
    rw [toRat_num, hk']
    by_cases hn : x < 0 <;> simp [hn]

/-- Beyond the exponents of the format. -/
theorem roundIn_over (m : Mode) (z : Bool) {x : ℚ} (hx : x ≠ 0) (hb : 971 < lastPlace x ∨ lastPlace x = 971 ∧ sigIn m x = 2 ^ 53) :
    roundIn m z x = overflowIn (decide (x < 0)) m := by
  have hs0 := sigIn_nonneg m x
  have hk : ((sigIn m x).toNat : ℤ) = sigIn m x := Int.toNat_of_nonneg hs0
  unfold roundIn
  rw [if_neg hx]
  simp only
  rw [show integerIn (decide (x < 0)) (|x| / 2 ^ lastPlace x) m = sigIn m x from rfl]
  by_cases h53 : (sigIn m x).toNat = 2 ^ 53
  · rw [if_pos h53, if_neg (by omega)]
  · rw [if_neg h53, if_neg (by omega)]

theorem roundIn_zero (m : Mode) (z : Bool) : Finite (roundIn m z 0) ∧ toRat (roundIn m z 0) = 0 := by
  refine ⟨⟨by norm_num, by norm_num, by norm_num⟩, ?_⟩
  unfold roundIn
  rw [if_pos rfl]
  simp [toRat]

/-! ### What the results are -/

theorem roundIn_nearest (z : Bool) (x : ℚ) : roundIn .nearest z x = roundQ z x := rfl

theorem lastPlace_neg (x : ℚ) : lastPlace (-x) = lastPlace x := by unfold lastPlace; rw [abs_neg]

/-- Rounding down is rounding up on the other side of zero. -/
theorem roundIn_down (z : Bool) (x : ℚ) : roundIn .down z x = neg (roundIn .up (!z) (-x)) := by
  by_cases hx : x = 0
  · subst hx
    simp [roundIn, neg]
  · have hd : decide (-x < 0) = !decide (x < 0) := by
      rcases lt_or_gt_of_ne hx with h | h
      · simp [h, h.le]
      · simp [h, h.le]
    have hi : integerIn (!decide (x < 0)) (|x| / 2 ^ lastPlace x) .up = integerIn (decide (x < 0)) (|x| / 2 ^ lastPlace x) .down := by
      cases decide (x < 0) <;> rfl
    have ho : neg (overflowIn (!decide (x < 0)) .up) = overflowIn (decide (x < 0)) .down := by
      cases decide (x < 0) <;> rfl
    unfold roundIn
    rw [if_neg hx, if_neg (neg_ne_zero.2 hx)]
    simp only [lastPlace_neg, abs_neg, hd, hi]
    rw [← ho]
    split_ifs <;> first | rfl | simp [neg]

/-- Rounding towards zero is rounding up or down. -/
theorem roundIn_zero_mode (z : Bool) (x : ℚ) : roundIn .zero z x = roundIn (if x < 0 then .up else .down) z x := by
  by_cases hx : x = 0
  · subst hx
    rfl
  · unfold roundIn
    rw [if_neg hx, if_neg hx]
    by_cases h : x < 0 <;> simp [h, integerIn, overflowIn]

/-- A finite datum is a multiple of the last place of x, or it is below all numbers with that last place. -/
theorem on_place {x : ℚ} {y : B64} (hy : Finite y) :
    (∃ n : ℤ, toRat y = n * 2 ^ lastPlace x) ∨ (lastPlace x ≠ -1074 ∧ |toRat y| < 2 ^ 52 * 2 ^ lastPlace x) := by
  obtain ⟨m, e, he, hm, h1, h2⟩ := toRat_rep hy
  by_cases hle : lastPlace x ≤ e
  · left
    obtain ⟨t, ht⟩ := Int.eq_ofNat_of_zero_le (show 0 ≤ e - lastPlace x by omega)
    refine ⟨m * 2 ^ t, ?_⟩
    rw [he, show e = (t : ℤ) + lastPlace x by omega, zpow_add₀ (by norm_num), zpow_natCast]
    push_cast
    ring
  · right
    refine ⟨by omega, ?_⟩
    have hp := zpow_pos' e
    have hmR : |(m : ℚ)| < 2 ^ 53 := by exact_mod_cast hm
    have h3 : (2 : ℚ) ^ e ≤ 2 ^ (lastPlace x - 1) := zpow_le_zpow_right₀ (by norm_num) (by omega)
    have h4 : (2 : ℚ) ^ (lastPlace x - 1) = 2 ^ lastPlace x / 2 := by rw [zpow_sub₀ (by norm_num)]; norm_num
    rw [he, abs_mul, abs_of_pos hp]
    calc |(m : ℚ)| * 2 ^ e < 2 ^ 53 * 2 ^ e := mul_lt_mul_of_pos_right hmR hp
      _ ≤ 2 ^ 53 * (2 ^ lastPlace x / 2) := by rw [← h4]; exact mul_le_mul_of_nonneg_left h3 (by positivity)
      _ = 2 ^ 52 * 2 ^ lastPlace x := by ring

/-- The last place of the greatest data. -/
def top : ℚ := 2 ^ (971 : ℤ)

theorem top_pos : 0 < top := zpow_pos' _

theorem most_finite (s : Bool) : Finite (most s) := ⟨by norm_num, by norm_num, by norm_num⟩

theorem toRat_most (s : Bool) : toRat (most s) = (if s then -1 else 1) * ((2 ^ 53 - 1) * top) := by
  unfold most top
  rw [toRat_num]
  norm_num

theorem abs_le_most {y : B64} (hy : Finite y) : |toRat y| ≤ toRat (most false) := by
  obtain ⟨m, e, he, hm, h1, h2⟩ := toRat_rep hy
  have hp := zpow_pos' e
  have hm' : |m| ≤ 2 ^ 53 - 1 := by omega
  have hmR : |(m : ℚ)| ≤ 2 ^ 53 - 1 := by exact_mod_cast hm'
  have h3 : (2 : ℚ) ^ e ≤ top := zpow_le_zpow_right₀ (by norm_num) h2
  rw [toRat_most, he, abs_mul, abs_of_pos hp]
  simp only [Bool.false_eq_true, if_false, one_mul]
  exact mul_le_mul hmR h3 hp.le (by norm_num)

theorem lt_2_1024 {x : ℚ} (h : lastPlace x ≤ 971) : |x| < 2 ^ 53 * top := by
  refine (lt_log x).trans_le ?_
  have : (2 : ℚ) ^ (53 : ℕ) * top = 2 ^ (1024 : ℤ) := by
    unfold top
    rw [← zpow_natCast, ← zpow_add₀ (by norm_num)]; norm_num
  rw [this]
  exact zpow_le_zpow_right₀ (by norm_num) (by unfold lastPlace at h; omega)

theorem ge_2_1024 {x : ℚ} (hx : x ≠ 0) (h : 971 < lastPlace x) : 2 ^ 53 * top ≤ |x| := by
  refine le_trans ?_ (log_le hx)
  have : (2 : ℚ) ^ (53 : ℕ) * top = 2 ^ (1024 : ℤ) := by
    unfold top
    rw [← zpow_natCast, ← zpow_add₀ (by norm_num)]; norm_num
  rw [this]
  exact zpow_le_zpow_right₀ (by norm_num) (by unfold lastPlace at h; omega)

/-- r is the least finite datum that is not below x. -/
def Least (x : ℚ) (r : B64) : Prop := Finite r ∧ x ≤ toRat r ∧ ∀ y, Finite y → x ≤ toRat y → toRat r ≤ toRat y

/-- r is the greatest finite datum that is not above x. -/
def Greatest (x : ℚ) (r : B64) : Prop := Finite r ∧ toRat r ≤ x ∧ ∀ y, Finite y → toRat y ≤ x → toRat y ≤ toRat r

theorem roundIn_up (z : Bool) {x : ℚ} :
    (x ≤ toRat (most false) → Least x (roundIn .up z x)) ∧ (toRat (most false) < x → roundIn .up z x = inf false) := by
  have hM : toRat (most false) = (2 ^ 53 - 1) * top := by rw [toRat_most]; simp only [Bool.false_eq_true, if_false, one_mul]
  have hM0 : (0 : ℚ) < toRat (most false) := by rw [hM]; exact mul_pos (by norm_num) top_pos
  by_cases hx : x = 0
  · subst hx
    refine ⟨fun _ => ?_, fun h => absurd h (not_lt.2 hM0.le)⟩
    obtain ⟨h1, h2⟩ := roundIn_zero .up z
    exact ⟨h1, h2.ge, fun y _ hy => by rw [h2]; exact hy⟩
  have hp := zpow_pos' (lastPlace x)
  have hq : |x| = |x| / 2 ^ lastPlace x * 2 ^ lastPlace x := by field_simp
  rcases lt_or_gt_of_ne hx with hneg | hpos
  · refine ⟨fun _ => ?_, fun h => absurd h (not_lt.2 (by linarith))⟩
    have hsig : sigIn .up x = ⌊|x| / 2 ^ lastPlace x⌋ := by simp [sigIn, integerIn, hneg]
    have hlt : sigIn .up x < 2 ^ 53 := by
      rw [hsig]
      have h1 := Int.floor_le (|x| / 2 ^ lastPlace x)
      exact_mod_cast h1.trans_lt (div_lt_53 x)
    have hax : |x| = -x := abs_of_neg hneg
    by_cases hb : lastPlace x ≤ 971
    · obtain ⟨h1, h2⟩ := roundIn_spec .up z hx hb (by omega)
      rw [if_pos hneg, hsig] at h2
      have hfl : (⌊|x| / 2 ^ lastPlace x⌋ : ℚ) * 2 ^ lastPlace x ≤ |x| := by
        conv_rhs => rw [hq]
        exact mul_le_mul_of_nonneg_right (Int.floor_le _) hp.le
      refine ⟨h1, by rw [h2]; linarith, fun y hy hxy => ?_⟩
      rw [h2]
      rcases on_place (x := x) hy with ⟨n, hn⟩ | ⟨hne, hlt'⟩
      · rw [hn] at hxy ⊢
        have h3 : -n ≤ ⌊|x| / 2 ^ lastPlace x⌋ := by
          rw [Int.le_floor, le_div_iff₀ hp]
          push_cast
          linarith
        have h4 : (-n : ℚ) ≤ ⌊|x| / 2 ^ lastPlace x⌋ := by exact_mod_cast h3
        have := mul_le_mul_of_nonneg_right h4 hp.le
        linarith
      · have h3 : (2 ^ 52 : ℤ) ≤ ⌊|x| / 2 ^ lastPlace x⌋ := by
          rw [Int.le_floor, le_div_iff₀ hp]
          exact_mod_cast le_sig hx hne
        have h4 : (2 ^ 52 : ℚ) ≤ ⌊|x| / 2 ^ lastPlace x⌋ := by exact_mod_cast h3
        have h5 := mul_le_mul_of_nonneg_right h4 hp.le
        linarith [(abs_lt.1 hlt').1]
    · rw [roundIn_over .up z hx (.inl (by omega))]
      have h3 := ge_2_1024 hx (not_le.1 hb)
      have h6 := top_pos
      rw [show overflowIn (decide (x < 0)) .up = most true by simp [overflowIn, hneg]]
      refine ⟨most_finite _, ?_, fun y hy _ => ?_⟩
      · rw [toRat_most]; simp only [if_true]; linarith
      · have := (abs_le.1 (abs_le_most hy)).1
        rw [toRat_most] at this ⊢
        simp only [Bool.false_eq_true, if_false, if_true] at this ⊢
        linarith
  · have hnn : ¬ x < 0 := not_lt.2 hpos.le
    have hsig : sigIn .up x = ⌈|x| / 2 ^ lastPlace x⌉ := by simp [sigIn, integerIn, hpos.le]
    have hax : |x| = x := abs_of_pos hpos
    have hov : overflowIn (decide (x < 0)) .up = inf false := by simp [overflowIn, hnn]
    have hce : x ≤ (⌈|x| / 2 ^ lastPlace x⌉ : ℚ) * 2 ^ lastPlace x := by
      conv_lhs => rw [← hax, hq]
      exact mul_le_mul_of_nonneg_right (Int.le_ceil _) hp.le
    by_cases hb : lastPlace x ≤ 971 ∧ (sigIn .up x = 2 ^ 53 → lastPlace x ≤ 970)
    · obtain ⟨h1, h2⟩ := roundIn_spec .up z hx hb.1 hb.2
      rw [if_neg hnn, hsig, one_mul] at h2
      have hup : x ≤ toRat (roundIn .up z x) := by rw [h2]; exact hce
      refine ⟨fun _ => ⟨h1, hup, fun y hy hxy => ?_⟩, fun h => ?_⟩
      · rw [h2]
        rcases on_place (x := x) hy with ⟨n, hn⟩ | ⟨hne, hlt'⟩
        · rw [hn] at hxy ⊢
          have h3 : ⌈|x| / 2 ^ lastPlace x⌉ ≤ n := by
            rw [Int.ceil_le, div_le_iff₀ hp, hax]
            exact hxy
          have h4 : (⌈|x| / 2 ^ lastPlace x⌉ : ℚ) ≤ n := by exact_mod_cast h3
          exact mul_le_mul_of_nonneg_right h4 hp.le
        · have h3 := le_sig hx hne
          have h4 := (abs_lt.1 hlt').2
          linarith
      · have := (abs_le.1 (abs_le_most h1)).2
        linarith
    · have hover : 971 < lastPlace x ∨ lastPlace x = 971 ∧ sigIn .up x = 2 ^ 53 := by
        by_cases h1 : lastPlace x ≤ 971
        · by_cases h2 : sigIn .up x = 2 ^ 53
          · by_cases h3 : lastPlace x ≤ 970
            · exact absurd ⟨h1, fun _ => h3⟩ hb
            · exact .inr ⟨by omega, h2⟩
          · exact absurd ⟨h1, fun h => absurd h h2⟩ hb
        · exact .inl (by omega)
      refine ⟨fun h => ?_, fun _ => by rw [roundIn_over .up z hx hover, hov]⟩
      exfalso
      rw [hM] at h
      have h6 := top_pos
      rcases hover with h1 | ⟨h1, h2⟩
      · have := ge_2_1024 hx h1
        linarith
      · rw [hsig, h1, show (2 : ℚ) ^ (971 : ℤ) = top from rfl] at h2
        have h3 : |x| / top ≤ ((2 ^ 53 - 1 : ℤ) : ℚ) := by
          rw [div_le_iff₀ h6, hax]
          norm_num at h ⊢
          exact h
        have := Int.ceil_le.2 h3
        omega

theorem greatest_neg {x : ℚ} {r : B64} (h : Least (-x) r) : Greatest x (neg r) := by
  obtain ⟨h1, h2, h3⟩ := h
  refine ⟨finite_neg h1, by rw [toRat_neg]; linarith, fun y hy hyx => ?_⟩
  have := h3 (neg y) (finite_neg hy) (by rw [toRat_neg]; linarith)
  rw [toRat_neg] at this ⊢
  linarith

theorem most_neg : toRat (most true) = -toRat (most false) := by rw [toRat_most, toRat_most]; simp

theorem roundIn_down' (z : Bool) {x : ℚ} :
    (toRat (most true) ≤ x → Greatest x (roundIn .down z x)) ∧ (x < toRat (most true) → roundIn .down z x = inf true) := by
  have h := roundIn_up (!z) (x := -x)
  rw [roundIn_down, most_neg]
  exact ⟨fun hx => greatest_neg (h.1 (by linarith)), fun hx => by rw [h.2 (by linarith)]; rfl⟩

theorem roundIn_towards (z : Bool) {x : ℚ} :
    (x < 0 → Least x (roundIn .zero z x)) ∧ (0 ≤ x → Greatest x (roundIn .zero z x)) := by
  have hM0 : (0 : ℚ) < toRat (most false) := by
    rw [toRat_most]
    exact mul_pos (by norm_num) (mul_pos (by norm_num) top_pos)
  rw [roundIn_zero_mode]
  constructor
  · intro h
    rw [if_pos h]
    exact (roundIn_up z).1 (by linarith)
  · intro h
    rw [if_neg (not_lt.2 h)]
    exact (roundIn_down' z).1 (by rw [most_neg]; linarith)

/-! ### Errors -/

theorem roundIn_err (m : Mode) (z : Bool) {x : ℚ} (hx : x ≠ 0) (hb : Int.log 2 |x| ≤ 1022) :
    Finite (roundIn m z x) ∧ |toRat (roundIn m z x) - x| ≤ 2 ^ lastPlace x := by
  have hl : lastPlace x ≤ 970 := by unfold lastPlace; omega
  have hs := roundIn_spec m z hx (by omega) (fun _ => hl)
  refine ⟨hs.1, ?_⟩
  rw [hs.2, abs_sub_abs_sign]
  exact sigIn_err m x

/-- Data of the format are rounded to themselves. -/
theorem roundIn_finite (m : Mode) (z : Bool) {y : B64} (hy : Finite y) :
    Finite (roundIn m z (toRat y)) ∧ toRat (roundIn m z (toRat y)) = toRat y := by
  by_cases hx : toRat y = 0
  · rw [hx]; exact roundIn_zero m z
  have hp := zpow_pos' (lastPlace (toRat y))
  have hlog := log_finite hy hx
  rcases on_place (x := toRat y) hy with ⟨n, hn⟩ | ⟨hne, hlt⟩
  · have hq : |toRat y| / 2 ^ lastPlace (toRat y) = ((|n| : ℤ) : ℚ) := by
      rw [div_eq_iff hp.ne']
      conv_lhs => rw [hn]
      rw [abs_mul, abs_of_pos hp]
      push_cast
      rfl
    have hsig : sigIn m (toRat y) = |n| := by unfold sigIn; rw [hq, integerIn_int]
    have hlt : sigIn m (toRat y) < 2 ^ 53 := by
      have := div_lt_53 (toRat y)
      rw [hq] at this
      rw [hsig]
      exact_mod_cast this
    have hs := roundIn_spec m z hx (by unfold lastPlace; omega) (by omega)
    refine ⟨hs.1, ?_⟩
    rw [hs.2, hsig, ← hq, div_mul_cancel₀ _ hp.ne']
    exact (sign_abs _).symm
  · exact absurd (le_sig hx hne) (not_le.2 hlt)

theorem roundIn_int (m : Mode) (z : Bool) {n : ℤ} (h : |n| ≤ 2 ^ 53) : Finite (roundIn m z n) ∧ toRat (roundIn m z n) = n := by
  obtain ⟨h1, h2⟩ := round_int false h
  have := roundIn_finite m z h1
  rwa [h2] at this

theorem place_le' {x : ℚ} (hx : x ≠ 0) (h : lastPlace x ≠ -1074) : (2 : ℚ) ^ lastPlace x ≤ |x| / 2 ^ 52 := by
  have := place_le hx h
  have e : |x| / 2 ^ 52 = 2 * (|x| / 2 ^ 53) := by rw [pow_succ 2 52]; field_simp
  rw [e]
  linarith

theorem roundIn_err' (m : Mode) (z : Bool) {x : ℚ} (h : |x| ≤ 2 ^ 200) :
    Finite (roundIn m z x) ∧ |toRat (roundIn m z x) - x| ≤ |x| / 2 ^ 52 + 1 / 2 ^ 1074 := by
  by_cases hx : x = 0
  · subst hx
    obtain ⟨h1, h2⟩ := roundIn_zero m z
    refine ⟨h1, ?_⟩
    rw [h2]
    simp
  obtain ⟨h1, h2⟩ := roundIn_err m z hx (log_200 hx h)
  refine ⟨h1, h2.trans ?_⟩
  by_cases hp : lastPlace x = -1074
  · rw [hp]
    have h3 : (2 : ℚ) ^ (-1074 : ℤ) = 1 / 2 ^ 1074 := by
      rw [zpow_neg, show (1074 : ℤ) = ((1074 : ℕ) : ℤ) by rfl, zpow_natCast, one_div]
    rw [h3]
    have : 0 ≤ |x| / 2 ^ 52 := by positivity
    linarith
  · have h4 : (0 : ℚ) < 1 / 2 ^ 1074 := by positivity
    linarith [place_le' hx hp]

theorem roundIn_err_grid (m : Mode) (z : Bool) {x : ℚ} (h : |x| ≤ 2 ^ 200) {n : ℤ} (hm : x = n * 2 ^ (-1074 : ℤ)) :
    Finite (roundIn m z x) ∧ |toRat (roundIn m z x) - x| ≤ |x| / 2 ^ 52 := by
  by_cases hx : x = 0
  · subst hx
    obtain ⟨h1, h2⟩ := roundIn_zero m z
    refine ⟨h1, ?_⟩
    rw [h2]
    simp
  by_cases hp : lastPlace x = -1074
  · obtain ⟨h1, h2⟩ := round_exact z (x := x) (fun _ => (log_200 hx h).trans (by norm_num)) (m := |n|) fun _ => by
      rw [hp]
      conv_lhs => rw [hm]
      rw [abs_mul, abs_of_pos (zpow_pos' _)]
      push_cast
      rfl
    have := roundIn_finite m z h1
    rw [h2] at this
    refine ⟨this.1, ?_⟩
    rw [this.2]
    simp
    positivity
  · obtain ⟨h1, h2⟩ := roundIn_err m z hx (log_200 hx h)
    exact ⟨h1, h2.trans (place_le' hx hp)⟩

theorem addIn_eq (m : Mode) {x y : B64} (hx : Finite x) (hy : Finite y) : ∃ z, addIn m x y = roundIn m z (toRat x + toRat y) := by
  cases x with
  | nan => exact hx.elim
  | inf s => exact hx.elim
  | num s k e =>
    cases y with
    | nan => exact hy.elim
    | inf s => exact hy.elim
    | num t l f => exact ⟨_, rfl⟩

theorem mulIn_eq (m : Mode) {x y : B64} (hx : Finite x) (hy : Finite y) : ∃ z, mulIn m x y = roundIn m z (toRat x * toRat y) := by
  cases x with
  | nan => exact hx.elim
  | inf s => exact hx.elim
  | num s k e =>
    cases y with
    | nan => exact hy.elim
    | inf s => exact hy.elim
    | num t l f => exact ⟨_, rfl⟩

theorem fmaIn_eq (m : Mode) {x y z : B64} (hx : Finite x) (hy : Finite y) (hz : Finite z) :
    ∃ b, fmaIn m x y z = roundIn m b (toRat x * toRat y + toRat z) := by
  cases x with
  | nan => exact hx.elim
  | inf s => exact hx.elim
  | num s k e =>
    cases y with
    | nan => exact hy.elim
    | inf s => exact hy.elim
    | num t l f =>
      cases z with
      | nan => exact hz.elim
      | inf s => exact hz.elim
      | num u n g => exact ⟨_, rfl⟩

theorem divIn_eq (m : Mode) {x y : B64} (hx : Finite x) (hy : Finite y) (h0 : toRat y ≠ 0) :
    ∃ z, divIn m x y = roundIn m z (toRat x / toRat y) := by
  cases x with
  | nan => exact hx.elim
  | inf s => exact hx.elim
  | num s k e =>
    cases y with
    | nan => exact hy.elim
    | inf s => exact hy.elim
    | num t l f =>
      refine ⟨s != t, ?_⟩
      have : l ≠ 0 := by
        rintro rfl
        apply h0
        simp
      unfold divIn
      exact if_neg this

end B64

open B64

/-- The library's sine and cosine are finite and within four units in the last place near 1, for arguments up to 4. -/
def MathLib.Accurate8 (lib : MathLib) : Prop :=
  ∀ x : B64, x.Finite → |(x.toRat : ℝ)| ≤ 4 →
    (lib.cos x).Finite ∧ |((lib.cos x).toRat : ℝ) - Real.cos x.toRat| ≤ 8 / 2 ^ 53 ∧
    (lib.sin x).Finite ∧ |((lib.sin x).toRat : ℝ) - Real.sin x.toRat| ≤ 8 / 2 ^ 53

theorem MathLib.Accurate.accurate8 {lib : MathLib} (h : lib.Accurate) : lib.Accurate8 := fun x hx hb =>
  let ⟨h1, h2, h3, h4⟩ := h x hx hb
  ⟨h1, h2.trans (by norm_num), h3, h4.trans (by norm_num)⟩

theorem real_errIn {x y c : ℚ} (h : |y - x| ≤ |x| / 2 ^ 52 + c) : |(y : ℝ) - (x : ℝ)| ≤ Format.anyMode.u * |(x : ℝ)| + c := by
  have : ((|y - x| : ℚ) : ℝ) ≤ ((|x| / 2 ^ 52 + c : ℚ) : ℝ) := by exact_mod_cast h
  push_cast at this
  have hu : 1 / 2 ^ 52 ≤ Format.anyMode.u := by norm_num [Format.anyMode]
  have := mul_le_mul_of_nonneg_right hu (abs_nonneg (x : ℝ))
  linarith

theorem real_errIn0 {x y : ℚ} (h : |y - x| ≤ |x| / 2 ^ 52) : |(y : ℝ) - (x : ℝ)| ≤ Format.anyMode.u * |(x : ℝ)| := by
  have := real_errIn (x := x) (y := y) (c := 0) (by linarith)
  simpa using this

theorem tiny_etaIn : ((1 / 2 ^ 1074 : ℚ) : ℝ) ≤ Format.anyMode.eta := by
  unfold Format.anyMode eta
  push_cast
  exact div_le_div_of_nonneg_left (by norm_num) (by positivity) (pow_le_pow_right₀ (by norm_num) (by norm_num))

theorem fmaIn_err (m : Mode) {x y z : B64} (hx : Finite x) (hy : Finite y) (hz : Finite z)
    (hb : |(toRat x : ℝ) * toRat y + toRat z| ≤ big) :
    Finite (fmaIn m x y z) ∧ |(toRat (fmaIn m x y z) : ℝ) - (toRat x * toRat y + toRat z)| ≤
      Format.anyMode.u * |(toRat x : ℝ) * toRat y + toRat z| + Format.anyMode.eta := by
  obtain ⟨b, hz⟩ := fmaIn_eq m hx hy hz
  have := roundIn_err' m b (x := toRat x * toRat y + toRat z) (le_big (by push_cast; exact hb))
  rw [hz]
  have h2 := real_errIn this.2
  rw [Rat.cast_add, Rat.cast_mul] at h2
  exact ⟨this.1, h2.trans (by linarith [tiny_etaIn])⟩

theorem mulIn_finite (m : Mode) {x y : B64} (hx : Finite x) (hy : Finite y) (hb : |(toRat x : ℝ) * toRat y| ≤ big / 2) :
    Finite (mulIn m x y) := by
  obtain ⟨z, hz⟩ := mulIn_eq m hx hy
  rw [hz]
  have : (0 : ℝ) < big := by unfold big; positivity
  exact (roundIn_err' m z (x := toRat x * toRat y) (le_big (by push_cast; linarith))).1

section
variable (pick : Work → Mode) (lib : Mode → MathLib)

/-- The laws hold of binary64 whatever the modes are, with twice the unit roundoff. -/
noncomputable def directedLaws (h : ∀ m, (lib m).Accurate8) (fuse : Work → Work → Work → Work → Contraction) :
    Laws .anyMode (directed64 pick lib fuse) where
  val x := ((x.result pick lib).toRat : ℝ)
  fin x := Finite (x.result pick lib)
  ofNat_ok n hn := by
    have := roundIn_int (pick (.nat n)) false (n := (n : ℤ)) (by rw [abs_of_nonneg (by positivity)]; exact_mod_cast hn)
    rw [Int.cast_natCast] at this
    refine ⟨this.1, ?_⟩
    show ((toRat (roundIn _ false n) : ℚ) : ℝ) = n
    rw [this.2]
    simp
  add_ok x y hx hy hb := by
    obtain ⟨z, hz⟩ := addIn_eq (pick (.add x y)) hx hy
    obtain ⟨m, hm⟩ := add_grid hx hy
    have := roundIn_err_grid (pick (.add x y)) z (le_big (by push_cast; exact hb)) hm
    show Finite (addIn _ _ _) ∧ |((toRat (addIn _ _ _) : ℚ) : ℝ) - _| ≤ _
    rw [hz]
    have h2 := real_errIn0 this.2
    push_cast at h2
    exact ⟨this.1, h2⟩
  sub_ok x y hx hy hb := by
    have hy' := finite_neg hy
    obtain ⟨z, hz⟩ := addIn_eq (pick (.sub x y)) hx hy'
    obtain ⟨m, hm⟩ := add_grid hx hy'
    rw [toRat_neg, ← sub_eq_add_neg] at hz hm
    have := roundIn_err_grid (pick (.sub x y)) z (le_big (by push_cast; exact hb)) hm
    show Finite (addIn _ _ (neg _)) ∧ |((toRat (addIn _ _ (neg _)) : ℚ) : ℝ) - _| ≤ _
    rw [hz]
    have h2 := real_errIn0 this.2
    push_cast at h2
    exact ⟨this.1, h2⟩
  mul_ok x y hx hy hb := by
    obtain ⟨z, hz⟩ := mulIn_eq (pick (.mul x y)) hx hy
    have := roundIn_err' (pick (.mul x y)) z (x := toRat (x.result pick lib) * toRat (y.result pick lib)) (le_big (by push_cast; exact hb))
    show Finite (mulIn _ _ _) ∧ |((toRat (mulIn _ _ _) : ℚ) : ℝ) - _| ≤ _
    rw [hz]
    have h2 := real_errIn this.2
    rw [Rat.cast_mul] at h2
    exact ⟨this.1, h2.trans (by linarith [tiny_etaIn])⟩
  mulSub_ok x y z w hx hy hz hw b1 b2 := by
    cases hf : fuse x y z w with
    | separate => exact .inl (by simp only [directed64, hf])
    | first =>
      refine .inr (.inl fun hb => ?_)
      have := fmaIn_err (pick (.fma x y (.neg (.mul z w)))) hx hy (finite_neg (mulIn_finite (pick (.mul z w)) hz hw b2)) (by
        rw [toRat_neg]; push_cast; rw [← sub_eq_add_neg]; exact hb)
      rw [toRat_neg] at this
      push_cast at this
      rw [← sub_eq_add_neg] at this
      simp only [directed64, hf]
      exact this
    | second =>
      refine .inr (.inr fun hb => ?_)
      have e : ((toRat (neg (z.result pick lib)) : ℚ) : ℝ) * toRat (w.result pick lib) + toRat (Work.result pick lib (.mul x y)) =
          toRat (Work.result pick lib (.mul x y)) - toRat (z.result pick lib) * toRat (w.result pick lib) := by
        rw [toRat_neg]; push_cast; ring
      have := fmaIn_err (pick (.fma (.neg z) w (.mul x y))) (finite_neg hz) hw (mulIn_finite (pick (.mul x y)) hx hy b1)
        (le_of_eq_of_le (congrArg abs e) hb)
      rw [show toRat (mulIn (pick (.mul x y)) (x.result pick lib) (y.result pick lib)) = toRat (Work.result pick lib (.mul x y)) from rfl, e]
        at this
      simp only [directed64, hf]
      exact this
  mulAdd_ok x y z w hx hy hz hw b1 b2 := by
    cases hf : fuse x y z w with
    | separate => exact .inl (by simp only [directed64, hf])
    | first =>
      refine .inr (.inl fun hb => ?_)
      have := fmaIn_err (pick (.fma x y (.mul z w))) hx hy (mulIn_finite (pick (.mul z w)) hz hw b2) hb
      simp only [directed64, hf]
      exact this
    | second =>
      refine .inr (.inr fun hb => ?_)
      have e : ((toRat (z.result pick lib) : ℚ) : ℝ) * toRat (w.result pick lib) + toRat (Work.result pick lib (.mul x y)) =
          toRat (Work.result pick lib (.mul x y)) + toRat (z.result pick lib) * toRat (w.result pick lib) := by ring
      have := fmaIn_err (pick (.fma z w (.mul x y))) hz hw (mulIn_finite (pick (.mul x y)) hx hy b1)
        (le_of_eq_of_le (congrArg abs e) hb)
      rw [show toRat (mulIn (pick (.mul x y)) (x.result pick lib) (y.result pick lib)) = toRat (Work.result pick lib (.mul x y)) from rfl, e]
        at this
      simp only [directed64, hf]
      exact this
  div_ok x y hx hy h0 hb := by
    have h0' : toRat (y.result pick lib) ≠ 0 := fun hc => h0 (by rw [hc]; simp)
    obtain ⟨z, hz⟩ := divIn_eq (pick (.div x y)) hx hy h0'
    have := roundIn_err' (pick (.div x y)) z (x := toRat (x.result pick lib) / toRat (y.result pick lib)) (le_big (by push_cast; exact hb))
    show Finite (divIn _ _ _) ∧ |((toRat (divIn _ _ _) : ℚ) : ℝ) - _| ≤ _
    rw [hz]
    have h2 := real_errIn this.2
    rw [Rat.cast_div] at h2
    exact ⟨this.1, h2.trans (by linarith [tiny_etaIn])⟩
  neg_ok x hx := ⟨finite_neg hx, by
    show ((toRat (neg _) : ℚ) : ℝ) = _
    rw [toRat_neg]; push_cast; rfl⟩
  cos_ok x hx hb := by
    obtain ⟨h1, h2, -, -⟩ := h (pick (.cos x)) _ hx hb
    refine ⟨h1, h2.trans ?_⟩
    norm_num [Format.anyMode]
  sin_ok x hx hb := by
    obtain ⟨-, -, h1, h2⟩ := h (pick (.sin x)) _ hx hb
    refine ⟨h1, h2.trans ?_⟩
    norm_num [Format.anyMode]
  floor_ok x hx := by
    obtain ⟨z, hz⟩ := floor_eq hx
    have := floor_exact z hx
    show Finite (floor _) ∧ ((toRat (floor _) : ℚ) : ℝ) = _
    rw [hz]
    refine ⟨this.1, ?_⟩
    rw [this.2, Rat.cast_intCast, Rat.floor_cast]
  trunc_ok x hx := by
    show trunc (x.result pick lib) = _
    cases hr : x.result pick lib with
    | nan => rw [hr] at hx; exact hx.elim
    | inf s => rw [hr] at hx; exact hx.elim
    | num s k e =>
      unfold trunc
      rw [Rat.floor_cast, Rat.ceil_cast]
      simp only [Rat.cast_nonneg]
  pi_ok := by
    show Finite (roundQ false _) ∧ |((toRat (roundQ false _) : ℚ) : ℝ) - _| ≤ _
    rw [pi64]
    refine ⟨⟨by norm_num, by norm_num, by norm_num⟩, ?_⟩
    have h1 := Real.pi_gt_d20
    have h2 := Real.pi_lt_d20
    rw [toRat_num]
    unfold Format.anyMode
    rw [abs_le]
    norm_num at h1 h2 ⊢
    constructor <;> linarith
  negTwo_ok := by
    have := round_int false (n := -2) (by norm_num)
    refine ⟨by exact_mod_cast this.1, ?_⟩
    show ((toRat (roundQ false (-2)) : ℚ) : ℝ) = -2
    have h2 := this.2
    push_cast at h2
    rw [h2]
    norm_num
  half_ok := by
    have e : roundQ false (1 / 2) = num false (2 ^ 52) (-53) := by decide +kernel
    show Finite (roundQ false (1 / 2)) ∧ ((toRat (roundQ false (1 / 2)) : ℚ) : ℝ) = 1 / 2
    rw [e]
    refine ⟨⟨by norm_num, by norm_num, by norm_num⟩, ?_⟩
    rw [toRat_num]
    norm_num
  quarter_ok := by
    have e : roundQ false (1 / 4) = num false (2 ^ 52) (-54) := by decide +kernel
    show Finite (roundQ false (1 / 4)) ∧ ((toRat (roundQ false (1 / 4)) : ℚ) : ℝ) = 1 / 4
    rw [e]
    refine ⟨⟨by norm_num, by norm_num, by norm_num⟩, ?_⟩
    rw [toRat_num]
    norm_num
  addInt_ok x y m n hx hy hxm hyn hb := by
    obtain ⟨z, hz⟩ := addIn_eq (pick (.add x y)) hx hy
    have e1 : toRat (x.result pick lib) = m := by exact_mod_cast hxm
    have e2 : toRat (y.result pick lib) = n := by exact_mod_cast hyn
    have := roundIn_int (pick (.add x y)) z (n := m + n) hb
    show Finite (addIn _ _ _) ∧ ((toRat (addIn _ _ _) : ℚ) : ℝ) = _
    rw [hz, e1, e2, ← Int.cast_add]
    refine ⟨this.1, ?_⟩
    rw [this.2]
    simp

end

end BN
