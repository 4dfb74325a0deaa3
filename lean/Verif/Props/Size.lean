import Verif.Props.Bisect
/-
C105: what size() tells about a number and about the results of the operators.
-/
namespace BN
open Bignum

theorem size_bounds {L : Limits} {x : Bignum} (hx : WF L x) (h0 : x.mag L ≠ 0) :
    1 ≤ x.size ∧ L.base ^ (x.size - 1) ≤ x.mag L ∧ x.mag L < L.base ^ x.size :=
  ⟨length_pos (mag_ne_nil h0), le_natOf_of_noLeadingZero (nlz_of_mag hx h0) (mag_ne_nil h0), natOf_lt hx.2.1⟩

theorem size_le_of_lt {L : Limits} (hB : 2 ≤ L.base) {x : Bignum} (hx : WF L x) (h0 : x.mag L ≠ 0) {k : Nat} (h : x.mag L < L.base ^ k) : x.size ≤ k := by
  obtain ⟨h1, h2, -⟩ := size_bounds hx h0
  have := (Nat.pow_lt_pow_iff_right (by omega)).1 (h2.trans_lt h)
  omega

theorem le_size_of_le {L : Limits} (hB : 2 ≤ L.base) {x : Bignum} (hx : WF L x) {k : Nat} (h : L.base ^ k ≤ x.mag L) : k + 1 ≤ x.size := by
  have h0 : x.mag L ≠ 0 := by have := Nat.pow_pos (n := k) (show 0 < L.base by omega); omega
  obtain ⟨-, -, h3⟩ := size_bounds hx h0
  have := (Nat.pow_lt_pow_iff_right (by omega)).1 (h.trans_lt h3)
  omega

/-- C105: size() is the number of digits of the numeral: one more than the logarithm of the absolute value to the base. -/
theorem C105_size {L : Limits} {x : Bignum} (hx : WF L x) (h0 : x.toInt L ≠ 0) :
    x.size = Nat.log L.base (x.toInt L).natAbs + 1 := by
  have hm := natAbs_toInt L x
  obtain ⟨h1, h2, h3⟩ := size_bounds hx (by omega)
  rw [hm, Nat.log_eq_of_pow_le_of_lt_pow h2 (by rw [Nat.sub_add_cancel h1]; exact h3)]
  omega

/-- C105: the size of a number is monotone in the absolute value. -/
theorem C105_monotone {L : Limits} (hB : 2 ≤ L.base) {x y : Bignum} (hx : WF L x) (hy : WF L y) (h0 : x.toInt L ≠ 0)
    (h : (x.toInt L).natAbs ≤ (y.toInt L).natAbs) : x.size ≤ y.size := by
  have hmx := natAbs_toInt L x
  have hmy := natAbs_toInt L y
  have hle : x.mag L ≤ y.mag L := by omega
  exact size_le_of_lt hB hx (by omega) (hle.trans_lt (size_bounds hy (by omega)).2.2)

/-- C105: a sum of numbers of the same sign has the size of the longer one or one more. -/
theorem C105_sum {L : Limits} (hL : Supported L) {env : Env} (hm : env.Ample) {a b : Bignum} (ha : WF L a) (hb : WF L b)
    (hs : b.desc = a.desc) (ha0 : a.toInt L ≠ 0) (hb0 : b.toInt L ≠ 0) :
    ∃ c, Evaluates (fun n => a.add L env n b) (.ok c) ∧ max a.size b.size ≤ c.size ∧ c.size ≤ max a.size b.size + 1 := by
  have hB := hL.base_ge
  have hma := natAbs_toInt L a
  have hmb := natAbs_toInt L b
  obtain ⟨c, e1, e2, -, e4⟩ := add_pos hL hm ha hb hs
  obtain ⟨a1, a2, a3⟩ := size_bounds ha (by omega)
  obtain ⟨b1, b2, b3⟩ := size_bounds hb (by omega)
  refine ⟨c, ⟨_, fun n hn => e1 n hn⟩, ?_, ?_⟩
  · have h1 := le_size_of_le hB e2 (k := a.size - 1) (by omega)
    have h2 := le_size_of_le hB e2 (k := b.size - 1) (by omega)
    omega
  · refine size_le_of_lt hB e2 (by omega) ?_
    have h1 := Nat.pow_le_pow_right (n := L.base) (by omega) (le_max_left a.size b.size)
    have h2 := Nat.pow_le_pow_right (n := L.base) (by omega) (le_max_right a.size b.size)
    rw [pow_succ]
    have : L.base ^ max a.size b.size * 2 ≤ L.base ^ max a.size b.size * L.base := Nat.mul_le_mul_left _ hB
    omega

/-- C105: a difference of numbers of the same sign is no longer than the longer one. -/
theorem C105_difference {L : Limits} (hL : Supported L) {env : Env} (hm : env.Ample) (hd : env.debug = false) {a b : Bignum} (ha : WF L a)
    (hb : WF L b) (hs : b.desc = a.desc) (hne : ¬ (a.size = 0 ∧ b.size = 0)) :
    ∃ c, Evaluates (fun n => a.subAssign L env n (.other b)) (.ok c) ∧ c.size ≤ max a.size b.size ∧
      (c.size = 0 ↔ a.toInt L = b.toInt L) := by
  have hB := hL.base_ge
  obtain ⟨c, e1, e2, e3, e4⟩ := C15_sub_same_sign_exact hL hm hd (r := .other b) ha hb hs
    (fun h => hne ⟨List.length_eq_zero_iff.2 h.1, List.length_eq_zero_iff.2 h.2⟩)
  change c.toInt L = a.toInt L - b.toInt L at e4
  refine ⟨c, e1, ?_, ?_⟩
  · by_cases h0 : c.mag L = 0
    · have : c = numeral L c.desc 0 := h0 ▸ eq_numeral hB e2.2.1 e3
      rw [this]; simp [numeral, Bignum.size]
    · refine size_le_of_lt hB e2 h0 ?_
      have h1 := Nat.pow_le_pow_right (n := L.base) (by omega) (le_max_left a.size b.size)
      have h2 := Nat.pow_le_pow_right (n := L.base) (by omega) (le_max_right a.size b.size)
      have h3 : a.mag L < L.base ^ a.size := natOf_lt ha.2.1
      have h4 : b.mag L < L.base ^ b.size := natOf_lt hb.2.1
      have h5 : c.mag L ≤ max (a.mag L) (b.mag L) := by
        rw [← natAbs_toInt, e4]
        unfold Bignum.toInt
        rw [hs]
        split <;> omega
      omega
  · constructor
    · intro h
      have hc0 : c.mag L = 0 := mag_of_nil (List.length_eq_zero_iff.1 h)
      have := natAbs_toInt L c
      omega
    · intro h
      have h0 : c.mag L = 0 := by rw [← natAbs_toInt, e4]; omega
      have : c = numeral L c.desc 0 := h0 ▸ eq_numeral hB e2.2.1 e3
      rw [this]; simp [numeral, Bignum.size]

/-- C105: a product of non-zero numbers has the sum of the sizes or one less. -/
theorem C105_product {F : Type} {o : FloatOps F} (M : Ieee o) {L : Limits} {K : Nat} (hp : Preset L K) {env : Env} (hm : env.Ample)
    {a b : Bignum} (ha : WF L a) (hb : WF L b) (ha0 : a.toInt L ≠ 0) (hb0 : b.toInt L ≠ 0) (hK : a.size + b.size ≤ K) :
    ∃ c, Evaluates (fun n => a.mul o L env n b) (.ok c) ∧ a.size + b.size - 1 ≤ c.size ∧ c.size ≤ a.size + b.size := by
  have hB := hp.custom.supported.base_ge
  have hma := natAbs_toInt L a
  have hmb := natAbs_toInt L b
  obtain ⟨a1, a2, a3⟩ := size_bounds ha (by omega)
  obtain ⟨b1, b2, b3⟩ := size_bounds hb (by omega)
  have hw := numeral_wf (L := L) hB (d := signRule a.desc b.desc) (signed_signRule _ _) (a.mag L * b.mag L)
  refine ⟨_, ⟨33, fun n hn => mul_numeral M hp hm ha hb (by show 1 ≤ a.size + b.size; omega) hK (by omega)⟩, ?_, ?_⟩
  · have := le_size_of_le hB hw (k := (a.size - 1) + (b.size - 1)) (by rw [numeral_mag, pow_add]; exact Nat.mul_le_mul a2 b2)
    omega
  · refine size_le_of_lt hB hw (by rw [numeral_mag]; exact Nat.mul_ne_zero (by omega) (by omega)) ?_
    rw [numeral_mag, pow_add]
    exact Nat.mul_lt_mul'' a3 b3

/-- C105: a quotient by a number smaller in absolute value has the difference of the sizes or one more. -/
theorem C105_quotient {L : Limits} (h : Custom L) {env : Env} (hm : env.Ample) (hd : env.debug = false) {a b : Bignum} (ha : WF L a)
    (hb : WF L b) (hb0 : b.toInt L ≠ 0) (hlt : (b.toInt L).natAbs < (a.toInt L).natAbs) :
    ∃ c, Evaluates (fun n => a.div L env n b) (.ok c) ∧ a.size - b.size ≤ c.size ∧ c.size ≤ a.size - b.size + 1 := by
  have hB := h.supported.base_ge
  have hma := natAbs_toInt L a
  have hmb := natAbs_toInt L b
  have hlt' : b.mag L < a.mag L := by omega
  obtain ⟨c, e1, e2, -, e4⟩ := div_obj h hm hd ha hb (by omega) (.inl (by omega))
  obtain ⟨a1, a2, a3⟩ := size_bounds ha (by omega)
  obtain ⟨b1, b2, b3⟩ := size_bounds hb (by omega)
  have hc0 : c.mag L ≠ 0 := by rw [e4]; exact (Nat.div_pos hlt'.le (by omega)).ne'
  have hsz : b.size ≤ a.size := size_le_of_lt hB hb (by omega) (hlt'.trans a3)
  refine ⟨c, ⟨_, fun n hn => e1 n hn⟩, ?_, ?_⟩
  · rcases Nat.eq_or_lt_of_le hsz with hs | hs
    · omega
    · have := le_size_of_le hB e2 (k := a.size - b.size - 1) (by
        rw [e4, Nat.le_div_iff_mul_le (by omega)]
        calc L.base ^ (a.size - b.size - 1) * b.mag L ≤ L.base ^ (a.size - b.size - 1) * L.base ^ b.size := Nat.mul_le_mul_left _ b3.le
          _ = L.base ^ (a.size - 1) := by rw [← pow_add]; congr 1; omega
          _ ≤ _ := a2)
      omega
  · refine size_le_of_lt hB e2 hc0 ?_
    rw [e4, Nat.div_lt_iff_lt_mul (by omega)]
    calc a.mag L < L.base ^ a.size := a3
      _ = L.base ^ (a.size - b.size + 1) * L.base ^ (b.size - 1) := by rw [← pow_add]; congr 1; omega
      _ ≤ _ := Nat.mul_le_mul_left _ b2

/-- The hypotheses are met: 123 has three digits; 7 * 15 has three and 123 / 15 one. -/
example {F : Type} {o : FloatOps F} (M : Ieee o) : (⟨.pos, [3, 2, 1]⟩ : Bignum).size = Nat.log 10 123 + 1 ∧
    (∃ c, Evaluates (fun n => (⟨.pos, [7]⟩ : Bignum).mul o .base10 releaseEnv n ⟨.pos, [5, 1]⟩) (.ok c) ∧ 1 + 2 - 1 ≤ c.size ∧ c.size ≤ 1 + 2) ∧
    ∃ c, Evaluates (fun n => (⟨.pos, [3, 2, 1]⟩ : Bignum).div .base10 releaseEnv n ⟨.pos, [5, 1]⟩) (.ok c) ∧ 3 - 2 ≤ c.size ∧ c.size ≤ 3 - 2 + 1 :=
  ⟨C105_size (L := .base10) (x := ⟨.pos, [3, 2, 1]⟩)
      (by simp [WF, Signed, WFDigits, InRange, NoLeadingZero, Limits.base, Limits.base10, Limits.custom]) (by decide),
    C105_product M .base10 releaseEnv_ample
      (by simp [WF, Signed, WFDigits, InRange, NoLeadingZero, Limits.base, Limits.base10, Limits.custom])
      (by simp [WF, Signed, WFDigits, InRange, NoLeadingZero, Limits.base, Limits.base10, Limits.custom]) (by decide) (by decide)
      (by simp [Bignum.size]),
    C105_quotient custom_base10 releaseEnv_ample rfl
      (by simp [WF, Signed, WFDigits, InRange, NoLeadingZero, Limits.base, Limits.base10, Limits.custom])
      (by simp [WF, Signed, WFDigits, InRange, NoLeadingZero, Limits.base, Limits.base10, Limits.custom]) (by decide) (by decide)⟩

/-- The hypotheses are met: 95 + 7 has two or three digits, 95 - 7 at most two, and 7 is no longer than 95. -/
example : (∃ c, Evaluates (fun n => (⟨.pos, [5, 9]⟩ : Bignum).add .base10 releaseEnv n ⟨.pos, [7]⟩) (.ok c) ∧ max 2 1 ≤ c.size ∧ c.size ≤ max 2 1 + 1) ∧
    (∃ c, Evaluates (fun n => (⟨.pos, [5, 9]⟩ : Bignum).subAssign .base10 releaseEnv n (.other ⟨.pos, [7]⟩)) (.ok c) ∧ c.size ≤ max 2 1 ∧
      (c.size = 0 ↔ (⟨.pos, [5, 9]⟩ : Bignum).toInt .base10 = (⟨.pos, [7]⟩ : Bignum).toInt .base10)) ∧
    (⟨.pos, [7]⟩ : Bignum).size ≤ (⟨.pos, [5, 9]⟩ : Bignum).size :=
  ⟨C105_sum (.inr custom_base10) releaseEnv_ample (by simp [WF, Signed, WFDigits, InRange, NoLeadingZero, Limits.base, Limits.base10, Limits.custom])
      (by simp [WF, Signed, WFDigits, InRange, NoLeadingZero, Limits.base, Limits.base10, Limits.custom]) rfl (by decide) (by decide),
    C105_difference (.inr custom_base10) releaseEnv_ample rfl
      (by simp [WF, Signed, WFDigits, InRange, NoLeadingZero, Limits.base, Limits.base10, Limits.custom])
      (by simp [WF, Signed, WFDigits, InRange, NoLeadingZero, Limits.base, Limits.base10, Limits.custom]) rfl (by simp [Bignum.size]),
    C105_monotone (L := .base10) (by decide) (by simp [WF, Signed, WFDigits, InRange, NoLeadingZero, Limits.base, Limits.base10, Limits.custom])
      (by simp [WF, Signed, WFDigits, InRange, NoLeadingZero, Limits.base, Limits.base10, Limits.custom]) (by decide) (by decide)⟩

end BN
