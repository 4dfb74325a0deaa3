import Verif.Lemmas.Samples
import Verif.Lemmas.Compare
/-
C01–C08: comparison operators.
-/
namespace BN

/-- Digits in range and no leading zero (the one-digit zero excluded). -/
def Normal (L : Limits) (b : Bignum) : Prop := InRange L.base b.digits ∧ NoLeadingZero b.digits

/-! ### C01 -/

/-- `operator==` always answers, and answers true exactly for equal descriptors and digit sequences. -/
theorem C01_eq_structural (a b : Bignum) :
    ∃ r, a.eq b = .ok r ∧ (r = true ↔ a.desc = b.desc ∧ a.digits = b.digits) := by
  unfold Bignum.eq
  by_cases h : a.desc = b.desc
  · rw [if_neg (by simpa using h), absEq_eq]
    exact ⟨_, rfl, by simp [h]⟩
  · rw [if_pos h]
    exact ⟨false, rfl, by simp [h]⟩

/-- `operator!=` is the negation of `operator==`. -/
theorem C01_ne_is_not_eq (a b : Bignum) : ∃ r, a.eq b = .ok r ∧ a.ne b = .ok (!r) := by
  unfold Bignum.eq Bignum.ne
  by_cases h : a.desc = b.desc
  · rw [if_neg (by simpa using h), if_neg (by simpa using h), absEq_eq]
    exact ⟨_, rfl, rfl⟩
  · rw [if_pos h, if_pos h]
    exact ⟨false, rfl, rfl⟩

/-- `operator==` is an equivalence relation. -/
theorem C01_eq_equivalence :
    (∀ a : Bignum, a.eq a = .ok true) ∧
    (∀ a b : Bignum, a.eq b = .ok true → b.eq a = .ok true) ∧
    (∀ a b c : Bignum, a.eq b = .ok true → b.eq c = .ok true → a.eq c = .ok true) := by
  have key : ∀ a b : Bignum, a.eq b = .ok true ↔ a = b := by
    intro a b
    obtain ⟨r, h1, h2⟩ := C01_eq_structural a b
    rw [h1]
    constructor
    · intro h
      have hr : r = true := by simpa using h
      obtain ⟨h3, h4⟩ := h2.1 hr
      cases a; cases b; simp_all
    · rintro rfl
      rw [h2.2 ⟨rfl, rfl⟩]
  refine ⟨fun a => (key a a).2 rfl, fun a b h => ?_, fun a b c h1 h2 => ?_⟩
  · rw [key] at *; exact h.symm
  · rw [key] at *; exact h1.trans h2

example : (⟨.neg, [1, 2]⟩ : Bignum).eq ⟨.neg, [1, 2]⟩ = .ok true ∧
    (⟨.neg, [1, 2]⟩ : Bignum).eq ⟨.neg, [1, 3]⟩ = .ok false := by decide

/-! ### C02 -/

/-- For numbers without leading zeros, `==` compares descriptor and magnitude. -/
theorem C02_eq_iff_value (L : Limits) (a b : Bignum) (ha : Normal L a) (hb : Normal L b) :
    a.eq b = .ok (decide (a.desc = b.desc ∧ a.mag L = b.mag L)) := by
  obtain ⟨r, h1, h2⟩ := C01_eq_structural a b
  rw [h1]; congr 1
  rw [Bool.eq_iff_iff, h2, decide_eq_true_iff]
  constructor
  · rintro ⟨h3, h4⟩; exact ⟨h3, by rw [Bignum.mag, Bignum.mag, h4]⟩
  · rintro ⟨h3, h4⟩
    exact ⟨h3, natOf_unique (Nat.succ_pos _) ha.1 hb.1 ha.2 hb.2 h4⟩

example : Normal .base10 ⟨.pos, [9, 1]⟩ ∧ Normal .base10 ⟨.pos, [1, 2]⟩ := by
  simp [Normal, InRange, NoLeadingZero, Limits.base, Limits.base10, Limits.custom]

/-! ### C03 -/

theorem C03_ge_le_nonneg (L : Limits) (a b : Bignum) (ha : Normal L a) (hb : Normal L b)
    (hpa : a.desc = .pos) (hpb : b.desc = .pos) :
    a.ge b = .ok (decide (b.toInt L ≤ a.toInt L)) ∧ a.le b = .ok (decide (a.toInt L ≤ b.toInt L)) := by
  unfold Bignum.ge Bignum.le Bignum.toInt Bignum.mag
  simp only [hpa, hpb]
  simp only [reduceCtorEq, and_false, false_and, if_false]
  rw [absGe_normal (Nat.succ_pos _) ha.1 hb.1 ha.2 hb.2, absLe_normal (Nat.succ_pos _) ha.1 hb.1 ha.2 hb.2]
  simp [Limits.base]

example := C03_ge_le_nonneg .base10 Sample.n199 Sample.n23
  ⟨by sample, by sample⟩ ⟨by sample, by sample⟩ rfl rfl

/-! ### C05: the exact meaning of `>` and `<` on non-negative numbers -/

/-- "longer, or equally long with some larger digit" -/
def AnyDigitGreater (x y : List Nat) : Prop :=
  y.length < x.length ∨ (x.length = y.length ∧ ∃ i < x.length, y.getD i 0 < x.getD i 0)

theorem C05_gt_lt_meaning (a b : Bignum) (hpa : a.desc = .pos) (hpb : b.desc = .pos) :
    (∃ r, a.gt b = .ok r ∧ (r = true ↔ AnyDigitGreater a.digits b.digits)) ∧
    (∃ r, a.lt b = .ok r ∧ (r = true ↔ AnyDigitGreater b.digits a.digits)) := by
  unfold Bignum.gt Bignum.lt
  simp only [hpa, hpb]
  simp only [reduceCtorEq, and_false, false_and, if_false]
  rw [absLt_eq, absGt_eq, absGt_eq]
  exact ⟨⟨_, rfl, by simp [AnyDigitGreater]⟩, ⟨_, rfl, by simp [AnyDigitGreater]⟩⟩

example := C05_gt_lt_meaning Sample.n199 Sample.n23 rfl rfl

/-! ### C04 -/

/-- The property fails: 19 > 21 is answered true (base 10). -/
theorem C04_refuted : ∃ a b : Bignum, WF .base10 a ∧ WF .base10 b ∧ a.desc = .pos ∧ b.desc = .pos ∧
    a.mag .base10 < b.mag .base10 ∧ a.gt b = .ok true ∧ b.lt a = .ok true := by
  refine ⟨⟨.pos, [9, 1]⟩, ⟨.pos, [1, 2]⟩, ?_, ?_, rfl, rfl, by decide, by decide, by decide⟩ <;>
    simp [WF, Signed, WFDigits, InRange, NoLeadingZero, Limits.base, Limits.base10, Limits.custom]

/-- What does hold: a strictly larger value is always reported as greater, and the answer is exact when
the lengths differ or there is at most one digit. Missing: equal lengths ≥ 2 (false positives). -/
theorem C04_gt_partial (L : Limits) (a b : Bignum) (ha : Normal L a) (hb : Normal L b)
    (hpa : a.desc = .pos) (hpb : b.desc = .pos) :
    (b.toInt L < a.toInt L → a.gt b = .ok true ∧ b.lt a = .ok true) ∧
    (a.digits.length ≠ b.digits.length ∨ a.digits.length ≤ 1 →
      a.gt b = .ok (decide (b.toInt L < a.toInt L)) ∧ b.lt a = .ok (decide (b.toInt L < a.toInt L))) := by
  have hB : 0 < L.base := Nat.succ_pos _
  obtain ⟨⟨r, hr, hr'⟩, -⟩ := C05_gt_lt_meaning a b hpa hpb
  obtain ⟨-, ⟨s, hs, hs'⟩⟩ := C05_gt_lt_meaning b a hpb hpa
  have hrs : r = s := by rw [Bool.eq_iff_iff, hr', hs']
  subst hrs
  have hta : a.toInt L = (natOf L.base a.digits : Int) := by simp [Bignum.toInt, Bignum.mag, hpa]
  have htb : b.toInt L = (natOf L.base b.digits : Int) := by simp [Bignum.toInt, Bignum.mag, hpb]
  have hle : b.toInt L < a.toInt L → AnyDigitGreater a.digits b.digits := by
    rw [hta, htb]
    intro h
    have h : natOf L.base b.digits < natOf L.base a.digits := by exact_mod_cast h
    rcases Nat.lt_trichotomy a.digits.length b.digits.length with h1 | h1 | h1
    · have := natOf_lt_of_length_lt hB ha.1 hb.2 h1; omega
    · exact .inr ⟨h1, exists_digit_gt hb.1 h1 h⟩
    · exact .inl h1
  refine ⟨fun h => ?_, fun h => ?_⟩
  · have := hr'.2 (hle h)
    rw [hr, hs, this]; exact ⟨rfl, rfl⟩
  · have : r = decide (b.toInt L < a.toInt L) := by
      rw [Bool.eq_iff_iff, hr', decide_eq_true_iff]
      refine ⟨fun hany => ?_, hle⟩
      rw [hta, htb]
      norm_cast
      rcases hany with h1 | ⟨h1, i, hi, h2⟩
      · exact natOf_lt_of_length_lt hB hb.1 ha.2 h1
      · rcases h with h | h
        · exact absurd h1 h
        · have hi0 : i = 0 := by omega
          subst hi0
          obtain ⟨x, hx⟩ := List.length_eq_one_iff.1 (show a.digits.length = 1 by omega)
          obtain ⟨y, hy⟩ := List.length_eq_one_iff.1 (show b.digits.length = 1 by omega)
          rw [hx, hy] at h2 ⊢
          simpa using h2
    rw [hr, hs, this]; exact ⟨rfl, rfl⟩

example : Normal .highp ⟨.pos, [7, 4294967295]⟩ ∧ Normal .highp ⟨.pos, [8]⟩ := by
  simp [Normal, InRange, NoLeadingZero, Limits.base, Limits.highp]

/-- C05, the comparison with the values: a larger number is always reported as greater, and between numbers of different
lengths the answer is exact. -/
theorem C05_no_false_negatives (L : Limits) (a b : Bignum) (ha : Normal L a) (hb : Normal L b)
    (hpa : a.desc = .pos) (hpb : b.desc = .pos) :
    (b.toInt L < a.toInt L → a.gt b = .ok true ∧ b.lt a = .ok true) ∧
    (a.digits.length ≠ b.digits.length →
      a.gt b = .ok (decide (b.toInt L < a.toInt L)) ∧ b.lt a = .ok (decide (b.toInt L < a.toInt L))) :=
  ⟨(C04_gt_partial L a b ha hb hpa hpb).1, fun h => (C04_gt_partial L a b ha hb hpa hpb).2 (.inl h)⟩

example := C05_no_false_negatives .base10 Sample.n199 Sample.n23 ⟨by sample, by sample⟩ ⟨by sample, by sample⟩ rfl rfl

/-! ### C06 -/

/-- The order laws fail: `>` is not asymmetric (19/21) and not irreflexive (-5 > -5), `>=` and `<=` are not
reflexive on negative numbers, and `a > b` does not coincide with `b < a`. -/
theorem C06_refuted :
    (∃ a b : Bignum, WF .base10 a ∧ WF .base10 b ∧ a.gt b = .ok true ∧ b.gt a = .ok true) ∧
    (∃ a : Bignum, WF .base10 a ∧ a.gt a = .ok true ∧ a.ge a = .ok false ∧ a.le a = .ok false ∧
      a.lt a = .ok false) := by
  refine ⟨⟨⟨.pos, [9, 1]⟩, ⟨.pos, [1, 2]⟩, ?_, ?_, by decide, by decide⟩,
    ⟨⟨.neg, [5]⟩, ?_, by decide, by decide, by decide, by decide⟩⟩ <;>
    simp [WF, Signed, WFDigits, InRange, NoLeadingZero, Limits.base, Limits.base10, Limits.custom]

/-- What holds on non-negative numbers: `>=`/`<=` form a total order compatible with `==`; `>` is
irreflexive, the converse of `<`, and connected. Missing: asymmetry/transitivity of `>`, all laws for
negative numbers. -/
theorem C06_order_partial (L : Limits) (a b c : Bignum) (ha : Normal L a) (hb : Normal L b) (hc : Normal L c)
    (hpa : a.desc = .pos) (hpb : b.desc = .pos) (hpc : c.desc = .pos) :
    a.ge a = .ok true ∧ a.gt a = .ok false ∧
    a.gt b = b.lt a ∧ a.ge b = b.le a ∧
    (a.ge b = .ok true ∨ b.ge a = .ok true) ∧
    (a.ge b = .ok true → b.ge a = .ok true → a.eq b = .ok true) ∧
    (a.ge b = .ok true → b.ge c = .ok true → a.ge c = .ok true) ∧
    (a.eq b = .ok true ∨ a.gt b = .ok true ∨ a.lt b = .ok true) := by
  have h1 := C03_ge_le_nonneg L a b ha hb hpa hpb
  have h2 := C03_ge_le_nonneg L b a hb ha hpb hpa
  have h3 := C03_ge_le_nonneg L b c hb hc hpb hpc
  have h4 := C03_ge_le_nonneg L a c ha hc hpa hpc
  have h5 := C03_ge_le_nonneg L a a ha ha hpa hpa
  have hta : a.toInt L = (a.mag L : Int) := by simp [Bignum.toInt, hpa]
  have htb : b.toInt L = (b.mag L : Int) := by simp [Bignum.toInt, hpb]
  have htc : c.toInt L = (c.mag L : Int) := by simp [Bignum.toInt, hpc]
  have he := C02_eq_iff_value L a b ha hb
  rw [hpa, hpb] at he
  refine ⟨by rw [h5.1]; simp, ?_, ?_, by rw [h1.1, h2.2], ?_, ?_, ?_, ?_⟩
  · obtain ⟨⟨r, hr, hr'⟩, -⟩ := C05_gt_lt_meaning a a hpa hpa
    rw [hr]; congr 1
    rw [← Bool.not_eq_true, hr']
    rintro (h | ⟨_, i, _, h⟩) <;> omega
  · obtain ⟨⟨r, hr, hr'⟩, -⟩ := C05_gt_lt_meaning a b hpa hpb
    obtain ⟨-, ⟨s, hs, hs'⟩⟩ := C05_gt_lt_meaning b a hpb hpa
    rw [hr, hs]; congr 1; rw [Bool.eq_iff_iff, hr', hs']
  · rw [h1.1, h2.1]; simp; omega
  · rw [h1.1, h2.1, he, hta, htb]; simp; omega
  · rw [h1.1, h3.1, h4.1]; simp; omega
  · rcases Nat.lt_trichotomy (a.mag L) (b.mag L) with h | h | h
    · right; right
      exact ((C04_gt_partial L b a hb ha hpb hpa).1 (by rw [hta, htb]; exact_mod_cast h)).2
    · left; rw [he]; simp [h]
    · right; left
      exact ((C04_gt_partial L a b ha hb hpa hpb).1 (by rw [hta, htb]; exact_mod_cast h)).1

example : ∃ a b c : Bignum, Normal .base10 a ∧ Normal .base10 b ∧ Normal .base10 c ∧ a.desc = .pos ∧
    b.desc = .pos ∧ c.desc = .pos ∧ a ≠ b ∧ b ≠ c :=
  ⟨⟨.pos, [1, 2]⟩, ⟨.pos, [9, 1]⟩, ⟨.pos, [3]⟩, by
    simp [Normal, InRange, NoLeadingZero, Limits.base, Limits.base10, Limits.custom]⟩

/-! ### C07 -/

/-- Fails for each operator: -5 > -5; not (-5 >= -5); not (-5 <= -5); and -19 < -21. -/
theorem C07_refuted :
    (∃ a : Bignum, WF .base10 a ∧ a.desc = .neg ∧ a.gt a = .ok true ∧ a.ge a = .ok false ∧ a.le a = .ok false) ∧
    (∃ a b : Bignum, WF .base10 a ∧ WF .base10 b ∧ a.desc = .neg ∧ b.desc = .neg ∧
      b.toInt .base10 < a.toInt .base10 ∧ a.lt b = .ok true) := by
  refine ⟨⟨⟨.neg, [5]⟩, ?_, rfl, by decide, by decide, by decide⟩,
    ⟨⟨.neg, [9, 1]⟩, ⟨.neg, [1, 2]⟩, ?_, ?_, rfl, rfl, by decide, by decide⟩⟩ <;>
    simp [WF, Signed, WFDigits, InRange, NoLeadingZero, Limits.base, Limits.base10, Limits.custom]

/-- What holds for two negative numbers: `>` answers "greater or equal" exactly; a strictly greater number
satisfies `>` and `>=`; a strictly smaller one satisfies `<` and `<=`. Missing: equal operands, and false
positives of `>=`, `<`, `<=` for equal lengths. -/
theorem C07_negative_partial (L : Limits) (a b : Bignum) (ha : Normal L a) (hb : Normal L b)
    (hna : a.desc = .neg) (hnb : b.desc = .neg) :
    a.gt b = .ok (decide (b.toInt L ≤ a.toInt L)) ∧
    (b.toInt L < a.toInt L → a.ge b = .ok true) ∧
    (a.toInt L < b.toInt L → a.lt b = .ok true ∧ a.le b = .ok true) := by
  have hB : 0 < L.base := Nat.succ_pos _
  have hta : a.toInt L = -(natOf L.base a.digits : Int) := by simp [Bignum.toInt, Bignum.mag, hna]
  have htb : b.toInt L = -(natOf L.base b.digits : Int) := by simp [Bignum.toInt, Bignum.mag, hnb]
  have key : ∀ x y : List Nat, InRange L.base x → InRange L.base y → NoLeadingZero y →
      natOf L.base y < natOf L.base x → absGt x y = .ok true := by
    intro x y hx hy hy0 h
    rw [absGt_eq]; congr 1; rw [decide_eq_true_iff]
    rcases Nat.lt_trichotomy x.length y.length with h1 | h1 | h1
    · have := natOf_lt_of_length_lt hB hx hy0 h1; omega
    · exact .inr ⟨h1, exists_digit_gt hy h1 h⟩
    · exact .inl h1
  unfold Bignum.gt Bignum.ge Bignum.lt Bignum.le
  simp only [hna, hnb]
  simp only [reduceCtorEq, and_false, false_and, if_false, and_self, if_true]
  refine ⟨?_, ?_, ?_⟩
  · rw [absLe_normal hB ha.1 hb.1 ha.2 hb.2, hta, htb]; simp
  · intro h
    rw [absLt_eq]
    exact key _ _ hb.1 ha.1 ha.2 (by rw [hta, htb] at h; omega)
  · intro h
    have := key _ _ ha.1 hb.1 hb.2 (by rw [hta, htb] at h; omega)
    exact this

example : ∃ a b : Bignum, Normal .base10 a ∧ Normal .base10 b ∧ a.desc = .neg ∧ b.desc = .neg ∧
    b.toInt .base10 < a.toInt .base10 :=
  ⟨⟨.neg, [9, 1]⟩, ⟨.neg, [1, 2]⟩, by
    simp [Normal, InRange, NoLeadingZero, Limits.base, Limits.base10, Limits.custom, Bignum.toInt, Bignum.mag, natOf]⟩

/-! ### C08 -/

theorem C08_opposite_signs (a b : Bignum) (ha : a.desc = .pos) (hb : b.desc = .neg) :
    a.gt b = .ok true ∧ a.ge b = .ok true ∧ a.lt b = .ok false ∧ a.le b = .ok false ∧
    b.gt a = .ok false ∧ b.ge a = .ok false ∧ b.lt a = .ok true ∧ b.le a = .ok true := by
  simp [Bignum.gt, Bignum.ge, Bignum.lt, Bignum.le, ha, hb]

example := C08_opposite_signs Sample.n199 Sample.m23 rfl rfl

/-- In particular the two zeros `+0` and `-0` are ordered although they denote the same integer. -/
theorem C08_zero_signs : ∃ a b : Bignum, WF .base10 a ∧ WF .base10 b ∧ a.toInt .base10 = b.toInt .base10 ∧
    a.gt b = .ok true ∧ a.le b = .ok false := by
  refine ⟨⟨.pos, []⟩, ⟨.neg, []⟩, ?_, ?_, by decide, by decide, by decide⟩ <;>
    simp [WF, Signed, WFDigits, InRange, NoLeadingZero]

end BN
