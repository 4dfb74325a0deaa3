import Verif.Props.Compare
import Verif.Props.Special
/-
C07 (exact form) and C102: comparison of negative numbers, and of NaN and the infinities.
-/
namespace BN
open Bignum

/-! ### C07 -/

/-- C07, in full: what each of the four operators answers for two negative numbers. -/
theorem C07_exact (L : Limits) (a b : Bignum) (ha : Normal L a) (hb : Normal L b) (hna : a.desc = .neg) (hnb : b.desc = .neg) :
    a.gt b = .ok (decide (b.toInt L ≤ a.toInt L)) ∧
    (∃ r, a.ge b = .ok r ∧ (r = true ↔ AnyDigitGreater b.digits a.digits)) ∧
    (∃ r, a.lt b = .ok r ∧ a.le b = .ok r ∧ (r = true ↔ AnyDigitGreater a.digits b.digits)) := by
  refine ⟨(C07_negative_partial L a b ha hb hna hnb).1, ?_, ?_⟩
  · unfold Bignum.ge
    simp only [hna, hnb]
    simp only [reduceCtorEq, and_false, false_and, if_false, and_self, if_true]
    rw [absLt_eq, absGt_eq]
    exact ⟨_, rfl, by simp [AnyDigitGreater]⟩
  · unfold Bignum.lt Bignum.le
    simp only [hna, hnb]
    simp only [reduceCtorEq, and_false, false_and, if_false, and_self, if_true]
    rw [absGt_eq]
    exact ⟨_, rfl, rfl, by simp [AnyDigitGreater]⟩

/-- The hypotheses are met: -19 and -21 in base 10. -/
example : (⟨.neg, [9, 1]⟩ : Bignum).gt ⟨.neg, [1, 2]⟩ = .ok true :=
  ((C07_exact .base10 ⟨.neg, [9, 1]⟩ ⟨.neg, [1, 2]⟩
    (by simp [Normal, InRange, NoLeadingZero, Limits.base, Limits.base10, Limits.custom])
    (by simp [Normal, InRange, NoLeadingZero, Limits.base, Limits.base10, Limits.custom]) rfl rfl).1).trans (by decide)

/-! ### C102 -/

/-- C102, in full: a NaN or an infinity without digits is compared as if it were a number without digits.  It is below everything that has
a digit and equal in rank to everything that has none; its sign and kind play no part. -/
theorem C102_special_rank {s y : Bignum} (hs : ¬ Finite s) (h0 : s.digits = []) :
    s.gt y = .ok false ∧ s.ge y = .ok (decide (y.digits = [])) ∧ s.lt y = .ok (decide (y.digits ≠ [])) ∧ s.le y = .ok true ∧
    y.gt s = .ok (decide (y.digits ≠ [])) ∧ y.ge s = .ok true ∧ y.lt s = .ok false ∧ y.le s = .ok (decide (y.digits = [])) := by
  have hp : s.desc ≠ .pos := fun h => hs (.inl h)
  have hn : s.desc ≠ .neg := fun h => hs (.inr h)
  unfold Bignum.gt Bignum.ge Bignum.lt Bignum.le
  simp only [hp, hn, false_and, and_false, if_false, h0]
  rcases hy : y.digits with _ | ⟨c, l⟩
  · exact ⟨rfl, rfl, rfl, rfl, rfl, rfl, rfl, rfl⟩
  · simp [absGt, absGe, absLt, absLe]

/-- C102: what holds of the order of the extended numbers: minus infinity is below everything that has a digit.  Missing: everything about plus infinity and NaN, see `C102_refuted`. -/
theorem C102_minus_infinity_partial {s y : Bignum} (hs : s.desc = .negInf) (h0 : s.digits = []) (hy : y.digits ≠ []) :
    s.lt y = .ok true ∧ s.le y = .ok true ∧ s.gt y = .ok false ∧ s.ge y = .ok false ∧ y.gt s = .ok true ∧ y.ge s = .ok true := by
  have hf : ¬ Finite s := by rintro (h | h) <;> rw [hs] at h <;> cases h
  obtain ⟨h1, h2, h3, h4, h5, h6, -, -⟩ := C102_special_rank (y := y) hf h0
  exact ⟨by rw [h3]; simp [hy], h4, h1, by rw [h2]; simp [hy], by rw [h5]; simp [hy], h6⟩

/-- Equality with a NaN or an infinity: exactly objects of the same kind without digits. -/
theorem C102_special_eq {s y : Bignum} (h0 : s.digits = []) :
    s.eq y = .ok (decide (y.desc = s.desc ∧ y.digits = [])) ∧ s.ne y = .ok (!decide (y.desc = s.desc ∧ y.digits = [])) := by
  obtain ⟨r, h1, h2⟩ := C01_eq_structural s y
  obtain ⟨r', h3, h4⟩ := C01_ne_is_not_eq s y
  have : r = decide (y.desc = s.desc ∧ y.digits = []) := by
    rw [Bool.eq_iff_iff, h2, decide_eq_true_iff, h0]
    exact ⟨fun h => ⟨h.1.symm, h.2.symm⟩, fun h => ⟨h.1.symm, h.2.symm⟩⟩
  rw [h1] at h3
  cases h3
  exact ⟨by rw [h1, this], by rw [h4, this]⟩

/-- The property fails: plus infinity, made by setDescriptor, is less than 5, two NaNs are equal, NaN <= 5 is true
and minus infinity >= plus infinity is true. -/
theorem C102_refuted : ∃ inf ninf nan x : Bignum, inf = (Bignum.default.setDescriptor .posInf) ∧ ninf = (Bignum.default.setDescriptor .negInf) ∧
    nan = (Bignum.default.setDescriptor .nan) ∧ WF .base10 x ∧ x.toInt .base10 = 5 ∧ inf.gt x = .ok false ∧ inf.lt x = .ok true ∧
    nan.eq nan = .ok true ∧ nan.le x = .ok true ∧ ninf.ge inf = .ok true :=
  ⟨_, _, _, ⟨.pos, [5]⟩, rfl, rfl, rfl, by simp [WF, Signed, WFDigits, InRange, NoLeadingZero, Limits.base, Limits.base10, Limits.custom],
    by decide, by decide, by decide, by decide, by decide, by decide⟩

/-- The hypotheses are met: minus infinity and 12 in base 10. -/
example : (⟨.negInf, []⟩ : Bignum).lt ⟨.pos, [2, 1]⟩ = .ok true :=
  (C102_minus_infinity_partial (s := ⟨.negInf, []⟩) rfl rfl (by simp)).1

/-- The hypotheses are met: NaN against 12 in base 10. -/
example : (⟨.nan, []⟩ : Bignum).le ⟨.pos, [2, 1]⟩ = .ok true ∧ (⟨.nan, []⟩ : Bignum).eq ⟨.pos, [2, 1]⟩ = .ok false :=
  ⟨(C102_special_rank (s := ⟨.nan, []⟩) (y := ⟨.pos, [2, 1]⟩) (by rintro (h | h) <;> cases h) rfl).2.2.2.1,
    (C102_special_eq (s := ⟨.nan, []⟩) (y := ⟨.pos, [2, 1]⟩) rfl).1.trans (by decide)⟩

end BN
