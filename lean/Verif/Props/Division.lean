import Verif.Lemmas.Samples
import Mathlib.Data.Nat.Size
import Verif.Lemmas.Div
import Verif.Props.Addition
/-
Division: C31-C35, and the division parts of C11, C58.
-/
namespace BN
open Bignum

/-! ### Auxiliary -/

/-- The sign rule for products and quotients. -/
def signRule (a b : Desc) : Desc := if a = b then .pos else .neg

theorem mulSign_signed {a b : Desc} (ha : Signed a) (hb : Signed b) : mulSign a b = signRule a b := by
  rcases ha with rfl | rfl <;> rcases hb with rfl | rfl <;> rfl

theorem mulSign_mem (a b : Desc) : Signed (mulSign a b) := by
  unfold mulSign Signed; split
  · exact .inr rfl
  · split
    · exact .inl rfl
    · split
      · exact .inr rfl
      · exact .inl rfl

theorem isOneDigit_iff (x : List Nat) (v : Nat) : isOneDigit x v = true ↔ x = [v] := by
  unfold isOneDigit
  match x with
  | [] => simp
  | [y] => simp
  | y :: z :: t => simp

theorem Rhs.get_digits (r : Rhs) (a : Bignum) (d : Desc) : (r.get ⟨d, a.digits⟩).digits = (r.get a).digits := by
  cases r <;> rfl

/-- The operator once the special cases are excluded. -/
theorem divAssign_general {L : Limits} {env : Env} {fuel : Nat} {a : Bignum} {r : Rhs} (hs : Signed a.desc)
    (h0 : (r.get a).digits ≠ [0]) (h1 : (r.get a).digits ≠ [1]) (ha : a.digits ≠ []) (ha0 : a.digits ≠ [0]) :
    divAssign L env fuel a r =
      handle ⟨mulSign a.desc (r.get a).desc, a.digits⟩ (r.get ⟨mulSign a.desc (r.get a).desc, a.digits⟩).desc
        (divTry L env fuel ⟨mulSign a.desc (r.get a).desc, a.digits⟩ (r.get a).digits) := by
  unfold divAssign
  have e0 : isOneDigit (r.get a).digits 0 = false := by
    rw [Bool.eq_false_iff, ne_eq, isOneDigit_iff]; exact h0
  have e1 : isOneDigit (r.get a).digits 1 = false := by
    rw [Bool.eq_false_iff, ne_eq, isOneDigit_iff]; exact h1
  have e2 : isOneDigit a.digits 0 = false := by
    rw [Bool.eq_false_iff, ne_eq, isOneDigit_iff]; exact ha0
  simp [isComputable_signed hs, Rhs.get_digits, e0, e1, e2, ha]

theorem divAssign_by_one {L : Limits} {env : Env} {fuel : Nat} {a : Bignum} {r : Rhs} (hs : Signed a.desc)
    (h1 : (r.get a).digits = [1]) :
    divAssign L env fuel a r = .ok ⟨mulSign a.desc (r.get a).desc, a.digits⟩ := by
  unfold divAssign
  simp [isComputable_signed hs, Rhs.get_digits, h1, isOneDigit]

theorem divAssign_of_zero {L : Limits} {env : Env} {fuel : Nat} {a : Bignum} {r : Rhs} (hs : Signed a.desc)
    (h0 : (r.get a).digits ≠ [0]) (ha : a.digits = [] ∨ a.digits = [0]) :
    divAssign L env fuel a r = .ok ⟨mulSign a.desc (r.get a).desc, a.digits⟩ := by
  unfold divAssign
  have e0 : isOneDigit (r.get a).digits 0 = false := by
    rw [Bool.eq_false_iff, ne_eq, isOneDigit_iff]; exact h0
  have e2 : a.digits = [] ∨ isOneDigit a.digits 0 = true := by
    rw [isOneDigit_iff]; exact ha
  simp only [isComputable_signed hs, Rhs.get_digits, e0, e2, Bool.not_true, Bool.false_eq_true, if_false, if_true]
  split <;> rfl

theorem divAssign_by_zero {L : Limits} {env : Env} {fuel : Nat} {a : Bignum} {r : Rhs} (hs : Signed a.desc)
    (h1 : (r.get a).digits = [0]) :
    divAssign L env fuel a r = .ok ⟨if mulSign a.desc (r.get a).desc = .neg then .negInf else .posInf, []⟩ := by
  unfold divAssign
  simp [isComputable_signed hs, Rhs.get_digits, h1, isOneDigit]

theorem wf_cases {B : Nat} (hB : 2 ≤ B) {l : List Nat} (h : WFDigits B l) :
    (l = [] ∨ l = [0]) ∧ natOf B l = 0 ∨ NZ B l ∧ natOf B l ≠ 0 := by
  rcases h.2 with h1 | rfl
  · by_cases h0 : l = []
    · subst h0; exact .inl ⟨.inl rfl, rfl⟩
    · have := natOf_pos_of_noLeadingZero (B := B) (by omega) h1 h0
      exact .inr ⟨⟨h.1, h1, h0⟩, by omega⟩
  · exact .inl ⟨.inr rfl, by simp⟩

theorem NZ.ne_zero {B : Nat} {l : List Nat} (h : NZ B l) : l ≠ [0] := by
  rintro rfl; have := h.nlz; simp [NoLeadingZero] at this

/-- `abs_val_is_gt` never misses a larger magnitude. -/
theorem absGt_of_lt {B : Nat} (hB : 2 ≤ B) {a b : List Nat} (ha : InRange B a) (hb : InRange B b) 
    (hb0 : NoLeadingZero b) (h : natOf B b < natOf B a) : absGt a b = .ok true := by
  rw [absGt_eq]
  refine congrArg Except.ok (decide_eq_true ?_)
  rcases Nat.lt_trichotomy b.length a.length with h1 | h1 | h1
  · exact .inl h1
  · exact .inr ⟨h1.symm, exists_digit_gt hb h1.symm h⟩
  · have := natOf_lt_of_length_lt (by omega) ha hb0 h1; omega

/-- The division of two non-zero magnitudes that differ, for any surroundings. -/
theorem okOr_divTry_log {L : Limits} (h : Custom L) (env : Env) {fuel : Nat} {d : Desc} {a b : List Nat}
    (ha : NZ L.base a) (hb : NZ L.base b) (hne : natOf L.base a ≠ natOf L.base b) {k : Nat} (hf : natOf L.base a < 2 ^ k) (hk : k + 2 ≤ fuel) :
    OkOr env (divTry L env fuel ⟨d, a⟩ b) (fun c => c.desc = d ∧ WFDigits L.base c.digits ∧ c.digits ≠ [] ∧
      natOf L.base c.digits = natOf L.base a / natOf L.base b) := by
  have hB := h.supported.base_ge
  unfold divTry
  obtain ⟨g, hg⟩ := absGt_total a b
  simp only [hg, ok_bind]
  cases g
  · have hlt : natOf L.base a < natOf L.base b := by
      by_contra hc
      have := absGt_of_lt hB ha.rng hb.rng hb.nlz (by omega)
      rw [hg] at this; cases this
    refine .pure ⟨rfl, ?_⟩
    rw [zero_store h.supported, Nat.div_eq_of_lt hlt]
    exact ⟨⟨by intro x hx; simp at hx; omega, .inr rfl⟩, by simp, by simp⟩
  · simp only [if_true]
    refine (okOr_absDiv h env hb ha.rng ha.nlz hf hk).bind ?_
    rintro q ⟨q1, q2, q3⟩
    exact .pure ⟨rfl, q1, q2, q3⟩

theorem okOr_divTry {L : Limits} (h : Custom L) (env : Env) {fuel : Nat} {d : Desc} {a b : List Nat}
    (ha : NZ L.base a) (hb : NZ L.base b) (hne : natOf L.base a ≠ natOf L.base b) (hf : natOf L.base a + 1 < fuel) :
    OkOr env (divTry L env fuel ⟨d, a⟩ b) (fun c => c.desc = d ∧ WFDigits L.base c.digits ∧ c.digits ≠ [] ∧
      natOf L.base c.digits = natOf L.base a / natOf L.base b) :=
  okOr_divTry_log h env ha hb hne Nat.lt_two_pow_self (by omega)

/-- Any digit type: equal or smaller dividend. -/
theorem okOr_divTry_le {L : Limits} (h : Supported L) (env : Env) {fuel : Nat} {d : Desc} {a b : List Nat}
    (ha : NZ L.base a) (hb : NZ L.base b) (hle : natOf L.base a ≤ natOf L.base b) (hf : 0 < fuel) :
    OkOr env (divTry L env fuel ⟨d, a⟩ b) (fun c => c = ⟨d, [0]⟩) := by
  have hB := h.base_ge
  unfold divTry
  obtain ⟨g, hg⟩ := absGt_total a b
  simp only [hg, ok_bind]
  cases g
  · exact .pure (by rw [zero_store h])
  · simp only [if_true]
    have hlen := length_le_of_natOf_le hB hb.rng ha.nlz hle
    have hne : natOf L.base a ≠ natOf L.base b := by
      intro he
      have := natOf_unique (by omega) ha.rng hb.rng ha.nlz hb.nlz he
      subst this
      rw [absGt_eq] at hg
      simp at hg
    refine (okOr_absDiv_small h env (fuel := fuel) ha.rng hb.rng (by omega) (by omega) hf).bind ?_
    rintro q rfl
    exact .pure rfl

theorem toInt_div {L : Limits} {a b c : Bignum} (ha : Signed a.desc) (hb : Signed b.desc)
    (hc : c.desc = signRule a.desc b.desc) (hm : c.mag L = a.mag L / b.mag L) :
    c.toInt L = (a.toInt L).tdiv (b.toInt L) := by
  unfold Bignum.toInt
  rw [hc, hm]
  rcases ha with h1 | h1 <;> rcases hb with h2 | h2 <;> rw [h1, h2] <;>
    simp [signRule, Int.neg_tdiv, Int.tdiv_neg, Int.tdiv_eq_ediv_of_nonneg]

/-! ### C31 -/

/-- Truncating division: for a custom base and well-formed operands of different magnitude with non-zero divisor, the
operator returns the well-formed truncated quotient once every loop may run as often as |a| has binary digits, plus 2. -/
theorem C69_div_rounds {L : Limits} (h : Custom L) {env : Env} (hm : env.Ample) (hd : env.debug = false) {a : Bignum} {r : Rhs}
    (ha : WF L a) (hb : WF L (r.get a)) (hb0 : (r.get a).mag L ≠ 0) (hne : a.mag L ≠ (r.get a).mag L) :
    ∃ c, (∀ fuel, (a.mag L).size + 2 ≤ fuel → divAssign L env fuel a r = .ok c) ∧ WF L c ∧
      c.desc = signRule a.desc (r.get a).desc ∧ c.mag L = a.mag L / (r.get a).mag L ∧
      c.toInt L = (a.toInt L).tdiv ((r.get a).toInt L) := by
  have hB := h.supported.base_ge
  have hms := mulSign_signed ha.1 hb.1
  have hsig : Signed (signRule a.desc (r.get a).desc) := hms ▸ mulSign_mem _ _
  have fin : ∀ c : Bignum, c.desc = signRule a.desc (r.get a).desc → WFDigits L.base c.digits →
      c.mag L = a.mag L / (r.get a).mag L → WF L c ∧
      c.desc = signRule a.desc (r.get a).desc ∧ c.mag L = a.mag L / (r.get a).mag L ∧
      c.toInt L = (a.toInt L).tdiv ((r.get a).toInt L) := fun c h1 h2 h3 =>
    ⟨⟨h1 ▸ hsig, h2⟩, h1, h3, toInt_div ha.1 hb.1 h1 h3⟩
  rcases wf_cases hB hb.2 with ⟨-, hbz⟩ | ⟨hbn, -⟩
  · exact absurd hbz hb0
  by_cases h1 : (r.get a).digits = [1]
  · refine ⟨_, fun fuel _ => divAssign_by_one ha.1 h1, fin _ hms ha.2 ?_⟩
    simp [Bignum.mag, h1]
  rcases wf_cases hB ha.2 with ⟨haz, haz'⟩ | ⟨han, -⟩
  · refine ⟨_, fun fuel _ => divAssign_of_zero ha.1 hbn.ne_zero haz, fin _ hms ha.2 ?_⟩
    show natOf L.base a.digits = natOf L.base a.digits / _
    rw [haz', Nat.zero_div]
  · have main : ∀ fuel, (a.mag L).size + 2 ≤ fuel → ∃ c, divAssign L env fuel a r = .ok c ∧
        (c.desc = signRule a.desc (r.get a).desc ∧ WFDigits L.base c.digits ∧ c.digits ≠ [] ∧
          c.mag L = a.mag L / (r.get a).mag L) := by
      intro fuel hf
      rw [divAssign_general ha.1 hbn.ne_zero h1 han.ne han.ne_zero]
      obtain ⟨c, h2, h3⟩ := (okOr_divTry_log h env (fuel := fuel) (d := mulSign a.desc (r.get a).desc) han hbn hne
        (Nat.lt_size_self _) hf).ok hm hd
      rw [hms] at h2 h3 ⊢
      exact ⟨c, by rw [h2]; rfl, h3⟩
    obtain ⟨c, -, hc1, hc2, hc3, hc4⟩ := main _ (Nat.le_refl _)
    refine ⟨c, fun fuel hf => ?_, fin c hc1 hc2 hc4⟩
    obtain ⟨c', e, e1, e2, e3, e4⟩ := main fuel hf
    rw [e]
    have : c' = c := by
      obtain ⟨cd, cl⟩ := c; obtain ⟨cd', cl'⟩ := c'
      simp only at hc1 hc2 hc3 e1 e2 e3
      rw [e1, hc1]
      have := wf_unique hB e2 hc2 e3 hc3 (by
        show Bignum.mag L ⟨cd', cl'⟩ = Bignum.mag L ⟨cd, cl⟩
        rw [e4, hc4])
      rw [this]
    rw [this]

/-- The hypotheses are met by 100 / 7 in base 10: 7 + 2 iterations are enough (the naive bound would be 102). -/
example : Custom .base10 ∧ releaseEnv.Ample ∧ WF .base10 ⟨.pos, [0, 0, 1]⟩ ∧ WF .base10 ⟨.neg, [7]⟩ ∧
    Bignum.mag .base10 ⟨.neg, [7]⟩ ≠ 0 ∧ Bignum.mag .base10 ⟨.pos, [0, 0, 1]⟩ ≠ Bignum.mag .base10 ⟨.neg, [7]⟩ ∧
    (Bignum.mag .base10 ⟨.pos, [0, 0, 1]⟩).size = 7 ∧
    divAssign .base10 releaseEnv 9 ⟨.pos, [0, 0, 1]⟩ (.other ⟨.neg, [7]⟩) = .ok ⟨.neg, [4, 1]⟩ :=
  ⟨⟨32, 9, by norm_num, by norm_num, by norm_num, rfl⟩, releaseEnv_ample,
    by simp [WF, Signed, WFDigits, InRange, NoLeadingZero, Limits.base, Limits.base10, Limits.custom],
    by simp [WF, Signed, WFDigits, InRange, NoLeadingZero, Limits.base, Limits.base10, Limits.custom],
    by decide, by decide, by decide, by decide⟩

/-- The same with the plainer budget |a| + 2. -/
theorem C31_div_exact {L : Limits} (h : Custom L) {env : Env} (hm : env.Ample) (hd : env.debug = false) {a : Bignum} {r : Rhs}
    (ha : WF L a) (hb : WF L (r.get a)) (hb0 : (r.get a).mag L ≠ 0) (hne : a.mag L ≠ (r.get a).mag L) :
    ∃ c, (∀ fuel, a.mag L + 2 ≤ fuel → divAssign L env fuel a r = .ok c) ∧ WF L c ∧
      c.desc = signRule a.desc (r.get a).desc ∧ c.mag L = a.mag L / (r.get a).mag L ∧
      c.toInt L = (a.toInt L).tdiv ((r.get a).toInt L) := by
  obtain ⟨c, h1, h2⟩ := C69_div_rounds h hm hd ha hb hb0 hne
  exact ⟨c, fun fuel hf => h1 fuel (by have := Nat.size_le.2 (Nat.lt_two_pow_self (n := a.mag L)); omega), h2⟩

example := C31_div_exact (L := .base10) (a := Sample.n199) (r := .other Sample.m23) Sample.base10 Sample.ample rfl (by sample) (by sample)
  (by sample) (by sample)

/-- The same as an equation: dividend = quotient · divisor + remainder with a remainder below the divisor. -/
theorem C31_div_mod {L : Limits} (h : Custom L) {env : Env} (hm : env.Ample) (hd : env.debug = false) {a b : Bignum}
    (ha : WF L a) (hb : WF L b) (hb0 : b.mag L ≠ 0) (hne : a.mag L ≠ b.mag L) :
    ∃ c rem, Evaluates (fun fuel => divAssign L env fuel a (.other b)) (.ok c) ∧
      a.mag L = c.mag L * b.mag L + rem ∧ rem < b.mag L := by
  obtain ⟨c, h1, -, -, h4, -⟩ := C31_div_exact h hm hd (r := .other b) ha hb hb0 hne
  refine ⟨c, a.mag L % b.mag L, ⟨_, fun n hn => h1 n hn⟩, ?_, Nat.mod_lt _ (Nat.pos_of_ne_zero hb0)⟩
  have h4' : c.mag L = a.mag L / b.mag L := h4
  rw [h4', Nat.div_add_mod']

example : divAssign .base10 releaseEnv 200 ⟨.neg, [7, 9, 1]⟩ (.other ⟨.pos, [3, 1]⟩) = .ok ⟨.neg, [5, 1]⟩ := by decide

/-- Binary operator. -/
theorem C31_div_operator {L : Limits} (h : Custom L) {env : Env} (hm : env.Ample) (hd : env.debug = false) {a b : Bignum}
    (ha : WF L a) (hb : WF L b) (hb0 : b.mag L ≠ 0) (hne : a.mag L ≠ b.mag L) :
    ∃ c, Evaluates (fun fuel => a.div L env fuel b) (.ok c) ∧ WF L c ∧ c.toInt L = (a.toInt L).tdiv (b.toInt L) := by
  obtain ⟨c, h1, h2, -, -, h5⟩ := C31_div_exact h hm hd (r := .other b) ha hb hb0 hne
  refine ⟨c, ⟨a.mag L + 2, fun n hn => ?_⟩, h2, h5⟩
  show a.div L env n b = _
  unfold Bignum.div viaCopy
  rw [copy_ok hm, ok_bind, h1 n hn]

example := C31_div_operator (L := .base10) (a := Sample.n199) (b := Sample.m23) Sample.base10 Sample.ample rfl (by sample) (by sample)
  (by sample) (by sample)

/-! ### C32 -/

/-- Dividing a number (other than 0 and ±1) by itself, or by its negative, gives zero — for every such number and
every digit type. -/
theorem C32_self_division_is_zero {L : Limits} (h : Supported L) {env : Env} {a : Bignum} {r : Rhs} {fuel : Nat}
    (ha : WF L a) (hb : WF L (r.get a)) (heq : a.mag L = (r.get a).mag L) (h2 : 2 ≤ a.mag L) :
    divAssign L env fuel a r = .ok ⟨signRule a.desc (r.get a).desc, [0]⟩ := by
  have hB := h.base_ge
  rcases wf_cases hB ha.2 with ⟨-, hz⟩ | ⟨han, -⟩
  · exact absurd hz (by have : a.mag L = natOf L.base a.digits := rfl; omega)
  rcases wf_cases hB hb.2 with ⟨-, hz⟩ | ⟨hbn, -⟩
  · exact absurd hz (by have : (r.get a).mag L = natOf L.base (r.get a).digits := rfl; omega)
  have h1 : (r.get a).digits ≠ [1] := by
    intro h1
    have : (r.get a).mag L = 1 := by simp [Bignum.mag, h1]
    omega
  rw [divAssign_general ha.1 hbn.ne_zero h1 han.ne han.ne_zero, mulSign_signed ha.1 hb.1]
  have he := natOf_unique (by omega) han.rng hbn.rng han.nlz hbn.nlz heq
  unfold divTry
  have hg : absGt a.digits (r.get a).digits = .ok false := by
    rw [← he, absGt_eq]; simp
  simp only [hg, ok_bind, Bool.false_eq_true, if_false, zero_store h]
  rfl

example := C32_self_division_is_zero (L := .highp) (env := releaseEnv) (a := ⟨.neg, [7, 4294967295]⟩) (r := .self) (fuel := 0) (.inl .highp)
  (by sample) (by sample) rfl (by sample)

/-- The property fails: 7 / 7 = 0 (base 10, both `a /= a` and `a / b` with equal b). -/
theorem C32_refuted : ∃ a : Bignum, WF .base10 a ∧ a.mag .base10 ≠ 0 ∧
    (∀ fuel c, divAssign .base10 releaseEnv fuel a .self = .ok c → c.toInt .base10 = 0) ∧
    divAssign .base10 releaseEnv 100 a .self = .ok ⟨.pos, [0]⟩ := by
  refine ⟨⟨.pos, [7]⟩, ?_, by decide, ?_, by decide⟩
  · simp [WF, Signed, WFDigits, InRange, NoLeadingZero, Limits.base, Limits.base10, Limits.custom]
  · intro fuel c hc
    have hw : WF .base10 ⟨.pos, [7]⟩ := by
      simp [WF, Signed, WFDigits, InRange, NoLeadingZero, Limits.base, Limits.base10, Limits.custom]
    rw [C32_self_division_is_zero (L := .base10) (.inr ⟨32, 9, by norm_num, by norm_num, by norm_num, rfl⟩) (r := .self)
      hw hw rfl (by decide)] at hc
    cases hc; rfl

/-- What holds of it: exactly ±1 divided by itself gives 1 (any digit type). Missing: every other number. -/
theorem C32_self_division_partial {L : Limits} {env : Env} {fuel : Nat} (d : Desc) (hd : Signed d) :
    divAssign L env fuel ⟨d, [1]⟩ .self = .ok ⟨.pos, [1]⟩ := by
  rw [divAssign_by_one (r := .self) (a := ⟨d, [1]⟩) hd rfl]
  rcases hd with rfl | rfl <;> rfl

example := C32_self_division_partial (L := .medp) (env := releaseEnv) (fuel := 0) .neg (.inr rfl)

/-! ### C33 -/

/-- Division by the one-digit zero: infinity with the sign of the quotient; every digit type, every budget. -/
theorem C33_div_by_digit_zero {L : Limits} {env : Env} {fuel : Nat} {a : Bignum} {r : Rhs}
    (ha : Signed a.desc) (hb : Signed (r.get a).desc) (h0 : (r.get a).digits = [0]) :
    divAssign L env fuel a r = .ok ⟨if a.desc = (r.get a).desc then .posInf else .negInf, []⟩ := by
  rw [divAssign_by_zero ha h0, mulSign_signed ha hb]
  unfold signRule
  split <;> simp

example := C33_div_by_digit_zero (L := .medp) (env := releaseEnv) (fuel := 0) (a := Sample.m23) (r := .other ⟨.pos, [0]⟩) (by sample)
  (by sample) rfl

/-- Division of a non-zero number by the zero without digits never returns: whatever the memory and the budget. -/
theorem C33_div_by_empty_never_returns {L : Limits} {env : Env} {fuel : Nat} {a b : Bignum}
    (ha : Signed a.desc) (hne : a.digits ≠ []) (hne0 : a.digits ≠ [0]) (h0 : b.digits = []) (c : Bignum) :
    divAssign L env fuel a (.other b) ≠ .ok c := by
  rw [divAssign_general (r := .other b) ha (by show b.digits ≠ _; simp [h0]) (by show b.digits ≠ _; simp [h0]) hne hne0]
  unfold divTry
  have hg : absGt a.digits [] = .ok true := by
    unfold absGt; rw [if_pos (by simpa using List.length_pos_iff.2 hne)]
  show handle _ _ (do let g ← absGt a.digits b.digits; _) ≠ _
  rw [h0]
  simp only [hg, ok_bind, if_true]
  show handle _ _ (do let d ← absDiv L env fuel a.digits b.digits; _) ≠ _
  rw [h0]
  cases hq : absDiv L env fuel a.digits [] with
  | ok q => exact absurd hq (absDiv_empty_not_ok L env hne fuel q)
  | error e =>
    rw [error_bind]
    rcases e with k | e | _
    · intro h; cases h
    · cases e <;> (intro h; cases h)
    · intro h; cases h

example := C33_div_by_empty_never_returns (L := .base10) (env := releaseEnv) (fuel := 1000) (a := Sample.m23) (b := ⟨.pos, []⟩)
  (by sample) (by sample) (by sample) rfl

/-- With ample memory a custom-base division by the empty zero loops forever. -/
theorem C33_div_by_empty_diverges {L : Limits} (h : Custom L) {env : Env} (hm : env.Ample) (hd : env.debug = false)
    {a b : Bignum} (ha : Signed a.desc) (hne : a.digits ≠ []) (hne0 : a.digits ≠ [0]) (h0 : b.digits = []) :
    Diverges (fun fuel => divAssign L env fuel a (.other b)) := by
  intro fuel
  show divAssign L env fuel a (.other b) = _
  rw [divAssign_general (r := .other b) ha (by show b.digits ≠ _; simp [h0]) (by show b.digits ≠ _; simp [h0]) hne hne0]
  have hg : absGt a.digits [] = .ok true := by
    unfold absGt; rw [if_pos (by simpa using List.length_pos_iff.2 hne)]
  have e : (Rhs.get (.other b) a).digits = [] := h0
  unfold divTry
  rw [e]
  simp only [hg, ok_bind, if_true]
  rw [absDiv_empty_timeout h hm hd hne]
  rfl

example := C33_div_by_empty_diverges (L := .base10) Sample.base10 Sample.ample rfl (a := Sample.m23) (b := ⟨.pos, []⟩)
  (by sample) (by sample) (by sample) rfl

/-- For native digit types it is undefined behaviour. -/
theorem C33_div_by_empty_native {L : Limits} (h : Native L) {env : Env} (hm : env.Ample) {fuel : Nat} (hf : 0 < fuel)
    {a b : Bignum} (ha : Signed a.desc) (hne : a.digits ≠ []) (hne0 : a.digits ≠ [0]) (h0 : b.digits = []) :
    divAssign L env fuel a (.other b) = .ub .divByZero := by
  rw [divAssign_general (r := .other b) ha (by show b.digits ≠ _; simp [h0]) (by show b.digits ≠ _; simp [h0]) hne hne0]
  have hg : absGt a.digits [] = .ok true := by
    unfold absGt; rw [if_pos (by simpa using List.length_pos_iff.2 hne)]
  have e : (Rhs.get (.other b) a).digits = [] := h0
  unfold divTry
  rw [e]
  simp only [hg, ok_bind, if_true]
  rw [absDiv_native_empty h hm hne hf]
  rfl

example := C33_div_by_empty_native (L := .medp) .medp Sample.ample (fuel := 1) (by decide) (a := Sample.m23) (b := ⟨.pos, []⟩)
  (by sample) (by sample) (by sample) rfl

/-- The property fails: 5 / (3 - 3) in base 10 never terminates; the divisor is what `-=` leaves for zero. -/
theorem C33_refuted : ∃ a b z : Bignum, WF .base10 a ∧ a.mag .base10 ≠ 0 ∧
    subAssign .base10 releaseEnv 10 b .self = .ok z ∧ z.toInt .base10 = 0 ∧
    Diverges (fun fuel => divAssign .base10 releaseEnv fuel a (.other z)) := by
  refine ⟨⟨.pos, [5]⟩, ⟨.pos, [3]⟩, ⟨.pos, []⟩, ?_, by decide, by decide, by decide, ?_⟩
  · simp [WF, Signed, WFDigits, InRange, NoLeadingZero, Limits.base, Limits.base10, Limits.custom]
  · exact C33_div_by_empty_diverges (L := .base10) ⟨32, 9, by norm_num, by norm_num, by norm_num, rfl⟩ (fun _ => rfl) rfl
      (.inl rfl) (by decide) (by decide) rfl

/-- Summary of the part of C33 that holds: the one-digit zero is reported as infinity. Missing: the zero without
digits, for which `C33_div_by_empty_never_returns` shows the opposite. -/
theorem C33_div_by_zero_partial {L : Limits} {env : Env} {fuel : Nat} {a b : Bignum}
    (ha : Signed a.desc) (hb : Signed b.desc) (h0 : b.digits = [0]) :
    ∃ c, divAssign L env fuel a (.other b) = .ok c ∧ c.isInfinite = true ∧
      (c.isNegative = true ↔ a.desc ≠ b.desc) := by
  refine ⟨_, C33_div_by_digit_zero (r := .other b) ha hb h0, ?_, ?_⟩
  · show isInfinite ⟨if a.desc = b.desc then _ else _, []⟩ = true
    split <;> rfl
  · show isNegative ⟨if a.desc = b.desc then _ else _, []⟩ = true ↔ _
    split
    · rename_i h; simp [isNegative, h]
    · rename_i h; simp [isNegative, h]

example := C33_div_by_zero_partial (L := .medp) (env := releaseEnv) (fuel := 0) (a := Sample.m23) (b := ⟨.pos, [0]⟩) (by sample)
  (by sample) rfl

/-! ### C34 -/

/-- Native digit types: every division that has to compute a quotient is undefined behaviour. -/
theorem C34_native_division_ub {L : Limits} (h : Native L) {env : Env} (hm : env.Ample) {a : Bignum} {r : Rhs} {fuel : Nat}
    (ha : WF L a) (hb : WF L (r.get a)) (h1 : 1 < (r.get a).mag L) (hgt : (r.get a).mag L < a.mag L) (hf : 0 < fuel) :
    divAssign L env fuel a r = .ub .divByZero := by
  have hB := h.supported.base_ge
  rcases wf_cases hB ha.2 with ⟨-, hz⟩ | ⟨han, -⟩
  · exact absurd hz (by have : a.mag L = natOf L.base a.digits := rfl; omega)
  rcases wf_cases hB hb.2 with ⟨-, hz⟩ | ⟨hbn, -⟩
  · exact absurd hz (by have : (r.get a).mag L = natOf L.base (r.get a).digits := rfl; omega)
  have h1' : (r.get a).digits ≠ [1] := by
    intro h1
    have : (r.get a).mag L = 1 := by simp [Bignum.mag, h1]
    omega
  rw [divAssign_general ha.1 hbn.ne_zero h1' han.ne han.ne_zero]
  unfold divTry
  simp only [absGt_of_lt hB han.rng hbn.rng hbn.nlz hgt, ok_bind, if_true]
  rw [absDiv_native_ub h hm hbn.rng hbn.ne ?_ hf]
  · rfl
  · rw [absGe_normal (B := L.base) (by omega) han.rng hbn.rng han.nlz hbn.nlz]
    exact congrArg Except.ok (decide_eq_true (Nat.le_of_lt hgt))

example := C34_native_division_ub (L := .lowp) .lowp Sample.ample (a := ⟨.pos, [4, 1]⟩) (r := .other Sample.n2) (fuel := 1) (by sample)
  (by sample) (by sample) (by sample) (by decide)

/-- The property fails for the default type: 6 / 2. -/
theorem C34_refuted : ∃ a b : Bignum, WF .highp a ∧ WF .highp b ∧ 1 < b.mag .highp ∧ b.mag .highp < a.mag .highp ∧
    divAssign .highp releaseEnv 10 a (.other b) = .ub .divByZero := by
  refine ⟨⟨.pos, [6]⟩, ⟨.pos, [2]⟩, ?_, ?_, by decide, by decide, by decide⟩ <;>
    simp [WF, Signed, WFDigits, InRange, NoLeadingZero, Limits.base, Limits.highp]

/-- What holds for native types: divisor 1, or dividend not larger than the divisor — then there is no fault, and
the quotient is right unless the magnitudes agree. Missing: every quotient above 1 with a divisor above 1. -/
theorem C34_native_partial {L : Limits} (h : Native L) {env : Env} (hm : env.Ample) (hd : env.debug = false)
    {a : Bignum} {r : Rhs} {fuel : Nat}
    (ha : WF L a) (hb : WF L (r.get a)) (hb0 : (r.get a).mag L ≠ 0)
    (hcase : (r.get a).mag L = 1 ∨ a.mag L < (r.get a).mag L) (hf : 0 < fuel) :
    ∃ c, divAssign L env fuel a r = .ok c ∧ c.toInt L = (a.toInt L).tdiv ((r.get a).toInt L) := by
  have hB := h.supported.base_ge
  have hms := mulSign_signed ha.1 hb.1
  rcases wf_cases hB hb.2 with ⟨-, hz⟩ | ⟨hbn, -⟩
  · exact absurd hz hb0
  by_cases h1 : (r.get a).digits = [1]
  · refine ⟨_, divAssign_by_one ha.1 h1, toInt_div ha.1 hb.1 hms ?_⟩
    simp [Bignum.mag, h1]
  rcases wf_cases hB ha.2 with ⟨haz, haz'⟩ | ⟨han, -⟩
  · refine ⟨_, divAssign_of_zero ha.1 hbn.ne_zero haz, toInt_div ha.1 hb.1 hms ?_⟩
    show natOf L.base a.digits = natOf L.base a.digits / _
    rw [haz', Nat.zero_div]
  · have hlt : a.mag L < (r.get a).mag L := by
      rcases hcase with hc | hc
      · exact absurd (natOf_unique (by omega) hbn.rng (by intro x hx; simp at hx; omega) hbn.nlz (by simp [NoLeadingZero]) (by simpa [Bignum.mag] using hc)) h1
      · exact hc
    rw [divAssign_general ha.1 hbn.ne_zero h1 han.ne han.ne_zero]
    obtain ⟨c, h2, rfl⟩ := (okOr_divTry_le h.supported env (d := mulSign a.desc (r.get a).desc) han hbn (Nat.le_of_lt hlt) hf).ok hm hd
    rw [h2]
    refine ⟨_, rfl, toInt_div ha.1 hb.1 hms ?_⟩
    rw [Nat.div_eq_of_lt hlt]; simp [Bignum.mag]

example : divAssign .highp releaseEnv 3 ⟨.pos, [7, 1]⟩ (.other ⟨.neg, [3, 2]⟩) = .ok ⟨.neg, [0]⟩ := by decide

/-! ### C35 -/

theorem C35_div_by_one {L : Limits} {env : Env} {fuel : Nat} {a b : Bignum}
    (ha : Signed a.desc) (hb : Signed b.desc) (h1 : b.digits = [1]) :
    divAssign L env fuel a (.other b) = .ok ⟨signRule a.desc b.desc, a.digits⟩ := by
  rw [divAssign_by_one (r := .other b) ha h1]
  show Out.ok ⟨mulSign a.desc b.desc, _⟩ = _
  rw [mulSign_signed ha hb]

example := C35_div_by_one (L := .medp) (env := releaseEnv) (fuel := 0) (a := Sample.m23) (b := ⟨.neg, [1]⟩) (by sample) (by sample) rfl

theorem C35_div_of_zero {L : Limits} {env : Env} {fuel : Nat} {a b : Bignum}
    (ha : Signed a.desc) (hb : Signed b.desc) (h0 : a.digits = [] ∨ a.digits = [0]) (hb0 : b.digits ≠ [0]) :
    divAssign L env fuel a (.other b) = .ok ⟨signRule a.desc b.desc, a.digits⟩ := by
  rw [divAssign_of_zero (r := .other b) ha hb0 h0]
  show Out.ok ⟨mulSign a.desc b.desc, _⟩ = _
  rw [mulSign_signed ha hb]

example := C35_div_of_zero (L := .medp) (env := releaseEnv) (fuel := 0) (a := ⟨.neg, []⟩) (b := Sample.n23) (by sample) (by sample)
  (.inl rfl) (by sample)

theorem C35_div_of_smaller {L : Limits} (h : Supported L) {env : Env} (hm : env.Ample) (hd : env.debug = false) {fuel : Nat}
    {a b : Bignum} (ha : WF L a) (hb : WF L b) (h0 : a.mag L ≠ 0) (hlt : a.mag L < b.mag L) (hf : 0 < fuel) :
    divAssign L env fuel a (.other b) = .ok ⟨signRule a.desc b.desc, [0]⟩ := by
  have hB := h.base_ge
  have hms := mulSign_signed ha.1 hb.1
  rcases wf_cases hB hb.2 with ⟨-, hz⟩ | ⟨hbn, -⟩
  · exact absurd hz (by have : b.mag L = natOf L.base b.digits := rfl; omega)
  rcases wf_cases hB ha.2 with ⟨-, hz⟩ | ⟨han, -⟩
  · exact absurd hz h0
  have h1 : b.digits ≠ [1] := by
    intro h1
    have : b.mag L = 1 := by simp [Bignum.mag, h1]
    omega
  rw [divAssign_general (r := .other b) ha.1 hbn.ne_zero h1 han.ne han.ne_zero]
  obtain ⟨c, h2, rfl⟩ := (okOr_divTry_le h env (fuel := fuel) (d := mulSign a.desc b.desc) han hbn (Nat.le_of_lt hlt) hf).ok hm hd
  show handle _ _ (divTry L env fuel ⟨mulSign a.desc b.desc, a.digits⟩ b.digits) = _
  rw [h2, hms]; rfl

example : divAssign .medp releaseEnv 1 ⟨.neg, [9, 1]⟩ (.other ⟨.neg, [1, 2]⟩) = .ok ⟨.pos, [0]⟩ := by decide

end BN
