import Verif.Props.Workaround
/-
C141: rounding quotients up and to the nearest integer with the usual formulas.
-/
namespace BN
open Bignum

/-- `(a + b - one) / b` -/
def ceilDiv (L : Limits) (env : Env) (n : Nat) (one a b : Bignum) : Res Bignum := do
  let s ← a.add L env n b
  let s ← s.sub L env n one
  s.div L env n b

/-- `(a + a + b) / (b + b)` -/
def roundDiv (L : Limits) (env : Env) (n : Nat) (a b : Bignum) : Res Bignum := do
  let s ← a.add L env n a
  let s ← s.add L env n b
  let t ← b.add L env n b
  s.div L env n t

variable {L : Limits} {env : Env}

theorem div_numerals (hL : Custom L) (hm : env.Ample) (hd : env.debug = false) {a b : Nat} (hb : 0 < b) (hne : a ≠ b ∨ b = 1) :
    ∃ c : Bignum, (∀ n, a.size + 2 ≤ n → (numeral L .pos a).div L env n (numeral L .pos b) = .ok c) ∧ WF L c ∧ c.desc = .pos ∧
      c.mag L = a / b := by
  have hB := hL.supported.base_ge
  obtain ⟨c, h1, h2, h3, h4⟩ := div_obj hL hm hd (numeral_wf hB (.inl rfl) a) (numeral_wf hB (d := .pos) (.inl rfl) b)
    (by rw [numeral_mag]; omega) (by rw [numeral_mag, numeral_mag]; exact hne)
  rw [numeral_mag] at h1 h4
  rw [numeral_mag] at h4
  exact ⟨c, h1, h2, h3, h4⟩

theorem div_numeral_self (hL : Supported L) (hm : env.Ample) {b : Nat} (h2 : 2 ≤ b) (n : Nat) :
    (numeral L .pos b).div L env n (numeral L .pos b) = .ok ⟨.pos, [0]⟩ := by
  have hB := hL.base_ge
  have hw := numeral_wf hB (d := .pos) (.inl rfl) b
  unfold Bignum.div viaCopy
  rw [copy_ok hm, ok_bind, C32_self_division_is_zero hL (r := .other (numeral L .pos b)) hw hw rfl (by rw [numeral_mag]; exact h2)]
  rfl

theorem sub_numerals (hL : Supported L) (hm : env.Ample) (hd : env.debug = false) {a b n : Nat} (ha : 0 < a) (hab : b ≤ a) (hn : a.size < n) :
    (numeral L .pos a).sub L env n (numeral L .pos b) = .ok (numeral L .pos (a - b)) := by
  have hB := hL.base_ge
  have na : (numeral L .pos a).digits ≠ [] := by
    intro h0
    have := mag_of_nil (L := L) h0
    rw [numeral_mag] at this
    omega
  have h := sub_numeral hL hm hd (numeral_wf hB (d := .pos) (.inl rfl) a) na (k := b) (by rw [numeral_mag]; exact hab) (n := n) (by
    have := length_numeral_size (L := L) hB .pos a; omega)
  rw [numeral_mag] at h
  exact h

theorem ceilDiv_eq (hL : Supported L) (hm : env.Ample) (hd : env.debug = false) {a b n : Nat} (hb : 0 < b) (hn : a.size + b.size + 2 < n) :
    ceilDiv L env n (numeral L .pos 1) (numeral L .pos a) (numeral L .pos b) =
      (numeral L .pos (a + b - 1)).div L env n (numeral L .pos b) := by
  have hs : (a + b).size ≤ max a.size b.size + 1 := by
    rw [Nat.size_le, pow_succ]
    have h1 : a < 2 ^ max a.size b.size := lt_of_lt_of_le (Nat.lt_size_self a) (Nat.pow_le_pow_right (by omega) (by omega))
    have h2 : b < 2 ^ max a.size b.size := lt_of_lt_of_le (Nat.lt_size_self b) (Nat.pow_le_pow_right (by omega) (by omega))
    omega
  unfold ceilDiv
  rw [add_numerals hL hm (by omega) (by omega), ok_bind, sub_numerals hL hm hd (by omega) (by omega) (by omega), ok_bind]

/-- `(a + b - 1) / b` is the least integer not below a / b, unless a = 1 < b. -/
theorem C141_ceil_partial (hL : Custom L) (hm : env.Ample) (hd : env.debug = false) {a b : Bignum} (ha : Normal L a) (hb : Normal L b)
    (hpa : a.desc = .pos) (hpb : b.desc = .pos) (hb0 : b.mag L ≠ 0) (hne : a.mag L ≠ 1 ∨ b.mag L = 1) :
    ∃ c : Bignum, Evaluates (fun n => ceilDiv L env n (numeral L .pos 1) a b) (.ok c) ∧ WF L c ∧ c.desc = .pos ∧
      a.mag L ≤ c.mag L * b.mag L ∧ ∀ q, a.mag L ≤ q * b.mag L → c.mag L ≤ q := by
  have hB := hL.supported.base_ge
  have ea := eq_numeral hB ha.1 ha.2
  have eb := eq_numeral hB hb.1 hb.2
  rw [hpa] at ea
  rw [hpb] at eb
  generalize a.mag L = x at *
  generalize b.mag L = y at *
  subst ea eb
  have hy : 0 < y := by omega
  obtain ⟨c, c1, c2, c3, c4⟩ := div_numerals hL hm hd (a := x + y - 1) hy (by omega)
  refine ⟨c, ⟨x.size + y.size + (x + y - 1).size + 3, fun n hn => ?_⟩, c2, c3, ?_, fun q hq => ?_⟩
  · show ceilDiv _ _ _ _ _ _ = _
    rw [ceilDiv_eq hL.supported hm hd hy (by omega), c1 n (by omega)]
  · rw [c4]
    have := Nat.lt_div_mul_add (a := x + y - 1) hy
    omega
  · rw [c4, ← Nat.lt_succ_iff, Nat.div_lt_iff_lt_mul hy, Nat.succ_mul]
    omega

example := C141_ceil_partial Sample.base10 Sample.ample rfl (a := Sample.n199) (b := Sample.n23) ⟨by sample, by sample⟩ ⟨by sample, by sample⟩ rfl rfl (by sample) (by sample)

/-- With a = 1 < b the formula gives zero instead of one. -/
theorem C141_ceil_one (hL : Supported L) (hm : env.Ample) (hd : env.debug = false) {a b : Bignum} (ha : Normal L a) (hb : Normal L b)
    (hpa : a.desc = .pos) (hpb : b.desc = .pos) (h1 : a.mag L = 1) (h2 : 2 ≤ b.mag L) :
    Evaluates (fun n => ceilDiv L env n (numeral L .pos 1) a b) (.ok ⟨.pos, [0]⟩) := by
  have hB := hL.base_ge
  have ea := eq_numeral hB ha.1 ha.2
  have eb := eq_numeral hB hb.1 hb.2
  rw [hpa, h1] at ea
  rw [hpb] at eb
  refine ⟨(1 : Nat).size + (b.mag L).size + 3, fun n hn => ?_⟩
  show ceilDiv _ _ _ _ _ _ = _
  rw [ea, eb, ceilDiv_eq hL hm hd (by omega) (by omega), Nat.add_sub_cancel_left, div_numeral_self hL hm h2]

example := C141_ceil_one (L := .highp) (.inl .highp) Sample.ample rfl (a := Sample.n1) (b := Sample.n23) ⟨by sample, by sample⟩ ⟨by sample, by sample⟩ rfl rfl
  (by sample) (by sample)

theorem roundDiv_eq (hL : Supported L) (hm : env.Ample) {a b n : Nat} (hb : 0 < b) (ha : 0 < a) (hn : a.size + b.size + 3 < n) :
    roundDiv L env n (numeral L .pos a) (numeral L .pos b) =
      (numeral L .pos (a + a + b)).div L env n (numeral L .pos (b + b)) := by
  have := size_double a
  unfold roundDiv
  rw [add_numerals hL hm (by omega) (by omega), ok_bind, add_numerals hL hm (by omega) (by omega), ok_bind,
    add_numerals hL hm (by omega) (by omega), ok_bind]

/-- `(2 a + b) / (2 b)` is the integer nearest to a / b (the larger one of two), unless b = 2 a. -/
theorem C141_round_partial (hL : Custom L) (hm : env.Ample) (hd : env.debug = false) {a b : Bignum} (ha : Normal L a) (hb : Normal L b)
    (hpa : a.desc = .pos) (hpb : b.desc = .pos) (ha0 : a.mag L ≠ 0) (hb0 : b.mag L ≠ 0) (hne : b.mag L ≠ 2 * a.mag L) :
    ∃ c : Bignum, Evaluates (fun n => roundDiv L env n a b) (.ok c) ∧ WF L c ∧ c.desc = .pos ∧
      2 * (c.mag L * b.mag L) ≤ 2 * a.mag L + b.mag L ∧ 2 * a.mag L < 2 * (c.mag L * b.mag L) + b.mag L := by
  have hB := hL.supported.base_ge
  have ea := eq_numeral hB ha.1 ha.2
  have eb := eq_numeral hB hb.1 hb.2
  rw [hpa] at ea
  rw [hpb] at eb
  generalize a.mag L = x at *
  generalize b.mag L = y at *
  subst ea eb
  obtain ⟨c, c1, c2, c3, c4⟩ := div_numerals hL hm hd (a := x + x + y) (b := y + y) (by omega) (by omega)
  refine ⟨c, ⟨x.size + y.size + (x + x + y).size + 4, fun n hn => ?_⟩, c2, c3, ?_, ?_⟩
  · show roundDiv _ _ _ _ _ = _
    rw [roundDiv_eq hL.supported hm (by omega) (by omega) (by omega), c1 n (by omega)]
  · have := Nat.div_mul_le_self (x + x + y) (y + y)
    rw [c4]
    have e : (x + x + y) / (y + y) * (y + y) = 2 * ((x + x + y) / (y + y) * y) := by ring
    omega
  · have := Nat.lt_div_mul_add (a := x + x + y) (b := y + y) (by omega)
    rw [c4]
    have e : (x + x + y) / (y + y) * (y + y) = 2 * ((x + x + y) / (y + y) * y) := by ring
    omega

example := C141_round_partial Sample.base10 Sample.ample rfl (a := Sample.n199) (b := Sample.n23) ⟨by sample, by sample⟩ ⟨by sample, by sample⟩ rfl rfl (by sample) (by sample) (by sample)

/-- With b = 2 a the formula gives zero, although a / b is one half. -/
theorem C141_round_half (hL : Supported L) (hm : env.Ample) {a b : Bignum} (ha : Normal L a) (hb : Normal L b)
    (hpa : a.desc = .pos) (hpb : b.desc = .pos) (ha0 : a.mag L ≠ 0) (h2 : b.mag L = 2 * a.mag L) :
    Evaluates (fun n => roundDiv L env n a b) (.ok ⟨.pos, [0]⟩) := by
  have hB := hL.base_ge
  have ea := eq_numeral hB ha.1 ha.2
  have eb := eq_numeral hB hb.1 hb.2
  rw [hpa] at ea
  rw [hpb, h2] at eb
  refine ⟨(a.mag L).size + (2 * a.mag L).size + 4, fun n hn => ?_⟩
  show roundDiv _ _ _ _ _ = _
  rw [ea, eb, roundDiv_eq hL hm (by omega) (by omega) (by omega),
    show a.mag L + a.mag L + 2 * a.mag L = 2 * a.mag L + 2 * a.mag L by omega, div_numeral_self hL hm (by omega)]

example := C141_round_half (L := .highp) (.inl .highp) Sample.ample (a := Sample.n1) (b := Sample.n2) ⟨by sample, by sample⟩ ⟨by sample, by sample⟩ rfl rfl (by sample) (by sample)

/-- `a / 2` is half of a rounded down, unless a = 2. -/
theorem C141_half_partial (hL : Custom L) (hm : env.Ample) (hd : env.debug = false) {a : Bignum} (ha : WF L a) (h2 : a.mag L ≠ 2) :
    ∃ c : Bignum, Evaluates (fun n => a.div L env n (numeral L .pos 2)) (.ok c) ∧ WF L c ∧ c.desc = a.desc ∧
      c.mag L = a.mag L / 2 := by
  have hB := hL.supported.base_ge
  obtain ⟨c, c1, c2, c3, c4⟩ := div_obj hL hm hd ha (numeral_wf hB (d := .pos) (.inl rfl) 2) (by rw [numeral_mag]; omega)
    (by rw [numeral_mag]; omega)
  refine ⟨c, ⟨_, fun n hn => c1 n hn⟩, c2, ?_, by rw [c4, numeral_mag]⟩
  rw [c3]
  rcases ha.1 with h | h <;> rw [h] <;> rfl

example := C141_half_partial Sample.base10 Sample.ample rfl (a := Sample.m23) (by sample) (by sample)

/-- 2 / 2 is zero. -/
theorem C141_half_two (hL : Supported L) (hm : env.Ample) (n : Nat) :
    (numeral L .pos 2).div L env n (numeral L .pos 2) = .ok ⟨.pos, [0]⟩ := div_numeral_self hL hm le_rfl n

example := C141_half_two (L := .highp) (.inl .highp) Sample.ample 0

/-- The claim fails: 1 / 3 rounded up is zero, 2 / 4 rounded is zero, half of 2 is zero. -/
theorem C141_refuted : ∃ c : Bignum, c.toInt .base10 = 0 ∧
    Evaluates (fun n => ceilDiv .base10 releaseEnv n (numeral .base10 .pos 1) ⟨.pos, [1]⟩ ⟨.pos, [3]⟩) (.ok c) ∧
    Evaluates (fun n => roundDiv .base10 releaseEnv n ⟨.pos, [2]⟩ ⟨.pos, [4]⟩) (.ok c) ∧
    Evaluates (fun n => (numeral .base10 .pos 2).div .base10 releaseEnv n (numeral .base10 .pos 2)) (.ok c) :=
  ⟨⟨.pos, [0]⟩, by decide,
    C141_ceil_one Sample.base10.supported Sample.ample rfl ⟨by sample, by sample⟩ ⟨by sample, by sample⟩ rfl rfl (by sample) (by sample),
    C141_round_half Sample.base10.supported Sample.ample ⟨by sample, by sample⟩ ⟨by sample, by sample⟩ rfl rfl (by sample) (by sample),
    0, fun n _ => C141_half_two Sample.base10.supported Sample.ample n⟩

end BN
