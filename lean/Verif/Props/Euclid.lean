import Verif.Lemmas.Samples
import Verif.Props.Algebra
/-
C73, C74: clients that compute remainders and greatest common divisors with the operators.
-/
namespace BN
open Bignum

/-- `a - (a / b) * b`: there is no `operator%`, so this is how a client gets the remainder. -/
def remainder {F : Type} (o : FloatOps F) (L : Limits) (env : Env) (n : Nat) (a b : Bignum) : Res Bignum := do
  let q ← a.div L env n b
  let p ← q.mul o L env n b
  a.sub L env n p

/-- Quotient object, including division by a one. -/
theorem div_obj {L : Limits} (h : Custom L) {env : Env} (hm : env.Ample) (hd : env.debug = false) {a b : Bignum}
    (ha : WF L a) (hb : WF L b) (hb0 : b.mag L ≠ 0) (hne : a.mag L ≠ b.mag L ∨ b.mag L = 1) :
    ∃ c, (∀ n, (a.mag L).size + 2 ≤ n → a.div L env n b = .ok c) ∧ WF L c ∧ c.desc = signRule a.desc b.desc ∧
      c.mag L = a.mag L / b.mag L := by
  have hB := h.supported.base_ge
  by_cases h1 : a.mag L = b.mag L
  · have hb1 : b.mag L = 1 := by omega
    have hbd : b.digits = [1] := by
      refine wf_unique hB hb.2 (b := [1]) ⟨by intro d hd; rw [List.mem_singleton.1 hd]; omega, .inl (by simp [NoLeadingZero])⟩ ?_ (by simp) ?_
      · intro h'; exact hb0 (mag_of_nil h')
      · show b.mag L = _
        rw [hb1]; simp
    refine ⟨⟨signRule a.desc b.desc, a.digits⟩, fun n _ => ?_, ⟨signed_signRule _ _, ha.2⟩, rfl, ?_⟩
    · unfold Bignum.div viaCopy
      rw [copy_ok hm, ok_bind, divAssign_by_one (r := .other b) ha.1 hbd]
      show Except.ok (⟨mulSign a.desc b.desc, _⟩ : Bignum) = _
      rw [mulSign_signed ha.1 hb.1]
    · show a.mag L = _
      rw [hb1, Nat.div_one]
  · obtain ⟨c, e1, e2, e3, e4, -⟩ := C69_div_rounds h hm hd (r := .other b) ha hb hb0 h1
    refine ⟨c, fun n hn => ?_, e2, e3, e4⟩
    unfold Bignum.div viaCopy
    rw [copy_ok hm, ok_bind, e1 n hn]

theorem size_bound {L : Limits} (hB : 2 ≤ L.base) {a : Bignum} (ha : WF L a) : a.digits.length ≤ (a.mag L).size + 1 :=
  wf_length_le_pow hB ha.2 (Nat.lt_size_self _)

theorem signRule_cancel {a b : Desc} (ha : Signed a) (hb : Signed b) : signRule (signRule a b) b = a := by
  rcases ha with rfl | rfl <;> rcases hb with rfl | rfl <;> rfl

/-- Subtraction of a canonical number of the same sign that is not larger. -/
theorem sub_numeral {L : Limits} (hL : Supported L) {env : Env} (hm : env.Ample) (hd : env.debug = false) {a : Bignum} (ha : WF L a)
    (ha0 : a.digits ≠ []) {k : Nat} (hk : k ≤ a.mag L) {n : Nat} (hn : a.digits.length < n) :
    a.sub L env n (numeral L a.desc k) = .ok (numeral L a.desc (a.mag L - k)) := by
  have hB := hL.base_ge
  have hlen : (numeral L a.desc k).digits.length ≤ a.digits.length :=
    length_le_of_natOf_le hB ha.2.1 (digits_nlz _ _) (by rw [show natOf L.base (numeral L a.desc k).digits = k from natOf_digits _ _]; exact hk)
  obtain ⟨c, e1, e2, e3, e4, e5⟩ := sub_core hL hm hd (a := a) (r := .other (numeral L a.desc k)) ha.1 rfl ha.2
    (numeral_wf hB ha.1 k).2 (fun h => ha0 h.1)
  have e6 : c.desc = a.desc := e5 (by
    show (numeral L a.desc k).digits.length < _ ∨ (_ = (numeral L a.desc k).digits.length ∧ (numeral L a.desc k).mag L ≤ _)
    rw [numeral_mag]; omega)
  have e7 : c.mag L = a.mag L - k := by
    have e8 : c.toInt L = a.toInt L - (numeral L a.desc k).toInt L := e4
    unfold Bignum.toInt at e8
    rw [numeral_mag, e6] at e8
    change _ = _ - (if a.desc = .neg then _ else _) at e8
    rcases ha.1 with h | h <;> rw [h] at e8 <;> simp at e8 <;> omega
  unfold Bignum.sub viaCopy
  rw [copy_ok hm, ok_bind, e1 n (by show max _ (numeral L a.desc k).digits.length < n; omega)]
  show Except.ok c = _
  rw [eq_numeral hB e3.1 e3.2, e6, e7]

/-! ### C73 -/

/-- Remainder: for a non-zero divisor whose magnitude differs from the dividend's (or is 1), the canonical object of
|a| mod |b| with the sign of a, as in C. Missing: equal magnitudes above 1, see `C73_equal`. -/
theorem C73_remainder_partial {F : Type} {o : FloatOps F} (M : Ieee o) {L : Limits} {K : Nat} (hp : Preset L K) {env : Env}
    (hm : env.Ample) (hd : env.debug = false) {a b : Bignum} (ha : WF L a) (hb : WF L b) (ha0 : a.digits ≠ [])
    (hb0 : b.mag L ≠ 0) (hne : a.mag L ≠ b.mag L ∨ b.mag L = 1) (hK : a.digits.length + b.digits.length ≤ K) {n : Nat}
    (hn : (a.mag L).size + 2 ≤ n) (hn' : 32 < n) :
    remainder o L env n a b = .ok (numeral L a.desc (a.mag L % b.mag L)) := by
  have hL := hp.custom.supported
  have hB := hL.base_ge
  obtain ⟨q, q1, q2, q3, q4⟩ := div_obj hp.custom hm hd ha hb hb0 hne
  have hql : q.digits.length ≤ a.digits.length := by
    rcases q2.2.2 with h | h
    · refine length_le_of_natOf_le hB ha.2.1 h ?_
      show q.mag L ≤ a.mag L
      rw [q4]; exact Nat.div_le_self _ _
    · rw [h]; exact length_pos ha0
  have hbl : b.digits ≠ [] := fun h => hb0 (mag_of_nil h)
  have hbl := length_pos hbl
  have hal := size_bound hB ha
  have hle : q.mag L * b.mag L ≤ a.mag L := by rw [q4]; exact Nat.div_mul_le_self _ _
  unfold remainder
  rw [q1 n hn, ok_bind, mul_numeral M hp hm q2 hb (by omega) (by omega) hn', ok_bind, q3, signRule_cancel ha.1 hb.1,
    sub_numeral hL hm hd ha ha0 hle (by omega), q4]
  congr 2
  have := Nat.div_add_mod (a.mag L) (b.mag L)
  rw [Nat.mul_comm] at this
  omega

/-- Equal magnitudes above 1: the "remainder" is the dividend itself. -/
theorem C73_equal {F : Type} {o : FloatOps F} (M : Ieee o) {L : Limits} {K : Nat} (hp : Preset L K) {env : Env}
    (hm : env.Ample) (hd : env.debug = false) {a b : Bignum} (ha : WF L a) (hb : WF L b) (heq : a.mag L = b.mag L)
    (h2 : 2 ≤ a.mag L) (hK : b.digits.length + 1 ≤ K) {n : Nat} (hn : a.digits.length < n) (hn' : 32 < n) :
    remainder o L env n a b = .ok (numeral L a.desc (a.mag L)) := by
  have hL := hp.custom.supported
  have hB := hL.base_ge
  have ha0 : a.digits ≠ [] := fun h => by rw [mag_of_nil h] at h2; omega
  have w0 : WF L ⟨signRule a.desc b.desc, [0]⟩ :=
    ⟨signed_signRule _ _, by intro d hd; rw [List.mem_singleton.1 hd]; omega, .inr rfl⟩
  have e1 : a.div L env n b = .ok ⟨signRule a.desc b.desc, [0]⟩ := by
    unfold Bignum.div viaCopy
    rw [copy_ok hm, ok_bind, C32_self_division_is_zero hL (r := .other b) ha hb heq h2]
    rfl
  unfold remainder
  rw [e1, ok_bind, mul_numeral M hp hm w0 hb (by simp) (by simp; omega) hn', ok_bind]
  show a.sub L env n (numeral L (signRule (signRule a.desc b.desc) b.desc) (natOf L.base [0] * _)) = _
  rw [signRule_cancel ha.1 hb.1, natOf_cons, natOf_nil, Nat.mul_zero, Nat.zero_add, Nat.zero_mul,
    sub_numeral hL hm hd ha ha0 (Nat.zero_le _) hn, Nat.sub_zero]

example {F : Type} {o : FloatOps F} (M : Ieee o) := C73_equal M .base10 Sample.ample rfl (a := Sample.n23) (b := Sample.m23) (n := 33)
  (by sample) (by sample) (by sample) (by sample) (by sample) (by sample) (by sample)

/-- The claim fails: 7 - (7 / 7) * 7 = 7 in base 10. -/
theorem C73_refuted {F : Type} {o : FloatOps F} (M : Ieee o) : ∃ a b : Bignum, WF .base10 a ∧ WF .base10 b ∧ a.digits ≠ [] ∧
    b.mag .base10 ≠ 0 ∧ ∃ r, Evaluates (fun n => remainder o .base10 releaseEnv n a b) (.ok r) ∧
    r.mag .base10 ≠ a.mag .base10 % b.mag .base10 := by
  have w : WF .base10 ⟨.pos, [7]⟩ := by
    simp [WF, Signed, WFDigits, InRange, NoLeadingZero, Limits.base, Limits.base10, Limits.custom]
  refine ⟨⟨.pos, [7]⟩, ⟨.pos, [7]⟩, w, w, by simp, by decide, _, ⟨33, fun n hn => C73_equal M .base10 releaseEnv_ample rfl w w rfl
    (by decide) (by simp) (by show 1 < n; omega) hn⟩, ?_⟩
  rw [numeral_mag]
  decide

/-- The hypotheses are met by 100 and 7. -/
example {F : Type} {o : FloatOps F} (M : Ieee o) :
    remainder o .base10 releaseEnv 33 ⟨.neg, [0, 0, 1]⟩ ⟨.pos, [7]⟩ = .ok (numeral .base10 .neg 2) :=
  C73_remainder_partial M .base10 releaseEnv_ample rfl
    (by simp [WF, Signed, WFDigits, InRange, NoLeadingZero, Limits.base, Limits.base10, Limits.custom])
    (by simp [WF, Signed, WFDigits, InRange, NoLeadingZero, Limits.base, Limits.base10, Limits.custom])
    (by simp) (by decide) (.inl (by decide)) (by simp) (by decide) (by omega)

/-! ### C74 -/

/-- Variables of the loop. -/
structure GcdSt where
  a : Bignum
  b : Bignum

/-- Euclid's algorithm as a client writes it: `while (b != Bignum()) { t = a - (a/b)*b; a = b; b = std::move(t); } return a;` -/
def gcdClient {F : Type} (o : FloatOps F) (L : Limits) (env : Env) (n : Nat) (a b : Bignum) : Res Bignum := do
  let s ← loopWhile (fun s => s.b.ne Bignum.default) (fun s => do
    let t ← remainder o L env n s.a s.b
    let a ← s.b.copy env
    .ok ⟨a, (Bignum.moveAssign t).1⟩) n (⟨a, b⟩ : GcdSt)
  .ok s.a

theorem numeral_ne_default {L : Limits} (m : Nat) : (numeral L .pos m).ne Bignum.default = .ok (decide (m ≠ 0)) := by
  unfold Bignum.ne numeral Bignum.default
  rw [if_neg (by simp), absEq_eq, ok_bind]
  congr 1
  by_cases h : m = 0
  · subst h; simp
  · have := (Nat.digits_ne_nil_iff_ne_zero (b := L.base)).2 h
    simp [h, this]

theorem gcd_loop {F : Type} {o : FloatOps F} (M : Ieee o) {L : Limits} {K : Nat} (hp : Preset L K) {env : Env}
    (hm : env.Ample) (hd : env.debug = false) (n : Nat) (hn : 32 < n) : ∀ (fuel : Nat) (a : Bignum) (y : Nat), WF L a → a.desc = .pos →
    a.digits ≠ [] → (a.mag L ≠ y ∨ y ≤ 1) → (a.mag L).size + 2 ≤ n → y.size + 2 ≤ n →
    a.digits.length + (numeral L .pos y).digits.length ≤ K → y < fuel →
    ∃ s : GcdSt, loopWhile (fun s => s.b.ne Bignum.default) (fun s => do
      let t ← remainder o L env n s.a s.b
      let a ← s.b.copy env
      .ok ⟨a, (Bignum.moveAssign t).1⟩) fuel (⟨a, numeral L .pos y⟩ : GcdSt) = .ok s ∧ s.a.desc = .pos ∧ WF L s.a ∧
      s.a.mag L = Nat.gcd (a.mag L) y
  | 0, _, _, _, _, _, _, _, _, _, h => absurd h (by omega)
  | fuel + 1, a, y, ha, hpos, ha0, hne, hs, hsy, hK, hf => by
    have hB := hp.custom.supported.base_ge
    rw [loopWhile]
    simp only [numeral_ne_default, ok_bind]
    by_cases hy : y = 0
    · subst hy
      exact ⟨_, rfl, hpos, ha, by simp⟩
    · rw [if_pos (by simpa using hy), C73_remainder_partial M hp hm hd ha (numeral_wf hB (.inl rfl) y) ha0 (by rw [numeral_mag]; exact hy)
        (by rw [numeral_mag]; omega) hK hs hn, ok_bind, copy_ok hm, ok_bind, ok_bind, hpos, numeral_mag]
      have hlt := Nat.mod_lt (a.mag L) (Nat.pos_of_ne_zero hy)
      have hdig : (numeral L .pos y).digits ≠ [] := Nat.digits_ne_nil_iff_ne_zero.2 hy
      have hl2 : (numeral L .pos (a.mag L % y)).digits.length ≤ a.digits.length := by
        refine length_le_of_natOf_le hB ha.2.1 (digits_nlz _ _) ?_
        rw [show natOf L.base (numeral L .pos (a.mag L % y)).digits = a.mag L % y from natOf_digits _ _]
        exact Nat.mod_le _ _
      obtain ⟨s, s1, s2, s3, s4⟩ := gcd_loop M hp hm hd n hn fuel (numeral L .pos y) (a.mag L % y) (numeral_wf hB (.inl rfl) y) rfl hdig
        (by rw [numeral_mag]; omega) (by rw [numeral_mag]; exact hsy) (by have := Nat.size_le_size (Nat.le_of_lt hlt); omega) (by omega) (by omega)
      refine ⟨s, s1, s2, s3, ?_⟩
      rw [s4, numeral_mag, Nat.gcd_comm y, ← Nat.gcd_rec, Nat.gcd_comm]

/-- Euclid's algorithm on non-negative numbers (the first with at least one digit, the second without leading zeros):
whenever the two numbers differ, or are both 1, it ends with the greatest common divisor.
Missing: equal numbers above 1, see `C74_equal_diverges`. -/
theorem C74_gcd_partial {F : Type} {o : FloatOps F} (M : Ieee o) {L : Limits} {K : Nat} (hp : Preset L K) {env : Env}
    (hm : env.Ample) (hd : env.debug = false) {a b : Bignum} (ha : WF L a) (hb : WF L b) (hpa : a.desc = .pos) (hpb : b.desc = .pos)
    (ha0 : a.digits ≠ []) (hb0 : NoLeadingZero b.digits) (hne : a.mag L ≠ b.mag L ∨ b.mag L ≤ 1)
    (hK : a.digits.length + b.digits.length ≤ K) :
    ∃ g, Evaluates (fun n => gcdClient o L env n a b) (.ok g) ∧ WF L g ∧ g.toInt L = Nat.gcd (a.mag L) (b.mag L) := by
  have hB := hp.custom.supported.base_ge
  have hbn : b = numeral L .pos (b.mag L) := by
    have := eq_numeral hB hb.2.1 hb0
    rwa [hpb] at this
  have key : ∀ n, 33 + (a.mag L).size + (b.mag L).size + 2 + b.mag L ≤ n → ∃ g, gcdClient o L env n a b = .ok g ∧ g.desc = .pos ∧ WF L g ∧
      g.mag L = Nat.gcd (a.mag L) (b.mag L) := by
    intro n hn
    obtain ⟨s, s1, s2, s3, s4⟩ := gcd_loop M hp hm hd n (by omega) n a (b.mag L) ha hpa ha0 hne (by omega) (by omega)
      (by rw [← hbn]; exact hK) (by omega)
    rw [← hbn] at s1
    refine ⟨s.a, ?_, s2, s3, s4⟩
    unfold gcdClient
    rw [s1, ok_bind]
  obtain ⟨g, -, g2, g3, g4⟩ := key _ (Nat.le_refl _)
  by_cases hg : Nat.gcd (a.mag L) (b.mag L) = 0
  · have h1 : a.mag L = 0 := Nat.eq_zero_of_gcd_eq_zero_left hg
    have h2 : b.mag L = 0 := Nat.eq_zero_of_gcd_eq_zero_right hg
    refine ⟨a, ⟨1, fun n hn => ?_⟩, ha, by rw [hg, toInt_eq_zero.2 h1]; rfl⟩
    obtain ⟨m, rfl⟩ := Nat.exists_eq_add_of_le' hn
    show gcdClient o L env (m + 1) a b = _
    unfold gcdClient
    rw [hbn, h2, loopWhile]
    simp only [numeral_ne_default, ok_bind]
    rfl
  · have hgi : g.toInt L = Nat.gcd (a.mag L) (b.mag L) := by unfold Bignum.toInt; rw [g2, g4]; simp
    refine ⟨g, ⟨33 + (a.mag L).size + (b.mag L).size + 2 + b.mag L, fun n hn => ?_⟩, g3, hgi⟩
    obtain ⟨g', e1, e2, e3, e4⟩ := key n hn
    show gcdClient o L env n a b = _
    rw [e1]
    have : g' = g := by
      refine wf_determined hB e3 g3 ?_ ?_
      · unfold Bignum.toInt; rw [e2, e4]; simpa using hg
      · rw [hgi]; unfold Bignum.toInt; rw [e2, e4]; simp
    rw [this]

theorem gcd_equal_loop {F : Type} {o : FloatOps F} (M : Ieee o) {L : Limits} {K : Nat} (hp : Preset L K) {env : Env}
    (hm : env.Ample) (hd : env.debug = false) {n y : Nat} (hn : 32 < n) (hy : 2 ≤ y) (hl : (numeral L .pos y).digits.length < n)
    (hK : (numeral L .pos y).digits.length + 1 ≤ K) : ∀ (fuel : Nat),
    loopWhile (fun s => s.b.ne Bignum.default) (fun s => do
      let t ← remainder o L env n s.a s.b
      let a ← s.b.copy env
      .ok ⟨a, (Bignum.moveAssign t).1⟩) fuel (⟨numeral L .pos y, numeral L .pos y⟩ : GcdSt) = .error .timeout
  | 0 => rfl
  | fuel + 1 => by
    have hB := hp.custom.supported.base_ge
    have hw := numeral_wf (L := L) hB (.inl rfl : Signed .pos) y
    rw [loopWhile]
    simp only [numeral_ne_default, ok_bind]
    rw [if_pos (by simp; omega), C73_equal M hp hm hd hw hw rfl (by rw [numeral_mag]; exact hy) hK hl hn, ok_bind, copy_ok hm, ok_bind,
      ok_bind, numeral_mag]
    exact gcd_equal_loop M hp hm hd hn hy hl hK fuel

/-- Two equal numbers above 1: however large the budget, the loop has not ended when it is used up. -/
theorem C74_equal_diverges {F : Type} {o : FloatOps F} (M : Ieee o) {L : Limits} {K : Nat} (hp : Preset L K) {env : Env}
    (hm : env.Ample) (hd : env.debug = false) {a : Bignum} (ha : WF L a) (hpa : a.desc = .pos) (h2 : 2 ≤ a.mag L)
    (hK : a.digits.length + 1 ≤ K) {n : Nat} (hn : 32 < n) (hl : a.digits.length < n) :
    gcdClient o L env n a a = .error .timeout := by
  have hB := hp.custom.supported.base_ge
  have hz : NoLeadingZero a.digits := by
    rcases ha.2.2 with h | h
    · exact h
    · have : a.mag L = natOf L.base a.digits := rfl
      rw [h] at this; simp at this; omega
  have han : a = numeral L .pos (a.mag L) := by
    have := eq_numeral hB ha.2.1 hz
    rwa [hpa] at this
  unfold gcdClient
  rw [han, gcd_equal_loop M hp hm hd hn h2 (by rw [← han]; exact hl) (by rw [← han]; exact hK)]
  rfl

example {F : Type} {o : FloatOps F} (M : Ieee o) := C74_equal_diverges M .base10 Sample.ample rfl (a := Sample.n23) (n := 33)
  (by sample) rfl (by sample) (by sample) (by sample) (by sample)

/-- The claim fails: for 6 and 6 no budget gives an answer. -/
theorem C74_refuted {F : Type} {o : FloatOps F} (M : Ieee o) : ∃ a : Bignum, WF .base10 a ∧ a.toInt .base10 = 6 ∧
    Evaluates (fun n => gcdClient o .base10 releaseEnv n a a) (.error .timeout) := by
  have w : WF .base10 ⟨.pos, [6]⟩ := by
    simp [WF, Signed, WFDigits, InRange, NoLeadingZero, Limits.base, Limits.base10, Limits.custom]
  exact ⟨_, w, by decide, 33, fun n hn => C74_equal_diverges M .base10 releaseEnv_ample rfl w rfl (by decide) (by simp) hn
    (by show 1 < n; omega)⟩

/-- The hypotheses of the positive theorem are met by 12 and 18. -/
example {F : Type} {o : FloatOps F} (M : Ieee o) :
    ∃ g, Evaluates (fun n => gcdClient o .base10 releaseEnv n ⟨.pos, [2, 1]⟩ ⟨.pos, [8, 1]⟩) (.ok g) ∧ WF .base10 g ∧ g.toInt .base10 = 6 :=
  C74_gcd_partial M .base10 releaseEnv_ample rfl (a := ⟨.pos, [2, 1]⟩) (b := ⟨.pos, [8, 1]⟩)
    (by simp [WF, Signed, WFDigits, InRange, NoLeadingZero, Limits.base, Limits.base10, Limits.custom])
    (by simp [WF, Signed, WFDigits, InRange, NoLeadingZero, Limits.base, Limits.base10, Limits.custom])
    rfl rfl (by simp) (by simp [NoLeadingZero]) (.inl (by decide)) (by simp)

end BN
