import Verif.Lemmas.Samples
import Verif.Props.TextClient
/-
C80 - C82: dividing a product by a factor, powers by repeated squaring, and the sign of a difference.
-/
namespace BN
open Bignum

theorem toInt_eq_of {L : Limits} {x y : Bignum} (hx : Signed x.desc) (hd : y.desc = x.desc) (hm : y.mag L = x.mag L) :
    y.toInt L = x.toInt L := by
  rw [toInt_of_signed hx, toInt_of_signed (hd ▸ hx), hd]
  simp only [mag] at hm
  rw [hm]

theorem mag_ne_nil {L : Limits} {x : Bignum} (h : x.mag L ≠ 0) : x.digits ≠ [] := fun h' => h (mag_of_nil h')

theorem nlz_of_mag {L : Limits} {x : Bignum} (hx : WF L x) (h : x.mag L ≠ 0) : NoLeadingZero x.digits := by
  rcases hx.2.2 with hz | hz
  · exact hz
  · exact absurd (by show natOf _ x.digits = 0; rw [hz]; rfl) h

/-- C80: dividing a product by one of its factors gives the other factor, except that a factor of magnitude one is lost. -/
theorem C80_product_quotient_partial {F : Type} {o : FloatOps F} (M : Ieee o) {L : Limits} {K : Nat} (hp : Preset L K) {env : Env}
    (hm : env.Ample) (hd : env.debug = false) {a b : Bignum} (ha : WF L a) (hb : WF L b) (hb0 : b.mag L ≠ 0)
    (hne : a.mag L ≠ 1 ∨ b.mag L = 1) (hK : a.digits.length + b.digits.length ≤ K) :
    ∃ p q, Evaluates (fun n => a.mul o L env n b) (.ok p) ∧ Evaluates (fun n => p.div L env n b) (.ok q) ∧ WF L q ∧
      q.desc = a.desc ∧ q.toInt L = a.toInt L ∧ (a.mag L ≠ 0 → q = a) := by
  have hB := hp.custom.supported.base_ge
  have hbl := length_pos (mag_ne_nil hb0)
  have hw := numeral_wf hB (signed_signRule a.desc b.desc) (a.mag L * b.mag L)
  obtain ⟨q, h1, h2, h3, h4⟩ := div_obj hp.custom hm hd hw hb hb0 (by
    rw [numeral_mag]
    rcases hne with h | h
    · left
      intro h'
      exact h (Nat.eq_of_mul_eq_mul_right (Nat.pos_of_ne_zero hb0) (by rw [h', Nat.one_mul]))
    · exact .inr h)
  rw [numeral_mag] at h4 h1
  rw [Nat.mul_div_cancel _ (Nat.pos_of_ne_zero hb0)] at h4
  have h3 : q.desc = a.desc := by rw [h3]; exact signRule_cancel ha.1 hb.1
  have h5 := toInt_eq_of ha.1 h3 h4
  refine ⟨_, q, ⟨33, fun n hn => mul_numeral M hp hm ha hb (by omega) hK (by omega)⟩, ⟨_, fun n hn => h1 n hn⟩, h2, h3, h5, fun h0 => ?_⟩
  exact wf_determined hB h2 ha (by rw [h5]; intro h; apply h0; rw [toInt_of_signed ha.1] at h; split at h <;> (simp only [mag]; omega)) h5

example {F : Type} {o : FloatOps F} (M : Ieee o) := C80_product_quotient_partial M .base10 Sample.ample rfl (a := Sample.n199)
  (b := Sample.m23) (by sample) (by sample) (by sample) (by sample) (by sample)

/-- C80, what happens in the excluded case: the quotient is zero. -/
theorem C80_unit_factor_lost {F : Type} {o : FloatOps F} (M : Ieee o) {L : Limits} {K : Nat} (hp : Preset L K) {env : Env}
    (hm : env.Ample) {a b : Bignum} (ha : WF L a) (hb : WF L b) (ha1 : a.mag L = 1) (hb2 : 2 ≤ b.mag L)
    (hK : a.digits.length + b.digits.length ≤ K) :
    ∃ p q, Evaluates (fun n => a.mul o L env n b) (.ok p) ∧ Evaluates (fun n => p.div L env n b) (.ok q) ∧ q.toInt L = 0 := by
  have hB := hp.custom.supported.base_ge
  have hbl := length_pos (mag_ne_nil (L := L) (x := b) (by omega))
  have hw := numeral_wf hB (signed_signRule a.desc b.desc) (a.mag L * b.mag L)
  have he : (numeral L (signRule a.desc b.desc) (a.mag L * b.mag L)).mag L = b.mag L := by rw [numeral_mag, ha1, Nat.one_mul]
  refine ⟨_, ⟨signRule (signRule a.desc b.desc) b.desc, [0]⟩,
    ⟨33, fun n hn => mul_numeral M hp hm ha hb (by omega) hK (by omega)⟩, ⟨0, fun n _ => ?_⟩, ?_⟩
  · show Bignum.div L env n _ b = _
    unfold Bignum.div viaCopy
    rw [copy_ok hm, ok_bind, C32_self_division_is_zero hp.custom.supported (r := .other b) hw hb he (by rw [he]; exact hb2)]
    rfl
  · rw [toInt_of_signed (signed_signRule _ _)]
    simp

example {F : Type} {o : FloatOps F} (M : Ieee o) := C80_unit_factor_lost M .base10 Sample.ample (a := Sample.n1)
  (b := Sample.m23) (by sample) (by sample) (by sample) (by sample) (by sample)

theorem C80_refuted {F : Type} {o : FloatOps F} (M : Ieee o) : ∃ a b p q : Bignum, WF .base10 a ∧ WF .base10 b ∧ b.mag .base10 ≠ 0 ∧
    Evaluates (fun n => a.mul o .base10 releaseEnv n b) (.ok p) ∧ Evaluates (fun n => p.div .base10 releaseEnv n b) (.ok q) ∧
    q.toInt .base10 ≠ a.toInt .base10 := by
  have ha : WF .base10 ⟨.pos, [1]⟩ := by simp [WF, Signed, WFDigits, InRange, NoLeadingZero, Limits.base, Limits.base10, Limits.custom]
  have hb : WF .base10 ⟨.pos, [7]⟩ := by simp [WF, Signed, WFDigits, InRange, NoLeadingZero, Limits.base, Limits.base10, Limits.custom]
  obtain ⟨p, q, h1, h2, h3⟩ := C80_unit_factor_lost M .base10 releaseEnv_ample ha hb (by simp [mag]) (by simp [mag]) (by simp)
  exact ⟨_, _, p, q, ha, hb, by simp [mag], h1, h2, by rw [h3, toInt_of_signed ha.1]; simp⟩

example : WF .base10 ⟨.neg, [7, 1]⟩ ∧ WF .base10 ⟨.pos, [3]⟩ ∧ (⟨.neg, [7, 1]⟩ : Bignum).mag .base10 ≠ 1 ∧
    (⟨.pos, [3]⟩ : Bignum).mag .base10 ≠ 0 := by
  simp [WF, Signed, WFDigits, InRange, NoLeadingZero, mag, Limits.base, Limits.base10, Limits.custom]

/-! ### C81: powers -/

/-- `bignum r{BN_POS, {1}}; while (e) { if (e & 1) r = r * x; x = x * x; e >>= 1; } return r;`, the loop -/
def powLoop {F : Type} (o : FloatOps F) (L : Limits) (env : Env) (n : Nat) : Nat → Bignum → Bignum → Nat → Res Bignum
  | 0, _, _, _ => .error .timeout
  | k + 1, r, x, e =>
    if e = 0 then .ok r
    else do
      let r ← if e % 2 = 1 then r.mul o L env n x else .ok r
      let x ← x.mul o L env n x
      powLoop o L env n k r x (e / 2)

def power {F : Type} (o : FloatOps F) (L : Limits) (env : Env) (n : Nat) (x : Bignum) (e : Nat) : Res Bignum := do
  let r ← ofList env .pos [1]
  powLoop o L env n n r x e

theorem toInt_mul_numeral {L : Limits} {x y : Bignum} (hx : Signed x.desc) (hy : Signed y.desc) :
    (numeral L (signRule x.desc y.desc) (x.mag L * y.mag L)).toInt L = x.toInt L * y.toInt L := by
  rw [toInt_of_signed hx, toInt_of_signed hy, toInt_of_signed (signed_signRule _ _)]
  rw [show natOf L.base (numeral L (signRule x.desc y.desc) (x.mag L * y.mag L)).digits = x.mag L * y.mag L from natOf_digits _ _]
  show (if signRule x.desc y.desc = .pos then _ else _) = _
  unfold signRule mag
  rcases hx with h | h <;> rcases hy with h' | h' <;> rw [h, h'] <;> simp

theorem pow_loop {F : Type} {o : FloatOps F} (M : Ieee o) {L : Limits} {K : Nat} (hp : Preset L K) {env : Env} (hm : env.Ample) :
    ∀ (k e : Nat) (r x : Bignum) (lr lx : Nat), e < 2 ^ k → WF L r → WF L x → x.mag L ≠ 0 → r.digits.length ≤ lr →
      x.digits.length ≤ lx → lr + 2 * e * lx ≤ K →
    ∃ y, (∀ n f, 32 < n → k < f → powLoop o L env n f r x e = .ok y) ∧ WF L y ∧ y.toInt L = r.toInt L * x.toInt L ^ e ∧
      (NoLeadingZero r.digits → NoLeadingZero y.digits) := by
  intro k
  induction k with
  | zero =>
    intro e r x lr lx he hr hx hx0 hlr hlx hK
    have : e = 0 := by simpa using he
    subst this
    refine ⟨r, fun n f _ hf => ?_, hr, by simp, id⟩
    obtain ⟨f, rfl⟩ : ∃ g, f = g + 1 := ⟨f - 1, by omega⟩
    simp [powLoop]
  | succ k ih =>
    intro e r x lr lx he hr hx hx0 hlr hlx hK
    by_cases h0 : e = 0
    · subst h0
      refine ⟨r, fun n f _ hf => ?_, hr, by simp, id⟩
      obtain ⟨f, rfl⟩ : ∃ g, f = g + 1 := ⟨f - 1, by omega⟩
      simp [powLoop]
    · have hB := hp.custom.supported.base_ge
      have hxl := length_pos (mag_ne_nil hx0)
      have hwx := numeral_wf hB (signed_signRule x.desc x.desc) (x.mag L * x.mag L)
      have hlx2 : (numeral L (signRule x.desc x.desc) (x.mag L * x.mag L)).digits.length ≤ 2 * lx := by
        have := length_prod hB hx hx (signRule x.desc x.desc)
        omega
      have hq : (numeral L (signRule x.desc x.desc) (x.mag L * x.mag L)).mag L ≠ 0 := by
        rw [numeral_mag]
        exact Nat.mul_ne_zero hx0 hx0
      have hke : e / 2 < 2 ^ k := by rw [pow_succ] at he; omega
      have hlxK : lx + lx ≤ K := by
        have : 2 * 1 * lx ≤ 2 * e * lx := Nat.mul_le_mul_right _ (by omega)
        omega
      have hv := toInt_mul_numeral (L := L) hx.1 hx.1
      by_cases hodd : e % 2 = 1
      · have hwr := numeral_wf hB (signed_signRule r.desc x.desc) (r.mag L * x.mag L)
        have hlr2 : (numeral L (signRule r.desc x.desc) (r.mag L * x.mag L)).digits.length ≤ lr + lx := by
          have := length_prod hB hr hx (signRule r.desc x.desc)
          omega
        have hbud : 2 * e * lx = 2 * (e / 2) * (2 * lx) + 2 * lx := by
          have : e = 2 * (e / 2) + 1 := by omega
          calc 2 * e * lx = 2 * (2 * (e / 2) + 1) * lx := by rw [← this]
            _ = _ := by ring
        obtain ⟨y, h1, h2, h3, h4⟩ := ih (e / 2) _ _ (lr + lx) (2 * lx) hke hwr hwx hq hlr2 hlx2 (by omega)
        refine ⟨y, fun n f hn hf => ?_, h2, ?_, fun _ => h4 (digits_nlz _ _)⟩
        · obtain ⟨f, rfl⟩ : ∃ g, f = g + 1 := ⟨f - 1, by omega⟩
          rw [powLoop, if_neg h0, if_pos hodd, mul_numeral M hp hm hr hx (by omega) (by omega) hn, ok_bind,
            mul_numeral M hp hm hx hx (by omega) (by omega) hn]
          exact h1 n f hn (by omega)
        · rw [h3, hv, toInt_mul_numeral hr.1 hx.1]
          have : e = 2 * (e / 2) + 1 := by omega
          conv_rhs => rw [this, pow_succ, pow_mul]
          ring
      · have hbud : 2 * e * lx = 2 * (e / 2) * (2 * lx) := by
          have : e = 2 * (e / 2) := by omega
          calc 2 * e * lx = 2 * (2 * (e / 2)) * lx := by rw [← this]
            _ = _ := by ring
        obtain ⟨y, h1, h2, h3, h4⟩ := ih (e / 2) r _ lr (2 * lx) hke hr hwx hq hlr hlx2 (by omega)
        refine ⟨y, fun n f hn hf => ?_, h2, ?_, h4⟩
        · obtain ⟨f, rfl⟩ : ∃ g, f = g + 1 := ⟨f - 1, by omega⟩
          rw [powLoop, if_neg h0, if_neg hodd, ok_bind, mul_numeral M hp hm hx hx (by omega) (by omega) hn]
          exact h1 n f hn (by omega)
        · rw [h3, hv]
          have : e = 2 * (e / 2) := by omega
          conv_rhs => rw [this, pow_mul]
          ring

/-- C81: the repeated-squaring client computes exact powers of every non-zero number, negative bases included. -/
theorem C81_power {F : Type} {o : FloatOps F} (M : Ieee o) {L : Limits} {K : Nat} (hp : Preset L K) {env : Env} (hm : env.Ample)
    {x : Bignum} (hx : WF L x) (hx0 : x.toInt L ≠ 0) (e : Nat) (hK : 1 + 2 * e * x.digits.length ≤ K) :
    ∃ y, Evaluates (fun n => power o L env n x e) (.ok y) ∧ WF L y ∧ NoLeadingZero y.digits ∧ y.toInt L = x.toInt L ^ e := by
  have hB := hp.custom.supported.base_ge
  have hm0 : x.mag L ≠ 0 := by
    intro h
    apply hx0
    rw [toInt_of_signed hx.1]
    simp only [mag] at h
    rw [h]
    simp
  have hr : WF L ⟨.pos, [1]⟩ := ⟨.inl rfl, by intro d hd; rw [List.mem_singleton.1 hd]; omega, .inl (by simp [NoLeadingZero])⟩
  obtain ⟨y, h1, h2, h3, h4⟩ := pow_loop M hp hm e e ⟨.pos, [1]⟩ x 1 x.digits.length Nat.lt_two_pow_self hr hx hm0 (by simp) le_rfl hK
  refine ⟨y, ⟨e + 33, fun n hn => ?_⟩, h2, h4 (by simp [NoLeadingZero]), ?_⟩
  · show power o L env n x e = _
    unfold power
    rw [ofList_eq hm, ok_bind]
    exact h1 n n (by omega) (by omega)
  · rw [h3, toInt_of_signed hr.1]
    simp

example {F : Type} {o : FloatOps F} (M : Ieee o) := C81_power M .base10 Sample.ample (x := Sample.m23) (by sample) (by sample) 5
  (by sample)

/-- C81, why zero is excluded: with a zero that carries no digit the loop never returns, since 0 * 0 recurses for ever. -/
theorem C81_zero_power_diverges {F : Type} {o : FloatOps F} (M : Ieee o) {L : Limits} {K : Nat} (hp : Preset L K) {env : Env}
    (hm : env.Ample) {d : Desc} (hd : Signed d) {e : Nat} (he : 1 ≤ e) :
    Evaluates (fun n => power o L env n ⟨d, []⟩ e) (.error .timeout) := by
  have hB := hp.custom.supported.base_ge
  have hr : WF L ⟨.pos, [1]⟩ := ⟨.inl rfl, by intro d hd; rw [List.mem_singleton.1 hd]; omega, .inl (by simp [NoLeadingZero])⟩
  have hx : WF L ⟨d, []⟩ := ⟨hd, by intro d hd; simp at hd, .inl (by simp [NoLeadingZero])⟩
  have hK : 1 ≤ K := by cases hp <;> norm_num
  refine ⟨33, fun n hn => ?_⟩
  show power o L env n ⟨d, []⟩ e = _
  have hxx : (⟨d, []⟩ : Bignum).mul o L env n ⟨d, []⟩ = .error .timeout := by
    unfold Bignum.mul viaCopy
    have h : mulAssign o L env n ⟨d, []⟩ (.other ⟨d, []⟩) = .timeout := C26_zero_times_zero_diverges o L hm hd n
    rw [copy_ok hm, ok_bind, h]
  unfold power
  rw [ofList_eq hm, ok_bind]
  obtain ⟨f, rfl⟩ : ∃ g, n = g + 1 := ⟨n - 1, by omega⟩
  show powLoop o L env (f + 1) (f + 1) ⟨.pos, [1]⟩ _ e = _
  rw [powLoop, if_neg (by omega)]
  by_cases hodd : e % 2 = 1
  · rw [if_pos hodd, mul_numeral M hp hm hr hx (by simp) (by simpa using hK) (by omega), ok_bind, hxx]
    rfl
  · rw [if_neg hodd, ok_bind, hxx]
    rfl

example : WF .base10 ⟨.neg, [7]⟩ ∧ (⟨.neg, [7]⟩ : Bignum).toInt .base10 ≠ 0 ∧ 1 + 2 * 1000 * [7].length ≤ 2 ^ 25 := by
  refine ⟨by simp [WF, Signed, WFDigits, InRange, NoLeadingZero, Limits.base, Limits.base10, Limits.custom], by decide, by decide⟩

/-! ### C82: the sign of a difference -/

/-- C82: for non-negative numbers, not both without digits, `a >= b` answers true exactly when `a - b` is not negative, and `a == b`
exactly when `a - b` equals a default-constructed number. -/
theorem C82_sign_of_difference {L : Limits} (hL : Supported L) {env : Env} (hm : env.Ample) (hd : env.debug = false) {a b : Bignum}
    (ha : WF L a) (hb : WF L b) (hza : NoLeadingZero a.digits) (hzb : NoLeadingZero b.digits) (hpa : a.desc = .pos) (hpb : b.desc = .pos)
    (hne : ¬ (a.digits = [] ∧ b.digits = [])) :
    ∃ c, Evaluates (fun n => a.sub L env n b) (.ok c) ∧ a.ge b = .ok (!c.isNegative) ∧ c.eq Bignum.default = a.eq b := by
  have hB := hL.base_ge
  have hna : Normal L a := ⟨ha.2.1, hza⟩
  have hnb : Normal L b := ⟨hb.2.1, hzb⟩
  have hn0 : Normal L Bignum.default := ⟨by intro d hd; simp [Bignum.default] at hd, by simp [NoLeadingZero, Bignum.default]⟩
  have hge := (C03_ge_le_nonneg L a b hna hnb hpa hpb).1
  have ta : a.toInt L = a.mag L := by rw [toInt_of_signed ha.1, if_pos hpa]; rfl
  have tb : b.toInt L = b.mag L := by rw [toInt_of_signed hb.1, if_pos hpb]; rfl
  have hdm : Bignum.default.mag L = 0 := rfl
  by_cases hle : b.mag L ≤ a.mag L
  · have ha0 : a.digits ≠ [] := by
      intro h
      have hb0 : b.mag L = 0 := by rw [mag_of_nil h] at hle; omega
      refine hne ⟨h, ?_⟩
      have := eq_numeral hB hb.2.1 hzb
      rw [this, hb0]
      simp [numeral]
    have hbn : b = numeral L a.desc (b.mag L) := by rw [hpa, ← hpb]; exact eq_numeral hB hb.2.1 hzb
    refine ⟨numeral L a.desc (a.mag L - b.mag L), ⟨a.digits.length + 1, fun n hn => ?_⟩, ?_, ?_⟩
    · show a.sub L env n b = _
      conv_lhs => rw [hbn]
      exact sub_numeral hL hm hd ha ha0 hle (by omega)
    · rw [hge, ta, tb]
      simp [isNegative, numeral, hpa, hle]
    · rw [C02_eq_iff_value L _ _ ⟨digits_inRange hB _, digits_nlz _ _⟩ hn0, C02_eq_iff_value L a b hna hnb, numeral_mag, hdm]
      congr 1
      rw [decide_eq_decide]
      show a.desc = .pos ∧ _ ↔ _
      rw [hpa, hpb]
      simp
      omega
  · obtain ⟨c, h1, h2, h3, h4, -⟩ := sub_core hL hm hd (a := a) (r := .other b) ha.1 (hpb.trans hpa.symm) ha.2 hb.2 hne
    have h4 : c.toInt L = a.toInt L - b.toInt L := h4
    have hcn : c.desc = .neg := by
      rcases h2 with h | h
      · exfalso
        rw [toInt_of_signed (.inl h), if_pos h, ta, tb] at h4
        omega
      · exact h
    refine ⟨c, ⟨max a.digits.length b.digits.length + 1, fun n hn => ?_⟩, ?_, ?_⟩
    · show a.sub L env n b = _
      unfold Bignum.sub viaCopy
      rw [copy_ok hm, ok_bind, h1 n (by show max _ b.digits.length < n; omega)]
    · rw [hge, ta, tb]
      simp [isNegative, hcn, hle]
    · rw [C02_eq_iff_value L _ _ h3 hn0, C02_eq_iff_value L a b hna hnb, hdm]
      congr 1
      rw [decide_eq_decide, hcn]
      show (Desc.neg = .pos ∧ _) ↔ _
      simp
      omega

example : ∃ a b : Bignum, WF .base10 a ∧ WF .base10 b ∧ a.desc = .pos ∧ b.desc = .pos ∧ a.mag .base10 = 15 ∧ b.mag .base10 = 21 :=
  ⟨⟨.pos, [5, 1]⟩, ⟨.pos, [1, 2]⟩, by simp [WF, Signed, WFDigits, InRange, NoLeadingZero, Limits.base, Limits.base10, Limits.custom],
    by simp [WF, Signed, WFDigits, InRange, NoLeadingZero, Limits.base, Limits.base10, Limits.custom], rfl, rfl, by decide, by decide⟩

end BN
