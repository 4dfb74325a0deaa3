import Verif.Lemmas.Samples
import Verif.Props.NumberTheory
/-
C103: the least common multiple, written with the operators and Euclid's algorithm.
-/
namespace BN
open Bignum

/-- C74, zero without digits as the first number: Euclid's algorithm reads out of bounds in its first round. -/
theorem C74_empty_ub {F : Type} {o : FloatOps F} (M : Ieee o) {L : Limits} {K : Nat} (hp : Preset L K) {env : Env} (hm : env.Ample)
    (hd : env.debug = false) {b : Bignum} (hb : WF L b) (hb0 : 0 < b.toInt L) (hK : b.digits.length ≤ K) :
    Evaluates (fun n => gcdClient o L env n Bignum.default b) (.error (.ub .outOfBounds)) := by
  have hB := hp.custom.supported.base_ge
  have tb := toInt_of_pos (L := L) (desc_of_pos hb hb0)
  refine ⟨33, fun n hn => ?_⟩
  show gcdClient o L env n Bignum.default b = _
  have h1 : b.ne Bignum.default = .ok true := by
    have := numeral_ne_default (L := L) (b.toInt L).toNat
    rw [← eq_pos hB hb hb0] at this
    rw [this, decide_eq_true (by omega)]
  have h2 : remainder o L env n Bignum.default b = .error (.ub .outOfBounds) :=
    C73_empty_ub M hp hm hd (.inl rfl) hb (by omega) hK (by omega)
  obtain ⟨f, rfl⟩ : ∃ f, n = f + 1 := ⟨n - 1, by omega⟩
  unfold gcdClient
  rw [loopWhile]
  simp only [h1, ok_bind, if_true, h2]
  rfl

/-- The hypotheses are met: gcd(0, 12) in base 10. -/
example {F : Type} {o : FloatOps F} (M : Ieee o) :
    Evaluates (fun n => gcdClient o .base10 releaseEnv n Bignum.default ⟨.pos, [2, 1]⟩) (.error (.ub .outOfBounds)) :=
  C74_empty_ub M .base10 releaseEnv_ample rfl
    (by simp [WF, Signed, WFDigits, InRange, NoLeadingZero, Limits.base, Limits.base10, Limits.custom]) (by decide) (by simp)

/-- `g = gcd(a, b); return a * b / g;` -/
def lcmProduct {F : Type} (o : FloatOps F) (L : Limits) (env : Env) (n : Nat) (a b : Bignum) : Res Bignum := do
  let g ← gcdClient o L env n a b
  let p ← a.mul o L env n b
  p.div L env n g

/-- `g = gcd(a, b); return a / g * b;` -/
def lcmQuotient {F : Type} (o : FloatOps F) (L : Limits) (env : Env) (n : Nat) (a b : Bignum) : Res Bignum := do
  let g ← gcdClient o L env n a b
  let q ← a.div L env n g
  q.mul o L env n b

/-- C103: multiplying first gives the least common multiple for all different numbers. -/
theorem C103_lcm_product_partial {F : Type} {o : FloatOps F} (M : Ieee o) {L : Limits} {K : Nat} (hp : Preset L K) {env : Env} (hm : env.Ample)
    (hd : env.debug = false) {a b : Bignum} (ha : WF L a) (ha0 : 0 < a.toInt L) (hb : WF L b) (hb0 : 0 < b.toInt L)
    (hne : a.toInt L ≠ b.toInt L ∨ b.toInt L = 1) (hK : a.digits.length + b.digits.length ≤ K) :
    ∃ r, Evaluates (fun n => lcmProduct o L env n a b) (.ok r) ∧ WF L r ∧ r.toInt L = Int.lcm (a.toInt L) (b.toInt L) := by
  have hc := hp.custom
  have hB := hc.supported.base_ge
  have da := desc_of_pos ha ha0
  have db := desc_of_pos hb hb0
  have ta := toInt_of_pos (L := L) da
  have tb := toInt_of_pos (L := L) db
  have hb1 : b.mag L ≠ 0 := by omega
  have na : a.digits ≠ [] := mag_ne_nil (L := L) (by omega)
  have nb : b.digits ≠ [] := mag_ne_nil (L := L) hb1
  obtain ⟨g, ⟨n1, eg⟩, wg, tg⟩ := C74_gcd_partial M hp hm hd ha hb da db na (nlz_of_mag hb hb1) (by omega) hK
  have dg : 0 < g.toInt L := by rw [tg]; exact_mod_cast Nat.gcd_pos_of_pos_left _ (by omega)
  have mg : g.mag L = Nat.gcd (a.mag L) (b.mag L) := by
    have := toInt_of_pos (L := L) (desc_of_pos wg dg); omega
  have hpm := fun n (hn : 32 < n) => mul_numeral M hp hm ha hb (by have := length_pos na; omega) hK hn
  have wp := numeral_wf (L := L) hB (d := signRule a.desc b.desc) (signed_signRule _ _) (a.mag L * b.mag L)
  have hdvd : g.mag L ∣ a.mag L := mg ▸ Nat.gcd_dvd_left _ _
  have hdvd' : g.mag L ∣ b.mag L := mg ▸ Nat.gcd_dvd_right _ _
  obtain ⟨c, ec, wc, dc, mc⟩ := div_obj hc hm hd wp wg (by omega) (by
    rw [numeral_mag]
    by_contra h
    push Not at h
    obtain ⟨h1, h2⟩ := h
    have l1 := Nat.le_of_dvd (by omega) hdvd
    have l2 := Nat.le_of_dvd (by omega) hdvd'
    have : 2 ≤ g.mag L := by omega
    have : a.mag L * 2 ≤ a.mag L * b.mag L := Nat.mul_le_mul_left _ (by omega)
    omega)
  refine ⟨c, ⟨n1 + (a.mag L * b.mag L).size + 35, fun n hn => ?_⟩, wc, ?_⟩
  · show lcmProduct o L env n a b = _
    unfold lcmProduct
    rw [show gcdClient o L env n a b = _ from eg n (by omega), ok_bind, hpm n (by omega), ok_bind]
    exact ec n (by rw [numeral_mag]; omega)
  · have : c.desc = .pos := by
      rw [dc, desc_of_pos wg dg, da, db]; rfl
    rw [toInt_of_pos this, mc, numeral_mag, mg, ta, tb]
    rfl

/-- C103: dividing first gives the least common multiple unless the first number is above 1 and divides the second; then it gives zero. -/
theorem C103_lcm_quotient {F : Type} {o : FloatOps F} (M : Ieee o) {L : Limits} {K : Nat} (hp : Preset L K) {env : Env} (hm : env.Ample)
    (hd : env.debug = false) {a b : Bignum} (ha : WF L a) (ha0 : 0 < a.toInt L) (hb : WF L b) (hb0 : 0 < b.toInt L)
    (hne : a.toInt L ≠ b.toInt L ∨ b.toInt L = 1) (hK : a.digits.length + b.digits.length ≤ K) :
    ∃ r, Evaluates (fun n => lcmQuotient o L env n a b) (.ok r) ∧ WF L r ∧
      r.toInt L = if a.toInt L ∣ b.toInt L ∧ a.toInt L ≠ 1 then 0 else (Int.lcm (a.toInt L) (b.toInt L) : Int) := by
  have hc := hp.custom
  have hB := hc.supported.base_ge
  have da := desc_of_pos ha ha0
  have db := desc_of_pos hb hb0
  have ta := toInt_of_pos (L := L) da
  have tb := toInt_of_pos (L := L) db
  have hb1 : b.mag L ≠ 0 := by omega
  have na : a.digits ≠ [] := mag_ne_nil (L := L) (by omega)
  have nb : b.digits ≠ [] := mag_ne_nil (L := L) hb1
  obtain ⟨g, ⟨n1, eg⟩, wg, tg⟩ := C74_gcd_partial M hp hm hd ha hb da db na (nlz_of_mag hb hb1) (by omega) hK
  have dg : 0 < g.toInt L := by rw [tg]; exact_mod_cast Nat.gcd_pos_of_pos_left _ (by omega)
  have mg : g.mag L = Nat.gcd (a.mag L) (b.mag L) := by
    have := toInt_of_pos (L := L) (desc_of_pos wg dg); omega
  obtain ⟨q, eq, wq, dq, mq⟩ := div_val hc hm hd ha wg (by omega)
  have dq' : q.desc = .pos := by rw [dq, desc_of_pos wg dg, da]; rfl
  have lq : q.digits.length ≤ a.digits.length := by
    rcases wf_cases hB wq.2 with ⟨h | h, -⟩ | ⟨h, -⟩
    · rw [h]; simp
    · rw [h]; exact length_pos na
    · refine length_le_of_natOf_le hB ha.2.1 h.nlz ?_
      show q.mag L ≤ a.mag L
      rw [mq]; unfold quot; split
      · exact Nat.zero_le _
      · exact Nat.div_le_self _ _
  refine ⟨numeral L .pos (q.mag L * b.mag L), ⟨n1 + (a.mag L).size + 35, fun n hn => ?_⟩, numeral_wf hB (.inl rfl) _, ?_⟩
  · show lcmQuotient o L env n a b = _
    unfold lcmQuotient
    rw [show gcdClient o L env n a b = _ from eg n (by omega), ok_bind, eq n (by omega), ok_bind,
      mul_numeral M hp hm wq hb (by have := length_pos nb; omega) (by omega) (by omega), dq', db]
    rfl
  · rw [toInt_of_pos rfl, numeral_mag, mq, mg, ta, tb]
    have hgd : Nat.gcd (a.mag L) (b.mag L) = a.mag L ↔ a.mag L ∣ b.mag L := Nat.gcd_eq_left_iff_dvd
    by_cases h : a.mag L ∣ b.mag L ∧ a.mag L ≠ 1
    · rw [if_pos (by exact_mod_cast h)]
      unfold quot
      rw [if_pos (by rw [hgd.2 h.1]; omega)]
      simp
    · rw [if_neg (by exact_mod_cast h)]
      unfold quot
      rw [if_neg (by
        rintro ⟨h1, h2⟩
        exact h ⟨hgd.1 h1.symm, by omega⟩)]
      show ((a.mag L / Nat.gcd (a.mag L) (b.mag L) * b.mag L : Nat) : Int) = (Nat.lcm (a.mag L) (b.mag L) : Nat)
      rw [Nat.div_mul_right_comm (Nat.gcd_dvd_left _ _)]
      rfl

example {F : Type} {o : FloatOps F} (M : Ieee o) := C103_lcm_quotient M .base10 Sample.ample rfl (a := Sample.n199) (b := Sample.n23)
  (by sample) (by sample) (by sample) (by sample) (by sample) (by sample)

/-- The property fails: dividing first, the least common multiple of 2 and 4 is returned as 0; and for 6 and 6 neither program returns. -/
theorem C103_refuted {F : Type} {o : FloatOps F} (M : Ieee o) : (∃ a b r : Bignum, WF .base10 a ∧ WF .base10 b ∧ a.toInt .base10 = 2 ∧
    b.toInt .base10 = 4 ∧ Evaluates (fun n => lcmQuotient o .base10 releaseEnv n a b) (.ok r) ∧ r.toInt .base10 = 0) ∧
    ∃ a : Bignum, WF .base10 a ∧ a.toInt .base10 = 6 ∧ Evaluates (fun n => lcmQuotient o .base10 releaseEnv n a a) (.error .timeout) ∧
      Evaluates (fun n => lcmProduct o .base10 releaseEnv n a a) (.error .timeout) := by
  constructor
  · obtain ⟨r, h1, -, h3⟩ := C103_lcm_quotient M .base10 releaseEnv_ample rfl (a := ⟨.pos, [2]⟩) (b := ⟨.pos, [4]⟩)
      (by simp [WF, Signed, WFDigits, InRange, NoLeadingZero, Limits.base, Limits.base10, Limits.custom]) (by decide)
      (by simp [WF, Signed, WFDigits, InRange, NoLeadingZero, Limits.base, Limits.base10, Limits.custom]) (by decide) (by decide) (by simp)
    exact ⟨⟨.pos, [2]⟩, ⟨.pos, [4]⟩, r, by simp [WF, Signed, WFDigits, InRange, NoLeadingZero, Limits.base, Limits.base10, Limits.custom],
      by simp [WF, Signed, WFDigits, InRange, NoLeadingZero, Limits.base, Limits.base10, Limits.custom], by decide, by decide, h1,
      h3.trans (by decide)⟩
  · obtain ⟨a, h1, h2, n0, h3⟩ := C74_refuted M
    refine ⟨a, h1, h2, ⟨n0, fun n hn => ?_⟩, ⟨n0, fun n hn => ?_⟩⟩
    · show lcmQuotient o .base10 releaseEnv n a a = _
      unfold lcmQuotient
      rw [show gcdClient o .base10 releaseEnv n a a = _ from h3 n hn]; rfl
    · show lcmProduct o .base10 releaseEnv n a a = _
      unfold lcmProduct
      rw [show gcdClient o .base10 releaseEnv n a a = _ from h3 n hn]; rfl

/-- The hypotheses are met: 12 and 18 in base 10. -/
example {F : Type} {o : FloatOps F} (M : Ieee o) : ∃ r, Evaluates (fun n => lcmProduct o .base10 releaseEnv n ⟨.pos, [2, 1]⟩ ⟨.pos, [8, 1]⟩) (.ok r) ∧
    r.toInt .base10 = 36 := by
  obtain ⟨r, h1, -, h3⟩ := C103_lcm_product_partial M .base10 releaseEnv_ample rfl (a := ⟨.pos, [2, 1]⟩) (b := ⟨.pos, [8, 1]⟩)
      (by simp [WF, Signed, WFDigits, InRange, NoLeadingZero, Limits.base, Limits.base10, Limits.custom]) (by decide)
      (by simp [WF, Signed, WFDigits, InRange, NoLeadingZero, Limits.base, Limits.base10, Limits.custom]) (by decide) (by decide) (by simp)
  exact ⟨r, h1, h3.trans (by decide)⟩

end BN
