import Verif.Lemmas.Samples
import Verif.Props.Simulation
/-
C72: multiplication obeys the laws of arithmetic; the results are the same objects, not only the same values.
-/
namespace BN
open Bignum

/-- The preset types with exact products, and the number of digits both factors may have together. -/
inductive Preset : Limits → Nat → Prop
  | base2 : Preset .base2 257
  | base8 : Preset .base8 2341
  | base10 : Preset .base10 (2 ^ 25)
  | base16 : Preset .base16 (2 ^ 24)

theorem Preset.custom {L : Limits} {K : Nat} (h : Preset L K) : Custom L := by
  cases h
  · exact custom_base2
  · exact custom_base8
  · exact custom_base10
  · exact custom_base16

/-- The canonical object: sign and the base digits of a natural number, least significant first, none for zero. -/
def numeral (L : Limits) (d : Desc) (m : Nat) : Bignum := ⟨d, Nat.digits L.base m⟩

theorem natOf_digits (B m : Nat) : natOf B (Nat.digits B m) = m := by
  have : ∀ l : List Nat, natOf B l = Nat.ofDigits B l := by
    intro l
    induction l with
    | nil => rfl
    | cons d l ih => rw [natOf_cons, Nat.ofDigits_cons, ih]
  rw [this, Nat.ofDigits_digits]

theorem digits_inRange {B : Nat} (hB : 2 ≤ B) (m : Nat) : InRange B (Nat.digits B m) :=
  fun _ h => Nat.digits_lt_base (by omega) h

theorem digits_nlz (B m : Nat) : NoLeadingZero (Nat.digits B m) := by
  intro h
  by_cases hm : m = 0
  · rw [hm, Nat.digits_zero] at h; simp at h
  · have h1 : Nat.digits B m ≠ [] := Nat.digits_ne_nil_iff_ne_zero.2 hm
    rw [List.getLast?_eq_getLast_of_ne_nil h1] at h
    exact Nat.getLast_digit_ne_zero B hm (by simpa using h)

theorem numeral_wf {L : Limits} (hB : 2 ≤ L.base) {d : Desc} (hd : Signed d) (m : Nat) : WF L (numeral L d m) :=
  ⟨hd, digits_inRange hB m, .inl (digits_nlz _ m)⟩

theorem numeral_mag (L : Limits) (d : Desc) (m : Nat) : (numeral L d m).mag L = m := natOf_digits _ m

/-- A number without leading zero digits is the canonical object. -/
theorem eq_numeral {L : Limits} (hB : 2 ≤ L.base) {c : Bignum} (hr : InRange L.base c.digits) (hz : NoLeadingZero c.digits) :
    c = numeral L c.desc (c.mag L) := by
  obtain ⟨d, l⟩ := c
  unfold numeral
  congr 1
  exact natOf_unique (by omega) hr (digits_inRange hB _) hz (digits_nlz _ _) (natOf_digits _ _).symm

theorem mag_of_toInt {L : Limits} {a b : Bignum} {c : Bignum} (h : c.toInt L = a.toInt L * b.toInt L) : c.mag L = a.mag L * b.mag L := by
  rw [← natAbs_toInt, h, Int.natAbs_mul, natAbs_toInt, natAbs_toInt]

/-- Product of well-formed numbers of a preset type: the canonical object of the product. -/
theorem mul_numeral {F : Type} {o : FloatOps F} (M : Ieee o) {L : Limits} {K : Nat} (hp : Preset L K) {env : Env} (hm : env.Ample)
    {x y : Bignum} (hx : WF L x) (hy : WF L y) (h1 : 1 ≤ x.digits.length + y.digits.length)
    (h2 : x.digits.length + y.digits.length ≤ K) {n : Nat} (hn : 32 < n) :
    x.mul o L env n y = .ok (numeral L (signRule x.desc y.desc) (x.mag L * y.mag L)) := by
  have key : ∃ z, (∀ n, 32 < n → mulAssign o L env n x (.other y) = .ok z) ∧ WF L z ∧ NoLeadingZero z.digits ∧
      z.desc = signRule x.desc y.desc ∧ z.toInt L = x.toInt L * y.toInt L := by
    cases hp
    · exact C24_base2 M hm (r := .other y) hx hy h1 (by show _ + y.digits.length ≤ _; omega) (by show min _ y.digits.length ≤ _; omega)
    · exact C24_base8 M hm (r := .other y) hx hy h1 (by show _ + y.digits.length ≤ _; omega) (by show min _ y.digits.length ≤ _; omega)
    · exact C24_base10 M hm (r := .other y) hx hy h1 h2
    · exact C24_base16 M hm (r := .other y) hx hy h1 h2
  obtain ⟨z, e1, e2, e3, e4, e5⟩ := key
  have e6 := eq_numeral hp.custom.supported.base_ge e2.2.1 e3
  rw [e4, mag_of_toInt e5] at e6
  unfold Bignum.mul viaCopy
  rw [copy_ok hm, ok_bind, e1 n hn, ← e6]


theorem length_numeral_le {L : Limits} (hB : 2 ≤ L.base) {d : Desc} {m k : Nat} (h : m < L.base ^ k) : (numeral L d m).digits.length ≤ k :=
  (Nat.digits_length_le_iff (by omega) m).2 h

theorem mag_lt {L : Limits} {x : Bignum} (h : WF L x) : x.mag L < L.base ^ x.digits.length := natOf_lt h.2.1

theorem signed_signRule (a b : Desc) : Signed (signRule a b) := by
  unfold signRule Signed; split <;> simp

theorem signRule_comm (a b : Desc) : signRule a b = signRule b a := by
  unfold signRule
  by_cases h : a = b
  · rw [h]
  · rw [if_neg h, if_neg (fun h' => h h'.symm)]

theorem signRule_assoc {a b c : Desc} (ha : Signed a) (hb : Signed b) (hc : Signed c) :
    signRule (signRule a b) c = signRule a (signRule b c) := by
  rcases ha with rfl | rfl <;> rcases hb with rfl | rfl <;> rcases hc with rfl | rfl <;> rfl

/-- The canonical object of a non-zero integer. -/
theorem wf_determined {L : Limits} (hB : 2 ≤ L.base) {a b : Bignum} (ha : WF L a) (hb : WF L b) (h0 : a.toInt L ≠ 0)
    (h : a.toInt L = b.toInt L) : a = b := by
  have hma : a.mag L ≠ 0 := fun h' => h0 (toInt_eq_zero.2 h')
  have hm : a.mag L = b.mag L := by rw [← natAbs_toInt, h, natAbs_toInt]
  have hd : a.desc = b.desc := by
    unfold Bignum.toInt at h
    rw [← hm] at h
    rcases ha.1 with h1 | h1 <;> rcases hb.1 with h2 | h2 <;> rw [h1, h2] at h ⊢ <;> simp at h <;> omega
  obtain ⟨d, l⟩ := a; obtain ⟨e, k⟩ := b
  simp only at hd; subst hd
  congr 1
  refine wf_unique hB ha.2 hb.2 ?_ ?_ hm
  · rintro rfl; exact hma rfl
  · rintro rfl; exact hma (by rw [hm]; rfl)

/-! ### C72 -/

/-- Commutativity: both orders give the identical object. -/
theorem C72_mul_comm {F : Type} {o : FloatOps F} (M : Ieee o) {L : Limits} {K : Nat} (hp : Preset L K) {env : Env} (hm : env.Ample)
    {a b : Bignum} (ha : WF L a) (hb : WF L b) (h1 : ¬ (a.digits = [] ∧ b.digits = []))
    (h2 : a.digits.length + b.digits.length ≤ K) :
    ∃ c, Evaluates (fun n => a.mul o L env n b) (.ok c) ∧ Evaluates (fun n => b.mul o L env n a) (.ok c) := by
  have h1' : 1 ≤ a.digits.length + b.digits.length := by
    by_contra hc
    exact h1 ⟨List.length_eq_zero_iff.1 (by omega), List.length_eq_zero_iff.1 (by omega)⟩
  refine ⟨_, ⟨33, fun n hn => mul_numeral M hp hm ha hb h1' h2 hn⟩, ⟨33, fun n hn => ?_⟩⟩
  show b.mul o L env n a = _
  rw [mul_numeral M hp hm hb ha (by omega) (by omega) hn, signRule_comm, Nat.mul_comm]

example {F : Type} {o : FloatOps F} (M : Ieee o) := C72_mul_comm M .base10 Sample.ample (a := Sample.n199) (b := Sample.m23)
  (by sample) (by sample) (by sample) (by sample)

theorem length_pos {l : List Nat} (h : l ≠ []) : 1 ≤ l.length := by
  cases l with
  | nil => exact absurd rfl h
  | cons _ _ => simp

theorem length_prod {L : Limits} (hB : 2 ≤ L.base) {a b : Bignum} (ha : WF L a) (hb : WF L b) (d : Desc) :
    (numeral L d (a.mag L * b.mag L)).digits.length ≤ a.digits.length + b.digits.length := by
  refine length_numeral_le hB ?_
  rw [pow_add]
  exact Nat.mul_lt_mul'' (mag_lt ha) (mag_lt hb)

/-- Associativity: both groupings give the identical object. -/
theorem C72_mul_assoc {F : Type} {o : FloatOps F} (M : Ieee o) {L : Limits} {K : Nat} (hp : Preset L K) {env : Env} (hm : env.Ample)
    {a b c : Bignum} (ha : WF L a) (hb : WF L b) (hc : WF L c) (ha0 : a.digits ≠ []) (hb0 : b.digits ≠ []) (hc0 : c.digits ≠ [])
    (h2 : a.digits.length + b.digits.length + c.digits.length ≤ K) :
    ∃ ab bc x, Evaluates (fun n => a.mul o L env n b) (.ok ab) ∧ Evaluates (fun n => ab.mul o L env n c) (.ok x) ∧
      Evaluates (fun n => b.mul o L env n c) (.ok bc) ∧ Evaluates (fun n => a.mul o L env n bc) (.ok x) := by
  have hB := hp.custom.supported.base_ge
  have hla := length_pos ha0; have hlb := length_pos hb0; have hlc := length_pos hc0
  have l1 := length_prod hB ha hb (signRule a.desc b.desc)
  have l2 := length_prod hB hb hc (signRule b.desc c.desc)
  refine ⟨_, _, _, ⟨33, fun n hn => mul_numeral M hp hm ha hb (by omega) (by omega) hn⟩,
    ⟨33, fun n hn => mul_numeral M hp hm (numeral_wf hB (signed_signRule _ _) _) hc (by omega) (by omega) hn⟩,
    ⟨33, fun n hn => mul_numeral M hp hm hb hc (by omega) (by omega) hn⟩, ⟨33, fun n hn => ?_⟩⟩
  show a.mul o L env n _ = _
  rw [mul_numeral M hp hm ha (numeral_wf hB (signed_signRule _ _) _) (by omega) (by omega) hn, numeral_mag, numeral_mag,
    Nat.mul_assoc]
  congr 2
  exact (signRule_assoc ha.1 hb.1 hc.1).symm

example {F : Type} {o : FloatOps F} (M : Ieee o) := C72_mul_assoc M .base10 Sample.ample (a := Sample.n199) (b := Sample.m23)
  (c := Sample.n1) (by sample) (by sample) (by sample) (by sample) (by sample) (by sample) (by sample)

/-- One is neutral: a product with a one is the other factor in canonical form (the same object unless that is the
one-digit zero). -/
theorem C72_mul_one {F : Type} {o : FloatOps F} (M : Ieee o) {L : Limits} {K : Nat} (hp : Preset L K) {env : Env} (hm : env.Ample)
    {a : Bignum} (ha : WF L a) (h2 : a.digits.length + 1 ≤ K) :
    Evaluates (fun n => a.mul o L env n ⟨.pos, [1]⟩) (.ok (numeral L a.desc (a.mag L))) ∧
    (NoLeadingZero a.digits → Evaluates (fun n => a.mul o L env n ⟨.pos, [1]⟩) (.ok a)) := by
  have hB := hp.custom.supported.base_ge
  have w1 : WF L ⟨.pos, [1]⟩ := ⟨.inl rfl, by intro d hd; rw [List.mem_singleton.1 hd]; omega, .inl (by simp [NoLeadingZero])⟩
  have hs : signRule a.desc .pos = a.desc := by rcases ha.1 with h | h <;> rw [h] <;> rfl
  have h : Evaluates (fun n => a.mul o L env n ⟨.pos, [1]⟩) (.ok (numeral L a.desc (a.mag L))) := by
    refine ⟨33, fun n hn => ?_⟩
    show a.mul o L env n ⟨.pos, [1]⟩ = _
    rw [mul_numeral M hp hm ha w1 (by simp) (by simpa using h2) hn]
    show Except.ok (numeral L (signRule a.desc .pos) (a.mag L * natOf L.base [1])) = _
    rw [hs, natOf_cons, natOf_nil, Nat.mul_zero, Nat.add_zero, Nat.mul_one]
  refine ⟨h, fun hz => ?_⟩
  rw [← eq_numeral hB ha.2.1 hz] at h
  exact h

example {F : Type} {o : FloatOps F} (M : Ieee o) := C72_mul_one M .base10 Sample.ample (a := Sample.m23) (by sample) (by sample)

/-- Multiplying by the one-digit zero gives the zero without digits, with the sign rule. -/
theorem C72_mul_zero {F : Type} {o : FloatOps F} (M : Ieee o) {L : Limits} {K : Nat} (hp : Preset L K) {env : Env} (hm : env.Ample)
    {a : Bignum} (ha : WF L a) (h2 : a.digits.length + 1 ≤ K) (d : Desc) (hd : Signed d) :
    Evaluates (fun n => a.mul o L env n ⟨d, [0]⟩) (.ok ⟨signRule a.desc d, []⟩) := by
  have hB := hp.custom.supported.base_ge
  have w1 : WF L ⟨d, [0]⟩ := ⟨hd, by intro d hd; rw [List.mem_singleton.1 hd]; omega, .inr rfl⟩
  refine ⟨33, fun n hn => ?_⟩
  show a.mul o L env n ⟨d, [0]⟩ = _
  rw [mul_numeral M hp hm ha w1 (by simp) (by simpa using h2) hn]
  show Except.ok (numeral L (signRule a.desc d) (a.mag L * natOf L.base [0])) = _
  rw [natOf_cons, natOf_nil, Nat.mul_zero, Nat.add_zero, Nat.mul_zero]
  unfold numeral
  rw [Nat.digits_zero]

example {F : Type} {o : FloatOps F} (M : Ieee o) := C72_mul_zero M .base10 Sample.ample (a := Sample.m23) (by sample) (by sample)
  .neg (by sample)

/-- The same for a zero without digits and a factor with digits. -/
theorem C72_mul_empty {F : Type} {o : FloatOps F} (M : Ieee o) {L : Limits} {K : Nat} (hp : Preset L K) {env : Env} (hm : env.Ample)
    {a : Bignum} (ha : WF L a) (h0 : a.digits ≠ []) (h2 : a.digits.length ≤ K) (d : Desc) (hd : Signed d) :
    Evaluates (fun n => a.mul o L env n ⟨d, []⟩) (.ok ⟨signRule a.desc d, []⟩) := by
  have w1 : WF L ⟨d, []⟩ := ⟨hd, .nil _, .inl (by simp [NoLeadingZero])⟩
  refine ⟨33, fun n hn => ?_⟩
  show a.mul o L env n ⟨d, []⟩ = _
  rw [mul_numeral M hp hm ha w1 (by have := List.length_pos_iff.2 h0; simp only [List.length_nil]; omega) (by simpa using h2) hn]
  show Except.ok (numeral L (signRule a.desc d) (a.mag L * natOf L.base [])) = _
  rw [natOf_nil, Nat.mul_zero]
  unfold numeral
  rw [Nat.digits_zero]

example {F : Type} {o : FloatOps F} (M : Ieee o) := C72_mul_empty M .base10 Sample.ample (a := Sample.m23) (by sample) (by sample)
  (by sample) .neg (by sample)

theorem add_length {L : Limits} (hB : 2 ≤ L.base) {b c s : Bignum} (hb : WF L b) (hc : WF L c) (hs : WF L s)
    (h : s.toInt L = b.toInt L + c.toInt L) : s.digits.length ≤ max b.digits.length c.digits.length + 1 := by
  have h1 : s.mag L < L.base ^ (max b.digits.length c.digits.length + 1) := by
    have e1 : s.mag L ≤ b.mag L + c.mag L := by
      rw [← natAbs_toInt, h, ← natAbs_toInt L b, ← natAbs_toInt L c]; exact Int.natAbs_add_le _ _
    have e2 := mag_lt hb
    have e3 := mag_lt hc
    have e4 : L.base ^ b.digits.length ≤ L.base ^ max b.digits.length c.digits.length := Nat.pow_le_pow_right (by omega) (by omega)
    have e5 : L.base ^ c.digits.length ≤ L.base ^ max b.digits.length c.digits.length := Nat.pow_le_pow_right (by omega) (by omega)
    rw [pow_succ]
    have := Nat.mul_le_mul_left (L.base ^ max b.digits.length c.digits.length) hB
    omega
  rcases hs.2.2 with h2 | h2
  · have e := eq_numeral hB hs.2.1 h2
    rw [e]
    exact length_numeral_le hB h1
  · rw [h2]; simp

/-- Distributivity (a and one of b, c not zero): a·(b + c) and a·b + a·c have the same value and, when it is not zero, are the
identical object. -/
theorem C72_distrib {F : Type} {o : FloatOps F} (M : Ieee o) {L : Limits} {K : Nat} (hp : Preset L K) {env : Env} (hm : env.Ample)
    (hd : env.debug = false) {a b c : Bignum} (ha : WF L a) (hb : WF L b) (hc : WF L c) (ha0 : a.toInt L ≠ 0)
    (hb0 : b.toInt L ≠ 0 ∨ c.toInt L ≠ 0) (h2 : a.digits.length + max b.digits.length c.digits.length + 1 ≤ K) :
    ∃ s ab ac x y, Evaluates (fun n => b.add L env n c) (.ok s) ∧ Evaluates (fun n => a.mul o L env n s) (.ok x) ∧
      Evaluates (fun n => a.mul o L env n b) (.ok ab) ∧ Evaluates (fun n => a.mul o L env n c) (.ok ac) ∧
      Evaluates (fun n => ab.add L env n ac) (.ok y) ∧ x.toInt L = a.toInt L * (b.toInt L + c.toInt L) ∧
      y.toInt L = x.toInt L ∧ (b.toInt L + c.toInt L ≠ 0 → x = y) := by
  have hB := hp.custom.supported.base_ge
  have hL := hp.custom.supported
  have ne : ∀ z : Bignum, z.toInt L ≠ 0 → z.digits ≠ [] := fun z hz h => hz (toInt_eq_zero.2 (mag_of_nil h))
  have hla := length_pos (ne a ha0)
  obtain ⟨s, s1, s2, s3⟩ := C12_add_exact hL hm hd hb hc (fun h => hb0.elim (ne b · h.2.1) (ne c · h.2.2))
  have sl := add_length hB hb hc s2 s3
  have mulInt : ∀ {x y : Bignum}, WF L x → WF L y →
      (numeral L (signRule x.desc y.desc) (x.mag L * y.mag L)).toInt L = x.toInt L * y.toInt L := by
    intro x y hx hy
    unfold Bignum.toInt
    rw [numeral_mag]
    show (if signRule x.desc y.desc = .neg then _ else _) = _
    rcases hx.1 with h1 | h1 <;> rcases hy.1 with h2 | h2 <;> rw [h1, h2] <;> simp [signRule]
  have wf := fun x y : Bignum => numeral_wf (L := L) hB (signed_signRule x.desc y.desc) (x.mag L * y.mag L)
  have hab := mulInt ha hb
  have hac := mulInt ha hc
  have has := mulInt ha s2
  obtain ⟨y, y1, y2, y3⟩ := C12_add_exact hL hm hd (wf a b) (wf a c)
    (fun h => hb0.elim (fun z => ne _ (by rw [hab]; exact mul_ne_zero ha0 z) h.2.1)
      (fun z => ne _ (by rw [hac]; exact mul_ne_zero ha0 z) h.2.2))
  refine ⟨s, _, _, _, y, s1, ⟨33, fun n hn => mul_numeral M hp hm ha s2 (by omega) (by omega) hn⟩,
    ⟨33, fun n hn => mul_numeral M hp hm ha hb (by omega) (by omega) hn⟩,
    ⟨33, fun n hn => mul_numeral M hp hm ha hc (by omega) (by omega) hn⟩, y1, by rw [has, s3], ?_, fun h0 => ?_⟩
  · rw [y3, hab, hac, has, s3]; ring
  · refine wf_determined hB (wf a s) y2 ?_ ?_
    · rw [has, s3]; exact mul_ne_zero ha0 h0
    · rw [y3, hab, hac, has, s3]; ring

/-- The hypotheses are met by -12, 7 and 30 in base 10. -/
example : Preset .base10 (2 ^ 25) ∧ WF .base10 ⟨.neg, [2, 1]⟩ ∧ WF .base10 ⟨.pos, [7]⟩ ∧ WF .base10 ⟨.pos, [0, 3]⟩ ∧
    Bignum.toInt .base10 ⟨.neg, [2, 1]⟩ = -12 ∧ Bignum.toInt .base10 ⟨.pos, [7]⟩ = 7 ∧ Bignum.toInt .base10 ⟨.pos, [0, 3]⟩ = 30 := by
  refine ⟨.base10, ?_, ?_, ?_, by decide, by decide, by decide⟩ <;>
    simp [WF, Signed, WFDigits, InRange, NoLeadingZero, Limits.base, Limits.base10, Limits.custom]

end BN
