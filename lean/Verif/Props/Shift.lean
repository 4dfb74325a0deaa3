import Verif.Lemmas.Samples
import Verif.Props.Negation
/-
C92, C93: nested division; multiplication and division by the base.
-/
namespace BN
open Bignum

/-! ### C92 -/

/-- The magnitude of a quotient as the library computes it. -/
def quot (x y : Nat) : Nat := if x = y ∧ 2 ≤ x then 0 else x / y

theorem div_val {L : Limits} (h : Custom L) {env : Env} (hm : env.Ample) (hd : env.debug = false) {a b : Bignum} (ha : WF L a) (hb : WF L b)
    (hb0 : b.mag L ≠ 0) :
    ∃ c, (∀ n, (a.mag L).size + 2 ≤ n → a.div L env n b = .ok c) ∧ WF L c ∧ c.desc = signRule a.desc b.desc ∧
      c.mag L = quot (a.mag L) (b.mag L) := by
  have hB := h.supported.base_ge
  by_cases he : a.mag L = b.mag L ∧ 2 ≤ a.mag L
  · refine ⟨⟨signRule a.desc b.desc, [0]⟩, fun n _ => ?_,
      ⟨signed_signRule _ _, by intro d hd; rw [List.mem_singleton.1 hd]; omega, .inr rfl⟩, rfl, ?_⟩
    · unfold Bignum.div viaCopy
      rw [copy_ok hm, ok_bind, C32_self_division_is_zero h.supported (r := .other b) ha hb he.1 he.2]
      rfl
    · rw [quot, if_pos he]; rfl
  · obtain ⟨c, h1, h2, h3, h4⟩ := div_obj h hm hd ha hb hb0 (by omega)
    exact ⟨c, h1, h2, h3, by rw [quot, if_neg he, h4]⟩

theorem quot_quot (x y z : Nat) (hy : y ≠ 0) (hz : z ≠ 0) :
    quot (quot x y) z = quot x (y * z) ↔ ¬ (x / y = z ∧ 2 ≤ z ∧ x ≠ y * z) := by
  unfold quot
  by_cases hxy : x = y ∧ 2 ≤ x
  · obtain ⟨rfl, h2⟩ := hxy
    have h1 : x / x = 1 := Nat.div_self (by omega)
    rw [if_pos (show x = x ∧ 2 ≤ x from ⟨rfl, h2⟩), if_neg (by omega), Nat.zero_div, h1]
    have : (if x = x * z ∧ 2 ≤ x then 0 else x / (x * z)) = 0 := by
      split
      · rfl
      · next h =>
        have hz1 : z ≠ 1 := by rintro rfl; exact h ⟨by omega, h2⟩
        exact Nat.div_eq_of_lt (by nlinarith [show 2 ≤ z by omega])
    rw [this]
    simp
    omega
  · rw [if_neg hxy, Nat.div_div_eq_div_mul]
    by_cases hq : x / y = z ∧ 2 ≤ x / y
    · rw [if_pos hq]
      by_cases hx : x = y * z
      · have h2 : 2 ≤ x := by
          have : 2 ≤ z := by omega
          rw [hx]; nlinarith [Nat.pos_of_ne_zero hy]
        rw [if_pos ⟨hx, h2⟩]
        simp [hx]
      · rw [if_neg (by tauto)]
        have : x / (y * z) ≠ 0 := by
          rw [← Nat.div_div_eq_div_mul, hq.1, Nat.div_self (by omega)]; omega
        constructor
        · intro h; omega
        · intro h; exact absurd ⟨hq.1, by omega, hx⟩ h
    · rw [if_neg hq]
      have h1 : ¬ (x = y * z ∧ 2 ≤ x) := by
        rintro ⟨rfl, h2⟩
        rw [Nat.mul_div_cancel_left _ (Nat.pos_of_ne_zero hy)] at hq
        have : z = 1 := by omega
        subst this
        exact hxy ⟨by omega, h2⟩
      rw [if_neg h1]
      simp only [true_iff]
      rintro ⟨h3, h4, -⟩
      exact hq ⟨h3, by omega⟩

/-- C92: `(a / b) / c` and `a / (b * c)` both return, and have the same value exactly when not |a| / |b| = |c| >= 2 with |a| ≠ |b c|.
Missing: those operands, where the results are 0 and 1 or -1. -/
theorem C92_nested_division_partial {F : Type} {o : FloatOps F} (M : Ieee o) {L : Limits} {K : Nat} (hp : Preset L K) {env : Env}
    (hm : env.Ample) (hd : env.debug = false) {a b c : Bignum} (ha : WF L a) (hb : WF L b) (hc : WF L c) (hb0 : b.toInt L ≠ 0)
    (hc0 : c.toInt L ≠ 0) (hK : b.digits.length + c.digits.length ≤ K) :
    ∃ q p r s, Evaluates (fun n => a.div L env n b) (.ok q) ∧ Evaluates (fun n => q.div L env n c) (.ok r) ∧
      Evaluates (fun n => b.mul o L env n c) (.ok p) ∧ Evaluates (fun n => a.div L env n p) (.ok s) ∧
      (r.toInt L = s.toInt L ↔ ¬ (a.mag L / b.mag L = c.mag L ∧ 2 ≤ c.mag L ∧ a.mag L ≠ b.mag L * c.mag L)) := by
  have hB := hp.custom.supported.base_ge
  have mag0 : ∀ {x : Bignum}, x.toInt L ≠ 0 → x.mag L ≠ 0 := by
    intro x h h'; apply h; unfold Bignum.toInt; rw [h']; simp
  replace hb0 := mag0 hb0
  replace hc0 := mag0 hc0
  obtain ⟨q, q1, q2, q3, q4⟩ := div_val hp.custom hm hd ha hb hb0
  obtain ⟨r, r1, r2, r3, r4⟩ := div_val hp.custom hm hd q2 hc hc0
  have hbl := length_pos (mag_ne_nil hb0)
  have p1 := fun n hn => mul_numeral M hp hm hb hc (by omega) hK (n := n) hn
  have pw := numeral_wf (L := L) hB (signed_signRule b.desc c.desc) (b.mag L * c.mag L)
  have pm : (numeral L (signRule b.desc c.desc) (b.mag L * c.mag L)).mag L = b.mag L * c.mag L := numeral_mag _ _ _
  obtain ⟨s, s1, s2, s3, s4⟩ := div_val hp.custom hm hd ha pw (by rw [pm]; exact Nat.mul_ne_zero hb0 hc0)
  refine ⟨q, _, r, s, ⟨_, q1⟩, ⟨_, r1⟩, ⟨33, fun n hn => p1 n hn⟩, ⟨_, s1⟩, ?_⟩
  rw [← quot_quot _ _ _ hb0 hc0, ← pm, ← s4, ← q4, ← r4]
  have hsg : r.desc = s.desc := by
    rw [r3, s3, q3]
    show _ = signRule a.desc (signRule b.desc c.desc)
    exact signRule_assoc ha.1 hb.1 hc.1
  unfold Bignum.toInt
  rw [hsg]
  split <;> omega

example {F : Type} {o : FloatOps F} (M : Ieee o) := C92_nested_division_partial M .base10 Sample.ample rfl (a := Sample.n199)
  (b := Sample.n2) (c := Sample.m23) (by sample) (by sample) (by sample) (by sample) (by sample) (by decide)

/-- 7 / 2 / 3 = 0 but 7 / 6 = 1. -/
theorem C92_refuted {F : Type} {o : FloatOps F} (M : Ieee o) : ∃ a b c q p r s : Bignum, WF .base10 a ∧ WF .base10 b ∧ WF .base10 c ∧
    Evaluates (fun n => a.div .base10 releaseEnv n b) (.ok q) ∧ Evaluates (fun n => q.div .base10 releaseEnv n c) (.ok r) ∧
    Evaluates (fun n => b.mul o .base10 releaseEnv n c) (.ok p) ∧ Evaluates (fun n => a.div .base10 releaseEnv n p) (.ok s) ∧
    r.toInt .base10 ≠ s.toInt .base10 := by
  have w : ∀ d, d < 10 → d ≠ 0 → WF .base10 ⟨.pos, [d]⟩ := by
    intro d h h0
    simp [WF, Signed, WFDigits, InRange, NoLeadingZero, Limits.base, Limits.base10, Limits.custom, h, h0]
  obtain ⟨q, p, r, s, h1, h2, h3, h4, h5⟩ := C92_nested_division_partial M .base10 releaseEnv_ample rfl (w 7 (by omega) (by omega))
    (w 2 (by omega) (by omega)) (w 3 (by omega) (by omega)) (by decide) (by decide) (by simp)
  exact ⟨_, _, _, q, p, r, s, w 7 (by omega) (by omega), w 2 (by omega) (by omega), w 3 (by omega) (by omega), h1, h2, h3, h4,
    fun h => h5.1 h (by decide)⟩

/-! ### C93 -/

theorem signRule_pos_right {d : Desc} (h : Signed d) : signRule d .pos = d := by
  rcases h with h | h <;> rw [h] <;> rfl

theorem desc_of_pos {L : Limits} {x : Bignum} (hx : WF L x) (h : 0 < x.toInt L) : x.desc = .pos := by
  rcases hx.1 with h' | h'
  · exact h'
  · unfold Bignum.toInt at h; rw [h'] at h; simp at h; omega

theorem mag_cons (L : Limits) (d : Desc) (a : Nat) (l : List Nat) : (⟨d, a :: l⟩ : Bignum).mag L = a + L.base * (⟨d, l⟩ : Bignum).mag L := by
  show natOf L.base (a :: l) = a + L.base * natOf L.base l
  simp [natOf]

/-- C93: multiplying by the base gives the very object `push_front(0)` leaves. -/
theorem C93_mul_base {F : Type} {o : FloatOps F} (M : Ieee o) {L : Limits} {K : Nat} (hp : Preset L K) {env : Env} (hm : env.Ample)
    {x ten : Bignum} (hx : WF L x) (hz : NoLeadingZero x.digits) (h0 : x.digits ≠ []) (ht : WF L ten) (htv : ten.toInt L = L.base)
    (hK : x.digits.length + ten.digits.length ≤ K) :
    ∃ y, Evaluates (fun n => x.mul o L env n ten) (.ok y) ∧ x.pushFront env 0 = .ok y := by
  have hB := hp.custom.supported.base_ge
  have hl := length_pos h0
  have htd := desc_of_pos ht (by omega)
  have htm : ten.mag L = L.base := by rw [← natAbs_toInt, htv]; simp
  refine ⟨⟨x.desc, 0 :: x.digits⟩, ⟨33, fun n hn => ?_⟩, ?_⟩
  · show x.mul o L env n ten = _
    rw [mul_numeral M hp hm hx ht (by omega) hK hn, htd, signRule_pos_right hx.1, htm]
    have := eq_numeral hB (c := ⟨x.desc, 0 :: x.digits⟩) (L := L)
      (by intro d hd; rcases List.mem_cons.1 hd with h | h
          · omega
          · exact hx.2.1 d h)
      (by unfold NoLeadingZero at *; rw [List.getLast?_cons]; 
          cases hxl : x.digits.getLast? with
          | none => exact absurd (List.getLast?_eq_none_iff.1 hxl) h0
          | some v => simpa [hxl] using hz)
    rw [this, mag_cons]
    show _ = Except.ok (numeral L x.desc (0 + L.base * x.mag L))
    rw [Nat.zero_add, Nat.mul_comm]
  · obtain ⟨d, l⟩ := x
    simp [Bignum.pushFront, Vec.insert, hm (l.length + 1), ok_bind]

example {F : Type} {o : FloatOps F} (M : Ieee o) := C93_mul_base M .base10 Sample.ample (x := Sample.m23) (ten := ⟨.pos, [0, 1]⟩)
  (by sample) (by sample) (by sample) (by sample) (by sample) (by decide)

/-- C93: dividing a number of two or more digits by the base gives the very object `pop_front()` leaves.  Missing: the base itself
divided by the base (see the witness). -/
theorem C93_div_base_partial {L : Limits} (h : Custom L) {env : Env} (hm : env.Ample) (hd : env.debug = false)
    {x ten : Bignum} (hx : WF L x) (hz : NoLeadingZero x.digits) (h2 : 2 ≤ x.digits.length) (hne : x.mag L ≠ L.base) (ht : WF L ten)
    (htv : ten.toInt L = L.base) :
    ∃ y, Evaluates (fun n => x.div L env n ten) (.ok y) ∧ x.popFront = .ok y := by
  have hB := h.supported.base_ge
  have htd := desc_of_pos ht (by omega)
  have htm : ten.mag L = L.base := by rw [← natAbs_toInt, htv]; simp
  obtain ⟨y, y1, y2, y3, y4⟩ := div_obj h hm hd hx ht (by omega) (.inl (by rw [htm]; exact hne))
  refine ⟨y, ⟨_, y1⟩, ?_⟩
  obtain ⟨d, l⟩ := x
  match l, h2 with
  | a :: b :: l, _ =>
    have ha : a < L.base := hx.2.1 a (by simp)
    have hz' : NoLeadingZero (b :: l) := by
      unfold NoLeadingZero at *; rw [List.getLast?_cons_cons] at hz; exact hz
    have hr' : InRange L.base (b :: l) := fun v hv => hx.2.1 v (List.mem_cons_of_mem _ hv)
    have hm1 : (⟨d, b :: l⟩ : Bignum).mag L ≠ 0 := fun h0 => by
      have h1 : natOf L.base (b :: l) = 0 := h0
      have : (b :: l) = [] := natOf_unique (by omega) hr' (by simp [InRange]) hz' (by simp [NoLeadingZero]) (by rw [h1]; rfl)
      simp at this
    have hdiv : y.mag L = (⟨d, b :: l⟩ : Bignum).mag L := by
      rw [y4, htm, mag_cons, Nat.add_mul_div_left _ _ (by omega), Nat.div_eq_of_lt ha, Nat.zero_add]
    have e1 := eq_numeral hB (c := y) y2.2.1 (nlz_of_mag y2 (by rw [hdiv]; exact hm1))
    have e2 := eq_numeral hB (c := ⟨d, b :: l⟩) (L := L) hr' hz'
    have hyd : y.desc = d := by rw [y3, htd]; exact signRule_pos_right hx.1
    show Except.ok (⟨d, b :: l⟩ : Bignum) = .ok y
    rw [e1, e2, hyd, hdiv]

example := C93_div_base_partial (L := .base10) Sample.base10 Sample.ample rfl (x := Sample.m23) (ten := ⟨.pos, [0, 1]⟩)
  (by sample) (by sample) (by sample) (by sample) (by sample) (by sample)

/-- C93: the remainder by the base has the value of the digit `x[0]`.  Missing: the same case. -/
theorem C93_rem_base_partial {F : Type} {o : FloatOps F} (M : Ieee o) {L : Limits} {K : Nat} (hp : Preset L K) {env : Env}
    (hm : env.Ample) (hd : env.debug = false) {x ten : Bignum} (hx : WF L x) (h0 : x.digits ≠ []) (hne : x.mag L ≠ L.base)
    (ht : WF L ten) (htv : ten.toInt L = L.base) (hK : x.digits.length + ten.digits.length ≤ K) :
    ∃ y v, Evaluates (fun n => remainder o L env n x ten) (.ok y) ∧ x.at_ 0 = .ok v ∧ y.mag L = v ∧ y.desc = x.desc := by
  have hB := hp.custom.supported.base_ge
  have htm : ten.mag L = L.base := by rw [← natAbs_toInt, htv]; simp
  obtain ⟨d, l⟩ := x
  match l, h0 with
  | a :: l, h0 =>
    have ha : a < L.base := hx.2.1 a (by simp)
    refine ⟨_, a, ⟨((⟨d, a :: l⟩ : Bignum).mag L).size + 33, fun n hn => C73_remainder_partial M hp hm hd hx ht h0 (by omega)
      (.inl (by rw [htm]; exact hne)) hK (by omega) (by omega)⟩, rfl, ?_, rfl⟩
    rw [numeral_mag, htm, mag_cons, Nat.add_mul_mod_self_left, Nat.mod_eq_of_lt ha]

example {F : Type} {o : FloatOps F} (M : Ieee o) := C93_rem_base_partial M .base10 Sample.ample rfl (x := Sample.m23)
  (ten := ⟨.pos, [0, 1]⟩) (by sample) (by sample) (by sample) (by sample) (by sample) (by decide)

/-- 10 / 10 is 0, but `pop_front()` on 10 leaves 1. -/
theorem C93_refuted : ∃ x ten y z : Bignum, WF .base10 x ∧ NoLeadingZero x.digits ∧ 2 ≤ x.digits.length ∧ WF .base10 ten ∧
    ten.toInt .base10 = 10 ∧ Evaluates (fun n => x.div .base10 releaseEnv n ten) (.ok y) ∧ x.popFront = .ok z ∧
    y.toInt .base10 = 0 ∧ z.toInt .base10 = 1 := by
  have w : WF .base10 ⟨.pos, [0, 1]⟩ := by
    simp [WF, Signed, WFDigits, InRange, NoLeadingZero, Limits.base, Limits.base10, Limits.custom]
  obtain ⟨y, h1, h2, h3, h4⟩ := div_val custom_base10 releaseEnv_ample rfl w w (by decide)
  refine ⟨_, _, y, ⟨.pos, [1]⟩, w, by simp [NoLeadingZero], by simp, w, by decide, ⟨_, h1⟩, rfl, ?_, by decide⟩
  have : y.mag .base10 = 0 := by rw [h4]; decide
  unfold Bignum.toInt; rw [this]; simp

/-- The hypotheses are met: 375 * 10, 375 / 10 and 375 % 10 in base 10. -/
example : WF .base10 ⟨.pos, [5, 7, 3]⟩ ∧ NoLeadingZero [5, 7, 3] ∧ WF .base10 ⟨.pos, [0, 1]⟩ ∧
    (⟨.pos, [0, 1]⟩ : Bignum).toInt .base10 = Limits.base10.base ∧ (⟨.pos, [5, 7, 3]⟩ : Bignum).mag .base10 ≠ Limits.base10.base := by
  refine ⟨?_, by simp [NoLeadingZero], ?_, by decide, by decide⟩ <;>
    simp [WF, Signed, WFDigits, InRange, NoLeadingZero, Limits.base, Limits.base10, Limits.custom]

end BN
