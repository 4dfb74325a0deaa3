import Verif.Props.Inverse
/-
C147: the expansion of a fraction, digit by digit.
-/
namespace BN
open Bignum

/-- `for (; k && r != Bignum(); --k) { r = r * c; d = r / b; out.push_back(d); r = r - d * b; }`: the digits of r / b in base c. -/
def expand {F : Type} (o : FloatOps F) (L : Limits) (env : Env) (n : Nat) (c b : Bignum) : Nat → Bignum → Res (List Bignum)
  | 0, _ => .ok []
  | k + 1, r => r.ne Bignum.default >>= fun go =>
    if go then do
      let t ← r.mul o L env n c
      let d ← t.div L env n b
      let p ← d.mul o L env n b
      let r ← t.sub L env n p
      let ds ← expand o L env n c b k r
      .ok (d :: ds)
    else .ok []

/-- The value of the first `k` digits after the point, as an integer; digits that are missing count as zeros. -/
def fraction (L : Limits) (c : Int) : Nat → List Bignum → Int
  | 0, _ => 0
  | _, [] => 0
  | k + 1, d :: ds => d.toInt L * c ^ k + fraction L c k ds

variable {L : Limits} {env : Env}

theorem expand_numerals {F : Type} {o : FloatOps F} (M : Ieee o) {K : Nat} (hp : Preset L K) (hm : env.Ample) (hd : env.debug = false)
    {b c : Nat} (hc : 2 ≤ c) (hK : (numeral L .pos b).digits.length + (numeral L .pos c).digits.length ≤ K) :
    ∀ (k r : Nat), r < b → (∀ i, i < k → c * (c ^ i * r % b) ≠ b) →
    ∃ ds : List Bignum, (∀ n, (c * b).size + 33 ≤ n → expand o L env n (numeral L .pos c) (numeral L .pos b) k (numeral L .pos r) = .ok ds) ∧
      ds.length ≤ k ∧ (∀ d ∈ ds, WF L d ∧ 0 ≤ d.toInt L ∧ d.toInt L < c) ∧ fraction L c k ds = (c ^ k * r / b : Nat) ∧
      (ds.length < k → c ^ ds.length * r % b = 0)
  | 0, r, hr, _ => ⟨[], fun _ _ => rfl, Nat.le_refl _, by simp, by simp [fraction, Nat.div_eq_of_lt hr], by simp⟩
  | k + 1, r, hr, hne => by
    have hB := hp.custom.supported.base_ge
    by_cases h0 : r = 0
    · subst h0
      refine ⟨[], fun n _ => ?_, Nat.zero_le _, by simp, by simp [fraction], by simp⟩
      rw [expand, numeral_ne_default, ok_bind]
      rfl
    · have hr0 : 0 < r := Nat.pos_of_ne_zero h0
      have hb0 : 0 < b := by omega
      have hcr : c * r < c * b := Nat.mul_lt_mul_of_pos_left hr (by omega)
      have hcr0 : 0 < c * r := Nat.mul_pos (by omega) hr0
      have hne0 := hne 0 (by omega)
      rw [pow_zero, Nat.one_mul, Nat.mod_eq_of_lt hr] at hne0
      obtain ⟨d, d1, d2, d3, d4⟩ := div_numerals hp.custom hm hd hb0 (a := c * r) (.inl hne0)
      have hdc : c * r / b < c := (Nat.div_lt_iff_lt_mul hb0).2 hcr
      have hdl : d.digits.length ≤ (numeral L .pos c).digits.length := by
        rcases d2.2.2 with h | h
        · refine length_le_of_natOf_le hB (digits_inRange hB c) h ?_
          show d.mag L ≤ (numeral L .pos c).mag L
          rw [d4, numeral_mag]; omega
        · rw [h]
          exact length_pos (Nat.digits_ne_nil_iff_ne_zero.2 (by omega))
      have hbl := length_pos (show (numeral L .pos b).digits ≠ [] from Nat.digits_ne_nil_iff_ne_zero.2 (by omega))
      have hrl := length_numeral_mono (L := L) hB (le_of_lt hr)
      have hdm := Nat.div_add_mod (c * r) b
      obtain ⟨ds, e1, e2, e3, e4, e5⟩ := expand_numerals M hp hm hd hc hK k (c * r % b) (Nat.mod_lt _ hb0) (fun i hi => by
        have := hne (i + 1) (by omega)
        rwa [pow_succ, Nat.mul_assoc, Nat.mul_mod, ← Nat.mod_mod (c * r), ← Nat.mul_mod] at this)
      have hdi : d.toInt L = (c * r / b : Nat) := by unfold Bignum.toInt; rw [d3, d4]; rfl
      refine ⟨d :: ds, fun n hn => ?_, by simpa using e2, ?_, ?_, ?_⟩
      · have hs := Nat.size_le_size (le_of_lt hcr)
        rw [expand, numeral_ne_default, ok_bind, if_pos (by simpa using h0), Nat.mul_comm c r] at *
        rw [mul_num M hp hm hr0 (by omega) (by omega), ok_bind, d1 n (by omega), ok_bind,
          mul_numeral M hp hm d2 (numeral_wf hB (.inl rfl) b) (by omega) (by omega) (by omega), ok_bind, numeral_mag, d4, d3]
        rw [show signRule .pos (numeral L .pos b).desc = .pos from rfl,
          sub_numerals hp.custom.supported hm hd (by omega) (Nat.div_mul_le_self _ _) (by omega), ok_bind]
        rw [show r * c - r * c / b * b = r * c % b by
          have := Nat.div_add_mod (r * c) b
          rw [Nat.mul_comm] at this
          omega]
        rw [e1 n hn, ok_bind]
      · intro x hx
        rcases List.mem_cons.1 hx with rfl | hx
        · exact ⟨d2, by rw [hdi]; omega, by rw [hdi]; exact_mod_cast hdc⟩
        · exact e3 x hx
      · rw [fraction, hdi, e4]
        have h1 : c ^ (k + 1) * r = (c ^ k * (c * r / b)) * b + c ^ k * (c * r % b) := by
          calc c ^ (k + 1) * r = c ^ k * (c * r) := by rw [pow_succ]; ring
            _ = c ^ k * (b * (c * r / b) + c * r % b) := by rw [hdm]
            _ = _ := by ring
        rw [h1, Nat.mul_comm (c ^ k * (c * r / b)) b, Nat.mul_add_div hb0]
        push_cast
        ring
      · intro hl
        rw [List.length_cons] at hl ⊢
        have := e5 (by omega)
        rw [pow_succ, Nat.mul_assoc, Nat.mul_mod, ← Nat.mod_mod (c * r), ← Nat.mul_mod]
        exact this

theorem pos_numeral (hB : 2 ≤ L.base) {a : Bignum} (ha : WF L a) (h0 : 0 < a.toInt L) :
    a = numeral L .pos (a.mag L) ∧ a.toInt L = a.mag L := by
  have h1 : a.mag L ≠ 0 := fun h => by rw [toInt_eq_zero.2 h] at h0; omega
  have := eq_numeral hB ha.2.1 (nlz_of_mag ha h1)
  rcases ha.1 with h | h
  · exact ⟨by rwa [h] at this, by unfold Bignum.toInt; rw [h]; rfl⟩
  · unfold Bignum.toInt at h0; rw [h, if_pos rfl] at h0; omega

/-- C147: the first k digits of a / b in base c: each below c, together the integer part of c^k a / b; the loop stops early only when
nothing is left. Missing: fractions for which c times a remainder equals b, see `C147_equal`. -/
theorem C147_expansion_partial {F : Type} {o : FloatOps F} (M : Ieee o) {K : Nat} (hp : Preset L K) (hm : env.Ample) (hd : env.debug = false)
    {a b c : Bignum} (ha : WF L a) (hb : WF L b) (hc : WF L c) (ha0 : 0 < a.toInt L) (hab : a.toInt L < b.toInt L) (hc2 : 2 ≤ c.toInt L)
    (hK : b.digits.length + c.digits.length ≤ K) (k : Nat) (hne : ∀ i, i < k → c.toInt L * (c.toInt L ^ i * a.toInt L % b.toInt L) ≠ b.toInt L) :
    ∃ ds : List Bignum, (∃ n₀, ∀ n, n₀ ≤ n → expand o L env n c b k a = .ok ds) ∧ ds.length ≤ k ∧
      (∀ d ∈ ds, WF L d ∧ 0 ≤ d.toInt L ∧ d.toInt L < c.toInt L) ∧
      fraction L (c.toInt L) k ds = c.toInt L ^ k * a.toInt L / b.toInt L ∧
      (ds.length < k → b.toInt L ∣ c.toInt L ^ ds.length * a.toInt L) := by
  have hB := hp.custom.supported.base_ge
  obtain ⟨ea, va⟩ := pos_numeral hB ha ha0
  obtain ⟨eb, vb⟩ := pos_numeral hB hb (by omega)
  obtain ⟨ec, vc⟩ := pos_numeral hB hc (by omega)
  rw [va, vb] at hab
  rw [va] at ha0
  rw [vc] at hc2
  simp only [va, vb, vc] at hne ⊢
  clear va vb vc
  generalize a.mag L = x at *
  generalize b.mag L = y at *
  generalize c.mag L = z at *
  subst ea eb ec
  obtain ⟨ds, e1, e2, e3, e4, e5⟩ := expand_numerals M hp hm hd (b := y) (c := z) (by omega) hK k x (by omega) (fun i hi => by
    have := hne i hi
    exact_mod_cast this)
  exact ⟨ds, ⟨_, e1⟩, e2, e3, by rw [e4]; push_cast; rfl, fun h => by exact_mod_cast Nat.dvd_of_mod_eq_zero (e5 h)⟩

example {F : Type} {o : FloatOps F} (M : Ieee o) := C147_expansion_partial M .base10 Sample.ample rfl (a := Sample.n2) (b := Sample.n23)
  (c := ⟨.pos, [3]⟩) (by sample) (by sample) (by sample) (by sample) (by sample) (by sample) (by sample) 2 (by sample)

/-- In particular whenever b is not a multiple of c. -/
theorem C147_not_multiple {F : Type} {o : FloatOps F} (M : Ieee o) {K : Nat} (hp : Preset L K) (hm : env.Ample) (hd : env.debug = false)
    {a b c : Bignum} (ha : WF L a) (hb : WF L b) (hc : WF L c) (ha0 : 0 < a.toInt L) (hab : a.toInt L < b.toInt L) (hc2 : 2 ≤ c.toInt L)
    (hK : b.digits.length + c.digits.length ≤ K) (k : Nat) (hne : ¬ c.toInt L ∣ b.toInt L) :
    ∃ ds : List Bignum, (∃ n₀, ∀ n, n₀ ≤ n → expand o L env n c b k a = .ok ds) ∧ ds.length ≤ k ∧
      (∀ d ∈ ds, WF L d ∧ 0 ≤ d.toInt L ∧ d.toInt L < c.toInt L) ∧
      fraction L (c.toInt L) k ds = c.toInt L ^ k * a.toInt L / b.toInt L ∧
      (ds.length < k → b.toInt L ∣ c.toInt L ^ ds.length * a.toInt L) :=
  C147_expansion_partial M hp hm hd ha hb hc ha0 hab hc2 hK k fun _ _ h => hne ⟨_, h.symm⟩

example {F : Type} {o : FloatOps F} (M : Ieee o) := C147_not_multiple M .base10 Sample.ample rfl (a := Sample.n2) (b := Sample.n23)
  (c := ⟨.pos, [3]⟩) (by sample) (by sample) (by sample) (by sample) (by sample) (by sample) (by sample) 20 (by
    show ¬ (3 : Int) ∣ 23; decide)

/-- If b is c times a, so that the fraction is 1/c, the first digit is 0 and the second is c instead of a single digit 1. -/
theorem C147_equal {F : Type} {o : FloatOps F} (M : Ieee o) {K : Nat} (hp : Preset L K) (hm : env.Ample) (hd : env.debug = false)
    {a b c : Bignum} (ha : WF L a) (hb : WF L b) (hc : WF L c) (ha0 : 0 < a.toInt L) (hc2 : 2 ≤ c.toInt L)
    (hK : b.digits.length + c.digits.length ≤ K) (he : b.toInt L = c.toInt L * a.toInt L) (k : Nat) :
    (∃ n₀, ∀ n, n₀ ≤ n → expand o L env n c b 1 a = .ok [⟨.pos, [0]⟩]) ∧
    (∃ n₀, ∀ n, n₀ ≤ n → expand o L env n c b (k + 2) a = .ok [⟨.pos, [0]⟩, c]) := by
  have hB := hp.custom.supported.base_ge
  have hb0 : 0 < b.toInt L := by rw [he]; positivity
  obtain ⟨ea, va⟩ := pos_numeral hB ha ha0
  obtain ⟨eb, vb⟩ := pos_numeral hB hb hb0
  obtain ⟨ec, vc⟩ := pos_numeral hB hc (by omega)
  rw [va] at ha0
  rw [vc] at hc2
  rw [va, vb, vc] at he
  clear hb0 va vb vc
  generalize a.mag L = x at *
  generalize b.mag L = y at *
  generalize c.mag L = z at *
  subst ea eb ec
  have hy : y = z * x := by exact_mod_cast he
  have hx0 : 0 < x := by omega
  have hz : 2 ≤ z := by omega
  have hxy : x ≤ y := by rw [hy]; exact Nat.le_mul_of_pos_left _ (by omega)
  have hy2 : 2 ≤ y := by rw [hy]; exact le_trans hz (Nat.le_mul_of_pos_right _ hx0)
  have hyz : y < z * y := by nlinarith
  have w0 : WF L (⟨.pos, [0]⟩ : Bignum) := ⟨.inl rfl, by intro d hd; rw [List.mem_singleton.1 hd]; omega, .inr rfl⟩
  have hlz := length_pos (show (numeral L .pos z).digits ≠ [] from Nat.digits_ne_nil_iff_ne_zero.2 (by omega))
  have hly := length_pos (show (numeral L .pos y).digits ≠ [] from Nat.digits_ne_nil_iff_ne_zero.2 (by omega))
  have hrl := length_numeral_mono (L := L) hB hxy
  have hs := Nat.size_le_size (le_of_lt hyz)
  have first : ∀ (j n : Nat), (z * y).size + 33 ≤ n → expand o L env n (numeral L .pos z) (numeral L .pos y) (j + 1) (numeral L .pos x) =
      expand o L env n (numeral L .pos z) (numeral L .pos y) j (numeral L .pos y) >>= fun ds => .ok (⟨.pos, [0]⟩ :: ds) := by
    intro j n hn
    rw [expand, numeral_ne_default, ok_bind, if_pos (by simp; omega), mul_num M hp hm hx0 (by omega) (by omega), ok_bind, Nat.mul_comm x z, ← hy,
      div_numeral_self hp.custom.supported hm hy2, ok_bind,
      mul_numeral M hp hm w0 (numeral_wf hB (.inl rfl) y) (by omega) (by show 1 + _ ≤ K; omega) (by omega), ok_bind]
    rw [show (⟨.pos, [0]⟩ : Bignum).mag L * (numeral L .pos y).mag L = 0 by
      show natOf L.base [0] * _ = 0
      simp, show signRule (⟨.pos, [0]⟩ : Bignum).desc (numeral L .pos y).desc = .pos from rfl,
      sub_numerals hp.custom.supported hm hd (by omega) (Nat.zero_le _) (by omega), ok_bind, Nat.sub_zero]
  refine ⟨⟨_, fun n hn => (first 0 n hn).trans rfl⟩, ⟨_, fun n hn => (first (k + 1) n hn).trans ?_⟩⟩
  rw [expand, numeral_ne_default, ok_bind, if_pos (by simp; omega), mul_num M hp hm (by omega) (by omega) (by omega), ok_bind, Nat.mul_comm y z,
    div_num hp.custom hm hd (by omega) hyz (by omega), ok_bind, Nat.mul_div_cancel _ (by omega), mul_num M hp hm (by omega) (by omega) (by omega),
    ok_bind, sub_numerals hp.custom.supported hm hd (by omega) (le_refl _) (by omega), ok_bind, Nat.sub_self]
  have : expand o L env n (numeral L .pos z) (numeral L .pos y) k (numeral L .pos 0) = .ok [] := by
    cases k with
    | zero => rfl
    | succ k => rw [expand, numeral_ne_default]; rfl
  rw [this]
  rfl

example {F : Type} {o : FloatOps F} (M : Ieee o) := C147_equal M .base10 Sample.ample rfl (a := Sample.n23) (b := ⟨.pos, [9, 6]⟩)
  (c := ⟨.pos, [3]⟩) (by sample) (by sample) (by sample) (by sample) (by sample) (by sample) (by sample) 20

/-- The claim fails for one tenth: its first decimal digit comes out as 0. -/
theorem C147_refuted {F : Type} {o : FloatOps F} (M : Ieee o) : ∃ a b c : Bignum, WF .base10 a ∧ WF .base10 b ∧ WF .base10 c ∧
    a.toInt .base10 = 1 ∧ b.toInt .base10 = 10 ∧ c.toInt .base10 = 10 ∧
    ∃ n₀, ∀ n, n₀ ≤ n → expand o .base10 releaseEnv n c b 1 a = .ok [⟨.pos, [0]⟩] :=
  ⟨⟨.pos, [1]⟩, ⟨.pos, [0, 1]⟩, ⟨.pos, [0, 1]⟩, by sample, by sample, by sample, by decide, by decide, by decide,
    (C147_equal M .base10 releaseEnv_ample rfl (by sample) (by sample) (by sample) (by decide) (by decide) (by decide) (by decide) 0).1⟩

end BN
