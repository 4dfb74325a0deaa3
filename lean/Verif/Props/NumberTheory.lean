import Verif.Props.Shift
import Mathlib.Data.Nat.Factorial.Basic
import Mathlib.Data.Nat.Prime.Basic
import Mathlib.Data.Nat.ModEq
/-
C94 – C96: factorial, trial division and modular exponentiation, written with the operators.
-/
namespace BN
open Bignum

/-! ### The operators on positive numerals -/

theorem pos_mul {F : Type} {o : FloatOps F} (M : Ieee o) {L : Limits} {K : Nat} (hp : Preset L K) {env : Env} (hm : env.Ample) {a b n : Nat}
    (h0 : a ≠ 0 ∨ b ≠ 0) (hK : (numeral L .pos a).digits.length + (numeral L .pos b).digits.length ≤ K) (hn : 32 < n) :
    (numeral L .pos a).mul o L env n (numeral L .pos b) = .ok (numeral L .pos (a * b)) := by
  have hB := hp.custom.supported.base_ge
  have h1 : 1 ≤ (numeral L .pos a).digits.length + (numeral L .pos b).digits.length := by
    rcases h0 with h | h
    · have := length_pos (mag_ne_nil (x := numeral L .pos a) (L := L) (by rw [numeral_mag]; exact h)); omega
    · have := length_pos (mag_ne_nil (x := numeral L .pos b) (L := L) (by rw [numeral_mag]; exact h)); omega
  rw [mul_numeral M hp hm (numeral_wf hB (.inl rfl) a) (numeral_wf hB (.inl rfl) b) h1 hK hn, numeral_mag, numeral_mag]
  rfl

theorem pos_rem {F : Type} {o : FloatOps F} (M : Ieee o) {L : Limits} {K : Nat} (hp : Preset L K) {env : Env} (hm : env.Ample)
    (hd : env.debug = false) {a b n : Nat} (ha : a ≠ 0) (hb : b ≠ 0) (hne : a ≠ b ∨ b = 1)
    (hK : (numeral L .pos a).digits.length + (numeral L .pos b).digits.length ≤ K) (hn : a.size + 33 ≤ n) :
    remainder o L env n (numeral L .pos a) (numeral L .pos b) = .ok (numeral L .pos (a % b)) := by
  have hB := hp.custom.supported.base_ge
  have := C73_remainder_partial M hp hm hd (a := numeral L .pos a) (b := numeral L .pos b) (numeral_wf hB (.inl rfl) a)
    (numeral_wf hB (.inl rfl) b) (mag_ne_nil (L := L) (by rw [numeral_mag]; exact ha)) (by rw [numeral_mag]; exact hb)
    (by rw [numeral_mag, numeral_mag]; exact hne) hK (n := n) (by rw [numeral_mag]; omega) (by omega)
  rw [this, numeral_mag, numeral_mag]
  rfl

theorem pos_le {L : Limits} (hB : 2 ≤ L.base) (a b : Nat) : (numeral L .pos a).le (numeral L .pos b) = .ok (decide (a ≤ b)) := by
  rw [(C03_ge_le_nonneg L (numeral L .pos a) (numeral L .pos b) ⟨digits_inRange hB _, digits_nlz _ _⟩
    ⟨digits_inRange hB _, digits_nlz _ _⟩ rfl rfl).2, toInt_of_pos rfl, toInt_of_pos rfl, numeral_mag, numeral_mag]
  simp

theorem pos_inc {L : Limits} (hL : Supported L) {env : Env} (hm : env.Ample) {a n : Nat} (hn : (numeral L .pos a).digits.length + 1 < n) :
    (numeral L .pos a).add L env n (numeral L .pos 1) = .ok (numeral L .pos (a + 1)) := by
  have hB := hL.base_ge
  have h1 : (numeral L .pos 1).digits.length ≤ 1 := length_numeral_le hB (by rw [pow_one]; omega)
  rw [add_step hL hm (numeral_wf hB (.inl rfl) 1) rfl (by rw [numeral_mag]; omega) a (by omega), numeral_mag]

theorem pos_len_mono {L : Limits} (hB : 2 ≤ L.base) {a b : Nat} (h : a ≤ b) :
    (numeral L .pos a).digits.length ≤ (numeral L .pos b).digits.length :=
  length_le_of_natOf_le hB (digits_inRange hB _) (digits_nlz _ _) (by
    show natOf L.base (Nat.digits L.base a) ≤ natOf L.base (Nat.digits L.base b)
    rw [natOf_digits, natOf_digits]; exact h)

theorem pos_len_size {L : Limits} (hB : 2 ≤ L.base) (a : Nat) : (numeral L .pos a).digits.length ≤ a.size + 1 := by
  have := size_bound hB (numeral_wf (L := L) hB (d := .pos) (.inl rfl) a)
  rwa [numeral_mag] at this

/-- A positive number in canonical form is a numeral. -/
theorem eq_pos {L : Limits} (hB : 2 ≤ L.base) {x : Bignum} (hx : WF L x) (h : 0 < x.toInt L) : x = numeral L .pos (x.toInt L).toNat := by
  have hd := desc_of_pos hx h
  have e := toInt_of_pos (L := L) hd
  have := eq_numeral hB hx.2.1 (nlz_of_mag hx (by omega))
  rw [hd] at this
  rw [e]
  exact this

/-! ### C94 -/

structure FacSt where
  i : Bignum
  r : Bignum

/-- `r = {1}; for (i = {1}; i <= m; i += one) r *= i; return r;` -/
def factorial {F : Type} (o : FloatOps F) (L : Limits) (env : Env) (n : Nat) (m one : Bignum) : Res Bignum := do
  let i ← one.copy env
  let r ← one.copy env
  let s ← loopWhile (fun s => s.i.le m) (fun s => do
    let r ← s.r.mul o L env n s.i
    let i ← s.i.add L env n one
    .ok ⟨i, r⟩) n (⟨i, r⟩ : FacSt)
  .ok s.r

theorem fac_loop {F : Type} {o : FloatOps F} (M : Ieee o) {L : Limits} {K : Nat} (hp : Preset L K) {env : Env} (hm : env.Ample) {m n : Nat}
    (hK : (numeral L .pos m.factorial).digits.length + (numeral L .pos m).digits.length ≤ K) (hn : m.size + 33 ≤ n) :
    ∀ (k i f : Nat), i + k = m → k + 1 < f →
    ∃ s : FacSt, loopWhile (fun s => s.i.le (numeral L .pos m)) (fun s => do
      let r ← s.r.mul o L env n s.i
      let i ← s.i.add L env n (numeral L .pos 1)
      .ok ⟨i, r⟩) f (⟨numeral L .pos (i + 1), numeral L .pos i.factorial⟩ : FacSt) = .ok s ∧ s.r = numeral L .pos m.factorial := by
  have hL := hp.custom.supported
  have hB := hL.base_ge
  intro k
  induction k with
  | zero =>
    intro i f hi hf
    obtain ⟨f, rfl⟩ : ∃ g, f = g + 1 := ⟨f - 1, by omega⟩
    refine ⟨⟨numeral L .pos (i + 1), numeral L .pos i.factorial⟩, ?_, ?_⟩
    · rw [loopWhile]
      simp only [pos_le hB]
      rw [ok_bind, if_neg (by simp; omega)]
    · show numeral L .pos i.factorial = _
      rw [show i = m by omega]
  | succ k ih =>
    intro i f hi hf
    obtain ⟨f, rfl⟩ : ∃ g, f = g + 1 := ⟨f - 1, by omega⟩
    obtain ⟨s, h1, h2⟩ := ih (i + 1) f (by omega) (by omega)
    refine ⟨s, ?_, h2⟩
    have l1 := pos_len_mono hB (Nat.factorial_le (show i ≤ m by omega))
    have l2 := pos_len_mono (L := L) hB (show i + 1 ≤ m by omega)
    have l3 := pos_len_size (L := L) hB m
    rw [loopWhile]
    simp only [pos_le hB]
    rw [ok_bind, if_pos (by simp; omega)]
    simp only [pos_mul M hp hm (a := i.factorial) (b := i + 1) (n := n) (.inr (by omega)) (by omega) (by omega), ok_bind,
      pos_inc hL hm (a := i + 1) (n := n) (by omega)]
    rw [show i.factorial * (i + 1) = (i + 1).factorial by rw [Nat.factorial_succ, Nat.mul_comm]]
    exact h1

/-- C94: the factorial program returns m!. -/
theorem C94_factorial {F : Type} {o : FloatOps F} (M : Ieee o) {L : Limits} {K : Nat} (hp : Preset L K) {env : Env} (hm : env.Ample)
    {m one : Bignum} (hmw : WF L m) (hm0 : 0 < m.toInt L) (ho : WF L one) (ho1 : one.toInt L = 1)
    (hK : (Nat.digits L.base (m.toInt L).toNat.factorial).length + m.digits.length ≤ K) :
    ∃ r, Evaluates (fun n => factorial o L env n m one) (.ok r) ∧ WF L r ∧ r.toInt L = (m.toInt L).toNat.factorial := by
  have hB := hp.custom.supported.base_ge
  have e1 : one = numeral L .pos 1 := by
    have := eq_pos hB ho (by omega)
    rw [ho1] at this; exact this
  have em := eq_pos hB hmw hm0
  generalize (m.toInt L).toNat = v at *
  subst em e1
  refine ⟨numeral L .pos v.factorial, ⟨v + v.size + 34, fun n hn => ?_⟩, numeral_wf hB (.inl rfl) _, by rw [toInt_of_pos rfl, numeral_mag]⟩
  show factorial o L env n _ _ = _
  unfold factorial
  rw [copy_ok hm, ok_bind, ok_bind]
  obtain ⟨s, h1, h2⟩ := fac_loop M hp hm hK (n := n) (by omega) v 0 n (by omega) (by omega)
  rw [show numeral L .pos (0 + 1) = numeral L .pos 1 from rfl, show Nat.factorial 0 = 1 from rfl] at h1
  rw [h1, ok_bind, h2]

/-- The hypotheses are met: 20! in base 10. -/
example {F : Type} {o : FloatOps F} (M : Ieee o) : ∃ r, Evaluates (fun n => factorial o .base10 releaseEnv n ⟨.pos, [0, 2]⟩ ⟨.pos, [1]⟩) (.ok r) ∧
    r.toInt .base10 = 2432902008176640000 := by
  obtain ⟨r, h1, -, h3⟩ := C94_factorial M .base10 releaseEnv_ample (m := ⟨.pos, [0, 2]⟩) (one := ⟨.pos, [1]⟩)
    (by simp [WF, Signed, WFDigits, InRange, NoLeadingZero, Limits.base, Limits.base10, Limits.custom]) (by decide)
    (by simp [WF, Signed, WFDigits, InRange, NoLeadingZero, Limits.base, Limits.base10, Limits.custom]) (by decide)
    (by
      have : ((⟨.pos, [0, 2]⟩ : Bignum).toInt .base10).toNat = 20 := by decide
      rw [this]
      have : (Nat.digits Limits.base10.base (Nat.factorial 20)).length ≤ 20 :=
        (Nat.digits_length_le_iff (by decide) _).2 (by decide)
      simp only [List.length_cons, List.length_nil]; omega)
  refine ⟨r, h1, ?_⟩
  rw [h3]
  have : ((⟨.pos, [0, 2]⟩ : Bignum).toInt .base10).toNat = 20 := by decide
  rw [this]; rfl

/-! ### C95 -/

/-- `for (d = {2}; d * d <= m; d += one) if (m % d == bignum()) return false; return true;`, with `m % d` written as `m - m / d * d` -/
def trialLoop {F : Type} (o : FloatOps F) (L : Limits) (env : Env) (n : Nat) (m one : Bignum) : Nat → Bignum → Res Bool
  | 0, _ => .error .timeout
  | k + 1, d => do
    let s ← d.mul o L env n d
    if ← s.le m then
      let r ← remainder o L env n m d
      if ← r.eq Bignum.default then .ok false
      else
        let d ← d.add L env n one
        trialLoop o L env n m one k d
    else .ok true

def isPrime {F : Type} (o : FloatOps F) (L : Limits) (env : Env) (n : Nat) (m one : Bignum) : Res Bool := do
  let two ← ofList env .pos [1]
  let two ← two.add L env n two
  trialLoop o L env n m one n two

theorem pos_eq_default {L : Limits} (m : Nat) : (numeral L .pos m).eq Bignum.default = .ok (decide (m = 0)) := by
  unfold Bignum.eq numeral Bignum.default
  rw [if_neg (by simp), absEq_eq]
  congr 1
  by_cases h : m = 0
  · subst h; simp
  · have := (Nat.digits_ne_nil_iff_ne_zero (b := L.base)).2 h
    simp [h, this]

theorem trial_loop {F : Type} {o : FloatOps F} (M : Ieee o) {L : Limits} {K : Nat} (hp : Preset L K) {env : Env} (hm : env.Ample)
    (hd : env.debug = false) {m n : Nat} (h2 : 2 ≤ m) (hK : 2 * (numeral L .pos m).digits.length ≤ K) (hn : m.size + 33 ≤ n) :
    ∀ (k d f : Nat), 2 ≤ d → d + k = m + 1 → k < f → (∀ j, 2 ≤ j → j < d → ¬ j ∣ m) →
    trialLoop o L env n (numeral L .pos m) (numeral L .pos 1) f (numeral L .pos d) = .ok (decide m.Prime) := by
  have hL := hp.custom.supported
  have hB := hL.base_ge
  intro k
  induction k with
  | zero => 
    intro d f hd2 hdk hf hno
    exact absurd (dvd_refl m) (hno m h2 (by omega))
  | succ k ih =>
    intro d f hd2 hdk hf hno
    obtain ⟨f, rfl⟩ : ∃ g, f = g + 1 := ⟨f - 1, by omega⟩
    have l2 := pos_len_mono (L := L) hB (show d ≤ m by omega)
    have l3 := pos_len_size (L := L) hB m
    rw [trialLoop, pos_mul M hp hm (.inl (by omega)) (by omega) (by omega), ok_bind, pos_le hB, ok_bind]
    by_cases hs : d * d ≤ m
    · have hdm : m ≠ d := by rintro rfl; nlinarith
      rw [if_pos (by simpa using hs), pos_rem M hp hm hd (by omega) (by omega) (.inl hdm) (by omega) hn, ok_bind, pos_eq_default, ok_bind]
      by_cases hr : m % d = 0
      · rw [if_pos (by simpa using hr)]
        have : ¬ m.Prime := fun hpr => by
          rcases (Nat.dvd_prime hpr).1 (Nat.dvd_of_mod_eq_zero hr) with h | h <;> omega
        simp [this]
      · rw [if_neg (by simpa using hr), pos_inc hL hm (by omega), ok_bind]
        refine ih (d + 1) f (by omega) (by omega) (by omega) fun j hj2 hj hdv => ?_
        rcases Nat.lt_or_ge j d with h | h
        · exact hno j hj2 h hdv
        · have : j = d := by omega
          subst this
          exact hr (Nat.mod_eq_zero_of_dvd hdv)
    · rw [if_neg (by simpa using hs)]
      have : m.Prime := by
        rw [Nat.prime_def_le_sqrt]
        refine ⟨h2, fun j hj2 hj => hno j hj2 ?_⟩
        by_contra hc
        have h1 : j * j ≤ m := Nat.le_sqrt.1 hj
        have : d * d ≤ j * j := Nat.mul_le_mul (by omega) (by omega)
        omega
      simp [this]

/-- C95: trial division decides primality of every m >= 2. -/
theorem C95_prime {F : Type} {o : FloatOps F} (M : Ieee o) {L : Limits} {K : Nat} (hp : Preset L K) {env : Env} (hm : env.Ample)
    (hd : env.debug = false) {m one : Bignum} (hmw : WF L m) (hm0 : 2 ≤ m.toInt L) (ho : WF L one) (ho1 : one.toInt L = 1)
    (hK : 2 * m.digits.length ≤ K) :
    Evaluates (fun n => isPrime o L env n m one) (.ok (decide (m.toInt L).toNat.Prime)) := by
  have hL := hp.custom.supported
  have hB := hL.base_ge
  have e1 : one = numeral L .pos 1 := by
    have := eq_pos hB ho (by omega)
    rw [ho1] at this; exact this
  have em := eq_pos hB hmw (by omega)
  have hv : 2 ≤ (m.toInt L).toNat := by omega
  generalize (m.toInt L).toNat = v at *
  subst em e1
  refine ⟨v + v.size + 34, fun n hn => ?_⟩
  show isPrime o L env n _ _ = _
  unfold isPrime
  rw [ofList_numeral hB hm .pos (by simp; omega), ok_bind]
  have l1 : (numeral L .pos 1).digits.length ≤ 1 := length_numeral_le hB (by rw [pow_one]; omega)
  have := pos_inc hL hm (a := 1) (n := n) (by omega)
  rw [show List.foldl (fun acc x => acc * L.base + x) 0 [1] = 1 by simp, this, ok_bind]
  exact trial_loop M hp hm hd hv hK (by omega) (v - 1) 2 n (by omega) (by omega) (by omega) (by omega)

/-! ### C96 -/

/-- `while (e) { if (e & 1) r = r * x % m; x = x * x % m; e >>= 1; } return r;`, `%` as above -/
def powModLoop {F : Type} (o : FloatOps F) (L : Limits) (env : Env) (n : Nat) (m : Bignum) : Nat → Bignum → Bignum → Nat → Res Bignum
  | 0, _, _, _ => .error .timeout
  | k + 1, r, x, e =>
    if e = 0 then .ok r
    else do
      let r ← if e % 2 = 1 then do
          let p ← r.mul o L env n x
          remainder o L env n p m
        else .ok r
      let s ← x.mul o L env n x
      let x ← remainder o L env n s m
      powModLoop o L env n m k r x (e / 2)

/-- `bignum r{BN_POS, {1}}; x = x % m;` and the loop -/
def powMod {F : Type} (o : FloatOps F) (L : Limits) (env : Env) (n : Nat) (x : Bignum) (e : Nat) (m : Bignum) : Res Bignum := do
  let r ← ofList env .pos [1]
  let x ← remainder o L env n x m
  powModLoop o L env n m n r x e

/-- The remainder program on numbers above zero, equal operands included. -/
theorem pos_rem_all {F : Type} {o : FloatOps F} (M : Ieee o) {L : Limits} {K : Nat} (hp : Preset L K) {env : Env} (hm : env.Ample)
    (hd : env.debug = false) {a b n : Nat} (ha : a ≠ 0) (hb : 2 ≤ b)
    (hK : (numeral L .pos a).digits.length + (numeral L .pos b).digits.length ≤ K) (hn : a.size + 33 ≤ n) :
    remainder o L env n (numeral L .pos a) (numeral L .pos b) = .ok (numeral L .pos (if a = b then b else a % b)) := by
  have hB := hp.custom.supported.base_ge
  split
  · subst a
    have hw := numeral_wf (L := L) hB (d := .pos) (.inl rfl) b
    have l0 := length_pos (mag_ne_nil (x := numeral L .pos b) (L := L) (by rw [numeral_mag]; omega))
    have l1 := pos_len_size (L := L) hB b
    have := C73_equal M hp hm hd hw hw rfl (by rw [numeral_mag]; exact hb) (by omega) (n := n) (by omega) (by omega)
    rw [this, numeral_mag]; rfl
  · exact pos_rem M hp hm hd ha (by omega) (.inl ‹_›) hK hn

/-- C73, zero without digits: a - (a / b) * b subtracts two zeros without digits, which reads past the end of an empty vector. -/
theorem C73_empty_ub {F : Type} {o : FloatOps F} (M : Ieee o) {L : Limits} {K : Nat} (hp : Preset L K) {env : Env} (hm : env.Ample)
    (hd : env.debug = false) {d : Desc} (hs : Signed d) {b : Bignum} (hb : WF L b) (hb0 : b.mag L ≠ 0) (hK : b.digits.length ≤ K) {n : Nat}
    (hn : 32 < n) : remainder o L env n ⟨d, []⟩ b = .error (.ub .outOfBounds) := by
  have hB := hp.custom.supported.base_ge
  have hb1 : b.digits ≠ [0] := fun h => hb0 (by rw [Bignum.mag, h]; simp)
  have hbl := length_pos (mag_ne_nil hb0)
  have hdv : (⟨d, []⟩ : Bignum).div L env n b = .ok ⟨signRule d b.desc, []⟩ := by
    unfold Bignum.div viaCopy
    rw [copy_ok hm, ok_bind, divAssign_of_zero (r := .other b) hs hb1 (.inl rfl)]
    show Except.ok (⟨mulSign d b.desc, []⟩ : Bignum) = _
    rw [mulSign_signed hs hb.1]
  have hq : WF L ⟨signRule d b.desc, []⟩ := ⟨signed_signRule _ _, by simp [WFDigits, InRange, NoLeadingZero]⟩
  unfold remainder
  rw [hdv, ok_bind, mul_numeral M hp hm hq hb (by simp; omega) (by simpa using hK) hn, ok_bind]
  have e0 : numeral L (signRule (⟨signRule d b.desc, []⟩ : Bignum).desc b.desc) ((⟨signRule d b.desc, []⟩ : Bignum).mag L * b.mag L) =
      ⟨d, []⟩ := by
    rw [mag_of_nil rfl, Nat.zero_mul]
    show (⟨signRule (signRule d b.desc) b.desc, Nat.digits L.base 0⟩ : Bignum) = _
    rw [signRule_cancel hs hb.1, Nat.digits_zero]
  rw [e0]
  unfold Bignum.sub viaCopy
  rw [copy_ok hm, ok_bind]
  obtain ⟨f, rfl⟩ : ∃ f, n = f + 1 := ⟨n - 1, by omega⟩
  have : subTry L env (f + 1) ⟨d, []⟩ (.other ⟨d, []⟩) = .error (.ub .outOfBounds) := by
    rw [subTry_same hs rfl]
    unfold magDiff
    rw [show absGe (⟨d, []⟩ : Bignum).digits (Rhs.get (.other ⟨d, []⟩) ⟨d, []⟩).digits = .ok true from rfl, ok_bind, if_pos rfl]
    unfold absSub
    rw [release_check hd, ok_bind, loopForever]
    rfl
  have : subAssign L env (f + 1) ⟨d, []⟩ (.other ⟨d, []⟩) = .ub .outOfBounds := by
    rw [subAssign_signed hs, this]; rfl
  rw [this]

/-- The hypotheses are met: 0 - (0 / 25) * 25 in base 10. -/
example {F : Type} {o : FloatOps F} (M : Ieee o) :
    remainder o .base10 releaseEnv 33 Bignum.default ⟨.pos, [5, 2]⟩ = .error (.ub .outOfBounds) :=
  C73_empty_ub M .base10 releaseEnv_ample rfl (.inl rfl)
    (by simp [WF, Signed, WFDigits, InRange, NoLeadingZero, Limits.base, Limits.base10, Limits.custom]) (by decide) (by simp) (by omega)

theorem zero_rem {F : Type} {o : FloatOps F} (M : Ieee o) {L : Limits} {K : Nat} (hp : Preset L K) {env : Env} (hm : env.Ample)
    (hd : env.debug = false) {b n : Nat} (hb : b ≠ 0) (hK : (numeral L .pos b).digits.length ≤ K) (hn : 32 < n) :
    remainder o L env n (numeral L .pos 0) (numeral L .pos b) = .error (.ub .outOfBounds) := by
  have e0 : numeral L .pos 0 = ⟨.pos, []⟩ := by simp [numeral]
  rw [e0]
  exact C73_empty_ub M hp hm hd (.inl rfl) (numeral_wf hp.custom.supported.base_ge (.inl rfl) b) (by rw [numeral_mag]; exact hb) hK hn

/-- Specification of the loop on numbers: what `% m` leaves of a product above zero. -/
def leaves (m p : Nat) : Nat := if p = m then m else p % m

/-- Specification of the loop on numbers: the outcome for the values r, x, e of the variables. -/
def powOut (m : Nat) : Nat → Nat → Nat → Nat → Res Nat
  | 0, r, _, _ => .ok r
  | k + 1, r, x, e =>
    if e = 0 then .ok r
    else if x = 0 then
      if e % 2 = 1 ∧ r ≠ 0 then .error (.ub .outOfBounds) else .error .timeout
    else if e % 2 = 1 then
      if r = 0 then .error (.ub .outOfBounds) else powOut m k (leaves m (r * x)) (leaves m (x * x)) (e / 2)
    else powOut m k r (leaves m (x * x)) (e / 2)

theorem zero_sq {F : Type} (o : FloatOps F) (L : Limits) {env : Env} (hm : env.Ample) (n : Nat) :
    (numeral L .pos 0).mul o L env n (numeral L .pos 0) = .error .timeout := by
  have e0 : numeral L .pos 0 = ⟨.pos, []⟩ := by simp [numeral]
  have h : mulAssign o L env n ⟨.pos, []⟩ (.other ⟨.pos, []⟩) = .timeout := C26_zero_times_zero_diverges o L hm (.inl rfl) n
  unfold Bignum.mul viaCopy
  rw [copy_ok hm, ok_bind, e0, h]

theorem leaves_le {m p : Nat} (h : 2 ≤ m) : leaves m p ≤ m := by
  unfold leaves
  split
  · exact le_rfl
  · exact (Nat.mod_lt _ (by omega)).le

theorem leaves_modEq (m p : Nat) : leaves m p ≡ p [MOD m] := by
  unfold leaves
  split
  · subst p; rfl
  · exact Nat.mod_modEq _ _

theorem powMod_loop {F : Type} {o : FloatOps F} (M : Ieee o) {L : Limits} {K : Nat} (hp : Preset L K) {env : Env} (hm : env.Ample)
    (hd : env.debug = false) {m n : Nat} (h2 : 2 ≤ m) (hK : 3 * (numeral L .pos m).digits.length ≤ K) (hn : 2 * m.size + 33 ≤ n) :
    ∀ (k r x e f : Nat), e < 2 ^ k → k < f → r ≤ m → x ≤ m →
    powModLoop o L env n (numeral L .pos m) f (numeral L .pos r) (numeral L .pos x) e = (powOut m k r x e).map (numeral L .pos) := by
  have hL := hp.custom.supported
  have hB := hL.base_ge
  have mul : ∀ {a b : Nat}, a ≤ m → b ≤ m → a ≠ 0 ∨ b ≠ 0 →
      (numeral L .pos a).mul o L env n (numeral L .pos b) = .ok (numeral L .pos (a * b)) := by
    intro a b ha hb h0
    have l1 := pos_len_mono (L := L) hB ha
    have l2 := pos_len_mono (L := L) hB hb
    exact pos_mul M hp hm h0 (by omega) (by omega)
  have rem : ∀ {a b : Nat}, a ≤ m → b ≤ m → a ≠ 0 → b ≠ 0 →
      remainder o L env n (numeral L .pos (a * b)) (numeral L .pos m) = .ok (numeral L .pos (leaves m (a * b))) := by
    intro a b ha hb ha0 hb0
    have l1 := pos_len_mono (L := L) hB ha
    have l2 := pos_len_mono (L := L) hB hb
    have hw := fun y => numeral_wf (L := L) hB (d := .pos) (.inl rfl) y
    have l3 : (numeral L .pos (a * b)).digits.length ≤ (numeral L .pos a).digits.length + (numeral L .pos b).digits.length := by
      have := length_prod hB (hw a) (hw b) .pos
      rwa [numeral_mag, numeral_mag] at this
    have hsz : (a * b).size ≤ 2 * m.size := by
      rw [Nat.size_le, two_mul, pow_add]
      exact Nat.mul_lt_mul'' (ha.trans_lt (Nat.lt_size_self m)) (hb.trans_lt (Nat.lt_size_self m))
    exact pos_rem_all M hp hm hd (Nat.mul_ne_zero ha0 hb0) h2 (by omega) (by omega)
  have zrem : remainder o L env n (numeral L .pos 0) (numeral L .pos m) = .error (.ub .outOfBounds) :=
    zero_rem M hp hm hd (by omega) (by omega) (by omega)
  intro k
  induction k with
  | zero =>
    intro r x e f he hf hr hx
    obtain ⟨f, rfl⟩ : ∃ g, f = g + 1 := ⟨f - 1, by omega⟩
    have : e = 0 := by simpa using he
    subst this
    rw [powModLoop, if_pos rfl]; rfl
  | succ k ih =>
    intro r x e f he hf hr hx
    obtain ⟨f, rfl⟩ : ∃ g, f = g + 1 := ⟨f - 1, by omega⟩
    rw [powModLoop, powOut]
    by_cases h0 : e = 0
    · rw [if_pos h0, if_pos h0]; rfl
    · have hke : e / 2 < 2 ^ k := by rw [pow_succ] at he; omega
      rw [if_neg h0, if_neg h0]
      by_cases hx0 : x = 0
      · subst hx0
        rw [if_pos rfl]
        by_cases hodd : e % 2 = 1
        · rw [if_pos hodd]
          by_cases hr0 : r = 0
          · subst hr0
            rw [if_neg (by omega), zero_sq o L hm]; rfl
          · rw [if_pos ⟨hodd, hr0⟩, mul hr hx (.inl hr0), ok_bind, Nat.mul_zero, zrem]; rfl
        · rw [if_neg hodd, if_neg (by omega), ok_bind]
          simp only [zero_sq o L hm]; rfl
      · rw [if_neg hx0]
        by_cases hodd : e % 2 = 1
        · rw [if_pos hodd, if_pos hodd, mul hr hx (.inr hx0), ok_bind]
          by_cases hr0 : r = 0
          · subst hr0
            rw [if_pos rfl, Nat.zero_mul, zrem]; rfl
          · rw [if_neg hr0, rem hr hx hr0 hx0, ok_bind]
            simp only [mul hx hx (.inr hx0), ok_bind, rem hx hx hx0 hx0]
            exact ih _ _ _ _ hke (by omega) (leaves_le h2) (leaves_le h2)
        · rw [if_neg hodd, if_neg hodd, ok_bind]
          simp only [mul hx hx (.inr hx0), ok_bind, rem hx hx hx0 hx0]
          exact ih _ _ _ _ hke (by omega) hr (leaves_le h2)

theorem leaves_step (m r x e : Nat) (h : e % 2 = 1) : leaves m (r * x) * leaves m (x * x) ^ (e / 2) ≡ r * x ^ e [MOD m] := by
  have he : e = 2 * (e / 2) + 1 := by omega
  have e1 : r * x ^ e = r * x * (x * x) ^ (e / 2) := by
    conv_lhs => rw [he, pow_succ, pow_mul, pow_two]
    ring
  rw [e1]
  exact (leaves_modEq m _).mul ((leaves_modEq m _).pow _)

theorem leaves_step' (m r x e : Nat) (h : e % 2 ≠ 1) : r * leaves m (x * x) ^ (e / 2) ≡ r * x ^ e [MOD m] := by
  have he : e = 2 * (e / 2) := by omega
  have e1 : r * x ^ e = r * (x * x) ^ (e / 2) := by
    conv_lhs => rw [he, pow_mul, pow_two]
  rw [e1]
  exact (Nat.ModEq.refl r).mul ((leaves_modEq m _).pow _)

/-- A result is congruent to the power and at most the modulus. -/
theorem powOut_ok {m : Nat} (h2 : 2 ≤ m) : ∀ (k r x e v : Nat), e < 2 ^ k → r ≤ m → powOut m k r x e = .ok v → v ≤ m ∧ v ≡ r * x ^ e [MOD m] := by
  intro k
  induction k with
  | zero =>
    intro r x e v he hr h
    have : e = 0 := by simpa using he
    subst this
    cases h
    exact ⟨hr, by rw [pow_zero, Nat.mul_one]⟩
  | succ k ih =>
    intro r x e v he hr h
    have hke : e / 2 < 2 ^ k := by rw [pow_succ] at he; omega
    rw [powOut] at h
    split at h
    · subst e; cases h
      exact ⟨hr, by rw [pow_zero, Nat.mul_one]⟩
    · split at h
      · split at h <;> cases h
      · split at h
        · split at h
          · cases h
          · obtain ⟨h1, h3⟩ := ih _ _ _ _ hke (leaves_le h2) h
            exact ⟨h1, h3.trans (leaves_step m r x e ‹_›)⟩
        · obtain ⟨h1, h3⟩ := ih _ _ _ _ hke hr h
          exact ⟨h1, h3.trans (leaves_step' m r x e ‹_›)⟩

/-- If the modulus does not divide the power, there is a result. -/
theorem powOut_total (m : Nat) : ∀ (k r x e : Nat), e < 2 ^ k → ¬ m ∣ r * x ^ e → ∃ v, powOut m k r x e = .ok v := by
  intro k
  induction k with
  | zero => exact fun r x e _ _ => ⟨r, rfl⟩
  | succ k ih =>
    intro r x e he hdv
    have hke : e / 2 < 2 ^ k := by rw [pow_succ] at he; omega
    rw [powOut]
    by_cases h0 : e = 0
    · exact ⟨r, if_pos h0⟩
    · have hr0 : r ≠ 0 := by rintro rfl; simp at hdv
      have hx0 : x ≠ 0 := by rintro rfl; simp [h0] at hdv
      rw [if_neg h0, if_neg hx0]
      by_cases hodd : e % 2 = 1
      · rw [if_pos hodd, if_neg hr0]
        exact ih _ _ _ hke (fun h => hdv ((leaves_step m r x e hodd).dvd_iff dvd_rfl |>.1 h))
      · rw [if_neg hodd]
        exact ih _ _ _ hke (fun h => hdv ((leaves_step' m r x e hodd).dvd_iff dvd_rfl |>.1 h))

theorem powOut_cases (m : Nat) : ∀ (k r x e : Nat), (∃ v, powOut m k r x e = .ok v) ∨ powOut m k r x e = .error (.ub .outOfBounds) ∨
    powOut m k r x e = .error .timeout := by
  intro k
  induction k with
  | zero => exact fun r x e => .inl ⟨r, rfl⟩
  | succ k ih =>
    intro r x e
    rw [powOut]
    split_ifs
    · exact .inl ⟨_, rfl⟩
    · exact .inr (.inl rfl)
    · exact .inr (.inr rfl)
    · exact .inr (.inl rfl)
    · exact ih _ _ _
    · exact ih _ _ _

/-- The program in terms of the specification on numbers. -/
theorem powMod_eval {F : Type} {o : FloatOps F} (M : Ieee o) {L : Limits} {K : Nat} (hp : Preset L K) {env : Env} (hm : env.Ample)
    (hd : env.debug = false) {u v : Nat} (e : Nat) (hu : u ≠ 0) (hv : 2 ≤ v) (hK : 3 * (numeral L .pos v).digits.length ≤ K)
    (hK' : (numeral L .pos u).digits.length + (numeral L .pos v).digits.length ≤ K) {n : Nat} (hn : e + u.size + 2 * v.size + 34 ≤ n) :
    powMod o L env n (numeral L .pos u) e (numeral L .pos v) = (powOut v e 1 (leaves v u) e).map (numeral L .pos) := by
  have hB := hp.custom.supported.base_ge
  unfold powMod
  rw [ofList_numeral hB hm .pos (by simp; omega), ok_bind, show List.foldl (fun acc x => acc * L.base + x) 0 [1] = 1 by simp,
    pos_rem_all M hp hm hd hu hv hK' (by omega), ok_bind]
  exact powMod_loop M hp hm hd hv hK (n := n) (by omega) e 1 _ e n Nat.lt_two_pow_self (by omega) (by omega) (leaves_le hv)

/-- C96: the program returns x^e mod m whenever m does not divide x^e.  Missing: powers divisible by the modulus, see
`C96_divisible`. -/
theorem C96_powMod_partial {F : Type} {o : FloatOps F} (M : Ieee o) {L : Limits} {K : Nat} (hp : Preset L K) {env : Env} (hm : env.Ample)
    (hd : env.debug = false) {x m : Bignum} (e : Nat) (hx : WF L x) (hx0 : 0 < x.toInt L) (hmw : WF L m) (hm0 : 2 ≤ m.toInt L)
    (hc : ¬ m.toInt L ∣ x.toInt L ^ e) (hK : 3 * m.digits.length ≤ K) (hK' : x.digits.length + m.digits.length ≤ K) :
    ∃ r, Evaluates (fun n => powMod o L env n x e m) (.ok r) ∧ WF L r ∧ r.toInt L = x.toInt L ^ e % m.toInt L := by
  have hL := hp.custom.supported
  have hB := hL.base_ge
  have ex := eq_pos hB hx hx0
  have em := eq_pos hB hmw (by omega)
  have hv : 2 ≤ (m.toInt L).toNat := by omega
  have hu : 1 ≤ (x.toInt L).toNat := by omega
  have c1 : x.toInt L = (x.toInt L).toNat := by omega
  have c2 : m.toInt L = (m.toInt L).toNat := by omega
  rw [c1, c2] at hc ⊢
  generalize (m.toInt L).toNat = v at *
  generalize (x.toInt L).toNat = u at *
  subst ex em
  norm_cast at hc
  have hmod : 1 * leaves v u ^ e ≡ u ^ e [MOD v] := by rw [Nat.one_mul]; exact (leaves_modEq v u).pow e
  obtain ⟨w, hw⟩ := powOut_total v e 1 (leaves v u) e Nat.lt_two_pow_self (fun h => hc ((hmod.dvd_iff dvd_rfl).1 h))
  obtain ⟨w1, w2⟩ := powOut_ok hv _ _ _ _ _ Nat.lt_two_pow_self (by omega) hw
  have w3 : w ≡ u ^ e [MOD v] := w2.trans hmod
  have w4 : w ≠ v := by rintro rfl; exact hc ((w3.dvd_iff dvd_rfl).1 dvd_rfl)
  have w5 : w = u ^ e % v := by rw [← (show w % v = u ^ e % v from w3), Nat.mod_eq_of_lt (by omega)]
  refine ⟨numeral L .pos w, ⟨e + u.size + 2 * v.size + 34, fun n hn => ?_⟩, numeral_wf hB (.inl rfl) _, by
    rw [toInt_of_pos rfl, numeral_mag, w5]; push_cast; rfl⟩
  show powMod o L env n _ _ _ = _
  rw [powMod_eval M hp hm hd e (by omega) hv hK hK' hn, hw]; rfl

/-- C96, powers divisible by the modulus: the program returns 0 or the modulus, reads out of bounds, or never returns. -/
theorem C96_divisible {F : Type} {o : FloatOps F} (M : Ieee o) {L : Limits} {K : Nat} (hp : Preset L K) {env : Env} (hm : env.Ample)
    (hd : env.debug = false) {x m : Bignum} (e : Nat) (hx : WF L x) (hx0 : 0 < x.toInt L) (hmw : WF L m) (hm0 : 2 ≤ m.toInt L)
    (hc : m.toInt L ∣ x.toInt L ^ e) (hK : 3 * m.digits.length ≤ K) (hK' : x.digits.length + m.digits.length ≤ K) :
    (∃ r, Evaluates (fun n => powMod o L env n x e m) (.ok r) ∧ WF L r ∧ (r.toInt L = 0 ∨ r.toInt L = m.toInt L)) ∨
    Evaluates (fun n => powMod o L env n x e m) (.error (.ub .outOfBounds)) ∨
    Evaluates (fun n => powMod o L env n x e m) (.error .timeout) := by
  have hL := hp.custom.supported
  have hB := hL.base_ge
  have ex := eq_pos hB hx hx0
  have em := eq_pos hB hmw (by omega)
  have hv : 2 ≤ (m.toInt L).toNat := by omega
  have hu : 1 ≤ (x.toInt L).toNat := by omega
  have c1 : x.toInt L = (x.toInt L).toNat := by omega
  have c2 : m.toInt L = (m.toInt L).toNat := by omega
  rw [c1, c2] at hc
  rw [c2]
  generalize (m.toInt L).toNat = v at *
  generalize (x.toInt L).toNat = u at *
  subst ex em
  norm_cast at hc
  have ev : Evaluates (fun n => powMod o L env n (numeral L .pos u) e (numeral L .pos v)) ((powOut v e 1 (leaves v u) e).map (numeral L .pos)) :=
    ⟨e + u.size + 2 * v.size + 34, fun n hn => powMod_eval M hp hm hd e (by omega) hv hK hK' hn⟩
  rcases powOut_cases v e 1 (leaves v u) e with ⟨w, hw⟩ | hw | hw <;> rw [hw] at ev
  · obtain ⟨w1, w2⟩ := powOut_ok hv _ _ _ _ _ Nat.lt_two_pow_self (by omega) hw
    have hmod : 1 * leaves v u ^ e ≡ u ^ e [MOD v] := by rw [Nat.one_mul]; exact (leaves_modEq v u).pow e
    have w4 : v ∣ w := ((w2.trans hmod).dvd_iff dvd_rfl).2 hc
    refine .inl ⟨_, ev, numeral_wf hB (.inl rfl) _, ?_⟩
    rw [toInt_of_pos rfl, numeral_mag]
    rcases Nat.eq_zero_or_pos w with h | h
    · exact .inl (by rw [h]; rfl)
    · exact .inr (by rw [le_antisymm w1 (Nat.le_of_dvd h w4)])
  · exact .inr (.inl ev)
  · exact .inr (.inr ev)

/-- C96, multiples of the modulus: an odd exponent reads out of bounds, an even one never returns. -/
theorem C96_multiple {F : Type} {o : FloatOps F} (M : Ieee o) {L : Limits} {K : Nat} (hp : Preset L K) {env : Env} (hm : env.Ample)
    (hd : env.debug = false) {x m : Bignum} (e : Nat) (he : e ≠ 0) (hx : WF L x) (hx0 : 0 < x.toInt L) (hmw : WF L m) (hm0 : 2 ≤ m.toInt L)
    (hc : m.toInt L ∣ x.toInt L) (hne : x.toInt L ≠ m.toInt L) (hK : 3 * m.digits.length ≤ K) (hK' : x.digits.length + m.digits.length ≤ K) :
    Evaluates (fun n => powMod o L env n x e m) (if e % 2 = 1 then .error (.ub .outOfBounds) else .error .timeout) := by
  have hL := hp.custom.supported
  have hB := hL.base_ge
  have ex := eq_pos hB hx hx0
  have em := eq_pos hB hmw (by omega)
  have hv : 2 ≤ (m.toInt L).toNat := by omega
  have hu : 1 ≤ (x.toInt L).toNat := by omega
  have c1 : x.toInt L = (x.toInt L).toNat := by omega
  have c2 : m.toInt L = (m.toInt L).toNat := by omega
  rw [c1, c2] at hc hne
  generalize (m.toInt L).toNat = v at *
  generalize (x.toInt L).toNat = u at *
  subst ex em
  norm_cast at hc hne
  refine ⟨e + u.size + 2 * v.size + 34, fun n hn => (powMod_eval M hp hm hd e (by omega) hv hK hK' hn).trans ?_⟩
  obtain ⟨k, rfl⟩ : ∃ k, e = k + 1 := ⟨e - 1, by omega⟩
  have h0 : leaves v u = 0 := by rw [leaves, if_neg hne, Nat.mod_eq_zero_of_dvd hc]
  rw [powOut, if_neg he, h0, if_pos rfl]
  by_cases ho : (k + 1) % 2 = 1
  · rw [if_pos ⟨ho, by omega⟩, if_pos ho]; rfl
  · rw [if_neg (fun h => ho h.1), if_neg ho]; rfl

/-- The hypotheses are met: 6^3 modulo 8 in base 10. -/
example {F : Type} {o : FloatOps F} (M : Ieee o) :
    (∃ r, Evaluates (fun n => powMod o .base10 releaseEnv n ⟨.pos, [6]⟩ 3 ⟨.pos, [8]⟩) (.ok r) ∧ WF .base10 r ∧
      (r.toInt .base10 = 0 ∨ r.toInt .base10 = (⟨.pos, [8]⟩ : Bignum).toInt .base10)) ∨
    Evaluates (fun n => powMod o .base10 releaseEnv n ⟨.pos, [6]⟩ 3 ⟨.pos, [8]⟩) (.error (.ub .outOfBounds)) ∨
    Evaluates (fun n => powMod o .base10 releaseEnv n ⟨.pos, [6]⟩ 3 ⟨.pos, [8]⟩) (.error .timeout) :=
  C96_divisible M .base10 releaseEnv_ample rfl 3
    (by simp [WF, Signed, WFDigits, InRange, NoLeadingZero, Limits.base, Limits.base10, Limits.custom]) (by decide)
    (by simp [WF, Signed, WFDigits, InRange, NoLeadingZero, Limits.base, Limits.base10, Limits.custom]) (by decide) (by decide) (by simp) (by simp)

/-- The hypotheses are met: 12 to the powers 3 and 4 modulo 4 in base 10. -/
example {F : Type} {o : FloatOps F} (M : Ieee o) :
    Evaluates (fun n => powMod o .base10 releaseEnv n ⟨.pos, [2, 1]⟩ 3 ⟨.pos, [4]⟩) (.error (.ub .outOfBounds)) ∧
    Evaluates (fun n => powMod o .base10 releaseEnv n ⟨.pos, [2, 1]⟩ 4 ⟨.pos, [4]⟩) (.error .timeout) := by
  have h := fun e he => C96_multiple M .base10 releaseEnv_ample rfl (x := ⟨.pos, [2, 1]⟩) (m := ⟨.pos, [4]⟩) e he
    (by simp [WF, Signed, WFDigits, InRange, NoLeadingZero, Limits.base, Limits.base10, Limits.custom]) (by decide)
    (by simp [WF, Signed, WFDigits, InRange, NoLeadingZero, Limits.base, Limits.base10, Limits.custom]) (by decide) (by decide) (by decide)
    (by simp) (by simp)
  exact ⟨h 3 (by omega), h 4 (by omega)⟩

/-- 2^3 mod 8 is returned as 8. -/
theorem C96_refuted {F : Type} {o : FloatOps F} (M : Ieee o) : ∃ x m r : Bignum, WF .base10 x ∧ x.toInt .base10 = 2 ∧ WF .base10 m ∧
    m.toInt .base10 = 8 ∧ Evaluates (fun n => powMod o .base10 releaseEnv n x 3 m) (.ok r) ∧ r.toInt .base10 = 8 := by
  have len : ∀ a < 100, (numeral .base10 .pos a).digits.length ≤ 2 := fun a h =>
    length_numeral_le (by decide) (show a < 10 ^ 2 by omega)
  have len1 : ∀ a < 10, (numeral .base10 .pos a).digits.length ≤ 1 := fun a h =>
    length_numeral_le (by decide) (show a < 10 ^ 1 by omega)
  have hw := fun a => numeral_wf (L := .base10) (by decide) (d := .pos) (.inl rfl) a
  refine ⟨numeral .base10 .pos 2, numeral .base10 .pos 8, numeral .base10 .pos 8, hw 2, by rw [toInt_of_pos rfl, numeral_mag]; rfl, hw 8,
    by rw [toInt_of_pos rfl, numeral_mag]; rfl, ⟨43, fun n hn => ?_⟩, by rw [toInt_of_pos rfl, numeral_mag]; rfl⟩
  have mul : ∀ a b, 0 < a → a < 10 → b < 10 → (numeral .base10 .pos a).mul o .base10 releaseEnv n (numeral .base10 .pos b) =
      .ok (numeral .base10 .pos (a * b)) := fun a b h0 ha hb =>
    pos_mul M .base10 releaseEnv_ample (.inl (by omega)) (by have := len1 a ha; have := len1 b hb; omega) (by omega)
  have rem : ∀ a, 0 < a → a < 100 → a ≠ 8 → remainder o .base10 releaseEnv n (numeral .base10 .pos a) (numeral .base10 .pos 8) =
      .ok (numeral .base10 .pos (a % 8)) := fun a h0 ha h8 =>
    pos_rem M .base10 releaseEnv_ample rfl (by omega) (by omega) (.inl h8) (by have := len a ha; have := len1 8 (by omega); omega)
      (by have : a.size ≤ 7 := by rw [Nat.size_le]; omega
          omega)
  have rem8 : remainder o .base10 releaseEnv n (numeral .base10 .pos 8) (numeral .base10 .pos 8) = .ok (numeral .base10 .pos 8) := by
    have := C73_equal M .base10 releaseEnv_ample rfl (hw 8) (hw 8) rfl (by rw [numeral_mag]; omega)
      (by have := len1 8 (by omega); omega) (n := n) (by have := len1 8 (by omega); omega) (by omega)
    rw [this, numeral_mag]; rfl
  obtain ⟨j, rfl⟩ : ∃ j, n = j + 10 := ⟨n - 10, by omega⟩
  show powMod o .base10 releaseEnv (j + 10) _ _ _ = _
  unfold powMod
  rw [ofList_numeral (L := .base10) (by decide) releaseEnv_ample .pos (by simp [Limits.base, Limits.base10, Limits.custom]), ok_bind,
    show List.foldl (fun acc x => acc * Limits.base10.base + x) 0 [1] = 1 by simp, rem 2 (by omega) (by omega) (by omega), ok_bind]
  rw [powModLoop, if_neg (by omega), if_pos (by omega), mul 1 _ (by omega) (by omega) (by omega), ok_bind,
    rem _ (by omega) (by omega) (by omega), ok_bind]
  simp only [mul 2 2 (by omega) (by omega) (by omega), ok_bind, rem 4 (by omega) (by omega) (by omega), Nat.reduceMul, Nat.reduceMod,
    Nat.reduceDiv]
  rw [powModLoop, if_neg (by omega), if_pos (by omega), mul 2 4 (by omega) (by omega) (by omega), ok_bind, rem8, ok_bind]
  simp only [mul 4 4 (by omega) (by omega) (by omega), ok_bind, rem 16 (by omega) (by omega) (by omega), Nat.reduceMul, Nat.reduceMod,
    Nat.reduceDiv]
  rw [powModLoop, if_pos rfl]

/-- The hypotheses are met: 7^80 mod 561 in base 10. -/
example {F : Type} {o : FloatOps F} (M : Ieee o) : ∃ r, Evaluates (fun n => powMod o .base10 releaseEnv n ⟨.pos, [7]⟩ 80 ⟨.pos, [1, 6, 5]⟩) (.ok r) ∧
    r.toInt .base10 = 1 := by
  obtain ⟨r, h1, -, h3⟩ := C96_powMod_partial M .base10 releaseEnv_ample rfl (x := ⟨.pos, [7]⟩) (m := ⟨.pos, [1, 6, 5]⟩) 80
    (by simp [WF, Signed, WFDigits, InRange, NoLeadingZero, Limits.base, Limits.base10, Limits.custom]) (by decide)
    (by simp [WF, Signed, WFDigits, InRange, NoLeadingZero, Limits.base, Limits.base10, Limits.custom]) (by decide) (by decide) (by simp)
    (by simp)
  refine ⟨r, h1, ?_⟩
  rw [h3, show (⟨.pos, [7]⟩ : Bignum).toInt .base10 = 7 by decide, show (⟨.pos, [1, 6, 5]⟩ : Bignum).toInt .base10 = 561 by decide]
  decide

/-- The hypotheses of C95 are met: 97 is found prime. -/
example {F : Type} {o : FloatOps F} (M : Ieee o) : Evaluates (fun n => isPrime o .base10 releaseEnv n ⟨.pos, [7, 9]⟩ ⟨.pos, [1]⟩) (.ok true) := by
  have := C95_prime M .base10 releaseEnv_ample rfl (m := ⟨.pos, [7, 9]⟩) (one := ⟨.pos, [1]⟩)
    (by simp [WF, Signed, WFDigits, InRange, NoLeadingZero, Limits.base, Limits.base10, Limits.custom]) (by decide)
    (by simp [WF, Signed, WFDigits, InRange, NoLeadingZero, Limits.base, Limits.base10, Limits.custom]) (by decide) (by simp)
  rw [show ((⟨.pos, [7, 9]⟩ : Bignum).toInt .base10).toNat = 97 by decide] at this
  have h97 : Nat.Prime 97 := by
    rw [Nat.prime_def_le_sqrt]
    refine ⟨by omega, fun j h2 h => ?_⟩
    have : j < 10 := by have := Nat.le_sqrt.1 h; nlinarith
    interval_cases j <;> omega
  simpa [h97] using this

end BN
