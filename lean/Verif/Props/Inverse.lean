import Verif.Props.RoundQ
import Verif.Lemmas.Mono
/-
C146: modular inverses by the extended Euclidean algorithm.
-/
namespace BN
open Bignum

/-- Variables of the loop: two remainders and two coefficients; `odd` says whether the number of rounds so far is odd. -/
structure InvSt where
  r0 : Bignum
  r1 : Bignum
  s0 : Bignum
  s1 : Bignum
  odd : Bool

/-- One round with coefficients without sign: `q = r0 / r1; r = r0 - q * r1; s = s0 + q * s1; odd = !odd;` and the variables move up. -/
def invRound {F : Type} (o : FloatOps F) (L : Limits) (env : Env) (n : Nat) (s : InvSt) : Res InvSt := do
  let q ← s.r0.div L env n s.r1
  let p ← q.mul o L env n s.r1
  let r ← s.r0.sub L env n p
  let u ← q.mul o L env n s.s1
  let t ← s.s0.add L env n u
  .ok ⟨s.r1, r, s.s1, t, !s.odd⟩

/-- The inverse of `a` modulo `m` by a client who keeps the coefficients positive and remembers the sign:
`r0 = m; r1 = a; s0 = Bignum(); s1 = {1}; while (r1 != Bignum()) { one round } return odd ? s0 : m - s0;` -/
def inverse {F : Type} (o : FloatOps F) (L : Limits) (env : Env) (n : Nat) (a m : Bignum) : Res Bignum :=
  loopWhile (fun s => s.r1.ne Bignum.default) (invRound o L env n) n ⟨m, a, Bignum.default, ⟨.pos, [1]⟩, false⟩ >>= fun s =>
    if s.odd then .ok s.s0 else m.sub L env n s.s0

/-- The textbook's round, with signed coefficients: `s = s0 - q * s1`. -/
def textbookRound {F : Type} (o : FloatOps F) (L : Limits) (env : Env) (n : Nat) (s : InvSt) : Res InvSt := do
  let q ← s.r0.div L env n s.r1
  let p ← q.mul o L env n s.r1
  let r ← s.r0.sub L env n p
  let u ← q.mul o L env n s.s1
  let t ← s.s0.sub L env n u
  .ok ⟨s.r1, r, s.s1, t, !s.odd⟩

/-- The textbook's loop returns the coefficient of `a`, which may be negative. -/
def textbookCoefficient {F : Type} (o : FloatOps F) (L : Limits) (env : Env) (n : Nat) (a m : Bignum) : Res Bignum :=
  loopWhile (fun s => s.r1.ne Bignum.default) (textbookRound o L env n) n ⟨m, a, Bignum.default, ⟨.pos, [1]⟩, false⟩ >>= fun s => .ok s.s0

variable {L : Limits} {env : Env}

theorem div_num (hL : Custom L) (hm : env.Ample) (hd : env.debug = false) {a b n : Nat} (hb : 0 < b) (hab : b < a) (hn : a.size + 2 ≤ n) :
    (numeral L .pos a).div L env n (numeral L .pos b) = .ok (numeral L .pos (a / b)) := by
  have hB := hL.supported.base_ge
  obtain ⟨c, c1, c2, c3, c4⟩ := div_numerals hL hm hd hb (a := a) (.inl (by omega))
  have : 0 < a / b := Nat.div_pos (by omega) hb
  rw [c1 n hn, eq_numeral hB c2.2.1 (nlz_of_mag c2 (by omega)), c3, c4]

theorem mul_num {F : Type} {o : FloatOps F} (M : Ieee o) {K : Nat} (hp : Preset L K) (hm : env.Ample) {a b n : Nat} (h1 : 0 < a)
    (h2 : (numeral L .pos a).digits.length + (numeral L .pos b).digits.length ≤ K) (hn : 32 < n) :
    (numeral L .pos a).mul o L env n (numeral L .pos b) = .ok (numeral L .pos (a * b)) := by
  have hB := hp.custom.supported.base_ge
  have na : (numeral L .pos a).digits.length ≠ 0 := by
    intro h0
    have := mag_of_nil (L := L) (List.length_eq_zero_iff.1 h0)
    rw [numeral_mag] at this
    omega
  rw [mul_numeral M hp hm (numeral_wf hB (.inl rfl) a) (numeral_wf hB (d := .pos) (.inl rfl) b) (by omega) h2 hn, numeral_mag, numeral_mag]
  rfl

theorem length_numeral_mono (hB : 2 ≤ L.base) {a b : Nat} (h : a ≤ b) :
    (numeral L .pos a).digits.length ≤ (numeral L .pos b).digits.length :=
  length_le_of_natOf_le hB (digits_inRange hB b) (digits_nlz _ _) (by
    show natOf L.base (Nat.digits L.base a) ≤ natOf L.base (Nat.digits L.base b)
    rw [natOf_digits, natOf_digits]; exact h)

theorem invRound_numerals {F : Type} {o : FloatOps F} (M : Ieee o) {K : Nat} (hp : Preset L K) (hm : env.Ample) (hd : env.debug = false)
    {m x y s t n : Nat} {f : Bool} (hy : 0 < y) (hxy : y < x) (hx : x ≤ m) (ht : 0 < t) (hst : s ≤ m) (htm : t * x + s * y = m)
    (hK : 2 * (numeral L .pos m).digits.length ≤ K) (hn : m.size + 33 ≤ n) :
    invRound o L env n ⟨numeral L .pos x, numeral L .pos y, numeral L .pos s, numeral L .pos t, f⟩ =
      .ok ⟨numeral L .pos y, numeral L .pos (x % y), numeral L .pos t, numeral L .pos (s + x / y * t), !f⟩ := by
  have hB := hp.custom.supported.base_ge
  have hq : 0 < x / y := Nat.div_pos (by omega) hy
  have hqx : x / y ≤ x := Nat.div_le_self _ _
  have hsx := Nat.size_le_size hx
  have hle : x / y * y ≤ x := Nat.div_mul_le_self _ _
  have htx : t * 1 ≤ t * x := Nat.mul_le_mul_left _ (by omega)
  have hqt : x / y * t ≤ m := by
    have : t * (x / y) ≤ t * x := Nat.mul_le_mul_left _ hqx
    rw [Nat.mul_comm]; omega
  have l1 := length_numeral_mono (L := L) hB (show x / y ≤ m by omega)
  have l2 := length_numeral_mono (L := L) hB (show y ≤ m by omega)
  have l3 := length_numeral_mono (L := L) hB (show t ≤ m by omega)
  have hs1 := Nat.size_le_size hst
  have hs2 := Nat.size_le_size hqt
  unfold invRound
  simp only
  rw [div_num hp.custom hm hd hy hxy (by omega), ok_bind, mul_num M hp hm hq (by omega) (by omega), ok_bind,
    sub_numerals hp.custom.supported hm hd (by omega) hle (by omega), ok_bind, mul_num M hp hm hq (by omega) (by omega), ok_bind,
    add_numerals hp.custom.supported hm (by have := Nat.mul_pos hq ht; omega) (by omega), ok_bind]
  have e : x - x / y * y = x % y := by
    have := Nat.div_add_mod x y
    rw [Nat.mul_comm] at this
    omega
  rw [e]

/-- What one coefficient says about `a` modulo `m`: `f` for the sign. -/
def Coef (m a : Nat) (f : Bool) (s r : Nat) : Prop := (if f then (s : Int) else -(s : Int)) * a ≡ r [ZMOD m]

theorem inv_loop {F : Type} {o : FloatOps F} (M : Ieee o) {K : Nat} (hp : Preset L K) (hm : env.Ample) (hd : env.debug = false)
    {m a : Nat} (hK : 2 * (numeral L .pos m).digits.length ≤ K) : ∀ (b x y s t : Nat) (f : Bool),
    y < x → x ≤ m → 0 < t → 2 * s ≤ m → t * x + s * y = m → Coef m a f s x → Coef m a (!f) t y → y < b →
    ∃ (s' t' : Nat) (f' : Bool), (∀ n fuel, m.size + 33 ≤ n → y < fuel →
      loopWhile (fun s => s.r1.ne Bignum.default) (invRound o L env n) fuel
        ⟨numeral L .pos x, numeral L .pos y, numeral L .pos s, numeral L .pos t, f⟩ =
          .ok ⟨numeral L .pos (Nat.gcd x y), numeral L .pos 0, numeral L .pos s', numeral L .pos t', f'⟩) ∧
      2 * s' ≤ m ∧ Coef m a f' s' (Nat.gcd x y)
  | 0, _, _, _, _, _, _, _, _, _, _, _, _, h => absurd h (by omega)
  | b + 1, x, y, s, t, f, hxy, hx, ht, hs, hI, c0, c1, hb => by
    by_cases hy : y = 0
    · subst hy
      refine ⟨s, t, f, fun n fuel _ hf => ?_, hs, by rw [Nat.gcd_zero_right]; exact c0⟩
      obtain ⟨fuel, rfl⟩ : ∃ k, fuel = k + 1 := ⟨fuel - 1, by omega⟩
      rw [Nat.gcd_zero_right, loopWhile]
      simp only [numeral_ne_default, ok_bind]
      rfl
    · have hy0 : 0 < y := Nat.pos_of_ne_zero hy
      have hdm := Nat.div_add_mod x y
      have htx : t * 2 ≤ t * x := Nat.mul_le_mul_left _ (by omega)
      obtain ⟨s', t', f', e1, e2, e3⟩ := inv_loop M hp hm hd hK b y (x % y) t (s + x / y * t) (!f) (Nat.mod_lt _ hy0) (by omega)
        (by have := Nat.mul_pos (Nat.div_pos (le_of_lt hxy) hy0) ht; omega) (by omega)
        (by calc (s + x / y * t) * y + t * (x % y) = t * (y * (x / y) + x % y) + s * y := by ring
              _ = m := by rw [hdm, hI]) c1
        (by
          have h1 : Coef m a f (s + x / y * t) (x % y) := by
            unfold Coef at *
            have h2 : ((x % y : Nat) : Int) = (x : Int) - (x / y : Nat) * (y : Int) := by
              have : ((y * (x / y) + x % y : Nat) : Int) = (x : Int) := by rw [hdm]
              push_cast at this ⊢
              linarith
            have h3 := c0.sub (c1.mul_left ((x / y : Nat) : Int))
            rw [h2]
            refine (Int.ModEq.symm ?_).symm
            convert h3 using 1
            cases f <;> simp <;> ring
          simpa using h1)
        (by have := Nat.mod_lt x hy0; omega)
      have hg : Nat.gcd y (x % y) = Nat.gcd x y := by rw [Nat.gcd_comm y, ← Nat.gcd_rec, Nat.gcd_comm]
      rw [hg] at e1 e3
      refine ⟨s', t', f', fun n fuel hn hf => ?_, e2, e3⟩
      obtain ⟨fuel, rfl⟩ : ∃ k, fuel = k + 1 := ⟨fuel - 1, by omega⟩
      rw [loopWhile]
      simp only [numeral_ne_default, ok_bind]
      rw [if_pos (by simpa using hy), invRound_numerals M hp hm hd hy0 hxy hx ht (by omega) hI hK hn, ok_bind]
      exact e1 n fuel hn (by have := Nat.mod_lt x hy0; omega)

/-- C146: the loop returns a number x below m with a x congruent to the greatest common divisor of a and m. -/
theorem C146_coefficient {F : Type} {o : FloatOps F} (M : Ieee o) {K : Nat} (hp : Preset L K) (hm : env.Ample) (hd : env.debug = false)
    {a m : Bignum} (ha : WF L a) (hmw : WF L m) (ha0 : 0 < a.toInt L) (ham : a.toInt L < m.toInt L) (hK : 2 * m.digits.length ≤ K) :
    ∃ c : Bignum, Evaluates (fun n => inverse o L env n a m) (.ok c) ∧ WF L c ∧ 0 ≤ c.toInt L ∧ c.toInt L < m.toInt L ∧
      a.toInt L * c.toInt L % m.toInt L = Int.gcd (a.toInt L) (m.toInt L) := by
  have hB := hp.custom.supported.base_ge
  obtain ⟨x, rfl, hx⟩ : ∃ x : Nat, a = numeral L .pos x ∧ a.toInt L = x := by
    refine ⟨a.mag L, ?_, ?_⟩
    · have h0 : a.mag L ≠ 0 := fun h => by rw [toInt_eq_zero.2 h] at ha0; omega
      have := eq_numeral hB ha.2.1 (nlz_of_mag ha h0)
      rcases ha.1 with h | h
      · rwa [h] at this
      · unfold Bignum.toInt at ha0; rw [h, if_pos rfl] at ha0; omega
    · rcases ha.1 with h | h
      · unfold Bignum.toInt; rw [h]; rfl
      · unfold Bignum.toInt at ha0; rw [h, if_pos rfl] at ha0; omega
  obtain ⟨y, rfl, hy⟩ : ∃ y : Nat, m = numeral L .pos y ∧ m.toInt L = y := by
    have hm0 : 0 < m.toInt L := by omega
    refine ⟨m.mag L, ?_, ?_⟩
    · have h0 : m.mag L ≠ 0 := fun h => by rw [toInt_eq_zero.2 h] at hm0; omega
      have := eq_numeral hB hmw.2.1 (nlz_of_mag hmw h0)
      rcases hmw.1 with h | h
      · rwa [h] at this
      · unfold Bignum.toInt at hm0; rw [h, if_pos rfl] at hm0; omega
    · rcases hmw.1 with h | h
      · unfold Bignum.toInt; rw [h]; rfl
      · unfold Bignum.toInt at hm0; rw [h, if_pos rfl] at hm0; omega
  rw [hx] at ha0
  rw [hx, hy] at ham
  have hx0 : 0 < x := by omega
  have hxy : x < y := by omega
  have hone : (⟨.pos, [1]⟩ : Bignum) = numeral L .pos 1 := by
    unfold numeral
    rw [Nat.digits_of_lt _ 1 (by omega) (by omega)]
  have hzero : Bignum.default = numeral L .pos 0 := by unfold numeral; rw [Nat.digits_zero]; rfl
  have hg : Nat.gcd y x ≤ x := Nat.gcd_le_right _ hx0
  have hg0 : 0 < Nat.gcd y x := Nat.gcd_pos_of_pos_left _ (by omega)
  obtain ⟨w, w1, w2, w3⟩ : ∃ w, (∀ n, y + y.size + 33 ≤ n → inverse o L env n (numeral L .pos x) (numeral L .pos y) =
      .ok (numeral L .pos w)) ∧ w < y ∧ (x * w) % y = Nat.gcd y x := by
    obtain ⟨s, t, f, e1, e2, e3⟩ := inv_loop M hp hm hd (m := y) (a := x) hK (x + 1) y x 0 1 false hxy (le_refl _)
      (by omega) (by omega) (by omega) (by unfold Coef; simp [Int.ModEq]) (by unfold Coef; simp [Int.ModEq]) (by omega)
    have e0 : ∀ n, y + y.size + 33 ≤ n → inverse o L env n (numeral L .pos x) (numeral L .pos y) =
        if f then .ok (numeral L .pos s) else (numeral L .pos y).sub L env n (numeral L .pos s) := by
      intro n hn
      have e1 := e1 n n (by omega) (by omega)
      rw [← hone, ← hzero] at e1
      unfold inverse
      rw [e1, ok_bind]
    unfold Coef at e3
    cases f with
    | true =>
      refine ⟨s, fun n hn => (e0 n hn).trans rfl, by omega, ?_⟩
      have e4 : (((x * s : Nat) : Int)) ≡ ((Nat.gcd y x : Nat) : Int) [ZMOD (y : Int)] := by
        rw [Nat.mul_comm]; push_cast; simpa using e3
      have e5 := (Int.natCast_modEq_iff.1 e4)
      rw [Nat.ModEq, Nat.mod_eq_of_lt (show Nat.gcd y x < y by omega)] at e5
      exact e5
    | false =>
      have hs0 : s ≠ 0 := by
        rintro rfl
        simp only [Bool.false_eq_true, if_false, Nat.cast_zero, neg_zero, Int.zero_mul] at e3
        have e5 : ((0 : Nat) : Int) ≡ ((Nat.gcd y x : Nat) : Int) [ZMOD (y : Int)] := by simpa using e3
        have e6 := (Int.natCast_modEq_iff.1 e5)
        rw [Nat.ModEq, Nat.mod_eq_of_lt (show Nat.gcd y x < y by omega), Nat.zero_mod] at e6
        omega
      refine ⟨y - s, fun n hn => ?_, by omega, ?_⟩
      · rw [e0 n hn, if_neg (by simp)]
        exact sub_numerals hp.custom.supported hm hd (by omega) (by omega) (by omega)
      · have e4 : (((x * (y - s) : Nat) : Int)) ≡ ((Nat.gcd y x : Nat) : Int) [ZMOD (y : Int)] := by
          have h1 : (((x * (y - s) : Nat) : Int)) = -(s : Int) * x + (y : Int) * x := by
            rw [Nat.mul_comm]
            push_cast [show s ≤ y by omega]
            ring
          rw [h1]
          have h2 : -(s : Int) * x + (y : Int) * x ≡ -(s : Int) * x [ZMOD (y : Int)] := by
            rw [Int.ModEq, Int.add_mul_emod_self_left]
          exact h2.trans (by simpa using e3)
        have e5 := (Int.natCast_modEq_iff.1 e4)
        rw [Nat.ModEq, Nat.mod_eq_of_lt (show Nat.gcd y x < y by omega)] at e5
        exact e5
  have hwt : (numeral L .pos w).toInt L = w := by
    unfold Bignum.toInt; rw [numeral_mag]; rfl
  refine ⟨numeral L .pos w, ⟨y + y.size + 33, w1⟩, numeral_wf hB (.inl rfl) w, by rw [hwt]; omega, by rw [hwt, hy]; omega, ?_⟩
  rw [hwt, hx, hy, Int.gcd_natCast_natCast, Nat.gcd_comm, ← w3]
  push_cast
  rfl

example {F : Type} {o : FloatOps F} (M : Ieee o) := C146_coefficient M .base10 Sample.ample rfl (a := Sample.n23) (m := Sample.n199)
  (by sample) (by sample) (by sample) (by sample) (by sample)

/-- The inverse of a number without common divisor. -/
theorem C146_inverse {F : Type} {o : FloatOps F} (M : Ieee o) {K : Nat} (hp : Preset L K) (hm : env.Ample) (hd : env.debug = false)
    {a m : Bignum} (ha : WF L a) (hmw : WF L m) (ha0 : 0 < a.toInt L) (ham : a.toInt L < m.toInt L)
    (hc : ∀ d : Int, d ∣ a.toInt L → d ∣ m.toInt L → d ∣ 1) (hK : 2 * m.digits.length ≤ K) :
    ∃ c : Bignum, Evaluates (fun n => inverse o L env n a m) (.ok c) ∧ WF L c ∧ 0 < c.toInt L ∧ c.toInt L < m.toInt L ∧
      m.toInt L ∣ a.toInt L * c.toInt L - 1 ∧ ∀ x : Int, 0 < x → x < m.toInt L → m.toInt L ∣ a.toInt L * x - 1 → x = c.toInt L := by
  obtain ⟨c, c1, c2, c3, c4, c5⟩ := C146_coefficient M hp hm hd ha hmw ha0 ham hK
  have hg : (Int.gcd (a.toInt L) (m.toInt L) : Int) = 1 := by
    have := Int.natAbs_dvd_natAbs.2 (hc _ (Int.gcd_dvd_left _ _) (Int.gcd_dvd_right _ _))
    have h1 := Nat.dvd_one.1 (by simpa using this)
    rw [h1]; rfl
  rw [hg] at c5
  have hdiv : m.toInt L ∣ a.toInt L * c.toInt L - 1 := by
    have := Int.emod_add_mul_ediv (a.toInt L * c.toInt L) (m.toInt L)
    exact ⟨a.toInt L * c.toInt L / m.toInt L, by linarith⟩
  refine ⟨c, c1, c2, ?_, c4, hdiv, fun x x0 xm hx => ?_⟩
  · rcases Int.lt_or_eq_of_le c3 with h | h
    · exact h
    · rw [← h, Int.mul_zero, Int.zero_emod] at c5; omega
  · have h1 : m.toInt L ∣ a.toInt L * (x - c.toInt L) := by
      have := Int.dvd_sub hx hdiv
      rwa [show a.toInt L * x - 1 - (a.toInt L * c.toInt L - 1) = a.toInt L * (x - c.toInt L) by ring] at this
    have h2 : m.toInt L ∣ x - c.toInt L := Int.dvd_of_dvd_mul_right_of_gcd_one h1 (by
      rw [Int.gcd_comm]; exact_mod_cast hg)
    have h3 := Int.eq_zero_of_abs_lt_dvd h2 (by rw [abs_lt]; constructor <;> omega)
    omega

example {F : Type} {o : FloatOps F} (M : Ieee o) := C146_inverse M .base10 Sample.ample rfl (a := ⟨.pos, [3]⟩) (m := ⟨.pos, [5]⟩)
  (by sample) (by sample) (by sample) (by sample) (fun d (h1 : d ∣ 3) (h2 : d ∣ 5) => by
    have := Int.dvd_sub (h1.mul_left 2) h2
    simpa using this) (by sample)

theorem sub_small {x y z : Bignum} (h : subAssign .base10 releaseEnv 9 x (.other y) = .ok z) {n : Nat} (hn : 9 ≤ n) :
    x.sub .base10 releaseEnv n y = .ok z := by
  have h' : subAssign .base10 releaseEnv n x (.other y) = .ok z := by
    rw [← h]; exact mono_subAssign .base10 releaseEnv x (.other y) 9 n hn (by simp [h])
  unfold Bignum.sub viaCopy
  rw [copy_ok releaseEnv_ample, ok_bind, h']

theorem div_small {x y z : Bignum} (h : divAssign .base10 releaseEnv 9 x (.other y) = .ok z) {n : Nat} (hn : 9 ≤ n) :
    x.div .base10 releaseEnv n y = .ok z := by
  have h' : divAssign .base10 releaseEnv n x (.other y) = .ok z := by
    rw [← h]; exact mono_divAssign .base10 releaseEnv x (.other y) 9 n hn (by simp [h])
  unfold Bignum.div viaCopy
  rw [copy_ok releaseEnv_ample, ok_bind, h']

/-- With signed coefficients the loop is wrong: for 3 modulo 5 it returns 0, where 2 is right. -/
theorem C146_textbook_wrong {F : Type} {o : FloatOps F} (M : Ieee o) : ∃ a m c : Bignum, WF .base10 a ∧ WF .base10 m ∧ a.toInt .base10 = 3 ∧
    m.toInt .base10 = 5 ∧ Evaluates (fun n => textbookCoefficient o .base10 releaseEnv n a m) (.ok c) ∧ c.toInt .base10 = 0 := by
  have hmul : ∀ {x y : Bignum} {d : Desc} {l : List Nat}, WF .base10 x → WF .base10 y → 1 ≤ x.digits.length + y.digits.length →
      x.digits.length + y.digits.length ≤ 10 → numeral .base10 (signRule x.desc y.desc) (x.mag .base10 * y.mag .base10) = ⟨d, l⟩ →
      ∀ {n}, 32 < n → x.mul o .base10 releaseEnv n y = .ok ⟨d, l⟩ :=
    fun hx hy h1 h2 he n hn => he ▸ mul_numeral M .base10 releaseEnv_ample hx hy h1 (by omega) hn
  have step : ∀ {n : Nat} {r0 r1 s0 s1 q p r u t : Bignum} {f : Bool}, r0.div .base10 releaseEnv n r1 = .ok q →
      q.mul o .base10 releaseEnv n r1 = .ok p → r0.sub .base10 releaseEnv n p = .ok r → q.mul o .base10 releaseEnv n s1 = .ok u →
      s0.sub .base10 releaseEnv n u = .ok t → textbookRound o .base10 releaseEnv n ⟨r0, r1, s0, s1, f⟩ = .ok ⟨r1, r, s1, t, !f⟩ := by
    intro n r0 r1 s0 s1 q p r u t f h1 h2 h3 h4 h5
    unfold textbookRound
    simp only [h1, h2, h3, h4, h5, ok_bind]
  refine ⟨⟨.pos, [3]⟩, ⟨.pos, [5]⟩, ⟨.pos, []⟩, by sample, by sample, by decide, by decide, ⟨60, fun n hn => ?_⟩, by decide⟩
  have t1 : textbookRound o .base10 releaseEnv n ⟨⟨.pos, [5]⟩, ⟨.pos, [3]⟩, Bignum.default, ⟨.pos, [1]⟩, false⟩ =
      .ok ⟨⟨.pos, [3]⟩, ⟨.pos, [2]⟩, ⟨.pos, [1]⟩, ⟨.neg, [1]⟩, true⟩ :=
    step (q := ⟨.pos, [1]⟩) (p := ⟨.pos, [3]⟩) (u := ⟨.pos, [1]⟩) (div_small (by decide +kernel) (by omega))
      (hmul (by sample) (by sample) (by decide) (by decide) (by decide +kernel) (by omega)) (sub_small (by decide +kernel) (by omega))
      (hmul (by sample) (by sample) (by decide) (by decide) (by decide +kernel) (by omega)) (sub_small (by decide +kernel) (by omega))
  have t2 : textbookRound o .base10 releaseEnv n ⟨⟨.pos, [3]⟩, ⟨.pos, [2]⟩, ⟨.pos, [1]⟩, ⟨.neg, [1]⟩, true⟩ =
      .ok ⟨⟨.pos, [2]⟩, ⟨.pos, [1]⟩, ⟨.neg, [1]⟩, ⟨.pos, []⟩, false⟩ :=
    step (q := ⟨.pos, [1]⟩) (p := ⟨.pos, [2]⟩) (u := ⟨.neg, [1]⟩) (div_small (by decide +kernel) (by omega))
      (hmul (by sample) (by sample) (by decide) (by decide) (by decide +kernel) (by omega)) (sub_small (by decide +kernel) (by omega))
      (hmul (by sample) (by sample) (by decide) (by decide) (by decide +kernel) (by omega)) (sub_small (by decide +kernel) (by omega))
  have t3 : textbookRound o .base10 releaseEnv n ⟨⟨.pos, [2]⟩, ⟨.pos, [1]⟩, ⟨.neg, [1]⟩, ⟨.pos, []⟩, false⟩ =
      .ok ⟨⟨.pos, [1]⟩, ⟨.pos, []⟩, ⟨.pos, []⟩, ⟨.neg, [1]⟩, true⟩ :=
    step (q := ⟨.pos, [2]⟩) (p := ⟨.pos, [2]⟩) (u := ⟨.pos, []⟩) (div_small (by decide +kernel) (by omega))
      (hmul (by sample) (by sample) (by decide) (by decide) (by decide +kernel) (by omega)) (sub_small (by decide +kernel) (by omega))
      (hmul (by sample) (by sample) (by decide) (by decide) (by decide +kernel) (by omega)) (sub_small (by decide +kernel) (by omega))
  obtain ⟨k, hk⟩ : ∃ k, n = k + 4 := ⟨n - 4, by omega⟩
  have hl : loopWhile (fun s => s.r1.ne Bignum.default) (textbookRound o .base10 releaseEnv n) (k + 4)
      ⟨⟨.pos, [5]⟩, ⟨.pos, [3]⟩, Bignum.default, ⟨.pos, [1]⟩, false⟩ = .ok ⟨⟨.pos, [1]⟩, ⟨.pos, []⟩, ⟨.pos, []⟩, ⟨.neg, [1]⟩, true⟩ := by
    have go : ∀ {s s' : InvSt} {k : Nat}, s.r1.ne Bignum.default = .ok true → textbookRound o .base10 releaseEnv n s = .ok s' →
        loopWhile (fun s => s.r1.ne Bignum.default) (textbookRound o .base10 releaseEnv n) (k + 1) s =
          loopWhile (fun s => s.r1.ne Bignum.default) (textbookRound o .base10 releaseEnv n) k s' := by
      intro s s' k h1 h2
      rw [loopWhile]
      simp only [h1, h2, ok_bind, if_true]
    rw [go (by decide +kernel) t1, go (by decide +kernel) t2, go (by decide +kernel) t3, loopWhile]
    rfl
  show textbookCoefficient o .base10 releaseEnv n _ _ = _
  unfold textbookCoefficient
  rw [← hk] at hl
  rw [hl, ok_bind]

end BN
