import Verif.Lemmas.Samples
import Verif.Props.Sqrt
import Verif.Props.Lcm
/-
C139: products, quotients and greatest common divisors by additions, subtractions, `>=` and `push_front` only. These are right for
every digit type, also where `operator*` and `operator/` are not.
-/
namespace BN
open Bignum

variable (L : Limits) (env : Env) (n : Nat)

/-- `for (; e; e >>= 1) { if (e & 1) r = r + x; x = x + x; } return r;` with a built-in unsigned `e` -/
def timesLoop : Nat → Nat → Bignum → Bignum → Res Bignum
  | 0, _, _, _ => .error .timeout
  | k + 1, e, x, r =>
    if e = 0 then .ok r
    else (if e % 2 = 1 then r.add L env n x else .ok r) >>= fun r => do
      let x ← x.add L env n x
      timesLoop k (e / 2) x r

/-- `for (i = y.size(); i-- > 0; ) { r.push_front(0); r = r + times(a, y[i]); } return r;` -/
def mulRows (a y : Bignum) : Nat → Bignum → Res Bignum
  | 0, r => .ok r
  | i + 1, r => do
    let r ← r.pushFront env 0
    let d ← y.at_ i
    let t ← timesLoop L env n n d a Bignum.default
    let r ← r.add L env n t
    mulRows a y i r

/-- The product by additions: `a = x; a.setDescriptor(BN_POS); … r.setDescriptor(x.isNegative() != y.isNegative() ? BN_NEG : BN_POS);` -/
def slowMul (x y : Bignum) : Res Bignum := do
  let a ← x.copy env
  let r ← mulRows L env n (a.setDescriptor .pos) y y.size Bignum.default
  .ok (r.setDescriptor (if x.isNegative != y.isNegative then .neg else .pos))

/-- `while (a >= d + d) { d = d + d; m = m + m; }` -/
def doubleUp (a : Bignum) : Nat → Bignum → Bignum → Res (Bignum × Bignum)
  | 0, _, _ => .error .timeout
  | k + 1, d, m => do
    let d2 ← d.add L env n d
    if ← a.ge d2 then do
      let m2 ← m.add L env n m
      doubleUp a k d2 m2
    else .ok (d, m)

/-- `while (a >= b) { d = b; m = 1; while (a >= d + d) { … } a = a - d; q = q + m; }` -/
def slowDivLoop (b one : Bignum) : Nat → Bignum → Bignum → Res (Bignum × Bignum)
  | 0, _, _ => .error .timeout
  | k + 1, a, q => do
    if ← a.ge b then do
      let (d, m) ← doubleUp L env n a n b one
      let a ← a.sub L env n d
      let q ← q.add L env n m
      slowDivLoop b one k a q
    else .ok (q, a)

/-- Quotient and remainder: both operands made positive first, the signs set afterwards. -/
def slowDiv (x y : Bignum) : Res (Bignum × Bignum) := do
  let a ← x.copy env
  let b ← y.copy env
  let one ← ofList env .pos [1]
  let (q, r) ← slowDivLoop L env n (b.setDescriptor .pos) one n (a.setDescriptor .pos) Bignum.default
  .ok (q.setDescriptor (if x.isNegative != y.isNegative then .neg else .pos), r.setDescriptor x.getDescriptor)

/-- `while (b.size() != 0) { t = a mod b; a = b; b = t; } return a;` -/
def slowGcd : Nat → Bignum → Bignum → Res Bignum
  | 0, _, _ => .error .timeout
  | k + 1, a, b =>
    if b.size = 0 then .ok a
    else do
      let (_, r) ← slowDiv L env n a b
      slowGcd k b r

variable {L env n}

/-! ### Products -/

/-- Sum of two numbers with positive descriptor and digits in range, leading zeros allowed. -/
theorem add_inRange (hL : Supported L) (hm : env.Ample) {x y : Bignum} (hx : x.desc = .pos) (hy : y.desc = .pos)
    (hxr : InRange L.base x.digits) (hyr : InRange L.base y.digits) :
    ∃ c : Bignum, (∀ n, max x.digits.length y.digits.length < n → x.add L env n y = .ok c) ∧ c.desc = .pos ∧ InRange L.base c.digits ∧
      c.mag L = x.mag L + y.mag L ∧ c.digits.length ≤ max x.digits.length y.digits.length + 1 ∧ (WF L x → WF L y → WF L c) := by
  have hB := hL.base_ge
  refine ⟨⟨.pos, addFull L.base x.digits y.digits 0⟩, fun n hn => ?_, rfl, addFull_inRange hB hxr hyr (by omega), ?_,
    (addFull_length hB hxr hyr (c := 0) (by omega)).2, fun h1 h2 => ⟨.inl rfl, addFull_wf hB h1.2 h2.2⟩⟩
  · unfold Bignum.add viaCopy
    rw [copy_ok hm, ok_bind, addAssign_same_ok hL hm (r := .other y) (.inl hx) (hy.trans hx.symm) hxr hyr hn, hx]
    rfl
  · show natOf _ (addFull _ _ _ _) = _
    rw [addFull_natOf hB hxr hyr (Nat.zero_le 1)]
    rfl

/-- The doubling loop computes r + e x. -/
theorem timesLoop_ok (hL : Supported L) (hm : env.Ample) (s : Nat) : ∀ (e : Nat) (x r : Bignum), e < 2 ^ s →
    x.desc = .pos → r.desc = .pos → InRange L.base x.digits → InRange L.base r.digits →
    ∃ c : Bignum, (∀ n k, s < k → max x.digits.length r.digits.length + s < n → timesLoop L env n k e x r = .ok c) ∧ c.desc = .pos ∧
      InRange L.base c.digits ∧ c.mag L = r.mag L + e * x.mag L ∧ c.digits.length ≤ max x.digits.length r.digits.length + s ∧
      (WF L x → WF L r → WF L c) := by
  induction s with
  | zero =>
    intro e x r he hx hr hxr hrr
    have h0 : e = 0 := by simpa using he
    refine ⟨r, fun n k hk _ => ?_, hr, hrr, by rw [h0]; omega, by omega, fun _ h => h⟩
    obtain ⟨k, rfl⟩ : ∃ j, k = j + 1 := ⟨k - 1, by omega⟩
    rw [timesLoop, if_pos h0]
  | succ s ih =>
    intro e x r he hx hr hxr hrr
    by_cases h0 : e = 0
    · refine ⟨r, fun n k hk _ => ?_, hr, hrr, by rw [h0]; omega, by omega, fun _ h => h⟩
      obtain ⟨k, rfl⟩ : ∃ j, k = j + 1 := ⟨k - 1, by omega⟩
      rw [timesLoop, if_pos h0]
    obtain ⟨x2, x1, xd, xr, xm, xl, xw⟩ := add_inRange hL hm hx hx hxr hxr
    obtain ⟨r2, r1, rd, rr, rm, rl, rw'⟩ : ∃ r2 : Bignum, (∀ n, max x.digits.length r.digits.length < n →
        (if e % 2 = 1 then r.add L env n x else .ok r) = .ok r2) ∧ r2.desc = .pos ∧
        InRange L.base r2.digits ∧ r2.mag L = r.mag L + e % 2 * x.mag L ∧
        r2.digits.length ≤ max x.digits.length r.digits.length + 1 ∧ (WF L x → WF L r → WF L r2) := by
      by_cases h1 : e % 2 = 1
      · obtain ⟨c, c1, c2, c3, c4, c5, c6⟩ := add_inRange hL hm hr hx hrr hxr
        exact ⟨c, fun n hn => by rw [if_pos h1, c1 n (by omega)], c2, c3, by rw [c4, h1]; omega, by omega, fun a b => c6 b a⟩
      · exact ⟨r, fun _ _ => if_neg h1, hr, hrr, by rw [show e % 2 = 0 by omega]; omega, by omega, fun _ h => h⟩
    obtain ⟨c, c1, c2, c3, c4, c5, c6⟩ := ih (e / 2) x2 r2 (by rw [pow_succ] at he; omega) xd rd xr rr
    refine ⟨c, fun n k hk hn => ?_, c2, c3, ?_, by omega, fun h1 h2 => c6 (xw h1 h1) (rw' h1 h2)⟩
    · obtain ⟨k, rfl⟩ : ∃ j, k = j + 1 := ⟨k - 1, by omega⟩
      rw [timesLoop, if_neg h0, r1 n (by omega), ok_bind, x1 n (by omega), ok_bind, c1 n k (by omega) (by omega)]
    · rw [c4, rm, xm]
      have := Nat.div_add_mod e 2
      have h3 : e * x.mag L = (2 * (e / 2) + e % 2) * x.mag L := by rw [this]
      rw [h3]; ring

theorem pushFront_ok (hm : env.Ample) (b : Bignum) (d : Nat) : b.pushFront env d = .ok ⟨b.desc, d :: b.digits⟩ := by
  simp [Bignum.pushFront, Vec.insert, hm _]

theorem mulRows_ok (hL : Supported L) (hm : env.Ample) {a y : Bignum} (ha : a.desc = .pos) (har : InRange L.base a.digits)
    (hyr : InRange L.base y.digits) : ∀ (i : Nat) (r : Bignum), i ≤ y.digits.length → r.desc = .pos → InRange L.base r.digits →
    ∃ c : Bignum, (∀ n, max r.digits.length (a.digits.length + L.base.size) + 2 * i < n → mulRows L env n a y i r = .ok c) ∧ c.desc = .pos ∧
      InRange L.base c.digits ∧ c.mag L = r.mag L * L.base ^ i + a.mag L * natOf L.base (y.digits.take i) ∧
      (WF L a → WF L r → r.mag L ≠ 0 ∨ (r.digits = [] ∧ a.mag L ≠ 0 ∧ ∀ h : i - 1 < y.digits.length, y.digits[i - 1] ≠ 0) → WF L c) := by
  have hB := hL.base_ge
  intro i
  induction i with
  | zero => intro r _ hr hrr; exact ⟨r, fun _ _ => rfl, hr, hrr, by simp, fun _ h _ => h⟩
  | succ i ih =>
    intro r hi hr hrr
    have hlt : i < y.digits.length := by omega
    have hd : y.at_ i = .ok (y.digits[i]) := by rw [Bignum.at_, if_pos hlt, rd_eq hlt]
    have hdB : y.digits[i] < L.base := hyr _ (List.getElem_mem hlt)
    obtain ⟨t, t1, t2, t3, t4, t5, t6⟩ := timesLoop_ok (env := env) hL hm L.base.size y.digits[i] a Bignum.default
      (lt_trans hdB (Nat.lt_size_self _)) ha rfl har (.nil _)
    have e1 : (Bignum.default).digits.length = 0 := rfl
    rw [e1, Nat.max_zero] at t5
    obtain ⟨c, c1, c2, c3, c4, c5, c6⟩ := add_inRange (env := env) hL hm (x := ⟨r.desc, 0 :: r.digits⟩) (y := t) hr t2
      (.cons (by omega) hrr) t3
    simp only [List.length_cons] at c1 c5
    have e2 : (⟨r.desc, 0 :: r.digits⟩ : Bignum).mag L = L.base * r.mag L := by
      show natOf _ (0 :: r.digits) = _
      rw [natOf_cons]; simp [Bignum.mag]
    have e3 : (Bignum.default).mag L = 0 := rfl
    obtain ⟨z, z1, z2, z3, z4, z5⟩ := ih c (by omega) c2 c3
    refine ⟨z, fun n hn => ?_, z2, z3, ?_, ?_⟩
    · rw [mulRows, pushFront_ok hm, ok_bind, hd, ok_bind, t1 n n (by omega) (by rw [e1]; omega), ok_bind, c1 n (by omega), ok_bind,
        z1 n (by omega)]
    · rw [z4, c4, t4]
      have e4 : natOf L.base (y.digits.take (i + 1)) = natOf L.base (y.digits.take i) + y.digits[i] * L.base ^ i := by
        rw [natOf_take_succ _ _ _ hlt, Nat.mul_comm]
      rw [e2, e3, e4, pow_succ]
      ring
    · intro wa wr h
      have wd : WF L Bignum.default := ⟨.inl rfl, .nil _, .inl (by simp [Bignum.default, NoLeadingZero])⟩
      have w0 : WF L ⟨r.desc, 0 :: r.digits⟩ := by
        refine ⟨wr.1, .cons (by omega) hrr, ?_⟩
        rcases h with h | h
        · left
          have h1 := nlz_of_mag wr h
          have h2 : r.digits ≠ [] := fun h' => h (mag_of_nil h')
          unfold NoLeadingZero at h1 ⊢
          rwa [List.getLast?_cons_of_ne_nil h2]
        · right; rw [h.1]
      refine z5 wa (c6 w0 (t6 wa wd)) (.inl ?_)
      rw [c4, e2, t4, e3]
      rcases h with h | h
      · have : L.base * mag L r ≠ 0 := Nat.mul_ne_zero (by omega) h
        omega
      · have : y.digits[i] * mag L a ≠ 0 := Nat.mul_ne_zero (h.2.2 hlt) h.2.1
        omega

theorem isNegative_signed {x : Bignum} (h : Signed x.desc) : x.isNegative = decide (x.desc = .neg) := by
  rcases h with h | h <;> simp [Bignum.isNegative, h]

theorem setDescriptor_sign (x y c : Bignum) : ∃ d, Signed d ∧ c.setDescriptor (if x.isNegative != y.isNegative then .neg else .pos) = ⟨d, c.digits⟩ ∧
    (Signed x.desc → Signed y.desc → d = signRule x.desc y.desc) := by
  have : ∀ d, Signed d → c.setDescriptor d = ⟨d, c.digits⟩ := by rintro d (rfl | rfl) <;> rfl
  refine ⟨if x.isNegative != y.isNegative then .neg else .pos, ?_, this _ ?_, ?_⟩
  · split <;> simp [Signed]
  · split <;> simp [Signed]
  · rintro (hx | hx) (hy | hy) <;> simp [Bignum.isNegative, hx, hy, signRule]

/-- C139: the product by additions is right for every supported digit type (the default 32-bit digits included), all signs, any
leading zeros, debug and release builds. -/
theorem C139_product (hL : Supported L) (hm : env.Ample) {x y : Bignum} (hx : Signed x.desc) (hy : Signed y.desc)
    (hxr : InRange L.base x.digits) (hyr : InRange L.base y.digits) :
    ∃ c : Bignum, Evaluates (fun n => slowMul L env n x y) (.ok c) ∧ c.desc = signRule x.desc y.desc ∧ InRange L.base c.digits ∧
      c.toInt L = x.toInt L * y.toInt L ∧ (WF L x → x.toInt L ≠ 0 → NoLeadingZero y.digits → WF L c) := by
  obtain ⟨c, c1, c2, c3, c4, c5⟩ := mulRows_ok (env := env) (a := x.setDescriptor .pos) hL hm rfl hxr hyr y.digits.length Bignum.default le_rfl rfl
    (.nil _)
  obtain ⟨d, d1, d2, d3⟩ := setDescriptor_sign x y c
  refine ⟨⟨d, c.digits⟩, ⟨max 0 (x.digits.length + L.base.size) + 2 * y.digits.length + 1, fun n hn => ?_⟩, d3 hx hy, c3, ?_, ?_⟩
  · show slowMul L env n x y = _
    rw [slowMul, copy_ok hm, ok_bind]
    show (mulRows L env n _ y y.digits.length _ >>= _) = _
    rw [c1 n hn, ok_bind, d2]
  · have e1 : c.mag L = x.mag L * y.mag L := by
      rw [c4, List.take_length]
      show natOf _ [] * _ + x.mag L * y.mag L = _
      simp
    have e2 : (⟨d, c.digits⟩ : Bignum).mag L = x.mag L * y.mag L := e1
    unfold Bignum.toInt
    rw [e2, show (⟨d, c.digits⟩ : Bignum).desc = signRule x.desc y.desc from d3 hx hy]
    rcases hx with hx | hx <;> rcases hy with hy | hy <;> rw [hx, hy] <;> simp [signRule]
  · intro wx x0 hy0
    refine ⟨d1, (c5 ⟨.inl rfl, wx.2⟩ ⟨.inl rfl, .nil _, .inl (by simp [Bignum.default, NoLeadingZero])⟩ (.inr ⟨rfl, ?_, ?_⟩)).2⟩
    · exact fun h => x0 (toInt_eq_zero.2 h)
    · intro h h0
      apply hy0
      rw [List.getLast?_eq_getElem?, List.getElem?_eq_getElem h, h0]

example := C139_product (L := .highp) (.inl .highp) Sample.ample (x := ⟨.neg, [4294967295, 4294967295]⟩) (y := ⟨.neg, [4294967295]⟩) (by sample)
  (by sample) (by sample) (by sample)

/-! ### Quotients -/

theorem length_numeral_size (hB : 2 ≤ L.base) (d : Desc) (m : Nat) : (numeral L d m).digits.length ≤ m.size :=
  length_numeral_le hB (lt_of_lt_of_le (Nat.lt_size_self m) (Nat.pow_le_pow_left hB _))

theorem numeral_normal (hB : 2 ≤ L.base) (d : Desc) (m : Nat) : Normal L (numeral L d m) := ⟨digits_inRange hB m, digits_nlz _ m⟩

theorem toInt_numeral_pos (m : Nat) : (numeral L .pos m).toInt L = m := by
  rw [toInt_of_pos rfl, numeral_mag]

theorem add_numerals (hL : Supported L) (hm : env.Ample) {a b : Nat} (h : a + b ≠ 0) (hn : max a.size b.size < n) :
    (numeral L .pos a).add L env n (numeral L .pos b) = .ok (numeral L .pos (a + b)) := by
  have hB := hL.base_ge
  obtain ⟨c, c1, c2, c3, c4⟩ := add_pos hL hm (numeral_wf hB (.inl rfl) a) (numeral_wf hB (d := .pos) (.inl rfl) b) rfl
  have h1 := length_numeral_size hB .pos a
  have h2 := length_numeral_size hB .pos b
  rw [numeral_mag, numeral_mag] at c4
  rw [c1 n (by omega), eq_numeral hB c2.2.1 (nlz_of_mag c2 (by omega)), c3, c4]
  rfl

theorem ge_numerals (hB : 2 ≤ L.base) (a b : Nat) : (numeral L .pos a).ge (numeral L .pos b) = .ok (decide (b ≤ a)) := by
  rw [(C03_ge_le_nonneg L _ _ (numeral_normal hB .pos a) (numeral_normal hB .pos b) rfl rfl).1, toInt_numeral_pos, toInt_numeral_pos]
  simp

theorem size_double (m : Nat) : (m + m).size ≤ m.size + 1 := by
  rw [Nat.size_le, pow_succ]
  have := Nat.lt_size_self m
  omega

/-- The inner loop finds the largest doubling of d that is not above a. -/
theorem doubleUp_ok (hL : Supported L) (hm : env.Ample) {a : Nat} (hn : a.size + 1 < n) : ∀ (j k d m : Nat), j ≤ k → 0 < d → 0 < m → m ≤ d →
    d ≤ a → a < d * 2 ^ j →
    ∃ i < j, doubleUp L env n (numeral L .pos a) k (numeral L .pos d) (numeral L .pos m) =
        .ok (numeral L .pos (d * 2 ^ i), numeral L .pos (m * 2 ^ i)) ∧ d * 2 ^ i ≤ a ∧ a < d * 2 ^ (i + 1) := by
  have hB := hL.base_ge
  intro j
  induction j with
  | zero => intro k d m _ h0 _ _ h1 h2; simp at h2; omega
  | succ j ih =>
    intro k d m hk hd hm0 hmd hda hj
    obtain ⟨k, rfl⟩ : ∃ i, k = i + 1 := ⟨k - 1, by omega⟩
    have hs1 : d.size ≤ a.size := Nat.size_le_size hda
    have hs2 : m.size ≤ a.size := Nat.size_le_size (by omega)
    rw [doubleUp, add_numerals hL hm (by omega) (by omega), ok_bind, ge_numerals hB, ok_bind]
    by_cases h : d + d ≤ a
    · rw [decide_eq_true h, if_pos rfl, add_numerals hL hm (by omega) (by omega), ok_bind]
      obtain ⟨i, i1, i2, i3, i4⟩ := ih k (d + d) (m + m) (by omega) (by omega) (by omega) (by omega) h (by
        rw [pow_succ] at hj; calc a < d * (2 ^ j * 2) := hj
          _ = (d + d) * 2 ^ j := by ring)
      have e : ∀ x y : Nat, (x + x) * 2 ^ y = x * 2 ^ (y + 1) := fun x y => by rw [pow_succ]; ring
      rw [e] at i2 i3 i4
      rw [e] at i2
      exact ⟨i + 1, by omega, i2, i3, i4⟩
    · rw [decide_eq_false h, if_neg (by simp)]
      exact ⟨0, by omega, by simp, by simpa using hda, by simp; omega⟩

theorem slowDivLoop_ok (hL : Supported L) (hm : env.Ample) (hd : env.debug = false) {b : Nat} (hb : 0 < b) : ∀ (j k a q : Nat), j < k →
    a < b * 2 ^ j → (q + a).size + 1 < n → j < n →
    slowDivLoop L env n (numeral L .pos b) (numeral L .pos 1) k (numeral L .pos a) (numeral L .pos q) =
      .ok (numeral L .pos (q + a / b), numeral L .pos (a % b)) := by
  have hB := hL.base_ge
  intro j
  induction j with
  | zero =>
    intro k a q hk ha hn hj
    obtain ⟨k, rfl⟩ : ∃ i, k = i + 1 := ⟨k - 1, by omega⟩
    simp at ha
    rw [slowDivLoop, ge_numerals hB, ok_bind, decide_eq_false (by omega), if_neg (by simp), Nat.div_eq_of_lt ha, Nat.mod_eq_of_lt ha]
    rfl
  | succ j ih =>
    intro k a q hk ha hn hj
    obtain ⟨k, rfl⟩ : ∃ i, k = i + 1 := ⟨k - 1, by omega⟩
    rw [slowDivLoop, ge_numerals hB, ok_bind]
    by_cases h : b ≤ a
    · have hs : a.size ≤ (q + a).size := Nat.size_le_size (by omega)
      rw [decide_eq_true h, if_pos rfl]
      obtain ⟨i, i1, i2, i3, i4⟩ := doubleUp_ok (n := n) hL hm (a := a) (by omega) (j + 1) n b 1 (by omega) hb (by omega) hb h ha
      rw [i2, ok_bind]
      have wa := numeral_wf hB (d := .pos) (.inl rfl) a
      have na : (numeral L .pos a).digits ≠ [] := by
        intro h0
        have := mag_of_nil (L := L) h0
        rw [numeral_mag] at this
        omega
      have hsub := sub_numeral hL hm hd wa na (k := b * 2 ^ i) (by rw [numeral_mag]; exact i3) (n := n) (by
        have := length_numeral_size (L := L) hB .pos a; omega)
      rw [numeral_mag] at hsub
      have hsub : (numeral L .pos a).sub L env n (numeral L .pos (b * 2 ^ i)) = .ok (numeral L .pos (a - b * 2 ^ i)) := hsub
      have hp : 0 < 2 ^ i := by positivity
      have hle : 2 ^ i ≤ b * 2 ^ i := Nat.le_mul_of_pos_left _ hb
      show ((numeral L .pos a).sub L env n (numeral L .pos (b * 2 ^ i)) >>= _) = _
      rw [hsub, ok_bind, one_mul, add_numerals hL hm (by omega) (by
        have h1 : q.size ≤ (q + a).size := Nat.size_le_size (by omega)
        have h2 : (2 ^ i).size ≤ (q + a).size := Nat.size_le_size (by omega)
        omega), ok_bind, ih k (a - b * 2 ^ i) (q + 2 ^ i) (by omega) ?_ ?_ (by omega)]
      · have e : a = b * 2 ^ i + (a - b * 2 ^ i) := by omega
        generalize hc : a - b * 2 ^ i = c at e
        rw [e, Nat.mul_add_div hb, Nat.mul_add_mod, Nat.add_assoc]
      · have h3 : b * 2 ^ (i + 1) = b * 2 ^ i + b * 2 ^ i := by rw [pow_succ]; ring
        have h4 : b * 2 ^ i ≤ b * 2 ^ j := Nat.mul_le_mul_left _ (Nat.pow_le_pow_right (by omega) (by omega))
        omega
      · have : (q + 2 ^ i + (a - b * 2 ^ i)).size ≤ (q + a).size := Nat.size_le_size (by omega)
        omega
    · rw [decide_eq_false h, if_neg (by simp), Nat.div_eq_of_lt (by omega), Nat.mod_eq_of_lt (by omega)]
      rfl

theorem ofList_one (hL : Supported L) (hm : env.Ample) : ofList env .pos [1] = .ok (numeral L .pos 1) := by
  have hB := hL.base_ge
  rw [ofList_eq hm]
  simp [numeral, Nat.digits_of_lt L.base 1 (by omega) (by omega)]

theorem signed_div {L : Limits} {x y q : Bignum} (hx : Signed x.desc) (hy : Signed y.desc) (hq : q.desc = signRule x.desc y.desc)
    (h : q.mag L = x.mag L / y.mag L) : q.toInt L = (x.toInt L).tdiv (y.toInt L) := by
  unfold Bignum.toInt
  rw [h, hq]
  rcases hx with hx | hx <;> rcases hy with hy | hy <;> rw [hx, hy] <;> simp [signRule, Int.tdiv_neg, Int.neg_tdiv]

theorem signed_mod {L : Limits} {x y r : Bignum} (hx : Signed x.desc) (hy : Signed y.desc) (hr : r.desc = x.desc)
    (h : r.mag L = x.mag L % y.mag L) : r.toInt L = (x.toInt L).tmod (y.toInt L) := by
  unfold Bignum.toInt
  rw [h, hr]
  rcases hx with hx | hx <;> rcases hy with hy | hy <;> rw [hx, hy] <;> simp [Int.tmod_neg, Int.neg_tmod] <;> rfl

/-- Quotient and remainder by additions, subtractions and `>=` are the exact ones, truncated towards zero, for every digit type. -/
theorem C139_quotient (hL : Supported L) (hm : env.Ample) (hd : env.debug = false) {x y : Bignum} (hx : WF L x) (hy : WF L y)
    (hy0 : y.toInt L ≠ 0) :
    ∃ q r : Bignum, Evaluates (fun n => slowDiv L env n x y) (.ok (q, r)) ∧ WF L q ∧ WF L r ∧
      q.toInt L = (x.toInt L).tdiv (y.toInt L) ∧ r.toInt L = (x.toInt L).tmod (y.toInt L) ∧ q.desc = signRule x.desc y.desc ∧
      r.desc = x.desc := by
  have hB := hL.base_ge
  have ym : y.mag L ≠ 0 := fun h => hy0 (toInt_eq_zero.2 h)
  have ey : (⟨.pos, y.digits⟩ : Bignum) = numeral L .pos (y.mag L) := eq_numeral hB (c := ⟨.pos, y.digits⟩) hy.2.1 (nlz_of_mag (x := ⟨.pos, y.digits⟩) ⟨.inl rfl, hy.2⟩ ym)
  -- the loop on the absolute values
  obtain ⟨q, r, e1, e2, e3, e4, e5⟩ : ∃ q r : Bignum, (∀ n, 2 * (x.mag L).size + 2 < n →
      slowDivLoop L env n ⟨.pos, y.digits⟩ (numeral L .pos 1) n ⟨.pos, x.digits⟩ Bignum.default = .ok (q, r)) ∧
      WF L ⟨.pos, q.digits⟩ ∧ WF L ⟨.pos, r.digits⟩ ∧ q.mag L = x.mag L / y.mag L ∧ r.mag L = x.mag L % y.mag L := by
    by_cases hx0 : x.mag L = 0
    · refine ⟨Bignum.default, ⟨.pos, x.digits⟩, fun n hn => ?_, ⟨.inl rfl, .nil _, .inl (by simp [Bignum.default, NoLeadingZero])⟩,
        ⟨.inl rfl, hx.2⟩, ?_, ?_⟩
      · obtain ⟨k, rfl⟩ : ∃ i, n = i + 1 := ⟨n - 1, by omega⟩
        have hy1 : y.digits ≠ [] := fun h => ym (mag_of_nil h)
        have hlen : x.digits.length ≤ y.digits.length := by
          have := List.length_pos_of_ne_nil hy1
          rcases hx.2.2 with h | h
          · rw [(natOf_eq_zero_iff (by omega) h).1 hx0]; simp
          · rw [h]; exact this
        rw [slowDivLoop]
        show ((⟨.pos, x.digits⟩ : Bignum).ge ⟨.pos, y.digits⟩ >>= _) = _
        have : (⟨.pos, x.digits⟩ : Bignum).ge ⟨.pos, y.digits⟩ = .ok false := by
          show absGe _ _ = _
          rw [absGe_eq hx.2.1 hy.2.1, decide_eq_false]
          rintro (h | ⟨_, h⟩)
          · omega
          · have e : natOf L.base x.digits = 0 := hx0
            have : natOf L.base y.digits ≠ 0 := ym
            omega
        rw [this]
        rfl
      · rw [hx0, Nat.zero_div]; rfl
      · rw [hx0, Nat.zero_mod]; exact hx0
    · have ex : (⟨.pos, x.digits⟩ : Bignum) = numeral L .pos (x.mag L) := eq_numeral hB (c := ⟨.pos, x.digits⟩) hx.2.1 (nlz_of_mag (x := ⟨.pos, x.digits⟩) ⟨.inl rfl, hx.2⟩ hx0)
      refine ⟨numeral L .pos (x.mag L / y.mag L), numeral L .pos (x.mag L % y.mag L), fun n hn => ?_, numeral_wf hB (.inl rfl) _,
        numeral_wf hB (.inl rfl) _, numeral_mag _ _ _, numeral_mag _ _ _⟩
      have h0 : Bignum.default = numeral L .pos 0 := by
        simp [Bignum.default, numeral]
      rw [ex, ey, h0, slowDivLoop_ok hL hm hd (Nat.pos_of_ne_zero ym) (x.mag L).size n (x.mag L) 0 (by omega) ?_ (by rw [Nat.zero_add]; omega) (by omega),
        Nat.zero_add]
      exact lt_of_lt_of_le (Nat.lt_size_self _) (Nat.le_mul_of_pos_left _ (Nat.pos_of_ne_zero ym))
  obtain ⟨d, d1, d2, d3⟩ := setDescriptor_sign x y q
  refine ⟨⟨d, q.digits⟩, ⟨x.desc, r.digits⟩, ⟨2 * (x.mag L).size + 3, fun n hn => ?_⟩, ⟨d1, e2.2⟩, ⟨hx.1, e3.2⟩, signed_div hx.1 hy.1 (d3 hx.1 hy.1) e4,
    signed_mod hx.1 hy.1 rfl e5, d3 hx.1 hy.1, rfl⟩
  show slowDiv L env n x y = _
  have h1 := ofList_one hL hm
  rw [slowDiv, copy_ok hm, ok_bind, copy_ok hm, ok_bind, h1, ok_bind]
  show (slowDivLoop L env n ⟨.pos, y.digits⟩ (numeral L .pos 1) n ⟨.pos, x.digits⟩ Bignum.default >>= _) = _
  rw [e1 n hn, ok_bind]
  show Except.ok (q.setDescriptor _, r.setDescriptor _) = _
  rw [d2]
  have e6 : r.setDescriptor x.getDescriptor = ⟨x.desc, r.digits⟩ := by
    rcases hx.1 with h | h <;> simp [setDescriptor, getDescriptor, h]
  rw [e6]

example := C139_quotient (L := .highp) (.inl .highp) Sample.ample rfl (x := ⟨.neg, [4294967295, 4294967295]⟩) (y := ⟨.pos, [4294967295]⟩)
  (by sample) (by sample) (by sample)

/-! ### Greatest common divisors -/

theorem slowDiv_numerals (hL : Supported L) (hm : env.Ample) (hd : env.debug = false) (a : Nat) {b : Nat} (hb : 0 < b) (hn : a.size + 2 < n) :
    slowDiv L env n (numeral L .pos a) (numeral L .pos b) = .ok (numeral L .pos (a / b), numeral L .pos (a % b)) := by
  have h0 : Bignum.default = numeral L .pos 0 := by
    simp [Bignum.default, numeral]
  rw [slowDiv, copy_ok hm, ok_bind, copy_ok hm, ok_bind, ofList_one hL hm, ok_bind]
  show (slowDivLoop L env n (numeral L .pos b) (numeral L .pos 1) n (numeral L .pos a) Bignum.default >>= _) = _
  rw [h0, slowDivLoop_ok hL hm hd hb a.size n a 0 (by omega) ?_ (by rw [Nat.zero_add]; omega) (by omega), Nat.zero_add]
  · rfl
  · exact lt_of_lt_of_le (Nat.lt_size_self _) (Nat.le_mul_of_pos_left _ hb)

theorem slowGcd_ok (hL : Supported L) (hm : env.Ample) (hd : env.debug = false) : ∀ (k a b : Nat), b < k → a.size + 2 < n → b.size + 2 < n →
    slowGcd L env n k (numeral L .pos a) (numeral L .pos b) = .ok (numeral L .pos (Nat.gcd a b)) := by
  have hB := hL.base_ge
  intro k
  induction k with
  | zero => intro a b h; omega
  | succ k ih =>
    intro a b hk ha hb
    rw [slowGcd]
    by_cases h : b = 0
    · rw [if_pos (by rw [h]; simp [numeral, size]), h, Nat.gcd_zero_right]
    · have hs : (numeral L .pos b).size ≠ 0 := by
        intro h0
        have := mag_of_nil (L := L) (b := numeral L .pos b) (List.length_eq_zero_iff.1 h0)
        rw [numeral_mag] at this
        exact h this
      have hlt := Nat.mod_lt a (Nat.pos_of_ne_zero h)
      rw [if_neg hs, slowDiv_numerals hL hm hd a (Nat.pos_of_ne_zero h) ha, ok_bind]
      show slowGcd L env n k (numeral L .pos b) (numeral L .pos (a % b)) = _
      rw [ih b (a % b) (by omega) hb (by have : (a % b).size ≤ b.size := Nat.size_le_size hlt.le
                                         omega), Nat.gcd_comm, ← Nat.gcd_rec, Nat.gcd_comm]

/-- Euclid's algorithm with that remainder ends with the greatest common divisor, also of equal numbers, for every digit type. -/
theorem C139_gcd (hL : Supported L) (hm : env.Ample) (hd : env.debug = false) {a b : Bignum} (ha : Normal L a) (hb : Normal L b)
    (hpa : a.desc = .pos) (hpb : b.desc = .pos) :
    Evaluates (fun n => slowGcd L env n n a b) (.ok (numeral L .pos (Nat.gcd (a.mag L) (b.mag L)))) := by
  have hB := hL.base_ge
  refine ⟨(a.mag L).size + (b.mag L).size + b.mag L + 3, fun n hn => ?_⟩
  have ea := eq_numeral hB ha.1 ha.2
  have eb := eq_numeral hB hb.1 hb.2
  rw [hpa] at ea
  rw [hpb] at eb
  show slowGcd L env n n a b = _
  rw [ea, eb, numeral_mag, numeral_mag]
  exact slowGcd_ok hL hm hd n _ _ (by omega) (by omega) (by omega)

example := C139_gcd (L := .highp) (.inl .highp) Sample.ample rfl (a := ⟨.pos, [4294967295, 4294967295]⟩) (b := ⟨.pos, [4294967295]⟩)
  ⟨by sample, by sample⟩ ⟨by sample, by sample⟩ (by sample) (by sample)

end BN
