import Verif.Lemmas.Samples
import Verif.Props.Sorting
import Mathlib.Data.Nat.Sqrt
/-
C89: integer square root by Newton's iteration, written with the operators.
-/
namespace BN
open Bignum

/-- `for (;;) { y = (x + m / x) / two; if (y >= x) return x; x = y; }` -/
def newtonLoop (L : Limits) (env : Env) (n : Nat) (m two : Bignum) : Nat → Bignum → Res Bignum
  | 0, _ => .error .timeout
  | k + 1, x => do
    let q ← m.div L env n x
    let s ← x.add L env n q
    let y ← s.div L env n two
    if ← y.ge x then .ok x else newtonLoop L env n m two k y

/-- `x = m;` followed by the loop -/
def isqrt (L : Limits) (env : Env) (n : Nat) (m two : Bignum) : Res Bignum := newtonLoop L env n m two n m

theorem toInt_of_pos {L : Limits} {x : Bignum} (h : x.desc = .pos) : x.toInt L = x.mag L := by
  rw [Bignum.toInt, h]
  exact if_neg (by decide)

theorem newton_lower {m g : Nat} (hg : 0 < g) : m < ((g + m / g) / 2 + 1) * ((g + m / g) / 2 + 1) := by
  have h1 : m < g * (m / g + 1) := Nat.lt_mul_div_succ m hg
  generalize m / g = q at *
  have h2 : g + q + 1 ≤ 2 * ((g + q) / 2 + 1) := by omega
  generalize (g + q) / 2 + 1 = t at *
  nlinarith [Nat.mul_le_mul h2 h2, sq_nonneg ((g : ℤ) - (q + 1)), four_mul_le_sq_add g (q + 1)]

theorem newton_upper {m g : Nat} (h : g ≤ (g + m / g) / 2) : g * g ≤ m := by
  have h1 : g ≤ m / g := by omega
  calc g * g ≤ m / g * g := Nat.mul_le_mul_right _ h1
    _ ≤ m := Nat.div_mul_le_self _ _

theorem newton_pos {m g : Nat} (hg : 0 < g) (h : g ≤ m) (h3 : 3 ≤ m) : 3 ≤ g + m / g := by
  have h1 : 1 ≤ m / g := Nat.div_pos h hg
  rcases Nat.lt_or_ge g 2 with h2 | h2
  · have : g = 1 := by omega
    rw [this, Nat.div_one]; omega
  · omega

/-- One round with the exact operations. -/
theorem newton_round {L : Limits} (h : Custom L) {env : Env} (hm : env.Ample) (hd : env.debug = false) {m two x : Bignum} (h2 : WF L two) (hp2 : two.toInt L = 2) {g q : Nat} (hx : WF L x) (hpx : x.desc = .pos) (hxm : x.mag L = g)
    (hgm : g ≤ m.mag L) {c : Bignum} {n : Nat} (hc : m.div L env n x = .ok c) (hcw : WF L c) (hpc : c.desc = .pos)
    (hcm : c.mag L = q) (hqm : q ≤ m.mag L) (hs : 3 ≤ g + q) (hn : (m.mag L).size + 4 ≤ n) (k : Nat) (h0 : 0 < g) :
    newtonLoop L env n m two (k + 1) x =
      if g ≤ (g + q) / 2 then .ok x else newtonLoop L env n m two k (numeral L .pos ((g + q) / 2)) := by
  have hL := h.supported
  have hB := hL.base_ge
  have hpos2 : two.desc = .pos ∧ two.mag L = 2 := by
    rcases h2.1 with h | h
    · unfold Bignum.toInt at hp2; rw [h] at hp2; simp at hp2; exact ⟨h, by omega⟩
    · unfold Bignum.toInt at hp2; rw [h] at hp2; simp at hp2; omega
  obtain ⟨s, s1, s2, s3, s4⟩ := add_pos hL hm hx hcw (hpc.trans hpx.symm)
  have hsz : (g + q).size ≤ (m.mag L).size + 1 := by
    rw [Nat.size_le]
    have := Nat.lt_size_self (m.mag L)
    rw [pow_succ]; omega
  obtain ⟨y, y1, y2, y3, y4⟩ := div_obj h hm hd s2 h2 (by omega) (.inl (by rw [s4]; omega))
  have hym : y.mag L = (g + q) / 2 := by rw [y4, s4, hpos2.2, hxm, hcm]
  have hyp : y.desc = .pos := by rw [y3, s3, hpx, hpos2.1]; rfl
  have hxl := size_bound hB hx
  have hcl := size_bound hB hcw
  have hxs : (x.mag L).size ≤ (m.mag L).size := Nat.size_le_size (by omega)
  have hcs : (c.mag L).size ≤ (m.mag L).size := Nat.size_le_size (by omega)
  have hyz := nlz_of_mag y2 (by omega)
  rw [newtonLoop, hc, ok_bind, s1 n (by omega), ok_bind, y1 n (by rw [s4, hxm, hcm]; omega), ok_bind,
    (C03_ge_le_nonneg L y x ⟨y2.2.1, hyz⟩ ⟨hx.2.1, nlz_of_mag hx (by omega)⟩ hyp hpx).1, ok_bind, toInt_of_pos hyp, toInt_of_pos hpx, hym, hxm]
  by_cases hle : g ≤ (g + q) / 2
  · rw [if_pos hle, decide_eq_true (by exact_mod_cast hle), if_pos rfl]
  · rw [if_neg hle, decide_eq_false (by exact_mod_cast hle), if_neg (by simp), eq_numeral hB y2.2.1 hyz, hyp, hym]

theorem newton_loop {L : Limits} (h : Custom L) {env : Env} (hm : env.Ample) (hd : env.debug = false) {m two : Bignum} (hmw : WF L m)
    (hpm : m.desc = .pos) (h2 : WF L two) (hp2 : two.toInt L = 2) (h3 : 3 ≤ m.mag L) {n : Nat} (hn : (m.mag L).size + 4 ≤ n) (g : Nat) :
    ∀ {k : Nat}, 0 < g → g < m.mag L → g < k → m.mag L < (g + 1) * (g + 1) →
    newtonLoop L env n m two k (numeral L .pos g) = .ok (numeral L .pos (Nat.sqrt (m.mag L))) := by
  have hB := h.supported.base_ge
  induction g using Nat.strong_induction_on with
  | _ g ih =>
    intro k h0 hg hk hlow
    obtain ⟨k, rfl⟩ : ∃ j, k = j + 1 := ⟨k - 1, by omega⟩
    have hx := numeral_wf (L := L) hB (.inl rfl) g (d := .pos)
    obtain ⟨c, c1, c2, c3, c4⟩ := div_obj h hm hd hmw hx (by rw [numeral_mag]; omega) (.inl (by rw [numeral_mag]; omega))
    rw [numeral_mag] at c4
    rw [newton_round h hm hd h2 hp2 hx rfl (numeral_mag _ _ _) hg.le (c1 n (by omega)) c2 (by rw [c3, hpm]; rfl) c4
      (Nat.div_le_self _ _) (newton_pos h0 hg.le h3) hn k h0]
    split
    · next hle =>
      rw [Nat.eq_sqrt.2 ⟨newton_upper hle, hlow⟩]
    · next hle =>
      have := newton_pos h0 hg.le h3
      exact ih _ (by omega) (by omega) (by omega) (by omega) (newton_lower h0)

/-- C89: for every number from 3 on, in every custom base, the iteration returns the integer square root. Missing: 1 and 2, see
`C89_refuted`; 0 is `C89_zero`. -/
theorem C89_sqrt_partial {L : Limits} (h : Custom L) {env : Env} (hm : env.Ample) (hd : env.debug = false) {m two : Bignum} (hmw : WF L m)
    (hpm : m.desc = .pos) (h2 : WF L two) (hp2 : two.toInt L = 2) (h3 : 3 ≤ m.toInt L) :
    ∃ r, Evaluates (fun n => isqrt L env n m two) (.ok r) ∧ WF L r ∧ r.toInt L = Nat.sqrt (m.toInt L).toNat := by
  have hB := h.supported.base_ge
  rw [toInt_of_pos hpm] at h3 ⊢
  replace h3 : 3 ≤ m.mag L := by omega
  refine ⟨numeral L .pos (Nat.sqrt (m.mag L)), ⟨(m.mag L) + 4 + (m.mag L).size, fun n hn => ?_⟩, numeral_wf hB (.inl rfl) _, ?_⟩
  · show newtonLoop L env n m two n m = _
    obtain ⟨k, rfl⟩ : ∃ j, n = j + 1 := ⟨n - 1, by omega⟩
    have e1 : m.div L env (k + 1) m = .ok ⟨.pos, [0]⟩ := by
      unfold Bignum.div viaCopy
      rw [copy_ok hm, ok_bind, C32_self_division_is_zero h.supported (r := .other m) hmw hmw rfl (by omega)]
      show Except.ok (⟨signRule m.desc m.desc, [0]⟩ : Bignum) = _
      rw [hpm]; rfl
    rw [newton_round h hm hd h2 hp2 hmw hpm rfl le_rfl e1
      ⟨.inl rfl, by intro d hd; rw [List.mem_singleton.1 hd]; omega, .inr rfl⟩ rfl (q := 0) (by rfl) (by omega) (by omega) (by omega) k (by omega),
      if_neg (by omega)]
    exact newton_loop h hm hd hmw hpm h2 hp2 h3 (by omega) _ (by omega) (by omega) (by omega) (by
      have : m.mag L + 0 < 2 * ((m.mag L + 0) / 2 + 1) := by omega
      have : 2 ≤ (m.mag L + 0) / 2 + 1 := by omega
      nlinarith)
  · rw [toInt_of_pos rfl, numeral_mag]; rfl

example : ∃ m two : Bignum, Custom .base10 ∧ releaseEnv.Ample ∧ WF .base10 m ∧ m.desc = .pos ∧ m.toInt .base10 = 99 ∧ WF .base10 two ∧
    two.toInt .base10 = 2 :=
  ⟨⟨.pos, [9, 9]⟩, ⟨.pos, [2]⟩, custom_base10, releaseEnv_ample,
    by simp [WF, Signed, WFDigits, InRange, NoLeadingZero, Limits.base, Limits.base10, Limits.custom], rfl, by decide,
    by simp [WF, Signed, WFDigits, InRange, NoLeadingZero, Limits.base, Limits.base10, Limits.custom], by decide⟩

/-- Zero, with or without a digit, is returned at once. -/
theorem C89_zero {L : Limits} (h : Supported L) {env : Env} (hm : env.Ample) {m two : Bignum} (hpm : m.desc = .pos)
    (hm0 : m.digits = [] ∨ m.digits = [0]) (h2 : WF L two) (hp2 : two.toInt L = 2) :
    Evaluates (fun n => isqrt L env n m two) (.ok m) := by
  have hB := h.base_ge
  have hpos2 : two.desc = .pos ∧ two.digits ≠ [0] := by
    constructor
    · rcases h2.1 with h | h
      · exact h
      · unfold Bignum.toInt at hp2; rw [h] at hp2; simp at hp2; omega
    · intro h0
      have : two.mag L = 0 := by show natOf _ two.digits = 0; rw [h0]; rfl
      unfold Bignum.toInt at hp2; rw [this] at hp2; simp at hp2
  have hmw : WF L m := by
    rcases hm0 with h0 | h0
    · exact ⟨.inl hpm, by rw [h0]; exact .nil _, .inl (by rw [h0]; simp [NoLeadingZero])⟩
    · exact ⟨.inl hpm, by intro d hd; rw [h0] at hd; rw [List.mem_singleton.1 hd]; omega, .inr h0⟩
  obtain ⟨q, hq, n₀, y, y1, y2, y3⟩ : ∃ q, (∀ n, m.div L env n m = .ok q) ∧ ∃ n₀ y, (∀ n, n₀ ≤ n → m.add L env n q = .ok y) ∧ y.desc = .pos ∧
      (y.digits = [] ∨ y.digits = [0]) ∧ absGe y.digits m.digits = .ok true := by
    rcases hm0 with h0 | h0
    · refine ⟨m, fun n => ?_, m.digits.length + 1, ⟨.pos, [0]⟩, fun n hn => ?_, rfl, .inr rfl, ?_⟩
      · unfold Bignum.div viaCopy
        rw [copy_ok hm, ok_bind, C35_div_of_zero (.inl hpm) (.inl hpm) (.inl h0) (by rw [h0]; simp), hpm, h0]
        obtain ⟨d, l⟩ := m
        cases hpm; cases h0; rfl
      · unfold Bignum.add viaCopy
        rw [copy_ok hm, ok_bind, addAssign_same_ok h hm (r := .other m) (.inl hpm) rfl hmw.2.1 hmw.2.1 (by
          show max m.digits.length m.digits.length < n; omega)]
        show Except.ok (⟨m.desc, addFull L.base m.digits m.digits 0⟩ : Bignum) = _
        rw [hpm, h0]; simp [addFull]
      · rw [h0]; rfl
    · refine ⟨⟨.posInf, []⟩, fun n => ?_, m.digits.length + 1, ⟨.pos, [0]⟩, fun n hn => ?_, rfl, .inr rfl, ?_⟩
      · unfold Bignum.div viaCopy
        rw [copy_ok hm, ok_bind, C33_div_by_digit_zero (r := .other m) (.inl hpm) (.inl hpm) h0, if_pos (show m.desc = ((Rhs.other m).get m).desc from rfl)]
      · unfold Bignum.add viaCopy
        rw [copy_ok hm, ok_bind, addAssign_signed (.inl hpm), addTry_special (by simp [Signed]), absAdd_ok h env hmw.2.1
          (by simp [Src.get, InRange]) (by simp [Src.get]; omega) (fun _ _ _ => hm _), hpm, h0]
        show Except.ok (⟨.pos, addFull L.base [0] [] 0⟩ : Bignum) = _
        simp [addFull, addRest]
      · rw [h0]; rfl
  refine ⟨n₀ + 1, fun n hn => ?_⟩
  show newtonLoop L env n m two n m = _
  obtain ⟨k, rfl⟩ : ∃ j, n = j + 1 := ⟨n - 1, by omega⟩
  have e3 : y.div L env (k + 1) two = .ok y := by
    unfold Bignum.div viaCopy
    rw [copy_ok hm, ok_bind, C35_div_of_zero (.inl y2) h2.1 y3.1 hpos2.2]
    show Except.ok (⟨signRule y.desc two.desc, y.digits⟩ : Bignum) = _
    rw [hpos2.1, y2]; cases y; cases y2; rfl
  have e4 : y.ge m = .ok true := by
    unfold Bignum.ge
    rw [y2, hpm]
    exact y3.2
  rw [newtonLoop, hq, ok_bind, y1 _ (by omega), ok_bind, e3, ok_bind, e4]
  rfl

example := C89_zero (L := .base10) (.inr Sample.base10) Sample.ample (m := ⟨.pos, [0]⟩) (two := Sample.n2) rfl (.inr rfl) (by sample) (by sample)

/-- For every supported digit type and build 1 and 2 give 0: the loop computes 2 / 2 = 0. Together with `C89_sqrt_partial` and `C89_zero`: exactly
1 and 2 are wrong. -/
theorem C89_one_two {L : Limits} (h : Supported L) {env : Env} (hm : env.Ample) {m two : Bignum} (hmw : WF L m)
    (h2 : WF L two) (hp2 : two.toInt L = 2) (h1 : m.toInt L = 1 ∨ m.toInt L = 2) :
    Evaluates (fun n => isqrt L env n m two) (.ok ⟨.pos, [0]⟩) := by
  have hB := h.base_ge
  have pos : ∀ x : Bignum, WF L x → 0 < x.toInt L → x.desc = .pos ∧ (x.mag L : Int) = x.toInt L := by
    intro x hx h0
    rcases hx.1 with hd | hd
    · exact ⟨hd, (toInt_of_pos hd).symm⟩
    · unfold Bignum.toInt at h0; rw [hd] at h0; simp at h0; omega
  obtain ⟨d2, m2⟩ := pos two h2 (by omega)
  obtain ⟨dm, mm⟩ := pos m hmw (by omega)
  have m2 : two.mag L = 2 := by omega
  have hm12 : m.mag L = 1 ∨ m.mag L = 2 := by omega
  have n2 : two.digits ≠ [0] := by
    intro h0
    have : two.mag L = 0 := by show natOf _ two.digits = 0; rw [h0]; rfl
    omega
  have w0 : WF L ⟨.pos, [0]⟩ := ⟨.inl rfl, by intro d hd; rw [List.mem_singleton.1 hd]; omega, .inr rfl⟩
  -- the quotient m / m and the sum with it, which is 2
  obtain ⟨q, hq, qw, qd, qm⟩ : ∃ q, (∀ n, m.div L env n m = .ok q) ∧ WF L q ∧ q.desc = m.desc ∧ m.mag L + q.mag L = 2 := by
    rcases hm12 with e | e
    · have md : m.digits = [1] := by
        rw [eq_numeral hB hmw.2.1 (nlz_of_mag hmw (by omega)), e]
        show Nat.digits L.base 1 = [1]
        exact Nat.digits_of_lt _ _ (by omega) (by omega)
      have me : m = ⟨.pos, [1]⟩ := by cases m; cases dm; cases md; rfl
      refine ⟨m, fun n => ?_, hmw, rfl, by omega⟩
      unfold Bignum.div viaCopy
      rw [copy_ok hm, ok_bind, divAssign_by_one (r := .other m) hmw.1 md, dm, md, me]
      rfl
    · refine ⟨⟨.pos, [0]⟩, fun n => ?_, w0, dm.symm, ?_⟩
      · unfold Bignum.div viaCopy
        rw [copy_ok hm, ok_bind, C32_self_division_is_zero h (r := .other m) hmw hmw rfl (by omega)]
        show Except.ok (⟨signRule m.desc m.desc, [0]⟩ : Bignum) = _
        rw [dm]; rfl
      · rw [e]; rfl
  obtain ⟨s, s1, s2, s3, s4⟩ := add_pos h hm hmw qw qd
  have e3 : ∀ n, s.div L env n two = .ok ⟨.pos, [0]⟩ := by
    intro n
    unfold Bignum.div viaCopy
    rw [copy_ok hm, ok_bind, C32_self_division_is_zero h (r := .other two) s2 h2 (by show s.mag L = two.mag L; omega) (by omega)]
    show Except.ok (⟨signRule s.desc two.desc, [0]⟩ : Bignum) = _
    rw [s3, dm, d2]; rfl
  have e4 : (⟨.pos, [0]⟩ : Bignum).ge m = .ok false := by
    unfold Bignum.ge
    rw [dm]
    show absGe [0] m.digits = .ok false
    rw [absGe_eq (B := L.base) w0.2.1 hmw.2.1]
    have e0 : natOf L.base [0] = 0 := rfl
    have e1 : natOf L.base m.digits = m.mag L := rfl
    have e5 : 1 ≤ m.digits.length := by
      rcases hd : m.digits with _ | ⟨a, l⟩
      · rw [hd] at e1; rw [← e1] at hm12; simp at hm12
      · simp
    congr 1
    rw [decide_eq_false_iff_not, e0, e1]
    simp only [List.length_singleton]
    omega
  -- the second round
  have f1 : ∀ n, m.div L env n ⟨.pos, [0]⟩ = .ok ⟨.posInf, []⟩ := by
    intro n
    unfold Bignum.div viaCopy
    rw [copy_ok hm, ok_bind, C33_div_by_digit_zero (r := .other ⟨.pos, [0]⟩) hmw.1 (.inl rfl) rfl,
      if_pos (show m.desc = ((Rhs.other ⟨.pos, [0]⟩).get m).desc from dm)]
  have f2 : ∀ n, 1 < n → (⟨.pos, [0]⟩ : Bignum).add L env n ⟨.posInf, []⟩ = .ok ⟨.pos, [0]⟩ := by
    intro n hn
    unfold Bignum.add viaCopy
    rw [copy_ok hm, ok_bind, addAssign_signed (.inl rfl), addTry_special (by simp [Signed]), absAdd_ok h env w0.2.1
      (by simp [Src.get, InRange]) (by simp [Src.get]; omega) (fun _ _ _ => hm _)]
    show Except.ok (⟨.pos, addFull L.base [0] [] 0⟩ : Bignum) = _
    simp [addFull, addRest]
  have f3 : ∀ n, (⟨.pos, [0]⟩ : Bignum).div L env n two = .ok ⟨.pos, [0]⟩ := by
    intro n
    unfold Bignum.div viaCopy
    rw [copy_ok hm, ok_bind, C35_div_of_zero (.inl rfl) h2.1 (.inr rfl) n2]
    show Except.ok (⟨signRule .pos two.desc, [0]⟩ : Bignum) = _
    rw [d2]; rfl
  refine ⟨max m.digits.length q.digits.length + 2, fun n hn => ?_⟩
  show newtonLoop L env n m two n m = _
  obtain ⟨k, rfl⟩ : ∃ j, n = j + 2 := ⟨n - 2, by omega⟩
  rw [newtonLoop, hq, ok_bind, s1 _ (by omega), ok_bind, e3, ok_bind, e4, ok_bind, if_neg (by simp), newtonLoop, f1, ok_bind,
    f2 _ (by omega), ok_bind, f3, ok_bind]
  rfl

example := C89_one_two (L := .base2) (.inr Sample.base2) Sample.ample (m := ⟨.pos, [1]⟩) (two := ⟨.pos, [0, 1]⟩) (by sample) (by sample)
  (by sample) (.inl (by sample))

/-- 1 and 2 give 0: the loop computes 2 / 2 = 0. -/
theorem C89_refuted :
    Evaluates (fun n => isqrt .base10 releaseEnv n ⟨.pos, [1]⟩ ⟨.pos, [2]⟩) (.ok ⟨.pos, [0]⟩) ∧
    Evaluates (fun n => isqrt .base10 releaseEnv n ⟨.pos, [2]⟩ ⟨.pos, [2]⟩) (.ok ⟨.pos, [0]⟩) := by
  constructor <;> refine ⟨10, fun n hn => ?_⟩ <;> obtain ⟨k, rfl⟩ : ∃ j, n = j + 10 := ⟨n - 10, by omega⟩
  · rfl
  · rfl

end BN
