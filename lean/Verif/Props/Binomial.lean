import Verif.Props.Fibonacci
import Verif.Props.Bisect
import Mathlib.Data.Nat.Choose.Basic
/-
C166: binomial coefficients by the multiplicative formula.
-/
namespace BN
open Bignum

/-- One round: `top += one; i += one; c = c * top; c = c / i;` -/
def binomStep {F : Type} (o : FloatOps F) (L : Limits) (env : Env) (n : Nat) (one : Bignum) (s : Bignum × Bignum × Bignum) :
    Res (Bignum × Bignum × Bignum) := do
  let top ← s.2.1.add L env n one
  let i ← s.2.2.add L env n one
  let p ← s.1.mul o L env n top
  let c ← p.div L env n i
  .ok (c, top, i)

def binomLoop {F : Type} (o : FloatOps F) (L : Limits) (env : Env) (n : Nat) (one : Bignum) : Nat → Bignum × Bignum × Bignum → Res Bignum
  | 0, s => .ok s.1
  | k + 1, s => binomStep o L env n one s >>= binomLoop o L env n one k

/-- `n` over `k` with `m = n - k`: `c = {1}; top = m; i = bignum(); for (j = 0; j < k; ++j) round; return c;` -/
def binom {F : Type} (o : FloatOps F) (L : Limits) (env : Env) (n : Nat) (m : Bignum) (k : Nat) : Res Bignum := do
  let one ← ofList env .pos [1]
  binomLoop o L env n one k (one, m, Bignum.default)

variable {L : Limits} {env : Env}

/-- `C(m + j, j) * (m + j + 1) = C(m + j + 1, j + 1) * (j + 1)` -/
theorem choose_step (m j : Nat) : (m + j).choose j * (m + (j + 1)) = (m + (j + 1)).choose (j + 1) * (j + 1) := by
  have := Nat.add_one_mul_choose_eq (m + j) j
  rw [← Nat.add_assoc, Nat.mul_comm]
  exact this

theorem choose_mono_rounds {m j k : Nat} (h : j ≤ k) : (m + j).choose j ≤ (m + k).choose k := by
  rw [← Nat.choose_symm_add, ← Nat.choose_symm_add (a := m) (b := k)]
  exact Nat.choose_le_choose m (by omega)

section
variable {F : Type} {o : FloatOps F} (M : Ieee o) {K : Nat} (hp : Preset L K) (hm : env.Ample) (hd : env.debug = false)
include M hp hm hd

theorem binomStep_eq {m j k : Nat} (h1 : 1 ≤ m) (hj : j < k) (hK : (numeral L .pos ((m + k).choose k * k)).digits.length + 1 ≤ K) {n : Nat}
    (hn : ((m + k).choose k * k + m + k).size + 33 ≤ n) :
    binomStep o L env n (numeral L .pos 1) (numeral L .pos ((m + j).choose j), numeral L .pos (m + j), numeral L .pos j) =
      .ok (numeral L .pos ((m + (j + 1)).choose (j + 1)), numeral L .pos (m + (j + 1)), numeral L .pos (j + 1)) := by
  have hB := hp.custom.supported.base_ge
  have c0 : 0 < (m + j).choose j := Nat.choose_pos (by omega)
  have c1 : 0 < (m + (j + 1)).choose (j + 1) := Nat.choose_pos (by omega)
  have e := choose_step m j
  have b1 : (m + (j + 1)).choose (j + 1) * (j + 1) ≤ (m + k).choose k * k := Nat.mul_le_mul (choose_mono_rounds hj) hj
  have l1 := length_add_le_mul (L := L) hB c0.ne' (show m + (j + 1) ≠ 0 by omega)
  rw [e] at l1
  have l2 := length_numeral_mono (L := L) hB b1
  have z1 : Nat.size 1 = 1 := Nat.size_one
  have s1 := Nat.size_le_size (show m + j ≤ (m + k).choose k * k + m + k by omega)
  have s2 := Nat.size_le_size (show j ≤ (m + k).choose k * k + m + k by omega)
  have s3 := Nat.size_le_size (show (m + (j + 1)).choose (j + 1) * (j + 1) ≤ (m + k).choose k * k + m + k by omega)
  have ne : (m + (j + 1)).choose (j + 1) * (j + 1) ≠ j + 1 := fun h => by
    have h2 : (m + (j + 1)).choose (j + 1) = 1 := Nat.eq_of_mul_eq_mul_right (show 0 < j + 1 by omega) (by omega)
    rw [Nat.choose_eq_one_iff] at h2
    omega
  unfold binomStep
  simp only
  rw [add_numerals hp.custom.supported hm (by omega) (by omega), ok_bind, add_numerals hp.custom.supported hm (by omega) (by omega), ok_bind,
    Nat.add_assoc, pos_mul M hp hm (.inl c0.ne') (by omega) (by omega), ok_bind, e,
    pos_div hp.custom hm hd (by omega) (.inl ne) (by rw [Nat.mul_div_cancel _ (by omega)]; omega) (by omega), ok_bind, Nat.mul_div_cancel _ (by omega)]

theorem binomLoop_eq {m k : Nat} (h1 : 1 ≤ m) (hK : (numeral L .pos ((m + k).choose k * k)).digits.length + 1 ≤ K) {n : Nat}
    (hn : ((m + k).choose k * k + m + k).size + 33 ≤ n) : ∀ i j, j + i = k →
    binomLoop o L env n (numeral L .pos 1) i (numeral L .pos ((m + j).choose j), numeral L .pos (m + j), numeral L .pos j) =
      .ok (numeral L .pos ((m + k).choose k))
  | 0, j, h => by subst h; rfl
  | i + 1, j, h => by
    rw [binomLoop, binomStep_eq M hp hm hd h1 (by omega) hK hn, ok_bind]
    exact binomLoop_eq h1 hK hn i (j + 1) (by omega)

/-- `n` over `k` is right for all `k < n`. -/
theorem C166_binomial_partial {m : Bignum} {k : Nat} (hmw : WF L m) (hm0 : 0 < m.toInt L)
    (hK : (numeral L .pos (((m.toInt L).toNat + k).choose k * k)).digits.length + 1 ≤ K) :
    ∃ r, Evaluates (fun n => binom o L env n m k) (.ok r) ∧ WF L r ∧ r.toInt L = ((m.toInt L).toNat + k).choose k := by
  have hB := hp.custom.supported.base_ge
  have em := eq_pos hB hmw hm0
  have h0 : 1 ≤ (m.toInt L).toNat := by omega
  generalize (m.toInt L).toNat = v at *
  subst em
  refine ⟨numeral L .pos ((v + k).choose k), ⟨((v + k).choose k * k + v + k).size + 33, fun n hn => ?_⟩, numeral_wf hB (.inl rfl) _,
    by rw [toInt_of_pos rfl, numeral_mag]⟩
  simp only [binom]
  rw [ofList_numeral hB hm .pos (by simp; omega), show List.foldl (fun acc x => acc * L.base + x) 0 [1] = 1 by simp, ok_bind]
  have h := binomLoop_eq M hp hm hd h0 hK hn k 0 (by omega)
  rw [Nat.choose_zero_right, Nat.add_zero] at h
  rw [show Bignum.default = numeral L .pos 0 by simp [numeral, Bignum.default]]
  exact h

theorem binomLoop_zero {k : Nat} (hK : (numeral L .pos k).digits.length + 1 ≤ K) : ∀ (i j : Nat) (c : Bignum), j + i = k →
    WF L c → c.desc = .pos → c.mag L = 0 → ∃ r, WF L r ∧ r.desc = .pos ∧ r.mag L = 0 ∧
      ∀ n, k.size + 33 ≤ n → binomLoop o L env n (numeral L .pos 1) i (c, numeral L .pos j, numeral L .pos j) = .ok r
  | 0, j, c, _, h1, h2, h3 => ⟨c, h1, h2, h3, fun _ _ => rfl⟩
  | i + 1, j, c, h, h1, h2, h3 => by
    have hB := hp.custom.supported.base_ge
    have lc : c.digits.length ≤ 1 := by
      rcases wf_cases hB h1.2 with ⟨h | h, -⟩ | ⟨-, h⟩
      · rw [h]; simp
      · rw [h]; simp
      · exact absurd h3 h
    have l1 := length_numeral_mono (L := L) hB (show j + 1 ≤ k by omega)
    have l2 := length_pos (mag_ne_nil (x := numeral L .pos (j + 1)) (L := L) (by rw [numeral_mag]; omega))
    have s1 := Nat.size_le_size (show j ≤ k by omega)
    have z1 : Nat.size 1 = 1 := Nat.size_one
    have wj := numeral_wf (L := L) hB (d := .pos) (.inl rfl) (j + 1)
    have hmul : ∀ n, 32 < n → c.mul o L env n (numeral L .pos (j + 1)) = .ok (numeral L .pos 0) := fun n hn => by
      rw [mul_numeral M hp hm h1 wj (by omega) (by omega) hn, h3, Nat.zero_mul, h2]
      rfl
    obtain ⟨q, q1, q2, q3, q4⟩ := div_numerals hp.custom hm hd (a := 0) (b := j + 1) (by omega) (.inl (by omega))
    rw [Nat.zero_div] at q4
    obtain ⟨r, r2, r3, r4, r1⟩ := binomLoop_zero hK i (j + 1) q (by omega) q2 q3 q4
    refine ⟨r, r2, r3, r4, fun n hn => ?_⟩
    rw [binomLoop]
    unfold binomStep
    simp only
    rw [add_numerals hp.custom.supported hm (by omega) (by omega), ok_bind, ok_bind, hmul n (by omega), ok_bind, q1 n (by simp; omega)]
    exact r1 n hn

/-- `n` over `n` is zero for all `n` above one. -/
theorem C166_whole {k : Nat} (hk : 2 ≤ k) (hK : (numeral L .pos k).digits.length + 1 ≤ K) :
    ∃ r, Evaluates (fun n => binom o L env n Bignum.default k) (.ok r) ∧ WF L r ∧ r.toInt L = 0 := by
  have hB := hp.custom.supported.base_ge
  have z1 : Nat.size 1 = 1 := Nat.size_one
  have z2 : Nat.size 2 = 2 := by decide
  have s1 := Nat.size_le_size hk
  have l1 := length_numeral_mono (L := L) hB hk
  have l2 := length_numeral_mono (L := L) hB (show 1 ≤ 2 by omega)
  have l3 : (numeral L .pos 1).digits.length = 1 := by
    simp only [numeral]
    rw [Nat.length_digits _ _ hB (by omega), Nat.log_one_right]
  obtain ⟨i, rfl⟩ : ∃ i, k = i + 2 := ⟨k - 2, by omega⟩
  obtain ⟨r, r2, r3, r4, r1⟩ := binomLoop_zero M hp hm hd hK i 2 ⟨.pos, [0]⟩ (by omega)
    ⟨.inl rfl, fun x hx => by simp at hx; omega, .inr rfl⟩ rfl (by simp [Bignum.mag])
  refine ⟨r, ⟨(i + 2).size + 33, fun n hn => ?_⟩, r2, by rw [toInt_of_pos r3, r4]; rfl⟩
  simp only [binom]
  rw [ofList_numeral hB hm .pos (by simp; omega), show List.foldl (fun acc x => acc * L.base + x) 0 [1] = 1 by simp, ok_bind,
    show Bignum.default = numeral L .pos 0 by simp [numeral, Bignum.default], binomLoop]
  unfold binomStep
  simp only
  rw [add_numerals hp.custom.supported hm (by omega) (by simp; omega), ok_bind, Nat.zero_add, ok_bind,
    pos_mul M hp hm (.inl (by omega)) (by omega) (by omega), ok_bind, Nat.mul_one, pos_div hp.custom hm hd (by omega) (.inr rfl) (by simp) (by omega),
    ok_bind, ok_bind, binomLoop, Nat.div_one]
  unfold binomStep
  simp only
  rw [add_numerals hp.custom.supported hm (by omega) (by omega), ok_bind, show 1 + 1 = 2 from rfl, ok_bind,
    pos_mul M hp hm (.inl (by omega)) (by omega) (by omega), ok_bind, Nat.one_mul, div_numeral_self hp.custom.supported hm le_rfl]
  exact r1 n hn

end

/-- 10 over 4 is 210. -/
example {F : Type} {o : FloatOps F} (M : Ieee o) : ∃ r, Evaluates (fun n => binom o .base10 releaseEnv n ⟨.pos, [6]⟩ 4) (.ok r) ∧ WF .base10 r ∧
    r.toInt .base10 = 210 := C166_binomial_partial M .base10 releaseEnv_ample rfl (m := ⟨.pos, [6]⟩) (k := 4) (by sample) (by sample)
  (by
    rw [show ((⟨.pos, [6]⟩ : Bignum).toInt .base10).toNat = 6 by decide, show Nat.choose (6 + 4) 4 * 4 = 840 by decide]
    simp [numeral, Limits.base10]; sample)

/-- 5 over 5 is 0. -/
example {F : Type} {o : FloatOps F} (M : Ieee o) : ∃ r, Evaluates (fun n => binom o .base10 releaseEnv n Bignum.default 5) (.ok r) ∧ WF .base10 r ∧
    r.toInt .base10 = 0 := C166_whole M .base10 releaseEnv_ample rfl (k := 5) (by omega) (by simp [numeral, Limits.base10]; sample)

end BN
