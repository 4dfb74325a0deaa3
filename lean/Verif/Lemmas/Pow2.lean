import Verif.Model.Fourier
import Mathlib.Tactic.ByContra
/-
Bit smearing.
-/
namespace BN

/-- `x` has bit i exactly when `m` has a bit in [i, i + w). -/
def Window (m w x : Nat) : Prop := ∀ i, x.testBit i = true ↔ ∃ j, j < w ∧ m.testBit (i + j) = true

theorem Window.base (m : Nat) : Window m 1 m := by
  intro i; constructor
  · intro h; exact ⟨0, by omega, by simpa using h⟩
  · rintro ⟨j, hj, h⟩; have : j = 0 := by omega
    subst this; simpa using h

theorem Window.step {m w x : Nat} (h : Window m w x) : Window m (w + w) (x ||| (x >>> w)) := by
  intro i
  rw [Nat.testBit_or, Nat.testBit_shiftRight, Bool.or_eq_true, h i, h (w + i)]
  constructor
  · rintro (⟨j, hj, h'⟩ | ⟨j, hj, h'⟩)
    · exact ⟨j, by omega, h'⟩
    · exact ⟨w + j, by omega, by rw [show i + (w + j) = w + i + j by omega]; exact h'⟩
  · rintro ⟨j, hj, h'⟩
    by_cases hjw : j < w
    · exact .inl ⟨j, hjw, h'⟩
    · exact .inr ⟨j - w, by omega, by rw [show w + i + (j - w) = i + j by omega]; exact h'⟩

/-- Smearing over 32 bits fills everything below the top bit. -/
theorem smear_eq {m x k : Nat} (h : Window m 32 x) (hk : m < 2 ^ k) (hk' : 2 ^ k ≤ 2 * m) (hk32 : k ≤ 32) : x = 2 ^ k - 1 := by
  apply Nat.eq_of_testBit_eq
  intro i
  rw [Nat.testBit_two_pow_sub_one, Bool.eq_iff_iff, h i, decide_eq_true_eq]
  constructor
  · rintro ⟨j, -, hj⟩
    by_contra hc
    have : m < 2 ^ (i + j) := Nat.lt_of_lt_of_le hk (Nat.pow_le_pow_right (by omega) (by omega))
    rw [Nat.testBit_lt_two_pow this] at hj
    cases hj
  · intro hi
    obtain ⟨k, rfl⟩ : ∃ k', k = k' + 1 := ⟨k - 1, by omega⟩
    refine ⟨k - i, by omega, ?_⟩
    rw [show i + (k - i) = k by omega]
    have h2 : 2 ^ k ≤ m := by rw [Nat.pow_succ] at hk'; omega
    have hdiv : m / 2 ^ k = 1 := by
      rw [Nat.pow_succ] at hk
      apply Nat.div_eq_of_lt_le
      · omega
      · omega
    rw [Nat.testBit_eq_decide_div_mod_eq, hdiv]; rfl

theorem exists_bracket (m : Nat) (h : 0 < m) : ∃ k, m < 2 ^ k ∧ 2 ^ k ≤ 2 * m := by
  refine ⟨Nat.log2 m + 1, Nat.lt_log2_self, ?_⟩
  have := Nat.log2_self_le (n := m) (by omega)
  rw [Nat.pow_succ]; omega

theorem nextPow2_eq {n : Nat} (h1 : 1 ≤ n) (h2 : n ≤ 2 ^ 32) : ∃ k, k ≤ 32 ∧ nextPow2 n = 2 ^ k ∧ n ≤ 2 ^ k ∧ 2 ^ k < 2 * n := by
  have hw : Window (n - 1) 32 (nextPow2 n - 1) ∧ nextPow2 n ≠ 0 := by
    have w := (Window.base (n - 1)).step.step.step.step.step
    unfold nextPow2
    rw [if_neg (by omega)]
    simp only at w ⊢
    have hlt : ∀ x s, x < 2 ^ 32 → x ||| (x >>> s) < 2 ^ 32 := by
      intro x s hx
      refine Nat.or_lt_two_pow hx ?_
      exact Nat.lt_of_le_of_lt (Nat.shiftRight_le _ _) hx
    have hb := hlt _ 16 (hlt _ 8 (hlt _ 4 (hlt _ 2 (hlt (n - 1) 1 (by omega)))))
    rw [Nat.mod_eq_of_lt (by omega)]
    exact ⟨w, by omega⟩
  rcases Nat.lt_or_ge n 2 with h | h
  · have : n = 1 := by omega
    subst this
    exact ⟨0, by omega, by decide, by omega, by omega⟩
  · obtain ⟨k, hk1, hk2⟩ := exists_bracket (n - 1) (by omega)
    have hk32 : k ≤ 32 := by
      by_contra hc
      have : 2 ^ 33 ≤ 2 ^ k := Nat.pow_le_pow_right (by omega) (by omega)
      omega
    have := smear_eq hw.1 hk1 hk2 hk32
    have hpos : 0 < 2 ^ k := Nat.pow_pos (by omega)
    exact ⟨k, hk32, by omega, by omega, by omega⟩

theorem isPow2_iff (n : Nat) : isPow2 n = true ↔ ∃ k, n = 2 ^ k := by
  unfold isPow2
  rw [Bool.and_eq_true, decide_eq_true_eq, beq_iff_eq]
  exact Nat.ne_zero_and_sub_one_eq_zero_iff_isPowerOfTwo

/-- The table length: the least power of two at least the total length. -/
theorem fftTableSize_eq {a b : Nat} (h1 : 1 ≤ a + b) (h2 : a + b ≤ 2 ^ 32) :
    ∃ k, k ≤ 32 ∧ fftTableSize a b = 2 ^ k ∧ a + b ≤ 2 ^ k ∧ 2 ^ k < 2 * (a + b) := by
  unfold fftTableSize
  by_cases hp : isPow2 (a + b) = true
  · simp only [hp, Bool.not_true, Bool.false_eq_true, if_false]
    obtain ⟨k, hk⟩ := (isPow2_iff _).1 hp
    refine ⟨k, ?_, hk, by omega, by omega⟩
    by_contra hc
    have : 2 ^ 33 ≤ 2 ^ k := Nat.pow_le_pow_right (by omega) (by omega)
    omega
  · simp only [Bool.not_eq_true] at hp
    simp only [hp, Bool.not_false, if_true]
    exact nextPow2_eq h1 h2

end BN
