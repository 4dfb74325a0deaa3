import Verif.Props.Clock
import Verif.Lemmas.ClockCount
/-
C154: the number of floating-point operations of a transform and of a product.
-/
namespace BN
open Bignum

variable {F : Type}

/-- The code needs `c` floating-point operations, whenever it is started and if it returns. -/
def Operations {α : Type} (m : Timed α) (c : Nat) : Prop := ∀ start a stop, m start = .ok (a, stop) → stop = start + c

/-- C154: a transform of 2^k points returns after 15/2 k 2^k floating-point operations (7 for the twiddle factor and 8 for the
butterfly of two points at each level), whatever the points are, whatever the arithmetic does, and at whatever time it starts. -/
theorem C154_fft (O : Nat → FloatOps F) {n k : Nat} (hn : k < n) {x : List (Cx F)} (hx : x.length = 2 ^ k) (start : Nat) :
    ∃ y, fftComplexT O n x start = .ok (y, start + 15 * (k * 2 ^ k) / 2) ∧ y.length = 2 ^ k := by
  have hr := runs_fftT O (k := k) (f := fun i => x.getD i ⟨(O 0).pi, (O 0).pi⟩) hn
  rw [← eq_tab hx] at hr
  obtain ⟨y, t, e, f, rfl⟩ := hr start
  obtain ⟨rfl, -⟩ := ticks_fftT O k n x hx start _ t e
  exact ⟨_, e, tab_length _ _⟩

example (O : Nat → FloatOps B64) := C154_fft O (n := 5) (k := 1) (by decide) exampleData64_ok.1 17

/-- C154: the inverse transform makes 4 more for every point, and one for the length. -/
theorem C154_ifft (O : Nat → FloatOps F) {n k : Nat} (hn : k < n) {x : List (Cx F)} (hx : x.length = 2 ^ k) (start : Nat) :
    ∃ y, ifftComplexT O n x start = .ok (y, start + (15 * (k * 2 ^ k) / 2 + 4 * 2 ^ k + 1)) ∧ y.length = 2 ^ k := by
  have hr := runs_ifftT O (k := k) (f := fun i => x.getD i ⟨(O 0).pi, (O 0).pi⟩) hn
  rw [← eq_tab hx] at hr
  obtain ⟨y, t, e, f, rfl⟩ := hr start
  obtain ⟨rfl, -⟩ := ticks_ifftT O k n x hx start _ t e
  exact ⟨_, e, tab_length _ _⟩

example (O : Nat → FloatOps B64) := C154_ifft O (n := 5) (k := 1) (by decide) exampleData64_ok.1 17

/-- C154: a product of numbers with d digits together makes N (15 log2 N + 21) + 1 operations, where N is the least power of two from d
on. -/
theorem C154_product (O : Nat → FloatOps F) (L : Limits) (env : Env) (n : Nat) {a b : List Nat} (h1 : 1 ≤ a.length + b.length)
    (h2 : a.length + b.length ≤ 2 ^ 32) : ∃ k, a.length + b.length ≤ 2 ^ k ∧ 2 ^ k < 2 * (a.length + b.length) ∧
      Operations (mulStrassenT O L env n a b) (2 ^ k * (15 * k + 21) + 1) := by
  obtain ⟨k, -, hs, h3, h4⟩ := fftTableSize_eq h1 h2
  exact ⟨k, h3, h4, fun t a' t' h => (ticks_mulStrassenT O L env n a b hs t a' t' h).1⟩

example (O : Nat → FloatOps B64) := C154_product O .highp releaseEnv 40 (a := [1, 2, 3]) (b := [4, 5]) (by decide) (by decide)

/-- C154: so d digits together need fewer than 2 d (15 log2 d + 36) + 1 operations. -/
theorem C154_bound (O : Nat → FloatOps F) (L : Limits) (env : Env) (n : Nat) {a b : List Nat} (h1 : 1 ≤ a.length + b.length)
    (h2 : a.length + b.length ≤ 2 ^ 32) : ∃ c, Operations (mulStrassenT O L env n a b) c ∧
      c ≤ 2 * (a.length + b.length) * (15 * Nat.log 2 (a.length + b.length) + 36) + 1 := by
  obtain ⟨k, h3, h4, h5⟩ := C154_product O L env n h1 h2
  refine ⟨_, h5, ?_⟩
  have hk : k ≤ Nat.log 2 (a.length + b.length) + 1 := by
    have : 2 ^ k < 2 ^ (Nat.log 2 (a.length + b.length) + 2) := by
      have := Nat.lt_pow_succ_log_self (b := 2) (by norm_num) (a.length + b.length)
      rw [pow_succ]
      omega
    have := (Nat.pow_lt_pow_iff_right (by norm_num : 1 < 2)).1 this
    omega
  have := Nat.mul_le_mul h4.le (show 15 * k + 21 ≤ 15 * Nat.log 2 (a.length + b.length) + 36 by omega)
  omega

example (O : Nat → FloatOps B64) := C154_bound O .highp releaseEnv 40 (a := [1, 2, 3]) (b := [4, 5]) (by decide) (by decide)

/-- C154: and with the laws of `LawfulAt` at every moment the product does return, after that many operations. -/
theorem C154_returns {val : F → ℝ} {fin : F → Prop} {O : Nat → FloatOps F} (M : ∀ t, LawfulAt .anyMode val fin (O t)) {L : Limits} {K : Nat}
    (hp : ModePreset L K) {env : Env} (hm : env.Ample) {a b : List Nat} (ha : WFDigits L.base a) (hb : WFDigits L.base b)
    (h1 : 1 ≤ a.length + b.length) (h2 : a.length + b.length ≤ K) {n : Nat} (hn : 32 < n) :
    ∃ k, a.length + b.length ≤ 2 ^ k ∧ 2 ^ k < 2 * (a.length + b.length) ∧
      mulStrassenT O L env n a b 0 = .ok (Nat.digits L.base (natOf L.base a * natOf L.base b), 2 ^ k * (15 * k + 21) + 1) := by
  have hK : K ≤ 2 ^ 32 := by cases hp <;> norm_num
  obtain ⟨k, h3, h4, h5⟩ := C154_product O L env n h1 (h2.trans hK)
  refine ⟨k, h3, h4, ?_⟩
  have h := exactProductsT_anyMode M hp env a b n ha hb h1 h2 hn (hm _)
  unfold Timed.outcome at h
  split at h
  · rename_i c t e
    rw [e, Except.ok.inj h, h5 0 c t e, Nat.zero_add]
  · cases h

example := C154_returns (fun t => C153_binary64 (exampleClock_ok t)) .base10 Sample.ample
  (a := Sample.n199.digits) (b := Sample.m23.digits) (by sample) (by sample) (by decide) (by decide) (n := 33) (by decide)

end BN
