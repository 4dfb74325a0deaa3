import Verif.Lemmas.Dft
import Verif.Lemmas.FftShape
/-
The transforms evaluated in exact real arithmetic.
-/
namespace BN
open Complex Finset

/-- Exact real arithmetic as floating-point operations. -/
noncomputable def exactOps : FloatOps ℝ where
  ofNat n := n
  add x y := x + y
  sub x y := x - y
  mul x y := x * y
  mulSub x y z w := x * y - z * w
  mulAdd x y z w := x * y + z * w
  div x y := x / y
  neg x := -x
  cos := Real.cos
  sin := Real.sin
  floor x := (⌊x⌋ : ℤ)
  trunc x := if 0 ≤ x then ⌊x⌋ else ⌈x⌉
  pi := Real.pi
  negTwo := -2
  half := 1 / 2
  quarter := 1 / 4

/-- The complex number denoted by a pair. -/
def toC (x : Cx ℝ) : ℂ := ⟨x.re, x.im⟩

theorem toC_add (x y : Cx ℝ) : toC (Cx.add exactOps x y) = toC x + toC y := by
  apply Complex.ext <;> rfl
theorem toC_sub (x y : Cx ℝ) : toC (Cx.sub exactOps x y) = toC x - toC y := by
  apply Complex.ext <;> rfl
theorem toC_mul (x y : Cx ℝ) : toC (Cx.mul exactOps x y) = toC x * toC y := by
  apply Complex.ext
  · simp [toC, Cx.mul, exactOps]
  · simp [toC, Cx.mul, exactOps]
theorem toC_conj (x : Cx ℝ) : toC (Cx.conj exactOps x) = (starRingEnd ℂ) (toC x) := by
  apply Complex.ext <;> simp [toC, Cx.conj, exactOps]
theorem toC_divBy (x : Cx ℝ) (n : ℕ) : toC (Cx.divBy exactOps x (exactOps.ofNat n)) = toC x / n := by
  apply Complex.ext <;> simp [toC, Cx.divBy, exactOps]

/-- Powers of the root in terms of cosine and sine. -/
theorem rt_pow_eq (k j : ℕ) : rt k ^ j = ⟨Real.cos (-2 * j * Real.pi / (2 ^ k : ℕ)), Real.sin (-2 * j * Real.pi / (2 ^ k : ℕ))⟩ := by
  unfold rt
  rw [← exp_nat_mul]
  have e : (j : ℂ) * -(2 * Real.pi * I / (2 ^ k : ℕ)) = ((-2 * j * Real.pi / (2 ^ k : ℕ) : ℝ) : ℂ) * I := by
    push_cast; ring
  rw [e]
  apply Complex.ext
  · rw [exp_ofReal_mul_I_re]
  · rw [exp_ofReal_mul_I_im]

theorem toC_twiddle (k j : ℕ) : toC (twiddle exactOps (2 ^ k) j) = rt k ^ j := by
  rw [rt_pow_eq]; rfl

theorem toC_fftF : ∀ (k : ℕ) (f : ℕ → Cx ℝ) (j : ℕ), j < 2 ^ k →
    toC (fftF exactOps k f j) = dft k (fun t => toC (f t)) j
  | 0, f, j, _ => by rw [fftF, dft_zero]
  | k + 1, f, j, hj => by
    rw [dft_rec, fftF]
    split
    · rename_i h
      rw [toC_add, toC_mul, toC_twiddle, toC_fftF k _ j h, toC_fftF k _ j h]
    · rename_i h
      have h' : j - 2 ^ k < 2 ^ k := by rw [pow_succ] at hj; omega
      rw [toC_sub, toC_mul, toC_twiddle, toC_fftF k _ _ h', toC_fftF k _ _ h']

theorem toC_ifftF (k : ℕ) (f : ℕ → Cx ℝ) {i : ℕ} (hi : i < 2 ^ k) :
    toC (ifftF exactOps k f i) = idft k (fun t => toC (f t)) i := by
  unfold ifftF
  rw [toC_divBy, toC_conj, toC_fftF k _ i hi, ← idft_conj]
  simp only [toC_conj]

theorem toC_pointF {k : ℕ} (t : ℕ → Cx ℝ) {i : ℕ} :
    toC (pointF exactOps (2 ^ k) t i) =
      (toC (t i) + (starRingEnd ℂ) (toC (t ((2 ^ k - i) % 2 ^ k)))) *
        (toC (t i) - (starRingEnd ℂ) (toC (t ((2 ^ k - i) % 2 ^ k)))) * (-I / 4) := by
  unfold pointF
  rw [← toC_conj, ← toC_add, ← toC_sub, ← toC_mul]
  simp only
  generalize Cx.mul exactOps _ _ = z
  apply Complex.ext
  · simp [toC, Cx.scale, exactOps]; ring
  · simp [toC, Cx.scale, exactOps]; ring

theorem idft_congr {k : ℕ} {f g : ℕ → ℂ} (h : ∀ j, j < 2 ^ k → f j = g j) (i : ℕ) : idft k f i = idft k g i := by
  unfold idft
  congr 1
  apply sum_congr rfl
  intro j hj; rw [h j (mem_range.1 hj)]

theorem toC_packF (a b : List ℕ) : (fun t => toC (packF exactOps a b t)) = fun t => sig a t + I * sig b t := by
  funext t
  apply Complex.ext <;> simp [toC, packF, exactOps, sig]

/-- The whole floating-point pipeline in exact arithmetic: entry `i` is the column sum, with no imaginary part. -/
theorem exact_pipeline {k : ℕ} {a b : List ℕ} (h : a.length + b.length ≤ 2 ^ k) {i : ℕ} (hi : i < 2 ^ k) :
    toC (ifftF exactOps k (pointF exactOps (2 ^ k) (fftF exactOps k (packF exactOps a b))) i) = colSum a b i := by
  rw [toC_ifftF k _ hi]
  rw [idft_congr (g := dft k (fun t => (colSum a b t : ℂ)))]
  · rw [idft_dft k _ hi]
  · intro j hj
    have hm : (2 ^ k - j) % 2 ^ k < 2 ^ k := Nat.mod_lt _ (by positivity)
    rw [toC_pointF, toC_fftF k _ j hj, toC_fftF k _ _ hm, toC_packF, (unpack a b hj).1, (unpack a b hj).2, dft_colSum h]
    linear_combination (-(dft k (sig a) j) * dft k (sig b) j) * I_sq

end BN
