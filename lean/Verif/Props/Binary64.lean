import Verif.Lemmas.Samples
import Verif.Lemmas.Rounding
import Verif.Props.Platform
import Verif.Props.Simulation
import Verif.Props.Multiplication2
import Verif.Props.FourierApi
/-
C113: everything stated under the laws `Ieee` holds on a platform whose `double` is IEEE 754 binary64 and whose sine and
cosine are accurate.
-/
namespace BN
open Bignum B64

/-- C113: the results of the arithmetic of the model are the nearest numbers of the format, ties to even ... -/
theorem C113_rounding (z : Bool) {x : ℚ} (h : |x| < 2 ^ 1024 - 2 ^ 970) : Rounded x (roundQ z x) := rounded z h

/-- ... and infinite from the overflow threshold of the standard on. -/
theorem C113_overflow (z : Bool) {x : ℚ} (h : 2 ^ 1024 - 2 ^ 970 ≤ |x|) : roundQ z x = inf (decide (x < 0)) := overflow z h

/-- 1/3 is below the threshold. -/
example := C113_rounding false (x := 1 / 3) (by
  rw [abs_of_pos (by norm_num)]
  decide +kernel)

/-- 2^53 + 1 lies in the middle between two numbers of the format; the even one is taken. -/
example : roundQ false (2 ^ 53 + 1) = num false (2 ^ 52) 1 ∧ roundQ false (2 ^ 53 + 3) = num false (2 ^ 52 + 2) 1 := by decide +kernel

/-- A zero of either sign. -/
def B64.IsZero (x : B64) : Prop := ∃ s e, x = num s 0 e
/-- The sign of a datum that has one. -/
def B64.sign : B64 → Bool
  | nan => false
  | inf s => s
  | num s _ _ => s

theorem roundQ_ne_nan (z : Bool) (x : ℚ) : roundQ z x ≠ nan := by
  unfold roundQ
  dsimp only
  split_ifs <;> simp

/-- C113: NaN arises exactly from the invalid operations of the standard (IEEE 754-2008, 7.2): opposite infinities added, zero times infinity,
zero by zero, infinity by infinity, and NaN itself. -/
theorem C113_invalid (x y : B64) :
    (B64.add x y = nan ↔ x = nan ∨ y = nan ∨ ∃ s, x = inf s ∧ y = inf (!s)) ∧
    (B64.sub x y = nan ↔ x = nan ∨ y = nan ∨ ∃ s, x = inf s ∧ y = inf s) ∧
    (B64.mul x y = nan ↔ x = nan ∨ y = nan ∨ (∃ s, x = inf s) ∧ y.IsZero ∨ x.IsZero ∧ ∃ s, y = inf s) ∧
    (B64.div x y = nan ↔ x = nan ∨ y = nan ∨ (∃ s t, x = inf s ∧ y = inf t) ∨ x.IsZero ∧ y.IsZero) := by
  have hr := roundQ_ne_nan
  refine ⟨?_, ?_, ?_, ?_⟩
  · cases x <;> cases y <;> simp [B64.add, hr]
    rename_i s t
    cases s <;> cases t <;> simp
  · cases x <;> cases y <;> simp [B64.sub, B64.neg, B64.add, hr]
    rename_i s t
    cases s <;> cases t <;> simp
  · cases x <;> cases y <;> simp [B64.mul, B64.IsZero, hr]
  · cases x <;> cases y <;> simp [B64.div, B64.IsZero]
    rename_i s k e t l f
    by_cases hl : l = 0 <;> by_cases hk : k = 0 <;> simp [hl, hk, hr]

/-- C113: an infinite operand of a sum stays; in a product or quotient that is not NaN an infinite operand, or a zero divisor, gives infinity
with the product of the signs, and a number by infinity is a zero. -/
theorem C113_infinite (x : B64) (s : Bool) (hx : x ≠ nan) :
    (x ≠ inf (!s) → B64.add x (inf s) = inf s ∧ B64.add (inf s) x = inf s) ∧
    (¬ x.IsZero → B64.mul x (inf s) = inf (x.sign != s) ∧ B64.mul (inf s) x = inf (s != x.sign)) ∧
    ((∀ t, x ≠ inf t) → B64.div (inf s) x = inf (s != x.sign) ∧ (B64.div x (inf s)).IsZero ∧ (B64.div x (inf s)).sign = (x.sign != s)) ∧
    (¬ x.IsZero → ∀ e, B64.div x (num s 0 e) = inf (x.sign != s)) := by
  cases x with
  | nan => exact absurd rfl hx
  | inf t => cases s <;> cases t <;> simp [B64.add, B64.mul, B64.div, B64.sign, B64.IsZero]
  | num t k e =>
    by_cases hk : k = 0 <;> simp [B64.add, B64.mul, B64.div, B64.sign, B64.IsZero, hk]

example := C113_infinite (num true 3 0) false (by simp)

/-- C113: the laws hold. -/
theorem C113_laws (lib : MathLib) (h : lib.Accurate) (fuse : Fusing) :
    ∃ M : Ieee (binary64 lib fuse), (∀ x, M.val x = (toRat x : ℝ)) ∧ ∀ x, M.fin x ↔ x.Finite :=
  ⟨ieee64 lib h fuse, fun _ => rfl, fun _ => Iff.rfl⟩

/-- A number of magnitude at most 1 has a datum within two units in the last place. -/
theorem exists_near {c : ℝ} (h : |c| ≤ 1) : ∃ x : B64, x.Finite ∧ |(toRat x : ℝ) - c| ≤ 4 / 2 ^ 53 := by
  obtain ⟨q, h1, h2⟩ := exists_rat_btwn (show c < c + 1 / 2 ^ 53 by linarith [show (0 : ℝ) < 1 / 2 ^ 53 by positivity])
  have hq : |q| ≤ 2 := by
    have h3 := abs_le.1 h
    have : |(q : ℝ)| ≤ 2 := by
      rw [abs_le]
      have : (1 : ℝ) / 2 ^ 53 ≤ 1 := by norm_num
      constructor <;> linarith
    exact_mod_cast this
  obtain ⟨h3, h4⟩ := round_err' false (x := q) (hq.trans (by norm_num))
  refine ⟨_, h3, ?_⟩
  have h5 : |toRat (roundQ false q) - q| ≤ 3 / 2 ^ 53 := by
    have : (1 : ℚ) / 2 ^ 1075 ≤ 1 / 2 ^ 53 :=
      div_le_div_of_nonneg_left (by norm_num) (by positivity) (pow_le_pow_right₀ (by norm_num) (by norm_num))
    have h6 : |q| / 2 ^ 53 ≤ 2 / 2 ^ 53 := div_le_div_of_nonneg_right hq (by positivity)
    generalize (1 : ℚ) / 2 ^ 1075 = t at *
    linarith
  have h6 : |((toRat (roundQ false q) : ℚ) : ℝ) - q| ≤ 3 / 2 ^ 53 := by
    have : ((|toRat (roundQ false q) - q| : ℚ) : ℝ) ≤ ((3 / 2 ^ 53 : ℚ) : ℝ) := by exact_mod_cast h5
    push_cast at this
    exact this
  have h7 : |(q : ℝ) - c| ≤ 1 / 2 ^ 53 := by
    rw [abs_le]
    have : (0 : ℝ) < 1 / 2 ^ 53 := by positivity
    constructor <;> linarith
  calc |((toRat (roundQ false q) : ℚ) : ℝ) - c| = |(((toRat (roundQ false q) : ℚ) : ℝ) - q) + (q - c)| := by ring_nf
    _ ≤ _ := abs_add_le _ _
    _ ≤ 3 / 2 ^ 53 + 1 / 2 ^ 53 := add_le_add h6 h7
    _ = 4 / 2 ^ 53 := by ring

/-- C113: there are accurate libraries. -/
theorem C113_accurate_library : ∃ lib : MathLib, lib.Accurate :=
  ⟨⟨fun x => (exists_near (Real.abs_cos_le_one (toRat x))).choose, fun x => (exists_near (Real.abs_sin_le_one (toRat x))).choose⟩,
    fun x _ _ =>
      have hc := (exists_near (Real.abs_cos_le_one (toRat x))).choose_spec
      have hs := (exists_near (Real.abs_sin_le_one (toRat x))).choose_spec
      ⟨hc.1, hc.2, hs.1, hs.2⟩⟩

example := C113_laws _ C113_accurate_library.choose_spec (fun _ _ _ _ => .first)

/-- C113: products on binary64. -/
theorem C113_products {lib : MathLib} (h : lib.Accurate) (fuse : Fusing) {L : Limits} {K : Nat} (hp : Preset L K) {env : Env} (hm : env.Ample)
    {x y : Bignum} (hx : WF L x) (hy : WF L y) (h1 : 1 ≤ x.digits.length + y.digits.length)
    (h2 : x.digits.length + y.digits.length ≤ K) {n : Nat} (hn : 32 < n) :
    x.mul (binary64 lib fuse) L env n y = .ok ⟨signRule x.desc y.desc, Nat.digits L.base (x.mag L * y.mag L)⟩ :=
  mul_numeral (ieee64 lib h fuse) hp hm hx hy h1 h2 hn

/-- 12 · (-34) -/
example : WF .base10 ⟨.pos, [2, 1]⟩ ∧ WF .base10 ⟨.neg, [4, 3]⟩ ∧ Preset .base10 (2 ^ 25) ∧ ∃ lib : MathLib, lib.Accurate :=
  ⟨⟨.inl rfl, by unfold InRange; decide, .inl (by simp [NoLeadingZero])⟩,
    ⟨.inr rfl, by unfold InRange; decide, .inl (by simp [NoLeadingZero])⟩, .base10, C113_accurate_library⟩

/-- C113: programs on binary64. -/
theorem C113_programs {lib : MathLib} (h : lib.Accurate) (fuse : Fusing) {ops : List Op} {v' : Vars}
    (hr : IntRun 10 (2 ^ 24) (fun _ => 0) ops v') {env : Nat → Env} (he : ∀ k, (env k).Ample ∧ (env k).debug = false) :
    ∃ s', Evaluates (fun n => run (binary64 lib fuse) .base10 n env (fun _ => Bignum.default) ops) (some s') ∧ Holds .base10 s' v' :=
  C64_base10 (ieee64 lib h fuse) hr he

example := C113_programs C113_accurate_library.choose_spec (fun _ _ _ _ => .first) (ops := [.make 0 .neg [1, 2], .arith .mul 0 0])
  (.step (.makeNeg 0 [1, 2] (by sample)) (.step (.arith .mul 0 0 ⟨by decide,
    lt_of_lt_of_le (by decide : _ < 10 ^ 2) (Nat.pow_le_pow_right (by norm_num) (by norm_num)),
    lt_of_lt_of_le (by decide : _ < 10 ^ 2) (Nat.pow_le_pow_right (by norm_num) (by norm_num))⟩) (.done _)))
  (env := fun _ => releaseEnv) fun _ => ⟨Sample.ample, rfl⟩

/-- The complex number a pair of data stands for. -/
noncomputable def toCx (c : Cx B64) : ℂ := ⟨c.re.toRat, c.im.toRat⟩

/-- C113: transforms on binary64. -/
theorem C113_transform {lib : MathLib} (h : lib.Accurate) (fuse : Fusing) {k : ℕ} (hk : k ≤ 40) {x : List (Cx B64)} (hl : x.length = 2 ^ k)
    (hf : ∀ c ∈ x, c.re.Finite ∧ c.im.Finite) (hb : 2 ^ k * (energy (x.map toCx) + 2 ^ k) ≤ 2 ^ 180) :
    ∃ y, (∀ n, k < n → fftComplex (binary64 lib fuse) n x = .ok y) ∧ y.length = x.length ∧ (∀ c ∈ y, c.re.Finite ∧ c.im.Finite) ∧
      sqDist (y.map toCx) (DFT (x.map toCx)) ≤ (32 * k / 2 ^ 53) ^ 2 * (2 ^ k * (energy (x.map toCx) + 2 ^ k)) := by
  obtain ⟨y, h1, h2, h3, h4⟩ := C77_fft_error (ieee64 lib h fuse) hk hl hf hb
  refine ⟨y, h1, h2, h3, h4.trans (mul_le_mul_of_nonneg_right (pow_le_pow_left₀ (by unfold uro; positivity) ?_ 2) ?_)⟩
  · have : (0 : ℝ) ≤ k := by positivity
    unfold uro
    norm_num
    linarith
  · have : 0 ≤ energy (x.map toCx) := Finset.sum_nonneg fun _ _ => by positivity
    positivity

/-- Two points: 1 and 1/2. -/
example : ∀ c ∈ [(⟨num false 1 0, num false 0 0⟩ : Cx B64), ⟨num false 1 (-1), num false 0 0⟩], c.re.Finite ∧ c.im.Finite := by
  intro c hc
  simp only [List.mem_cons, List.not_mem_nil, or_false] at hc
  rcases hc with rfl | rfl <;> simp [B64.Finite]

/-- C113: the default product of 32-bit digits is wrong on binary64 whatever the library. -/
theorem C113_default_wrong {lib : MathLib} (h : lib.Accurate) (fuse : Fusing) {env : Env} (hm : env.Ample) {L : Limits} (hL : L = .lowp ∨ L = .medp ∨ L = .highp) :
    ∃ x, WF L x ∧ ∀ z, Evaluates (fun n => mulAssign (binary64 lib fuse) L env n x (.other x)) (.ok z) →
      z.toInt L ≠ x.toInt L * x.toInt L :=
  C25_refuted (ieee64 lib h fuse) hm hL

example := C113_default_wrong C113_accurate_library.choose_spec (fun _ _ _ _ => .first) Sample.ample (.inr (.inr rfl))

end BN
