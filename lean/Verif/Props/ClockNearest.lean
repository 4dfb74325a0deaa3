import Verif.Lemmas.ClockNearest
import Verif.Props.Clock
/-
C155: rounding to nearest, with contractions and registers that differ from one evaluation of an expression to the next. (C130, C134
have these, but treat equal computations alike; C153 does not, but allows all rounding modes and so only shorter factors.)
-/
namespace BN
open Bignum

/-! ### Arithmetic that obeys the laws at every moment -/

section
variable {F : Type} {val : F → ℝ} {fin : F → Prop}

/-- C155: products of the preset types are the integers' products, for the same lengths as with an arithmetic that never changes. -/
theorem C155_products {O : Nat → FloatOps F} (M : ∀ t, LawfulAt .double val fin (O t)) {L : Limits} {K : Nat} (hp : Preset L K)
    {env : Env} (hm : env.Ample) {x y : Bignum} (hx : WF L x) (hy : WF L y) (h1 : 1 ≤ x.size + y.size) (h2 : x.size + y.size ≤ K)
    {n : Nat} (hn : 32 < n) : x.mulT O L env n y = .ok ⟨signRule x.desc y.desc, Nat.digits L.base (x.mag L * y.mag L)⟩ :=
  mul_exactT (exactProductsT_double M hp) hm hx hy h1 h2 hn

example := C155_products (fun t => ieee_lawful (ieee64 _ C113_accurate_library.choose_spec fun _ _ _ _ => if t % 3 = 0 then .first else .separate))
  .base10 Sample.ample (x := Sample.n199) (y := Sample.m23) (by sample) (by sample) (by decide) (by decide) (n := 33) (by decide)

/-- C155: programs whose products stay within the lengths end as they do with an arithmetic that never changes, whatever the allocator
does, in both builds. -/
theorem C155_programs {O : Nat → Nat → FloatOps F} (M : ∀ i t, LawfulAt .double val fin (O i t)) {lib : MathLib} (h : lib.Accurate)
    (fuse : Fusing) {L : Limits} {K : Nat} (hp : Preset L K) {n : Nat} (hn : 32 < n) (ops : List Op) (env : Nat → Env) (s : Store)
    (hw : WithinRun (binary64 lib fuse) L K n env s ops) : runT L n O env s ops = run (binary64 lib fuse) L n env s ops :=
  run_exactT (exactProducts_ieee (ieee64 lib h fuse) hp) hn ops O env s (fun i => exactProductsT_double (M i) hp) hw

example := C155_programs
  (fun i t => ieee_lawful (ieee64 _ C113_accurate_library.choose_spec fun _ _ _ _ => if t % 3 = i then .first else .separate))
  C113_accurate_library.choose_spec (fun _ _ _ _ => .second) .base10 (n := 40) (by decide) [.binary .mul 0 1 2, .arith .sub 0 1]
  (fun _ => releaseEnv) (fun _ => Sample.n199) ⟨⟨by sample, by sample, by decide, by decide⟩, fun _ _ => ⟨trivial, fun _ _ => trivial⟩⟩

/-- C155: the transform of 2^k finite points is finite, and its root-mean-square error at most 31·k·2^-53 (and a thousandth of it) times
the size of the data. -/
theorem C155_fft {O : Nat → FloatOps F} (M : ∀ t, LawfulAt .double val fin (O t)) {k : ℕ} (hk : k ≤ 32) {x : List (Cx F)}
    (hl : x.length = 2 ^ k) (hf : ∀ c ∈ x, fin c.re ∧ fin c.im) (hb : 2 ^ k * (energy (numbers val x) + 2 ^ k) ≤ 2 ^ 180) {n : ℕ}
    (hn : k < n) : ∃ y, (fftComplexT O n x).outcome = .ok y ∧ y.length = x.length ∧ (∀ c ∈ y, fin c.re ∧ fin c.im) ∧
      sqDist (numbers val y) (DFT (numbers val x)) ≤
        (31 * k * ((1 + 1 / 2 ^ 10) / 2 ^ 53)) ^ 2 * (2 ^ k * (energy (numbers val x) + 2 ^ k)) :=
  fft_error_T (φ := FP.double) M hk hl hf (hb.trans (by norm_num [FP.double])) hn

example := C155_fft (fun t => ieee_lawful (ieee64 _ C113_accurate_library.choose_spec fun _ _ _ _ => if t % 3 = 0 then .first else .separate))
  (k := 1) (by norm_num) exampleData64_ok.1 exampleData64_ok.2.1 (by
    have h := exampleData64_ok.2.2
    norm_num at h ⊢
    linarith) (n := 2) (by norm_num)

/-- C155: transforming and transforming back. -/
theorem C155_round_trip {O : Nat → FloatOps F} (M : ∀ t, LawfulAt .double val fin (O t)) {k : ℕ} (hk : k ≤ 32) {x : List (Cx F)}
    (hl : x.length = 2 ^ k) (hf : ∀ c ∈ x, fin c.re ∧ fin c.im) (hb : 2 ^ k * (2 ^ k * (energy (numbers val x) + 2 ^ k)) ≤ 2 ^ 179)
    {n : ℕ} (hn : k < n) : ∃ y, (do let y ← fftComplexT O n x; ifftComplexT O n y : Timed (List (Cx F))).outcome = .ok y ∧
      y.length = x.length ∧ (∀ c ∈ y, fin c.re ∧ fin c.im) ∧
      sqDist (numbers val y) (fun j => (numbers val x).getD j 0) ≤
        ((63 * k + 3) * ((1 + 1 / 2 ^ 10) / 2 ^ 53)) ^ 2 * (energy (numbers val x) + 2 ^ k) :=
  round_trip_error_T (φ := FP.double) M hk hl hf (hb.trans (by norm_num [FP.double])) hn

example := C155_round_trip
  (fun t => ieee_lawful (ieee64 _ C113_accurate_library.choose_spec fun _ _ _ _ => if t % 3 = 0 then .first else .separate))
  (k := 1) (by norm_num) exampleData64_ok.1 exampleData64_ok.2.1 exampleData64_ok.2.2 (n := 2) (by norm_num)

end

/-! ### Contraction -/

/-- C155: on binary64 each sum of products may be contracted or not, and the library may return other (accurate) results, each time it is
evaluated: programs end alike. -/
theorem C155_contraction (fuse : Nat → Nat → Fusing) (lib : Nat → Nat → MathLib) (hl : ∀ i t, (lib i t).Accurate) {lib0 : MathLib}
    (h : lib0.Accurate) (fuse0 : Fusing) {L : Limits} {K : Nat} (hp : Preset L K) {n : Nat} (hn : 32 < n) (ops : List Op)
    (env : Nat → Env) (s : Store) (hw : WithinRun (binary64 lib0 fuse0) L K n env s ops) :
    runT L n (fun i t => binary64 (lib i t) (fuse i t)) env s ops = run (binary64 lib0 fuse0) L n env s ops :=
  C155_programs (val := fun x : B64 => (x.toRat : ℝ)) (fin := B64.Finite) (fun i t => ieee_lawful (ieee64 (lib i t) (hl i t) (fuse i t)))
    h fuse0 hp hn ops env s hw

example := C155_contraction (fun i t _ _ _ _ => if t % 3 = i then .first else .separate) (fun _ _ => C113_accurate_library.choose)
  (fun _ _ => C113_accurate_library.choose_spec) C113_accurate_library.choose_spec (fun _ _ _ _ => .second) .base10 (n := 40) (by decide)
  [.binary .mul 0 1 2, .arith .sub 0 1] (fun _ => releaseEnv) (fun _ => Sample.n199)
  ⟨⟨by sample, by sample, by decide, by decide⟩, fun _ _ => ⟨trivial, fun _ _ => trivial⟩⟩

/-! ### Excess precision -/

/-- What the compiler does with the results of one operation: `whole` with its result, `first` and `second` with the two products of a
sum of products, unless it does not round one of them. -/
structure Keeping where
  whole : Way
  first : Way
  second : Way
  fuse : Contraction
  cosR : ℝ → ℝ
  sinR : ℝ → ℝ

/-- The operations of that moment, on real numbers (exponents are not bounded). -/
noncomputable def Keeping.ops (m : Keeping) : FloatOps ℝ where
  ofNat n := m.whole.apply n
  add x y := m.whole.apply (x + y)
  sub x y := m.whole.apply (x - y)
  mul x y := m.whole.apply (x * y)
  mulSub x y z w := match m.fuse with
    | .separate => m.whole.apply (m.first.apply (x * y) - m.second.apply (z * w))
    | .first => m.whole.apply (x * y - m.second.apply (z * w))
    | .second => m.whole.apply (m.first.apply (x * y) - z * w)
  mulAdd x y z w := match m.fuse with
    | .separate => m.whole.apply (m.first.apply (x * y) + m.second.apply (z * w))
    | .first => m.whole.apply (x * y + m.second.apply (z * w))
    | .second => m.whole.apply (m.first.apply (x * y) + z * w)
  div x y := m.whole.apply (x / y)
  neg x := -x
  cos := m.cosR
  sin := m.sinR
  floor x := ⌊x⌋
  trunc x := if 0 ≤ x then ⌊x⌋ else ⌈x⌉
  pi := 7074237752028440 / 2 ^ 51
  negTwo := -2
  half := 1 / 2
  quarter := 1 / 4

theorem Way.apply_err (w : Way) (v : ℝ) : |w.apply v - v| ≤ uro * |v| := kept_err (w.apply_kept v)
theorem Way.apply_err_eta (w : Way) (v : ℝ) : |w.apply v - v| ≤ uro * |v| + eta :=
  (w.apply_err v).trans (le_add_of_nonneg_right eta_pos.le)

/-- C155: whatever is kept or rounded at a moment, the laws hold. -/
theorem C155_excess_lawful {m : Keeping} (h : AccurateR m.cosR m.sinR) : LawfulAt .double (fun x : ℝ => x) (fun _ => True) m.ops where
  ofNat_ok n hn := ⟨trivial, by
    refine kept_exact ?_ (m.whole.apply_kept n)
    have := hasBits_int (p := 53) (n := (n : ℤ)) (by rw [abs_of_nonneg (by positivity)]; exact_mod_cast hn)
    rwa [Int.cast_natCast] at this⟩
  add_ok _ _ _ _ _ := ⟨trivial, m.whole.apply_err _⟩
  sub_ok _ _ _ _ _ := ⟨trivial, m.whole.apply_err _⟩
  mul_ok _ _ _ _ _ := ⟨trivial, m.whole.apply_err_eta _⟩
  mulSub_ok x y z w _ _ _ _ _ _ := by
    refine ⟨_, _, m.first.apply_err_eta _, m.second.apply_err_eta _, ?_⟩
    cases hf : m.fuse with
    | separate => exact .inl fun _ => ⟨trivial, by simp only [Keeping.ops, hf]; exact m.whole.apply_err _⟩
    | first => exact .inr (.inl fun _ => ⟨trivial, by simp only [Keeping.ops, hf]; exact m.whole.apply_err_eta _⟩)
    | second => exact .inr (.inr fun _ => ⟨trivial, by simp only [Keeping.ops, hf]; exact m.whole.apply_err_eta _⟩)
  mulAdd_ok x y z w _ _ _ _ _ _ := by
    refine ⟨_, _, m.first.apply_err_eta _, m.second.apply_err_eta _, ?_⟩
    cases hf : m.fuse with
    | separate => exact .inl fun _ => ⟨trivial, by simp only [Keeping.ops, hf]; exact m.whole.apply_err _⟩
    | first => exact .inr (.inl fun _ => ⟨trivial, by simp only [Keeping.ops, hf]; exact m.whole.apply_err_eta _⟩)
    | second => exact .inr (.inr fun _ => ⟨trivial, by simp only [Keeping.ops, hf]; exact m.whole.apply_err_eta _⟩)
  div_ok _ _ _ _ _ _ := ⟨trivial, m.whole.apply_err_eta _⟩
  neg_ok _ _ := ⟨trivial, rfl⟩
  cos_ok x _ hx := ⟨trivial, (h x hx).1.trans (by norm_num [Format.double, uro])⟩
  sin_ok x _ hx := ⟨trivial, (h x hx).2.trans (by norm_num [Format.double, uro])⟩
  floor_ok _ _ := ⟨trivial, rfl⟩
  trunc_ok _ _ := rfl
  pi_ok := ⟨trivial, by
    have h1 := Real.pi_gt_d20
    have h2 := Real.pi_lt_d20
    simp only [Keeping.ops, Format.double, uro]
    rw [abs_le]
    norm_num at h1 h2 ⊢
    constructor <;> linarith⟩
  negTwo_ok := ⟨trivial, rfl⟩
  half_ok := ⟨trivial, rfl⟩
  quarter_ok := ⟨trivial, rfl⟩
  addInt_ok x y a b _ _ hx hy hb := ⟨trivial, by
    have e : x + y = ((a + b : ℤ) : ℝ) := by rw [Int.cast_add]; exact congrArg₂ _ hx hy
    show m.whole.apply (x + y) = _
    rw [e]
    exact kept_exact (hasBits_int hb) (m.whole.apply_kept _)⟩

/-- C155: each intermediate result may be kept in a register of 64 bits or rounded to 53, independently each time it is computed: products
are the integers' products. -/
theorem C155_excess (clock : Nat → Keeping) (hc : ∀ t, AccurateR (clock t).cosR (clock t).sinR) {L : Limits} {K : Nat} (hp : Preset L K)
    {env : Env} (hm : env.Ample) {x y : Bignum} (hx : WF L x) (hy : WF L y) (h1 : 1 ≤ x.size + y.size) (h2 : x.size + y.size ≤ K)
    {n : Nat} (hn : 32 < n) :
    x.mulT (fun t => (clock t).ops) L env n y = .ok ⟨signRule x.desc y.desc, Nat.digits L.base (x.mag L * y.mag L)⟩ :=
  C155_products (fun t => C155_excess_lawful (hc t)) hp hm hx hy h1 h2 hn

/-- Registers and memory by turns. -/
noncomputable def exampleKeeping (t : Nat) : Keeping where
  whole := if t % 2 = 0 then .kept else .stored
  first := if t % 3 = 0 then .kept else .keptThenStored
  second := .kept
  fuse := if t % 5 = 0 then .first else .separate
  cosR := Real.cos
  sinR := Real.sin

example := C155_excess_lawful (m := exampleKeeping 7) accurateR_exact

example := C155_excess exampleKeeping (fun _ => accurateR_exact) .base10 Sample.ample
  (x := Sample.n199) (y := Sample.m23) (by sample) (by sample) (by decide) (by decide) (n := 33) (by decide)

end BN
