import Verif.Lemmas.ClockMul
import Verif.Lemmas.ClockSafe
import Verif.Lemmas.Moment64
import Verif.Props.Directed64
/-
C153: an arithmetic that is another one at every operation, so that one computation done twice may come out differently.
-/
namespace BN
open Bignum B64

/-! ### For the examples -/

/-- The mode changes with every operation; every other sum of products is contracted. -/
noncomputable def exampleClock (t : Nat) : Moment where
  mode := if t % 3 = 0 then .up else if t % 3 = 1 then .down else .zero
  first := if t % 2 = 0 then .up else .nearest
  second := .down
  fuse := if t % 4 = 0 then .first else if t % 4 = 1 then .second else .separate
  lib := C113_accurate_library.choose

theorem exampleClock_ok (t : Nat) : (exampleClock t).lib.Accurate8 := C113_accurate_library.choose_spec.accurate8

/-- Two points: 1 and 1/2 - 3i. -/
def exampleData64 : List (Cx B64) := [⟨num false 1 0, num false 0 0⟩, ⟨num false 1 (-1), num true 3 0⟩]

theorem exampleData64_ok :
    exampleData64.length = 2 ^ 1 ∧ (∀ c ∈ exampleData64, B64.Finite c.re ∧ B64.Finite c.im) ∧
    2 ^ 1 * (2 ^ 1 * (energy (numbers (fun x : B64 => (x.toRat : ℝ)) exampleData64) + 2 ^ 1)) ≤ (2 : ℝ) ^ 179 := by
  refine ⟨rfl, ?_, ?_⟩
  · intro c hc
    simp only [exampleData64, List.mem_cons, List.not_mem_nil, or_false] at hc
    rcases hc with rfl | rfl <;> simp [B64.Finite]
  · unfold energy
    simp only [numbers, exampleData64, List.map_cons, List.map_nil, List.length_cons, List.length_nil, Finset.sum_range_succ,
      Finset.range_zero, Finset.sum_empty, List.getD_cons_zero, List.getD_cons_succ, Complex.sq_norm, Complex.normSq_apply, toRat_num]
    norm_num

/-! ### An arithmetic that never changes -/

section
variable {F : Type} (o : FloatOps F)

theorem mulAssignT_const (L : Limits) (env : Env) (n : Nat) (x : Bignum) (r : Rhs) :
    mulAssignT (fun _ => o) L env n x r = mulAssign o L env n x r := by
  unfold mulAssignT mulAssign
  simp only [same_outcome (same_mulStrassen o L env n _ _)]

theorem mulT_const (L : Limits) (env : Env) (n : Nat) (x y : Bignum) : x.mulT (fun _ => o) L env n y = x.mul o L env n y := by
  unfold mulT Bignum.mul viaCopy
  simp only [mulAssignT_const]

theorem stepT_const (L : Limits) (env : Env) (n : Nat) (s : Store) (op : Op) :
    op.stepT (fun _ => o) L env n s = op.step o L env n s := by
  cases op with
  | arith k i j => cases k <;> first | rfl | simp only [Op.stepT, mulAssignT_const, Op.step, Arith.assign]
  | binary k i j l =>
    cases k <;> first | rfl | simp only [Op.stepT, mulT_const, Op.step, Arith.binary, Arith.assign, Bignum.mul]
  | _ => rfl

/-- C153: if the arithmetic never changes, products, programs and transforms are those of the models without a clock. -/
theorem C153_constant (L : Limits) (n : Nat) :
    (∀ env x y, Bignum.mulT (fun _ => o) L env n x y = x.mul o L env n y) ∧
    (∀ ops env s, runT L n (fun _ _ => o) env s ops = run o L n env s ops) ∧
    (∀ x, (fftComplexT (fun _ => o) n x).outcome = fftComplex o n x) ∧
    ∀ x, (ifftComplexT (fun _ => o) n x).outcome = ifftComplex o n x := by
  refine ⟨fun env x y => mulT_const o L env n x y, fun ops => ?_, fun x => same_outcome (same_fft o n x),
    fun x => same_outcome (same_ifft o n x)⟩
  induction ops with
  | nil => exact fun _ _ => rfl
  | cons op ops ih =>
    intro env s
    rw [runT, run, stepT_const]
    cases op.step o L (env 0) n s with
    | none => rfl
    | some s' => exact ih _ s'

example := (C153_constant (binary64 C113_accurate_library.choose fun _ _ _ _ => .first) .base10 40).1 releaseEnv Sample.n199 Sample.m23

end

/-! ### Any arithmetic -/

/-- C153: whatever the arithmetic does at each moment, a product of numbers of up to 2^32 digits together is well formed, or the allocator
refuses (`std::bad_alloc` from the copy, the exception of `operator*=` else), or a coefficient does not fit the integer type it is
converted to; no cell outside an array is touched, and the loops end. -/
theorem C153_safe {F : Type} (O : Nat → FloatOps F) {L : Limits} (h : Supported L) (env : Env) {n : Nat} (hn : 32 < n) {x y : Bignum}
    (hx : Signed x.desc) (hy : Signed y.desc) (h1 : 1 ≤ x.size + y.size) (h2 : x.size + y.size ≤ 2 ^ 32) :
    x.mulT O L env n y = .error (.exn .badAlloc) ∨ x.mulT O L env n y = .error (.exn .stdException) ∨
    x.mulT O L env n y = .error (.ub .floatToInt) ∨ ∃ z, x.mulT O L env n y = .ok z ∧ WF L z ∧ z.desc = signRule x.desc y.desc := by
  unfold mulT viaCopy
  cases hc : x.copy env with
  | error f =>
    left
    unfold Bignum.copy Vec.copy at hc
    split at hc
    · cases hc
    · split at hc
      · cases hc
      · cases hc
        rfl
  | ok z =>
    have hz : z = x := by
      unfold Bignum.copy Vec.copy at hc
      split at hc
      · rename_i h; cases x; simp at h; subst h; cases hc; rfl
      · split at hc
        · cases hc; rfl
        · cases hc
    subst hz
    right
    rw [ok_bind]
    unfold mulAssignT
    have hcm : isComputable z.desc = true := by rcases hx with e | e <;> rw [e] <;> rfl
    rw [hcm]
    simp only [Bool.not_true, Bool.false_eq_true, if_false, Rhs.get]
    rcases mulStrassenT_cases O h env hn (a := z.digits) (b := y.digits) h1 h2 with ⟨-, e⟩ | e | ⟨c, e, c1, c2⟩
    · left; rw [e]; rfl
    · right; left; rw [e]; rfl
    · right; right
      rw [e, ok_bind, mulSign_signed hx hy]
      refine ⟨_, rfl, ⟨?_, c1, .inl c2⟩, rfl⟩
      rw [← mulSign_signed hx hy]
      exact mulSign_mem _ _

example (O : Nat → FloatOps B64) := C153_safe O (L := .highp) (.inl .highp) releaseEnv (n := 33) (by decide)
  (x := Sample.n199) (y := Sample.m23) (by sample) (by sample) (by decide) (by decide)

/-! ### Arithmetic that obeys the laws at every moment -/

section
variable {F : Type} {val : F → ℝ} {fin : F → Prop}

/-- C153: products of the preset types are the integers' products, though the arithmetic changes from one operation to the next. -/
theorem C153_products {O : Nat → FloatOps F} (M : ∀ t, LawfulAt .anyMode val fin (O t)) {L : Limits} {K : Nat} (hp : ModePreset L K)
    {env : Env} (hm : env.Ample) {x y : Bignum} (hx : WF L x) (hy : WF L y) (h1 : 1 ≤ x.size + y.size) (h2 : x.size + y.size ≤ K)
    {n : Nat} (hn : 32 < n) : x.mulT O L env n y = .ok ⟨signRule x.desc y.desc, Nat.digits L.base (x.mag L * y.mag L)⟩ :=
  mul_exactT (exactProductsT_anyMode M hp) hm hx hy h1 h2 hn

example := C153_products (fun t => moment_lawful (exampleClock_ok t)) .base10 Sample.ample
  (x := Sample.n199) (y := Sample.m23) (by sample) (by sample) (by decide) (by decide) (n := 33) (by decide)

/-- C153: programs whose products stay within the lengths end as they do with rounding to nearest, whatever the allocator does, in both
builds. -/
theorem C153_programs {O : Nat → Nat → FloatOps F} (M : ∀ i t, LawfulAt .anyMode val fin (O i t)) {lib : MathLib} (h : lib.Accurate)
    (fuse : Fusing) {L : Limits} {K : Nat} (hp : ModePreset L K) {n : Nat} (hn : 32 < n) (ops : List Op) (env : Nat → Env) (s : Store)
    (hw : WithinRun (binary64 lib fuse) L K n env s ops) : runT L n O env s ops = run (binary64 lib fuse) L n env s ops :=
  run_exactT (exactProducts_mode (ieee64 lib h fuse) hp) hn ops O env s (fun i => exactProductsT_anyMode (M i) hp) hw

example := C153_programs (fun i t => moment_lawful (exampleClock_ok (i + t))) C113_accurate_library.choose_spec
  (fun _ _ _ _ => .second) .base10 (n := 40) (by decide) [.binary .mul 0 1 2, .arith .sub 0 1] (fun _ => releaseEnv) (fun _ => Sample.n199)
  ⟨⟨by sample, by sample, by decide, by decide⟩, fun _ _ => ⟨trivial, fun _ _ => trivial⟩⟩

/-- C153: the transform of 2^k finite points is finite, and its root-mean-square error at most 31·k·2^-52 (and a thousandth of it) times
the size of the data. -/
theorem C153_fft {O : Nat → FloatOps F} (M : ∀ t, LawfulAt .anyMode val fin (O t)) {k : ℕ} (hk : k ≤ 32) {x : List (Cx F)}
    (hl : x.length = 2 ^ k) (hf : ∀ c ∈ x, fin c.re ∧ fin c.im) (hb : 2 ^ k * (energy (numbers val x) + 2 ^ k) ≤ 2 ^ 180) {n : ℕ}
    (hn : k < n) : ∃ y, (fftComplexT O n x).outcome = .ok y ∧ y.length = x.length ∧ (∀ c ∈ y, fin c.re ∧ fin c.im) ∧
      sqDist (numbers val y) (DFT (numbers val x)) ≤
        (31 * k * ((1 + 1 / 2 ^ 10) / 2 ^ 52)) ^ 2 * (2 ^ k * (energy (numbers val x) + 2 ^ k)) :=
  fft_error_T (φ := FP.anyMode) M hk hl hf (hb.trans (by norm_num [FP.anyMode])) hn

example := C153_fft (fun t => moment_lawful (exampleClock_ok t)) (k := 1) (by norm_num) exampleData64_ok.1 exampleData64_ok.2.1 (by
    have h := exampleData64_ok.2.2
    norm_num at h ⊢
    linarith) (n := 2) (by norm_num)

/-- C153: transforming and transforming back. -/
theorem C153_round_trip {O : Nat → FloatOps F} (M : ∀ t, LawfulAt .anyMode val fin (O t)) {k : ℕ} (hk : k ≤ 32) {x : List (Cx F)}
    (hl : x.length = 2 ^ k) (hf : ∀ c ∈ x, fin c.re ∧ fin c.im) (hb : 2 ^ k * (2 ^ k * (energy (numbers val x) + 2 ^ k)) ≤ 2 ^ 179)
    {n : ℕ} (hn : k < n) : ∃ y, (do let y ← fftComplexT O n x; ifftComplexT O n y : Timed (List (Cx F))).outcome = .ok y ∧
      y.length = x.length ∧ (∀ c ∈ y, fin c.re ∧ fin c.im) ∧
      sqDist (numbers val y) (fun j => (numbers val x).getD j 0) ≤
        ((63 * k + 3) * ((1 + 1 / 2 ^ 10) / 2 ^ 52)) ^ 2 * (energy (numbers val x) + 2 ^ k) :=
  round_trip_error_T (φ := FP.anyMode) M hk hl hf (hb.trans (by norm_num [FP.anyMode])) hn

example := C153_round_trip (fun t => moment_lawful (exampleClock_ok t)) (k := 1) (by norm_num) exampleData64_ok.1 exampleData64_ok.2.1
  exampleData64_ok.2.2 (n := 2) (by norm_num)

end

/-! ### binary64 -/

/-- C153: on finite operands every operation of binary64 is its exact result rounded in the mode of the moment, and the products within a
sum of products in modes of their own, unless they are not rounded at all. -/
theorem C153_operations (m : Moment) {x y : B64} (hx : B64.Finite x) (hy : B64.Finite y) :
    let o := moment64 m
    (∀ n : ℕ, ∃ z, o.ofNat n = roundIn m.mode z n) ∧
    (∃ z, o.add x y = roundIn m.mode z (toRat x + toRat y)) ∧
    (∃ z, o.sub x y = roundIn m.mode z (toRat x - toRat y)) ∧
    (∃ z, o.mul x y = roundIn m.mode z (toRat x * toRat y)) ∧
    (toRat y ≠ 0 → ∃ z, o.div x y = roundIn m.mode z (toRat x / toRat y)) ∧
    (∀ z w, B64.Finite z → B64.Finite w → ∃ s t, let p := roundIn m.first s (toRat x * toRat y)
      let q := roundIn m.second t (toRat z * toRat w)
      B64.Finite p → B64.Finite q →
      (m.fuse = .separate → (∃ b, o.mulSub x y z w = roundIn m.mode b (toRat p - toRat q)) ∧
        ∃ b, o.mulAdd x y z w = roundIn m.mode b (toRat p + toRat q)) ∧
      (m.fuse = .first → (∃ b, o.mulSub x y z w = roundIn m.mode b (toRat x * toRat y - toRat q)) ∧
        ∃ b, o.mulAdd x y z w = roundIn m.mode b (toRat x * toRat y + toRat q)) ∧
      (m.fuse = .second → (∃ b, o.mulSub x y z w = roundIn m.mode b (toRat p - toRat z * toRat w)) ∧
        ∃ b, o.mulAdd x y z w = roundIn m.mode b (toRat p + toRat z * toRat w))) ∧
    o.neg x = B64.neg x ∧ o.floor x = B64.floor x ∧ o.trunc x = B64.trunc x ∧ o.cos x = m.lib.cos x ∧ o.sin x = m.lib.sin x ∧
    (∀ lib fuse, o.pi = (binary64 lib fuse).pi ∧ o.negTwo = (binary64 lib fuse).negTwo ∧ o.half = (binary64 lib fuse).half ∧
      o.quarter = (binary64 lib fuse).quarter) := by
  intro o
  have sub : ∀ {a b : B64}, B64.Finite a → B64.Finite b → ∃ z, addIn m.mode a (B64.neg b) = roundIn m.mode z (toRat a - toRat b) := by
    intro a b ha hb
    obtain ⟨z, hz⟩ := addIn_eq m.mode ha (finite_neg hb)
    rw [toRat_neg, ← sub_eq_add_neg] at hz
    exact ⟨z, hz⟩
  refine ⟨fun n => ⟨false, rfl⟩, addIn_eq _ hx hy, sub hx hy, mulIn_eq _ hx hy, divIn_eq _ hx hy, fun z w hz hw => ?_,
    rfl, rfl, rfl, rfl, rfl, fun _ _ => ⟨rfl, rfl, rfl, rfl⟩⟩
  obtain ⟨s, hs⟩ := mulIn_eq m.first hx hy
  obtain ⟨t, ht⟩ := mulIn_eq m.second hz hw
  refine ⟨s, t, ?_⟩
  intro p q fp fq
  refine ⟨fun hf => ?_, fun hf => ?_, fun hf => ?_⟩
  · simp only [o, moment64, hf]
    rw [hs, ht]
    exact ⟨sub fp fq, addIn_eq _ fp fq⟩
  · simp only [o, moment64, hf]
    rw [ht]
    refine ⟨?_, fmaIn_eq _ hx hy fq⟩
    obtain ⟨b, hb⟩ := fmaIn_eq m.mode hx hy (finite_neg fq)
    rw [toRat_neg, ← sub_eq_add_neg] at hb
    exact ⟨b, hb⟩
  · simp only [o, moment64, hf]
    rw [hs]
    constructor
    · obtain ⟨b, hb⟩ := fmaIn_eq m.mode (finite_neg hz) hw fp
      rw [toRat_neg, neg_mul, neg_add_eq_sub] at hb
      exact ⟨b, hb⟩
    · obtain ⟨b, hb⟩ := fmaIn_eq m.mode hz hw fp
      rw [add_comm] at hb
      exact ⟨b, hb⟩

example (m : Moment) := C153_operations m (x := num false 1 0) (y := num true 3 (-1)) (by norm_num [B64.Finite]) (by norm_num [B64.Finite])

/-- C153: binary64 obeys the laws at every moment. -/
theorem C153_binary64 {m : Moment} (h : m.lib.Accurate8) :
    LawfulAt .anyMode (fun x : B64 => (x.toRat : ℝ)) B64.Finite (moment64 m) := moment_lawful h

example := C153_binary64 (exampleClock_ok 7)

/-- C153: so with binary64 programs end alike whatever the modes, the contractions and the library do from one operation to the next. -/
theorem C153_binary64_programs (clock : Nat → Nat → Moment) (hc : ∀ i t, (clock i t).lib.Accurate8) {lib : MathLib} (h : lib.Accurate)
    (fuse : Fusing) {L : Limits} {K : Nat} (hp : ModePreset L K) {n : Nat} (hn : 32 < n) (ops : List Op) (env : Nat → Env) (s : Store)
    (hw : WithinRun (binary64 lib fuse) L K n env s ops) :
    runT L n (fun i t => moment64 (clock i t)) env s ops = run (binary64 lib fuse) L n env s ops :=
  C153_programs (fun i t => moment_lawful (hc i t)) h fuse hp hn ops env s hw

example := C153_binary64_programs (fun i t => exampleClock (i + t)) (fun _ _ => exampleClock_ok _) C113_accurate_library.choose_spec
  (fun _ _ _ _ => .second) .base10 (n := 40) (by decide) [.binary .mul 0 1 2, .arith .sub 0 1] (fun _ => releaseEnv) (fun _ => Sample.n199)
  ⟨⟨by sample, by sample, by decide, by decide⟩, fun _ _ => ⟨trivial, fun _ _ => trivial⟩⟩

/-- One product computed twice may have two results: (1 + 2^-52)² rounded up and then down. -/
def exampleTwice : Timed (B64 × B64) := do
  let x : Cx B64 := ⟨num false (2 ^ 52 + 1) (-52), num false 0 (-1074)⟩
  let clock : Nat → FloatOps B64 := fun t =>
    moment64 ⟨if t < 2 then .up else .down, .nearest, .nearest, .first, ⟨fun x => x, fun x => x⟩⟩
  let p ← Cx.mulT clock x x
  let q ← Cx.mulT clock x x
  pure (p.re, q.re)

example : exampleTwice.outcome = .ok (num false (2 ^ 52 + 3) (-52), num false (2 ^ 52 + 2) (-52)) := by
  decide +kernel

end BN
