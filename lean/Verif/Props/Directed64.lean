import Verif.Lemmas.Directed64
import Verif.Props.RoundingFft
import Verif.Props.Binary64
/-
C152: `double` as IEEE binary64 with its bounded exponents, in any rounding modes and with any contraction of sums of products.
-/
namespace BN
open Bignum B64

/-! ### The modes -/

/-- C152: rounding up gives the least datum of the format that is not below the number, infinity above the greatest one; rounding down
likewise; rounding towards zero the datum between the number and zero that is nearest to the number, and never infinity; rounding to
nearest is that of C113. -/
theorem C152_modes (z : Bool) (x : ℚ) :
    ((x ≤ toRat (most false) → Least x (roundIn .up z x)) ∧ (toRat (most false) < x → roundIn .up z x = inf false)) ∧
    ((toRat (most true) ≤ x → Greatest x (roundIn .down z x)) ∧ (x < toRat (most true) → roundIn .down z x = inf true)) ∧
    ((x < 0 → Least x (roundIn .zero z x)) ∧ (0 ≤ x → Greatest x (roundIn .zero z x))) ∧
    roundIn .nearest z x = roundQ z x ∧
    ∀ y, B64.Finite y → ∀ s, |toRat y| ≤ |toRat (most s)| :=
  ⟨roundIn_up z, roundIn_down' z, roundIn_towards z, rfl, fun y hy s => by
    have h := abs_le_most hy
    have h0 : |toRat (most s)| = |toRat (most false)| := by cases s <;> simp [most_neg]
    rw [h0]
    exact h.trans (le_abs_self _)⟩

/-- One tenth lies between its neighbours. -/
example : roundIn .down false (1 / 10) = num false 7205759403792793 (-56) ∧ roundIn .up false (1 / 10) = num false 7205759403792794 (-56) ∧
    roundIn .zero false (-1 / 10) = num true 7205759403792793 (-56) := by decide +kernel

/-- C152: in all modes an exact zero has the sign of two equal terms, and else the sign + except when rounding down. -/
theorem C152_zero (m : Mode) {s t : Bool} {k l : Nat} {e f : Int} (h : toRat (num s k e) + toRat (num t l f) = 0) :
    ∃ g, addIn m (num s k e) (num t l f) = num (if s = t then s else decide (m = .down)) 0 g := by
  refine ⟨-1074, ?_⟩
  show roundIn m _ _ = _
  rw [h]
  rfl

example := C152_zero .down (s := false) (k := 1) (e := 0) (t := true) (l := 1) (f := 0) (by norm_num [toRat])

/-- C152: so does an exact zero of a fused multiplication and addition. -/
theorem C152_zero_fused (m : Mode) {s t u : Bool} {k l n : Nat} {e f g : Int}
    (h : toRat (num s k e) * toRat (num t l f) + toRat (num u n g) = 0) :
    ∃ i, fmaIn m (num s k e) (num t l f) (num u n g) = num (if (s != t) = u then u else decide (m = .down)) 0 i := by
  refine ⟨-1074, ?_⟩
  show roundIn m (zeroSign m (s != t) u) _ = _
  rw [h]
  unfold zeroSign
  split
  · rename_i h'
    rw [h']
    rfl
  · rfl

example := C152_zero_fused .down (s := false) (k := 1) (e := 0) (t := true) (l := 1) (f := 0) (u := false) (n := 1) (g := 0)
  (by norm_num [toRat])

/-- C152: on finite operands every operation is its exact result rounded in the mode picked for it. -/
theorem C152_operations (pick : Work → Mode) (lib : Mode → MathLib) (fuse : Work → Work → Work → Work → Contraction) {x y : Work}
    (hx : (x.result pick lib).Finite) (hy : (y.result pick lib).Finite) :
    let r : Work → B64 := Work.result pick lib
    let o := directed64 pick lib fuse
    (∀ n : ℕ, ∃ z, r (o.ofNat n) = roundIn (pick (o.ofNat n)) z n) ∧
    (∃ z, r (o.add x y) = roundIn (pick (o.add x y)) z (toRat (r x) + toRat (r y))) ∧
    (∃ z, r (o.sub x y) = roundIn (pick (o.sub x y)) z (toRat (r x) - toRat (r y))) ∧
    (∃ z, r (o.mul x y) = roundIn (pick (o.mul x y)) z (toRat (r x) * toRat (r y))) ∧
    (toRat (r y) ≠ 0 → ∃ z, r (o.div x y) = roundIn (pick (o.div x y)) z (toRat (r x) / toRat (r y))) ∧
    (∀ z w, (r (.mul z w)).Finite → fuse x y z w = .first →
      (∃ s, r (o.mulSub x y z w) = roundIn (pick (o.mulSub x y z w)) s (toRat (r x) * toRat (r y) - toRat (r (.mul z w)))) ∧
      ∃ s, r (o.mulAdd x y z w) = roundIn (pick (o.mulAdd x y z w)) s (toRat (r x) * toRat (r y) + toRat (r (.mul z w)))) ∧
    (∀ z w, (r (.mul z w)).Finite → fuse z w x y = .second →
      (∃ s, r (o.mulSub z w x y) = roundIn (pick (o.mulSub z w x y)) s (toRat (r (.mul z w)) - toRat (r x) * toRat (r y))) ∧
      ∃ s, r (o.mulAdd z w x y) = roundIn (pick (o.mulAdd z w x y)) s (toRat (r (.mul z w)) + toRat (r x) * toRat (r y))) ∧
    ∀ z w, fuse x y z w = .separate →
      o.mulSub x y z w = o.sub (o.mul x y) (o.mul z w) ∧ o.mulAdd x y z w = o.add (o.mul x y) (o.mul z w) := by
  intro r o
  refine ⟨fun n => ⟨false, rfl⟩, addIn_eq _ hx hy, ?_, mulIn_eq _ hx hy, divIn_eq _ hx hy, fun z w hz hf => ⟨?_, ?_⟩,
    fun z w hz hf => ⟨?_, ?_⟩, fun z w hf => ?_⟩
  · obtain ⟨z, hz⟩ := addIn_eq (pick (.sub x y)) hx (finite_neg hy)
    rw [toRat_neg, ← sub_eq_add_neg] at hz
    exact ⟨z, hz⟩
  · obtain ⟨s, hs⟩ := fmaIn_eq (pick (.fma x y (.neg (.mul z w)))) hx hy (finite_neg hz)
    rw [toRat_neg, ← sub_eq_add_neg] at hs
    refine ⟨s, ?_⟩
    simp only [o, directed64, hf]
    exact hs
  · obtain ⟨s, hs⟩ := fmaIn_eq (pick (.fma x y (.mul z w))) hx hy hz
    refine ⟨s, ?_⟩
    simp only [o, directed64, hf]
    exact hs
  · obtain ⟨s, hs⟩ := fmaIn_eq (pick (.fma (.neg x) y (.mul z w))) (finite_neg hx) hy hz
    rw [toRat_neg, neg_mul, neg_add_eq_sub] at hs
    refine ⟨s, ?_⟩
    simp only [o, directed64, hf]
    exact hs
  · obtain ⟨s, hs⟩ := fmaIn_eq (pick (.fma x y (.mul z w))) hx hy hz
    rw [add_comm] at hs
    refine ⟨s, ?_⟩
    simp only [o, directed64, hf]
    exact hs
  · simp only [o, directed64, hf]
    exact ⟨trivial, trivial⟩

example (pick : Work → Mode) (lib : Mode → MathLib) := C152_operations pick lib (fun _ _ _ _ => .first)
  (x := .given (num false 1 0)) (y := .given (num true 3 (-1))) (by norm_num [Work.result, B64.Finite]) (by norm_num [Work.result, B64.Finite])

/-- C152: when every mode is "to nearest" the operations are those of binary64. -/
theorem C152_nearest (lib : Mode → MathLib) (fuse : Fusing) :
    let r : Work → B64 := Work.result (fun _ => .nearest) lib
    let o := directed64 (fun _ => .nearest) lib fun x y z w => fuse (r x) (r y) (r z) (r w)
    let o' := binary64 (lib .nearest) fuse
    (∀ n, r (o.ofNat n) = o'.ofNat n) ∧ (∀ x y, r (o.add x y) = o'.add (r x) (r y)) ∧ (∀ x y, r (o.sub x y) = o'.sub (r x) (r y)) ∧
    (∀ x y, r (o.mul x y) = o'.mul (r x) (r y)) ∧ (∀ x y, r (o.div x y) = o'.div (r x) (r y)) ∧
    (∀ x y z w, r (o.mulSub x y z w) = o'.mulSub (r x) (r y) (r z) (r w)) ∧
    (∀ x y z w, r (o.mulAdd x y z w) = o'.mulAdd (r x) (r y) (r z) (r w)) ∧ (∀ x, r (o.neg x) = o'.neg (r x)) ∧
    (∀ x, r (o.cos x) = o'.cos (r x)) ∧ (∀ x, r (o.sin x) = o'.sin (r x)) ∧ (∀ x, r (o.floor x) = o'.floor (r x)) ∧
    (∀ x, o.trunc x = o'.trunc (r x)) ∧ r o.pi = o'.pi ∧ r o.negTwo = o'.negTwo ∧ r o.half = o'.half ∧ r o.quarter = o'.quarter := by
  intro r o o'
  have hz : ∀ s t, zeroSign .nearest s t = (s && t) := by decide
  have hadd : ∀ x y, addIn .nearest x y = B64.add x y := by
    intro x y
    cases x <;> cases y <;> simp [addIn, hz, B64.add, roundIn_nearest]
  have hmul : ∀ x y, mulIn .nearest x y = B64.mul x y := by
    intro x y
    cases x <;> cases y <;> simp [mulIn, B64.mul, roundIn_nearest]
  have hdiv : ∀ x y, divIn .nearest x y = B64.div x y := by
    intro x y
    cases x <;> cases y <;> try rfl
    simp only [divIn, B64.div, roundIn_nearest]
    split <;> rfl
  have hfma : ∀ x y z, fmaIn .nearest x y z = fma x y z := by
    intro x y z
    cases x <;> cases y <;> cases z <;> simp [fmaIn, hz, fma, roundIn_nearest]
  refine ⟨fun _ => rfl, fun _ _ => hadd _ _, fun _ _ => hadd _ _, fun _ _ => hmul _ _, fun _ _ => hdiv _ _, fun x y z w => ?_,
    fun x y z w => ?_, fun _ => rfl, fun _ => rfl, fun _ => rfl, fun _ => rfl, fun _ => rfl, rfl, rfl, rfl, rfl⟩
  · simp only [o, o', directed64, binary64]
    cases hf : fuse (r x) (r y) (r z) (r w) <;> simp only [r, Work.result, hadd, hmul, hfma, B64.sub]
  · simp only [o, o', directed64, binary64]
    cases hf : fuse (r x) (r y) (r z) (r w) <;> simp only [r, Work.result, hadd, hmul, hfma]

/-! ### Products -/

section
variable (pick : Work → Mode) {lib : Mode → MathLib} (h : ∀ m, (lib m).Accurate8) (fuse : Work → Work → Work → Work → Contraction)
include h

/-- C152: products of the preset types are the integers' products. -/
theorem C152_products {L : Limits} {K : Nat} (hp : ModePreset L K) {env : Env} (hm : env.Ample) {x y : Bignum} (hx : WF L x) (hy : WF L y)
    (h1 : 1 ≤ x.size + y.size) (h2 : x.size + y.size ≤ K) {n : Nat} (hn : 32 < n) :
    x.mul (directed64 pick lib fuse) L env n y = .ok ⟨signRule x.desc y.desc, Nat.digits L.base (x.mag L * y.mag L)⟩ :=
  mul_exact (exactProducts_anyMode (directedLaws pick lib h fuse) hp) hp.custom.supported.base_ge hm hx hy h1 h2 hn

/-- C152: programs whose products stay within the lengths end as they do with rounding to nearest, whatever the allocator does, in both
builds. -/
theorem C152_programs {lib' : MathLib} (h' : lib'.Accurate) (fuse' : Fusing)
    {L : Limits} {K : Nat} (hp : ModePreset L K) {n : Nat} (hn : 32 < n) (ops : List Op) (env : Nat → Env) (s : Store)
    (hw : WithinRun (binary64 lib' fuse') L K n env s ops) :
    run (directed64 pick lib fuse) L n env s ops = run (binary64 lib' fuse') L n env s ops :=
  run_exact (exactProducts_mode (ieee64 lib' h' fuse') hp) (exactProducts_anyMode (directedLaws pick lib h fuse) hp) hn ops env s hw

/-! ### Transforms -/

/-- C152: the transform of 2^k finite points is finite, and its root-mean-square error at most 31·k·2^-52 (and a thousandth of it) times
the size of the data. -/
theorem C152_fft {k : ℕ} (hk : k ≤ 32) {x : List (Cx Work)} (hl : x.length = 2 ^ k)
    (hf : ∀ c ∈ x, (c.re.result pick lib).Finite ∧ (c.im.result pick lib).Finite)
    (hb : 2 ^ k * (energy (numbers (fun w => ((w.result pick lib).toRat : ℝ)) x) + 2 ^ k) ≤ 2 ^ 180) :
    ∃ y, (∀ n, k < n → fftComplex (directed64 pick lib fuse) n x = .ok y) ∧ y.length = x.length ∧
      (∀ c ∈ y, (c.re.result pick lib).Finite ∧ (c.im.result pick lib).Finite) ∧
      sqDist (numbers (fun w => ((w.result pick lib).toRat : ℝ)) y) (DFT (numbers (fun w => ((w.result pick lib).toRat : ℝ)) x)) ≤
        (31 * k * ((1 + 1 / 2 ^ 10) / 2 ^ 52)) ^ 2 * (2 ^ k * (energy (numbers (fun w => ((w.result pick lib).toRat : ℝ)) x) + 2 ^ k)) :=
  fft_error_prec (φ := FP.anyMode) (directedLaws pick lib h fuse) hk hl hf (hb.trans (by norm_num [FP.anyMode]))

/-- C152: transforming and transforming back. -/
theorem C152_round_trip {k : ℕ} (hk : k ≤ 32) {x : List (Cx Work)} (hl : x.length = 2 ^ k)
    (hf : ∀ c ∈ x, (c.re.result pick lib).Finite ∧ (c.im.result pick lib).Finite)
    (hb : 2 ^ k * (2 ^ k * (energy (numbers (fun w => ((w.result pick lib).toRat : ℝ)) x) + 2 ^ k)) ≤ 2 ^ 179) :
    ∃ y, (∀ n, k < n → (do let y ← fftComplex (directed64 pick lib fuse) n x; ifftComplex (directed64 pick lib fuse) n y) = .ok y) ∧
      y.length = x.length ∧ (∀ c ∈ y, (c.re.result pick lib).Finite ∧ (c.im.result pick lib).Finite) ∧
      sqDist (numbers (fun w => ((w.result pick lib).toRat : ℝ)) y)
          (fun j => (numbers (fun w => ((w.result pick lib).toRat : ℝ)) x).getD j 0) ≤
        ((63 * k + 3) * ((1 + 1 / 2 ^ 10) / 2 ^ 52)) ^ 2 * (energy (numbers (fun w => ((w.result pick lib).toRat : ℝ)) x) + 2 ^ k) :=
  round_trip_error_prec (φ := FP.anyMode) (directedLaws pick lib h fuse) hk hl hf (hb.trans (by norm_num [FP.anyMode]))

end

/-- A library for the examples. -/
theorem directed_library : ∃ lib : Mode → MathLib, ∀ m, (lib m).Accurate8 :=
  ⟨fun _ => C113_accurate_library.choose, fun _ => C113_accurate_library.choose_spec.accurate8⟩

/-- Sums are rounded up, all else towards zero; the first of two products is not rounded. -/
def exampleModes : Work → Mode
  | .add _ _ => .up
  | _ => .zero

example := C152_products exampleModes directed_library.choose_spec (fun _ _ _ _ => .first) .base10 Sample.ample
  (x := Sample.n199) (y := Sample.m23) (by sample) (by sample) (by decide) (by decide) (n := 33) (by decide)

example := C152_programs exampleModes directed_library.choose_spec (fun _ _ _ _ => .first) C113_accurate_library.choose_spec
  (fun _ _ _ _ => .second) .base10 (n := 40) (by decide) [.binary .mul 0 1 2, .arith .sub 0 1] (fun _ => releaseEnv) (fun _ => Sample.n199)
  ⟨⟨by sample, by sample, by decide, by decide⟩, fun _ _ => ⟨trivial, fun _ _ => trivial⟩⟩

/-- Two points: 1 and 1/2 - 3i. -/
def exampleData : List (Cx Work) :=
  [⟨.given (num false 1 0), .given (num false 0 0)⟩, ⟨.given (num false 1 (-1)), .given (num true 3 0)⟩]

theorem exampleData_ok (pick : Work → Mode) (lib : Mode → MathLib) :
    exampleData.length = 2 ^ 1 ∧ (∀ c ∈ exampleData, (c.re.result pick lib).Finite ∧ (c.im.result pick lib).Finite) ∧
    2 ^ 1 * (2 ^ 1 * (energy (numbers (fun w => ((w.result pick lib).toRat : ℝ)) exampleData) + 2 ^ 1)) ≤ (2 : ℝ) ^ 179 := by
  refine ⟨rfl, ?_, ?_⟩
  · intro c hc
    simp only [exampleData, List.mem_cons, List.not_mem_nil, or_false] at hc
    rcases hc with rfl | rfl <;> simp [B64.Finite, Work.result]
  · unfold energy
    simp only [numbers, exampleData, List.map_cons, List.map_nil, List.length_cons, List.length_nil, Finset.sum_range_succ,
      Finset.range_zero, Finset.sum_empty, List.getD_cons_zero, List.getD_cons_succ, Complex.sq_norm, Complex.normSq_apply, Work.result,
      toRat_num]
    norm_num

example := C152_fft exampleModes directed_library.choose_spec (fun _ _ _ _ => .first) (k := 1) (by norm_num)
  (exampleData_ok exampleModes directed_library.choose).1 (exampleData_ok exampleModes directed_library.choose).2.1 (by
    have h := (exampleData_ok exampleModes directed_library.choose).2.2
    norm_num at h ⊢
    linarith)

example := C152_round_trip exampleModes directed_library.choose_spec (fun _ _ _ _ => .second) (k := 1) (by norm_num)
  (exampleData_ok exampleModes directed_library.choose).1 (exampleData_ok exampleModes directed_library.choose).2.1
  (exampleData_ok exampleModes directed_library.choose).2.2

end BN
