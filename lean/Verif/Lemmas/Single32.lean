import Verif.Lemmas.Binary32
/-
The laws of `float` hold of binary32 with the conversions the language prescribes.
-/
namespace BN
open B64 (toRat neg toRat_neg)

namespace FVal

/-- A finite number of its type. -/
def Finite (x : FVal) : Prop := if x.dbl then B64.Finite x.v else B32.Finite x.v
/-- Its value. -/
def val (x : FVal) : ℚ := toRat x.v

theorem Finite.double {x : FVal} (h : x.Finite) : B64.Finite x.v := by
  unfold Finite at h
  split at h
  · exact h
  · exact h.double

theorem Finite.single {x : FVal} (h : x.Finite) (hd : x.dbl = false) : B32.Finite x.v := by
  unfold Finite at h
  rwa [hd, if_neg (by simp)] at h

/-- A rounded result of either type: errors of binary32. -/
theorem result {d : Bool} {f g : B64} {x : ℚ} (hb : |x| ≤ 2 ^ 127) (hf : d = true → ∃ z, f = B64.roundQ z x)
    (hg : d = false → ∃ z, g = B32.roundQ z x) :
    Finite ⟨d, if d then f else g⟩ ∧ |val ⟨d, if d then f else g⟩ - x| ≤ |x| / 2 ^ 24 + 1 / 2 ^ 150 := by
  cases d with
  | true =>
    obtain ⟨z, rfl⟩ := hf rfl
    obtain ⟨h1, h2⟩ := B64.round_err' z (x := x) (hb.trans (by norm_num))
    refine ⟨h1, h2.trans (add_le_add ?_ ?_)⟩
    · exact div_le_div_of_nonneg_left (abs_nonneg _) (by positivity) (by norm_num)
    · exact div_le_div_of_nonneg_left (by norm_num) (by positivity) (pow_le_pow_right₀ (by norm_num) (by norm_num))
  | false =>
    obtain ⟨z, rfl⟩ := hg rfl
    exact B32.round_err' z hb

/-- A rounded sum. -/
theorem result_sum {d : Bool} {f g : B64} {x : ℚ} (hb : |x| ≤ 2 ^ 127)
    (hf : d = true → (∃ z, f = B64.roundQ z x) ∧ ∃ m : ℤ, x = m * 2 ^ (-1074 : ℤ))
    (hg : d = false → (∃ z, g = B32.roundQ z x) ∧ ∃ m : ℤ, x = m * 2 ^ (-149 : ℤ)) :
    Finite ⟨d, if d then f else g⟩ ∧ |val ⟨d, if d then f else g⟩ - x| ≤ |x| / 2 ^ 24 := by
  cases d with
  | true =>
    obtain ⟨⟨z, rfl⟩, m, hm⟩ := hf rfl
    obtain ⟨h1, h2⟩ := B64.round_err_grid z (x := x) (hb.trans (by norm_num)) hm
    refine ⟨h1, h2.trans ?_⟩
    exact div_le_div_of_nonneg_left (abs_nonneg _) (by positivity) (by norm_num)
  | false =>
    obtain ⟨⟨z, rfl⟩, m, hm⟩ := hg rfl
    exact B32.round_err_grid z hb hm

theorem neg_finite {x : FVal} (h : x.Finite) : x.neg.Finite := by
  unfold Finite at h ⊢
  show if x.dbl then B64.Finite (B64.neg x.v) else B32.Finite (B64.neg x.v)
  split at h
  · rw [if_pos ‹_›]; exact B64.finite_neg h
  · rw [if_neg ‹_›]; exact B32.finite_neg h

theorem neg_val (x : FVal) : x.neg.val = -x.val := toRat_neg _

theorem or_false {a b : Bool} (h : (a || b) = false) : a = false ∧ b = false := by simpa using h

theorem add_err {x y : FVal} (hx : x.Finite) (hy : y.Finite) (hb : |x.val + y.val| ≤ 2 ^ 127) :
    (x.add y).Finite ∧ |(x.add y).val - (x.val + y.val)| ≤ |x.val + y.val| / 2 ^ 24 :=
  result_sum (d := x.dbl || y.dbl) hb (fun _ => ⟨B64.add_eq hx.double hy.double, B64.add_grid hx.double hy.double⟩) fun h =>
    ⟨B32.add_eq (hx.single (or_false h).1) (hy.single (or_false h).2), B32.add_grid (hx.single (or_false h).1) (hy.single (or_false h).2)⟩

theorem sub_eq_add (x y : FVal) : x.sub y = x.add y.neg := rfl

theorem sub_err {x y : FVal} (hx : x.Finite) (hy : y.Finite) (hb : |x.val - y.val| ≤ 2 ^ 127) :
    (x.sub y).Finite ∧ |(x.sub y).val - (x.val - y.val)| ≤ |x.val - y.val| / 2 ^ 24 := by
  have := add_err hx (neg_finite hy) (by rw [neg_val, ← sub_eq_add_neg]; exact hb)
  rw [neg_val, ← sub_eq_add_neg] at this
  exact this

theorem mul_err {x y : FVal} (hx : x.Finite) (hy : y.Finite) (hb : |x.val * y.val| ≤ 2 ^ 127) :
    (x.mul y).Finite ∧ |(x.mul y).val - x.val * y.val| ≤ |x.val * y.val| / 2 ^ 24 + 1 / 2 ^ 150 :=
  result (d := x.dbl || y.dbl) hb (fun _ => B64.mul_eq hx.double hy.double) fun h =>
    B32.mul_eq (hx.single (or_false h).1) (hy.single (or_false h).2)

theorem div_err {x y : FVal} (hx : x.Finite) (hy : y.Finite) (h0 : y.val ≠ 0) (hb : |x.val / y.val| ≤ 2 ^ 127) :
    (x.div y).Finite ∧ |(x.div y).val - x.val / y.val| ≤ |x.val / y.val| / 2 ^ 24 + 1 / 2 ^ 150 :=
  result (d := x.dbl || y.dbl) hb (fun _ => B64.div_eq hx.double hy.double h0) fun h =>
    B32.div_eq (hx.single (or_false h).1) (hy.single (or_false h).2) h0

theorem fma_err {x y z : FVal} (hx : x.Finite) (hy : y.Finite) (hz : z.Finite) (hb : |x.val * y.val + z.val| ≤ 2 ^ 127) :
    (x.fma y z).Finite ∧ |(x.fma y z).val - (x.val * y.val + z.val)| ≤ |x.val * y.val + z.val| / 2 ^ 24 + 1 / 2 ^ 150 :=
  result (d := x.dbl || y.dbl || z.dbl) hb (fun _ => B64.fma_eq hx.double hy.double hz.double) fun h =>
    B32.fma_eq (hx.single (or_false (or_false h).1).1) (hy.single (or_false (or_false h).1).2) (hz.single (or_false h).2)

/-- Storing in a `float` and calling the library. -/
theorem toFloat_angle {x : FVal} (hx : x.Finite) (hb : |x.val| ≤ 4) :
    B32.Finite x.toFloat ∧ |toRat x.toFloat - x.val| ≤ 1 / 2 ^ 23 ∧ |toRat x.toFloat| ≤ 5 := by
  obtain ⟨d, v⟩ := x
  cases d with
  | false => exact ⟨hx, by show |toRat v - toRat v| ≤ _; simp, le_trans hb (by norm_num)⟩
  | true =>
    cases v with
    | nan => exact hx.elim
    | inf s => exact hx.elim
    | num s k e => exact B32.round_angle s hb

end FVal

/-! ### Over the reals -/

theorem single_err {x y : ℚ} (h : |y - x| ≤ |x| / 2 ^ 24 + 1 / 2 ^ 150) : |(y : ℝ) - (x : ℝ)| ≤ Format.single.u * |(x : ℝ)| + Format.single.eta := by
  have : ((|y - x| : ℚ) : ℝ) ≤ ((|x| / 2 ^ 24 + 1 / 2 ^ 150 : ℚ) : ℝ) := by exact_mod_cast h
  push_cast at this
  have hu : 1 / 2 ^ 24 ≤ Format.single.u := by norm_num [Format.single]
  have he : 1 / 2 ^ 150 ≤ Format.single.eta := by norm_num [Format.single]
  have := mul_le_mul_of_nonneg_right hu (abs_nonneg (x : ℝ))
  linarith

theorem single_err0 {x y : ℚ} (h : |y - x| ≤ |x| / 2 ^ 24) : |(y : ℝ) - (x : ℝ)| ≤ Format.single.u * |(x : ℝ)| := by
  have : ((|y - x| : ℚ) : ℝ) ≤ ((|x| / 2 ^ 24 : ℚ) : ℝ) := by exact_mod_cast h
  push_cast at this
  have hu : 1 / 2 ^ 24 ≤ Format.single.u := by norm_num [Format.single]
  have := mul_le_mul_of_nonneg_right hu (abs_nonneg (x : ℝ))
  linarith

theorem le_single_big {x : ℚ} (h : |(x : ℝ)| ≤ Format.single.big) : |x| ≤ 2 ^ 127 := by
  have : ((|x| : ℚ) : ℝ) ≤ ((2 ^ 127 : ℚ) : ℝ) := by push_cast; exact h
  exact_mod_cast this

theorem FVal.fma_real {x y z : FVal} (hx : x.Finite) (hy : y.Finite) (hz : z.Finite) (hb : |(x.val : ℝ) * y.val + z.val| ≤ Format.single.big) :
    (x.fma y z).Finite ∧
      |((x.fma y z).val : ℝ) - (x.val * y.val + z.val)| ≤ Format.single.u * |(x.val : ℝ) * y.val + z.val| + Format.single.eta := by
  obtain ⟨h1, h2⟩ := FVal.fma_err hx hy hz (le_single_big (by push_cast; exact hb))
  have h3 := single_err h2
  rw [Rat.cast_add, Rat.cast_mul] at h3
  exact ⟨h1, h3⟩

theorem FVal.mul_half {x y : FVal} (hx : x.Finite) (hy : y.Finite) (hb : |(x.val : ℝ) * y.val| ≤ Format.single.big / 2) : (x.mul y).Finite := by
  refine (FVal.mul_err hx hy (le_single_big ?_)).1
  push_cast
  refine hb.trans ?_
  norm_num [Format.single]

theorem pi32 : B32.roundQ false (31415926535897932384626433832795 / 10 ^ 31) = .num false 13176795 (-22) := by decide +kernel

/-- The laws hold of binary32. -/
noncomputable def laws32 (lib : MathLib) (h : lib.AccurateSingle) (fuse : FVal → FVal → FVal → FVal → Contraction) :
    Laws .single (binary32 lib fuse) where
  val x := (x.val : ℝ)
  fin := FVal.Finite
  ofNat_ok n hn := by
    have := B32.round_int false (n := (n : ℤ)) (by rw [abs_of_nonneg (by positivity)]; exact_mod_cast hn)
    refine ⟨this.1, ?_⟩
    have h2 := this.2
    rw [Int.cast_natCast] at h2
    show ((toRat (B32.roundQ false n) : ℚ) : ℝ) = n
    rw [h2]
    simp
  add_ok x y hx hy hb := by
    obtain ⟨h1, h2⟩ := FVal.add_err hx hy (le_single_big (by push_cast; exact hb))
    have h3 := single_err0 h2
    push_cast at h3
    exact ⟨h1, h3⟩
  sub_ok x y hx hy hb := by
    obtain ⟨h1, h2⟩ := FVal.sub_err hx hy (le_single_big (by push_cast; exact hb))
    have h3 := single_err0 h2
    push_cast at h3
    exact ⟨h1, h3⟩
  mul_ok x y hx hy hb := by
    obtain ⟨h1, h2⟩ := FVal.mul_err hx hy (le_single_big (by push_cast; exact hb))
    have h3 := single_err h2
    rw [Rat.cast_mul] at h3
    exact ⟨h1, h3⟩
  mulSub_ok x y z w hx hy hz hw b1 b2 := by
    show (match fuse x y z w with
      | .separate => (x.mul y).sub (z.mul w)
      | .first => x.fma y (z.mul w).neg
      | .second => z.neg.fma w (x.mul y)) = _ ∨ _
    cases hf : fuse x y z w with
    | separate => exact .inl rfl
    | first =>
      refine .inr (.inl fun hb => ?_)
      have := FVal.fma_real hx hy (FVal.neg_finite (FVal.mul_half hz hw b2)) (by
        rw [FVal.neg_val]; push_cast; rw [← sub_eq_add_neg]; exact hb)
      rw [FVal.neg_val] at this
      push_cast at this
      rw [← sub_eq_add_neg] at this
      simp only [binary32, hf]
      exact this
    | second =>
      refine .inr (.inr fun hb => ?_)
      have e : ((z.neg.val : ℚ) : ℝ) * w.val + (x.mul y).val = (x.mul y).val - z.val * w.val := by
        rw [FVal.neg_val]; push_cast; ring
      have := FVal.fma_real (FVal.neg_finite hz) hw (FVal.mul_half hx hy b1) (by rw [e]; exact hb)
      rw [e] at this
      simp only [binary32, hf]
      exact this
  mulAdd_ok x y z w hx hy hz hw b1 b2 := by
    show (match fuse x y z w with
      | .separate => (x.mul y).add (z.mul w)
      | .first => x.fma y (z.mul w)
      | .second => z.fma w (x.mul y)) = _ ∨ _
    cases hf : fuse x y z w with
    | separate => exact .inl rfl
    | first =>
      refine .inr (.inl fun hb => ?_)
      have := FVal.fma_real hx hy (FVal.mul_half hz hw b2) hb
      simp only [binary32, hf]
      exact this
    | second =>
      refine .inr (.inr fun hb => ?_)
      have e : ((z.val : ℚ) : ℝ) * w.val + (x.mul y).val = (x.mul y).val + z.val * w.val := by ring
      have := FVal.fma_real hz hw (FVal.mul_half hx hy b1) (by rw [e]; exact hb)
      rw [e] at this
      simp only [binary32, hf]
      exact this
  div_ok x y hx hy h0 hb := by
    have h0' : y.val ≠ 0 := fun hc => h0 (by rw [hc]; simp)
    obtain ⟨h1, h2⟩ := FVal.div_err hx hy h0' (le_single_big (by push_cast; exact hb))
    have h3 := single_err h2
    rw [Rat.cast_div] at h3
    exact ⟨h1, h3⟩
  neg_ok x hx := ⟨FVal.neg_finite hx, by
    show ((x.neg.val : ℚ) : ℝ) = _
    rw [FVal.neg_val]; push_cast; rfl⟩
  cos_ok x hx hb := by
    obtain ⟨h1, h2, h3⟩ := FVal.toFloat_angle hx (by exact_mod_cast hb)
    obtain ⟨h4, h5, -, -⟩ := h _ h1 (by exact_mod_cast h3)
    refine ⟨h4, ?_⟩
    have h6 : |((toRat x.toFloat : ℚ) : ℝ) - x.val| ≤ 1 / 2 ^ 23 := by
      have : ((|toRat x.toFloat - x.val| : ℚ) : ℝ) ≤ ((1 / 2 ^ 23 : ℚ) : ℝ) := by exact_mod_cast h2
      push_cast at this; exact this
    have h7 := Real.abs_cos_sub_cos_le (toRat x.toFloat : ℝ) x.val
    refine (abs_sub_le _ (Real.cos (toRat x.toFloat)) _).trans ((add_le_add h5 (h7.trans h6)).trans ?_)
    norm_num [Format.single]
  sin_ok x hx hb := by
    obtain ⟨h1, h2, h3⟩ := FVal.toFloat_angle hx (by exact_mod_cast hb)
    obtain ⟨-, -, h4, h5⟩ := h _ h1 (by exact_mod_cast h3)
    refine ⟨h4, ?_⟩
    have h6 : |((toRat x.toFloat : ℚ) : ℝ) - x.val| ≤ 1 / 2 ^ 23 := by
      have : ((|toRat x.toFloat - x.val| : ℚ) : ℝ) ≤ ((1 / 2 ^ 23 : ℚ) : ℝ) := by exact_mod_cast h2
      push_cast at this; exact this
    have h7 := Real.abs_sin_sub_sin_le (toRat x.toFloat : ℝ) x.val
    refine (abs_sub_le _ (Real.sin (toRat x.toFloat)) _).trans ((add_le_add h5 (h7.trans h6)).trans ?_)
    norm_num [Format.single]
  floor_ok x hx := by
    obtain ⟨d, v⟩ := x
    have : ∀ w : B64, toRat w = ⌊toRat v⌋ → ((toRat w : ℚ) : ℝ) = ((⌊((toRat v : ℚ) : ℝ)⌋ : ℤ) : ℝ) := fun w hw => by
      rw [hw, Rat.cast_intCast, Rat.floor_cast]
    cases d with
    | false =>
      obtain ⟨z, hz⟩ := B32.floor_eq (x := v) hx
      have h2 := B32.floor_exact z (x := v) hx
      rw [← hz] at h2
      exact ⟨h2.1, this _ h2.2⟩
    | true =>
      obtain ⟨z, hz⟩ := B64.floor_eq (x := v) hx
      have h2 := B64.floor_exact z (x := v) hx
      rw [← hz] at h2
      exact ⟨h2.1, this _ h2.2⟩
  trunc_ok x hx := by
    obtain ⟨d, v⟩ := x
    have hv := hx.double
    cases v with
    | nan => exact hv.elim
    | inf s => exact hv.elim
    | num s k e =>
      show B64.trunc (.num s k e) = if (0 : ℝ) ≤ ((toRat (.num s k e) : ℚ) : ℝ) then ⌊((toRat (.num s k e) : ℚ) : ℝ)⌋ else ⌈((toRat (.num s k e) : ℚ) : ℝ)⌉
      unfold B64.trunc
      rw [Rat.floor_cast, Rat.ceil_cast]
      simp only [Rat.cast_nonneg]
  pi_ok := by
    show FVal.Finite ⟨false, B32.roundQ false _⟩ ∧ |((toRat (B32.roundQ false _) : ℚ) : ℝ) - _| ≤ _
    rw [pi32]
    refine ⟨⟨by norm_num, by norm_num, by norm_num⟩, ?_⟩
    have h1 := Real.pi_gt_d20
    have h2 := Real.pi_lt_d20
    rw [B64.toRat_num, abs_le]
    norm_num [Format.single] at h1 h2 ⊢
    constructor <;> linarith
  negTwo_ok := by
    have := B64.round_int false (n := -2) (by norm_num)
    refine ⟨by exact_mod_cast this.1, ?_⟩
    show ((toRat (B64.roundQ false (-2)) : ℚ) : ℝ) = -2
    have h2 := this.2
    push_cast at h2
    rw [h2]
    norm_num
  half_ok := by
    have e : B64.roundQ false (1 / 2) = .num false (2 ^ 52) (-53) := by decide +kernel
    show B64.Finite (B64.roundQ false (1 / 2)) ∧ ((toRat (B64.roundQ false (1 / 2)) : ℚ) : ℝ) = 1 / 2
    rw [e]
    refine ⟨⟨by norm_num, by norm_num, by norm_num⟩, ?_⟩
    rw [B64.toRat_num]
    norm_num
  quarter_ok := by
    have e : B32.roundQ false (1 / 4) = .num false (2 ^ 23) (-25) := by decide +kernel
    show B32.Finite (B32.roundQ false (1 / 4)) ∧ ((toRat (B32.roundQ false (1 / 4)) : ℚ) : ℝ) = 1 / 4
    rw [e]
    refine ⟨⟨by norm_num, by norm_num, by norm_num⟩, ?_⟩
    rw [B64.toRat_num]
    norm_num
  addInt_ok x y m n hx hy hxm hyn hb := by
    have e1 : toRat x.v = m := by exact_mod_cast hxm
    have e2 : toRat y.v = n := by exact_mod_cast hyn
    have hb : |m + n| ≤ 2 ^ 24 := hb
    have key : (x.add y).Finite ∧ (x.add y).val = ((m + n : ℤ) : ℚ) := by
      unfold FVal.add FVal.op FVal.Finite FVal.val
      dsimp only
      cases hd : x.dbl || y.dbl with
      | true =>
        obtain ⟨z, hz⟩ := B64.add_eq hx.double hy.double
        rw [if_pos rfl, if_pos rfl, hz, e1, e2, ← Int.cast_add]
        exact B64.round_int z (hb.trans (by norm_num))
      | false =>
        obtain ⟨z, hz⟩ := B32.add_eq (hx.single (FVal.or_false hd).1) (hy.single (FVal.or_false hd).2)
        rw [if_neg (by simp), if_neg (by simp), hz, e1, e2, ← Int.cast_add]
        exact B32.round_int z hb
    refine ⟨key.1, ?_⟩
    show (((x.add y).val : ℚ) : ℝ) = _
    rw [key.2, Rat.cast_intCast]

end BN
