import Verif.Model.Moment64
import Verif.Lemmas.Directed64
import Verif.SpecClock
/-
binary64 obeys the laws at every moment.
-/
namespace BN
open B64

theorem addIn_err (m : Mode) {x y : B64} (hx : Finite x) (hy : Finite y) (hb : |(toRat x : ℝ) + toRat y| ≤ big) :
    Finite (addIn m x y) ∧ |(toRat (addIn m x y) : ℝ) - (toRat x + toRat y)| ≤ Format.anyMode.u * |(toRat x : ℝ) + toRat y| := by
  obtain ⟨z, hz⟩ := addIn_eq m hx hy
  obtain ⟨n, hn⟩ := add_grid hx hy
  have := roundIn_err_grid m z (le_big (by push_cast; exact hb)) hn
  rw [hz]
  have h2 := real_errIn0 this.2
  push_cast at h2
  exact ⟨this.1, h2⟩

theorem subIn_err (m : Mode) {x y : B64} (hx : Finite x) (hy : Finite y) (hb : |(toRat x : ℝ) - toRat y| ≤ big) :
    Finite (addIn m x (neg y)) ∧ |(toRat (addIn m x (neg y)) : ℝ) - (toRat x - toRat y)| ≤ Format.anyMode.u * |(toRat x : ℝ) - toRat y| := by
  have := addIn_err m hx (finite_neg hy) (by rw [toRat_neg]; push_cast; rw [← sub_eq_add_neg]; exact hb)
  rw [toRat_neg] at this
  push_cast at this
  rwa [← sub_eq_add_neg] at this

theorem mulIn_err (m : Mode) {x y : B64} (hx : Finite x) (hy : Finite y) (hb : |(toRat x : ℝ) * toRat y| ≤ big / 2) :
    |(toRat (mulIn m x y) : ℝ) - toRat x * toRat y| ≤ Format.anyMode.u * |(toRat x : ℝ) * toRat y| + Format.anyMode.eta := by
  obtain ⟨z, hz⟩ := mulIn_eq m hx hy
  have : (0 : ℝ) < big := by unfold big; positivity
  have := roundIn_err' m z (x := toRat x * toRat y) (le_big (by push_cast; linarith))
  rw [hz]
  have h2 := real_errIn this.2
  rw [Rat.cast_mul] at h2
  exact h2.trans (by linarith [tiny_etaIn])

/-- The laws hold whatever the moment is like. -/
theorem moment_lawful {m : Moment} (h : m.lib.Accurate8) :
    LawfulAt .anyMode (fun x : B64 => (x.toRat : ℝ)) B64.Finite (moment64 m) where
  ofNat_ok n hn := by
    have := roundIn_int m.mode false (n := (n : ℤ)) (by rw [abs_of_nonneg (by positivity)]; exact_mod_cast hn)
    rw [Int.cast_natCast] at this
    refine ⟨this.1, ?_⟩
    show ((toRat (roundIn _ false n) : ℚ) : ℝ) = n
    rw [this.2]
    simp
  add_ok _ _ hx hy hb := addIn_err m.mode hx hy hb
  sub_ok _ _ hx hy hb := subIn_err m.mode hx hy hb
  mul_ok x y hx hy hb := by
    obtain ⟨z, hz⟩ := mulIn_eq m.mode hx hy
    have := roundIn_err' m.mode z (x := toRat x * toRat y) (le_big (by push_cast; exact hb))
    show Finite (mulIn _ _ _) ∧ |((toRat (mulIn _ _ _) : ℚ) : ℝ) - _| ≤ _
    rw [hz]
    have h2 := real_errIn this.2
    rw [Rat.cast_mul] at h2
    exact ⟨this.1, h2.trans (by linarith [tiny_etaIn])⟩
  mulSub_ok x y z w hx hy hz hw b1 b2 := by
    have f1 := mulIn_finite m.first hx hy b1
    have f2 := mulIn_finite m.second hz hw b2
    refine ⟨toRat (mulIn m.first x y), toRat (mulIn m.second z w), (mulIn_err m.first hx hy b1), (mulIn_err m.second hz hw b2), ?_⟩
    cases hf : m.fuse with
    | separate =>
      refine .inl fun hb => ?_
      simp only [moment64, hf]
      exact subIn_err m.mode f1 f2 hb
    | first =>
      refine .inr (.inl fun hb => ?_)
      simp only [moment64, hf]
      have := fmaIn_err m.mode hx hy (finite_neg f2) (by
        rw [toRat_neg]; push_cast; rw [← sub_eq_add_neg]; exact hb)
      rw [toRat_neg] at this
      push_cast at this
      rw [← sub_eq_add_neg] at this
      exact this
    | second =>
      refine .inr (.inr fun hb => ?_)
      simp only [moment64, hf]
      have e : ((toRat (neg z) : ℚ) : ℝ) * toRat w + toRat (mulIn m.first x y) = toRat (mulIn m.first x y) - toRat z * toRat w := by
        rw [toRat_neg]; push_cast; ring
      have := fmaIn_err m.mode (finite_neg hz) hw f1 (le_of_eq_of_le (congrArg abs e) hb)
      rw [e] at this
      exact this
  mulAdd_ok x y z w hx hy hz hw b1 b2 := by
    have f1 := mulIn_finite m.first hx hy b1
    have f2 := mulIn_finite m.second hz hw b2
    refine ⟨toRat (mulIn m.first x y), toRat (mulIn m.second z w), (mulIn_err m.first hx hy b1), (mulIn_err m.second hz hw b2), ?_⟩
    cases hf : m.fuse with
    | separate =>
      refine .inl fun hb => ?_
      simp only [moment64, hf]
      exact addIn_err m.mode f1 f2 hb
    | first =>
      refine .inr (.inl fun hb => ?_)
      simp only [moment64, hf]
      exact fmaIn_err m.mode hx hy f2 hb
    | second =>
      refine .inr (.inr fun hb => ?_)
      simp only [moment64, hf]
      have e : ((toRat z : ℚ) : ℝ) * toRat w + toRat (mulIn m.first x y) = toRat (mulIn m.first x y) + toRat z * toRat w := by ring
      have := fmaIn_err m.mode hz hw f1 (le_of_eq_of_le (congrArg abs e) hb)
      rw [e] at this
      exact this
  div_ok x y hx hy h0 hb := by
    have h0' : toRat y ≠ 0 := fun hc => h0 (by rw [hc]; simp)
    obtain ⟨z, hz⟩ := divIn_eq m.mode hx hy h0'
    have := roundIn_err' m.mode z (x := toRat x / toRat y) (le_big (by push_cast; exact hb))
    show Finite (divIn _ _ _) ∧ |((toRat (divIn _ _ _) : ℚ) : ℝ) - _| ≤ _
    rw [hz]
    have h2 := real_errIn this.2
    rw [Rat.cast_div] at h2
    exact ⟨this.1, h2.trans (by linarith [tiny_etaIn])⟩
  neg_ok x hx := ⟨finite_neg hx, by
    show ((toRat (neg _) : ℚ) : ℝ) = _
    rw [toRat_neg]; push_cast; rfl⟩
  cos_ok x hx hb := by
    obtain ⟨h1, h2, -, -⟩ := h _ hx hb
    refine ⟨h1, h2.trans ?_⟩
    norm_num [Format.anyMode]
  sin_ok x hx hb := by
    obtain ⟨-, -, h1, h2⟩ := h _ hx hb
    refine ⟨h1, h2.trans ?_⟩
    norm_num [Format.anyMode]
  floor_ok x hx := by
    obtain ⟨z, hz⟩ := floor_eq hx
    have := floor_exact z hx
    show Finite (floor _) ∧ ((toRat (floor _) : ℚ) : ℝ) = _
    rw [hz]
    refine ⟨this.1, ?_⟩
    rw [this.2, Rat.cast_intCast, Rat.floor_cast]
  trunc_ok x hx := by
    show trunc x = _
    cases x with
    | nan => exact hx.elim
    | inf s => exact hx.elim
    | num s k e =>
      unfold trunc
      rw [Rat.floor_cast, Rat.ceil_cast]
      simp only [Rat.cast_nonneg]
  pi_ok := by
    show Finite (roundQ false _) ∧ |((toRat (roundQ false _) : ℚ) : ℝ) - _| ≤ _
    rw [pi64]
    refine ⟨⟨by norm_num, by norm_num, by norm_num⟩, ?_⟩
    have h1 := Real.pi_gt_d20
    have h2 := Real.pi_lt_d20
    rw [toRat_num]
    unfold Format.anyMode
    rw [abs_le]
    norm_num at h1 h2 ⊢
    constructor <;> linarith
  negTwo_ok := by
    have := round_int false (n := -2) (by norm_num)
    refine ⟨by exact_mod_cast this.1, ?_⟩
    show ((toRat (roundQ false (-2)) : ℚ) : ℝ) = -2
    have h2 := this.2
    push_cast at h2
    rw [h2]
    norm_num
  half_ok := by
    have e : roundQ false (1 / 2) = num false (2 ^ 52) (-53) := by decide +kernel
    show Finite (roundQ false (1 / 2)) ∧ ((toRat (roundQ false (1 / 2)) : ℚ) : ℝ) = 1 / 2
    rw [e]
    refine ⟨⟨by norm_num, by norm_num, by norm_num⟩, ?_⟩
    rw [toRat_num]
    norm_num
  quarter_ok := by
    have e : roundQ false (1 / 4) = num false (2 ^ 52) (-54) := by decide +kernel
    show Finite (roundQ false (1 / 4)) ∧ ((toRat (roundQ false (1 / 4)) : ℚ) : ℝ) = 1 / 4
    rw [e]
    refine ⟨⟨by norm_num, by norm_num, by norm_num⟩, ?_⟩
    rw [toRat_num]
    norm_num
  addInt_ok x y k n hx hy hxm hyn hb := by
    obtain ⟨z, hz⟩ := addIn_eq m.mode hx hy
    have e1 : toRat x = k := by exact_mod_cast hxm
    have e2 : toRat y = n := by exact_mod_cast hyn
    have := roundIn_int m.mode z (n := k + n) hb
    show Finite (addIn _ _ _) ∧ ((toRat (addIn _ _ _) : ℚ) : ℝ) = _
    rw [hz, e1, e2, ← Int.cast_add]
    refine ⟨this.1, ?_⟩
    rw [this.2]
    simp

end BN
