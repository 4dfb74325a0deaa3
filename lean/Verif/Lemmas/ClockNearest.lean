import Verif.Lemmas.ClockMul
import Verif.Props.Excess
/-
A clock whose arithmetics all round to nearest: the full lengths of products, and every arithmetic of `Ieee` is lawful at its moment.
-/
namespace BN
open Bignum

/-- Room for transforms of up to 2^32 entries. -/
noncomputable def FP.double : FP.Prec where
  toFormat := .double
  K := 32
  A := 2 ^ 90
  B := 2 ^ 72
  u_pos := by norm_num [Format.double, uro]
  u_le := by norm_num [Format.double, uro]
  eta_pos := by norm_num [Format.double, eta]
  eta_le := by norm_num [Format.double, eta, uro]
  big_ge := by norm_num [Format.double, big]
  A_ge := by norm_num
  B_pos := by norm_num
  B_le := by norm_num
  K_le := by norm_num
  K_N := by norm_num [Format.double]
  N_le := by norm_num [Format.double]

section
variable {F : Type} {val : F → ℝ} {fin : F → Prop} {O : ℕ → FloatOps F} (M : ∀ t, LawfulAt .double val fin (O t))
include M

theorem double_keyT {L : Limits} (h : Supported L) {env : Env} {a b : List Nat} {n : Nat}
    (hn : 32 < n) (hal : env.alloc (fftTableSize a.length b.length) = true) {K D N : Nat} (hK : K ≤ 32) (h1 : 1 ≤ a.length + b.length)
    (h2 : a.length + b.length ≤ 2 ^ K) (hD : D < L.base)
    (ha : InRange (D + 1) a) (hb : InRange (D + 1) b) (hN : min a.length b.length ≤ N)
    (hfit : L.double.raw.fits ((N * (D * (D + 1)) - 1 : Nat) : Int) = true) (h53 : D < 2 ^ 53) (hm53 : N * (D * (D + 1)) ≤ 2 ^ 53)
    {c2 : ℝ} (hc0 : 0 ≤ c2) (hc2 : ((D ^ 4 * (min a.length b.length * (a.length * b.length)) : ℕ) : ℝ) ≤ c2 ^ 2)
    (hsz : ((2 : ℝ) ^ K * ((D ^ 2 + 1) * 2 ^ K)) ≤ 2 ^ 72) (hE : FP.errBound FP.double K D N c2 < 1 / 2) :
    ∃ c, (mulStrassenT O L env n a b).outcome = .ok c ∧ InRange L.base c ∧ NoLeadingZero c ∧
      natOf L.base c = natOf L.base a * natOf L.base b :=
  runs_outcome (FP.mulStrassenT_ok (φ := FP.double) M h hn hK hK h1 h2 hal hD ha hb
    (fits_mono h (Nat.sub_le_sub_right (Nat.mul_le_mul_right _ hN) 1) hfit) h53 (Nat.le_trans (Nat.mul_le_mul_right _ hN) hm53) hc0 hc2 hsz
    (lt_of_le_of_lt (FP.errBound_mono hN c2) hE))

theorem exactProductsT_double {L : Limits} {K : Nat} (hp : Preset L K) : ExactProductsT O L K := by
  intro env a b n ha hb h1 h2 hn hal
  have key : ∃ c, (mulStrassenT O L env n a b).outcome = .ok c ∧ InRange L.base c ∧ NoLeadingZero c ∧
      natOf L.base c = natOf L.base a * natOf L.base b := by
    cases hp
    · refine double_keyT M (.inr ⟨8, 1, by norm_num, by norm_num, by norm_num, rfl⟩) hn hal (K := 9) (D := 1) (N := 128)
        (c2 := (2 ^ 12 : ℕ)) (by norm_num) h1 (by omega) (by decide) ha.1 hb.1 (by omega) (by decide) (by norm_num) (by norm_num)
        (Nat.cast_nonneg _) ?_ (by norm_num) ?_
      · have h3 := Nat.mul_le_mul_left (1 ^ 4) (len_mul_le (p := a.length) (q := b.length) (n := 129) (by omega))
        have h4 : (1 ^ 4 * (129 * (129 * 129)) : ℕ) ≤ (2 ^ 12) ^ 2 := by norm_num
        exact_mod_cast Nat.le_trans h3 h4
      · norm_num [FP.errBound, FP.double, Format.double, uro, eta]
    · refine double_keyT M (.inr ⟨16, 7, by norm_num, by norm_num, by norm_num, rfl⟩) hn hal (K := 12) (D := 7) (N := 1170)
        (c2 := (49 * 2 ^ 16 : ℕ)) (by norm_num) h1 (by omega) (by decide) ha.1 hb.1 (by omega) (by decide) (by norm_num) (by norm_num)
        (Nat.cast_nonneg _) ?_ (by norm_num) ?_
      · have h3 := Nat.mul_le_mul_left (7 ^ 4) (len_mul_le (p := a.length) (q := b.length) (n := 1171) (by omega))
        have h4 : (7 ^ 4 * (1171 * (1171 * 1171)) : ℕ) ≤ (49 * 2 ^ 16) ^ 2 := by norm_num
        exact_mod_cast Nat.le_trans h3 h4
      · norm_num [FP.errBound, FP.double, Format.double, uro, eta]
    · refine double_keyT M (.inr ⟨32, 9, by norm_num, by norm_num, by norm_num, rfl⟩) hn hal (K := 25) (D := 9) (N := 2 ^ 24)
        (c2 := (81 * 2 ^ 36 : ℕ)) (by norm_num) h1 h2 (by decide) ha.1 hb.1 (by omega) (by decide) (by norm_num) (by norm_num)
        (Nat.cast_nonneg _) ?_ (by norm_num) ?_
      · have h3 := Nat.mul_le_mul_left (9 ^ 4) (len_mul_le (p := a.length) (q := b.length) (n := 2 ^ 24) (by omega))
        have h4 : (9 ^ 4 * (2 ^ 24 * (2 ^ 24 * 2 ^ 24)) : ℕ) ≤ (81 * 2 ^ 36) ^ 2 := by norm_num
        exact_mod_cast Nat.le_trans h3 h4
      · norm_num [FP.errBound, FP.double, Format.double, uro, eta]
    · refine double_keyT M (.inr ⟨32, 15, by norm_num, by norm_num, by norm_num, rfl⟩) hn hal (K := 24) (D := 15) (N := 2 ^ 23)
        (c2 := (225 * 24296004000 : ℕ)) (by norm_num) h1 h2 (by decide) ha.1 hb.1 (by omega) (by decide) (by norm_num) (by norm_num)
        (Nat.cast_nonneg _) ?_ (by norm_num) ?_
      · have h3 := Nat.mul_le_mul_left (15 ^ 4) (len_mul_le (p := a.length) (q := b.length) (n := 2 ^ 23) (by omega))
        have h4 : (15 ^ 4 * (2 ^ 23 * (2 ^ 23 * 2 ^ 23)) : ℕ) ≤ (225 * 24296004000) ^ 2 := by norm_num
        exact_mod_cast Nat.le_trans h3 h4
      · norm_num [FP.errBound, FP.double, Format.double, uro, eta]
  obtain ⟨c, e, c1, c2, c3⟩ := key
  have h := eq_numeral hp.custom.supported.base_ge (c := ⟨.pos, c⟩) c1 c2
  rw [e, ← c3]
  exact congrArg Except.ok (congrArg Bignum.digits h)

end

/-- An arithmetic that obeys `Ieee` is lawful at its moment. -/
theorem ieee_lawful {F : Type} {o : FloatOps F} (M : Ieee o) : LawfulAt .double M.val M.fin o where
  ofNat_ok := M.ofNat_ok
  add_ok := M.add_ok
  sub_ok := M.sub_ok
  mul_ok := M.mul_ok
  mulSub_ok x y z w hx hy hz hw b1 b2 := by
    have hbig : (0 : ℝ) < big := by unfold big; positivity
    have h1 := M.mul_ok x y hx hy (by have : |M.val x * M.val y| ≤ big / 2 := b1; linarith)
    have h2 := M.mul_ok z w hz hw (by have : |M.val z * M.val w| ≤ big / 2 := b2; linarith)
    refine ⟨M.val (o.mul x y), M.val (o.mul z w), h1.2, h2.2, ?_⟩
    rcases M.mulSub_ok x y z w hx hy hz hw b1 b2 with e | h | h
    · exact .inl fun hb => by rw [e]; exact M.sub_ok _ _ h1.1 h2.1 hb
    · exact .inr (.inl h)
    · exact .inr (.inr h)
  mulAdd_ok x y z w hx hy hz hw b1 b2 := by
    have hbig : (0 : ℝ) < big := by unfold big; positivity
    have h1 := M.mul_ok x y hx hy (by have : |M.val x * M.val y| ≤ big / 2 := b1; linarith)
    have h2 := M.mul_ok z w hz hw (by have : |M.val z * M.val w| ≤ big / 2 := b2; linarith)
    refine ⟨M.val (o.mul x y), M.val (o.mul z w), h1.2, h2.2, ?_⟩
    rcases M.mulAdd_ok x y z w hx hy hz hw b1 b2 with e | h | h
    · exact .inl fun hb => by rw [e]; exact M.add_ok _ _ h1.1 h2.1 hb
    · exact .inr (.inl h)
    · exact .inr (.inr h)
  div_ok := M.div_ok
  neg_ok := M.neg_ok
  cos_ok := M.cos_ok
  sin_ok := M.sin_ok
  floor_ok := M.floor_ok
  trunc_ok := M.trunc_ok
  pi_ok := M.pi_ok
  negTwo_ok := M.negTwo_ok
  half_ok := M.half_ok
  quarter_ok := M.quarter_ok
  addInt_ok := M.addInt_ok

end BN
