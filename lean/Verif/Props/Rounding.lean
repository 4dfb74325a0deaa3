import Verif.Lemmas.PrecErr4
import Verif.Props.Excess
import Verif.Model.Directed64
/-
C138: products when the rounding mode of the processor is not "to nearest" (`fesetround`), or changes at any moment.
-/
namespace BN
open Bignum

/-! ### Rounding up and down -/

/-- r is v rounded up or down to p bits. -/
def Faithful (p : Nat) (v r : ℝ) : Prop := HasBits p r ∧
  ((v ≤ r ∧ ∀ s, HasBits p s → v ≤ s → r ≤ s) ∨ (r ≤ v ∧ ∀ s, HasBits p s → s ≤ v → s ≤ r))

/-- What may become of an exact result v in some rounding mode: 53 bits, 64 bits, or first 64 and then 53 bits. -/
def Rounded (v r : ℝ) : Prop := Faithful 53 v r ∨ Faithful 64 v r ∨ ∃ m, Faithful 64 v m ∧ Faithful 53 m r

/-- Arithmetic in which every single result may be rounded up or down. `val` is the number a value stands for; values may carry more
(how they were computed), so that the mode may be another one at every operation. The exponents are not bounded. -/
structure AnyMode {F : Type} (o : FloatOps F) (val : F → ℝ) : Prop where
  ofNat : ∀ n : ℕ, Rounded n (val (o.ofNat n))
  add : ∀ x y, Rounded (val x + val y) (val (o.add x y))
  sub : ∀ x y, Rounded (val x - val y) (val (o.sub x y))
  mul : ∀ x y, Rounded (val x * val y) (val (o.mul x y))
  div : ∀ x y, val y ≠ 0 → Rounded (val x / val y) (val (o.div x y))
  mulSub : ∀ x y z w, o.mulSub x y z w = o.sub (o.mul x y) (o.mul z w)
  mulAdd : ∀ x y z w, o.mulAdd x y z w = o.add (o.mul x y) (o.mul z w)
  neg : ∀ x, val (o.neg x) = -val x
  cos : ∀ x, |val x| ≤ 4 → |val (o.cos x) - Real.cos (val x)| ≤ 8 / 2 ^ 53
  sin : ∀ x, |val x| ≤ 4 → |val (o.sin x) - Real.sin (val x)| ≤ 8 / 2 ^ 53
  floor : ∀ x, val (o.floor x) = (⌊val x⌋ : ℤ)
  trunc : ∀ x, o.trunc x = if 0 ≤ val x then ⌊val x⌋ else ⌈val x⌉
  pi : val o.pi = 7074237752028440 / 2 ^ 51
  negTwo : val o.negTwo = -2
  half : val o.half = 1 / 2
  quarter : val o.quarter = 1 / 4

/-! ### Lemmas -/

theorem hasBits_neg {p : Nat} {x : ℝ} (h : HasBits p x) : HasBits p (-x) := by
  obtain ⟨m, e, rfl, hm⟩ := h
  exact ⟨-m, e, by push_cast; ring, by rwa [abs_neg]⟩

theorem faithful_neg {p : Nat} {v r : ℝ} (h : Faithful p v r) : Faithful p (-v) (-r) := by
  obtain ⟨h1, h2⟩ := h
  refine ⟨hasBits_neg h1, ?_⟩
  rcases h2 with ⟨a, b⟩ | ⟨a, b⟩
  · refine .inr ⟨by linarith, fun s hs h => ?_⟩
    have := b (-s) (hasBits_neg hs) (by linarith)
    linarith
  · refine .inl ⟨by linarith, fun s hs h => ?_⟩
    have := b (-s) (hasBits_neg hs) (by linarith)
    linarith

/-- Rounding to nearest is rounding up or rounding down. -/
theorem nearest_faithful {p : Nat} {v r : ℝ} (h : Nearest p v r) : Faithful p v r := by
  refine ⟨h.1, ?_⟩
  rcases le_total v r with hv | hv
  · refine .inl ⟨hv, fun s hs hvs => ?_⟩
    have := h.2 s hs
    rw [abs_of_nonneg (by linarith), abs_of_nonneg (by linarith)] at this
    linarith
  · refine .inr ⟨hv, fun s hs hvs => ?_⟩
    have := h.2 s hs
    rw [abs_of_nonpos (by linarith), abs_of_nonpos (by linarith)] at this
    linarith

theorem faithful_exact {p : Nat} {v r : ℝ} (hv : HasBits p v) (h : Faithful p v r) : r = v := by
  rcases h.2 with ⟨a, b⟩ | ⟨a, b⟩
  · exact le_antisymm (b v hv le_rfl) a
  · exact le_antisymm a (b v hv le_rfl)

/-- The least number of p bits that is not below x, and how far it is. -/
theorem roundUp {p : Nat} (hp : 1 ≤ p) {x : ℝ} (hx : x ≠ 0) :
    ∃ r, HasBits p r ∧ x ≤ r ∧ (∀ s, HasBits p s → x ≤ s → r ≤ s) ∧ r - x ≤ |x| / 2 ^ (p - 1) := by
  have hu : (0 : ℝ) < 2 ^ (Int.log 2 |x| + 1 - p) := zpow_pos (by norm_num) _
  have hlo : (2 : ℝ) ^ (Int.log 2 |x|) ≤ |x| := by
    exact_mod_cast Int.zpow_log_le_self (b := 2) (R := ℝ) (by norm_num) (abs_pos.2 hx)
  have hhi : |x| < (2 : ℝ) ^ (Int.log 2 |x| + 1) := by
    exact_mod_cast Int.lt_zpow_succ_log_self (b := 2) (R := ℝ) (by norm_num) |x|
  generalize hl : Int.log 2 |x| + 1 - (p : ℤ) = l at hu
  have e1 : (2 : ℝ) ^ (Int.log 2 |x| + 1) = 2 ^ l * 2 ^ p := by
    rw [← zpow_natCast, ← zpow_add₀ (by norm_num)]; congr 1; omega
  have e0 : (2 : ℝ) ^ (Int.log 2 |x|) = 2 ^ l * 2 ^ (p - 1) := by
    rw [← zpow_natCast, ← zpow_add₀ (by norm_num)]; congr 1; omega
  have e2 : (2 : ℝ) ^ p = 2 * 2 ^ (p - 1) := by rw [← pow_succ']; congr 1; omega
  rw [e0] at hlo
  rw [e1] at hhi
  have hd : x = x / 2 ^ l * 2 ^ l := by field_simp
  have c1 := Int.le_ceil (x / 2 ^ l)
  have c2 := Int.ceil_lt_add_one (x / 2 ^ l)
  have hup : x ≤ ⌈x / 2 ^ l⌉ * 2 ^ l := by
    conv_lhs => rw [hd]
    exact mul_le_mul_of_nonneg_right c1 hu.le
  -- the least multiple of 2^l that is not below x
  have hleast : ∀ z : ℤ, x ≤ z * 2 ^ l → (⌈x / 2 ^ l⌉ : ℝ) * 2 ^ l ≤ z * 2 ^ l := by
    intro z hz
    refine mul_le_mul_of_nonneg_right ?_ hu.le
    have : ⌈x / 2 ^ l⌉ ≤ z := Int.ceil_le.2 (by rw [div_le_iff₀ hu]; exact hz)
    exact_mod_cast this
  refine ⟨⌈x / 2 ^ l⌉ * 2 ^ l, ⟨_, _, rfl, ?_⟩, hup, ?_, ?_⟩
  · have h1 : |x / 2 ^ l| < 2 ^ p := by
      rw [abs_div, abs_of_pos hu, div_lt_iff₀ hu]; linarith
    obtain ⟨h2, h3⟩ := abs_lt.1 h1
    have h4 : (-2 ^ p : ℤ) ≤ ⌈x / 2 ^ l⌉ := by
      have : -(2 : ℝ) ^ p < ⌈x / 2 ^ l⌉ := lt_of_lt_of_le h2 c1
      have : (-2 ^ p : ℤ) < ⌈x / 2 ^ l⌉ := by exact_mod_cast this
      exact this.le
    have h5 : ⌈x / 2 ^ l⌉ ≤ 2 ^ p := Int.ceil_le.2 (by push_cast; exact h3.le)
    exact abs_le.2 ⟨h4, h5⟩
  · rintro s ⟨m, e, rfl, hm⟩ hxs
    by_cases he : l ≤ e
    · obtain ⟨t, ht⟩ := Int.eq_ofNat_of_zero_le (show 0 ≤ e - l by omega)
      have k : ((m * 2 ^ t : ℤ) : ℝ) * 2 ^ l = m * 2 ^ e := by
        rw [show e = (t : ℤ) + l by omega, zpow_add₀ (by norm_num), zpow_natCast]; push_cast; ring
      rw [← k] at hxs ⊢
      exact hleast _ hxs
    · have hmR : |(m : ℝ)| ≤ 2 ^ p := by exact_mod_cast hm
      have he1 : (2 : ℝ) ^ e ≤ 2 ^ (l - 1) := zpow_le_zpow_right₀ (by norm_num) (by omega)
      have he2 : (2 : ℝ) ^ (l - 1) = 2 ^ l / 2 := by rw [zpow_sub₀ (by norm_num)]; norm_num
      have hs : |(m : ℝ) * 2 ^ e| ≤ 2 ^ l * 2 ^ (p - 1) := by
        have hpos : (0 : ℝ) < 2 ^ e := zpow_pos (by norm_num) e
        rw [abs_mul, abs_of_pos hpos]
        calc |(m : ℝ)| * 2 ^ e ≤ 2 ^ p * 2 ^ (l - 1) := mul_le_mul hmR he1 hpos.le (by positivity)
          _ = _ := by rw [he2, e2]; ring
      have hs' := abs_le.1 hs
      rcases le_or_gt 0 x with h0 | h0
      · rw [abs_of_nonneg h0] at hlo
        have h := hleast (2 ^ (p - 1)) (by push_cast; linarith)
        push_cast at h
        linarith
      · rw [abs_of_neg h0] at hlo
        have h := hleast (-2 ^ (p - 1)) (by push_cast; linarith)
        push_cast at h
        linarith
  · rw [le_div_iff₀ (by positivity)]
    have h1 : ⌈x / 2 ^ l⌉ * 2 ^ l - x ≤ 2 ^ l := by
      have := mul_le_mul_of_nonneg_right c2.le hu.le
      rw [add_mul, ← hd] at this
      linarith
    have h2 : (0 : ℝ) < 2 ^ (p - 1) := by positivity
    calc (⌈x / 2 ^ l⌉ * 2 ^ l - x) * 2 ^ (p - 1) ≤ 2 ^ l * 2 ^ (p - 1) := mul_le_mul_of_nonneg_right h1 h2.le
      _ ≤ |x| := hlo

theorem faithful_err {p : Nat} (hp : 1 ≤ p) {v r : ℝ} (h : Faithful p v r) : |r - v| ≤ |v| / 2 ^ (p - 1) := by
  by_cases h0 : v = 0
  · subst h0
    rw [faithful_exact ⟨0, 0, by simp, by positivity⟩ h]; simp
  · rcases h.2 with ⟨a, b⟩ | ⟨a, b⟩
    · obtain ⟨t, h1, h2, h3, h4⟩ := roundUp hp h0
      rw [abs_of_nonneg (by linarith)]
      linarith [b t h1 h2]
    · obtain ⟨t, h1, h2, h3, h4⟩ := roundUp hp (neg_ne_zero.2 h0)
      rw [abs_neg] at h4
      rw [abs_of_nonpos (by linarith)]
      linarith [b (-t) (hasBits_neg h1) (by linarith)]

theorem rounded_err {v r : ℝ} (h : Rounded v r) : |r - v| ≤ Format.anyMode.u * |v| := by
  have hv := abs_nonneg v
  unfold Format.anyMode
  rcases h with h | h | ⟨m, h1, h2⟩
  · have := faithful_err (by norm_num) h
    norm_num at this ⊢
    linarith
  · have := faithful_err (by norm_num) h
    norm_num at this ⊢
    linarith
  · have a := faithful_err (by norm_num) h1
    have b := faithful_err (by norm_num) h2
    have c : |m| ≤ |v| + |v| / 2 ^ 63 := by
      have := abs_sub_abs_le_abs_sub m v
      norm_num at a ⊢
      linarith
    have d : |r - v| ≤ |r - m| + |m - v| := abs_sub_le r m v
    norm_num at a b c ⊢
    linarith

theorem rounded_exact {v r : ℝ} (hv : HasBits 53 v) (h : Rounded v r) : r = v := by
  rcases h with h | h | ⟨m, h1, h2⟩
  · exact faithful_exact hv h
  · exact faithful_exact (hasBits_mono (by norm_num) hv) h
  · have := faithful_exact (hasBits_mono (by norm_num) hv) h1
    subst this
    exact faithful_exact hv h2

section
variable {F : Type} {o : FloatOps F} {val : F → ℝ}

/-- The rounding laws hold of such an arithmetic, with twice the unit roundoff. -/
noncomputable def anyModeLaws (h : AnyMode o val) : Laws .anyMode o where
  val := val
  fin _ := True
  ofNat_ok n hn := ⟨trivial, by
    refine rounded_exact ?_ (h.ofNat n)
    have := hasBits_int (p := 53) (n := (n : ℤ)) (by rw [abs_of_nonneg (by positivity)]; exact_mod_cast hn)
    rwa [Int.cast_natCast] at this⟩
  add_ok x y _ _ _ := ⟨trivial, rounded_err (h.add x y)⟩
  sub_ok x y _ _ _ := ⟨trivial, rounded_err (h.sub x y)⟩
  mul_ok x y _ _ _ := ⟨trivial, (rounded_err (h.mul x y)).trans (le_add_of_nonneg_right eta_pos.le)⟩
  mulSub_ok x y z w _ _ _ _ _ _ := .inl (h.mulSub x y z w)
  mulAdd_ok x y z w _ _ _ _ _ _ := .inl (h.mulAdd x y z w)
  div_ok x y _ _ hy _ := ⟨trivial, (rounded_err (h.div x y hy)).trans (le_add_of_nonneg_right eta_pos.le)⟩
  neg_ok x _ := ⟨trivial, h.neg x⟩
  cos_ok x _ hx := ⟨trivial, (h.cos x hx).trans (by norm_num [Format.anyMode])⟩
  sin_ok x _ hx := ⟨trivial, (h.sin x hx).trans (by norm_num [Format.anyMode])⟩
  floor_ok x _ := ⟨trivial, h.floor x⟩
  trunc_ok x _ := h.trunc x
  pi_ok := ⟨trivial, by
    rw [h.pi]
    have h1 := Real.pi_gt_d20
    have h2 := Real.pi_lt_d20
    unfold Format.anyMode
    rw [abs_le]
    norm_num at h1 h2 ⊢
    constructor <;> linarith⟩
  negTwo_ok := ⟨trivial, h.negTwo⟩
  half_ok := ⟨trivial, h.half⟩
  quarter_ok := ⟨trivial, h.quarter⟩
  addInt_ok x y m n _ _ hx hy hb := ⟨trivial, by
    have e : val x + val y = ((m + n : ℤ) : ℝ) := by rw [hx, hy, Int.cast_add]
    exact e ▸ rounded_exact (e ▸ hasBits_int hb) (h.add x y)⟩
end

/-- Room for transforms of up to 2^32 entries. -/
noncomputable def FP.anyMode : FP.Prec where
  toFormat := .anyMode
  K := 32
  A := 2 ^ 90
  B := 2 ^ 72
  u_pos := by norm_num [Format.anyMode]
  u_le := by norm_num [Format.anyMode]
  eta_pos := by norm_num [Format.anyMode, eta]
  eta_le := by norm_num [Format.anyMode, eta]
  big_ge := by norm_num [Format.anyMode, big]
  A_ge := by norm_num
  B_pos := by norm_num
  B_le := by norm_num
  K_le := by norm_num
  K_N := by norm_num [Format.anyMode]
  N_le := by norm_num [Format.anyMode]

/-! ### Products -/

/-- How many digits both factors may have together. -/
inductive ModePreset : Limits → Nat → Prop
  | base2 : ModePreset .base2 257
  | base8 : ModePreset .base8 2341
  | base10 : ModePreset .base10 (2 ^ 24)
  | base16 : ModePreset .base16 (2 ^ 23)

theorem ModePreset.custom {L : Limits} {K : Nat} (h : ModePreset L K) : Custom L := by
  cases h
  · exact custom_base2
  · exact custom_base8
  · exact custom_base10
  · exact custom_base16

/-- Products of up to K digits have the digits of the exact product. -/
def ExactProducts {F : Type} (o : FloatOps F) (L : Limits) (K : Nat) : Prop :=
  ∀ (env : Env) (a b : List Nat) (n : Nat), WFDigits L.base a → WFDigits L.base b → 1 ≤ a.length + b.length → a.length + b.length ≤ K →
    32 < n → mulStrassen o L env.full n a b = .ok (Nat.digits L.base (natOf L.base a * natOf L.base b))

theorem exactProducts_ieee {F : Type} {o : FloatOps F} (M : Ieee o) {L : Limits} {K : Nat} (hp : Preset L K) : ExactProducts o L K :=
  fun env _ _ _ ha hb h1 h2 hn => mulStrassen_digits M hp env ha hb h1 h2 hn

/-- Digits up to `D`, a table of up to 2^K entries, the shorter factor at most `N` digits. -/
theorem anyMode_key {F : Type} {o : FloatOps F} (M : Laws .anyMode o) {L : Limits} (h : Supported L) (env : Env) {a b : List Nat} {n : Nat}
    (hn : 32 < n) {K D N : Nat} (hK : K ≤ 32) (h1 : 1 ≤ a.length + b.length) (h2 : a.length + b.length ≤ 2 ^ K) (hD : D < L.base)
    (ha : InRange (D + 1) a) (hb : InRange (D + 1) b) (hN : min a.length b.length ≤ N)
    (hfit : L.double.raw.fits ((N * (D * (D + 1)) - 1 : Nat) : Int) = true) (h53 : D < 2 ^ 53) (hm53 : N * (D * (D + 1)) ≤ 2 ^ 53)
    {c2 : ℝ} (hc0 : 0 ≤ c2) (hc2 : ((D ^ 4 * (min a.length b.length * (a.length * b.length)) : ℕ) : ℝ) ≤ c2 ^ 2)
    (hsz : ((2 : ℝ) ^ K * ((D ^ 2 + 1) * 2 ^ K)) ≤ 2 ^ 72) (hE : FP.errBound FP.anyMode K D N c2 < 1 / 2) :
    ∃ c, mulStrassen o L env.full n a b = .ok c ∧ InRange L.base c ∧ NoLeadingZero c ∧
      natOf L.base c = natOf L.base a * natOf L.base b :=
  FP.mulStrassen_ieee (φ := FP.anyMode) M h hn hK hK h1 h2 rfl hD ha hb
    (fits_mono h (Nat.sub_le_sub_right (Nat.mul_le_mul_right _ hN) 1) hfit) h53 (Nat.le_trans (Nat.mul_le_mul_right _ hN) hm53) hc0 hc2 hsz
    (lt_of_le_of_lt (FP.errBound_mono hN c2) hE)

theorem exactProducts_anyMode {F : Type} {o : FloatOps F} (M : Laws .anyMode o) {L : Limits} {K : Nat} (hp : ModePreset L K) :
    ExactProducts o L K := by
  intro env a b n ha hb h1 h2 hn
  have key : ∃ c, mulStrassen o L env.full n a b = .ok c ∧ InRange L.base c ∧ NoLeadingZero c ∧
      natOf L.base c = natOf L.base a * natOf L.base b := by
    cases hp
    · refine anyMode_key M (.inr ⟨8, 1, by norm_num, by norm_num, by norm_num, rfl⟩) env hn (K := 9) (D := 1) (N := 128)
        (c2 := (2 ^ 12 : ℕ)) (by norm_num) h1 (by omega) (by decide) ha.1 hb.1 (by omega) (by decide) (by norm_num) (by norm_num)
        (Nat.cast_nonneg _) ?_ (by norm_num) ?_
      · have h3 := Nat.mul_le_mul_left (1 ^ 4) (len_mul_le (p := a.length) (q := b.length) (n := 129) (by omega))
        have h4 : (1 ^ 4 * (129 * (129 * 129)) : ℕ) ≤ (2 ^ 12) ^ 2 := by norm_num
        exact_mod_cast Nat.le_trans h3 h4
      · norm_num [FP.errBound, FP.anyMode, Format.anyMode, eta]
    · refine anyMode_key M (.inr ⟨16, 7, by norm_num, by norm_num, by norm_num, rfl⟩) env hn (K := 12) (D := 7) (N := 1170)
        (c2 := (49 * 2 ^ 16 : ℕ)) (by norm_num) h1 (by omega) (by decide) ha.1 hb.1 (by omega) (by decide) (by norm_num) (by norm_num)
        (Nat.cast_nonneg _) ?_ (by norm_num) ?_
      · have h3 := Nat.mul_le_mul_left (7 ^ 4) (len_mul_le (p := a.length) (q := b.length) (n := 1171) (by omega))
        have h4 : (7 ^ 4 * (1171 * (1171 * 1171)) : ℕ) ≤ (49 * 2 ^ 16) ^ 2 := by norm_num
        exact_mod_cast Nat.le_trans h3 h4
      · norm_num [FP.errBound, FP.anyMode, Format.anyMode, eta]
    · refine anyMode_key M (.inr ⟨32, 9, by norm_num, by norm_num, by norm_num, rfl⟩) env hn (K := 24) (D := 9) (N := 2 ^ 23)
        (c2 := (81 * 24296004000 : ℕ)) (by norm_num) h1 h2 (by decide) ha.1 hb.1 (by omega) (by decide) (by norm_num) (by norm_num)
        (Nat.cast_nonneg _) ?_ (by norm_num) ?_
      · have h3 := Nat.mul_le_mul_left (9 ^ 4) (len_mul_le (p := a.length) (q := b.length) (n := 2 ^ 23) (by omega))
        have h4 : (9 ^ 4 * (2 ^ 23 * (2 ^ 23 * 2 ^ 23)) : ℕ) ≤ (81 * 24296004000) ^ 2 := by norm_num
        exact_mod_cast Nat.le_trans h3 h4
      · norm_num [FP.errBound, FP.anyMode, Format.anyMode, eta]
    · refine anyMode_key M (.inr ⟨32, 15, by norm_num, by norm_num, by norm_num, rfl⟩) env hn (K := 23) (D := 15) (N := 2 ^ 22)
        (c2 := (225 * 2 ^ 33 : ℕ)) (by norm_num) h1 h2 (by decide) ha.1 hb.1 (by omega) (by decide) (by norm_num) (by norm_num)
        (Nat.cast_nonneg _) ?_ (by norm_num) ?_
      · have h3 := Nat.mul_le_mul_left (15 ^ 4) (len_mul_le (p := a.length) (q := b.length) (n := 2 ^ 22) (by omega))
        have h4 : (15 ^ 4 * (2 ^ 22 * (2 ^ 22 * 2 ^ 22)) : ℕ) ≤ (225 * 2 ^ 33) ^ 2 := by norm_num
        exact_mod_cast Nat.le_trans h3 h4
      · norm_num [FP.errBound, FP.anyMode, Format.anyMode, eta]
  obtain ⟨c, e, c1, c2, c3⟩ := key
  have h := eq_numeral hp.custom.supported.base_ge (c := ⟨.pos, c⟩) c1 c2
  rw [e, ← c3]
  exact congrArg Except.ok (congrArg Bignum.digits h)

section
variable {F G : Type} {o : FloatOps F} {o' : FloatOps G} {L : Limits} {K : Nat}

theorem exactProducts_agree (H : ExactProducts o L K) (H' : ExactProducts o' L K) (env : Env) {x : Bignum} {r : Rhs} (hx : WF L x)
    (hy : WF L (r.get x)) (h1 : 1 ≤ x.digits.length + (r.get x).digits.length) (h2 : x.digits.length + (r.get x).digits.length ≤ K)
    {n : Nat} (hn : 32 < n) : mulAssign o L env n x r = mulAssign o' L env n x r := by
  unfold mulAssign
  simp only
  rw [mulStrassen_memory o, mulStrassen_memory o', H env _ _ n hx.2 hy.2 h1 h2 hn, H' env _ _ n hx.2 hy.2 h1 h2 hn]

theorem step_exact (H : ExactProducts o L K) (H' : ExactProducts o' L K) (env : Env) {n : Nat} (hn : 32 < n) {s : Store} {op : Op}
    (h : op.Within L K s) : op.step o' L env n s = op.step o L env n s := by
  cases op with
  | arith k i j =>
    cases k with
    | mul =>
      obtain ⟨h1, h2, h3, h4⟩ := h
      have e : (rhsOf s i j).get (s i) = s j := by
        unfold rhsOf; by_cases hij : j = i
        · rw [if_pos hij, hij]; rfl
        · rw [if_neg hij]; rfl
      simp only [Op.step, Arith.assign]
      rw [exactProducts_agree H H' env (r := rhsOf s i j) h1 (by rwa [e]) (by rw [e]; exact h3) (by rw [e]; exact h4) hn]
    | _ => rfl
  | binary k i j l =>
    cases k with
    | mul =>
      obtain ⟨h1, h2, h3, h4⟩ := h
      simp only [Op.step, Arith.binary, Arith.assign, viaCopy]
      cases hc : (s j).copy env with
      | error f => rfl
      | ok z =>
        have hz : z = s j := by
          unfold Bignum.copy Vec.copy at hc
          split at hc
          · rename_i h; cases hsj : s j; rw [hsj] at h hc; simp at h; subst h; cases hc; rfl
          · split at hc
            · cases hc; rfl
            · cases hc
        subst hz
        rw [ok_bind, ok_bind, exactProducts_agree H H' env (r := .other (s l)) h1 h2 h3 h4 hn]
    | _ => rfl
  | _ => rfl

theorem run_exact (H : ExactProducts o L K) (H' : ExactProducts o' L K) {n : Nat} (hn : 32 < n) : ∀ (ops : List Op) (env : Nat → Env)
    (s : Store), WithinRun o L K n env s ops → run o' L n env s ops = run o L n env s ops
  | [], _, _, _ => rfl
  | op :: ops, env, s, ⟨h1, h2⟩ => by
    rw [run, run, step_exact H H' (env 0) hn h1]
    cases hs : op.step o L (env 0) n s with
    | none => rfl
    | some s' => exact run_exact H H' hn ops _ s' (h2 s' hs)

theorem mul_exact (H : ExactProducts o L K) (hB : 2 ≤ L.base) {env : Env} (hm : env.Ample) {x y : Bignum} (hx : WF L x) (hy : WF L y)
    (h1 : 1 ≤ x.size + y.size) (h2 : x.size + y.size ≤ K) {n : Nat} (hn : 32 < n) :
    x.mul o L env n y = .ok ⟨signRule x.desc y.desc, Nat.digits L.base (x.mag L * y.mag L)⟩ := by
  unfold Bignum.mul viaCopy
  rw [copy_ok hm, ok_bind]
  have h := H env x.digits y.digits n hx.2 hy.2 h1 h2 hn
  have e := mulStrassen_memory o L env n x.digits y.digits
  rw [if_pos (hm _), h] at e
  rw [(mulAssign_of_digits (r := .other y) hx.1 hy.1 e (digits_inRange hB _) (digits_nlz _ _) (natOf_digits _ _)).1]
  rfl

theorem ModePreset.preset (h : ModePreset L K) : ∃ K', Preset L K' ∧ K ≤ K' := by
  cases h
  · exact ⟨_, .base2, by norm_num⟩
  · exact ⟨_, .base8, by norm_num⟩
  · exact ⟨_, .base10, by norm_num⟩
  · exact ⟨_, .base16, by norm_num⟩

theorem exactProducts_mode (M : Ieee o) (hp : ModePreset L K) : ExactProducts o L K := by
  obtain ⟨K', h, hK⟩ := hp.preset
  exact fun env a b n ha hb h1 h2 hn => exactProducts_ieee M h env a b n ha hb h1 (h2.trans hK) hn

end

/-! ### A mode for every operation -/

theorem roundUp_exists {p : Nat} (hp : 1 ≤ p) (v : ℝ) : ∃ r, HasBits p r ∧ v ≤ r ∧ ∀ s, HasBits p s → v ≤ s → r ≤ s := by
  by_cases h0 : v = 0
  · exact ⟨0, ⟨0, 0, by simp, by positivity⟩, h0.le, fun s _ h => h0 ▸ h⟩
  · obtain ⟨r, h1, h2, h3, -⟩ := roundUp hp h0
    exact ⟨r, h1, h2, h3⟩

/-- The least number of p bits that is not below v. -/
noncomputable def roundedUp (p : Nat) (hp : 1 ≤ p) (v : ℝ) : ℝ := (roundUp_exists hp v).choose

theorem roundedUp_faithful (p : Nat) (hp : 1 ≤ p) (v : ℝ) : Faithful p v (roundedUp p hp v) :=
  ⟨(roundUp_exists hp v).choose_spec.1, .inl (roundUp_exists hp v).choose_spec.2⟩

/-- Rounding to p bits. -/
noncomputable def Mode.round (p : Nat) (hp : 1 ≤ p) : Mode → ℝ → ℝ
  | .nearest, v => BN.nearest p hp v
  | .up, v => roundedUp p hp v
  | .down, v => -roundedUp p hp (-v)
  | .zero, v => if 0 ≤ v then -roundedUp p hp (-v) else roundedUp p hp v

theorem Mode.round_faithful (p : Nat) (hp : 1 ≤ p) (m : Mode) (v : ℝ) : Faithful p v (m.round p hp v) := by
  have hd : Faithful p v (-roundedUp p hp (-v)) := by
    have := faithful_neg (roundedUp_faithful p hp (-v))
    rwa [neg_neg] at this
  cases m with
  | nearest => exact nearest_faithful (nearest_spec p hp v)
  | up => exact roundedUp_faithful p hp v
  | down => exact hd
  | zero =>
    show Faithful p v (if 0 ≤ v then _ else _)
    split
    · exact hd
    · exact roundedUp_faithful p hp v

/-- What is done with an exact result in a mode. -/
noncomputable def Mode.apply (m : Mode) : Way → ℝ → ℝ
  | .stored, v => m.round 53 (by norm_num) v
  | .kept, v => m.round 64 (by norm_num) v
  | .keptThenStored, v => m.round 53 (by norm_num) (m.round 64 (by norm_num) v)

theorem Mode.apply_rounded (m : Mode) (w : Way) (v : ℝ) : Rounded v (m.apply w v) := by
  cases w with
  | stored => exact .inl (m.round_faithful 53 (by norm_num) _)
  | kept => exact .inr (.inl (m.round_faithful 64 (by norm_num) _))
  | keptThenStored => exact .inr (.inr ⟨_, m.round_faithful 64 (by norm_num) _, m.round_faithful 53 (by norm_num) _⟩)

/-- The number computed when the result of the computation t is rounded in the mode and in the way that `pick t` says. -/
noncomputable def Trace.valIn (pick : Trace → Mode × Way) (cosR sinR : ℝ → ℝ) : Trace → ℝ
  | .nat n => (pick (.nat n)).1.apply (pick (.nat n)).2 n
  | .add x y => (pick (.add x y)).1.apply (pick (.add x y)).2 (x.valIn pick cosR sinR + y.valIn pick cosR sinR)
  | .sub x y => (pick (.sub x y)).1.apply (pick (.sub x y)).2 (x.valIn pick cosR sinR - y.valIn pick cosR sinR)
  | .mul x y => (pick (.mul x y)).1.apply (pick (.mul x y)).2 (x.valIn pick cosR sinR * y.valIn pick cosR sinR)
  | .div x y => (pick (.div x y)).1.apply (pick (.div x y)).2 (x.valIn pick cosR sinR / y.valIn pick cosR sinR)
  | .neg x => -x.valIn pick cosR sinR
  | .cos x => cosR (x.valIn pick cosR sinR)
  | .sin x => sinR (x.valIn pick cosR sinR)
  | .floor x => (⌊x.valIn pick cosR sinR⌋ : ℤ)
  | .pi => 7074237752028440 / 2 ^ 51
  | .negTwo => -2
  | .half => 1 / 2
  | .quarter => 1 / 4

/-- Arithmetic on traces. -/
noncomputable def modeOps (pick : Trace → Mode × Way) (cosR sinR : ℝ → ℝ) : FloatOps Trace where
  ofNat := .nat
  add := .add
  sub := .sub
  mul := .mul
  mulSub x y z w := .sub (.mul x y) (.mul z w)
  mulAdd x y z w := .add (.mul x y) (.mul z w)
  div := .div
  neg := .neg
  cos := .cos
  sin := .sin
  floor := .floor
  trunc x := if 0 ≤ x.valIn pick cosR sinR then ⌊x.valIn pick cosR sinR⌋ else ⌈x.valIn pick cosR sinR⌉
  pi := .pi
  negTwo := .negTwo
  half := .half
  quarter := .quarter

theorem mode_anyMode (pick : Trace → Mode × Way) {cosR sinR : ℝ → ℝ}
    (h : ∀ x, |x| ≤ 4 → |cosR x - Real.cos x| ≤ 8 / 2 ^ 53 ∧ |sinR x - Real.sin x| ≤ 8 / 2 ^ 53) :
    AnyMode (modeOps pick cosR sinR) (Trace.valIn pick cosR sinR) where
  ofNat _ := Mode.apply_rounded _ _ _
  add _ _ := Mode.apply_rounded _ _ _
  sub _ _ := Mode.apply_rounded _ _ _
  mul _ _ := Mode.apply_rounded _ _ _
  div _ _ _ := Mode.apply_rounded _ _ _
  mulSub _ _ _ _ := rfl
  mulAdd _ _ _ _ := rfl
  neg _ := rfl
  cos _ hx := (h _ hx).1
  sin _ hx := (h _ hx).2
  floor _ := rfl
  trunc _ := rfl
  pi := rfl
  negTwo := rfl
  half := rfl
  quarter := rfl

theorem accurate_exact8 : ∀ x : ℝ, |x| ≤ 4 → |Real.cos x - Real.cos x| ≤ 8 / 2 ^ 53 ∧ |Real.sin x - Real.sin x| ≤ 8 / 2 ^ 53 :=
  fun x _ => by constructor <;> · simp only [sub_self, abs_zero]; positivity

/-! ### C138 -/

/-- Whatever the rounding mode is at each operation: products of the preset types are the integers' products. -/
theorem C138_every_mode (pick : Trace → Mode × Way) {cosR sinR : ℝ → ℝ}
    (h : ∀ x, |x| ≤ 4 → |cosR x - Real.cos x| ≤ 8 / 2 ^ 53 ∧ |sinR x - Real.sin x| ≤ 8 / 2 ^ 53) {L : Limits} {K : Nat} (hp : ModePreset L K)
    {env : Env} (hm : env.Ample) {x y : Bignum} (hx : WF L x) (hy : WF L y) (h1 : 1 ≤ x.size + y.size) (h2 : x.size + y.size ≤ K)
    {n : Nat} (hn : 32 < n) :
    x.mul (modeOps pick cosR sinR) L env n y = .ok ⟨signRule x.desc y.desc, Nat.digits L.base (x.mag L * y.mag L)⟩ :=
  mul_exact (exactProducts_anyMode (anyModeLaws (mode_anyMode pick h)) hp) hp.custom.supported.base_ge hm hx hy h1 h2 hn

/-- Sums are rounded up, all else towards zero. -/
example := C138_every_mode (fun t => match t with | .add _ _ => (.up, .stored) | _ => (.zero, .stored)) accurate_exact8 .base10 Sample.ample
  (x := Sample.n199) (y := Sample.m23) (by sample) (by sample) (by decide) (by decide) (n := 33) (by decide)

/-- Products of the preset types end as they do with rounding to nearest, with every allocator and in both builds. -/
theorem C138_products {F : Type} {o : FloatOps F} {val : F → ℝ} (ho : AnyMode o val) {lib : MathLib} (h : lib.Accurate) (fuse : Fusing)
    {L : Limits} {K : Nat} (hp : ModePreset L K) (env : Env) {x : Bignum} {r : Rhs} (hx : WF L x) (hy : WF L (r.get x))
    (h1 : 1 ≤ x.size + (r.get x).size) (h2 : x.size + (r.get x).size ≤ K) {n : Nat} (hn : 32 < n) :
    mulAssign o L env n x r = mulAssign (binary64 lib fuse) L env n x r :=
  exactProducts_agree (exactProducts_anyMode (anyModeLaws ho) hp) (exactProducts_mode (ieee64 lib h fuse) hp) env hx hy h1 h2 hn

example := C138_products (mode_anyMode (fun _ => (.down, .stored)) accurate_exact8) C113_accurate_library.choose_spec (fun _ _ _ _ => .first)
  .base10 releaseEnv (x := Sample.n199) (r := .other Sample.m23) (by sample) (by sample) (by decide) (by decide) (n := 33) (by decide)

/-- So do programs whose products stay within the lengths. -/
theorem C138_programs {F : Type} {o : FloatOps F} {val : F → ℝ} (ho : AnyMode o val) {lib : MathLib} (h : lib.Accurate) (fuse : Fusing)
    {L : Limits} {K : Nat} (hp : ModePreset L K) {n : Nat} (hn : 32 < n) (ops : List Op) (env : Nat → Env) (s : Store)
    (hw : WithinRun (binary64 lib fuse) L K n env s ops) :
    run o L n env s ops = run (binary64 lib fuse) L n env s ops :=
  run_exact (exactProducts_mode (ieee64 lib h fuse) hp) (exactProducts_anyMode (anyModeLaws ho) hp) hn ops env s hw

example := C138_programs (mode_anyMode (fun _ => (.down, .stored)) accurate_exact8) C113_accurate_library.choose_spec (fun _ _ _ _ => .first)
  .base10 (n := 40) (by decide) [.binary .mul 0 1 2, .arith .sub 0 1] (fun _ => releaseEnv) (fun _ => Sample.n199)
  ⟨⟨by sample, by sample, by decide, by decide⟩, fun _ _ => ⟨trivial, fun _ _ => trivial⟩⟩

end BN
