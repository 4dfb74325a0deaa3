import Verif.Lemmas.Samples
import Verif.Props.MulThreshold
import Verif.Lemmas.Mono
/-
C68: a product is exact exactly when no column of the schoolbook scheme, carry included, is too large for the double-width
type; otherwise it is undefined. So for the small digit types a product that is returned is right.
-/
namespace BN

open Bignum

/-- What the schoolbook scheme adds up in column `j`, the carry from the columns to the right included. -/
def columnTotal (B : Nat) (a b : List Nat) (j : Nat) : Nat := (∑ i ∈ Finset.range (j + 1), colSum a b i * B ^ i) / B ^ j

theorem columnTotal_zero (B : Nat) (a b : List Nat) : columnTotal B a b 0 = colSum a b 0 := by
  simp [columnTotal]

theorem columnTotal_succ {B : Nat} (hB : 0 < B) (a b : List Nat) (j : Nat) :
    columnTotal B a b (j + 1) = columnTotal B a b j / B + colSum a b (j + 1) := by
  unfold columnTotal
  rw [Finset.sum_range_succ, Nat.add_mul_div_right _ _ (Nat.pow_pos hB), pow_succ, Nat.div_div_eq_div_mul]

/-- Beyond the digits of the product nothing is left. -/
theorem columnTotal_eq_zero {B : Nat} {a b : List Nat} (ha : InRange B a) (hb : InRange B b) (hB : 0 < B) {j : Nat}
    (hj : a.length + b.length ≤ j) : columnTotal B a b j = 0 := by
  unfold columnTotal
  rw [sum_colSum B a b _ (by omega)]
  apply Nat.div_eq_of_lt
  calc natOf B a * natOf B b < B ^ a.length * B ^ b.length := Nat.mul_lt_mul'' (natOf_lt ha) (natOf_lt hb)
    _ = B ^ (a.length + b.length) := by rw [pow_add]
    _ ≤ _ := Nat.pow_le_pow_right hB hj

theorem columnTotal_le {B D : Nat} {a b : List Nat} (ha : InRange (D + 1) a) (hb : InRange (D + 1) b) (hD : D < B) :
    ∀ j, columnTotal B a b j / B ≤ min a.length b.length * D
  | 0 => by
    rw [columnTotal_zero]
    have h := colSum_le ha hb 0
    have h1 : min a.length b.length * (D * D) ≤ min a.length b.length * D * B := by
      rw [← Nat.mul_assoc]; exact Nat.mul_le_mul_left _ (by omega)
    exact Nat.div_le_of_le_mul (by rw [Nat.mul_comm]; simpa using Nat.le_trans (by simpa using h) h1)
  | j + 1 => by
    rw [columnTotal_succ (by omega)]
    have ih := columnTotal_le ha hb hD j
    have h : colSum a b (j + 1) ≤ min a.length b.length * (D * D) := by simpa using colSum_le ha hb (j + 1)
    have h1 : min a.length b.length * D + min a.length b.length * (D * D) ≤ min a.length b.length * D * B := by
      rw [Nat.add_comm, ← Nat.mul_assoc, ← Nat.mul_succ]; exact Nat.mul_le_mul_left _ (by omega)
    exact Nat.div_le_of_le_mul (by rw [Nat.mul_comm]; omega)

section
variable {F : Type} (o : FloatOps F)

/-- The carry pass when every column fits. -/
theorem carryLoop_totals {L : Limits} (h : Supported L) {C : Nat} (g : Nat → F) (m T : Nat → Nat)
    (hT : ∀ j, T (j + 1) = T j / L.base + m (j + 1)) :
    ∀ (n i c : Nat), c ≤ C → T i = c + m i →
      (∀ j, i ≤ j → j < i + n → L.double.raw.fits (T j : Int) = true ∧ T j / L.base ≤ C ∧ RoundsTo o C (g j) (m j)) →
      ∃ ds c', carryLoop o L c ((List.range' i n).map g) = .ok ds ∧ ds.length = n ∧ InRange L.base ds ∧
        natOf L.base ds + L.base ^ n * c' = c + ∑ t ∈ Finset.range n, m (i + t) * L.base ^ t
  | 0, i, c, _, _, _ => ⟨[], c, rfl, rfl, .nil _, by simp⟩
  | n + 1, i, c, hc, h0, hg => by
    obtain ⟨f1, f2, f3⟩ := hg i (by omega) (by omega)
    have hB : 0 < L.base := Nat.succ_pos _
    obtain ⟨ds, c', h1, h2, h3, h4⟩ := carryLoop_totals h g m T hT n (i + 1) (T i / L.base) f2 (hT i)
      (fun t h1 h2 => hg t (by omega) (by omega))
    refine ⟨T i % L.base :: ds, c', ?_, by simp [h2], h3.cons (Nat.mod_lt _ hB), ?_⟩
    · rw [List.range'_succ, List.map_cons, carryLoop, carryStep_eq o h f3 hc (by rw [← h0]; exact f1), ok_bind]
      simp only
      rw [← h0, h1, ok_bind]
    · rw [natOf_cons, Finset.sum_range_succ', pow_succ]
      have hdm := Nat.mod_add_div (T i) L.base
      have e : ∀ t ∈ Finset.range n, m (i + (t + 1)) * L.base ^ (t + 1) = L.base * (m (i + 1 + t) * L.base ^ t) := by
        intro t _
        rw [show i + (t + 1) = i + 1 + t by omega, pow_succ]; ring
      rw [Finset.sum_congr rfl e, ← Finset.mul_sum]
      have h4' := congrArg (L.base * ·) h4
      simp only [Nat.mul_add] at h4'
      simp only [Nat.add_zero, pow_zero, Nat.mul_one]
      calc T i % L.base + L.base * natOf L.base ds + L.base ^ n * L.base * c'
          = T i % L.base + (L.base * natOf L.base ds + L.base * (L.base ^ n * c')) := by ring
        _ = T i % L.base + L.base * (T i / L.base) + L.base * ∑ t ∈ Finset.range n, m (i + 1 + t) * L.base ^ t := by
            rw [h4']; ring
        _ = _ := by rw [hdm, h0]; ring

/-- Product of digit lists: exact when every column total fits, undefined otherwise. -/
theorem mulStrassen_columns {L : Limits} (h : Supported L) {env : Env} {fuel : Nat} (hfuel : 32 < fuel) {a b : List Nat} {k D : Nat}
    (hk : k ≤ 32) (hs : fftTableSize a.length b.length = 2 ^ k) (hlen : a.length + b.length ≤ 2 ^ k)
    (hal : env.alloc (fftTableSize a.length b.length) = true)
    (hD : D < L.base) (had : InRange (D + 1) a) (hbd : InRange (D + 1) b)
    (hr : ∀ i, i < 2 ^ k → RoundsTo o (min a.length b.length * D) (coefF o k a b i) (colSum a b i)) :
    ((∀ j, j < a.length + b.length → L.double.raw.fits (columnTotal L.base a b j : Int) = true) →
      ∃ c, mulStrassen o L env fuel a b = .ok c ∧ InRange L.base c ∧ NoLeadingZero c ∧
        natOf L.base c = natOf L.base a * natOf L.base b) ∧
    ((∃ j, j < a.length + b.length ∧ L.double.raw.fits (columnTotal L.base a b j : Int) = false) →
      mulStrassen o L env fuel a b = .error (.ub .floatToInt)) := by
  have hB : 2 ≤ L.base := h.base_ge
  have ha : InRange L.base a := fun d hd => by have := had d hd; omega
  have hb : InRange L.base b := fun d hd => by have := hbd d hd; omega
  have e : (tab (2 ^ k) fun i => (ifftF o k (pointF o (2 ^ k) (fftF o k (packF o a b))) i).re) =
      (List.range' 0 (2 ^ k)).map (coefF o k a b) := by
    rw [← List.range_eq_range']; rfl
  rw [pipeline_split o L env fuel hal, pipeline_eq o hk hs hfuel, ok_bind, tab_map, e]
  have hT : ∀ j, columnTotal L.base a b (j + 1) = columnTotal L.base a b j / L.base + colSum a b (j + 1) :=
    columnTotal_succ (by omega) a b
  have hC := columnTotal_le had hbd hD
  constructor
  · intro hfit
    have hfit' : ∀ j, L.double.raw.fits (columnTotal L.base a b j : Int) = true := by
      intro j
      by_cases hj : j < a.length + b.length
      · exact hfit j hj
      · rw [columnTotal_eq_zero ha hb (by omega) (by omega)]
        obtain ⟨w, hw⟩ := double_unsigned h
        rw [hw]
        exact decide_eq_true ⟨le_rfl, by positivity⟩
    obtain ⟨ds, c', h1, h2, h3, h4⟩ := carryLoop_totals o h (C := min a.length b.length * D) (coefF o k a b) (colSum a b)
      (columnTotal L.base a b) hT (2 ^ k) 0 0 (Nat.zero_le _) (by rw [columnTotal_zero, Nat.zero_add])
      (fun j _ hj => ⟨hfit' j, hC j, hr j (by omega)⟩)
    rw [h1, ok_bind, stripTop_eq]
    simp only [Nat.zero_add] at h4
    rw [sum_colSum L.base a b _ hlen] at h4
    refine ⟨_, rfl, trim_inRange h3, trim_noLeadingZero _, ?_⟩
    rw [natOf_trim]
    have hlt : natOf L.base a * natOf L.base b < L.base ^ 2 ^ k := by
      calc natOf L.base a * natOf L.base b < L.base ^ a.length * L.base ^ b.length :=
            Nat.mul_lt_mul'' (natOf_lt ha) (natOf_lt hb)
        _ = L.base ^ (a.length + b.length) := by rw [pow_add]
        _ ≤ _ := Nat.pow_le_pow_right (by omega) hlen
    have hc0 : c' = 0 := by
      by_contra hc
      have : L.base ^ 2 ^ k * 1 ≤ L.base ^ 2 ^ k * c' := Nat.mul_le_mul_left _ (by omega)
      omega
    rw [hc0] at h4
    omega
  · intro hbad
    classical
    have hb' := Nat.find_spec hbad
    have hmin := fun j (hj : j < Nat.find hbad) => Nat.find_min hbad hj
    rw [carryLoop_ub o h (C := min a.length b.length * D) (coefF o k a b) (colSum a b) (columnTotal L.base a b) (Nat.find hbad)
      (2 ^ k) 0 0 (by omega) (Nat.zero_le _) (by rw [columnTotal_zero, Nat.zero_add]) hT
      (fun j _ hj => ⟨?_, hC j⟩) (by rw [Nat.zero_add]; exact hb'.2) (fun j _ hj => hr j (by omega))]
    · rfl
    · have := hmin j (by omega)
      rw [not_and, Bool.not_eq_false] at this
      exact this (by omega)

end

/-- The product `x *= r` with a double-width type of `w` bits: exact when every column total is below `2 ^ w`, undefined
(conversion of a `double` that is too large) when some column total is not. -/
def DecidedByColumns {F : Type} (o : FloatOps F) (L : Limits) (env : Env) (w : Nat) (x : Bignum) (r : Rhs) : Prop :=
  ((∀ j, j < x.digits.length + (r.get x).digits.length → columnTotal L.base x.digits (r.get x).digits j < 2 ^ w) →
    ∃ z, (∀ n, 32 < n → mulAssign o L env n x r = .ok z) ∧ WF L z ∧ NoLeadingZero z.digits ∧
      z.desc = signRule x.desc (r.get x).desc ∧ z.toInt L = x.toInt L * (r.get x).toInt L) ∧
  ((∃ j, j < x.digits.length + (r.get x).digits.length ∧ 2 ^ w ≤ columnTotal L.base x.digits (r.get x).digits j) →
    ∀ n, 32 < n → mulAssign o L env n x r = .ub .floatToInt)

theorem C68_general {F : Type} {o : FloatOps F} (M : Ieee o) {L : Limits} (h : Supported L) {w : Nat} (hw : L.double.raw = cU w)
    {env : Env} {x : Bignum} {r : Rhs}
    (hm : env.alloc (fftTableSize x.digits.length (r.get x).digits.length) = true) (hx : Signed x.desc) (hy : Signed (r.get x).desc) {K D : Nat} (hK : K ≤ 31)
    (h1 : 1 ≤ x.digits.length + (r.get x).digits.length) (h2 : x.digits.length + (r.get x).digits.length ≤ 2 * 2 ^ K)
    (hD : D < L.base) (hxd : InRange (D + 1) x.digits) (hyd : InRange (D + 1) (r.get x).digits)
    (h53 : D < 2 ^ 53) (hm53 : 2 ^ K * (D * (D + 1)) ≤ 2 ^ 53) {c2 : ℕ} (hc2 : D ^ 4 * (2 ^ K * (2 ^ K * 2 ^ K)) ≤ c2 ^ 2)
    (hsz : ((2 : ℝ) ^ (K + 1) * ((D ^ 2 + 1) * 2 ^ (K + 1))) ≤ 2 ^ 72) (hE : errBound (K + 1) D (2 ^ K) c2 < 1 / 2) :
    DecidedByColumns o L env w x r := by
  have hle32 : (2 : ℕ) ^ (K + 1) ≤ 2 ^ 32 := Nat.pow_le_pow_right (by omega) (by omega)
  obtain ⟨k, hk, hs, hlk, hu⟩ := fftTableSize_eq h1 (by rw [pow_succ] at hle32; omega)
  have hkK : k ≤ K + 1 := by
    by_contra hc
    have : 2 ^ (K + 2) ≤ 2 ^ k := Nat.pow_le_pow_right (by omega) (by omega)
    rw [pow_succ, pow_succ] at this
    omega
  have hmin : min x.digits.length (r.get x).digits.length ≤ 2 ^ K := by omega
  have hr := rounds_ieee M (a := x.digits) (b := (r.get x).digits) (k := k) (K := K + 1) (D := D) (c2 := c2) (by omega) hkK
    hlk hxd hyd h53 (Nat.le_trans (Nat.mul_le_mul_right _ hmin) hm53) (Nat.cast_nonneg _)
    (by have h3 := Nat.mul_le_mul_left (D ^ 4) (len_mul_le h2)
        exact_mod_cast Nat.le_trans h3 hc2)
    hsz (lt_of_le_of_lt (errBound_mono hmin _) hE)
  have hfit : ∀ m : Nat, L.double.raw.fits (m : Int) = decide (m < 2 ^ w) := by
    intro m
    rw [hw]
    show decide (0 ≤ (m : Int) ∧ (m : Int) < 2 ^ w) = _
    apply decide_eq_decide.2
    constructor
    · intro h; exact_mod_cast h.2
    · intro h; exact ⟨by omega, by exact_mod_cast h⟩
  refine ⟨fun hall => ?_, fun hbad n hn => ?_⟩
  · exact mulAssign_exact hx hy fun n hn =>
      (mulStrassen_columns o h hn hk hs hlk hm hD hxd hyd hr).1 fun j hj => by
        rw [hfit]; exact decide_eq_true (hall j hj)
  · refine mulAssign_ub hx ((mulStrassen_columns o h hn hk hs hlk hm hD hxd hyd hr).2 ?_)
    obtain ⟨j, hj, hb⟩ := hbad
    exact ⟨j, hj, by rw [hfit]; exact decide_eq_false (by omega)⟩

example {F : Type} {o : FloatOps F} (M : Ieee o) := C68_general M (L := .lowp) (.inl .lowp) (w := 16) rfl (env := releaseEnv) (x := ⟨.neg, [200, 9]⟩)
  (r := .other ⟨.neg, [255]⟩) rfl (.inr rfl) (.inr rfl) (K := 1) (D := 255) (by decide) (by decide) (by decide) (by decide)
  (by sample) (by sample) (by decide) (by decide) (c2 := 200000) (by decide) (by norm_num) (by norm_num [errBound, uro, eta])

/-- 8-bit digits, up to 2^18 of them together. -/
theorem C68_lowp {F : Type} {o : FloatOps F} (M : Ieee o) {env : Env} {x : Bignum} {r : Rhs}
    (hm : env.alloc (fftTableSize x.digits.length (r.get x).digits.length) = true)
    (hx : WF .lowp x) (hy : WF .lowp (r.get x)) (h1 : 1 ≤ x.digits.length + (r.get x).digits.length)
    (h2 : x.digits.length + (r.get x).digits.length ≤ 2 ^ 18) : DecidedByColumns o .lowp env 16 x r :=
  C68_general M (.inl .lowp) rfl hm hx.1 hy.1 (K := 17) (D := 255) (c2 := 255 ^ 2 * 2 ^ 26) (by norm_num) h1 (by omega) (by decide)
    hx.2.1 hy.2.1 (by norm_num) (by norm_num) (by norm_num) (by norm_num) (by norm_num [errBound, uro, eta])

example {F : Type} {o : FloatOps F} (M : Ieee o) := C68_lowp M (env := releaseEnv) (x := ⟨.neg, [255, 255]⟩) (r := .other Sample.n199)
  rfl (by sample) (by sample) (by decide) (by decide)

/-- 16-bit digits, up to 2^8 of them together. -/
theorem C68_medp {F : Type} {o : FloatOps F} (M : Ieee o) {env : Env} {x : Bignum} {r : Rhs}
    (hm : env.alloc (fftTableSize x.digits.length (r.get x).digits.length) = true)
    (hx : WF .medp x) (hy : WF .medp (r.get x)) (h1 : 1 ≤ x.digits.length + (r.get x).digits.length)
    (h2 : x.digits.length + (r.get x).digits.length ≤ 2 ^ 8) : DecidedByColumns o .medp env 32 x r :=
  C68_general M (.inl .medp) rfl hm hx.1 hy.1 (K := 7) (D := 65535) (c2 := 65535 ^ 2 * 1449) (by norm_num) h1 (by omega) (by decide)
    hx.2.1 hy.2.1 (by norm_num) (by norm_num) (by norm_num) (by norm_num) (by norm_num [errBound, uro, eta])

example {F : Type} {o : FloatOps F} (M : Ieee o) := C68_medp M (env := releaseEnv) (x := ⟨.neg, [65535, 65535]⟩) (r := .other Sample.n199)
  rfl (by sample) (by sample) (by decide) (by decide)

/-- Base 2, up to 2^28 digits together. -/
theorem C68_base2 {F : Type} {o : FloatOps F} (M : Ieee o) {env : Env} {x : Bignum} {r : Rhs}
    (hm : env.alloc (fftTableSize x.digits.length (r.get x).digits.length) = true)
    (hx : WF .base2 x) (hy : WF .base2 (r.get x)) (h1 : 1 ≤ x.digits.length + (r.get x).digits.length)
    (h2 : x.digits.length + (r.get x).digits.length ≤ 2 ^ 28) : DecidedByColumns o .base2 env 8 x r :=
  C68_general M (.inr ⟨8, 1, by norm_num, by norm_num, by norm_num, rfl⟩) rfl hm hx.1 hy.1 (K := 27) (D := 1) (c2 := 2 ^ 41)
    (by norm_num) h1 (by omega) (by decide) hx.2.1 hy.2.1 (by norm_num) (by norm_num) (by norm_num) (by norm_num)
    (by norm_num [errBound, uro, eta])

example {F : Type} {o : FloatOps F} (M : Ieee o) := C68_base2 M (env := releaseEnv) (x := ⟨.neg, [1, 1]⟩) (r := .self)
  rfl (by sample) (by sample) (by decide) (by decide)

/-- Base 8, up to 2^25 digits together. -/
theorem C68_base8 {F : Type} {o : FloatOps F} (M : Ieee o) {env : Env} {x : Bignum} {r : Rhs}
    (hm : env.alloc (fftTableSize x.digits.length (r.get x).digits.length) = true)
    (hx : WF .base8 x) (hy : WF .base8 (r.get x)) (h1 : 1 ≤ x.digits.length + (r.get x).digits.length)
    (h2 : x.digits.length + (r.get x).digits.length ≤ 2 ^ 25) : DecidedByColumns o .base8 env 16 x r :=
  C68_general M (.inr ⟨16, 7, by norm_num, by norm_num, by norm_num, rfl⟩) rfl hm hx.1 hy.1 (K := 24) (D := 7) (c2 := 49 * 2 ^ 36)
    (by norm_num) h1 (by omega) (by decide) hx.2.1 hy.2.1 (by norm_num) (by norm_num) (by norm_num) (by norm_num)
    (by norm_num [errBound, uro, eta])

example {F : Type} {o : FloatOps F} (M : Ieee o) := C68_base8 M (env := releaseEnv) (x := ⟨.neg, [7, 1]⟩) (r := .self)
  rfl (by sample) (by sample) (by decide) (by decide)

/-- Base 256 in 16-bit digits (the type of the compression test), up to 2^18 digits together. -/
theorem C68_base256 {F : Type} {o : FloatOps F} (M : Ieee o) {env : Env} {x : Bignum} {r : Rhs}
    (hm : env.alloc (fftTableSize x.digits.length (r.get x).digits.length) = true)
    (hx : WF .base256 x) (hy : WF .base256 (r.get x)) (h1 : 1 ≤ x.digits.length + (r.get x).digits.length)
    (h2 : x.digits.length + (r.get x).digits.length ≤ 2 ^ 18) : DecidedByColumns o .base256 env 16 x r :=
  C68_general M (.inr ⟨16, 255, by norm_num, by norm_num, by norm_num, rfl⟩) rfl hm hx.1 hy.1 (K := 17) (D := 255) (c2 := 255 ^ 2 * 2 ^ 26)
    (by norm_num) h1 (by omega) (by decide) hx.2.1 hy.2.1 (by norm_num) (by norm_num) (by norm_num) (by norm_num)
    (by norm_num [errBound, uro, eta])

example {F : Type} {o : FloatOps F} (M : Ieee o) := C68_base256 M (env := releaseEnv) (x := ⟨.neg, [255, 255]⟩) (r := .other Sample.n199)
  rfl (by sample) (by sample) (by decide) (by decide)

/-- A product decided by its columns that is returned is right. -/
theorem returned_exact {F : Type} {o : FloatOps F} {L : Limits} {env : Env} {w : Nat} {x : Bignum} {r : Rhs}
    (h : DecidedByColumns o L env w x r) {n : Nat} (hn : 32 < n) {z : Bignum} (hz : mulAssign o L env n x r = .ok z) :
    z.toInt L = x.toInt L * (r.get x).toInt L := by
  by_cases hb : ∃ j, j < x.digits.length + (r.get x).digits.length ∧ 2 ^ w ≤ columnTotal L.base x.digits (r.get x).digits j
  · rw [h.2 hb n hn] at hz; cases hz
  · obtain ⟨z', h1, -, -, -, h2⟩ := h.1 fun j hj => by
      by_contra hc
      exact hb ⟨j, hj, by omega⟩
    rw [h1 n hn] at hz
    obtain rfl := Out.ok.inj hz
    exact h2

/-- A product of 8-bit or 16-bit digits or of base-2, base-8 or base-256 digits that is returned is right, whatever the allocator does. -/
theorem C68_returned_is_right {F : Type} {o : FloatOps F} (M : Ieee o) {env : Env} {L : Limits} {N : Nat}
    (hL : L = .lowp ∧ N = 2 ^ 18 ∨ L = .medp ∧ N = 2 ^ 8 ∨ L = .base2 ∧ N = 2 ^ 28 ∨ L = .base8 ∧ N = 2 ^ 25 ∨ L = .base256 ∧ N = 2 ^ 18) {x : Bignum} {r : Rhs}
    (hx : WF L x) (hy : WF L (r.get x)) (h1 : 1 ≤ x.digits.length + (r.get x).digits.length)
    (h2 : x.digits.length + (r.get x).digits.length ≤ N) {n : Nat} {z : Bignum}
    (hz : mulAssign o L env n x r = .ok z) : z.toInt L = x.toInt L * (r.get x).toInt L := by
  have hz' : mulAssign o L env (n + 33) x r = .ok z := by
    rw [← hz]
    exact mono_mulAssign o L env x r n (n + 33) (by omega) (by simp [hz])
  by_cases hm : env.alloc (fftTableSize x.digits.length (r.get x).digits.length) = true
  · rcases hL with ⟨rfl, rfl⟩ | ⟨rfl, rfl⟩ | ⟨rfl, rfl⟩ | ⟨rfl, rfl⟩ | ⟨rfl, rfl⟩
    · exact returned_exact (C68_lowp M hm hx hy h1 h2) (by omega) hz'
    · exact returned_exact (C68_medp M hm hx hy h1 h2) (by omega) hz'
    · exact returned_exact (C68_base2 M hm hx hy h1 h2) (by omega) hz'
    · exact returned_exact (C68_base8 M hm hx hy h1 h2) (by omega) hz'
    · exact returned_exact (C68_base256 M hm hx hy h1 h2) (by omega) hz'
  · have he : mulStrassen o L env (n + 33) x.digits (r.get x).digits = .error (.exn .badAlloc) := by
      unfold mulStrassen
      rw [if_pos (by simpa using hm)]
    have hc : isComputable x.desc = true := by rcases hx.1 with e | e <;> rw [e] <;> rfl
    unfold mulAssign at hz'
    rw [hc] at hz'
    simp only [Bool.not_true, Bool.false_eq_true, if_false] at hz'
    rw [he] at hz'
    cases hz'

/-- Both cases occur with two-digit factors: 0x0101 * 0x0202 is exact, 0xFFFF * 0xC8FF is undefined. -/
example : (∀ j, j < 4 → columnTotal 256 [1, 1] [2, 2] j < 2 ^ 16) ∧ ∃ j, j < 4 ∧ 2 ^ 16 ≤ columnTotal 256 [255, 255] [255, 200] j := by
  decide +kernel

end BN
