import Verif.Lemmas.ClockErr4
import Verif.Lemmas.MulStrassen
/-
Products and round trips when the arithmetic changes with time.
-/
namespace BN.FP
open Complex Finset BN

section
variable {φ : Prec} {F : Type} {val : F → ℝ} {fin : F → Prop} {O : ℕ → FloatOps F} (M : ∀ t, LawfulAt φ.toFormat val fin (O t))
include M

local notation "V" => cv val

/-- Rounding to the nearest integer, adding the carry and splitting off a digit. -/
theorem carryStepT_ok {L : Limits} (h : Supported L) {x : F} {c m : ℕ} (hx : fin x) (hm : |val x - m| + φ.u * (m + 1) < 1 / 2)
    (hC : c + m ≤ φ.N) (hf : L.double.raw.fits ((c + m : ℕ) : ℤ) = true) :
    Runs (carryStepT O L c x) fun r => r = ((c + m) % L.base, (c + m) / L.base) := by
  have hu := φ.u_pos
  have hm0 : (0 : ℝ) ≤ m := Nat.cast_nonneg _
  have hpos : 0 ≤ φ.u * (m + 1) := by positivity
  have hx1 := (abs_le.1 (le_of_lt (show |val x - m| < 1 / 2 by linarith))).1
  have hx2 := (abs_le.1 (le_of_lt (show |val x - m| < 1 / 2 by linarith))).2
  have hs0 : 0 ≤ val x + 1 / 2 := by linarith
  have hs1 : val x + 1 / 2 ≤ m + 1 := by linarith
  have hbig := φ.big_ge
  have hA := φ.A_sq
  have hA1 := φ.A_one
  have hNA := φ.N_le
  have hmb : (m : ℝ) ≤ φ.N := by exact_mod_cast (by omega : m ≤ φ.N)
  have h190 : (φ.N : ℝ) + 1 ≤ 1024 * φ.A ^ 2 := by linarith
  unfold carryStepT
  refine next_near (val := val) (fin := fin) (v := val x + 1 / 2) (e := φ.u * |val x + 1 / 2|) (fun t => ?_) fun y fy ey => ?_
  · obtain ⟨fh, vh⟩ := (M t).half_ok
    have h := (M t).add_ok x _ hx fh (by rw [vh, abs_of_nonneg hs0]; linarith)
    rw [vh] at h
    exact h
  rw [abs_of_nonneg hs0] at ey
  have ey' : |val y - (val x + 1 / 2)| ≤ φ.u * (m + 1) := le_trans ey (mul_le_mul_of_nonneg_left hs1 hu.le)
  obtain ⟨l1, l2⟩ := abs_le.1 ey'
  have a1 := neg_abs_le (val x - m)
  have a2 := le_abs_self (val x - m)
  have hfl : ⌊val y⌋ = (m : ℤ) := by
    rw [Int.floor_eq_iff]
    push_cast
    constructor <;> linarith
  refine next_exact (fun t => (M t).floor_ok _ fy) fun w ff vf => ?_
  rw [hfl] at vf
  refine next_exact (fun t => (M t).ofNat_ok c (by omega)) fun d fc vc => ?_
  have hcm : |(c : ℤ) + m| ≤ (φ.N : ℤ) := by rw [abs_of_nonneg (by positivity)]; exact_mod_cast (by omega : c + m ≤ φ.N)
  refine next_exact (fun t => (M t).addInt_ok _ _ (c : ℤ) (m : ℤ) fc ff (by rw [vc]; simp) vf hcm) fun s fs vs => ?_
  refine runs_bind (P := fun r => r = .ok ⟨L.double, ((c + m : ℕ) : ℤ)⟩) (runs_tick fun t => ?_) fun r hr => ?_
  · have e : (O t).trunc s = ((c + m : ℕ) : ℤ) := by
      rw [(M t).trunc_ok _ fs, vs, Int.floor_intCast, if_pos (by exact_mod_cast (by omega : (0 : ℤ) ≤ c + m))]
      simp
    unfold floatToDouble
    simp only
    rw [e, if_pos hf]
  · subst hr
    exact runs_still (by rw [ok_bind]; exact carryDigit_eq h hf) rfl

/-- The carry pass when every cell is close to the integer it stands for. -/
theorem carryLoopT_ok {L : Limits} (h : Supported L) {C N : ℕ} (hC : (C + N) / L.base ≤ C) (hN : C + N ≤ φ.N)
    (hfit : L.double.raw.fits ((C + N : ℕ) : ℤ) = true) (g : ℕ → F) (m : ℕ → ℕ) :
    ∀ (n i c : ℕ), c ≤ C → (∀ t, i ≤ t → t < i + n → fin (g t) ∧ |val (g t) - m t| + φ.u * (m t + 1) < 1 / 2 ∧ m t ≤ N) →
      Runs (carryLoopT O L c ((List.range' i n).map g)) fun ds => ∃ c', ds.length = n ∧ InRange L.base ds ∧
        natOf L.base ds + L.base ^ n * c' = c + ∑ t ∈ Finset.range n, m (i + t) * L.base ^ t
  | 0, i, c, hc, _ => runs_pure ⟨c, rfl, .nil _, by simp⟩
  | n + 1, i, c, hc, hg => by
    obtain ⟨g1, g2, g3⟩ := hg i (by omega) (by omega)
    have hle : c + m i ≤ C + N := by omega
    have hB : 0 < L.base := Nat.succ_pos _
    have hc' : (c + m i) / L.base ≤ C := Nat.le_trans (Nat.div_le_div_right hle) hC
    have ih := carryLoopT_ok h hC hN hfit g m n (i + 1) ((c + m i) / L.base) hc' (fun t h1 h2 => hg t (by omega) (by omega))
    rw [List.range'_succ, List.map_cons, carryLoopT]
    refine runs_bind (carryStepT_ok M h g1 g2 (by omega) (fits_mono h hle hfit)) fun r hr => ?_
    subst hr
    refine runs_bind ih fun ds ⟨c', h2, h3, h4⟩ => runs_pure ⟨c', by simp [h2], h3.cons (Nat.mod_lt _ hB), ?_⟩
    rw [natOf_cons, Finset.sum_range_succ', pow_succ]
    have hdm := Nat.mod_add_div (c + m i) L.base
    have e : ∀ t ∈ Finset.range n, m (i + (t + 1)) * L.base ^ (t + 1) = L.base * (m (i + 1 + t) * L.base ^ t) := by
      intro t _
      rw [show i + (t + 1) = i + 1 + t by omega, pow_succ]; ring
    rw [Finset.sum_congr rfl e, ← Finset.mul_sum]
    have h4' := congrArg (L.base * ·) h4
    simp only [Nat.mul_add] at h4'
    simp only [Nat.add_zero, pow_zero, Nat.mul_one]
    calc (c + m i) % L.base + L.base * natOf L.base ds + L.base ^ n * L.base * c'
        = (c + m i) % L.base + (L.base * natOf L.base ds + L.base * (L.base ^ n * c')) := by ring
      _ = (c + m i) % L.base + L.base * ((c + m i) / L.base) + L.base * ∑ t ∈ Finset.range n, m (i + 1 + t) * L.base ^ t := by
          rw [h4']; ring
      _ = _ := by rw [hdm]; ring

/-- Every coefficient is close to its exact value as long as the error allowance stays below one half. -/
theorem nearT {a b : List ℕ} {k K D n : ℕ} (hK : K ≤ φ.K) (hkK : k ≤ K) (hn : k < n) (hs : fftTableSize a.length b.length = 2 ^ k)
    (hl : a.length + b.length ≤ 2 ^ k) (had : InRange (D + 1) a) (hbd : InRange (D + 1) b)
    (h53 : D < φ.N) {c2 : ℝ} (hc0 : 0 ≤ c2)
    (hc2 : ((D ^ 4 * (min a.length b.length * (a.length * b.length)) : ℕ) : ℝ) ≤ c2 ^ 2)
    (hsz : ((2 : ℝ) ^ K * ((D ^ 2 + 1) * 2 ^ K)) ≤ φ.B) (hE : errBound φ K D (min a.length b.length) c2 < 1 / 2) :
    Runs (do
      let table ← createFftTableT O a b
      let table ← convoluteFftT O n table
      ifftComplexT O n table) fun ys => ∃ y, ys = tab (2 ^ k) y ∧ ∀ i < 2 ^ k, fin (y i).re ∧
        |val (y i).re - colSum a b i| + φ.u * (colSum a b i + 1) < 1 / 2 := by
  have hup := φ.u_pos
  have ha53 : InRange (φ.N) a := fun d hd => by have := had d hd; omega
  have hb53 : InRange (φ.N) b := fun d hd => by have := hbd d hd; omega
  have h2k : (2 : ℝ) ^ k ≤ 2 ^ K := pow_le_pow_right₀ (by norm_num) hkK
  have hlR : (a.length : ℝ) + b.length ≤ 2 ^ k := by exact_mod_cast hl
  have hD0 : (0 : ℝ) ≤ (D : ℝ) ^ 2 := by positivity
  have hG : gsz (2 ^ k) (fun t => sig a t + I * sig b t) ≤ (D ^ 2 + 1) * 2 ^ k := by
    refine le_trans (gsz_pack had hbd _) ?_
    push_cast
    nlinarith
  have hGG : ((D : ℝ) ^ 2 + 1) * 2 ^ k ≤ (D ^ 2 + 1) * 2 ^ K := mul_le_mul_of_nonneg_left h2k (by positivity)
  have hGb : (2 : ℝ) ^ k * ((D ^ 2 + 1) * 2 ^ k) ≤ φ.B :=
    le_trans (mul_le_mul h2k hGG (by positivity) (by positivity)) hsz
  have hce := coefErr_le (k := k) (K := K) hkK (by omega) (by positivity) hGG hc0
  have hcc : ∑ i ∈ range (2 ^ k), ((colSum a b i : ℕ) : ℝ) ^ 2 ≤ c2 ^ 2 := by
    refine le_trans ?_ hc2
    exact_mod_cast sum_sq_col had hbd hl
  have hmin0 : (0 : ℝ) ≤ (min a.length b.length : ℕ) := Nat.cast_nonneg _
  have heta := φ.eta_pos
  have hpos : 0 ≤ φ.u * ((min a.length b.length : ℕ) * (D : ℝ) ^ 2 + 1) := by positivity
  have hmin' : (0 : ℝ) ≤ (min a.length b.length : ℕ) * (D : ℝ) ^ 2 := by positivity
  unfold errBound at hE
  refine runs_mono (coefT_ok M (le_trans hkK hK) hn hs hl ha53 hb53 hG hGb hc0 hcc (X := 1) (by linarith)) fun ys ⟨y, hy, h⟩ =>
    ⟨y, hy, fun i hi => ?_⟩
  have hcol : colSum a b i ≤ min a.length b.length * (D * D) := by simpa using colSum_le had hbd i
  have hcolR : ((colSum a b i : ℕ) : ℝ) ≤ (min a.length b.length : ℕ) * D ^ 2 := by
    rw [sq]; exact_mod_cast hcol
  have hub : φ.u * ((colSum a b i : ℕ) + 1 : ℝ) ≤ φ.u * ((min a.length b.length : ℕ) * D ^ 2 + 1) :=
    mul_le_mul_of_nonneg_left (by linarith) hup.le
  obtain ⟨f1, e1⟩ := h i hi
  exact ⟨f1, by linarith⟩

/-- The product is exact as long as the error allowance stays below one half. -/
theorem mulStrassenT_ok {L : Limits} (h : Supported L) {env : Env} {fuel : Nat}
    (hfuel : 32 < fuel) {a b : List Nat} {K D : Nat} (hK : K ≤ φ.K) (hK32 : K ≤ 32) (h1 : 1 ≤ a.length + b.length)
    (hlen : a.length + b.length ≤ 2 ^ K) (hal : env.alloc (fftTableSize a.length b.length) = true)
    (hD : D < L.base) (had : InRange (D + 1) a) (hbd : InRange (D + 1) b)
    (hfit : L.double.raw.fits ((min a.length b.length * (D * (D + 1)) - 1 : Nat) : Int) = true)
    (h53 : D < φ.N) (hm53 : min a.length b.length * (D * (D + 1)) ≤ φ.N) {c2 : ℝ} (hc0 : 0 ≤ c2)
    (hc2 : ((D ^ 4 * (min a.length b.length * (a.length * b.length)) : ℕ) : ℝ) ≤ c2 ^ 2)
    (hsz : ((2 : ℝ) ^ K * ((D ^ 2 + 1) * 2 ^ K)) ≤ φ.B) (hE : errBound φ K D (min a.length b.length) c2 < 1 / 2) :
    Runs (mulStrassenT O L env fuel a b) fun c => InRange L.base c ∧ NoLeadingZero c ∧
      natOf L.base c = natOf L.base a * natOf L.base b := by
  have hle32 : (2 : ℕ) ^ K ≤ 2 ^ 32 := Nat.pow_le_pow_right (by omega) hK32
  obtain ⟨k, hk, hs, hl, hu⟩ := fftTableSize_eq h1 (by omega)
  have hkK : k ≤ K := by
    by_contra hc
    have : 2 ^ (K + 1) ≤ 2 ^ k := Nat.pow_le_pow_right (by omega) (by omega)
    rw [pow_succ] at this
    omega
  have hB : 2 ≤ L.base := h.base_ge
  have ha : InRange L.base a := fun d hd => by have := had d hd; omega
  have hb : InRange L.base b := fun d hd => by have := hbd d hd; omega
  have hsum : min a.length b.length * D - 1 + min a.length b.length * (D * D) ≤ min a.length b.length * (D * (D + 1)) - 1 := by
    have : min a.length b.length * D + min a.length b.length * (D * D) = min a.length b.length * (D * (D + 1)) := by ring
    rcases Nat.eq_zero_or_pos (min a.length b.length * D) with h0 | h0
    · have : min a.length b.length * (D * D) = 0 := by rw [← Nat.mul_assoc, h0, Nat.zero_mul]
      omega
    · omega
  have hC : (min a.length b.length * D - 1 + min a.length b.length * (D * D)) / L.base ≤ min a.length b.length * D - 1 := by
    rcases Nat.eq_zero_or_pos (min a.length b.length * D) with h0 | h0
    · have : min a.length b.length * (D * D) = 0 := by rw [← Nat.mul_assoc, h0, Nat.zero_mul]
      rw [h0, this]; simp
    · have h1 : min a.length b.length * (D * (D + 1)) ≤ min a.length b.length * D * L.base := by
        rw [← Nat.mul_assoc]
        exact Nat.mul_le_mul_left _ (by omega)
      have h2 : 0 < min a.length b.length * (D * (D + 1)) := by rw [← Nat.mul_assoc]; exact Nat.mul_pos h0 (by omega)
      refine Nat.le_sub_one_of_lt ?_
      rw [Nat.div_lt_iff_lt_mul (by omega)]
      omega
  have hfull : min a.length b.length * D + min a.length b.length * (D * D) = min a.length b.length * (D * (D + 1)) := by ring
  unfold mulStrassenT
  rw [if_neg (by simp [hal])]
  have hsplit : ∀ rest : List (Cx F) → Timed (List ℕ), (do
      let table ← createFftTableT O a b
      let table ← convoluteFftT O fuel table
      let inverses ← ifftComplexT O fuel table
      rest inverses) = (do
      let table ← createFftTableT O a b
      let table ← convoluteFftT O fuel table
      ifftComplexT O fuel table) >>= rest := by
    intro rest; simp only [bind_assoc]
  rw [hsplit]
  refine runs_bind (nearT M hK hkK (by omega) hs hl had hbd h53 hc0 hc2 hsz hE) fun ys ⟨y, hy, hnear⟩ => ?_
  subst hy
  have e : (tab (2 ^ k) y).map Cx.re = (List.range' 0 (2 ^ k)).map fun i => (y i).re := by
    rw [tab_map, ← List.range_eq_range']; rfl
  rw [e]
  refine runs_bind (carryLoopT_ok M h hC (by omega) (fits_mono h hsum hfit) (fun i => (y i).re) (colSum a b) (2 ^ k) 0 0 (Nat.zero_le _)
    (fun t _ ht => ⟨(hnear t (by omega)).1, (hnear t (by omega)).2, by simpa using colSum_le had hbd t⟩)) fun ds ⟨c', h2, h3, h4⟩ => ?_
  refine runs_still (stripTop_eq env ds) ?_
  simp only [Nat.zero_add] at h4
  rw [sum_colSum L.base a b _ hl] at h4
  refine ⟨trim_inRange h3, trim_noLeadingZero _, ?_⟩
  rw [natOf_trim]
  have hlt : natOf L.base a * natOf L.base b < L.base ^ 2 ^ k := by
    calc natOf L.base a * natOf L.base b < L.base ^ a.length * L.base ^ b.length :=
          Nat.mul_lt_mul'' (natOf_lt ha) (natOf_lt hb)
      _ = L.base ^ (a.length + b.length) := by rw [pow_add]
      _ ≤ _ := Nat.pow_le_pow_right (by omega) hl
  have hc0 : c' = 0 := by
    by_contra hc
    have : L.base ^ 2 ^ k * 1 ≤ L.base ^ 2 ^ k * c' := Nat.mul_le_mul_left _ (by omega)
    omega
  rw [hc0] at h4
  omega

set_option maxHeartbeats 1000000 in
/-- Transforming and transforming back. -/
theorem roundTripT_ok {k n : ℕ} (hk : k ≤ φ.K) (hn : k < n) {f : ℕ → Cx F} (hf : ∀ t < 2 ^ k, fC fin (f t))
    (hb : 2 ^ k * (2 ^ k * gsz (2 ^ k) (fun t => V (f t))) ≤ φ.A ^ 2 / 2) :
    Runs (fftComplexT O n (tab (2 ^ k) f) >>= fun ys => ifftComplexT O n ys) fun zs => ∃ z, zs = tab (2 ^ k) z ∧ (∀ j < 2 ^ k, fC fin (z j)) ∧
    ∑ j ∈ range (2 ^ k), ‖V (z j) - V (f j)‖ ^ 2 ≤
      ((63 * k + 3) * φ.u) ^ 2 * gsz (2 ^ k) (fun t => V (f t)) := by
  have hu := φ.u_pos
  have hu' := φ.u_le
  have heta := φ.eta_pos
  have heta' := φ.eta_le
  have hθ := theta_nonneg φ k
  have hθ1 := theta_le_one hk
  have hθ2 := theta_le hk
  set g := gsz (2 ^ k) (fun t => V (f t)) with hg
  set N : ℝ := 2 ^ k with hN
  have hN1 : 1 ≤ N := one_le_pow₀ (by norm_num)
  have hN0 : 0 < N := by linarith
  have hgN : N ≤ g := by
    rw [hg, gsz_eq]; push_cast
    have : 0 ≤ ∑ t ∈ range (2 ^ k), ‖V (f t)‖ ^ 2 := sum_nonneg fun _ _ => by positivity
    linarith
  have hg0 : 0 ≤ g := by linarith
  have hNg : N * g ≤ N * (N * g) := le_mul_of_one_le_left (by positivity) hN1
  have h179 : φ.A ^ 2 / 2 ≤ φ.A ^ 2 := by have := sq_nonneg φ.A; linarith
  refine runs_bind (fftT_ok M hk hf (by linarith) hn) fun ys ⟨y, hys, fy, ey⟩ => ?_
  subst hys
  set Y := dft k (fun t => V (f t)) with hY
  have sy := size_of_err (x := fun j => V (y j)) (X := Y) hθ (dft_energy k _) ey
  rw [← hg, ← hN] at sy ey
  -- the conjugated data
  have gq : gsz (2 ^ k) (fun t => V (y t)) = (∑ j ∈ range (2 ^ k), ‖V (y j)‖ ^ 2) + N := by
    rw [gsz_eq]; push_cast
    rfl
  have gq' : gsz (2 ^ k) (fun t => V (y t)) ≤ (1 + theta φ k) ^ 2 * (N * g) := by rw [gq]; linarith
  have h1θ : (1 + theta φ k) ^ 2 ≤ 1.001 := by nlinarith
  have hq180 : N * gsz (2 ^ k) (fun t => V (y t)) ≤ φ.A ^ 2 := by
    have h1 : N * gsz (2 ^ k) (fun t => V (y t)) ≤ N * (1.001 * (N * g)) := by
      apply mul_le_mul_of_nonneg_left _ hN0.le
      exact le_trans gq' (mul_le_mul_of_nonneg_right h1θ (by positivity))
    have h2 : N * (1.001 * (N * g)) = 1.001 * (N * (N * g)) := by ring
    have h3 : (1.001 : ℝ) * (φ.A ^ 2 / 2) ≤ φ.A ^ 2 := by have := sq_nonneg φ.A; linarith
    nlinarith
  refine runs_mono (ifftT_ok M hk hn fy hq180) fun zs ⟨z, w, hz, ew, hzw⟩ => ⟨z, hz, fun j hj => (hzw j hj).1, ?_⟩
  set W := dft k (fun t => (starRingEnd ℂ) (V (y t))) with hW
  have cq : ∑ t ∈ range (2 ^ k), ‖(starRingEnd ℂ) (V (y t))‖ ^ 2 = ∑ t ∈ range (2 ^ k), ‖V (y t)‖ ^ 2 :=
    sum_congr rfl fun t _ => by rw [RCLike.norm_conj]
  have cg : gsz (2 ^ k) (fun t => (starRingEnd ℂ) (V (y t))) = gsz (2 ^ k) (fun t => V (y t)) := by
    rw [gsz_eq, gsz_eq, cq]
  have sw := size_of_err (x := w) (X := W) hθ (dft_energy k _) (by rw [cg]; exact ew)
  rw [cg] at sw
  rw [← hN] at ew sw
  -- distance to the transform of the exact data
  set U := dft k (fun t => (starRingEnd ℂ) (Y t)) with hU
  have e1 : ∑ j ∈ range (2 ^ k), ‖w j - W j‖ ^ 2 ≤ (theta φ k * (1 + theta φ k)) ^ 2 * (N ^ 2 * g) := by
    refine le_trans ew ?_
    have := mul_le_mul_of_nonneg_left gq' (show 0 ≤ theta φ k ^ 2 * N by positivity)
    nlinarith
  have e2 : ∑ j ∈ range (2 ^ k), ‖W j - U j‖ ^ 2 ≤ theta φ k ^ 2 * (N ^ 2 * g) := by
    have : ∑ j ∈ range (2 ^ k), ‖W j - U j‖ ^ 2 = N * ∑ t ∈ range (2 ^ k), ‖V (y t) - Y t‖ ^ 2 := by
      simp only [hW, hU, dft_sub]
      rw [dft_energy, ← hN]
      congr 1
      refine sum_congr rfl fun t _ => ?_
      rw [← map_sub, RCLike.norm_conj]
    rw [this]
    have := mul_le_mul_of_nonneg_left ey hN0.le
    nlinarith
  have e3 := mink2 (by positivity) hθ (by positivity) e1 e2
  have hUx : ∀ j < 2 ^ k, (starRingEnd ℂ) (U j) / (N : ℂ) = V (f j) := by
    intro j hj
    have h := idft_conj k Y j
    rw [idft_dft k _ hj] at h
    rw [← h, hN]; push_cast; rfl
  -- the division
  have gq0 : 0 ≤ gsz (2 ^ k) (fun t => V (y t)) := gsz_nonneg _ _
  have swle : ∑ j ∈ range (2 ^ k), ‖w j‖ ^ 2 ≤ 1.001 ^ 2 * (N ^ 2 * g) := by
    have h1 : (1 + theta φ k) ^ 2 * (N * gsz (2 ^ k) (fun t => V (y t))) ≤ 1.001 * (N * (1.001 * (N * g))) := by
      apply mul_le_mul h1θ _ (by positivity) (by norm_num)
      apply mul_le_mul_of_nonneg_left _ hN0.le
      exact le_trans gq' (mul_le_mul_of_nonneg_right h1θ (by positivity))
    nlinarith
  have hd : ∀ j < 2 ^ k, ‖V (z j) - (starRingEnd ℂ) (w j) / (N : ℂ)‖ ≤ φ.u * (2 * (‖w j‖ / N)) + 2 * φ.eta := fun j hj => (hzw j hj).2.2
  have he0 : 0 ≤ 2 * φ.eta := by linarith
  have hu0 : 0 ≤ 2 * 1.001 * φ.u := by linarith
  have d1 : ∑ j ∈ range (2 ^ k), ‖V (z j) - (starRingEnd ℂ) (w j) / (N : ℂ)‖ ^ 2 ≤
      (2 * 1.001 * φ.u + 2 * φ.eta) ^ 2 * g := by
    have a1 : ∑ j ∈ range (2 ^ k), (φ.u * (2 * (‖w j‖ / N))) ^ 2 ≤ (2 * 1.001 * φ.u) ^ 2 * g := by
      have : ∑ j ∈ range (2 ^ k), (φ.u * (2 * (‖w j‖ / N))) ^ 2 =
          (2 * φ.u / N) ^ 2 * ∑ j ∈ range (2 ^ k), ‖w j‖ ^ 2 := by
        rw [mul_sum]; exact sum_congr rfl fun j _ => by ring
      rw [this]
      have h := mul_le_mul_of_nonneg_left swle (show 0 ≤ (2 * φ.u / N) ^ 2 by positivity)
      refine le_trans h (le_of_eq ?_)
      field_simp
    have a2 : ∑ _j ∈ range (2 ^ k), (2 * φ.eta) ^ 2 ≤ (2 * φ.eta) ^ 2 * g := by
      rw [sum_const, card_range, nsmul_eq_mul]
      push_cast
      rw [mul_comm]
      exact mul_le_mul_of_nonneg_left hgN (sq_nonneg _)
    refine le_trans (sum_le_sum fun j hj => ?_) (mink hu0 he0 hg0 a1 a2)
    exact pow_le_pow_left₀ (norm_nonneg _) (hd j (mem_range.1 hj)) 2
  have d2 : ∑ j ∈ range (2 ^ k), ‖(starRingEnd ℂ) (w j) / (N : ℂ) - V (f j)‖ ^ 2 ≤
      (theta φ k * (1 + theta φ k) + theta φ k) ^ 2 * g := by
    have : ∑ j ∈ range (2 ^ k), ‖(starRingEnd ℂ) (w j) / (N : ℂ) - V (f j)‖ ^ 2 =
        (1 / N) ^ 2 * ∑ j ∈ range (2 ^ k), ‖w j - U j‖ ^ 2 := by
      rw [mul_sum]
      refine sum_congr rfl fun j hj => ?_
      rw [← hUx j (mem_range.1 hj), ← sub_div, ← map_sub, norm_div, RCLike.norm_conj, Complex.norm_real,
        Real.norm_of_nonneg hN0.le]
      ring
    rw [this]
    refine le_trans (mul_le_mul_of_nonneg_left e3 (by positivity)) (le_of_eq ?_)
    field_simp
  refine le_trans (mink2 (add_nonneg hu0 he0) (by positivity) hg0 d1 d2) ?_
  apply mul_le_mul_of_nonneg_right _ hg0
  apply pow_le_pow_left₀ (add_nonneg (add_nonneg hu0 he0) (by positivity))
  have hk0 : (0 : ℝ) ≤ k := Nat.cast_nonneg _
  have h1 : theta φ k * theta φ k ≤ theta φ k * (1 / 10 ^ 4) := mul_le_mul_of_nonneg_left hθ1 hθ
  have h2 : 0 ≤ k * φ.u := by positivity
  nlinarith


end
end BN.FP
