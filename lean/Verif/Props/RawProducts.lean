import Verif.Lemmas.Samples
import Verif.Props.MulColumns
import Verif.Props.Multiplication2
/-
Products of numbers whose digits may exceed the base: C145.
-/
namespace BN

open Bignum

theorem columnTotal_raw_le {B D : Nat} (hB : 2 ≤ B) {a b : List Nat} (ha : InRange (D + 1) a) (hb : InRange (D + 1) b) :
    ∀ j, columnTotal B a b j / B ≤ min a.length b.length * (D * D)
  | 0 => by
    rw [columnTotal_zero]
    have h : colSum a b 0 ≤ min a.length b.length * (D * D) := by simpa using colSum_le ha hb 0
    exact le_trans (Nat.div_le_self _ _) h
  | j + 1 => by
    rw [columnTotal_succ (by omega)]
    have ih := columnTotal_raw_le hB ha hb j
    have h : colSum a b (j + 1) ≤ min a.length b.length * (D * D) := by simpa using colSum_le ha hb (j + 1)
    refine Nat.div_le_of_le_mul ?_
    calc _ ≤ 2 * (min a.length b.length * (D * D)) := by omega
      _ ≤ _ := Nat.mul_le_mul_right _ hB

/-- A bound on the column totals: the digit products of a column and the carry. -/
theorem columnTotal_le_of {B M : Nat} (hB : 2 ≤ B) {a b : List Nat} (h : ∀ j, colSum a b j * B ≤ M * (B - 1)) : ∀ j, columnTotal B a b j ≤ M
  | 0 => by
    rw [columnTotal_zero]
    have h1 := h 0
    have h2 : colSum a b 0 * (B - 1) ≤ M * (B - 1) := le_trans (Nat.mul_le_mul_left _ (by omega)) h1
    exact Nat.le_of_mul_le_mul_right h2 (by omega)
  | j + 1 => by
    rw [columnTotal_succ (by omega)]
    have ih := columnTotal_le_of hB h j
    have h1 := h (j + 1)
    have h2 : columnTotal B a b j / B * B ≤ M := le_trans (Nat.div_mul_le_self _ _) ih
    have h3 : (columnTotal B a b j / B + colSum a b (j + 1)) * B ≤ M * B := by
      obtain ⟨c, rfl⟩ : ∃ c, B = c + 1 := ⟨B - 1, by omega⟩
      rw [Nat.add_sub_cancel] at h1
      rw [Nat.add_mul, Nat.mul_succ M]
      omega
    exact Nat.le_of_mul_le_mul_right h3 (by omega)

theorem mulStrassen_raw {F : Type} (o : FloatOps F) {L : Limits} (h : Supported L) {env : Env} {fuel : Nat} (hfuel : 32 < fuel) {a b : List Nat} {k D : Nat}
    (hk : k ≤ 32) (hs : fftTableSize a.length b.length = 2 ^ k) (hlen : a.length + b.length ≤ 2 ^ k)
    (hal : env.alloc (fftTableSize a.length b.length) = true) (had : InRange (D + 1) a) (hbd : InRange (D + 1) b)
    (hr : ∀ i, i < 2 ^ k → RoundsTo o (min a.length b.length * (D * D)) (coefF o k a b i) (colSum a b i)) :
    ((∀ j, j < 2 ^ k → L.double.raw.fits (columnTotal L.base a b j : Int) = true) →
      ∃ c, mulStrassen o L env fuel a b = .ok c ∧ InRange L.base c ∧ NoLeadingZero c ∧
        natOf L.base c = natOf L.base a * natOf L.base b % L.base ^ 2 ^ k) ∧
    ((∃ j, j < 2 ^ k ∧ L.double.raw.fits (columnTotal L.base a b j : Int) = false) →
      mulStrassen o L env fuel a b = .error (.ub .floatToInt)) := by
  have hB : 2 ≤ L.base := h.base_ge
  have e : (tab (2 ^ k) fun i => (ifftF o k (pointF o (2 ^ k) (fftF o k (packF o a b))) i).re) =
      (List.range' 0 (2 ^ k)).map (coefF o k a b) := by
    rw [← List.range_eq_range']; rfl
  rw [pipeline_split o L env fuel hal, pipeline_eq o hk hs hfuel, ok_bind, tab_map, e]
  have hT : ∀ j, columnTotal L.base a b (j + 1) = columnTotal L.base a b j / L.base + colSum a b (j + 1) :=
    columnTotal_succ (by omega) a b
  have hC := columnTotal_raw_le hB had hbd
  constructor
  · intro hfit
    obtain ⟨ds, c', h1, h2, h3, h4⟩ := carryLoop_totals o h (C := min a.length b.length * (D * D)) (coefF o k a b) (colSum a b)
      (columnTotal L.base a b) hT (2 ^ k) 0 0 (Nat.zero_le _) (by rw [columnTotal_zero, Nat.zero_add])
      (fun j _ hj => ⟨hfit j (by omega), hC j, hr j (by omega)⟩)
    rw [h1, ok_bind, stripTop_eq]
    simp only [Nat.zero_add] at h4
    rw [sum_colSum L.base a b _ hlen] at h4
    refine ⟨_, rfl, trim_inRange h3, trim_noLeadingZero _, ?_⟩
    rw [natOf_trim, ← h4, Nat.add_mul_mod_self_left, Nat.mod_eq_of_lt]
    exact h2 ▸ natOf_lt h3
  · intro hbad
    classical
    have hb' := Nat.find_spec hbad
    have hmin := fun j (hj : j < Nat.find hbad) => Nat.find_min hbad hj
    rw [carryLoop_ub o h (C := min a.length b.length * (D * D)) (coefF o k a b) (colSum a b) (columnTotal L.base a b) (Nat.find hbad)
      (2 ^ k) 0 0 (by omega) (Nat.zero_le _) (by rw [columnTotal_zero, Nat.zero_add]) hT
      (fun j _ hj => ⟨?_, hC j⟩) (by rw [Nat.zero_add]; exact hb'.2) (fun j _ hj => hr j (by omega))]
    · rfl
    · have := hmin j (by omega)
      rw [not_and, Bool.not_eq_false] at this
      exact this (by omega)

/-- The product with digits of at most `D`, which may exceed the base: `S` is the number of digits of both factors rounded up to a
power of two. If every column total is below `2 ^ w` the product is right modulo `base ^ S` and normalised; otherwise it is undefined. -/
def RightModulo {F : Type} (o : FloatOps F) (L : Limits) (env : Env) (w : Nat) (x : Bignum) (r : Rhs) : Prop :=
  ∃ k, x.digits.length + (r.get x).digits.length ≤ 2 ^ k ∧ 2 ^ k < 2 * (x.digits.length + (r.get x).digits.length) ∧
    ((∀ j, j < 2 ^ k → columnTotal L.base x.digits (r.get x).digits j < 2 ^ w) →
      ∃ z, (∀ n, 32 < n → mulAssign o L env n x r = .ok z) ∧ WF L z ∧ NoLeadingZero z.digits ∧
        z.desc = signRule x.desc (r.get x).desc ∧ z.mag L = x.mag L * (r.get x).mag L % L.base ^ 2 ^ k) ∧
    ((∃ j, j < 2 ^ k ∧ 2 ^ w ≤ columnTotal L.base x.digits (r.get x).digits j) → ∀ n, 32 < n → mulAssign o L env n x r = .ub .floatToInt)

/-- C145: what the product of digits beyond the base is. -/
theorem C145_general {F : Type} {o : FloatOps F} (M : Ieee o) {L : Limits} (h : Supported L) {w : Nat} (hw : L.double.raw = cU w)
    {env : Env} {x : Bignum} {r : Rhs} (hm : env.Ample) (hx : Signed x.desc) (hy : Signed (r.get x).desc) {K D N : Nat} (hK : K ≤ 32)
    (h1 : 1 ≤ x.digits.length + (r.get x).digits.length) (h2 : x.digits.length + (r.get x).digits.length ≤ 2 ^ K)
    (hN : min x.digits.length (r.get x).digits.length ≤ N)
    (hxd : InRange (D + 1) x.digits) (hyd : InRange (D + 1) (r.get x).digits)
    (hD : 1 ≤ D) (h53 : N * (2 * (D * D)) ≤ 2 ^ 53) (hD53 : D < 2 ^ 53) {c2 : ℕ} (hc2 : D ^ 4 * (N * (N * 2 ^ K)) ≤ c2 ^ 2)
    (hsz : ((2 : ℝ) ^ K * ((D ^ 2 + 1) * 2 ^ K)) ≤ 2 ^ 72) (hE : errBound K D N c2 < 1 / 2) :
    RightModulo o L env w x r := by
  have hle32 : (2 : ℕ) ^ K ≤ 2 ^ 32 := Nat.pow_le_pow_right (by omega) (by omega)
  obtain ⟨k, hk, hs, hlk, hu⟩ := fftTableSize_eq h1 (by omega)
  have hkK : k ≤ K := by
    by_contra hc
    have : 2 ^ (K + 1) ≤ 2 ^ k := Nat.pow_le_pow_right (by omega) (by omega)
    rw [pow_succ] at this
    omega
  have hDD : min x.digits.length (r.get x).digits.length * (D * (D + 1)) ≤ 2 ^ 53 := by
    refine le_trans (Nat.mul_le_mul hN ?_) h53
    nlinarith
  have hCC : min x.digits.length (r.get x).digits.length * (D * D) + min x.digits.length (r.get x).digits.length * (D * D) ≤ 2 ^ 53 := by
    refine le_trans ?_ h53
    calc _ = min x.digits.length (r.get x).digits.length * (2 * (D * D)) := by ring
      _ ≤ _ := Nat.mul_le_mul_right _ hN
  have hr : ∀ i, i < 2 ^ k → RoundsTo o (min x.digits.length (r.get x).digits.length * (D * D)) (coefF o k x.digits (r.get x).digits i)
      (colSum x.digits (r.get x).digits i) := by
    intro i hi
    obtain ⟨g1, g2⟩ := near_ieee M hK hkK hlk hxd hyd hD53 hDD (Nat.cast_nonneg c2)
      (by have h3 := Nat.mul_le_mul_left (D ^ 4) (len_mul_le' h2 hN)
          exact_mod_cast Nat.le_trans h3 hc2) hsz (lt_of_le_of_lt (errBound_mono hN _) hE) i hi
    have hcol : colSum x.digits (r.get x).digits i ≤ min x.digits.length (r.get x).digits.length * (D * D) := by simpa using colSum_le hxd hyd i
    exact roundsTo_of_near M g1 g2 (by omega)
  have hfit : ∀ m : Nat, L.double.raw.fits (m : Int) = decide (m < 2 ^ w) := by
    intro m
    rw [hw]
    show decide (0 ≤ (m : Int) ∧ (m : Int) < 2 ^ w) = _
    apply decide_eq_decide.2
    constructor
    · intro h; exact_mod_cast h.2
    · intro h; exact ⟨by omega, by exact_mod_cast h⟩
  refine ⟨k, hlk, hu, fun hall => ?_, fun hbad n hn => ?_⟩
  · have key : ∀ n, 32 < n → ∃ c, mulStrassen o L env n x.digits (r.get x).digits = .ok c ∧ InRange L.base c ∧ NoLeadingZero c ∧
        natOf L.base c = natOf L.base x.digits * natOf L.base (r.get x).digits % L.base ^ 2 ^ k := fun n hn =>
      (mulStrassen_raw o h hn hk hs hlk (hm _) hxd hyd hr).1 fun j hj => by rw [hfit]; exact decide_eq_true (hall j hj)
    obtain ⟨c, e0, i0, l0, v0⟩ := key 33 (by omega)
    have hcomp : isComputable x.desc = true := by rcases hx with e | e <;> rw [e] <;> rfl
    have hms := mulSign_signed hx hy
    refine ⟨⟨signRule x.desc (r.get x).desc, c⟩, fun n hn => ?_, ⟨hms ▸ mulSign_mem _ _, i0, .inl l0⟩, l0, rfl, v0⟩
    obtain ⟨c', e1, i1, l1, v1⟩ := key n hn
    have : c' = c := natOf_unique (Nat.succ_pos _) i1 i0 l1 l0 (v1.trans v0.symm)
    unfold mulAssign
    rw [hcomp]
    simp only [Bool.not_true, Bool.false_eq_true, if_false, e1, this, ok_bind, handle, hms]
  · refine mulAssign_ub hx ((mulStrassen_raw o h hn hk hs hlk (hm _) hxd hyd hr).2 ?_)
    obtain ⟨j, hj, hb⟩ := hbad
    exact ⟨j, hj, by rw [hfit]; exact decide_eq_false (by omega)⟩

/-- Base 10, the digits 120 and 34 (the number 460) times the digit 255: 117300, which does not fit the four places of the table; 7300
is returned. -/
example {F : Type} {o : FloatOps F} (M : Ieee o) := C145_general M Sample.base10.supported (w := 32) rfl Sample.ample (x := ⟨.neg, [120, 34]⟩)
  (r := .other ⟨.pos, [255]⟩) (.inr rfl) (.inl rfl) (K := 2) (D := 255) (N := 1) (by decide) (by decide) (by decide) (by decide)
  (by sample) (by sample) (by decide) (by decide) (by decide) (c2 := 130050) (by decide) (by norm_num) (by norm_num [errBound, uro, eta])

/-- Digits of up to 255 in a smaller base, up to 2^18 of them together. -/
theorem C145_bytes {F : Type} {o : FloatOps F} (M : Ieee o) {w mx : Nat} (h : Custom (.custom w mx)) {env : Env} {x : Bignum} {r : Rhs}
    (hm : env.Ample) (hx : Signed x.desc) (hy : Signed (r.get x).desc) (hxd : InRange 256 x.digits) (hyd : InRange 256 (r.get x).digits)
    (h1 : 1 ≤ x.digits.length + (r.get x).digits.length) (h2 : x.digits.length + (r.get x).digits.length ≤ 2 ^ 18) :
    RightModulo o (.custom w mx) env w x r :=
  C145_general M (.inr h) rfl hm hx hy (K := 18) (D := 255) (N := 2 ^ 17) (c2 := 255 ^ 2 * 2 ^ 26) (by norm_num) h1 h2 (by omega) hxd hyd
    (by norm_num) (by norm_num) (by norm_num) (by norm_num) (by norm_num) (by norm_num [errBound, uro, eta])

example {F : Type} {o : FloatOps F} (M : Ieee o) := C145_bytes M Sample.base10 Sample.ample (x := ⟨.neg, [120, 34]⟩)
  (r := .other ⟨.pos, [255]⟩) (.inr rfl) (.inl rfl) (by sample) (by sample) (by decide) (by decide)

/-- One digit times one digit keeps two digits of the product: 255 * 255 gives 25 in base 10. -/
theorem C145_one_digit {F : Type} {o : FloatOps F} (M : Ieee o) {env : Env} (hm : env.Ample) {d e : Nat} (hd : d < 256) (he : e < 256) :
    ∃ z, (∀ n, 32 < n → mulAssign o .base10 env n ⟨.pos, [d]⟩ (.other ⟨.pos, [e]⟩) = .ok z) ∧ WF .base10 z ∧ NoLeadingZero z.digits ∧
      z.toInt .base10 = (d * e % 100 : Nat) := by
  obtain ⟨k, h1, h2, h3, -⟩ := C145_bytes M (w := 32) (mx := 9) Sample.base10 hm (x := ⟨.pos, [d]⟩) (r := .other ⟨.pos, [e]⟩) (.inl rfl) (.inl rfl)
    (fun c hc => by rw [List.mem_singleton.1 hc]; exact hd) (fun c hc => by rw [List.mem_singleton.1 hc]; exact he) (by show 1 ≤ 2; omega)
    (by show 2 ≤ _; norm_num)
  replace h1 : 2 ≤ 2 ^ k := h1
  replace h2 : 2 ^ k < 4 := h2
  have hk : k = 1 := by
    have : k < 2 := (Nat.pow_lt_pow_iff_right (a := 2) (by omega)).1 (by omega)
    have : k ≠ 0 := by rintro rfl; omega
    omega
  subst hk
  have hde : d * e ≤ 255 * 255 := Nat.mul_le_mul (by omega) (by omega)
  obtain ⟨z, e1, e2, e3, e4, e5⟩ := h3 fun j hj => by
    have hcs := colSum_single d e
    have h0 : columnTotal 10 [d] [e] 0 = d * e := by rw [columnTotal_zero, hcs.1]
    show columnTotal 10 [d] [e] j < 2 ^ 32
    rcases (by omega : j = 0 ∨ j = 1) with rfl | rfl
    · rw [h0]; omega
    · rw [columnTotal_succ (by omega), h0, hcs.2]; omega
  refine ⟨z, e1, e2, e3, ?_⟩
  have hs : z.desc = .pos := e4
  replace e5 : natOf 10 z.digits = natOf 10 [d] * natOf 10 [e] % 10 ^ 2 := e5
  unfold Bignum.toInt
  rw [hs]
  show ((natOf 10 z.digits : Nat) : Int) = _
  rw [e5]
  simp [natOf]

example {F : Type} {o : FloatOps F} (M : Ieee o) := C145_one_digit M Sample.ample (d := 255) (e := 255) (by decide) (by decide)

theorem colSum_one_right (a : List Nat) : ∀ j, colSum a [1] j = a.getD j 0
  | 0 => by simp [colSum]
  | j + 1 => by
    cases a with
    | nil => simp [colSum_nil_left]
    | cons x a => rw [colSum_cons_succ, colSum_one_right a j]; simp

/-- Multiplying by one brings the digits into range. -/
theorem C145_normalise {F : Type} {o : FloatOps F} (M : Ieee o) {w mx D : Nat} (h : Custom (.custom w mx)) {env : Env} {x : Bignum}
    (hm : env.Ample) (hx : Signed x.desc) (hD : D ≤ 9999) (hDw : 2 * D < 2 ^ w) (hxd : ∀ d ∈ x.digits, d ≤ D)
    (hlen : x.digits.length < 2 ^ 14) :
    ∃ z, (∀ n, 32 < n → mulAssign o (.custom w mx) env n x (.other ⟨.pos, [1]⟩) = .ok z) ∧ WF (.custom w mx) z ∧ NoLeadingZero z.digits ∧
      z.desc = x.desc ∧ (x.mag (.custom w mx) < (mx + 1) ^ (x.digits.length + 1) → z.toInt (.custom w mx) = x.toInt (.custom w mx)) ∧
      ∃ k, x.digits.length + 1 ≤ 2 ^ k ∧ 2 ^ k < 2 * (x.digits.length + 1) ∧
        z.mag (.custom w mx) = x.mag (.custom w mx) % (mx + 1) ^ 2 ^ k := by
  have hS : Supported (.custom w mx) := .inr h
  have hB : 2 ≤ mx + 1 := hS.base_ge
  obtain ⟨k, h1, h2, h3, -⟩ : RightModulo o (.custom w mx) env w x (.other ⟨.pos, [1]⟩) :=
    C145_general M hS rfl hm hx (.inl rfl) (K := 14) (D := 9999) (N := 1) (c2 := 9999 ^ 2 * 128) (by norm_num)
      (by show 1 ≤ _ + 1; omega) (by show _ + 1 ≤ _; omega) (Nat.min_le_right _ _)
      (fun d hd => by have := hxd d hd; omega) (fun d hd => by rw [List.mem_singleton.1 hd]; omega)
      (by norm_num) (by norm_num) (by norm_num) (by norm_num) (by norm_num) (by norm_num [errBound, uro, eta])
  replace h1 : x.digits.length + 1 ≤ 2 ^ k := h1
  replace h2 : 2 ^ k < 2 * (x.digits.length + 1) := h2
  have hcol : ∀ j, columnTotal (mx + 1) x.digits [1] j ≤ 2 * D := by
    refine columnTotal_le_of hB fun j => ?_
    rw [colSum_one_right]
    have hg : x.digits.getD j 0 ≤ D := by
      rw [List.getD_eq_getElem?_getD]
      by_cases hj : j < x.digits.length
      · rw [List.getElem?_eq_getElem hj]; exact hxd _ (List.getElem_mem hj)
      · rw [List.getElem?_eq_none (by omega)]; exact Nat.zero_le _
    rw [Nat.add_sub_cancel]
    obtain ⟨c, rfl⟩ : ∃ c, mx = c + 1 := ⟨mx - 1, by omega⟩
    nlinarith
  obtain ⟨z, e1, e2, e3, e4, e5⟩ := h3 fun j _ => lt_of_le_of_lt (hcol j) hDw
  have hone : ((Rhs.other ⟨.pos, [1]⟩).get x).mag (.custom w mx) = 1 := by simp [Rhs.get, Bignum.mag, natOf]
  have hd : z.desc = x.desc := by
    rw [e4]; rcases hx with e | e <;> rw [e] <;> rfl
  rw [hone, Nat.mul_one] at e5
  replace e5 : z.mag (.custom w mx) = x.mag (.custom w mx) % (mx + 1) ^ 2 ^ k := e5
  refine ⟨z, e1, e2, e3, hd, fun hlt => ?_, k, h1, h2, e5⟩
  rw [Nat.mod_eq_of_lt (lt_of_lt_of_le hlt (Nat.pow_le_pow_right (by omega) h1))] at e5
  unfold Bignum.toInt
  unfold Bignum.mag at e5
  unfold Bignum.mag
  rw [hd, e5]

/-- The digits 12, 345, 6789 and 0 of base 10 stand for 682362. -/
example {F : Type} {o : FloatOps F} (M : Ieee o) := C145_normalise M (D := 6789) Sample.base10 Sample.ample (x := ⟨.neg, [12, 345, 6789, 0]⟩)
  (.inr rfl) (by decide) (by decide) (by decide) (by decide)

end BN
