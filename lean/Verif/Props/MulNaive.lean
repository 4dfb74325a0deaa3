import Verif.Lemmas.Samples
import Verif.Lemmas.FftShape
import Verif.Lemmas.MulNaiveNative
import Verif.Lemmas.Pow2
import Verif.Props.Addition
/-
Schoolbook multiplication and the power-of-two padding: C27, C28, C29.
-/
namespace BN

/-! ### C27 -/

/-- `nextPow2(n)` is the least power of two not below n. -/
theorem C27_nextPow2 {n : Nat} (h1 : 1 ≤ n) (h2 : n ≤ 2 ^ 32) :
    (∃ k, nextPow2 n = 2 ^ k) ∧ n ≤ nextPow2 n ∧ ∀ k, n ≤ 2 ^ k → nextPow2 n ≤ 2 ^ k := by
  obtain ⟨k, -, e, hle, hlt⟩ := nextPow2_eq h1 h2
  refine ⟨⟨k, e⟩, by omega, fun j hj => ?_⟩
  rw [e]
  apply Nat.pow_le_pow_right (by omega)
  by_contra hc
  have : 2 ^ (j + 1) ≤ 2 ^ k := Nat.pow_le_pow_right (by omega) (by omega)
  rw [Nat.pow_succ] at this
  omega

example : nextPow2 4294967295 = 4294967296 := by decide

/-- 0 maps to 0. -/
theorem C27_nextPow2_zero : nextPow2 0 = 0 := rfl

/-- The range cannot be extended: the very next argument gives 2^33 - 1. -/
theorem C27_nextPow2_above : nextPow2 (2 ^ 32 + 1) = 2 ^ 33 - 1 ∧ isPow2 (nextPow2 (2 ^ 32 + 1)) = false := by decide

theorem smear_step {a b s : Nat} (h : ∀ j, a.testBit j = true ↔ ∃ i < s, b.testBit (j + i) = true) (j : Nat) :
    (a ||| (a >>> s)).testBit j = true ↔ ∃ i < 2 * s, b.testBit (j + i) = true := by
  rw [Nat.testBit_or, Nat.testBit_shiftRight, Bool.or_eq_true, h, h]
  constructor
  · rintro (⟨i, hi, e⟩ | ⟨i, hi, e⟩)
    · exact ⟨i, by omega, e⟩
    · exact ⟨s + i, by omega, by rw [← e]; congr 1; omega⟩
  · rintro ⟨i, hi, e⟩
    by_cases hs : i < s
    · exact .inl ⟨i, hs, e⟩
    · exact .inr ⟨i - s, by omega, by rw [← e]; congr 1; omega⟩

/-- `nextPow2` for every argument of the 64-bit type: the bits of `n - 1` are spread over the 31 places below them, no further,
and the final increment wraps around. -/
theorem C27_nextPow2_any {n : Nat} (h1 : 1 ≤ n) (h2 : n ≤ 2 ^ 64) :
    ∃ m < 2 ^ 64, (∀ j, m.testBit j = true ↔ ∃ i < 32, (n - 1).testBit (j + i) = true) ∧
      nextPow2 n = if m = 2 ^ 64 - 1 then 0 else m + 1 := by
  have h0 : ∀ j, (n - 1).testBit j = true ↔ ∃ i < 1, (n - 1).testBit (j + i) = true := fun j => by simp
  have e1 := smear_step h0
  have e2 := smear_step e1
  have e3 := smear_step e2
  have e4 := smear_step e3
  have e5 := smear_step e4
  refine ⟨_, ?_, e5, ?_⟩
  · refine Nat.lt_pow_two_of_testBit _ fun j hj => ?_
    rw [Bool.eq_false_iff, Ne, e5]
    rintro ⟨i, -, e⟩
    rw [Nat.testBit_lt_two_pow (lt_of_lt_of_le (by omega : n - 1 < 2 ^ 64) (Nat.pow_le_pow_right (by omega) (by omega)))] at e
    cases e
  · have hlt : ∀ m, m < 2 ^ 64 → (m + 1) % 2 ^ 64 = if m = 2 ^ 64 - 1 then 0 else m + 1 := fun m hm => by
      split <;> omega
    unfold nextPow2
    rw [if_neg (by omega)]
    apply hlt
    refine Nat.lt_pow_two_of_testBit _ fun j hj => ?_
    rw [Bool.eq_false_iff, Ne]
    intro hb
    obtain ⟨i, -, e⟩ := (e5 j).1 hb
    rw [Nat.testBit_lt_two_pow (lt_of_lt_of_le (by omega : n - 1 < 2 ^ 64) (Nat.pow_le_pow_right (by omega) (by omega)))] at e
    cases e

example := C27_nextPow2_any (n := 2 ^ 63 + 2 ^ 31 + 1) (by decide) (by decide)

/-- From 2^63 + 2^31 + 1 on it can wrap around to 0. -/
theorem C27_nextPow2_wraps : nextPow2 (2 ^ 63 + 2 ^ 31 + 1) = 0 := by decide

/-- `isPow2` holds exactly of the powers of two. -/
theorem C27_isPow2 (n : Nat) : isPow2 n = true ↔ ∃ k, n = 2 ^ k := isPow2_iff n

/-- The FFT table has a power-of-two length with room for the whole product, and less than twice that. -/
theorem C27_table_length {F : Type} (o : FloatOps F) (a b : List Nat) (h1 : 1 ≤ a.length + b.length)
    (h2 : a.length + b.length ≤ 2 ^ 32) :
    ∃ k table, createFftTable o a b = .ok table ∧ table.length = 2 ^ k ∧ a.length + b.length ≤ 2 ^ k ∧ 2 ^ k < 2 * (a.length + b.length) := by
  obtain ⟨k, -, h3, h4, h5⟩ := fftTableSize_eq h1 h2
  exact ⟨k, _, createFftTable_eq o a b, by simp [h3], h4, h5⟩

example : 1 ≤ [1, 2, 3].length + [4, 5].length ∧ fftTableSize [1, 2, 3].length [4, 5].length = 8 := by decide

/-! ### C28 -/

/-- Lengths of factors that 32-bit counters can handle. -/
def Countable32 (p q : Nat) : Prop := p < 2 ^ 32 ∧ q < 2 ^ 32 ∧ p + q ≤ 2 ^ 32 + 1

/-- The schoolbook product is exact for every custom base whose square fits the digit type; when storage is refused
the exception is `std::bad_alloc`. The lengths are the largest possible (see C117). -/
theorem C28_naive_exact {L : Limits} (h : CustomSq L) (env : Env) {a b : List Nat} (ha : InRange L.base a)
    (hb : InRange L.base b) (hl : Countable32 a.length b.length) {fuel : Nat} (hf : max a.length b.length < fuel) :
    (env.alloc (a.length + b.length) = true ∨ a.length + b.length = 0 →
      ∃ c, mulNaive L env fuel a b = .ok c ∧ c.length = a.length + b.length ∧ InRange L.base c ∧
        natOf L.base c = natOf L.base a * natOf L.base b) ∧
    (env.alloc (a.length + b.length) = false → a.length + b.length ≠ 0 →
      mulNaive L env fuel a b = .error (.exn .badAlloc)) := by
  rw [mulNaive_eq L env hl.1 hl.2.1 hl.2.2 (by omega) (by omega)]
  constructor
  · intro hal
    unfold natMul
    by_cases h0 : a.length + b.length = 0
    · have ha0 : a = [] := by apply List.eq_nil_of_length_eq_zero; omega
      have hb0 : b = [] := by apply List.eq_nil_of_length_eq_zero; omega
      subst ha0; subst hb0
      exact ⟨[], rfl, rfl, .nil _, rfl⟩
    · have hal' : env.alloc (a.length + b.length) = true := by tauto
      simp only [h0, if_false]
      have hr : Vec.resize env [] (a.length + b.length) 0 = .ok (List.replicate (a.length + b.length) 0) := by
        unfold Vec.resize
        rw [if_neg (by simp only [List.length_nil]; omega), if_pos hal']; rfl
      rw [hr, ok_bind, List.replicate_add]
      obtain ⟨R', h1, h2, h3, h4⟩ := natOuter_val h ha b 0 (List.replicate a.length 0) (by simp) hb
        (by intro d hd; rw [List.eq_of_mem_replicate hd]; exact Nat.succ_pos _)
      refine ⟨R', h1, by omega, h3, ?_⟩
      rw [h4, natOf_replicate_zero]; simp
  · intro hal h0
    unfold natMul
    simp only [h0, if_false]
    unfold Vec.resize
    rw [if_neg (by simp only [List.length_nil]; omega), if_neg (by simp [hal])]
    rfl

example : CustomSq .base10 ∧ InRange Limits.base10.base [9, 9, 9] := by
  refine ⟨⟨32, 9, .inr (.inr (.inl rfl)), by omega, by norm_num, rfl⟩, ?_⟩
  simp [InRange, Limits.base, Limits.base10, Limits.custom]
example : mulNaive .base10 releaseEnv 5 [9, 9, 9] [9, 9] = .ok [1, 0, 9, 8, 9] := by decide

/-- The presets of the library and its test suite qualify: bases 2, 8, 10, 16 and 256. -/
theorem C28_presets : ∀ L ∈ [Limits.base2, .base8, .base10, .base16, .base256], CustomSq L := by
  intro L hL
  simp only [List.mem_cons, List.not_mem_nil, or_false] at hL
  rcases hL with rfl | rfl | rfl | rfl | rfl
  · exact ⟨8, 1, .inl rfl, by omega, by norm_num, rfl⟩
  · exact ⟨16, 7, .inr (.inl rfl), by omega, by norm_num, rfl⟩
  · exact ⟨32, 9, .inr (.inr (.inl rfl)), by omega, by norm_num, rfl⟩
  · exact ⟨32, 15, .inr (.inr (.inl rfl)), by omega, by norm_num, rfl⟩
  · exact ⟨16, 255, .inr (.inl rfl), by omega, by norm_num, rfl⟩

/-! ### C29 -/

/-- What the schoolbook product does on built-in digit types: column sums modulo the base; every carry is lost. For
16-bit digits this needs every product of two digits to fit `int`. -/
theorem C29_native_columns {L : Limits} (h : Native L) {env : Env} (hm : env.Ample) {a b : List Nat}
    (ha : InRange L.base a) (hb : InRange L.base b) (hp : L.single = .prim (cU 16) → ∀ x ∈ a, ∀ y ∈ b, x * y < 2 ^ 31)
    (hl : Countable32 a.length b.length) {fuel : Nat} (hf : max a.length b.length < fuel) :
    ∃ c, mulNaive L env fuel a b = .ok c ∧ c.length = a.length + b.length ∧
      ∀ k, c.getD k 0 = colSum a b k % L.base := by
  rw [mulNaive_eq L env hl.1 hl.2.1 hl.2.2 (by omega) (by omega)]
  unfold natMul
  by_cases h0 : a.length + b.length = 0
  · have ha0 : a = [] := by apply List.eq_nil_of_length_eq_zero; omega
    have hb0 : b = [] := by apply List.eq_nil_of_length_eq_zero; omega
    subst ha0; subst hb0
    exact ⟨[], rfl, rfl, fun k => by simp [colSum_nil_left]⟩
  · simp only [h0, if_false]
    have hr : Vec.resize env [] (a.length + b.length) 0 = .ok (List.replicate (a.length + b.length) 0) := by
      unfold Vec.resize
      rw [if_neg (by simp only [List.length_nil]; omega), if_pos (hm _)]; rfl
    rw [hr, ok_bind, List.replicate_add]
    obtain ⟨R', h1, h2, h3⟩ := natOuter_native h ha b 0 (List.replicate a.length 0) (by simp) hb
      (by intro d hd; rw [List.eq_of_mem_replicate hd]; exact Nat.succ_pos _) (fun x hx y hy hL => hp hL x hx y hy)
    refine ⟨R', h1, by omega, fun k => ?_⟩
    rw [h3 k, if_neg (by omega), colSum_comm]
    have : (List.replicate a.length 0).getD k 0 = 0 := by
      by_cases hk : k < a.length
      · rw [List.getD_eq_getElem _ _ (by simpa using hk)]; simp
      · rw [List.getD_eq_default _ _ (by simpa using hk)]
    rw [this, Nat.zero_add, Nat.sub_zero]

example := C29_native_columns (L := .medp) .medp Sample.ample (a := [65535, 7]) (b := [3, 2, 1]) (by sample) (by sample)
  (by decide) (by unfold Countable32; decide) (fuel := 4) (by decide)

/-- 16-bit digits: the operation is undefined exactly when some product of two digits overflows `int`. -/
theorem C29_ub_iff {L : Limits} (h : Native L) (h16 : L.single = .prim (cU 16)) {env : Env} (hm : env.Ample) {a b : List Nat} (ha : InRange 65536 a) (hb : InRange 65536 b)
    (hl : Countable32 a.length b.length) {fuel : Nat} (hf : max a.length b.length < fuel) :
    mulNaive L env fuel a b = .error (.ub .signedOverflow) ↔ ∃ x ∈ a, ∃ y ∈ b, 2 ^ 31 ≤ x * y := by
  constructor
  · intro hu
    by_contra hc
    obtain ⟨c, hc', -⟩ := C29_native_columns h hm (by rw [native16_base h h16]; exact ha) (by rw [native16_base h h16]; exact hb) (fun _ x hx y hy => by
      by_contra hxy
      exact hc ⟨x, hx, y, hy, by omega⟩) hl hf
    rw [hc'] at hu; cases hu
  · intro hex
    rw [mulNaive_eq _ env hl.1 hl.2.1 hl.2.2 (by omega) (by omega)]
    unfold natMul
    have h0 : a.length + b.length ≠ 0 := by
      obtain ⟨x, hx, -⟩ := hex
      have := List.length_pos_of_mem hx; omega
    simp only [h0, if_false]
    have hr : Vec.resize env [] (a.length + b.length) 0 = .ok (List.replicate (a.length + b.length) 0) := by
      unfold Vec.resize
      rw [if_neg (by simp only [List.length_nil]; omega), if_pos (hm _)]; rfl
    rw [hr, ok_bind, List.replicate_add]
    exact natOuter_16_ub h h16 ha b 0 _ (by simp) hb (by intro d hd; rw [List.eq_of_mem_replicate hd]; omega) hex

example := C29_ub_iff .wide16_64 rfl Sample.ample (a := [65535, 7]) (b := [3, 65535, 1]) (by sample) (by sample)
  (by unfold Countable32; decide) (fuel := 4) (by decide)

/-- The property fails for each of the three digit types: 255·255, 65535·65535 and 65536·65536. -/
theorem C29_refuted :
    (mulNaive .lowp releaseEnv 5 [255] [255] = .ok [1, 0] ∧ natOf 256 [1, 0] ≠ 255 * 255) ∧
    mulNaive .medp releaseEnv 5 [65535] [65535] = .error (.ub .signedOverflow) ∧
    (mulNaive .highp releaseEnv 5 [65536] [65536] = .ok [0, 0] ∧ natOf (2 ^ 32) [0, 0] ≠ 65536 * 65536) := by
  refine ⟨by decide, (C29_ub_iff .medp rfl (fun _ => rfl) ?_ ?_ (by norm_num [Countable32]) (by decide)).2 ⟨65535, by simp, 65535, by simp, by norm_num⟩, by decide⟩ <;>
    simp [InRange]

/-- What holds of it: the product is exact as long as no column of the long multiplication reaches the base (and, for
16-bit digits, no product of two digits reaches 2^31). Missing: all products with a carry. -/
theorem C29_native_partial {L : Limits} (h : Native L) {env : Env} (hm : env.Ample) {a b : List Nat}
    (ha : InRange L.base a) (hb : InRange L.base b) (hcol : ∀ k, colSum a b k < L.base)
    (hl : Countable32 a.length b.length) {fuel : Nat} (hf : max a.length b.length < fuel) :
    ∃ c, mulNaive L env fuel a b = .ok c ∧ c.length = a.length + b.length ∧ natOf L.base c = natOf L.base a * natOf L.base b := by
  have hp : L.single = .prim (cU 16) → ∀ x ∈ a, ∀ y ∈ b, x * y < 2 ^ 31 := by
    intro hL x hx y hy
    obtain ⟨i, hi, rfl⟩ := List.getElem_of_mem hx
    obtain ⟨j, hj, rfl⟩ := List.getElem_of_mem hy
    have h1 := hcol (i + j)
    have h2 : a.getD i 0 * b.getD (i + j - i) 0 ≤ colSum a b (i + j) := by
      unfold colSum
      exact Finset.single_le_sum (f := fun t => a.getD t 0 * b.getD (i + j - t) 0) (fun _ _ => Nat.zero_le _)
        (Finset.mem_range.2 (by omega))
    rw [show i + j - i = j by omega, List.getD_eq_getElem _ _ hi, List.getD_eq_getElem _ _ hj] at h2
    have := native16_base h hL
    omega
  obtain ⟨c, h1, h2, h3⟩ := C29_native_columns h hm ha hb hp hl hf
  refine ⟨c, h1, h2, ?_⟩
  rw [natOf_eq_sum L.base c _ (Nat.le_of_eq h2), ← sum_colSum L.base a b _ (Nat.le_refl _)]
  apply Finset.sum_congr rfl
  intro k _
  rw [h3 k, Nat.mod_eq_of_lt (hcol k)]

/-- And nothing else is right: the digits denote the product exactly when no column of the long multiplication reaches the base. -/
theorem C29_right_iff {L : Limits} (h : Native L) {env : Env} (hm : env.Ample) {a b : List Nat}
    (ha : InRange L.base a) (hb : InRange L.base b) (hl : Countable32 a.length b.length) {fuel : Nat} (hf : max a.length b.length < fuel) :
    (∃ c, mulNaive L env fuel a b = .ok c ∧ natOf L.base c = natOf L.base a * natOf L.base b) ↔ ∀ k, colSum a b k < L.base := by
  constructor
  · rintro ⟨c, hc, hv⟩
    have hp : L.single = .prim (cU 16) → ∀ x ∈ a, ∀ y ∈ b, x * y < 2 ^ 31 := by
      intro hL x hx y hy
      by_contra hxy
      have hB := native16_base h hL
      rw [(C29_ub_iff h hL hm (by rw [← hB]; exact ha) (by rw [← hB]; exact hb) hl hf).2 ⟨x, hx, y, hy, by omega⟩] at hc
      cases hc
    obtain ⟨c', h1, h2, h3⟩ := C29_native_columns h hm ha hb hp hl hf
    rw [hc] at h1
    cases h1
    have hBpos : 0 < L.base := Nat.succ_pos _
    rw [natOf_eq_sum L.base c _ (Nat.le_of_eq h2), ← sum_colSum L.base a b _ (Nat.le_refl _)] at hv
    intro k
    by_cases hk : k < a.length + b.length
    · by_contra hge
      refine absurd hv (Nat.ne_of_lt (Finset.sum_lt_sum (fun i _ => ?_) ⟨k, Finset.mem_range.2 hk, ?_⟩))
      · rw [h3]; exact Nat.mul_le_mul_right _ (Nat.mod_le _ _)
      · rw [h3]
        exact Nat.mul_lt_mul_of_pos_right (Nat.lt_of_lt_of_le (Nat.mod_lt _ hBpos) (by omega)) (Nat.pow_pos hBpos)
    · have h0 : colSum a b k = 0 := by
        unfold colSum
        refine Finset.sum_eq_zero fun i hi => ?_
        by_cases h1 : i < a.length
        · rw [List.getD_eq_default b _ (by omega), Nat.mul_zero]
        · rw [List.getD_eq_default a _ (by omega), Nat.zero_mul]
      omega
  · intro hcol
    obtain ⟨c, h1, -, h2⟩ := C29_native_partial h hm ha hb hcol hl hf
    exact ⟨c, h1, h2⟩

example := C29_right_iff .wide8_64 Sample.ample (a := [15, 2]) (b := [10, 3]) (by sample) (by sample) (by unfold Countable32; decide) (fuel := 5) (by decide)

example : ∃ c, mulNaive .lowp releaseEnv 5 [15, 2] [10, 3] = .ok c ∧ natOf 256 c = natOf 256 [15, 2] * natOf 256 [10, 3] :=
  ⟨[150, 65, 6, 0], by decide, by decide⟩

end BN
