import Verif.Lemmas.Samples
import Verif.Props.Bases
/-
C126: which pairs of built-in digit types work as the single and the double type of a number.
-/
namespace BN

open Bignum

/-- Every pair with a strictly wider double type is one of the `Native` digit types. -/
theorem pair_native {w w2 : Nat} (hw : IsWidth w) (hw2 : IsWidth w2) (h : w < w2) : Native (.pair w w2) := by
  rcases hw with rfl | rfl | rfl | rfl <;> rcases hw2 with rfl | rfl | rfl | rfl <;> try omega
  exacts [.lowp, .wide8_32, .wide8_64, .medp, .wide16_64, .highp]

/-- The largest digit plus itself when the double type is not wider: the sum wraps around and no carry is seen. -/
theorem addDigit_narrow {w w2 : Nat} (hw : IsWidth w) (hw2 : IsWidth w2) (h : w2 ≤ w) :
    addDigit (.pair w w2) (2 ^ w - 1) (((Limits.pair w w2).digit (2 ^ w - 1)).conv (Limits.pair w w2).double) ((Limits.pair w w2).toSingle 0) =
      .ok (2 ^ w2 - 2, (Limits.pair w w2).toSingle 0) := by
  rcases hw with rfl | rfl | rfl | rfl <;> rcases hw2 with rfl | rfl | rfl | rfl <;> first | omega | decide

theorem subDigit_narrow {w w2 : Nat} (hw : IsWidth w) (hw2 : IsWidth w2) (h : w2 ≤ w) :
    subDigit (.pair w w2) 0 (((Limits.pair w w2).digit (2 ^ w - 1)).conv (Limits.pair w w2).double) ((Limits.pair w w2).toDouble 0) =
      .ok (1, (Limits.pair w w2).toDouble 0) ∧
    subDigit (.pair w w2) 1 ((Limits.pair w w2).toDouble 0) ((Limits.pair w w2).toDouble 0) = .ok (1, (Limits.pair w w2).toDouble 0) := by
  rcases hw with rfl | rfl | rfl | rfl <;> rcases hw2 with rfl | rfl | rfl | rfl <;> first | omega | decide

theorem pair_zero {w w2 : Nat} (hw : IsWidth w) : ((Limits.pair w w2).toSingle 0).truthy = false := by
  rcases hw with rfl | rfl | rfl | rfl <;> rfl

theorem add_narrow {w w2 : Nat} (hw : IsWidth w) (hw2 : IsWidth w2) (h : w2 ≤ w) (env : Env) {fuel : Nat} (hf : 0 < fuel) :
    Bignum.addAssign (.pair w w2) env fuel ⟨.pos, [2 ^ w - 1]⟩ (.other ⟨.pos, [2 ^ w - 1]⟩) = .ok ⟨.pos, [2 ^ w2 - 2]⟩ := by
  obtain ⟨k, rfl⟩ : ∃ k, fuel = k + 1 := ⟨fuel - 1, by omega⟩
  rw [addAssign_signed (.inl rfl), addTry_same (.inl rfl) rfl]
  have hd := addDigit_narrow hw hw2 h
  unfold absAdd
  have z3 := pair_zero (w2 := w2) hw
  have e : addBody (.pair w w2) env (.other [2 ^ w - 1]) ⟨[2 ^ w - 1], 0, 0, (Limits.pair w w2).toSingle 0⟩ =
      .ok (⟨[2 ^ w2 - 2], 1, 1, (Limits.pair w w2).toSingle 0⟩, true) := by
    simp [addBody, growTo, Src.get, digitOrZero, Vec.rd, Vec.wr, ok_bind, hd, z3]
  simp only [Rhs.src, loopForever, e, ok_bind]
  rfl

theorem sub_narrow {w w2 : Nat} (hw : IsWidth w) (hw2 : IsWidth w2) (h : w2 ≤ w) (env : Env) {fuel : Nat} (hf : 1 < fuel) :
    Bignum.subAssign (.pair w w2) env fuel ⟨.pos, [0, 1]⟩ (.other ⟨.pos, [2 ^ w - 1]⟩) = .ok ⟨.pos, [1, 1]⟩ := by
  obtain ⟨k, rfl⟩ : ∃ k, fuel = k + 2 := ⟨fuel - 2, by omega⟩
  rw [subAssign_signed (.inl rfl), subTry_same (.inl rfl) rfl]
  obtain ⟨hs, hs1⟩ := subDigit_narrow hw hw2 h
  have e0 : subBody (.pair w w2) (.other [2 ^ w - 1]) ⟨[0, 1], 0, 0, (Limits.pair w w2).toDouble 0⟩ =
      .ok (⟨[1, 1], 1, 1, (Limits.pair w w2).toDouble 0⟩, false) := by
    simp [subBody, Src.get, digitOrZero, Vec.rd, Vec.wr, ok_bind, hs]
  have e1 : subBody (.pair w w2) (.other [2 ^ w - 1]) ⟨[1, 1], 1, 1, (Limits.pair w w2).toDouble 0⟩ =
      .ok (⟨[1, 1], 2, 2, (Limits.pair w w2).toDouble 0⟩, true) := by
    simp [subBody, Src.get, digitOrZero, Vec.rd, Vec.wr, ok_bind, hs1]
  have e2 : absSub (.pair w w2) env (k + 2) [0, 1] (.other [2 ^ w - 1]) = .ok [1, 1] := by
    unfold absSub
    rw [subDebugCheck_eq, if_neg (by simp [Src.get]), ok_bind]
    simp only [loopForever, e0, e1, ok_bind]
    rfl
  unfold magDiff
  simp only [Rhs.src, Rhs.get, e2]
  rfl

theorem pair_base (w w2 : Nat) : (Limits.pair w w2).base = 2 ^ w := by
  have := Nat.one_le_two_pow (n := w)
  show 2 ^ w - 1 + 1 = 2 ^ w
  omega

/-- Addition is right for all numbers with digits exactly when the double type is strictly wider than the single type. -/
theorem C126_add {w w2 : Nat} (hw : IsWidth w) (hw2 : IsWidth w2) {env : Env} (hm : env.Ample) (hd : env.debug = false) :
    (∀ a b : Bignum, WF (.pair w w2) a → WF (.pair w w2) b → a.digits ≠ [] → b.digits ≠ [] →
      ∃ c, Evaluates (fun n => a.addAssign (.pair w w2) env n (.other b)) (.ok c) ∧ WF (.pair w w2) c ∧
        c.toInt (.pair w w2) = a.toInt (.pair w w2) + b.toInt (.pair w w2)) ↔ w < w2 := by
  constructor
  · intro h
    by_contra hc
    have h256 : 2 ^ 8 ≤ 2 ^ w := Nat.pow_le_pow_right (by omega) (by rcases hw with rfl | rfl | rfl | rfl <;> omega)
    have hle : 2 ^ w2 ≤ 2 ^ w := Nat.pow_le_pow_right (by omega) (by omega)
    have hwf := wf_one (L := .pair w w2) (d := 2 ^ w - 1) (by omega) (by rw [pair_base]; omega)
    obtain ⟨c, ⟨n, h2⟩, -, h3⟩ := h _ _ hwf hwf (by simp) (by simp)
    have e := (h2 (n + 1) (by omega)).symm.trans (add_narrow hw hw2 (by omega) env (fuel := n + 1) (by omega))
    obtain rfl := Out.ok.inj e
    simp only [Bignum.toInt, mag, natOf, reduceCtorEq, if_false] at h3
    omega
  · intro h a b ha hb ha0 hb0
    exact C09_add_exact (.inl (pair_native hw hw2 h)) hm hd (r := .other b) ha hb fun he => ha0 he.2.1

example := C126_add (w := 8) (w2 := 64) (.inl rfl) (.inr (.inr (.inr rfl))) Sample.ample rfl

/-- Subtraction of numbers of the same sign likewise. -/
theorem C126_sub {w w2 : Nat} (hw : IsWidth w) (hw2 : IsWidth w2) {env : Env} (hm : env.Ample) (hd : env.debug = false) :
    (∀ a b : Bignum, WF (.pair w w2) a → WF (.pair w w2) b → a.digits ≠ [] → b.desc = a.desc →
      ∃ c, Evaluates (fun n => a.subAssign (.pair w w2) env n (.other b)) (.ok c) ∧ WF (.pair w w2) c ∧
        c.toInt (.pair w w2) = a.toInt (.pair w w2) - b.toInt (.pair w w2)) ↔ w < w2 := by
  constructor
  · intro h
    by_contra hc
    have h256 : 2 ^ 8 ≤ 2 ^ w := Nat.pow_le_pow_right (by omega) (by rcases hw with rfl | rfl | rfl | rfl <;> omega)
    have hwf := wf_one (L := .pair w w2) (d := 2 ^ w - 1) (by omega) (by rw [pair_base]; omega)
    have hwa : WF (.pair w w2) ⟨.pos, [0, 1]⟩ := by
      refine ⟨.inl rfl, ?_, .inl (by simp [NoLeadingZero])⟩
      rw [pair_base]
      intro d hd
      simp only [List.mem_cons, List.not_mem_nil, or_false] at hd
      omega
    obtain ⟨c, ⟨n, h2⟩, -, h3⟩ := h _ _ hwa hwf (by simp) rfl
    have e := (h2 (n + 2) (by omega)).symm.trans (sub_narrow hw hw2 (by omega) env (fuel := n + 2) (by omega))
    obtain rfl := Out.ok.inj e
    simp only [Bignum.toInt, mag, natOf, reduceCtorEq, if_false, pair_base] at h3
    omega
  · intro h a b ha hb ha0 hs
    obtain ⟨c, h1, h2, -, h3⟩ := C15_sub_same_sign_exact (.inl (pair_native hw hw2 h)) hm hd (r := .other b) ha hb hs fun he => ha0 he.1
    exact ⟨c, h1, h2, h3⟩

example := C126_sub (w := 16) (w2 := 16) (.inr (.inl rfl)) (.inr (.inl rfl)) Sample.ample rfl

theorem columnTotal_eq_totals {B : Nat} (hB : 0 < B) (a b : List Nat) : ∀ j, columnTotal B a b j = totals B (colSum a b) j
  | 0 => columnTotal_zero B a b
  | j + 1 => by rw [columnTotal_succ hB, totals, columnTotal_eq_totals hB a b j]

/-- Bytes with a 32- or 64-bit double type: the product is decided by the columns up to 2^18 bytes in all. -/
theorem bytes_decided {F : Type} {o : FloatOps F} (M : Ieee o) {w2 : Nat} (hw2 : w2 = 32 ∨ w2 = 64) {env : Env} (hm : env.Ample)
    {x : Bignum} {r : Rhs} (hx : WF (.pair 8 w2) x) (hy : WF (.pair 8 w2) (r.get x)) (h1 : 1 ≤ x.digits.length + (r.get x).digits.length)
    (h2 : x.digits.length + (r.get x).digits.length ≤ 2 ^ 18) : DecidedByColumns o (.pair 8 w2) env w2 x r := by
  have hS : Supported (.pair 8 w2) := by rcases hw2 with rfl | rfl <;> exact .inl (by constructor)
  refine C68_general M hS rfl (hm _) hx.1 hy.1 (K := 17) (D := 255) (c2 := 65025 * 47453133) (by norm_num) h1
    (h2.trans (by norm_num)) (by rw [pair_base]; norm_num) (by simpa [pair_base] using hx.2.1) (by simpa [pair_base] using hy.2.1)
    (by norm_num) (by norm_num) (by norm_num) (by norm_num) ?_
  norm_num [errBound, uro, eta]

theorem columnTotal_lt {B D : Nat} {a b : List Nat} (ha : InRange (D + 1) a) (hb : InRange (D + 1) b) (hD : D < B) (j : Nat) :
    columnTotal B a b j ≤ min a.length b.length * (D * (D + 1)) := by
  have hc : ∀ j, colSum a b j ≤ min a.length b.length * (D * D) := fun j => by simpa using colSum_le ha hb j
  have e : min a.length b.length * (D * (D + 1)) = min a.length b.length * (D * D) + min a.length b.length * D := by ring
  rw [e]
  cases j with
  | zero => rw [columnTotal_zero]; exact (hc 0).trans (Nat.le_add_right _ _)
  | succ j =>
    rw [columnTotal_succ (by omega), Nat.add_comm]
    exact Nat.add_le_add (hc _) (columnTotal_le ha hb hD j)

/-- Bytes with a 32-bit double type: all products of two lengths are right exactly when the shorter operand has at most
65793 bytes (with the shipped 16-bit double type the limit is one byte). -/
theorem C126_mul_bytes32 {F : Type} {o : FloatOps F} (M : Ieee o) {env : Env} (hm : env.Ample) {p q : Nat} (h1 : 1 ≤ p + q)
    (h2 : p + q ≤ 2 ^ 18) : AllExact o (.pair 8 32) env p q ↔ min p q ≤ 65793 := by
  constructor
  · intro ha
    by_contra hc
    refine not_allExact (L := .pair 8 32) (D := 255) (by decide) (by decide) (p := p) (q := q) (by omega) (by omega) (fun n hn => ?_) ha
    have hwf : ∀ m, 0 < m → WF (.pair 8 32) ⟨.pos, List.replicate m 255⟩ := by
      intro m hm0
      refine ⟨.inl rfl, inRange_replicate (by decide), .inl ?_⟩
      intro h0
      have := List.eq_of_mem_replicate (List.mem_of_getLast? h0)
      omega
    refine (bytes_decided M (w2 := 32) (.inl rfl) hm (x := ⟨.pos, List.replicate p 255⟩) (r := .other ⟨.pos, List.replicate q 255⟩) (hwf p (by omega))
      (hwf q (by omega)) (by simpa [Rhs.get] using h1) (by simpa [Rhs.get] using h2)).2 ⟨65793, ?_, ?_⟩ n hn
    · simp only [Rhs.get, List.length_replicate]; omega
    · rw [columnTotal_eq_totals (by decide)]
      have := (totals_replicate (D := 255) (p := p) (q := q) (by norm_num) 65793 (by omega) (by omega)).2 (by norm_num)
      show 2 ^ 32 ≤ totals (255 + 1) (colSum (List.replicate p 255) (List.replicate q 255)) 65793
      rw [this]; norm_num
  · intro hc x y hx hy hp hq
    obtain ⟨z, hz, -, -, -, hv⟩ := (bytes_decided M (w2 := 32) (.inl rfl) hm (r := .other y) hx hy (by show 1 ≤ _ + y.digits.length; omega)
      (by show _ + y.digits.length ≤ _; omega)).1 (by
        intro j _
        have := columnTotal_lt (B := (Limits.pair 8 32).base) (D := 255) hx.2.1 hy.2.1 (by decide) j
        rw [hp, hq] at this
        show columnTotal _ x.digits y.digits j < _
        omega)
    exact ⟨z, ⟨33, fun n hn => hz n (by omega)⟩, hv⟩

example {F : Type} {o : FloatOps F} (M : Ieee o) : AllExact o (.pair 8 32) releaseEnv 65793 70000 :=
  (C126_mul_bytes32 M Sample.ample (by norm_num) (by norm_num)).2 (by norm_num)

/-- Bytes with a 64-bit double type: every product of at most 2^18 bytes in all is right. -/
theorem C126_mul_bytes64 {F : Type} {o : FloatOps F} (M : Ieee o) {env : Env} (hm : env.Ample) {x : Bignum} {r : Rhs}
    (hx : WF (.pair 8 64) x) (hy : WF (.pair 8 64) (r.get x)) (h1 : 1 ≤ x.digits.length + (r.get x).digits.length)
    (h2 : x.digits.length + (r.get x).digits.length ≤ 2 ^ 18) :
    ∃ z, (∀ n, 32 < n → mulAssign o (.pair 8 64) env n x r = .ok z) ∧ WF (.pair 8 64) z ∧ NoLeadingZero z.digits ∧
      z.desc = signRule x.desc (r.get x).desc ∧ z.toInt (.pair 8 64) = x.toInt (.pair 8 64) * (r.get x).toInt (.pair 8 64) :=
  (bytes_decided M (w2 := 64) (.inr rfl) hm hx hy h1 h2).1 fun j _ => by
    have := columnTotal_lt (B := (Limits.pair 8 64).base) (D := 255) hx.2.1 hy.2.1 (by decide) j
    omega

example {F : Type} {o : FloatOps F} (M : Ieee o) := C126_mul_bytes64 M Sample.ample (x := ⟨.neg, [255, 255, 255]⟩)
  (r := .other ⟨.pos, [255, 255]⟩) (by sample) (by sample) (by decide) (by decide)

/-- 16-bit digits with a 64-bit double type: every product of at most 256 digits in all is right. -/
theorem C126_mul_words64 {F : Type} {o : FloatOps F} (M : Ieee o) {env : Env} (hm : env.Ample) {x : Bignum} {r : Rhs}
    (hx : WF (.pair 16 64) x) (hy : WF (.pair 16 64) (r.get x)) (h1 : 1 ≤ x.digits.length + (r.get x).digits.length)
    (h2 : x.digits.length + (r.get x).digits.length ≤ 2 ^ 8) :
    ∃ z, (∀ n, 32 < n → mulAssign o (.pair 16 64) env n x r = .ok z) ∧ WF (.pair 16 64) z ∧ NoLeadingZero z.digits ∧
      z.desc = signRule x.desc (r.get x).desc ∧ z.toInt (.pair 16 64) = x.toInt (.pair 16 64) * (r.get x).toInt (.pair 16 64) := by
  have hD : DecidedByColumns o (.pair 16 64) env 64 x r := by
    refine C68_general M (.inl .wide16_64) rfl (hm _) hx.1 hy.1 (K := 7) (D := 65535) (c2 := 65535 ^ 2 * 1449) (by norm_num) h1
      (h2.trans (by norm_num)) (by decide) hx.2.1 hy.2.1 (by norm_num) (by norm_num) (by norm_num) (by norm_num) ?_
    norm_num [errBound, uro, eta]
  exact hD.1 fun j _ => by
    have := columnTotal_lt (B := (Limits.pair 16 64).base) (D := 65535) hx.2.1 hy.2.1 (by decide) j
    omega

example {F : Type} {o : FloatOps F} (M : Ieee o) := C126_mul_words64 M Sample.ample (x := ⟨.neg, [65535, 65535, 65535]⟩)
  (r := .other ⟨.pos, [65535, 65535]⟩) (by sample) (by sample) (by decide) (by decide)

/-- A type made of built-in digits uses every value of the digit type as a digit, a type made of BNIntType the digits up to its maximum. -/
theorem C53_instances (w w2 max : Nat) :
    (Limits.pair w w2).minLimit = 0 ∧ (Limits.pair w w2).base = 2 ^ w ∧ (Limits.pair w w2).single.raw = cU w ∧ (Limits.pair w w2).double.raw = cU w2 ∧
    (∀ m : Nat, m ≤ (Limits.pair w w2).maxLimit ↔ (Limits.pair w w2).single.raw.fits (m : Int) = true) ∧
    (Limits.custom w max).minLimit = 0 ∧ (Limits.custom w max).maxLimit = max ∧ (Limits.custom w max).base = max + 1 ∧
    (Limits.custom w max).single.raw = cU w ∧ (Limits.custom w max).double.raw = cU w := by
  have h : 0 < 2 ^ w := Nat.pow_pos (by omega)
  refine ⟨rfl, ?_, rfl, rfl, fun m => ?_, rfl, rfl, rfl, rfl, rfl⟩
  · show 2 ^ w - 1 + 1 = 2 ^ w
    omega
  · show m ≤ 2 ^ w - 1 ↔ decide (0 ≤ (m : Int) ∧ (m : Int) < 2 ^ w) = true
    rw [decide_eq_true_iff]
    constructor
    · intro hm
      have : m < 2 ^ w := by omega
      exact ⟨by omega, by exact_mod_cast this⟩
    · intro hm
      have : m < 2 ^ w := by exact_mod_cast hm.2
      omega

end BN
