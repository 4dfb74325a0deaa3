import Verif.Props.Rsa
import Mathlib.Data.Nat.Fib.Basic
/-
C165: Fibonacci numbers by fast doubling.
-/
namespace BN
open Bignum

/-- One bit: `t = b + b - a; c = a * t; d = a * a + b * b; if (bit) { a = d; b = c + d; } else { a = c; b = d; }` -/
def fibStep {F : Type} (o : FloatOps F) (L : Limits) (env : Env) (n : Nat) (bit : Bool) (s : Bignum × Bignum) : Res (Bignum × Bignum) := do
  let t ← s.2.add L env n s.2
  let t ← t.sub L env n s.1
  let c ← s.1.mul o L env n t
  let p ← s.1.mul o L env n s.1
  let q ← s.2.mul o L env n s.2
  let d ← p.add L env n q
  if bit then
    let e ← c.add L env n d
    .ok (d, e)
  else .ok (c, d)

/-- The bits of a built-in integer, the most significant first. -/
def fibBits {F : Type} (o : FloatOps F) (L : Limits) (env : Env) (n : Nat) : List Bool → Bignum × Bignum → Res (Bignum × Bignum)
  | [], s => .ok s
  | b :: l, s => fibStep o L env n b s >>= fibBits o L env n l

/-- From F(0) = 0 and F(1) = 1: `for (bit : bits of k) step(bit); return a;` -/
def fibZero {F : Type} (o : FloatOps F) (L : Limits) (env : Env) (n k : Nat) : Res Bignum := do
  let one ← ofList env .pos [1]
  let s ← fibBits o L env n k.bits.reverse (Bignum.default, one)
  .ok s.1

/-- From F(1) = F(2) = 1, since the first bit is one: `for (bit : bits of k but the first) step(bit); return a;` -/
def fibOne {F : Type} (o : FloatOps F) (L : Limits) (env : Env) (n k : Nat) : Res Bignum := do
  let one ← ofList env .pos [1]
  let s ← fibBits o L env n k.bits.reverse.tail (one, one)
  .ok s.1

variable {L : Limits} {env : Env}

theorem length_add_le_mul (hB : 2 ≤ L.base) {a b : Nat} (ha : a ≠ 0) (hb : b ≠ 0) :
    (numeral L .pos a).digits.length + (numeral L .pos b).digits.length ≤ (numeral L .pos (a * b)).digits.length + 1 := by
  simp only [numeral]
  rw [Nat.length_digits _ _ hB ha, Nat.length_digits _ _ hB hb, Nat.length_digits _ _ hB (Nat.mul_ne_zero ha hb)]
  have : Nat.log L.base a + Nat.log L.base b ≤ Nat.log L.base (a * b) := by
    refine Nat.le_log_of_pow_le (by omega) ?_
    rw [pow_add]
    exact Nat.mul_le_mul (Nat.pow_log_le_self _ ha) (Nat.pow_log_le_self _ hb)
  omega

/-- The number that the bits make after those that made `k`. -/
def bitsFrom (k : Nat) (l : List Bool) : Nat := l.foldl (fun k b => 2 * k + b.toNat) k

theorem bitsFrom_ge : ∀ (l : List Bool) (k : Nat), k ≤ bitsFrom k l
  | [], k => le_rfl
  | b :: l, k => (by omega : k ≤ 2 * k + b.toNat).trans (bitsFrom_ge l _)

theorem bitsFrom_bits (k : Nat) : bitsFrom 0 k.bits.reverse = k := by
  unfold bitsFrom
  rw [List.foldl_reverse]
  induction k using Nat.binaryRec' with
  | zero => simp
  | bit b n h ih =>
    rw [Nat.bits_append_bit _ _ h, List.foldr_cons, ih, Nat.bit_val]

theorem bits_head {k : Nat} (hk : k ≠ 0) : ∃ l, k.bits.reverse = true :: l := by
  induction k using Nat.binaryRec' with
  | zero => exact absurd rfl hk
  | bit b n h ih =>
    rw [Nat.bits_append_bit _ _ h, List.reverse_cons]
    by_cases hn : n = 0
    · subst hn
      rw [h rfl]
      exact ⟨[], by simp⟩
    · obtain ⟨l, hl⟩ := ih hn
      exact ⟨l ++ [b], by rw [hl]; rfl⟩

section
variable {F : Type} {o : FloatOps F} (M : Ieee o) {K : Nat} (hp : Preset L K) (hm : env.Ample) (hd : env.debug = false)
include M hp hm hd

theorem fibStep_eq {k N : Nat} {b : Bool} (hk : 1 ≤ k) (hN : 2 * k + b.toNat ≤ N)
    (hK : (numeral L .pos (Nat.fib (N + 1))).digits.length + 1 ≤ K) {n : Nat} (hn : (2 * Nat.fib (N + 1)).size + 33 ≤ n) :
    fibStep o L env n b (numeral L .pos (Nat.fib k), numeral L .pos (Nat.fib (k + 1))) =
      .ok (numeral L .pos (Nat.fib (2 * k + b.toNat)), numeral L .pos (Nat.fib (2 * k + b.toNat + 1))) := by
  have hB := hp.custom.supported.base_ge
  have p1 : 0 < Nat.fib k := Nat.fib_pos.2 (by omega)
  have p2 : 0 < Nat.fib (k + 1) := Nat.fib_pos.2 (by omega)
  have le1 : Nat.fib k ≤ Nat.fib (k + 1) := Nat.fib_le_fib_succ
  have e1 := Nat.fib_two_mul k
  have e2 := Nat.fib_two_mul_add_one k
  have e3 : Nat.fib (2 * k + 2) = Nat.fib (2 * k) + Nat.fib (2 * k + 1) := Nat.fib_add_two
  have m1 : Nat.fib (2 * k) ≤ Nat.fib (N + 1) := Nat.fib_mono (by omega)
  have m2 : Nat.fib (2 * k + 1) ≤ Nat.fib (N + 1) := Nat.fib_mono (by omega)
  have m3 : Nat.fib (k + 1) ≤ Nat.fib (N + 1) := Nat.fib_mono (by omega)
  have sq1 : Nat.fib k * Nat.fib k ≤ Nat.fib (N + 1) := by rw [pow_two, pow_two] at e2; omega
  have sq2 : Nat.fib (k + 1) * Nat.fib (k + 1) ≤ Nat.fib (N + 1) := by rw [pow_two, pow_two] at e2; omega
  have l0 := length_add_le_mul (L := L) hB p1.ne' (show 2 * Nat.fib (k + 1) - Nat.fib k ≠ 0 by omega)
  rw [← e1] at l0
  have l1 := length_add_le_mul (L := L) hB p1.ne' p1.ne'
  have l2 := length_add_le_mul (L := L) hB p2.ne' p2.ne'
  have l3 := length_numeral_mono (L := L) hB m1
  have l4 := length_numeral_mono (L := L) hB sq1
  have l5 := length_numeral_mono (L := L) hB sq2
  have s0 := Nat.size_le_size (show Nat.fib (N + 1) ≤ 2 * Nat.fib (N + 1) by omega)
  have s1 := Nat.size_le_size (show 2 * Nat.fib (k + 1) ≤ 2 * Nat.fib (N + 1) by omega)
  have s2 := Nat.size_le_size m3
  have s3 := Nat.size_le_size m1
  have s4 := Nat.size_le_size m2
  have s5 := Nat.size_le_size sq1
  have s6 := Nat.size_le_size sq2
  unfold fibStep
  simp only
  rw [add_numerals hp.custom.supported hm (by omega) (by omega), ok_bind, ← two_mul,
    sub_numerals hp.custom.supported hm hd (by omega) (by omega) (by omega), ok_bind, pos_mul M hp hm (.inl p1.ne') (by omega) (by omega), ok_bind,
    pos_mul M hp hm (.inl p1.ne') (by omega) (by omega), ok_bind, pos_mul M hp hm (.inl p2.ne') (by omega) (by omega), ok_bind,
    add_numerals hp.custom.supported hm (by have := Nat.mul_pos p1 p1; omega) (by omega), ok_bind, ← e1,
    show Nat.fib k * Nat.fib k + Nat.fib (k + 1) * Nat.fib (k + 1) = Nat.fib (2 * k + 1) by rw [e2]; ring]
  cases b with
  | false => rfl
  | true =>
    have p3 : 0 < Nat.fib (2 * k + 1) := Nat.fib_pos.2 (by omega)
    rw [if_pos rfl, add_numerals hp.custom.supported hm (by omega) (by omega), ok_bind, ← e3]
    rfl

theorem fibBits_eq {N : Nat} (hK : (numeral L .pos (Nat.fib (N + 1))).digits.length + 1 ≤ K) {n : Nat} (hn : (2 * Nat.fib (N + 1)).size + 33 ≤ n) :
    ∀ (l : List Bool) (k : Nat), 1 ≤ k → bitsFrom k l ≤ N →
    fibBits o L env n l (numeral L .pos (Nat.fib k), numeral L .pos (Nat.fib (k + 1))) =
      .ok (numeral L .pos (Nat.fib (bitsFrom k l)), numeral L .pos (Nat.fib (bitsFrom k l + 1)))
  | [], k, _, _ => rfl
  | b :: l, k, hk, hl => by
    have h : bitsFrom k (b :: l) = bitsFrom (2 * k + b.toNat) l := rfl
    rw [h] at hl ⊢
    rw [fibBits, fibStep_eq M hp hm hd hk ((bitsFrom_ge l _).trans hl) hK hn, ok_bind]
    exact fibBits_eq hK hn l _ (by omega) hl

/-- Started at the first bit, fast doubling gives the Fibonacci numbers. -/
theorem C165_fibonacci {k : Nat} (hk : k ≠ 0) (hK : (numeral L .pos (Nat.fib (k + 1))).digits.length + 1 ≤ K) :
    ∃ r, Evaluates (fun n => fibOne o L env n k) (.ok r) ∧ WF L r ∧ r.toInt L = Nat.fib k := by
  have hB := hp.custom.supported.base_ge
  obtain ⟨l, hl⟩ := bits_head hk
  have hb : bitsFrom 1 l = k := by
    have := bitsFrom_bits k
    rw [hl] at this
    exact this
  refine ⟨numeral L .pos (Nat.fib k), ⟨(2 * Nat.fib (k + 1)).size + 33, fun n hn => ?_⟩, numeral_wf hB (.inl rfl) _,
    by rw [toInt_of_pos rfl, numeral_mag]⟩
  simp only [fibOne]
  rw [hl, ofList_numeral hB hm .pos (by simp; omega), show List.foldl (fun acc x => acc * L.base + x) 0 [1] = 1 by simp, ok_bind]
  have h := fibBits_eq M hp hm hd hK hn l 1 le_rfl (by omega)
  rw [hb] at h
  rw [List.tail_cons]
  exact (congrArg (fun r => r >>= _) h).trans rfl

/-- Started at zero it never returns, whatever the index: the first step squares zero. -/
theorem C165_from_zero {k : Nat} (hk : k ≠ 0) (hK : (numeral L .pos (Nat.fib (k + 1))).digits.length + 1 ≤ K) :
    Evaluates (fun n => fibZero o L env n k) (.error .timeout) := by
  have hB := hp.custom.supported.base_ge
  obtain ⟨l, hl⟩ := bits_head hk
  have e0 : Bignum.default = numeral L .pos 0 := by simp [numeral, Bignum.default]
  have l0 : (numeral L .pos 0).digits.length = 0 := by rw [← e0]; rfl
  have l1 := length_numeral_mono (L := L) hB (show 1 ≤ Nat.fib (k + 1) from Nat.fib_pos.2 (by omega))
  have l2 := length_numeral_le (L := L) (d := .pos) hB (show 2 < L.base ^ 2 by nlinarith)
  have l3 := length_pos (mag_ne_nil (x := numeral L .pos 1) (L := L) (by rw [numeral_mag]; omega))
  have z1 : Nat.size 1 = 1 := Nat.size_one
  have z2 : Nat.size 2 = 2 := by decide
  refine ⟨33, fun n hn => ?_⟩
  simp only [fibZero]
  rw [hl, ofList_numeral hB hm .pos (by simp; omega), show List.foldl (fun acc x => acc * L.base + x) 0 [1] = 1 by simp, ok_bind, e0]
  have h : fibStep o L env n true (numeral L .pos 0, numeral L .pos 1) = .error .timeout := by
    unfold fibStep
    simp only
    rw [add_numerals hp.custom.supported hm (by omega) (by omega), ok_bind, show 1 + 1 = 2 from rfl,
      sub_numerals hp.custom.supported hm hd (by omega) (by omega) (by omega), ok_bind, Nat.sub_zero,
      pos_mul M hp hm (.inr (by omega)) (by omega) (by omega), ok_bind, zero_sq o L hm n]
    rfl
  rw [fibBits, h]
  rfl

end

/-- F(10) = 55. -/
example {F : Type} {o : FloatOps F} (M : Ieee o) : ∃ r, Evaluates (fun n => fibOne o .base10 releaseEnv n 10) (.ok r) ∧ WF .base10 r ∧
    r.toInt .base10 = 55 := C165_fibonacci M .base10 releaseEnv_ample rfl (k := 10) (by omega) (by simp [numeral, Nat.fib, Limits.base10]; sample)

example {F : Type} {o : FloatOps F} (M : Ieee o) : Evaluates (fun n => fibZero o .base10 releaseEnv n 10) (.error .timeout) :=
  C165_from_zero M .base10 releaseEnv_ample rfl (k := 10) (by omega) (by simp [numeral, Nat.fib, Limits.base10]; sample)

end BN
