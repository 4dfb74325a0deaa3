import Verif.Lemmas.Samples
import Verif.Lemmas.DivPad
import Verif.Props.Division
import Verif.Props.Multiplication
import Verif.Lemmas.Mono
/-
C62: numbers whose digit sequence was extended by a zero at the most significant end (`push_back(0)`, `resize`).
-/
namespace BN
open Bignum

/-- The same number with one more digit, a zero, at the most significant end. -/
def padded (b : Bignum) : Bignum := ⟨b.desc, b.digits ++ [0]⟩

/-- `push_back(0)` does not change what the digits denote. -/
theorem C62_padding_keeps_value {L : Limits} {env : Env} (hm : env.Ample) (b : Bignum) :
    b.pushBack env 0 = .ok (padded b) ∧ (padded b).toInt L = b.toInt L ∧ (padded b).desc = b.desc := by
  refine ⟨?_, ?_, rfl⟩
  · simp only [pushBack, Vec.pushBack, hm _, if_true, ok_bind, padded]
  · unfold Bignum.toInt Bignum.mag padded; simp only [natOf_snoc_zero]

example : pushBack releaseEnv ⟨.neg, [5]⟩ 0 = .ok ⟨.neg, [5, 0]⟩ := by decide

theorem lt_pow_of_length {B : Nat} (hB : 2 ≤ B) {v b : List Nat} (hb : InRange B b) (hlen : b.length ≤ v.length) :
    natOf B b < B ^ v.length :=
  Nat.lt_of_lt_of_le (natOf_lt hb) (Nat.pow_le_pow_right (by omega) hlen)

theorem length_le_of_lt_pow {B : Nat} (hB : 2 ≤ B) {v b : List Nat} (hb : NZ B b) (hlt : natOf B b < B ^ v.length) :
    b.length ≤ v.length := by
  by_contra hc
  have h1 := le_natOf_of_noLeadingZero (B := B) hb.nlz hb.ne
  have : B ^ v.length ≤ B ^ (b.length - 1) := Nat.pow_le_pow_right (by omega) (by omega)
  omega

theorem inRange_zeros {B : Nat} (hB : 0 < B) (k : Nat) : InRange B (List.replicate k 0) := fun x hx => by
  rw [List.eq_of_mem_replicate hx]; omega

theorem natOf_append_zeros (B : Nat) (l : List Nat) (k : Nat) : natOf B (l ++ List.replicate k 0) = natOf B l := by
  induction k with
  | zero => simp
  | succ k ih => rw [List.replicate_succ', ← List.append_assoc, natOf_snoc_zero, ih]

theorem evaluates_of_mono {f : Nat → Out} (h : MonoOut f) {n : Nat} {c : Bignum} (e : f n = .ok c) : Evaluates f (.ok c) :=
  ⟨n, fun m hm => (h n m hm (by rw [e]; simp)).trans e⟩

/-- A padded number is unequal to the original. -/
theorem C62_eq_padded (b : Bignum) : Bignum.eq b (padded b) = .ok false ∧ Bignum.ne b (padded b) = .ok true := by
  have h : absEq b.digits (b.digits ++ [0]) = .ok false := by
    unfold absEq; rw [if_pos (by simp)]
  constructor
  · simp [Bignum.eq, padded, h]
  · simp [Bignum.ne, padded, h, ok_bind]

/-- A padded positive number is greater than every positive number that has no more digits than the original. -/
theorem C62_order_padded {a b : Bignum} (ha : a.desc = .pos) (hb : b.desc = .pos) (hlen : b.digits.length ≤ a.digits.length) :
    Bignum.gt (padded a) b = .ok true ∧ Bignum.lt (padded a) b = .ok false := by
  have h1 : absGt (a.digits ++ [0]) b.digits = .ok true := by
    rw [absGt_eq]; exact congrArg Except.ok (decide_eq_true (.inl (by simp; omega)))
  have h2 : absLt (a.digits ++ [0]) b.digits = .ok false := by
    rw [absLt_eq, absGt_eq]
    refine congrArg Except.ok (decide_eq_false ?_)
    rintro (h | h) <;> simp at h <;> omega
  constructor
  · simp [Bignum.gt, padded, ha, hb, h1]
  · simp [Bignum.lt, padded, ha, hb, h2]

example : Bignum.gt (padded ⟨.pos, [5]⟩) ⟨.pos, [7]⟩ = .ok true := by decide

/-- Subtraction of a number with no more digits of the same sign: where the true difference would be negative the
result is off by the base to the number of digits. -/
theorem C62_sub_padded {L : Limits} (h : Supported L) {env : Env} (hd : env.debug = false) {a b : Bignum}
    (hs : Signed a.desc) (hsame : b.desc = a.desc) (ha : InRange L.base a.digits) (hb : NZ L.base b.digits)
    (hlen : b.digits.length ≤ a.digits.length) :
    ∃ c, Evaluates (fun n => subAssign L env n (padded a) (.other b)) (.ok c) ∧ WF L c ∧ c.desc = a.desc ∧
      c.mag L = if b.mag L ≤ a.mag L then a.mag L - b.mag L
        else a.mag L + L.base ^ (a.digits.length + 1) - b.mag L := by
  have hB := h.base_ge
  have hge : absGe (a.digits ++ [0]) b.digits = .ok true := by
    rw [absGe_pad hB ha hb, decide_eq_true (lt_pow_of_length hB hb.rng hlen)]
  have hr := ha.snoc_zero hB
  have hl1 : (a.digits ++ [0]).length = a.digits.length + 1 := by simp
  have hsub := subRest_natOf hB (a.digits ++ [0]) b.digits 0 hr hb.rng (by omega) (by omega)
  have hbl := subBorrow_le (a.digits ++ [0]) b.digits 0 (by omega)
  have hrng := subRest_inRange hB (a.digits ++ [0]) b.digits 0 hr hb.rng (by omega)
  have hrlt := natOf_lt hrng
  rw [subRest_length, hl1] at hrlt
  rw [natOf_snoc_zero, hl1] at hsub
  refine ⟨⟨a.desc, trim (subRest L.base (a.digits ++ [0]) b.digits 0)⟩, ⟨a.digits.length + 2, fun n hn => ?_⟩,
    ⟨hs, trim_inRange hrng, .inl (trim_noLeadingZero _)⟩, rfl, ?_⟩
  · have hsub : absSub L env n (a.digits ++ [0]) (.other b.digits) = .ok (trim (subRest L.base (a.digits ++ [0]) b.digits 0)) := by
      refine absSub_ok h env ?_ hr hb.rng (by simp) (by show b.digits.length ≤ _; omega) (by omega)
      rw [subDebugCheck_eq, if_neg (by simp [hd])]
    show subAssign L env n (padded a) (.other b) = _
    rw [subAssign_signed (this := padded a) hs, subTry_same (this := padded a) (r := .other b) hs hsame]
    simp only [magDiff, padded, Rhs.get, Rhs.src, hge, hsub, ok_bind, if_true]
    rfl
  · show natOf L.base (trim _) = if natOf L.base b.digits ≤ natOf L.base a.digits then
      natOf L.base a.digits - natOf L.base b.digits else natOf L.base a.digits + _ - natOf L.base b.digits
    rw [natOf_trim]
    have hVlt := natOf_lt ha
    have := natOf_lt hb.rng
    rcases Nat.le_one_iff_eq_zero_or_eq_one.1 hbl with hb' | hb' <;> rw [hb'] at hsub
    · rw [if_pos (by omega)]; omega
    · rw [if_neg (by omega)]; omega

example : subAssign .base10 releaseEnv 9 (padded ⟨.pos, [5]⟩) (.other ⟨.pos, [7]⟩) = .ok ⟨.pos, [8, 9]⟩ := by decide

theorem pow_between_unique {D P j k : Nat} (h1 : D * 2 ^ j < P) (h2 : P ≤ 2 * (D * 2 ^ j)) (h3 : D * 2 ^ k < P)
    (h4 : P ≤ 2 * (D * 2 ^ k)) : j = k := by
  have key : ∀ i l, D * 2 ^ i < P → P ≤ 2 * (D * 2 ^ l) → i ≤ l := by
    intro i l h5 h6
    by_contra hc
    have : 2 ^ (l + 1) ≤ 2 ^ i := Nat.pow_le_pow_right (by omega) (by omega)
    have := Nat.mul_le_mul_left D this
    rw [pow_succ] at this
    have e : D * (2 ^ l * 2) = 2 * (D * 2 ^ l) := by ring
    omega
  exact Nat.le_antisymm (key _ _ h1 h4) (key _ _ h3 h2)

/-- Division of a padded number by a number with no more digits other than one: with `2 ^ k` the largest power of two for
which divisor · 2^k stays below base^digits, the quotient is the right one if divisor · 2^k does not exceed the
dividend and that of the dividend plus base^(digits+1) otherwise. -/
theorem C62_div_padded {L : Limits} (h : Custom L) {env : Env} (hm : env.Ample) (hd : env.debug = false) {a b : Bignum}
    (hs : Signed a.desc) (hsb : Signed b.desc) (ha : InRange L.base a.digits) (hb : NZ L.base b.digits) (h1 : b.digits ≠ [1])
    (hlen : b.digits.length ≤ a.digits.length) :
    ∃ c k, (∀ fuel, 2 * L.base ^ (a.digits.length + 1) + 1 < fuel → divAssign L env fuel (padded a) (.other b) = .ok c) ∧
      WF L c ∧ c.digits ≠ [] ∧ c.desc = signRule a.desc b.desc ∧
      b.mag L * 2 ^ k < L.base ^ a.digits.length ∧ L.base ^ a.digits.length ≤ b.mag L * 2 ^ (k + 1) ∧
      c.mag L = (if b.mag L * 2 ^ k ≤ a.mag L then a.mag L else a.mag L + L.base ^ (a.digits.length + 1)) / b.mag L := by
  have hB := h.supported.base_ge
  have hlt := lt_pow_of_length hB hb.rng hlen
  have hane : a.digits ≠ [] := by
    intro h0; rw [h0] at hlen; exact hb.ne (List.length_eq_zero_iff.1 (Nat.le_zero.1 hlen))
  have hgt : absGt (a.digits ++ [0]) b.digits = .ok true := by
    rw [absGt_eq]; exact congrArg Except.ok (decide_eq_true (.inl (by simp; omega)))
  have hms := mulSign_signed hs hsb
  have main : ∀ fuel, 2 * L.base ^ (a.digits.length + 1) + 1 < fuel → ∃ q k,
      divAssign L env fuel (padded a) (.other b) = .ok ⟨signRule a.desc b.desc, q⟩ ∧
      natOf L.base b.digits * 2 ^ k < L.base ^ a.digits.length ∧
      L.base ^ a.digits.length ≤ 2 * (natOf L.base b.digits * 2 ^ k) ∧ WFDigits L.base q ∧ q ≠ [] ∧
      natOf L.base q = padVal L.base a.digits (natOf L.base b.digits) k / natOf L.base b.digits := by
    intro fuel hf
    obtain ⟨q, hq, k, k1, k2, k3, k4, k5⟩ := (okOr_absDiv_pad h env hb ha hlt hf).ok hm hd
    refine ⟨q, k, ?_, k1, k2, k3, k4, k5⟩
    rw [divAssign_general (a := padded a) (r := .other b) hs hb.ne_zero h1 (by simp [padded]) (by
      intro h0; rw [show (padded a).digits = a.digits ++ [0] from rfl] at h0
      have := congrArg List.length h0
      simp at this; exact hane this)]
    unfold divTry
    simp only [padded, Rhs.get, hgt, hq, ok_bind, if_true, hms]
    rfl
  obtain ⟨q, k, e, k1, k2, k3, k4, k5⟩ := main _ (Nat.lt_succ_self _)
  refine ⟨⟨signRule a.desc b.desc, q⟩, k, fun fuel hf => ?_, ⟨hms ▸ mulSign_mem _ _, k3⟩, k4, rfl, k1, ?_, k5⟩
  · obtain ⟨q', k', e', j1, j2, j3, j4, j5⟩ := main _ hf
    have := pow_between_unique j1 j2 k1 k2
    subst this
    rw [e', wf_unique hB j3 k3 j4 k4 (j5.trans k5.symm)]
  · rw [pow_succ]
    show _ ≤ natOf L.base b.digits * (2 ^ k * 2)
    have e : natOf L.base b.digits * (2 ^ k * 2) = 2 * (natOf L.base b.digits * 2 ^ k) := by ring
    omega

example : divAssign .base10 releaseEnv 300 (padded ⟨.pos, [5]⟩) (.other ⟨.pos, [2]⟩) = .ok ⟨.pos, [2, 5]⟩ := by decide
example : divAssign .base10 releaseEnv 300 (padded ⟨.pos, [9]⟩) (.other ⟨.pos, [2]⟩) = .ok ⟨.pos, [4]⟩ := by decide

/-- Comparison, subtraction and division all give a wrong answer because of a leading zero. -/
theorem C62_refuted :
    (Bignum.gt (padded ⟨.pos, [5]⟩) ⟨.pos, [7]⟩ = .ok true ∧ Bignum.gt ⟨.pos, [5]⟩ ⟨.pos, [7]⟩ = .ok false) ∧
    (Evaluates (fun n => subAssign .base10 releaseEnv n (padded ⟨.pos, [5]⟩) (.other ⟨.pos, [7]⟩)) (.ok ⟨.pos, [8, 9]⟩) ∧
      Evaluates (fun n => subAssign .base10 releaseEnv n ⟨.pos, [5]⟩ (.other ⟨.pos, [7]⟩)) (.ok ⟨.neg, [2]⟩)) ∧
    (Evaluates (fun n => divAssign .base10 releaseEnv n (padded ⟨.pos, [5]⟩) (.other ⟨.pos, [2]⟩)) (.ok ⟨.pos, [2, 5]⟩) ∧
      Evaluates (fun n => divAssign .base10 releaseEnv n ⟨.pos, [5]⟩ (.other ⟨.pos, [2]⟩)) (.ok ⟨.pos, [2]⟩)) := by
  have hs := fun a c => evaluates_of_mono (c := c) (mono_subAssign .base10 releaseEnv a (.other ⟨.pos, [7]⟩)) (n := 9)
  have hd := fun a c => evaluates_of_mono (c := c) (mono_divAssign .base10 releaseEnv a (.other ⟨.pos, [2]⟩)) (n := 300)
  exact ⟨⟨by decide, by decide⟩, ⟨hs _ _ (by decide), hs _ _ (by decide)⟩, ⟨hd _ _ (by decide), hd _ _ (by decide)⟩⟩

/-- What holds: leading zeros on either side do not change the value of a sum of two numbers of the same sign. -/
theorem C62_add_partial {L : Limits} (h : Supported L) {env : Env} (hm : env.Ample) {a b : Bignum}
    (hs : Signed a.desc) (hsame : b.desc = a.desc) (ha : InRange L.base a.digits) (hb : InRange L.base b.digits) (m n : Nat) :
    ∃ c, Evaluates (fun f => addAssign L env f ⟨a.desc, a.digits ++ List.replicate m 0⟩
        (.other ⟨b.desc, b.digits ++ List.replicate n 0⟩)) (.ok c) ∧ c.toInt L = a.toInt L + b.toInt L := by
  have hB := h.base_ge
  have hz : ∀ k, InRange L.base (List.replicate k 0) := inRange_zeros (by omega)
  have hv := natOf_append_zeros L.base
  refine ⟨_, ⟨_, fun f hf => addAssign_same_ok h hm (a := ⟨a.desc, a.digits ++ List.replicate m 0⟩)
    (r := .other ⟨b.desc, b.digits ++ List.replicate n 0⟩) hs hsame
    (ha.append (hz m)) (hb.append (hz n)) hf⟩, ?_⟩
  have hA := addFull_natOf hB (ha.append (hz m)) (hb.append (hz n)) (Nat.zero_le 1)
  unfold Bignum.toInt Bignum.mag
  simp only [Rhs.get]
  rw [hA, hv, hv, hsame]
  split <;> push_cast <;> ring

example := C62_add_partial (L := .base10) (.inr Sample.base10) Sample.ample (a := Sample.n199) (b := Sample.n23) (.inl rfl) rfl
  (by sample) (by sample) 2 5

/-- What holds: leading zeros on either side change nothing about a product (base 10, at most 2^25 digits together). -/
theorem C62_mul_partial {F : Type} {o : FloatOps F} (M : Ieee o) {env : Env} (hm : env.Ample) {x y : Bignum}
    (hsx : Signed x.desc) (hsy : Signed y.desc) (hx : InRange 10 x.digits) (hy : InRange 10 y.digits) (m n : Nat)
    (h1 : 1 ≤ x.digits.length + y.digits.length) (h2 : x.digits.length + m + (y.digits.length + n) ≤ 2 ^ 25) :
    ∃ z, Evaluates (fun f => mulAssign o .base10 env f x (.other y)) (.ok z) ∧
      Evaluates (fun f => mulAssign o .base10 env f ⟨x.desc, x.digits ++ List.replicate m 0⟩
        (.other ⟨y.desc, y.digits ++ List.replicate n 0⟩)) (.ok z) ∧ z.toInt .base10 = x.toInt .base10 * y.toInt .base10 := by
  have key : ∀ m n, x.digits.length + m + (y.digits.length + n) ≤ 2 ^ 25 → ∃ z, (∀ f, 32 < f →
      mulAssign o .base10 env f ⟨x.desc, x.digits ++ List.replicate m 0⟩
        (.other ⟨y.desc, y.digits ++ List.replicate n 0⟩) = .ok z) ∧ WF .base10 z ∧ NoLeadingZero z.digits ∧
      z.desc = signRule x.desc y.desc ∧ z.toInt .base10 = x.toInt .base10 * y.toInt .base10 := by
    intro m n h2
    obtain ⟨z, z1, z2, z3, z4, z5⟩ := mulAssign_base10 M hm (x := ⟨x.desc, x.digits ++ List.replicate m 0⟩)
      (r := .other ⟨y.desc, y.digits ++ List.replicate n 0⟩) hsx hsy (hx.append (inRange_zeros (by omega) m))
      (hy.append (inRange_zeros (by omega) n)) (by simp [Rhs.get]; omega) (by simp [Rhs.get]; omega)
    refine ⟨z, z1, z2, z3, z4, z5.trans ?_⟩
    simp only [Bignum.toInt, Bignum.mag, Rhs.get, natOf_append_zeros]
  obtain ⟨z, z1, z2, z3, z4, z5⟩ := key m n h2
  obtain ⟨z', y1, y2, y3, y4, y5⟩ := key 0 0 (by omega)
  have hzz : z' = z := by
    obtain ⟨d, l⟩ := z; obtain ⟨d', l'⟩ := z'
    simp only at z4 y4; subst z4 y4
    have he : Bignum.toInt .base10 ⟨signRule x.desc y.desc, l'⟩ = Bignum.toInt .base10 ⟨signRule x.desc y.desc, l⟩ := y5.trans z5.symm
    have : natOf 10 l' = natOf 10 l := by
      unfold Bignum.toInt Bignum.mag at he
      simp only [show Limits.base10.base = 10 from rfl] at he
      split at he <;> omega
    have hl : l' = l := natOf_unique (B := 10) (by omega) y2.2.1 z2.2.1 y3 z3 this
    rw [hl]
  subst hzz
  refine ⟨z', ⟨33, fun f hf => ?_⟩, ⟨33, fun f hf => z1 f (by omega)⟩, z5⟩
  have := y1 f (by omega)
  simpa using this

example : (10 : Nat) ^ 3 ≤ 2 ^ 25 ∧ InRange 10 [7, 3] := ⟨by norm_num, by intro x hx; simp at hx; omega⟩

end BN
