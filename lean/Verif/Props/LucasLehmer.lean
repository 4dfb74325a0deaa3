import Verif.Props.Rsa
import Mathlib.NumberTheory.LucasLehmer
/-
C169: the test of Lucas and Lehmer.
-/
namespace BN
open Bignum

/-- `while (k-- > 0) { s = remainder(s * s + c, m); } return s;` -/
def lucasLoop {F : Type} (o : FloatOps F) (L : Limits) (env : Env) (n : Nat) (c m : Bignum) : Nat → Bignum → Res Bignum
  | 0, s => .ok s
  | k + 1, s => do
    let t ← s.mul o L env n s
    let u ← t.add L env n c
    let r ← remainder o L env n u m
    lucasLoop o L env n c m k r

/-- `c = m - two;` the loop above, `p - 2` times from four; `return s == bignum();` -/
def lucasLehmer {F : Type} (o : FloatOps F) (L : Limits) (env : Env) (n : Nat) (two four m : Bignum) (p : Nat) : Res Bool := do
  let c ← m.sub L env n two
  let s ← lucasLoop o L env n c m (p - 2) four
  s.eq Bignum.default

variable {L : Limits} {env : Env}

/-! ### The sequence -/

/-- The residues of the sequence 4, 14, 194, ... -/
def lucasSeq (m : Nat) : Nat → Nat
  | 0 => 4
  | i + 1 => (lucasSeq m i * lucasSeq m i + (m - 2)) % m

theorem lucasSeq_lt {m : Nat} (hm : 7 ≤ m) (i : Nat) : lucasSeq m i < m := by
  cases i with
  | zero => show 4 < m; omega
  | succ i => exact Nat.mod_lt _ (by omega)

/-- After a zero there is never another one. -/
theorem lucasSeq_after {m i : Nat} (hm : 7 ≤ m) (h : lucasSeq m i = 0) : ∀ j, lucasSeq m (i + 1 + j) = m - 2 ∨ lucasSeq m (i + 1 + j) = 2
  | 0 => .inl (by
      show (lucasSeq m i * lucasSeq m i + (m - 2)) % m = _
      rw [h, Nat.zero_mul, Nat.zero_add, Nat.mod_eq_of_lt (by omega)])
  | j + 1 => .inr (by
      show (lucasSeq m (i + 1 + j) * lucasSeq m (i + 1 + j) + (m - 2)) % m = _
      obtain ⟨t, rfl⟩ : ∃ t, m = t + 7 := ⟨m - 7, by omega⟩
      rcases lucasSeq_after hm h j with e | e <;> rw [e]
      · rw [show (t + 7 - 2) * (t + 7 - 2) + (t + 7 - 2) = 2 + (t + 7) * (t + 4) by
          rw [show t + 7 - 2 = t + 5 by omega]; ring, Nat.add_mul_mod_self_left, Nat.mod_eq_of_lt (by omega)]
      · rw [show 2 * 2 + (t + 7 - 2) = 2 + (t + 7) by omega, Nat.add_mod_right, Nat.mod_eq_of_lt (by omega)])

theorem mersenne_ge {p : Nat} (h : 3 ≤ p) : 7 ≤ 2 ^ p - 1 := by
  have : 2 ^ 3 ≤ 2 ^ p := Nat.pow_le_pow_right (by omega) h
  omega

theorem lucasSeq_sMod {p : Nat} (h : 3 ≤ p) : ∀ i, (lucasSeq (2 ^ p - 1) i : Int) = LucasLehmer.sMod p i := by
  have hm := mersenne_ge h
  have hc : ((2 ^ p - 1 : Nat) : Int) = 2 ^ p - 1 := by push_cast [Nat.one_le_two_pow]; rfl
  intro i
  induction i with
  | zero =>
    show (4 : Int) = 4 % (2 ^ p - 1)
    rw [Int.emod_eq_of_lt (by omega) (by omega)]
  | succ i ih =>
    show (((lucasSeq (2 ^ p - 1) i * lucasSeq (2 ^ p - 1) i + (2 ^ p - 1 - 2)) % (2 ^ p - 1) : Nat) : Int) = (LucasLehmer.sMod p i ^ 2 - 2) % (2 ^ p - 1)
    rw [← ih, Int.natCast_mod, ← hc, ← Int.add_emod_right (_ - 2)]
    congr 1
    generalize 2 ^ p - 1 = m at *
    push_cast [show 2 ≤ m by omega]
    ring

/-- Lucas and Lehmer: the last residue is zero exactly for the primes. -/
theorem lucasSeq_prime {p : Nat} (h : 3 ≤ p) : lucasSeq (2 ^ p - 1) (p - 2) = 0 ↔ (2 ^ p - 1).Prime := by
  have : lucasSeq (2 ^ p - 1) (p - 2) = 0 ↔ LucasLehmer.LucasLehmerTest p := by
    rw [LucasLehmer.LucasLehmerTest, LucasLehmer.residue_eq_zero_iff_sMod_eq_zero p (by omega), ← lucasSeq_sMod h]
    exact_mod_cast Iff.rfl
  rw [this]
  exact ⟨lucas_lehmer_sufficiency p (by omega), lucas_lehmer_necessity p h⟩

section
variable {F : Type} {o : FloatOps F} (M : Ieee o) {K : Nat} (hp : Preset L K) (hm : env.Ample) (hd : env.debug = false)
include M hp hm hd

theorem lucasLoop_run {m : Nat} (h7 : 7 ≤ m) (hK : 3 * (numeral L .pos m).digits.length ≤ K) {n : Nat} (hn : (m * m).size + 33 ≤ n) : ∀ k i,
    (∀ j, j < k → lucasSeq m (i + j) ≠ 0) → lucasLoop o L env n (numeral L .pos (m - 2)) (numeral L .pos m) k (numeral L .pos (lucasSeq m i)) =
      .ok (numeral L .pos (lucasSeq m (i + k)))
  | 0, _, _ => rfl
  | k + 1, i, hz => by
    have hB := hp.custom.supported.base_ge
    have hs := lucasSeq_lt h7 i
    have hs0 := hz 0 (by omega)
    have ih := lucasLoop_run h7 hK hn k (i + 1) fun j hj => by have := hz (j + 1) (by omega); rwa [show i + 1 + j = i + (j + 1) by omega]
    rw [show i + 1 + k = i + (k + 1) by omega] at ih
    rw [lucasSeq] at ih
    rw [Nat.add_zero] at hs0
    generalize lucasSeq m i = s at *
    have hss : s * s + (m - 2) ≤ m * m := by nlinarith [Nat.sub_le m 2]
    have hne : s * s + (m - 2) ≠ m := fun h => by
      have h2 : s * s = 2 := by omega
      have : s < 2 := by nlinarith
      interval_cases s <;> omega
    have l1 := length_numeral_mono (L := L) hB hs.le
    have l2 := length_numeral_mono (L := L) hB hss
    have l3 := length_numeral_mul (L := L) hB m m
    have z1 := Nat.size_le_size hss
    have z2 := Nat.size_le_size (show s * s ≤ m * m by omega)
    have z3 := Nat.size_le_size (show m - 2 ≤ m * m by nlinarith [Nat.sub_le m 2])
    rw [lucasLoop, pos_mul M hp hm (.inl hs0) (by omega) (by omega), ok_bind, add_numerals hp.custom.supported hm (by omega) (by omega), ok_bind,
      pos_rem M hp hm hd (by omega) (by omega) (.inl hne) (by omega) (by omega), ok_bind, ih]

theorem lucasLoop_stuck {m : Nat} (h7 : 7 ≤ m) (hK : 3 * (numeral L .pos m).digits.length ≤ K) {n : Nat} (hn : (m * m).size + 33 ≤ n) : ∀ k i j, j < k →
    lucasSeq m (i + j) = 0 → (∀ l, l < j → lucasSeq m (i + l) ≠ 0) →
    lucasLoop o L env n (numeral L .pos (m - 2)) (numeral L .pos m) k (numeral L .pos (lucasSeq m i)) = .error .timeout
  | 0, _, _, h, _, _ => by omega
  | k + 1, i, 0, _, h0, _ => by
    rw [Nat.add_zero] at h0
    rw [h0, lucasLoop, zero_sq o L hm]
    rfl
  | k + 1, i, j + 1, hj, h0, hz => by
    have h1 := lucasLoop_run M hp hm hd h7 hK hn 1 i fun l hl => hz l (by omega)
    have ih := lucasLoop_stuck h7 hK hn k (i + 1) j (by omega) (by rwa [show i + 1 + j = i + (j + 1) by omega])
      fun l hl => by have := hz (l + 1) (by omega); rwa [show i + 1 + l = i + (l + 1) by omega]
    rw [lucasLoop] at h1 ⊢
    cases e1 : (numeral L .pos (lucasSeq m i)).mul o L env n (numeral L .pos (lucasSeq m i)) with
    | error e => rw [e1] at h1; cases h1
    | ok t =>
      rw [e1, ok_bind] at h1
      rw [ok_bind]
      cases e2 : t.add L env n (numeral L .pos (m - 2)) with
      | error e => rw [e2] at h1; cases h1
      | ok u =>
        rw [e2, ok_bind] at h1
        rw [ok_bind]
        cases e3 : remainder o L env n u (numeral L .pos m) with
        | error e => rw [e3] at h1; cases h1
        | ok r =>
          rw [e3, ok_bind, lucasLoop] at h1
          rw [ok_bind, Except.ok.inj h1, ih]

/-- The test says yes exactly for the primes among the Mersenne numbers. For the others it says no, unless
one of the numbers 4, 14, 194, ... before the last is a multiple of the modulus: then it never ends. -/
theorem C169_mersenne {p : Nat} (h3 : 3 ≤ p) {two four m : Bignum} (h2w : WF L two) (h2 : two.toInt L = 2) (h4w : WF L four) (h4 : four.toInt L = 4)
    (hmw : WF L m) (hmv : m.toInt L = 2 ^ p - 1) (hK : 3 * m.size ≤ K) :
    ((2 ^ p - 1).Prime → Evaluates (fun n => lucasLehmer o L env n two four m p) (.ok true)) ∧
    (¬ (2 ^ p - 1).Prime → (∀ j, j < p - 2 → LucasLehmer.sMod p j ≠ 0) → Evaluates (fun n => lucasLehmer o L env n two four m p) (.ok false)) ∧
    ((∃ j, j < p - 2 ∧ LucasLehmer.sMod p j = 0) → Evaluates (fun n => lucasLehmer o L env n two four m p) (.error .timeout)) := by
  have hB := hp.custom.supported.base_ge
  have h7 := mersenne_ge h3
  have hpr := lucasSeq_prime h3
  have hsm : ∀ j, LucasLehmer.sMod p j = 0 ↔ lucasSeq (2 ^ p - 1) (0 + j) = 0 := fun j => by
    rw [← lucasSeq_sMod h3, Nat.zero_add]; exact_mod_cast Iff.rfl
  have hc : ((2 ^ p - 1 : Nat) : Int) = 2 ^ p - 1 := by push_cast [Nat.one_le_two_pow]; rfl
  have e2 := eq_pos hB h2w (by omega)
  have e4 := eq_pos hB h4w (by omega)
  have em := eq_pos hB hmw (by omega)
  rw [h2, show ((2 : Int)).toNat = 2 from rfl] at e2
  rw [h4, show ((4 : Int)).toNat = 4 from rfl] at e4
  rw [hmv, ← hc, Int.toNat_natCast] at em
  simp only [ne_eq, hsm]
  clear h2 h4 hmv hsm hc h2w h4w hmw
  generalize 2 ^ p - 1 = P at *
  subst e2 e4 em
  change 3 * (numeral L .pos P).digits.length ≤ K at hK
  have z : P.size ≤ (P * P).size := Nat.size_le_size (by nlinarith)
  have start : ∀ n, (P * P).size + 33 ≤ n → lucasLehmer o L env n (numeral L .pos 2) (numeral L .pos 4) (numeral L .pos P) p =
      lucasLoop o L env n (numeral L .pos (P - 2)) (numeral L .pos P) (p - 2) (numeral L .pos (lucasSeq P 0)) >>= fun s => s.eq Bignum.default := fun n hn => by
    rw [lucasLehmer, sub_numerals hp.custom.supported hm hd (by omega) (by omega) (by omega), ok_bind]
    rfl
  by_cases hz : ∀ j, j < p - 2 → lucasSeq P (0 + j) ≠ 0
  · have fin : Evaluates (fun n => lucasLehmer o L env n (numeral L .pos 2) (numeral L .pos 4) (numeral L .pos P) p) (.ok (decide (lucasSeq P (p - 2) = 0))) :=
      ⟨(P * P).size + 33, fun n hn => by
        beta_reduce
        rw [start n hn, lucasLoop_run M hp hm hd h7 hK hn (p - 2) 0 hz, ok_bind, pos_eq_default, Nat.zero_add]⟩
    refine ⟨fun h => ?_, fun h _ => ?_, fun ⟨j, hj, h⟩ => absurd h (hz j hj)⟩
    · rw [← hpr] at h; simpa [h] using fin
    · rw [← hpr] at h; simpa [h] using fin
  · have hex : ∃ j, j < p - 2 ∧ lucasSeq P (0 + j) = 0 := by
      simpa using hz
    have hj := Nat.find_spec hex
    have hmin : ∀ l, l < Nat.find hex → lucasSeq P (0 + l) ≠ 0 := fun l hl h => Nat.find_min hex hl ⟨by omega, h⟩
    refine ⟨fun h => ?_, fun _ h => absurd h hz, fun _ => ⟨(P * P).size + 33, fun n hn => ?_⟩⟩
    · exfalso
      have ha := lucasSeq_after h7 hj.2 (p - 2 - (Nat.find hex + 1))
      rw [show 0 + Nat.find hex + 1 + (p - 2 - (Nat.find hex + 1)) = p - 2 by have := hj.1; omega, hpr.2 h] at ha
      omega
    · beta_reduce
      rw [start n hn, lucasLoop_stuck M hp hm hd h7 hK hn (p - 2) 0 _ hj.1 hj.2 hmin]
      rfl

end

/-- 2 ^ 7 - 1 = 127 is prime -/
example {F : Type} {o : FloatOps F} (M : Ieee o) := C169_mersenne M .base10 Sample.ample rfl (p := 7) (two := ⟨.pos, [2]⟩) (four := ⟨.pos, [4]⟩)
  (m := ⟨.pos, [7, 2, 1]⟩) (by omega) (by sample) (by sample) (by sample) (by sample) (by sample) (by sample) (by sample)

/-- 2 ^ 11 - 1 = 2047 = 23 * 89 is not prime, and no residue on the way is zero -/
example {F : Type} {o : FloatOps F} (M : Ieee o) : Evaluates (fun n => lucasLehmer o .base10 releaseEnv n ⟨.pos, [2]⟩ ⟨.pos, [4]⟩ ⟨.pos, [7, 4, 0, 2]⟩ 11)
    (.ok false) :=
  (C169_mersenne M .base10 Sample.ample rfl (p := 11) (two := ⟨.pos, [2]⟩) (four := ⟨.pos, [4]⟩)
    (m := ⟨.pos, [7, 4, 0, 2]⟩) (by omega) (by sample) (by sample) (by sample) (by sample) (by sample) (by sample) (by sample)).2.1
    (by decide +kernel) (by decide +kernel)

end BN
