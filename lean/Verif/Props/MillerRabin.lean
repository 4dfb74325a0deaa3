import Verif.Props.Rsa
import Mathlib.Data.Nat.Squarefree
import Mathlib.Tactic.NormNum.Prime
import Mathlib.Tactic.IntervalCases
/-
C164: the test of Miller and Rabin.
-/
namespace BN
open Bignum

/-- `while (d % two == bignum()) { d = d / two; ++s; }`, with `d % two` written as `d - d / two * two` -/
def halvings {F : Type} (o : FloatOps F) (L : Limits) (env : Env) (n : Nat) (two d : Bignum) : Res (Bignum × Nat) :=
  loopWhile (fun t => remainder o L env n t.1 two >>= fun r => r.eq Bignum.default)
    (fun t => t.1.div L env n two >>= fun q => .ok (q, t.2 + 1)) n (d, 0)

/-- `for (i = 1; i < s; ++i) { x = x * x % m; if (x == m1) return true; } return false;` -/
def squarings {F : Type} (o : FloatOps F) (L : Limits) (env : Env) (n : Nat) (m m1 : Bignum) : Nat → Bignum → Res Bool
  | 0, _ => .ok false
  | i + 1, x => do
    let p ← x.mul o L env n x
    let y ← remainder o L env n p m
    if ← y.eq m1 then .ok true else squarings o L env n m m1 i y

/-- `one = {1}; two = one + one; m1 = m - one; [d, s] = halvings(m1); x = powBig(a, d, m); if (x == one || x == m1) return true;` and the loop -/
def millerRabin {F : Type} (o : FloatOps F) (L : Limits) (env : Env) (n : Nat) (a m : Bignum) : Res Bool := do
  let one ← ofList env .pos [1]
  let two ← one.add L env n one
  let m1 ← m.sub L env n one
  let t ← halvings o L env n two m1
  let x ← powBig o L env n a t.1 m
  if ← x.eq one then .ok true
  else if ← x.eq m1 then .ok true
  else squarings o L env n m m1 (t.2 - 1) x

/-- The textbook's test: `m - 1 = 2 ^ s * d` with an odd `d`, and `a ^ d` is one or one of its `s` first squares is minus one. -/
def StrongProbable (a m : Nat) : Prop :=
  ∃ s d, m - 1 = 2 ^ s * d ∧ d % 2 = 1 ∧ (a ^ d ≡ 1 [MOD m] ∨ ∃ i < s, a ^ (2 ^ i * d) ≡ m - 1 [MOD m])

variable {L : Limits} {env : Env}

theorem pos_eq_pos (hB : 2 ≤ L.base) (u v : Nat) : (numeral L .pos u).eq (numeral L .pos v) = .ok (decide (u = v)) := by
  rw [C02_eq_iff_value L _ _ ⟨digits_inRange hB _, digits_nlz _ _⟩ ⟨digits_inRange hB _, digits_nlz _ _⟩, numeral_mag, numeral_mag]
  simp [numeral]

theorem sqfree_pow {N u k : Nat} (hN : Squarefree N) (h0 : 0 < u) (h1 : u < N) : ¬ N ∣ u ^ k := fun h => by
  by_cases hk : k = 0
  · rw [hk, pow_zero] at h
    have := Nat.le_of_dvd one_pos h
    omega
  · have := Nat.le_of_dvd h0 ((hN.dvd_pow_iff_dvd hk).1 h)
    omega

theorem coprime_pow {N u k : Nat} (hN : 2 ≤ N) (h : u.Coprime N) : ¬ N ∣ u ^ k := fun hk => by
  have := Nat.Coprime.eq_one_of_dvd (h.symm.pow_right k) hk
  omega

section
variable {F : Type} {o : FloatOps F} (M : Ieee o) {K : Nat} (hp : Preset L K) (hm : env.Ample) (hd : env.debug = false)
include M hp hm hd

theorem halvings_loop {N : Nat} (h2 : 2 ≤ N) (hK : 3 * (numeral L .pos N).digits.length ≤ K) : ∀ t, 1 ≤ t → t ≤ N →
    ∃ s d, t = 2 ^ s * d ∧ (d % 2 = 1 ∨ d = 2) ∧ (d = 1 → s = 0) ∧ ∀ c n fuel, N.size + 33 ≤ n → t < fuel →
      loopWhile (fun t => remainder o L env n t.1 (numeral L .pos 2) >>= fun r => r.eq Bignum.default)
        (fun t => t.1.div L env n (numeral L .pos 2) >>= fun q => .ok (q, t.2 + 1)) fuel (numeral L .pos t, c) = .ok (numeral L .pos d, c + s) := by
  have hB := hp.custom.supported.base_ge
  intro t
  induction t using Nat.strong_induction_on with
  | _ t ih =>
    intro t1 tN
    have l1 := length_numeral_mono (L := L) hB tN
    have l2 := length_numeral_mono (L := L) hB h2
    have hs := Nat.size_le_size tN
    by_cases ht : t % 2 = 0 ∧ t ≠ 2
    · obtain ⟨s, d, e1, e2, e4, e3⟩ := ih (t / 2) (by omega) (by omega) (by omega)
      refine ⟨s + 1, d, by rw [pow_succ, Nat.mul_right_comm, ← e1]; omega, e2, fun h => ?_, fun c n fuel hn hf => ?_⟩
      · rw [h, e4 h] at e1
        omega
      obtain ⟨fuel, rfl⟩ : ∃ k, fuel = k + 1 := ⟨fuel - 1, by omega⟩
      rw [loopWhile]
      simp only
      rw [pos_rem M hp hm hd (by omega) (by omega) (.inl ht.2) (by omega) (by omega), ok_bind, pos_eq_default, ok_bind,
        if_pos (by simpa using ht.1), div_num hp.custom hm hd (by omega) (by omega) (by omega)]
      simp only [ok_bind]
      rw [e3 (c + 1) n fuel hn (by omega), Nat.add_right_comm, Nat.add_assoc]
    · refine ⟨0, t, by simp, by omega, fun _ => rfl, fun c n fuel hn hf => ?_⟩
      obtain ⟨fuel, rfl⟩ : ∃ k, fuel = k + 1 := ⟨fuel - 1, by omega⟩
      rw [loopWhile]
      simp only
      rw [pos_rem_all M hp hm hd (by omega) le_rfl (by omega) (by omega), ok_bind, pos_eq_default, ok_bind, if_neg]
      · rfl
      · rw [decide_eq_true_iff]
        split <;> omega

theorem squarings_loop {N : Nat} (h2 : 2 ≤ N) (hK : 3 * (numeral L .pos N).digits.length ≤ K) {n : Nat}
    (hn : (N * N).size + 33 ≤ n) : ∀ i u, (∀ k, ¬ N ∣ u ^ k) → u < N →
    ∃ b, squarings o L env n (numeral L .pos N) (numeral L .pos (N - 1)) i (numeral L .pos u) = .ok b ∧
      (b = true ↔ ∃ j, 1 ≤ j ∧ j ≤ i ∧ u ^ 2 ^ j ≡ N - 1 [MOD N])
  | 0, u, _, _ => ⟨false, rfl, by
      simp only [Bool.false_eq_true, false_iff, not_exists]
      omega⟩
  | i + 1, u, hu, u1 => by
    have hB := hp.custom.supported.base_ge
    have u0 : 0 < u := Nat.pos_of_ne_zero fun h => hu 1 (by rw [h]; simp)
    have l1 := length_numeral_mono (L := L) hB u1.le
    have l2 := length_numeral_mul (L := L) hB u u
    have hs := Nat.size_le_size (Nat.mul_le_mul u1.le u1.le)
    have hnd : ¬ N ∣ u * u := by have := hu 2; rwa [pow_two] at this
    have v1 : u * u % N < N := Nat.mod_lt _ (by omega)
    have hv : ∀ k, ¬ N ∣ (u * u % N) ^ k := fun k h => hu (2 * k) (by
      have e := (Nat.mod_modEq (u * u) N).pow k
      rw [← pow_two, ← pow_mul] at e
      exact (Nat.modEq_zero_iff_dvd).1 (e.symm.trans (Nat.modEq_zero_iff_dvd.2 (by rw [pow_two]; exact h))))
    have hmod : u * u % N = N - 1 ↔ u ^ 2 ^ 1 ≡ N - 1 [MOD N] := by
      rw [pow_one, pow_two, Nat.ModEq, Nat.mod_eq_of_lt (by omega : N - 1 < N)]
    rw [squarings, pos_mul M hp hm (.inl (by omega)) (by omega) (by omega), ok_bind,
      pos_rem M hp hm hd (Nat.mul_ne_zero (by omega) (by omega)) (by omega) (.inl fun h => hnd (by rw [h])) (by omega) (by omega), ok_bind,
      pos_eq_pos hB, ok_bind]
    by_cases h : u * u % N = N - 1
    · rw [if_pos (by simpa using h)]
      exact ⟨true, rfl, by simpa using ⟨1, le_rfl, by omega, hmod.1 h⟩⟩
    · rw [if_neg (by simpa using h)]
      obtain ⟨b, b1, b2⟩ := squarings_loop h2 hK hn i _ hv v1
      refine ⟨b, b1, b2.trans ?_⟩
      have key : ∀ j, (u * u % N) ^ 2 ^ j ≡ u ^ 2 ^ (j + 1) [MOD N] := fun j => by
        refine ((Nat.mod_modEq _ _).pow _).trans ?_
        rw [← pow_two, ← pow_mul, pow_succ, Nat.mul_comm]
      constructor
      · rintro ⟨j, j1, j2, j3⟩
        exact ⟨j + 1, by omega, by omega, (key j).symm.trans j3⟩
      · rintro ⟨j, j1, j2, j3⟩
        obtain ⟨k, rfl⟩ : ∃ k, j = k + 1 := ⟨j - 1, by omega⟩
        have hk : k ≠ 0 := fun hk => by subst hk; exact h (hmod.2 j3)
        exact ⟨k, by omega, by omega, (key k).trans j3⟩

theorem millerRabin_eval {N u : Nat} (hN : ∀ k, ¬ N ∣ u ^ k) (h2 : 2 ≤ N) (u0 : 0 < u) (u1 : u < N) (hK : 3 * (numeral L .pos N).digits.length ≤ K) :
    ∃ s d b, N - 1 = 2 ^ s * d ∧ (d % 2 = 1 ∨ d = 2) ∧ (d = 1 → s = 0) ∧
      Evaluates (fun n => millerRabin o L env n (numeral L .pos u) (numeral L .pos N)) (.ok b) ∧
      (b = true ↔ u ^ d ≡ 1 [MOD N] ∨ ∃ i < max s 1, u ^ (2 ^ i * d) ≡ N - 1 [MOD N]) := by
  have hB := hp.custom.supported.base_ge
  have ti : ∀ a : Nat, (numeral L .pos a).toInt L = a := fun a => by rw [toInt_of_pos rfl, numeral_mag]
  obtain ⟨s, d, e1, e2, e4, e3⟩ := halvings_loop M hp hm hd h2 hK (N - 1) (by omega) (by omega)
  have hl := length_numeral_mono (L := L) hB u1.le
  have hnd : ¬ N ∣ u ^ d := hN d
  obtain ⟨r, r1, r2, r3⟩ := C160_power M hp hm hd (x := numeral L .pos u) (e := numeral L .pos d) (m := numeral L .pos N) (numeral_wf hB (.inl rfl) _)
    (by rw [ti]; exact_mod_cast u0) (by rw [ti]; omega) (numeral_wf hB (.inl rfl) _) (by rw [ti]; exact_mod_cast h2)
    (fun h => by
      rw [ti, ti, ti, Int.toNat_natCast] at h
      exact hnd (Int.natCast_dvd_natCast.1 (by exact_mod_cast h))) hK
    (by change (numeral L .pos u).digits.length + (numeral L .pos N).digits.length ≤ K; omega)
  rw [ti, ti, ti, Int.toNat_natCast] at r3
  have r4 : r.toInt L = (u ^ d % N : Nat) := by rw [r3]; push_cast; rfl
  have x0 : 0 < u ^ d % N := Nat.pos_of_ne_zero fun h => hnd (Nat.dvd_of_mod_eq_zero h)
  have x1 : u ^ d % N < N := Nat.mod_lt _ (by omega)
  have hx : ∀ k, ¬ N ∣ (u ^ d % N) ^ k := fun k h => hN (d * k) (by
    have e := (Nat.mod_modEq (u ^ d) N).pow k
    rw [← pow_mul] at e
    exact (Nat.modEq_zero_iff_dvd).1 (e.symm.trans (Nat.modEq_zero_iff_dvd.2 h)))
  have er := eq_pos hB r2 (by rw [r4]; exact_mod_cast x0)
  rw [r4, Int.toNat_natCast] at er
  subst er
  have m1 : u ^ d % N = 1 ↔ u ^ d ≡ 1 [MOD N] := by rw [Nat.ModEq, Nat.mod_eq_of_lt (by omega : 1 < N)]
  have m2 : u ^ d % N = N - 1 ↔ u ^ d ≡ N - 1 [MOD N] := by rw [Nat.ModEq, Nat.mod_eq_of_lt (by omega : N - 1 < N)]
  have key : ∀ j, (u ^ d % N) ^ 2 ^ j ≡ u ^ (2 ^ j * d) [MOD N] := fun j => by
    refine ((Nat.mod_modEq _ _).pow _).trans ?_
    rw [← pow_mul, Nat.mul_comm]
  have start : ∀ {g : Nat → Bignum × Nat → Res Bool} {b : Res Bool}, Evaluates (fun n => g n (numeral L .pos d, s)) b →
      Evaluates (fun n => halvings o L env n (numeral L .pos 2) (numeral L .pos (N - 1)) >>= g n) b := fun h =>
    Evaluates.bind ⟨max (N.size + 33) N, fun n hn => by
      have := e3 0 n n (by omega) (by omega)
      rw [Nat.zero_add] at this
      exact this⟩ h
  have run : ∀ {b : Res Bool}, Evaluates (fun n => if u ^ d % N = 1 then (.ok true : Res Bool) else if u ^ d % N = N - 1 then .ok true else
      squarings o L env n (numeral L .pos N) (numeral L .pos (N - 1)) (s - 1) (numeral L .pos (u ^ d % N))) b →
      Evaluates (fun n => millerRabin o L env n (numeral L .pos u) (numeral L .pos N)) b := fun {b} h => by
    have h3 := r1.bind (g := fun n x => do
      if ← x.eq (numeral L .pos 1) then .ok true
      else if ← x.eq (numeral L .pos (N - 1)) then .ok true
      else squarings o L env n (numeral L .pos N) (numeral L .pos (N - 1)) (s - 1) x) (r := b) (by
        simpa only [pos_eq_pos hB, ok_bind, decide_eq_true_iff] using h)
    have h4 := start (g := fun n t => do
      let x ← powBig o L env n (numeral L .pos u) t.1 (numeral L .pos N)
      if ← x.eq (numeral L .pos 1) then .ok true
      else if ← x.eq (numeral L .pos (N - 1)) then .ok true
      else squarings o L env n (numeral L .pos N) (numeral L .pos (N - 1)) (t.2 - 1) x) h3
    obtain ⟨n0, h5⟩ := h4
    refine ⟨max n0 (N.size + 33), fun n hn => ?_⟩
    have h6 := h5 n (by omega)
    have z1 : Nat.size 1 = 1 := Nat.size_one
    simp only [millerRabin]
    rw [ofList_numeral hB hm .pos (by simp; omega), show List.foldl (fun acc x => acc * L.base + x) 0 [1] = 1 by simp, ok_bind,
      add_numerals hp.custom.supported hm (by omega) (by omega), ok_bind,
      sub_numerals hp.custom.supported hm hd (by omega) (by omega) (by omega), ok_bind]
    exact h6
  by_cases c1 : u ^ d % N = 1
  · refine ⟨s, d, true, e1, e2, e4, run (by simp only [if_pos c1]; exact evaluates_const _), by simpa using .inl (m1.1 c1)⟩
  by_cases c2 : u ^ d % N = N - 1
  · refine ⟨s, d, true, e1, e2, e4, run (by simp only [if_neg c1, if_pos c2]; exact evaluates_const _), ?_⟩
    simp only [true_iff]
    exact .inr ⟨0, by omega, by simpa using m2.1 c2⟩
  obtain ⟨b, -, b2⟩ := squarings_loop M hp hm hd h2 hK (n := (N * N).size + 33) le_rfl (s - 1) _ hx x1
  refine ⟨s, d, b, e1, e2, e4, run ⟨(N * N).size + 33, fun n hn => ?_⟩, ?_⟩
  · simp only [if_neg c1, if_neg c2]
    obtain ⟨b', b1', b2'⟩ := squarings_loop M hp hm hd h2 hK hn (s - 1) _ hx x1
    rw [b1', Bool.eq_iff_iff.2 (b2'.trans b2.symm)]
  · rw [b2]
    constructor
    · rintro ⟨j, j1, j2, j3⟩
      exact .inr ⟨j, by omega, (key j).symm.trans j3⟩
    · rintro (h | ⟨i, i1, i2⟩)
      · exact absurd (m1.2 h) c1
      · by_cases hi : i = 0
        · subst hi
          exact absurd (m2.2 (by simpa using i2)) c2
        · exact ⟨i, by omega, by omega, (key i).trans i2⟩

end

/-! ### Number theory -/

theorem odd_part_unique {s t d e : Nat} (h : 2 ^ s * d = 2 ^ t * e) (hd : d % 2 = 1) (he : e % 2 = 1) : s = t ∧ d = e := by
  have aux : ∀ {s t d e : Nat}, 2 ^ s * d = 2 ^ t * e → d % 2 = 1 → s ≤ t → s = t ∧ d = e := fun {s t d e} h hd hst => by
    obtain ⟨k, rfl⟩ := Nat.exists_eq_add_of_le hst
    rw [pow_add, Nat.mul_assoc] at h
    have h := Nat.eq_of_mul_eq_mul_left (Nat.two_pow_pos s) h
    rcases k with _ | k
    · exact ⟨rfl, by simpa using h⟩
    · rw [pow_succ] at h
      have : d = 2 * (2 ^ k * e) := by rw [h]; ring
      omega
  rcases Nat.le_total s t with hst | hst
  · exact aux h hd hst
  · obtain ⟨a, b⟩ := aux h.symm he hst
    exact ⟨a.symm, b.symm⟩

theorem neg_one_sq {N a : Nat} (h1 : 1 ≤ N) (h : a ≡ N - 1 [MOD N]) : a ^ 2 ≡ 1 [MOD N] := by
  have h2 := h.pow 2
  refine h2.trans ?_
  rw [← Int.natCast_modEq_iff, Int.modEq_iff_dvd]
  push_cast [h1]
  exact ⟨2 - N, by ring⟩

theorem root_of_one {N : Nat} (hN : N.Prime) {a d : Nat} : ∀ s, a ^ (2 ^ s * d) ≡ 1 [MOD N] → a ^ d ≡ 1 [MOD N] ∨ ∃ i < s, a ^ (2 ^ i * d) ≡ N - 1 [MOD N]
  | 0, h => .inl (by simpa using h)
  | s + 1, h => by
    have := Fact.mk hN
    have h1 : ((a : ZMod N) ^ (2 ^ s * d)) * ((a : ZMod N) ^ (2 ^ s * d)) = 1 := by
      have := (ZMod.natCast_eq_natCast_iff _ _ _).2 h
      push_cast at this
      rw [← this]; ring
    rcases mul_self_eq_one_iff.1 h1 with h2 | h2
    · rcases root_of_one hN s ((ZMod.natCast_eq_natCast_iff _ _ _).1 (by push_cast; exact h2)) with h3 | ⟨i, i1, i2⟩
      · exact .inl h3
      · exact .inr ⟨i, by omega, i2⟩
    · refine .inr ⟨s, by omega, (ZMod.natCast_eq_natCast_iff _ _ _).1 ?_⟩
      push_cast [hN.one_le]
      rw [h2]; simp

section
variable {F : Type} {o : FloatOps F} (M : Ieee o) {K : Nat} (hp : Preset L K) (hm : env.Ample) (hd : env.debug = false)
include M hp hm hd

/-- No prime is rejected, whatever the base. -/
theorem C164_prime {a m : Bignum} (ha : WF L a) (hmw : WF L m) (ha0 : 0 < a.toInt L) (ham : a.toInt L < m.toInt L) (hN : (m.toInt L).toNat.Prime)
    (hK : 3 * m.size ≤ K) : Evaluates (fun n => millerRabin o L env n a m) (.ok true) := by
  have hB := hp.custom.supported.base_ge
  have ea := eq_pos hB ha ha0
  have em := eq_pos hB hmw (by omega)
  have hlt : (a.toInt L).toNat < (m.toInt L).toNat := by omega
  have h0 : 0 < (a.toInt L).toNat := by omega
  generalize (a.toInt L).toNat = u at *
  generalize (m.toInt L).toNat = N at *
  subst ea em
  have := Fact.mk hN
  obtain ⟨s, d, b, e1, -, -, e2, e3⟩ := millerRabin_eval M hp hm hd (fun k h => by
    have := Nat.le_of_dvd h0 (hN.dvd_of_dvd_pow h); omega) hN.two_le h0 hlt hK
  have hb : b = true := e3.2 (by
    have hu : (u : ZMod N) ≠ 0 := fun h => by
      have := Nat.le_of_dvd h0 ((ZMod.natCast_eq_zero_iff _ _).1 h); omega
    have hf : u ^ (2 ^ s * d) ≡ 1 [MOD N] := by
      rw [← e1, ← ZMod.natCast_eq_natCast_iff]
      push_cast
      exact ZMod.pow_card_sub_one_eq_one hu
    rcases root_of_one hN s hf with h | ⟨i, i1, i2⟩
    · exact .inl h
    · exact .inr ⟨i, by omega, i2⟩)
  rw [← hb]; exact e2

/-- What is rejected is not prime. -/
theorem C164_rejected {a m : Bignum} (ha : WF L a) (hmw : WF L m) (ha0 : 0 < a.toInt L) (ham : a.toInt L < m.toInt L) (hK : 3 * m.size ≤ K)
    (h : Evaluates (fun n => millerRabin o L env n a m) (.ok false)) : ¬ (m.toInt L).toNat.Prime := fun hN => by
  obtain ⟨n1, h1⟩ := h
  obtain ⟨n2, h2⟩ := C164_prime M hp hm hd ha hmw ha0 ham hN hK
  have := (h1 (max n1 n2) (by omega)).symm.trans (h2 (max n1 n2) (by omega))
  simp at this

/-- The answer is the textbook's, except that every square root of one is accepted if m is one more than a power of two. Missing are bases some power of
which is a multiple of m, for which a remainder on the way may be zero (C96). There are none for square-free m, and none that are coprime to m. -/
theorem C164_textbook_partial {a m : Bignum} (ha : WF L a) (hmw : WF L m) (ha0 : 0 < a.toInt L) (ham : a.toInt L < m.toInt L)
    (hN : ∀ k : Nat, ¬ m.toInt L ∣ a.toInt L ^ k) (hodd : m.toInt L % 2 = 1) (hK : 3 * m.size ≤ K) :
    ∃ b, Evaluates (fun n => millerRabin o L env n a m) (.ok b) ∧ (b = true ↔ StrongProbable (a.toInt L).toNat (m.toInt L).toNat ∨
      (∃ k, (m.toInt L).toNat = 2 ^ k + 1) ∧ (a.toInt L).toNat ^ 2 ≡ 1 [MOD (m.toInt L).toNat]) := by
  have hB := hp.custom.supported.base_ge
  have ea := eq_pos hB ha ha0
  have em := eq_pos hB hmw (by omega)
  have hlt : (a.toInt L).toNat < (m.toInt L).toNat := by omega
  have h0 : 0 < (a.toInt L).toNat := by omega
  have ho : (m.toInt L).toNat % 2 = 1 := by omega
  have hN' : ∀ k : Nat, ¬ (m.toInt L).toNat ∣ (a.toInt L).toNat ^ k := fun k h => hN k (by
    have := Int.natCast_dvd_natCast.2 h
    push_cast at this
    rwa [Int.toNat_of_nonneg (by omega), Int.toNat_of_nonneg (by omega)] at this)
  generalize (a.toInt L).toNat = u at *
  generalize (m.toInt L).toNat = N at *
  subst ea em
  obtain ⟨s, d, b, e1, e2, e4, e5, e3⟩ := millerRabin_eval M hp hm hd hN' (by omega) h0 hlt hK
  refine ⟨b, e5, e3.trans ?_⟩
  rcases e2 with e2 | rfl
  · have hs : s ≠ 0 := fun h => by subst h; omega
    rw [show max s 1 = s by omega]
    constructor
    · exact fun h => .inl ⟨s, d, e1, e2, h⟩
    · rintro (⟨s', d', f1, f2, f3⟩ | ⟨⟨k, rfl⟩, -⟩)
      · obtain ⟨rfl, rfl⟩ := odd_part_unique (e1.symm.trans f1) e2 f2
        exact f3
      · have := odd_part_unique (s := s) (t := k) (d := d) (e := 1) (by omega) e2 rfl
        exact absurd (e4 this.2) hs
  · have hpow : N = 2 ^ (s + 1) + 1 := by rw [pow_succ]; omega
    have hpar : ∀ i, 2 ^ i * 2 = 2 ^ (i + 1) * 1 := fun i => by rw [pow_succ]; ring
    constructor
    · rintro (h | ⟨i, i1, i2⟩)
      · exact .inr ⟨⟨_, hpow⟩, h⟩
      · by_cases hs : s = 0
        · subst hs
          have hi : i = 0 := by omega
          have hN3 : N = 3 := by omega
          subst hi hN3
          refine .inr ⟨⟨1, rfl⟩, ?_⟩
          have : u = 1 ∨ u = 2 := by omega
          rcases this with rfl | rfl <;> decide
        · exact .inl ⟨s + 1, 1, by rw [e1, hpar], rfl, .inr ⟨i + 1, by omega, by rw [← hpar]; exact i2⟩⟩
    · rintro (⟨s', d', f1, f2, f3⟩ | ⟨-, h⟩)
      · obtain ⟨rfl, rfl⟩ := odd_part_unique (s := s') (t := s + 1) (d := d') (e := 1) (by rw [← f1, e1, hpar]) f2 rfl
        rcases f3 with h | ⟨i, i1, i2⟩
        · left
          rw [pow_one] at h
          simpa using h.pow 2
        · rcases i with _ | i
          · left
            exact neg_one_sq (by omega) (by simpa using i2)
          · exact .inr ⟨i, by omega, by rw [hpar]; exact i2⟩
      · exact .inl h

end

/-- 33 passes the test to base 10: 32 / 2 / 2 / 2 / 2 leaves 2, whose remainder by 2 is 2. The textbook's test rejects it. -/
theorem C164_refuted {F : Type} {o : FloatOps F} (M : Ieee o) : ∃ a m : Bignum, WF .base10 a ∧ WF .base10 m ∧ a.toInt .base10 = 10 ∧
    m.toInt .base10 = 33 ∧ Evaluates (fun n => millerRabin o .base10 releaseEnv n a m) (.ok true) ∧ ¬ StrongProbable 10 33 ∧ ¬ Nat.Prime 33 := by
  obtain ⟨b, b1, b2⟩ := C164_textbook_partial M .base10 releaseEnv_ample rfl (a := ⟨.pos, [0, 1]⟩) (m := ⟨.pos, [3, 3]⟩) (by sample) (by sample)
    (by sample) (by sample) (fun k h => coprime_pow (N := 33) (u := 10) (k := k) (by omega) (by decide) (Int.natCast_dvd_natCast.1 (by exact_mod_cast (show (33 : Int) ∣ 10 ^ k from h)))) (by decide) (by sample)
  rw [show ((⟨.pos, [3, 3]⟩ : Bignum).toInt .base10).toNat = 33 by decide, show ((⟨.pos, [0, 1]⟩ : Bignum).toInt .base10).toNat = 10 by decide] at b2
  have hb : b = true := b2.2 (.inr ⟨⟨5, rfl⟩, by decide⟩)
  refine ⟨⟨.pos, [0, 1]⟩, ⟨.pos, [3, 3]⟩, by sample, by sample, by decide, by decide, hb ▸ b1, ?_, by norm_num⟩
  rintro ⟨s, d, h1, h2, h3⟩
  obtain ⟨rfl, rfl⟩ := odd_part_unique (s := s) (t := 5) (d := d) (e := 1) (by rw [← h1]; rfl) h2 rfl
  rcases h3 with h | ⟨i, i1, i2⟩
  · exact absurd h (by decide)
  · revert i2
    interval_cases i <;> decide

/-- 97 passes to base 5. -/
example {F : Type} {o : FloatOps F} (M : Ieee o) := C164_prime M .base10 Sample.ample rfl (a := ⟨.pos, [5]⟩) (m := ⟨.pos, [7, 9]⟩) (by sample) (by sample)
  (by sample) (by sample) (by rw [show ((⟨.pos, [7, 9]⟩ : Bignum).toInt .base10).toNat = 97 by decide]; norm_num) (by sample)

/-- 15 is rejected to base 2. -/
theorem millerRabin_15 {F : Type} {o : FloatOps F} (M : Ieee o) : Evaluates (fun n => millerRabin o .base10 releaseEnv n ⟨.pos, [2]⟩ ⟨.pos, [5, 1]⟩) (.ok false) := by
  obtain ⟨b, b1, b2⟩ := C164_textbook_partial M .base10 releaseEnv_ample rfl (a := ⟨.pos, [2]⟩) (m := ⟨.pos, [5, 1]⟩) (by sample) (by sample)
    (by sample) (by sample)
    (fun k h => sqfree_pow (N := 15) (u := 2) (k := k) (by
      rw [show 15 = 3 * 5 by rfl, Nat.squarefree_mul (by norm_num)]
      exact ⟨Nat.prime_three.prime.irreducible.squarefree, Nat.prime_five.prime.irreducible.squarefree⟩) (by omega) (by omega)
      (Int.natCast_dvd_natCast.1 (by exact_mod_cast (show (15 : Int) ∣ 2 ^ k from h)))) (by decide) (by sample)
  rw [show ((⟨.pos, [5, 1]⟩ : Bignum).toInt .base10).toNat = 15 by decide, show ((⟨.pos, [2]⟩ : Bignum).toInt .base10).toNat = 2 by decide] at b2
  have hb : b = false := by
    rw [Bool.eq_false_iff, Ne, b2]
    rintro (⟨s, d, h1, h2, h3⟩ | ⟨-, h⟩)
    · obtain ⟨rfl, rfl⟩ := odd_part_unique (s := s) (t := 1) (d := d) (e := 7) (by rw [← h1]; rfl) h2 rfl
      rcases h3 with h | ⟨i, i1, i2⟩
      · exact absurd h (by decide)
      · revert i2
        interval_cases i; decide
    · exact absurd h (by decide)
  exact hb ▸ b1

example {F : Type} {o : FloatOps F} (M : Ieee o) :=
  C164_rejected M .base10 releaseEnv_ample rfl (by sample) (by sample) (by sample) (by sample) (by sample) (millerRabin_15 M)

end BN
