import Verif.Props.MillerRabin
import Verif.Props.RoundQ
import Mathlib.NumberTheory.LucasPrimality
/-
C172: certificates of primality.
-/
namespace BN
open Bignum

/-- `for (q : qs) { if (powBig(a, h / q, m) == one) return false; } return true;` -/
def prattLoop {F : Type} (o : FloatOps F) (L : Limits) (env : Env) (n : Nat) (one a h m : Bignum) : List Bignum → Res Bool
  | [] => .ok true
  | q :: qs => do
    let e ← h.div L env n q
    let r ← powBig o L env n a e m
    if ← r.eq one then .ok false
    else prattLoop o L env n one a h m qs

/-- `h = m - one; if (powBig(a, h, m) != one) return false;` and the loop above. -/
def pratt {F : Type} (o : FloatOps F) (L : Limits) (env : Env) (n : Nat) (one a m : Bignum) (qs : List Bignum) : Res Bool := do
  let h ← m.sub L env n one
  let r ← powBig o L env n a h m
  if ← r.eq one then prattLoop o L env n one a h m qs
  else .ok false

variable {L : Limits} {env : Env}

section
variable {F : Type} {o : FloatOps F} (M : Ieee o) {K : Nat} (hp : Preset L K) (hm : env.Ample) (hd : env.debug = false)
include M hp hm hd

theorem powBig_coprime {P u : Nat} (h2 : 2 ≤ P) (h0 : 0 < u) (h1 : u < P) (hco : Nat.Coprime u P) {e : Bignum} (he : 0 ≤ e.toInt L)
    (hK : 3 * (numeral L .pos P).digits.length ≤ K) :
    Evaluates (fun n => powBig o L env n (numeral L .pos u) e (numeral L .pos P)) (.ok (numeral L .pos (u ^ (e.toInt L).toNat % P))) := by
  have hB := hp.custom.supported.base_ge
  have ti : ∀ a : Nat, (numeral L .pos a).toInt L = a := fun a => by rw [toInt_of_pos rfl, numeral_mag]
  have hl := length_numeral_mono (L := L) hB h1.le
  have hnd : ¬ P ∣ u ^ (e.toInt L).toNat := fun h => by
    have := Nat.Coprime.eq_one_of_dvd (hco.pow_left (e.toInt L).toNat).symm h
    omega
  obtain ⟨r, r1, r2, r3⟩ := C160_power M hp hm hd (x := numeral L .pos u) (e := e) (m := numeral L .pos P) (numeral_wf hB (.inl rfl) _)
    (by rw [ti]; exact_mod_cast h0) he (numeral_wf hB (.inl rfl) _) (by rw [ti]; exact_mod_cast h2)
    (fun h => by
      rw [ti, ti] at h
      exact hnd (Int.natCast_dvd_natCast.1 (by exact_mod_cast h))) hK
    (by change (numeral L .pos u).digits.length + (numeral L .pos P).digits.length ≤ K; omega)
  rw [ti, ti] at r3
  have r4 : r.toInt L = (u ^ (e.toInt L).toNat % P : Nat) := by rw [r3]; push_cast; rfl
  have er := eq_pos hB r2 (by rw [r4]; exact_mod_cast Nat.pos_of_ne_zero fun h => hnd (Nat.dvd_of_mod_eq_zero h))
  rw [r4, Int.toNat_natCast] at er
  rw [← er]; exact r1

omit M in
theorem div_quot {h q : Nat} (hq : 2 ≤ q) : ∃ c : Bignum, Evaluates (fun n => (numeral L .pos h).div L env n (numeral L .pos q)) (.ok c) ∧
    c.toInt L = quot h q := by
  by_cases e : h = q
  · subst e
    refine ⟨⟨.pos, [0]⟩, ⟨h.size + 33, fun n hn => ?_⟩, ?_⟩
    · beta_reduce
      rw [div_numeral_self hp.custom.supported hm hq]
    · simp [quot, Bignum.toInt, Bignum.mag, hq]
  · obtain ⟨c, c1, c2, c3, c4⟩ := div_numerals hp.custom hm hd (a := h) (b := q) (by omega) (.inl e)
    exact ⟨c, ⟨_, c1⟩, by rw [toInt_of_pos c3, c4, quot, if_neg (by omega)]⟩

theorem prattLoop_eval {P u h : Nat} (h2 : 2 ≤ P) (h0 : 0 < u) (h1 : u < P) (hco : Nat.Coprime u P)
    (hK : 3 * (numeral L .pos P).digits.length ≤ K) : ∀ ps : List Nat, (∀ q ∈ ps, 2 ≤ q) →
    Evaluates (fun n => prattLoop o L env n (numeral L .pos 1) (numeral L .pos u) (numeral L .pos h) (numeral L .pos P) (ps.map (numeral L .pos)))
      (.ok (decide (∀ q ∈ ps, u ^ quot h q % P ≠ 1)))
  | [], _ => ⟨0, fun n _ => by simp [prattLoop]⟩
  | q :: ps, hq => by
    have hB := hp.custom.supported.base_ge
    obtain ⟨c, c1, c2⟩ := div_quot hp hm hd (h := h) (hq q (by simp))
    have ih := prattLoop_eval (h := h) h2 h0 h1 hco hK ps fun q h => hq q (by simp [h])
    have pw := powBig_coprime M hp hm hd h2 h0 h1 hco (e := c) (by rw [c2]; omega) hK
    rw [c2, Int.toNat_natCast] at pw
    refine Evaluates.bind c1 (Evaluates.bind pw ?_)
    obtain ⟨N, hN⟩ := ih
    refine ⟨N, fun n hn => ?_⟩
    have := hN n hn
    beta_reduce at this ⊢
    rw [pos_eq_pos hB, ok_bind]
    by_cases hz : u ^ quot h q % P = 1
    · rw [if_pos (by simpa using hz)]
      simp [hz]
    · rw [if_neg (by simpa using hz), this]
      simp [hz]

theorem pratt_eval {P u : Nat} (h2 : 2 ≤ P) (h0 : 0 < u) (h1 : u < P) (hco : Nat.Coprime u P)
    (hK : 3 * (numeral L .pos P).digits.length ≤ K) {ps : List Nat} (hq : ∀ q ∈ ps, 2 ≤ q) :
    Evaluates (fun n => pratt o L env n (numeral L .pos 1) (numeral L .pos u) (numeral L .pos P) (ps.map (numeral L .pos)))
      (.ok (decide (u ^ (P - 1) % P = 1 ∧ ∀ q ∈ ps, u ^ quot (P - 1) q % P ≠ 1))) := by
  have hB := hp.custom.supported.base_ge
  have ti : ∀ a : Nat, (numeral L .pos a).toInt L = a := fun a => by rw [toInt_of_pos rfl, numeral_mag]
  have pw := powBig_coprime M hp hm hd h2 h0 h1 hco (e := numeral L .pos (P - 1)) (by rw [ti]; omega) hK
  rw [ti, Int.toNat_natCast] at pw
  have s1 : Evaluates (fun n => (numeral L .pos P).sub L env n (numeral L .pos 1)) (.ok (numeral L .pos (P - 1))) :=
    ⟨P.size + 1, fun n hn => sub_numerals hp.custom.supported hm hd (by omega) (by omega) (by omega)⟩
  obtain ⟨N, hN⟩ := prattLoop_eval M hp hm hd (h := P - 1) h2 h0 h1 hco hK ps hq
  refine Evaluates.bind s1 (Evaluates.bind pw ⟨N, fun n hn => ?_⟩)
  have := hN n hn
  beta_reduce at this ⊢
  rw [pos_eq_pos hB, ok_bind]
  by_cases hz : u ^ (P - 1) % P = 1
  · rw [if_pos (by simpa using hz), this]
    simp [hz]
  · rw [if_neg (by simpa using hz)]
    simp [hz]

/-- The objects of a certificate for `P`: one, the number, and the prime factors of `P - 1`. -/
structure Certificate (L : Limits) (P : Nat) (one m : Bignum) (qs : List Bignum) : Prop where
  one_wf : WF L one
  one_eq : one.toInt L = 1
  m_wf : WF L m
  m_eq : m.toInt L = P
  wf : ∀ b ∈ qs, WF L b
  factor : ∀ b ∈ qs, ∃ q : Nat, b.toInt L = q ∧ q.Prime ∧ q ∣ P - 1
  all : ∀ q : Nat, q.Prime → q ∣ P - 1 → ∃ b ∈ qs, b.toInt L = q

omit M hm hd in
theorem certificate_num {P : Nat} (h2 : 2 ≤ P) {one m : Bignum} {qs : List Bignum} (h : Certificate L P one m qs) :
    ∃ ps : List Nat, one = numeral L .pos 1 ∧ m = numeral L .pos P ∧ qs = ps.map (numeral L .pos) ∧ ∀ q, q ∈ ps ↔ q.Prime ∧ q ∣ P - 1 := by
  have hB := hp.custom.supported.base_ge
  have ti : ∀ a : Nat, (numeral L .pos a).toInt L = a := fun a => by rw [toInt_of_pos rfl, numeral_mag]
  have e1 := eq_pos hB h.one_wf (by rw [h.one_eq]; omega)
  have em := eq_pos hB h.m_wf (by rw [h.m_eq]; omega)
  rw [h.one_eq] at e1
  rw [h.m_eq, Int.toNat_natCast] at em
  have eq : ∀ b ∈ qs, b = numeral L .pos (b.toInt L).toNat := fun b hb => by
    obtain ⟨q, q1, q2, -⟩ := h.factor b hb
    exact eq_pos hB (h.wf b hb) (by rw [q1]; exact_mod_cast q2.pos)
  refine ⟨qs.map fun b => (b.toInt L).toNat, e1, em, ?_, fun q => ?_⟩
  · rw [List.map_map]
    conv_lhs => rw [← List.map_id qs]
    exact List.map_congr_left eq
  · rw [List.mem_map]
    constructor
    · rintro ⟨b, hb, rfl⟩
      obtain ⟨q, q1, q2⟩ := h.factor b hb
      rw [q1, Int.toNat_natCast]; exact q2
    · rintro ⟨q1, q2⟩
      obtain ⟨b, hb, e⟩ := h.all q q1 q2
      exact ⟨b, hb, by rw [e, Int.toNat_natCast]⟩

omit M hp hm hd in
theorem pow_mod_one {P : Nat} (h2 : 2 ≤ P) (u k : Nat) : u ^ k % P = 1 ↔ (u : ZMod P) ^ k = 1 := by
  rw [show (u : ZMod P) ^ k = ((u ^ k : Nat) : ZMod P) by push_cast; rfl, show (1 : ZMod P) = ((1 : Nat) : ZMod P) by simp,
    ZMod.natCast_eq_natCast_iff, Nat.ModEq, Nat.mod_eq_of_lt (show 1 < P by omega)]

/-- The check always ends, and what it accepts is prime. -/
theorem C172_sound {P : Nat} (h2 : 2 ≤ P) {one m a : Bignum} {qs : List Bignum} (h : Certificate L P one m qs) (ha : WF L a) (ha0 : 0 < a.toInt L)
    (haP : a.toInt L < P) (hco : IsCoprime (a.toInt L) P) (hK : 3 * m.size ≤ K) :
    ∃ b, Evaluates (fun n => pratt o L env n one a m qs) (.ok b) ∧ (b = true → P.Prime) := by
  have hB := hp.custom.supported.base_ge
  obtain ⟨ps, rfl, rfl, rfl, hps⟩ := certificate_num hp h2 h
  have ea := eq_pos hB ha ha0
  have hav : a.toInt L = ((a.toInt L).toNat : Int) := by omega
  rw [hav] at ha0 haP hco
  generalize (a.toInt L).toNat = u at *
  subst ea
  have hco' : Nat.Coprime u P := Nat.isCoprime_iff_coprime.1 hco
  refine ⟨_, pratt_eval M hp hm hd h2 (by omega) (by omega) hco' hK fun q hq => ((hps q).1 hq).1.two_le, fun hb => ?_⟩
  obtain ⟨b1, b2⟩ := of_decide_eq_true hb
  refine lucas_primality P (u : ZMod P) ((pow_mod_one h2 _ _).1 b1) fun q hq hqd hq1 => b2 q ((hps q).2 ⟨hq, hqd⟩) ?_
  rw [pow_mod_one h2, quot]
  split
  · rw [pow_zero]
  · exact hq1

/-- Every prime but three has a number that is accepted. -/
theorem C172_complete_partial {P : Nat} (hP : P.Prime) (h3 : P ≠ 3) {one m : Bignum} {qs : List Bignum} (h : Certificate L P one m qs) (hK : 3 * m.size ≤ K) :
    ∃ a, WF L a ∧ 0 < a.toInt L ∧ a.toInt L < P ∧ Evaluates (fun n => pratt o L env n one a m qs) (.ok true) := by
  have hB := hp.custom.supported.base_ge
  have ti : ∀ a : Nat, (numeral L .pos a).toInt L = a := fun a => by rw [toInt_of_pos rfl, numeral_mag]
  have h2 := hP.two_le
  have : NeZero P := ⟨hP.ne_zero⟩
  have : Fact (1 < P) := ⟨hP.one_lt⟩
  obtain ⟨ps, rfl, rfl, rfl, hps⟩ := certificate_num hp h2 h
  obtain ⟨g, g1, g2⟩ := reverse_lucas_primality P hP
  have hg : ((g.val : Nat) : ZMod P) = g := ZMod.natCast_zmod_val g
  have g0 : 0 < g.val := Nat.pos_of_ne_zero fun h => by
    rw [ZMod.val_eq_zero] at h
    rw [h, zero_pow (by omega)] at g1
    exact zero_ne_one g1
  have gP := ZMod.val_lt g
  have hco : Nat.Coprime g.val P := ((hP.coprime_iff_not_dvd).2 fun h => by have := Nat.le_of_dvd g0 h; omega).symm
  refine ⟨numeral L .pos g.val, numeral_wf hB (.inl rfl) _, by rw [ti]; omega, by rw [ti]; omega, ?_⟩
  have := pratt_eval M hp hm hd h2 g0 gP hco hK fun q hq => ((hps q).1 hq).1.two_le
  rwa [decide_eq_true] at this
  refine ⟨by rw [pow_mod_one h2, hg]; exact g1, fun q hq => ?_⟩
  obtain ⟨q1, q2⟩ := (hps q).1 hq
  rw [ne_eq, pow_mod_one h2, hg, quot, if_neg]
  · exact g2 q q1 q2
  · rintro ⟨rfl, -⟩
    rcases hP.eq_two_or_odd with h | h
    · rw [h] at q1; exact Nat.not_prime_one q1
    · rcases q1.eq_two_or_odd with h' | h' <;> omega

/-- No number is accepted for three: the quotient of two and two is zero. -/
theorem C172_three {one m a : Bignum} {qs : List Bignum} (h : Certificate L 3 one m qs) (ha : WF L a) (ha0 : 0 < a.toInt L)
    (haP : a.toInt L < 3) (hK : 3 * m.size ≤ K) : Evaluates (fun n => pratt o L env n one a m qs) (.ok false) := by
  have hB := hp.custom.supported.base_ge
  obtain ⟨ps, rfl, rfl, rfl, hps⟩ := certificate_num hp (by omega) h
  have ea := eq_pos hB ha ha0
  have h0 : 0 < (a.toInt L).toNat := by omega
  have h1 : (a.toInt L).toNat < 3 := by omega
  clear haP ha0
  generalize (a.toInt L).toNat = u at *
  subst ea
  have hco : Nat.Coprime u 3 := ((Nat.prime_three.coprime_iff_not_dvd).2 fun h => by have := Nat.le_of_dvd h0 h; omega).symm
  have := pratt_eval M hp hm hd (by omega) h0 h1 hco hK fun q hq => ((hps q).1 hq).1.two_le
  rwa [decide_eq_false] at this
  rintro ⟨-, b⟩
  exact b 2 ((hps 2).2 ⟨Nat.prime_two, by norm_num⟩) (by simp [quot])

end

/-- 31: the prime factors of 30 are 2, 3 and 5. -/
theorem sample31 : Certificate .base10 31 ⟨.pos, [1]⟩ ⟨.pos, [1, 3]⟩ [⟨.pos, [2]⟩, ⟨.pos, [3]⟩, ⟨.pos, [5]⟩] where
  one_wf := by sample
  one_eq := by sample
  m_wf := by sample
  m_eq := by sample
  wf := by simp only [List.forall_mem_cons]; exact ⟨by sample, by sample, by sample, by simp⟩
  factor := by
    simp only [List.forall_mem_cons]
    exact ⟨⟨2, by sample, by norm_num, by norm_num⟩, ⟨3, by sample, by norm_num, by norm_num⟩, ⟨5, by sample, by norm_num, by norm_num⟩, by simp⟩
  all q hq hd := by
    have : q ∣ 2 * 3 * 5 := hd
    rcases hq.dvd_mul.1 this with h | h
    · rcases hq.dvd_mul.1 h with h | h
      · rw [(Nat.prime_dvd_prime_iff_eq hq Nat.prime_two).1 h]; exact ⟨⟨.pos, [2]⟩, by simp, by sample⟩
      · rw [(Nat.prime_dvd_prime_iff_eq hq Nat.prime_three).1 h]; exact ⟨⟨.pos, [3]⟩, by simp, by sample⟩
    · rw [(Nat.prime_dvd_prime_iff_eq hq Nat.prime_five).1 h]; exact ⟨⟨.pos, [5]⟩, by simp, by sample⟩

example {F : Type} {o : FloatOps F} (M : Ieee o) := C172_sound M .base10 Sample.ample rfl (a := ⟨.pos, [3]⟩) (by omega) sample31 (by sample) (by sample) (by sample)
  (Nat.isCoprime_iff_coprime.2 (by decide : Nat.Coprime 3 31)) (by sample)

example {F : Type} {o : FloatOps F} (M : Ieee o) := C172_complete_partial M .base10 Sample.ample rfl (by norm_num) (by omega) sample31 (by sample)

example {F : Type} {o : FloatOps F} (M : Ieee o) := C172_three M .base10 Sample.ample rfl (one := ⟨.pos, [1]⟩) (m := ⟨.pos, [3]⟩) (a := ⟨.pos, [2]⟩)
  (qs := [⟨.pos, [2]⟩]) ⟨by sample, by sample, by sample, by sample, by simp only [List.forall_mem_cons]; exact ⟨by sample, by simp⟩,
    by simp only [List.forall_mem_cons]; exact ⟨⟨2, by sample, by norm_num, by norm_num⟩, by simp⟩,
    fun q hq hd => ⟨⟨.pos, [2]⟩, by simp, by rw [(Nat.prime_dvd_prime_iff_eq hq Nat.prime_two).1 hd]; sample⟩⟩ (by sample) (by sample) (by sample) (by sample)

end BN
