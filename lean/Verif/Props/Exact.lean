import Verif.Lemmas.Samples
import Verif.Props.Print
import Verif.Props.Sorting
import Verif.Props.Bisect
import Verif.Props.Simulation
/-
C04, C48, C63, C87, C104: exactly when the properties hold that the code does not have in general.
-/
namespace BN
open Bignum

/-! ### C04 -/

/-- C04: exactly when `a > b` gives the wrong answer: a is not larger, but has a larger digit somewhere. -/
theorem C04_gt_iff {L : Limits} {a b : Bignum} (ha : NonNeg L a) (hb : NonNeg L b) :
    a.gt b = .ok (decide (b.toInt L < a.toInt L)) ↔ ¬ (a.toInt L ≤ b.toInt L ∧ AnyDigitGreater a.digits b.digits) := by
  obtain ⟨⟨r, hr, hr'⟩, -⟩ := C05_gt_lt_meaning a b ha.1 hb.1
  constructor
  · rintro h ⟨h1, h2⟩
    rw [hr, hr'.2 h2, decide_eq_false (by omega)] at h
    exact absurd (Except.ok.inj h) (by decide)
  · intro h
    by_cases hlt : b.toInt L < a.toInt L
    · rw [((C04_gt_partial L a b ha.2 hb.2 ha.1 hb.1).1 hlt).1, decide_eq_true hlt]
    · rw [hr, decide_eq_false hlt]
      congr 1
      exact Bool.eq_false_iff.2 fun ht => h ⟨by omega, hr'.1 ht⟩

example := C04_gt_iff (L := .base10) (a := Sample.n199) (b := Sample.n23) ⟨rfl, by sample, by sample⟩ ⟨rfl, by sample, by sample⟩

/-! ### C48 -/

/-- C48 for digits of more than 8 bits: different numbers print differently if and only if the base is at most ten. -/
theorem C48_wide_iff {L : Limits} (h8 : L.single.raw.bits ≠ 8) (h2 : 2 ≤ L.base) :
    (∀ x y : Bignum, WF L x → WF L y → x.toInt L ≠ y.toInt L → toStream L x ≠ toStream L y) ↔ L.base ≤ 10 := by
  refine ⟨fun h => ?_, fun h10 x y hx hy hne => C48_small_base_partial h8 h2 h10 hx hy hne⟩
  by_contra hb
  refine h ⟨.pos, [0, 1]⟩ ⟨.pos, [10]⟩ ⟨.inl rfl, by simp [InRange]; omega, .inl (by simp [NoLeadingZero])⟩
    ⟨.inl rfl, by simp [InRange]; omega, .inl (by simp [NoLeadingZero])⟩ ?_ ?_
  · rw [toInt_of_pos rfl, toInt_of_pos rfl]
    simp only [Bignum.mag, natOf]
    omega
  · simp [toStream, showDigits, showDigit, h8]
    decide

example := C48_wide_iff (L := .base10) (by decide) (by decide)
example := C48_wide_iff (L := .base16) (by decide) (by decide)

/-- C48 for digits of 8 bits, which print as characters: different numbers print differently if and only if no digit is the character of the minus
sign. -/
theorem C48_bytes_iff {L : Limits} (h8 : L.single.raw.bits = 8) :
    (∀ x y : Bignum, WF L x → WF L y → x.toInt L ≠ y.toInt L → toStream L x ≠ toStream L y) ↔ L.base ≤ 45 := by
  refine ⟨fun h => ?_, fun h45 x y hx hy hne => C48_bytes_partial h8 h45 hx hy hne⟩
  by_contra hb
  refine h ⟨.pos, [1, 45]⟩ ⟨.neg, [1]⟩ ⟨.inl rfl, by simp [InRange]; omega, .inl (by simp [NoLeadingZero])⟩
    ⟨.inr rfl, by simp [InRange]; omega, .inl (by simp [NoLeadingZero])⟩ ?_ ?_
  · simp only [Bignum.toInt, Bignum.mag, natOf]
    simp
    omega
  · simp [toStream, showDigits, showDigit, h8]

example := C48_bytes_iff (L := .base2) (by decide)
example := C48_bytes_iff (L := .lowp) (by decide)

/-! ### C87 -/

/-- C87: exactly when `std::max` is wrong: the first argument is the larger one, and the second has a larger digit somewhere. -/
theorem C87_max_iff {L : Limits} {a b : Bignum} (ha : NonNeg L a) (hb : NonNeg L b) :
    (∃ c, stdMax a b = .ok c ∧ c.toInt L = max (a.toInt L) (b.toInt L)) ↔
      ¬ (b.toInt L < a.toInt L ∧ AnyDigitGreater b.digits a.digits) := by
  obtain ⟨-, ⟨r, hr, hr'⟩⟩ := C05_gt_lt_meaning a b ha.1 hb.1
  constructor
  · rintro ⟨c, h1, h2⟩ ⟨h3, h4⟩
    unfold stdMax at h1
    rw [hr, hr'.2 h4, ok_bind, if_pos rfl] at h1
    rw [← Except.ok.inj h1, max_eq_left h3.le] at h2
    omega
  · intro h
    by_cases hle : a.toInt L ≤ b.toInt L
    · exact C87_max_partial ha hb (.inl hle)
    · have hf : r = false := by
        cases r
        · rfl
        · exact absurd ⟨by omega, hr'.1 rfl⟩ h
      unfold stdMax
      rw [hr, hf]
      exact ⟨a, rfl, (max_eq_left (by omega)).symm⟩

example := C87_max_iff (L := .base10) (a := Sample.n199) (b := Sample.n23) ⟨rfl, by sample, by sample⟩ ⟨rfl, by sample, by sample⟩

/-! ### C104 -/

/-- The halvings of `h` reach two, and the test answers no to all of them. -/
def Halves (P : Nat → Bool) (h : Nat) : Prop := ∃ k, h / 2 ^ k = 2 ∧ ∀ j, 1 ≤ j → j ≤ k → P (h / 2 ^ j) = false

theorem halves_half {P : Nat → Bool} {h : Nat} (hh : Halves P (h / 2)) (hp : P (h / 2) = false) : Halves P h := by
  obtain ⟨k, h1, h2⟩ := hh
  refine ⟨k + 1, by rw [pow_succ', ← Nat.div_div_eq_div_mul]; exact h1, fun j hj hk => ?_⟩
  obtain ⟨i, rfl⟩ : ∃ i, j = i + 1 := ⟨j - 1, by omega⟩
  rw [pow_succ', ← Nat.div_div_eq_div_mul]
  rcases Nat.eq_zero_or_pos i with rfl | hi
  · simpa using hp
  · exact h2 i hi (by omega)

theorem half_halves {P : Nat → Bool} {h : Nat} (hh : Halves P h) (h3 : h ≠ 2) : 3 ≤ h ∧ P (h / 2) = false ∧ Halves P (h / 2) := by
  obtain ⟨k, h1, h2⟩ := hh
  rcases Nat.eq_zero_or_pos k with rfl | hk
  · exact absurd (by simpa using h1) h3
  · obtain ⟨k, rfl⟩ : ∃ i, k = i + 1 := ⟨k - 1, by omega⟩
    have e := h2 1 le_rfl (by omega)
    rw [pow_one] at e
    rw [pow_succ', ← Nat.div_div_eq_div_mul] at h1
    have : h / 2 / 2 ^ k ≤ h / 2 := Nat.div_le_self _ _
    refine ⟨by omega, e, k, h1, fun j hj hk => ?_⟩
    have := h2 (j + 1) (by omega) (by omega)
    rwa [pow_succ', ← Nat.div_div_eq_div_mul] at this

section
variable {L : Limits} (h : Custom L) {env : Env} (hm : env.Ample) (hd : env.debug = false) {top n : Nat} (hn : top.size + 5 ≤ n)
include h hm hn

omit hm hn in
theorem zero_wf' {z : Bignum} (hz : z = ⟨.pos, []⟩ ∨ z = ⟨.pos, [0]⟩) : WF L z ∧ z.mag L = 0 ∧ z.digits.length ≤ 1 ∧ z.desc = .pos := by
  have hB := h.supported.base_ge
  rcases hz with rfl | rfl
  · exact ⟨⟨.inl rfl, by simp [WFDigits, InRange, NoLeadingZero]⟩, mag_of_nil rfl, by simp, rfl⟩
  · exact ⟨⟨.inl rfl, by simp [WFDigits, InRange, NoLeadingZero]; omega⟩, by simp [Bignum.mag], by simp, rfl⟩

theorem zero_plus {z : Bignum} (hz : z = ⟨.pos, []⟩ ∨ z = ⟨.pos, [0]⟩) {v : Nat} (h0 : 0 < v) (hv : v ≤ top ∨ v = 1) :
    z.add L env n (numeral L .pos v) = .ok (numeral L .pos v) := by
  have hB := h.supported.base_ge
  obtain ⟨w, m, l, d⟩ := zero_wf' h hz
  have len : (numeral L .pos v).digits.length < n := by
    rcases hv with hv | rfl
    · have h1 := pos_len_mono (L := L) hB hv
      have h2 := pos_len_size (L := L) hB top
      omega
    · have : (numeral L .pos 1).digits.length ≤ 1 := length_numeral_le hB (by rw [pow_one]; omega)
      omega
  obtain ⟨c, e1, e2, e3, e4⟩ := add_pos h.supported hm w (numeral_wf hB (d := .pos) (.inl rfl) v) d.symm
  rw [m, numeral_mag] at e4
  rw [e1 n (by omega), eq_numeral hB e2.2.1 (nlz_of_mag e2 (by omega)), e3, d, e4, Nat.zero_add]

theorem zero_cond {z : Bignum} (hz : z = ⟨.pos, []⟩ ∨ z = ⟨.pos, [0]⟩) {v : Nat} (h0 : 0 < v) : (do
      let t ← z.add L env n (numeral L .pos 1)
      t.lt (numeral L .pos v)) = Except.ok (decide (1 < v)) := by
  rw [zero_plus h hm hn hz (by omega) (.inr rfl), ok_bind]
  exact pos_lt_of_le h.supported.base_ge h0

include hd

theorem zero_body {z : Bignum} (hz : z = ⟨.pos, []⟩ ∨ z = ⟨.pos, [0]⟩) {v : Nat} (h3 : 3 ≤ v) (hv : v ≤ top) {test : Bignum → Res Bool} {b : Bool}
    (ht : test (numeral L .pos (v / 2)) = .ok b) : (do
      let t ← z.add L env n (numeral L .pos v)
      let mid ← t.div L env n (numeral L .pos 2)
      if ← test mid then .ok ⟨mid, numeral L .pos v⟩ else .ok ⟨z, mid⟩) =
      Except.ok (if b then ⟨numeral L .pos (v / 2), numeral L .pos v⟩ else ⟨z, numeral L .pos (v / 2)⟩ : BisectSt) := by
  have hsz : v.size ≤ top.size := Nat.size_le_size hv
  rw [zero_plus h hm hn hz (by omega) (.inl hv), ok_bind,
    pos_div h hm hd (by omega) (.inl (by omega)) (by omega) (by omega), ok_bind, ht, ok_bind]
  cases b <;> rfl

omit hd in
theorem two_body {z : Bignum} (hz : z = ⟨.pos, []⟩ ∨ z = ⟨.pos, [0]⟩) (hv : 2 ≤ top) {test : Bignum → Res Bool}
    (ht : test ⟨.pos, [0]⟩ = .ok true) : (do
      let t ← z.add L env n (numeral L .pos 2)
      let mid ← t.div L env n (numeral L .pos 2)
      if ← test mid then .ok ⟨mid, numeral L .pos 2⟩ else .ok ⟨z, mid⟩) = Except.ok (⟨⟨.pos, [0]⟩, numeral L .pos 2⟩ : BisectSt) := by
  have hB := h.supported.base_ge
  have w2 := numeral_wf (L := L) hB (d := .pos) (.inl rfl) 2
  have len : (numeral L .pos 2).digits.length < n := by
    have h1 := pos_len_mono (L := L) hB hv
    have h2 := pos_len_size (L := L) hB top
    omega
  rw [zero_plus h hm hn hz (by omega) (.inl hv), ok_bind]
  have hdv : (numeral L .pos 2).div L env n (numeral L .pos 2) = .ok ⟨.pos, [0]⟩ := by
    unfold Bignum.div viaCopy
    rw [copy_ok hm, ok_bind, C32_self_division_is_zero h.supported (r := .other (numeral L .pos 2)) w2 w2 rfl (by rw [numeral_mag]; try omega)]
    rfl
  rw [hdv, ok_bind, ht, ok_bind, if_pos rfl]

/-- From zero and a number whose halvings reach two with the answer no the loop goes on for ever. -/
theorem zero_stuck {test : Bignum → Res Bool} {P : Nat → Bool} (ht : ∀ k, 0 < k → k < top → test (numeral L .pos k) = .ok (P k))
    (h0 : test ⟨.pos, [0]⟩ = .ok true) : ∀ (f v : Nat) {z : Bignum}, z = ⟨.pos, []⟩ ∨ z = ⟨.pos, [0]⟩ → v ≤ top → Halves P v →
    loopWhile (fun s => do
        let t ← s.lo.add L env n (numeral L .pos 1)
        t.lt s.hi)
      (fun s => do
        let t ← s.lo.add L env n s.hi
        let mid ← t.div L env n (numeral L .pos 2)
        if ← test mid then .ok ⟨mid, s.hi⟩ else .ok ⟨s.lo, mid⟩) f (⟨z, numeral L .pos v⟩ : BisectSt) = .error .timeout := by
  intro f
  induction f with
  | zero => intro v z _ _ _; rfl
  | succ f ih =>
    intro v z hz hv hh
    rw [loopWhile]
    by_cases h2 : v = 2
    · subst h2
      simp only [zero_cond h hm hn hz (by omega : 0 < 2), ok_bind, two_body h hm hn hz hv h0, show decide (1 < 2) = true from rfl, if_true]
      exact ih 2 (.inr rfl) hv hh
    · obtain ⟨h3, hp, hh'⟩ := half_halves hh h2
      simp only [zero_cond h hm hn hz (by omega : 0 < v), ok_bind, decide_eq_true (by omega : 1 < v), if_true,
        zero_body h hm hd hn hz h3 hv (ht (v / 2) (by omega) (by omega)), hp]
      exact ih (v / 2) hz (by omega) hh'

end

/-- From zero and any other number it ends, as a search above zero would. -/
theorem zero_ends {L : Limits} (h : Custom L) {env : Env} (hm : env.Ample) (hd : env.debug = false) {top n₀ : Nat} {test : Nat → Bignum → Res Bool}
    {P : Nat → Bool} (ht : ∀ n, n₀ ≤ n → ∀ k, 0 < k → k < top → test n (numeral L .pos k) = .ok (P k))
    {z : Bignum} (hz : z = ⟨.pos, []⟩ ∨ z = ⟨.pos, [0]⟩) (p0 : P 0 = true) : ∀ v, 0 < v → v ≤ top → P v = false → ¬ Halves P v →
    ∃ r : Bignum, (∀ n f, n₀ ≤ n → top.size + 5 ≤ n → v < f → ∃ s : BisectSt, loopWhile (fun s => do
        let t ← s.lo.add L env n (numeral L .pos 1)
        t.lt s.hi)
      (fun s => do
        let t ← s.lo.add L env n s.hi
        let mid ← t.div L env n (numeral L .pos 2)
        if ← test n mid then .ok ⟨mid, s.hi⟩ else .ok ⟨s.lo, mid⟩) f (⟨z, numeral L .pos v⟩ : BisectSt) = .ok s ∧ s.lo = r) ∧
      WF L r ∧ 0 ≤ r.toInt L ∧ r.toInt L < v ∧ P (r.toInt L).toNat = true ∧ P ((r.toInt L).toNat + 1) = false := by
  intro v
  induction v using Nat.strong_induction_on with
  | _ v ih =>
  intro h0 hv hp hh
  by_cases h1 : v = 1
  · subst h1
    obtain ⟨w, m, -, d⟩ := zero_wf' h hz
    have t : z.toInt L = 0 := by rw [toInt_of_pos d, m]; rfl
    refine ⟨z, fun n f hn₀ hn hf => ?_, w, by rw [t], by rw [t]; omega, by rw [t]; exact p0, by rw [t]; exact hp⟩
    obtain ⟨f, rfl⟩ : ∃ g, f = g + 1 := ⟨f - 1, by omega⟩
    rw [loopWhile]
    simp only [zero_cond h hm hn hz h0, ok_bind, show decide (1 < 1) = false from rfl, Bool.false_eq_true, if_false]
    exact ⟨_, rfl, rfl⟩
  · have h3 : 3 ≤ v := by
      by_contra h3
      have : v = 2 := by omega
      subst this
      exact hh ⟨0, rfl, fun j h1 h2 => by omega⟩
    cases hp2 : P (v / 2)
    · obtain ⟨r, e1, e2, e3, e4, e5⟩ := ih (v / 2) (by omega) (by omega) (by omega) hp2 (fun hh' => hh (halves_half hh' hp2))
      refine ⟨r, fun n f hn₀ hn hf => ?_, e2, e3, by omega, e5⟩
      obtain ⟨f, rfl⟩ : ∃ g, f = g + 1 := ⟨f - 1, by omega⟩
      rw [loopWhile]
      simp only [zero_cond h hm hn hz h0, ok_bind, decide_eq_true (by omega : 1 < v), if_true,
        zero_body h hm hd hn hz h3 hv (ht n hn₀ (v / 2) (by omega) (by omega)), hp2]
      exact e1 n f hn₀ hn (by omega)
    · obtain ⟨r1, r2, r3, r4⟩ := bisectSpec_ok P (v - v / 2) (v / 2) v (by omega) (by omega) hp2 hp
      refine ⟨numeral L .pos (bisectSpec P (v - v / 2) (v / 2) v), fun n f hn₀ hn hf => ?_, numeral_wf h.supported.base_ge (.inl rfl) _, ?_⟩
      · obtain ⟨f, rfl⟩ : ∃ g, f = g + 1 := ⟨f - 1, by omega⟩
        rw [loopWhile]
        simp only [zero_cond h hm hn hz h0, ok_bind, decide_eq_true (by omega : 1 < v), if_true,
          zero_body h hm hd hn hz h3 hv (ht n hn₀ (v / 2) (by omega) (by omega)), hp2]
        exact bisect_loop h hm hd hn (ht n hn₀) (v - v / 2) (v / 2) v f (by omega) (by omega) (by omega) hv (by omega)
      · rw [toInt_of_pos rfl, numeral_mag, Int.toNat_natCast]
        exact ⟨by omega, by exact_mod_cast r2, r3, r4⟩

/-- C104, started from zero, that is from either representation of it: the program never returns exactly if repeated halving of the upper end
reaches two with the answer no at every step; otherwise it returns a number of the interval that answers yes and whose successor answers no. -/
theorem C104_zero_iff {L : Limits} (h : Custom L) {env : Env} (hm : env.Ample) (hd : env.debug = false) {one two lo hi : Bignum}
    (w1 : WF L one) (v1 : one.toInt L = 1) (w2 : WF L two) (v2 : two.toInt L = 2) (hlo : lo = ⟨.pos, []⟩ ∨ lo = ⟨.pos, [0]⟩) (whi : WF L hi)
    (h0 : 0 < hi.toInt L) {test : Nat → Bignum → Res Bool} {P : Int → Bool} {n₀ : Nat}
    (ht : ∀ n, n₀ ≤ n → ∀ x, WF L x → 0 < x.toInt L → x.toInt L < hi.toInt L → test n x = .ok (P (x.toInt L)))
    (hz : ∀ n, n₀ ≤ n → test n ⟨.pos, [0]⟩ = .ok true) (hl : P 0 = true) (hh : P (hi.toInt L) = false) :
    ((∃ k : Nat, hi.toInt L / 2 ^ k = 2 ∧ ∀ j : Nat, 1 ≤ j → j ≤ k → P (hi.toInt L / 2 ^ j) = false) →
      Evaluates (fun n => bisect L env n one two (test n) lo hi) (.error .timeout)) ∧
    (¬ (∃ k : Nat, hi.toInt L / 2 ^ k = 2 ∧ ∀ j : Nat, 1 ≤ j → j ≤ k → P (hi.toInt L / 2 ^ j) = false) →
      ∃ r, Evaluates (fun n => bisect L env n one two (test n) lo hi) (.ok r) ∧ WF L r ∧ 0 ≤ r.toInt L ∧ r.toInt L < hi.toInt L ∧
        P (r.toInt L) = true ∧ P (r.toInt L + 1) = false) := by
  have hB := h.supported.base_ge
  have e1 := eq_pos hB w1 (by omega)
  have e2 := eq_pos hB w2 (by omega)
  have eh := eq_pos hB whi h0
  rw [v1] at e1; rw [v2] at e2
  have ch : hi.toInt L = (hi.toInt L).toNat := by omega
  rw [ch] at hh ht h0 ⊢
  generalize (hi.toInt L).toNat = v at *
  subst e1 e2 eh
  rw [show Int.toNat 1 = 1 from rfl, show Int.toNat 2 = 2 from rfl]
  have key : (∃ k : Nat, (v : Int) / 2 ^ k = 2 ∧ ∀ j : Nat, 1 ≤ j → j ≤ k → P ((v : Int) / 2 ^ j) = false) ↔ Halves (fun k => P (k : Int)) v := by
    unfold Halves
    refine exists_congr fun k => and_congr ?_ (forall_congr' fun j => ?_)
    · constructor <;> intro h' <;> exact_mod_cast h'
    · push_cast; exact Iff.rfl
  rw [key]
  have ht' : ∀ n, n₀ ≤ n → ∀ k : Nat, 0 < k → k < v → test n (numeral L .pos k) = .ok (P (k : Int)) := fun n hn k hk hk' => by
    have := ht n hn (numeral L .pos k) (numeral_wf hB (.inl rfl) k)
    rw [toInt_of_pos rfl, numeral_mag] at this
    exact this (by omega) (by omega)
  constructor
  · intro hst
    refine ⟨n₀ + v.size + 5, fun n hn => ?_⟩
    show bisect L env n _ _ _ _ _ = _
    unfold bisect
    rw [zero_stuck h hm hd (top := v) (n := n) (by omega) (ht' n (by omega)) (hz n (by omega)) n v hlo le_rfl hst]
    rfl
  · intro hst
    obtain ⟨r, e1, e2, e3, e4, e5, e6⟩ := zero_ends h hm hd (top := v) (n₀ := n₀) (test := test) ht' hlo hl v (by omega) le_rfl hh hst
    have er : ((r.toInt L).toNat : Int) = r.toInt L := by omega
    refine ⟨r, ⟨n₀ + v + v.size + 5, fun n hn => ?_⟩, e2, e3, e4, by rwa [er] at e5, ?_⟩
    · obtain ⟨s, s1, s2⟩ := e1 n n (by omega) (by omega) (by omega)
      show bisect L env n _ _ _ _ _ = _
      unfold bisect
      rw [s1, ok_bind, s2]
    · rwa [show (((r.toInt L).toNat + 1 : Nat) : Int) = r.toInt L + 1 by omega] at e6

example := C104_zero_iff (L := .base10) Sample.base10 Sample.ample rfl (one := Sample.n1) (two := Sample.n2) (lo := Bignum.default)
  (hi := Sample.n23) (test := fun _ x => .ok (decide (x.toInt .base10 ≤ 7))) (P := fun v => decide (v ≤ 7)) (n₀ := 0)
  (by sample) (by sample) (by sample) (by sample) (.inl rfl) (by sample) (by sample)
  (fun _ _ _ _ _ _ => rfl) (fun _ _ => by decide) (by decide) (by sample)

/-- C104, started from zero with a test that answers no to everything above a no: it never returns exactly if the binary numeral of the upper end
begins with 10 and the test answers no to two. -/
theorem C104_zero_monotone {L : Limits} (h : Custom L) {env : Env} (hm : env.Ample) (hd : env.debug = false) {one two lo hi : Bignum}
    (w1 : WF L one) (v1 : one.toInt L = 1) (w2 : WF L two) (v2 : two.toInt L = 2) (hlo : lo = ⟨.pos, []⟩ ∨ lo = ⟨.pos, [0]⟩) (whi : WF L hi)
    (h0 : 0 < hi.toInt L) {test : Nat → Bignum → Res Bool} {P : Int → Bool} {n₀ : Nat}
    (ht : ∀ n, n₀ ≤ n → ∀ x, WF L x → 0 < x.toInt L → x.toInt L < hi.toInt L → test n x = .ok (P (x.toInt L)))
    (hz : ∀ n, n₀ ≤ n → test n ⟨.pos, [0]⟩ = .ok true) (hl : P 0 = true) (hh : P (hi.toInt L) = false)
    (mono : ∀ a b, a ≤ b → P a = false → P b = false) :
    ((∃ k : Nat, hi.toInt L / 2 ^ k = 2) ∧ P 2 = false → Evaluates (fun n => bisect L env n one two (test n) lo hi) (.error .timeout)) ∧
    (¬ ((∃ k : Nat, hi.toInt L / 2 ^ k = 2) ∧ P 2 = false) →
      ∃ r, Evaluates (fun n => bisect L env n one two (test n) lo hi) (.ok r) ∧ WF L r ∧ 0 ≤ r.toInt L ∧ r.toInt L < hi.toInt L ∧
        P (r.toInt L) = true ∧ P (r.toInt L + 1) = false) := by
  obtain ⟨h1, h2⟩ := C104_zero_iff h hm hd w1 v1 w2 v2 hlo whi h0 ht hz hl hh
  constructor
  · rintro ⟨⟨k, hk⟩, hp⟩
    refine h1 ⟨k, hk, fun j _ hj => mono 2 _ ?_ hp⟩
    obtain ⟨i, rfl⟩ := Nat.exists_eq_add_of_le hj
    rw [pow_add, ← Int.ediv_ediv_of_nonneg (show (0 : Int) ≤ 2 ^ j by positivity)] at hk
    have hn : 0 ≤ hi.toInt L / 2 ^ j := Int.ediv_nonneg h0.le (by positivity)
    have := Int.ediv_le_self (2 ^ i) hn
    rwa [hk] at this
  · intro hn
    refine h2 fun ⟨k, hk, hj⟩ => hn ⟨⟨k, hk⟩, ?_⟩
    rcases Nat.eq_zero_or_pos k with rfl | hk0
    · rw [pow_zero, Int.ediv_one] at hk
      rw [← hk]; exact hh
    · rw [← hk]; exact hj k hk0 le_rfl

example := C104_zero_monotone (L := .base10) Sample.base10 Sample.ample rfl (one := Sample.n1) (two := Sample.n2) (lo := Bignum.default)
  (hi := Sample.n23) (test := fun _ x => .ok (decide (x.toInt .base10 ≤ 7))) (P := fun v => decide (v ≤ 7)) (n₀ := 0)
  (by sample) (by sample) (by sample) (by sample) (.inl rfl) (by sample) (by sample)
  (fun _ _ _ _ _ _ => rfl) (fun _ _ => by decide) (by decide) (by sample) (fun a b hab h => by simp at h ⊢; omega)

/-- C104, square roots by bisection from zero: of all numbers above zero exactly 1 and 3 make it run for ever, and the rest get their square
root. -/
theorem C104_sqrt_zero {F : Type} {o : FloatOps F} (M : Ieee o) {L : Limits} {K : Nat} (hp : Preset L K) {env : Env} (hm : env.Ample)
    (hd : env.debug = false) {one two zero m top : Bignum} (w1 : WF L one) (v1 : one.toInt L = 1) (w2 : WF L two) (v2 : two.toInt L = 2)
    (hz : zero = ⟨.pos, []⟩ ∨ zero = ⟨.pos, [0]⟩) (wm : WF L m) (h0 : 0 < m.toInt L) (wt : WF L top) (vt : top.toInt L = m.toInt L + 1)
    (hK : 2 * top.digits.length ≤ K) :
    (m.toInt L = 1 ∨ m.toInt L = 3 → Evaluates (fun n => bisect L env n one two (squareAtMost o L env m n) zero top) (.error .timeout)) ∧
    (m.toInt L ≠ 1 → m.toInt L ≠ 3 → ∃ r, Evaluates (fun n => bisect L env n one two (squareAtMost o L env m n) zero top) (.ok r) ∧ WF L r ∧
      r.toInt L = Nat.sqrt (m.toInt L).toNat) := by
  have hc := hp.custom
  have hB := hc.supported.base_ge
  have tm := toInt_of_pos (L := L) (desc_of_pos wm h0)
  have tt := toInt_of_pos (L := L) (desc_of_pos wt (by omega))
  have lt0 := length_pos (mag_ne_nil (L := L) (x := top) (by omega))
  have sq : ∀ n, 33 ≤ n → ∀ x : Bignum, WF L x → x.desc = .pos → 0 < x.digits.length → x.digits.length ≤ top.digits.length →
      squareAtMost o L env m n x = .ok (decide (x.toInt L * x.toInt L ≤ m.toInt L)) := by
    intro n hn x wx dx lx0 lx
    have tx := toInt_of_pos (L := L) dx
    unfold squareAtMost
    have hle := pos_le hB (x.mag L * x.mag L) (m.toInt L).toNat
    rw [← eq_pos hB wm h0] at hle
    rw [mul_numeral M hp hm wx wx (by omega) (by omega) (by omega), ok_bind, dx, show signRule .pos .pos = .pos from rfl, hle]
    congr 1
    rw [decide_eq_decide, tx]
    constructor <;> intro h
    · have : ((x.mag L * x.mag L : Nat) : Int) ≤ (m.toInt L).toNat := by exact_mod_cast h
      push_cast at this; omega
    · have : ((x.mag L * x.mag L : Nat) : Int) ≤ (m.toInt L).toNat := by push_cast; omega
      exact_mod_cast this
  obtain ⟨g1, g2⟩ := C104_zero_iff hc hm hd w1 v1 w2 v2 hz wt (by omega) (n₀ := 33)
    (test := squareAtMost o L env m) (P := fun z => decide (z * z ≤ m.toInt L)) (by
      intro n hn x wx x0 xt
      have tx := toInt_of_pos (L := L) (desc_of_pos wx x0)
      exact sq n hn x wx (desc_of_pos wx x0) (length_pos (mag_ne_nil (L := L) (by omega)))
        (length_le_of_natOf_le hB wt.2.1 (nlz_of_mag wx (by omega)) (by show x.mag L ≤ top.mag L; omega)))
    (fun n hn => by
      rw [sq n hn ⟨.pos, [0]⟩ (zero_wf' hc (.inr rfl)).1 rfl (by simp) lt0]
      have : (⟨.pos, [0]⟩ : Bignum).toInt L = 0 := by rw [toInt_of_pos rfl, (zero_wf' hc (.inr rfl)).2.1]; rfl
      rw [this, decide_eq_true (by omega)]) (by simp; omega) (by rw [vt]; simp; nlinarith)
  constructor
  · rintro (h1 | h1) <;> refine g1 ?_
    · exact ⟨0, by rw [vt, h1]; rfl, fun j h1 h2 => by omega⟩
    · refine ⟨1, by rw [vt, h1]; rfl, fun j h1' h2 => ?_⟩
      obtain rfl : j = 1 := by omega
      rw [vt, h1]; rfl
  · intro n1 n3
    obtain ⟨r, e1, e2, e3, e4, e5, e6⟩ := g2 (by
      rintro ⟨k, hk, hj⟩
      rcases Nat.eq_zero_or_pos k with rfl | hk0
      · rw [pow_zero, Int.ediv_one] at hk; omega
      · have := hj k hk0 le_rfl
        rw [hk] at this
        simp at this
        obtain h2 : m.toInt L = 2 := by omega
        rw [vt, h2] at hk
        obtain ⟨i, rfl⟩ : ∃ i, k = i + 1 := ⟨k - 1, by omega⟩
        rw [pow_succ', ← Int.ediv_ediv_of_nonneg (by norm_num)] at hk
        have : ((2 + 1 : Int) / 2) / 2 ^ i ≤ (2 + 1) / 2 := Int.ediv_le_self _ (by norm_num)
        rw [hk] at this
        norm_num at this)
    refine ⟨r, e1, e2, ?_⟩
    have em : m.toInt L = (m.toInt L).toNat := by omega
    have er : r.toInt L = (r.toInt L).toNat := by omega
    simp only [decide_eq_true_eq, decide_eq_false_iff_not, not_le] at e5 e6
    rw [er] at e5 e6 ⊢
    rw [em] at e5 e6
    congr 1
    exact Nat.eq_sqrt.2 ⟨by exact_mod_cast e5, by exact_mod_cast e6⟩

example {F : Type} {o : FloatOps F} (M : Ieee o) := C104_sqrt_zero M .base10 Sample.ample rfl (one := Sample.n1) (two := Sample.n2)
  (zero := Bignum.default) (m := ⟨.pos, [3]⟩) (top := ⟨.pos, [4]⟩) (by sample) (by sample) (by sample) (by sample) (.inl rfl)
  (by sample) (by sample) (by sample) (by sample) (by simp)

/-! ### C63 -/

/-- C63: exactly when the arithmetic test program leaves its first variable unchanged: unless that variable is 1 or -1 and the other is larger. -/
theorem C63_iff {F : Type} {o : FloatOps F} (M : Ieee o) {env : Nat → Env}
    (he : ∀ k, (env k).Ample ∧ (env k).debug = false) {s : Store} {v : Vars} (hs : Holds .base10 s v)
    (hab : 0 ≤ v 0 * v 1) (hb : v 1 ≠ 0) (ha' : (v 0).natAbs < 10 ^ 2 ^ 24) (hb' : (v 1).natAbs < 10 ^ 2 ^ 24) :
    ∃ s', Evaluates (fun n => run o .base10 n env s arithmeticTest) (some s') ∧
      ((s' 0).toInt .base10 = v 0 ↔ ¬ ((v 0).natAbs = 1 ∧ 2 ≤ (v 1).natAbs)) := by
  by_cases h1 : (v 0).natAbs = 1 ∧ 2 ≤ (v 1).natAbs
  · obtain ⟨s', e1, e2⟩ := C63_unit M he hs hab h1.1 h1.2 hb'
    refine ⟨s', e1, ⟨fun h => ?_, fun h => absurd h1 h⟩⟩
    omega
  · obtain ⟨s', e1, e2, -⟩ := C63_arithmetic_test_partial M he hs hab hb ha' hb' (fun h => by omega)
    exact ⟨s', e1, ⟨fun _ => h1, fun _ => e2⟩⟩

/-- The hypotheses are met: -12 and -7. -/
example {F : Type} {o : FloatOps F} (M : Ieee o) := by
  have big : ∀ k < 100, k < 10 ^ 2 ^ 24 := fun k hk =>
    Nat.lt_of_lt_of_le (by omega : k < 10 ^ 2 ^ 1) (Nat.pow_le_pow_right (by norm_num) (Nat.pow_le_pow_right (by norm_num) (by norm_num)))
  exact C63_iff M (env := fun _ => releaseEnv) (fun _ => ⟨releaseEnv_ample, rfl⟩) (s := fun i => if i = 0 then ⟨.neg, [2, 1]⟩ else ⟨.neg, [7]⟩)
    (v := fun i => if i = 0 then -12 else -7) (by
      intro i
      by_cases h : i = 0
      · subst h
        exact ⟨⟨.inr rfl, wfd_lits (by decide) (by simp [NoLeadingZero])⟩, by decide⟩
      · simp only [if_neg h]
        exact ⟨⟨.inr rfl, wfd_lits (by decide) (by simp [NoLeadingZero])⟩, by decide⟩) (by decide) (by decide) (big _ (by decide)) (big _ (by decide))

end BN
