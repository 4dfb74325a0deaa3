import Verif.Lemmas.Samples
import Verif.Model.ArithTest
import Verif.Props.Clients
/-
C83: the calculations of tests/arithmetic_test.cpp, for all operands of opposite signs.
-/
namespace BN
open Bignum

theorem sub_eval {L : Limits} {env : Env} (hm : env.Ample) {a b c : Bignum}
    (h : Evaluates (fun n => a.subAssign L env n (.other b)) (.ok c)) : Evaluates (fun n => a.sub L env n b) (.ok c) := by
  obtain ⟨n₀, h⟩ := h
  refine ⟨n₀, fun n hn => ?_⟩
  show a.sub L env n b = _
  unfold Bignum.sub viaCopy
  rw [copy_ok hm, ok_bind, show a.subAssign L env n (.other b) = _ from h n hn]

theorem add_eval {L : Limits} {env : Env} (hm : env.Ample) {a b c : Bignum}
    (h : Evaluates (fun n => a.addAssign L env n (.other b)) (.ok c)) : Evaluates (fun n => a.add L env n b) (.ok c) := by
  obtain ⟨n₀, h⟩ := h
  refine ⟨n₀, fun n hn => ?_⟩
  show a.add L env n b = _
  unfold Bignum.add viaCopy
  rw [copy_ok hm, ok_bind, show a.addAssign L env n (.other b) = _ from h n hn]

/-- The value the code computes for a difference of opposite signs (C17). -/
def WrongDiff (L : Limits) (a b c : Bignum) : Prop :=
  c.desc = a.desc ∧
    (AnyDigitGreater a.digits b.digits → (c.mag L : Int) = ((a.mag L : Int) - b.mag L) % ((L.base ^ a.digits.length : Nat) : Int)) ∧
    (¬ AnyDigitGreater a.digits b.digits → c.mag L = 0)

theorem opposite {a b : Bignum} (ha : Signed a.desc) (hb : Signed b.desc) (hs : a.desc ≠ b.desc) :
    (a.desc = .neg ∧ b.desc = .pos) ∨ (a.desc = .pos ∧ b.desc = .neg) := by
  rcases ha with h | h <;> rcases hb with h' | h' <;> simp_all

/-- C83: for all operands of opposite signs the comparisons, sums, products and quotients of the test are those of the integers; the
two differences are the values described by C17. -/
theorem C83_half_partial {F : Type} {o : FloatOps F} (M : Ieee o) {L : Limits} {K : Nat} (hp : Preset L K) {env : Env} (hm : env.Ample)
    (hd : env.debug = false) {a b : Bignum} (ha : WF L a) (hb : WF L b) (hs : a.desc ≠ b.desc) (ha0 : a.toInt L ≠ 0)
    (hb0 : b.toInt L ≠ 0) (hne : a.toInt L ≠ - b.toInt L) (hK : a.digits.length + b.digits.length ≤ K) :
    ∃ h : Half, Evaluates (fun n => half o L env n a b) (.ok h) ∧
      h.gt = decide (a.toInt L > b.toInt L) ∧ h.ge = decide (a.toInt L ≥ b.toInt L) ∧
      h.lt = decide (a.toInt L < b.toInt L) ∧ h.le = decide (a.toInt L ≤ b.toInt L) ∧
      h.add.toInt L = a.toInt L + b.toInt L ∧ h.add'.toInt L = a.toInt L + b.toInt L ∧
      h.mul.toInt L = a.toInt L * b.toInt L ∧ h.mul'.toInt L = a.toInt L * b.toInt L ∧
      h.div.toInt L = (a.toInt L).tdiv (b.toInt L) ∧ h.div'.toInt L = (b.toInt L).tdiv (a.toInt L) ∧
      WrongDiff L a b h.sub ∧ WrongDiff L b a h.sub' := by
  have hL := hp.custom.supported
  have hmag : ∀ {x : Bignum}, Signed x.desc → x.toInt L ≠ 0 → x.mag L ≠ 0 := by
    intro x hx h h'
    apply h
    rw [toInt_of_signed hx]
    simp only [mag] at h'
    rw [h']
    simp
  have ma := hmag ha.1 ha0
  have mb := hmag hb.1 hb0
  have na := mag_ne_nil ma
  have nb := mag_ne_nil mb
  have hmne : a.mag L ≠ b.mag L := by
    intro h
    apply hne
    rw [toInt_of_signed ha.1, toInt_of_signed hb.1]
    simp only [mag] at h
    rcases opposite ha.1 hb.1 hs with ⟨h1, h2⟩ | ⟨h1, h2⟩ <;> rw [h1, h2, h] <;> simp
  obtain ⟨c1, e1, -, v1⟩ := C09_add_exact hL hm hd (r := .other b) ha hb (fun h => na h.2.1)
  obtain ⟨c1', e1', -, v1'⟩ := C09_add_exact hL hm hd (r := .other a) hb ha (fun h => nb h.2.1)
  obtain ⟨c2, e2, w1, -, w2, w3⟩ := C17_sub_opposite_sign hL hm hd ha.1 hb.1 hs.symm ha.2.1 hb.2.1 (fun h => na h.1)
  obtain ⟨c2', e2', w1', -, w2', w3'⟩ := C17_sub_opposite_sign hL hm hd hb.1 ha.1 hs hb.2.1 ha.2.1 (fun h => nb h.1)
  obtain ⟨c4, e4, -, v4⟩ := C31_div_operator hp.custom hm hd ha hb mb hmne
  obtain ⟨c4', e4', -, v4'⟩ := C31_div_operator hp.custom hm hd hb ha ma hmne.symm
  obtain ⟨n1, e1⟩ := add_eval hm e1
  obtain ⟨n1', e1'⟩ := add_eval hm e1'
  obtain ⟨n2, e2⟩ := sub_eval hm e2
  obtain ⟨n2', e2'⟩ := sub_eval hm e2'
  obtain ⟨n4, e4⟩ := e4
  obtain ⟨n4', e4'⟩ := e4'
  have la := length_pos na
  have v3 := toInt_mul_numeral (L := L) ha.1 hb.1
  have v3' := toInt_mul_numeral (L := L) hb.1 ha.1
  have hcmp : a.gt b = .ok (decide (a.toInt L > b.toInt L)) ∧ a.ge b = .ok (decide (a.toInt L ≥ b.toInt L)) ∧
      a.lt b = .ok (decide (a.toInt L < b.toInt L)) ∧ a.le b = .ok (decide (a.toInt L ≤ b.toInt L)) := by
    have ma' : 0 < natOf L.base a.digits := Nat.pos_of_ne_zero ma
    have mb' : 0 < natOf L.base b.digits := Nat.pos_of_ne_zero mb
    rcases opposite ha.1 hb.1 hs with ⟨h1, h2⟩ | ⟨h1, h2⟩
    · obtain ⟨-, -, -, -, g1, g2, g3, g4⟩ := C08_opposite_signs b a h2 h1
      have hlt : a.toInt L < b.toInt L := by
        rw [toInt_of_signed ha.1, toInt_of_signed hb.1, h1, h2]
        simp
        omega
      rw [g1, g2, g3, g4]
      simp [hlt, hlt.le]
    · obtain ⟨g1, g2, g3, g4, -⟩ := C08_opposite_signs a b h1 h2
      have hlt : b.toInt L < a.toInt L := by
        rw [toInt_of_signed ha.1, toInt_of_signed hb.1, h1, h2]
        simp
        omega
      rw [g1, g2, g3, g4]
      simp [hlt, hlt.le]
  refine ⟨⟨_, _, _, _, c1, c2, _, c4, c1', c2', _, c4'⟩,
    ⟨n1 + n1' + n2 + n2' + n4 + n4' + 33, fun n hn => ?_⟩, rfl, rfl, rfl, rfl, v1, v1'.trans (Int.add_comm _ _), v3,
    v3'.trans (Int.mul_comm _ _), v4, v4', ⟨w1, w2, w3⟩, ⟨w1', w2', w3'⟩⟩
  show half o L env n a b = _
  have e1 : a.add L env n b = .ok c1 := e1 n (by omega)
  have e1' : b.add L env n a = .ok c1' := e1' n (by omega)
  have e2 : a.sub L env n b = .ok c2 := e2 n (by omega)
  have e2' : b.sub L env n a = .ok c2' := e2' n (by omega)
  have e4 : a.div L env n b = .ok c4 := e4 n (by omega)
  have e4' : b.div L env n a = .ok c4' := e4' n (by omega)
  have e3 := mul_numeral M hp hm ha hb (by omega) hK (n := n) (by omega)
  have e3' := mul_numeral M hp hm hb ha (by omega) (by omega) (n := n) (by omega)
  unfold half
  rw [hcmp.1, hcmp.2.1, hcmp.2.2.1, hcmp.2.2.2, e1, e1', e2, e2', e3, e3', e4, e4']
  rfl

example {F : Type} {o : FloatOps F} (M : Ieee o) := C83_half_partial M .base10 Sample.ample rfl (a := Sample.n199)
  (b := Sample.m23) (by sample) (by sample) (by sample) (by sample) (by sample) (by sample) (by sample)

theorem testNums {L : Limits} {env : Env} (hm : env.Ample) :
    ofList env .neg [1, L.maxLimit, L.maxLimit] = .ok ⟨.neg, [L.maxLimit, L.maxLimit, 1]⟩ ∧
    ofList env .pos [L.minLimit, 1, L.minLimit] = .ok ⟨.pos, [0, 1]⟩ := by
  rw [ofList_eq hm, ofList_eq hm]
  exact ⟨rfl, rfl⟩

theorem testNum_wf {L : Limits} (hB : 2 ≤ L.base) {d : Desc} (hd : Signed d) :
    WF L ⟨d, [L.maxLimit, L.maxLimit, 1]⟩ ∧ WF L ⟨d, [0, 1]⟩ := by
  have h1 : L.maxLimit < L.base := Nat.lt_succ_self _
  refine ⟨⟨hd, ?_, .inl (by simp [NoLeadingZero])⟩, ⟨hd, ?_, .inl (by simp [NoLeadingZero])⟩⟩
  · intro x hx
    have hx : x ∈ [L.maxLimit, L.maxLimit, 1] := hx
    simp only [List.mem_cons, List.not_mem_nil, or_false] at hx
    omega
  · intro x hx
    have hx : x ∈ [0, 1] := hx
    simp only [List.mem_cons, List.not_mem_nil, or_false] at hx
    omega

theorem testNum_mag {L : Limits} (d : Desc) :
    ((⟨d, [L.maxLimit, L.maxLimit, 1]⟩ : Bignum).mag L : Int) = 2 * (L.base : Int) ^ 2 - 1 ∧
    ((⟨d, [0, 1]⟩ : Bignum).mag L : Int) = L.base := by
  have h : (L.maxLimit : Int) = L.base - 1 := by simp [Limits.base]
  constructor
  · show ((natOf L.base [L.maxLimit, L.maxLimit, 1] : Nat) : Int) = _
    simp only [natOf_cons, natOf_nil]
    push_cast
    rw [h]
    ring
  · show ((natOf L.base [0, 1] : Nat) : Int) = _
    simp [natOf_cons]

theorem x_div {B : Int} (hB : 2 ≤ B) : (2 * B ^ 2 - 1).tdiv B = 2 * B - 1 ∧ B.tdiv (2 * B ^ 2 - 1) = 0 := by
  constructor
  · rw [Int.tdiv_eq_ediv_of_nonneg (by nlinarith)]
    refine Int.ediv_eq_iff_of_pos (by omega) |>.2 ⟨by nlinarith, by nlinarith⟩
  · exact Int.tdiv_eq_zero_of_lt (by omega) (by nlinarith)

theorem diff_values {L : Limits} (hB : 2 ≤ L.base) {d d' : Desc} {c c' : Bignum}
    (h : WrongDiff L ⟨d, [L.maxLimit, L.maxLimit, 1]⟩ ⟨d', [0, 1]⟩ c) (h' : WrongDiff L ⟨d', [0, 1]⟩ ⟨d, [L.maxLimit, L.maxLimit, 1]⟩ c') :
    c.desc = d ∧ (c.mag L : Int) = 2 * (L.base : Int) ^ 2 - 1 - L.base ∧ c'.desc = d' ∧ c'.mag L = 0 := by
  have hB' : (2 : Int) ≤ L.base := by exact_mod_cast hB
  refine ⟨h.1, ?_, h'.1, h'.2.2 ?_⟩
  · rw [h.2.1 (.inl (by simp)), (testNum_mag d).1, (testNum_mag d').2]
    refine Int.emod_eq_of_lt (by nlinarith) ?_
    show _ < ((L.base ^ 3 : Nat) : Int)
    push_cast
    nlinarith [mul_nonneg (sq_nonneg (L.base : Int)) (sub_nonneg.2 hB')]
  · rintro (h | h)
    · simp at h
    · simp at h

/-- C83, the test program itself, for each of its four bases `B`: with x = 2B²-1 it compares -x with B, then x with -B. It terminates without
an exception; the differences it prints are wrong in all four places. -/
theorem C83_program {F : Type} {o : FloatOps F} (M : Ieee o) {L : Limits} {K : Nat} (hp : Preset L K) {env : Env} (hm : env.Ample)
    (hd : env.debug = false) : ∃ f g : Half, Evaluates (fun n => testMacro o L env n) (.ok (f, g)) ∧
      (f.gt = false ∧ f.ge = false ∧ f.lt = true ∧ f.le = true ∧ g.gt = true ∧ g.ge = true ∧ g.lt = false ∧ g.le = false) ∧
      (f.add.toInt L = L.base - (2 * (L.base : Int) ^ 2 - 1) ∧ f.mul.toInt L = - ((2 * (L.base : Int) ^ 2 - 1) * L.base) ∧
        f.div.toInt L = - (2 * (L.base : Int) - 1) ∧ f.div'.toInt L = 0) ∧
      (g.add.toInt L = (2 * (L.base : Int) ^ 2 - 1) - L.base ∧ g.mul.toInt L = - ((2 * (L.base : Int) ^ 2 - 1) * L.base) ∧
        g.div.toInt L = - (2 * (L.base : Int) - 1) ∧ g.div'.toInt L = 0) ∧
      (f.sub.toInt L = - (2 * (L.base : Int) ^ 2 - 1 - L.base) ∧ f.sub'.toInt L = 0 ∧
        g.sub.toInt L = 2 * (L.base : Int) ^ 2 - 1 - L.base ∧ g.sub'.toInt L = 0) := by
  have hB := hp.custom.supported.base_ge
  have hB' : (2 : Int) ≤ L.base := by exact_mod_cast hB
  have hK : 3 + 2 ≤ K := by cases hp <;> norm_num
  have hX : (L.base : Int) < 2 * (L.base : Int) ^ 2 - 1 := by nlinarith
  have tp : ∀ {c : Bignum}, c.desc = .pos → c.toInt L = c.mag L := by
    intro c h
    rw [toInt_of_signed (.inl h), if_pos h]; rfl
  have tn : ∀ {c : Bignum}, c.desc = .neg → c.toInt L = - c.mag L := by
    intro c h
    rw [toInt_of_signed (.inr h), h]; rfl
  have v1 : (⟨.neg, [L.maxLimit, L.maxLimit, 1]⟩ : Bignum).toInt L = - (2 * (L.base : Int) ^ 2 - 1) := by
    rw [tn rfl, (testNum_mag _).1]
  have v2 : (⟨.pos, [0, 1]⟩ : Bignum).toInt L = L.base := by rw [tp rfl, (testNum_mag _).2]
  have u1 : (⟨.pos, [L.maxLimit, L.maxLimit, 1]⟩ : Bignum).toInt L = 2 * (L.base : Int) ^ 2 - 1 := by
    rw [tp rfl, (testNum_mag _).1]
  have u2 : (⟨.neg, [0, 1]⟩ : Bignum).toInt L = - L.base := by rw [tn rfl, (testNum_mag _).2]
  obtain ⟨f, ⟨n1, f0⟩, f1, f2, f3, f4, f5, -, f7, -, f9, f10, f11, f12⟩ := C83_half_partial M hp hm hd (testNum_wf hB (.inr rfl)).1
    (testNum_wf hB (.inl rfl)).2 (by simp) (by rw [v1]; omega) (by rw [v2]; omega) (by rw [v1, v2]; omega) hK
  obtain ⟨g, ⟨n2, g0⟩, g1, g2, g3, g4, g5, -, g7, -, g9, g10, g11, g12⟩ := C83_half_partial M hp hm hd (testNum_wf hB (.inl rfl)).1
    (testNum_wf hB (.inr rfl)).2 (by simp) (by rw [u1]; omega) (by rw [u2]; omega) (by rw [u1, u2]; omega) hK
  rw [v1, v2] at f1 f2 f3 f4 f5 f7 f9 f10
  rw [u1, u2] at g1 g2 g3 g4 g5 g7 g9 g10
  obtain ⟨a1, a2, a3, a4⟩ := diff_values hB f11 f12
  obtain ⟨b1, b2, b3, b4⟩ := diff_values hB g11 g12
  obtain ⟨q1, q2⟩ := x_div hB'
  rw [Int.neg_tdiv, q1] at f9
  rw [Int.tdiv_neg, q2] at f10
  rw [Int.tdiv_neg, q1] at g9
  rw [Int.neg_tdiv, q2] at g10
  refine ⟨f, g, ⟨n1 + n2, fun n hn => ?_⟩, ⟨?_, ?_, ?_, ?_, ?_, ?_, ?_, ?_⟩, ⟨by rw [f5]; ring, by rw [f7]; ring, f9, by rw [f10]; rfl⟩,
    ⟨by rw [g5]; ring, by rw [g7]; ring, g9, by rw [g10]; rfl⟩, by rw [tn a1, a2], by rw [tp a3, a4]; rfl, by rw [tp b1, b2],
    by rw [tn b3, b4]; rfl⟩
  · show testMacro o L env n = _
    have f0 : half o L env n ⟨.neg, [L.maxLimit, L.maxLimit, 1]⟩ ⟨.pos, [0, 1]⟩ = .ok f := f0 n (by omega)
    have g0 : half o L env n ⟨.pos, [L.maxLimit, L.maxLimit, 1]⟩ ⟨.neg, [0, 1]⟩ = .ok g := g0 n (by omega)
    unfold testMacro
    rw [(testNums hm).1, ok_bind, (testNums hm).2, ok_bind, f0, ok_bind]
    show (half o L env n ⟨.pos, [L.maxLimit, L.maxLimit, 1]⟩ ⟨.neg, [0, 1]⟩ >>= _) = _
    rw [g0]
    rfl
  · rw [f1, decide_eq_false_iff_not]; omega
  · rw [f2, decide_eq_false_iff_not]; omega
  · rw [f3, decide_eq_true_eq]; omega
  · rw [f4, decide_eq_true_eq]; omega
  · rw [g1, decide_eq_true_eq]; omega
  · rw [g2, decide_eq_true_eq]; omega
  · rw [g3, decide_eq_false_iff_not]; omega
  · rw [g4, decide_eq_false_iff_not]; omega

example {F : Type} {o : FloatOps F} (M : Ieee o) := C83_program M .base10 Sample.ample rfl

/-- C83, refuted: every difference the test program prints is wrong. -/
theorem C83_refuted {F : Type} {o : FloatOps F} (M : Ieee o) {L : Limits} {K : Nat} (hp : Preset L K) :
    ∃ f g : Half, Evaluates (fun n => testMacro o L releaseEnv n) (.ok (f, g)) ∧
      f.sub.toInt L ≠ - (2 * (L.base : Int) ^ 2 - 1) - L.base ∧ f.sub'.toInt L ≠ L.base + (2 * (L.base : Int) ^ 2 - 1) ∧
      g.sub.toInt L ≠ 2 * (L.base : Int) ^ 2 - 1 + L.base ∧ g.sub'.toInt L ≠ - L.base - (2 * (L.base : Int) ^ 2 - 1) := by
  have hB' : (2 : Int) ≤ L.base := by exact_mod_cast hp.custom.supported.base_ge
  obtain ⟨f, g, h, -, -, -, h1, h2, h3, h4⟩ := C83_program M hp releaseEnv_ample rfl
  have hX : (L.base : Int) < 2 * (L.base : Int) ^ 2 - 1 := by nlinarith
  exact ⟨f, g, h, by omega, by omega, by omega, by omega⟩

example : ∃ a b : Bignum, WF .base10 a ∧ WF .base10 b ∧ a.desc ≠ b.desc ∧ a.toInt .base10 ≠ 0 ∧ b.toInt .base10 ≠ 0 ∧
    a.toInt .base10 ≠ - b.toInt .base10 ∧ a.digits.length + b.digits.length ≤ 2 ^ 25 :=
  ⟨⟨.neg, [9, 9, 1]⟩, ⟨.pos, [0, 1]⟩,
    by simp [WF, Signed, WFDigits, InRange, NoLeadingZero, Limits.base, Limits.base10, Limits.custom],
    by simp [WF, Signed, WFDigits, InRange, NoLeadingZero, Limits.base, Limits.base10, Limits.custom], by decide, by decide, by decide, by decide,
    by decide⟩

end BN
