import Verif.Lemmas.Samples
import Verif.Props.Sqrt
import Mathlib.Data.Nat.Digits.Lemmas
/-
C90: writing a number in another base by repeated division.
-/
namespace BN
open Bignum

structure ConvSt where
  x : Bignum
  out : List Bignum

/-- `while (x != zero) { out.push_back(x - (x / d) * d); x = x / d; }` with `zero` = `bignum{BN_POS, {0}}` -/
def convertLoop {F : Type} (o : FloatOps F) (L : Limits) (env : Env) (n : Nat) (d : Bignum) : Nat → ConvSt → Res ConvSt :=
  loopWhile (fun s => s.x.ne ⟨.pos, [0]⟩) (fun s => do
    let r ← remainder o L env n s.x d
    let q ← s.x.div L env n d
    .ok ⟨q, s.out ++ [r]⟩)

def convert {F : Type} (o : FloatOps F) (L : Limits) (env : Env) (n : Nat) (d x : Bignum) : Res (List Bignum) := do
  let s ← convertLoop o L env n d n ⟨x, []⟩
  .ok s.out

/-- The digits the loop produces: a number equal to the base becomes one digit. -/
def convDigits (D : Nat) : Nat → Nat → List Nat
  | 0, _ => []
  | k + 1, x => if x = 0 then [] else if x = D then [D] else x % D :: convDigits D k (x / D)

theorem convDigits_value {D : Nat} (hD : 2 ≤ D) : ∀ (k x : Nat), x ≤ k → Nat.ofDigits D (convDigits D k x) = x
  | 0, x, h => by simp [convDigits]; omega
  | k + 1, x, h => by
    rw [convDigits]
    split
    · next h0 => simp [h0]
    · next h0 =>
      split
      · next h1 => simp [h1]
      · rw [Nat.ofDigits_cons, convDigits_value hD k (x / D) (by have := Nat.div_lt_self (by omega : 0 < x) (by omega : 1 < D); omega)]
        exact Nat.mod_add_div x D

theorem convDigits_stable {D : Nat} (hD : 2 ≤ D) : ∀ (k k' x : Nat), x ≤ k → x ≤ k' → convDigits D k x = convDigits D k' x
  | 0, 0, x, h, h' => rfl
  | 0, k' + 1, x, h, h' => by rw [convDigits, convDigits, if_pos (by omega)]
  | k + 1, 0, x, h, h' => by rw [convDigits, convDigits, if_pos (by omega)]
  | k + 1, k' + 1, x, h, h' => by
    rw [convDigits, convDigits]
    by_cases h0 : x = 0
    · rw [if_pos h0, if_pos h0]
    · have := Nat.div_lt_self (by omega : 0 < x) (by omega : 1 < D)
      rw [convDigits_stable hD k k' (x / D) (by omega) (by omega)]

theorem convDigits_digit {D : Nat} (hD : 2 ≤ D) : ∀ (k x : Nat), ∀ r ∈ convDigits D k x, r ≤ D
  | 0, x => by simp [convDigits]
  | k + 1, x => by
    rw [convDigits]
    split
    · simp
    · split
      · simp
      · intro r hr
        rcases List.mem_cons.1 hr with rfl | hr
        · exact (Nat.mod_lt _ (by omega)).le
        · exact convDigits_digit hD k _ r hr

theorem convDigits_eq {D : Nat} (hD : 2 ≤ D) : ∀ (k x : Nat), x ≤ k → (∀ j, x / D ^ j ≠ D) → convDigits D k x = Nat.digits D x
  | 0, x, h, _ => by have : x = 0 := by omega
                     simp [convDigits, this]
  | k + 1, x, h, hne => by
    rw [convDigits]
    split
    · next h0 => simp [h0]
    · next h0 =>
      rw [if_neg (by simpa using hne 0), Nat.digits_def' (by omega) (by omega),
        convDigits_eq hD k (x / D) (by have := Nat.div_lt_self (by omega : 0 < x) (by omega : 1 < D); omega) (fun j => ?_)]
      rw [Nat.div_div_eq_div_mul, ← pow_succ']
      exact hne (j + 1)

/-- The wrong case: a base-`D` numeral beginning with 1, 0. -/
theorem convDigits_ne {D : Nat} (hD : 2 ≤ D) : ∀ (k x j : Nat), x ≤ k → x / D ^ j = D → D ∈ convDigits D k x
  | 0, x, j, h, hj => by
    have : x = 0 := by omega
    rw [this, Nat.zero_div] at hj
    omega
  | k + 1, x, j, h, hj => by
    have hx : x ≠ 0 := by rintro rfl; rw [Nat.zero_div] at hj; omega
    rw [convDigits, if_neg hx]
    split
    · simp
    · next hxD =>
      cases j with
      | zero => simp at hj; exact absurd hj hxD
      | succ j =>
        refine List.mem_cons_of_mem _ (convDigits_ne hD k (x / D) j (by have := Nat.div_lt_self (by omega : 0 < x) (by omega : 1 < D); omega) ?_)
        rw [Nat.div_div_eq_div_mul, ← pow_succ']
        exact hj

theorem ne_zero_digit {L : Limits} (hB : 2 ≤ L.base) {x : Bignum} (hx : WF L x) (hpx : x.desc = .pos) (h0 : x.digits ≠ []) :
    x.ne ⟨.pos, [0]⟩ = .ok (decide (x.mag L ≠ 0)) := by
  unfold Bignum.ne
  rw [if_neg (by simp [hpx]), absEq_eq, ok_bind]
  congr 1
  have : x.digits = [0] ↔ x.mag L = 0 := by
    constructor
    · intro h; show natOf _ x.digits = 0; rw [h]; rfl
    · intro h
      rcases hx.2.2 with h1 | h1
      · exact absurd ((natOf_eq_zero_iff (by omega) h1).1 h) h0
      · exact h1
  by_cases h : x.mag L = 0 <;> simp [h, this]

theorem convert_loop {F : Type} {o : FloatOps F} (M : Ieee o) {L : Limits} {K : Nat} (hp : Preset L K) {env : Env}
    (hm : env.Ample) (hd : env.debug = false) {d : Bignum} (hdw : WF L d) (hpd : d.desc = .pos) (hD : 2 ≤ d.mag L) {n : Nat} (hn : 32 < n) :
    ∀ (k : Nat) (x : Bignum) (out : List Bignum), WF L x → x.desc = .pos → x.digits ≠ [] → x.digits.length + d.digits.length ≤ K →
    (x.mag L).size + 4 ≤ n → x.mag L < k →
    ∃ s, convertLoop o L env n d k ⟨x, out⟩ = .ok s ∧
      s.out = out ++ (convDigits (d.mag L) k (x.mag L)).map (numeral L .pos)
  | 0, _, _, _, _, _, _, _, h => absurd h (by omega)
  | k + 1, x, out, hx, hpx, h0, hK, hs, hk => by
    have hB := hp.custom.supported.base_ge
    have hxl := size_bound hB hx
    have hstep : convertLoop o L env n d (k + 1) ⟨x, out⟩ = (x.ne ⟨.pos, [0]⟩ >>= fun b => if b = true then
        (do let r ← remainder o L env n x d
            let q ← x.div L env n d
            .ok (⟨q, out ++ [r]⟩ : ConvSt)) >>= convertLoop o L env n d k else .ok ⟨x, out⟩) := rfl
    rw [hstep, ne_zero_digit hB hx hpx h0, ok_bind, convDigits]
    by_cases hx0 : x.mag L = 0
    · rw [hx0]
      exact ⟨⟨x, out⟩, rfl, by simp⟩
    rw [if_pos (by simpa using hx0), if_neg hx0]
    have hdl : 1 ≤ d.digits.length := length_pos (mag_ne_nil (x := d) (L := L) (by omega))
    have hsd : signRule x.desc d.desc = .pos := by rw [hpx, hpd]; rfl
    have w0 : WF L ⟨.pos, [0]⟩ := ⟨.inl rfl, by intro d hd; rw [List.mem_singleton.1 hd]; omega, .inr rfl⟩
    by_cases heq : x.mag L = d.mag L
    · have e1 : x.div L env n d = .ok ⟨.pos, [0]⟩ := by
        unfold Bignum.div viaCopy
        rw [copy_ok hm, ok_bind, C32_self_division_is_zero hp.custom.supported (r := .other d) hx hdw heq (by omega)]
        show Except.ok (⟨signRule x.desc d.desc, [0]⟩ : Bignum) = _
        rw [hsd]
      rw [C73_equal M hp hm hd hx hdw heq (by omega) (by have := length_pos h0; omega) (by omega) hn, ok_bind, e1, ok_bind, ok_bind, if_pos heq]
      obtain ⟨s, s1, s2⟩ := convert_loop M hp hm hd hdw hpd hD hn k ⟨.pos, [0]⟩ (out ++ [numeral L x.desc (x.mag L)]) w0 rfl (by simp)
        (by have := length_pos h0; simp; omega) (by
          show (natOf L.base [0]).size + 4 ≤ n
          simp [natOf]; omega) (by show natOf L.base [0] < k; simp [natOf]; omega)
      refine ⟨s, s1, ?_⟩
      obtain ⟨j, rfl⟩ : ∃ j, k = j + 1 := ⟨k - 1, by omega⟩
      rw [s2, hpx, heq, show (⟨.pos, [0]⟩ : Bignum).mag L = 0 from rfl, convDigits]
      simp
    · obtain ⟨q, q1, q2, q3, q4⟩ := div_obj hp.custom hm hd hx hdw (by omega) (.inl heq)
      have hq0 : q.digits ≠ [] := by
        by_cases hlt : x.mag L < d.mag L
        · have := q1 n (by omega)
          unfold Bignum.div viaCopy at this
          rw [copy_ok hm, ok_bind, C35_div_of_smaller hp.custom.supported hm hd hx hdw hx0 hlt (by omega)] at this
          cases this
          simp
        · exact mag_ne_nil (by rw [q4]; have := Nat.div_pos (not_lt.1 hlt) (by omega : 0 < d.mag L); omega)
      have hlt : q.mag L < x.mag L := by rw [q4]; exact Nat.div_lt_self (by omega) (by omega)
      have hql : q.digits.length ≤ x.digits.length := by
        rcases q2.2.2 with h | h
        · exact length_le_of_natOf_le hB hx.2.1 h hlt.le
        · rw [h]; exact length_pos h0
      rw [C73_remainder_partial M hp hm hd hx hdw h0 (by omega) (.inl heq) hK (by omega) hn, ok_bind, q1 n (by omega), ok_bind, ok_bind, if_neg heq]
      obtain ⟨s, s1, s2⟩ := convert_loop M hp hm hd hdw hpd hD hn k q (out ++ [numeral L x.desc (x.mag L % d.mag L)]) q2 (by rw [q3, hsd]) hq0
        (by omega) (by have := Nat.size_le_size hlt.le; omega) (by omega)
      refine ⟨s, s1, ?_⟩
      rw [s2, q4, hpx]
      simp

theorem convert_eval {F : Type} {o : FloatOps F} (M : Ieee o) {L : Limits} {K : Nat} (hp : Preset L K) {env : Env}
    (hm : env.Ample) (hd : env.debug = false) {d x : Bignum} (hdw : WF L d) (hD : 2 ≤ d.toInt L) (hx : WF L x) (hpx : x.desc = .pos)
    (h0 : x.digits ≠ []) (hK : x.digits.length + d.digits.length ≤ K) :
    2 ≤ d.mag L ∧
    Evaluates (fun n => convert o L env n d x) (.ok ((convDigits (d.mag L) (x.mag L) (x.mag L)).map (numeral L .pos))) := by
  have hpd : d.desc = .pos := by
    rcases hdw.1 with h | h
    · exact h
    · unfold Bignum.toInt at hD; rw [h] at hD; simp at hD; omega
  rw [toInt_of_pos hpd] at hD
  replace hD : 2 ≤ d.mag L := by omega
  refine ⟨hD, x.mag L + (x.mag L).size + 33, fun n hn => ?_⟩
  obtain ⟨s, s1, s2⟩ := convert_loop M hp hm hd hdw hpd hD (n := n) (by omega) n x [] hx hpx h0 hK (by omega) (by omega)
  show (convertLoop o L env n d n ⟨x, []⟩ >>= _) = _
  rw [s1, ok_bind, s2, convDigits_stable hD n (x.mag L) (x.mag L) (by omega) le_rfl]
  rfl

/-- C90, always: the loop ends, and the numbers it leaves, weighted with the powers of the base, add up to the number. -/
theorem C90_value {F : Type} {o : FloatOps F} (M : Ieee o) {L : Limits} {K : Nat} (hp : Preset L K) {env : Env}
    (hm : env.Ample) (hd : env.debug = false) {d x : Bignum} (hdw : WF L d) (hD : 2 ≤ d.toInt L) (hx : WF L x) (hpx : x.desc = .pos)
    (h0 : x.digits ≠ []) (hK : x.digits.length + d.digits.length ≤ K) :
    ∃ ds : List Nat, Evaluates (fun n => convert o L env n d x) (.ok (ds.map (numeral L .pos))) ∧
      (∀ r ∈ ds, r ≤ d.mag L) ∧ Nat.ofDigits (d.mag L) ds = x.mag L := by
  obtain ⟨hD', he⟩ := convert_eval M hp hm hd hdw hD hx hpx h0 hK
  exact ⟨_, he, convDigits_digit hD' _ _, convDigits_value hD' _ _ le_rfl⟩

example {F : Type} {o : FloatOps F} (M : Ieee o) := C90_value M .base10 Sample.ample rfl (d := Sample.n2) (x := Sample.n199)
  (by sample) (by sample) (by sample) rfl (by sample) (by sample)

/-- C90: the loop leaves the digits of the number to base `D`, unless that numeral begins with the digits 1, 0. -/
theorem C90_convert_partial {F : Type} {o : FloatOps F} (M : Ieee o) {L : Limits} {K : Nat} (hp : Preset L K) {env : Env}
    (hm : env.Ample) (hd : env.debug = false) {d x : Bignum} (hdw : WF L d) (hD : 2 ≤ d.toInt L) (hx : WF L x) (hpx : x.desc = .pos)
    (h0 : x.digits ≠ []) (hK : x.digits.length + d.digits.length ≤ K) (h10 : ∀ j, x.mag L / d.mag L ^ j ≠ d.mag L) :
    Evaluates (fun n => convert o L env n d x) (.ok ((Nat.digits (d.mag L) (x.mag L)).map (numeral L .pos))) := by
  obtain ⟨hD', he⟩ := convert_eval M hp hm hd hdw hD hx hpx h0 hK
  rwa [convDigits_eq hD' _ _ le_rfl h10] at he

example {F : Type} {o : FloatOps F} (M : Ieee o) := C90_convert_partial M .base10 Sample.ample rfl (d := Sample.n23) (x := Sample.n199)
  (by sample) (by sample) (by sample) rfl (by sample) (by sample) (by
    intro j h
    have h1 : Bignum.mag .base10 Sample.n199 = 199 := by decide
    have h2 : Bignum.mag .base10 Sample.n23 = 23 := by decide
    rw [h1, h2] at h
    match j, h with
    | 0, h => simp at h
    | 1, h => simp at h
    | j + 2, h =>
      have : 199 / 23 ^ (j + 2) = 0 := Nat.div_eq_of_lt (lt_of_lt_of_le (by norm_num) (Nat.pow_le_pow_right (by norm_num) (Nat.le_add_left 2 j)))
      omega)

/-- C90, refuted whenever the numeral begins with 1, 0: one of the "digits" is the base itself. -/
theorem C90_refuted {F : Type} {o : FloatOps F} (M : Ieee o) {L : Limits} {K : Nat} (hp : Preset L K) {env : Env}
    (hm : env.Ample) (hd : env.debug = false) {d x : Bignum} (hdw : WF L d) (hD : 2 ≤ d.toInt L) (hx : WF L x) (hpx : x.desc = .pos)
    (h0 : x.digits ≠ []) (hK : x.digits.length + d.digits.length ≤ K) {j : Nat} (h10 : x.mag L / d.mag L ^ j = d.mag L) :
    ∃ ds : List Nat, Evaluates (fun n => convert o L env n d x) (.ok (ds.map (numeral L .pos))) ∧ d.mag L ∈ ds ∧
      ds ≠ Nat.digits (d.mag L) (x.mag L) := by
  obtain ⟨hD', he⟩ := convert_eval M hp hm hd hdw hD hx hpx h0 hK
  have hin := convDigits_ne hD' _ _ j le_rfl h10
  exact ⟨_, he, hin, fun h => absurd (Nat.digits_lt_base (by omega) (h ▸ hin)) (lt_irrefl _)⟩

/-- With `D` = 10, 107 meets the hypotheses of the refutation and 110 those of the positive theorem. -/
example : ∃ d x y : Bignum, WF .base10 d ∧ 2 ≤ d.toInt .base10 ∧ WF .base10 x ∧ x.desc = .pos ∧ x.digits ≠ [] ∧ WF .base10 y ∧
    x.digits.length + d.digits.length ≤ 2 ^ 25 ∧
    x.mag .base10 / d.mag .base10 ^ 1 = d.mag .base10 ∧ (∀ j, y.mag .base10 / d.mag .base10 ^ j ≠ d.mag .base10) := by
  refine ⟨⟨.pos, [0, 1]⟩, ⟨.pos, [7, 0, 1]⟩, ⟨.pos, [0, 1, 1]⟩,
    by simp [WF, Signed, WFDigits, InRange, NoLeadingZero, Limits.base, Limits.base10, Limits.custom], by decide,
    by simp [WF, Signed, WFDigits, InRange, NoLeadingZero, Limits.base, Limits.base10, Limits.custom], rfl, by simp,
    by simp [WF, Signed, WFDigits, InRange, NoLeadingZero, Limits.base, Limits.base10, Limits.custom], by decide, by decide, ?_⟩
  have e1 : (⟨.pos, [0, 1, 1]⟩ : Bignum).mag .base10 = 110 := by decide
  have e2 : (⟨.pos, [0, 1]⟩ : Bignum).mag .base10 = 10 := by decide
  rw [e1, e2]
  rintro (_ | _ | _ | j)
  · decide
  · decide
  · decide
  · rw [Nat.div_eq_of_lt]
    · decide
    · calc 110 < 10 ^ 3 := by decide
        _ ≤ 10 ^ (j + 1 + 1 + 1) := Nat.pow_le_pow_right (by omega) (by omega)

end BN
