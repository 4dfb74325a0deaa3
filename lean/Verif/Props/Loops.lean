import Verif.Lemmas.Samples
import Verif.Props.Clients
import Mathlib.Data.Nat.Fib.Basic
/-
C84 - C86: products of lists, the Fibonacci loop, counting loops.
-/
namespace BN
open Bignum

/-! ### C84 -/

/-- `bignum p{BN_POS, {1}}; for (const bignum& x : list) p = p * x;` -/
def productOf {F : Type} (o : FloatOps F) (L : Limits) (env : Env) (n : Nat) (xs : List Bignum) : Res Bignum := do
  let p ← ofList env .pos [1]
  xs.foldlM (fun p x => p.mul o L env n x) p

def totalLength (xs : List Bignum) : Nat := (xs.map (fun x => x.digits.length)).sum

theorem product_loop {F : Type} {o : FloatOps F} (M : Ieee o) {L : Limits} {K : Nat} (hp : Preset L K) {env : Env} (hm : env.Ample) :
    ∀ (xs : List Bignum) (p : Bignum), (∀ x ∈ xs, WF L x ∧ x.digits ≠ []) → WF L p → NoLeadingZero p.digits →
      p.digits.length + totalLength xs ≤ K →
    ∃ q, (∀ n, 32 < n → xs.foldlM (fun p x => p.mul o L env n x) p = .ok q) ∧ WF L q ∧ NoLeadingZero q.digits ∧
      q.toInt L = p.toInt L * (xs.map (fun x => x.toInt L)).prod
  | [], p, _, hp', hz, _ => ⟨p, fun _ _ => rfl, hp', hz, by simp⟩
  | x :: xs, p, hxs, hp', hz, hK => by
    have hB := hp.custom.supported.base_ge
    obtain ⟨hx, hx0⟩ := hxs x (by simp)
    have hl := length_pos hx0
    have hK' : p.digits.length + (x.digits.length + totalLength xs) ≤ K := hK
    have hlen := length_prod hB hp' hx (signRule p.desc x.desc)
    obtain ⟨q, h1, h2, h3, h4⟩ := product_loop M hp hm xs (numeral L (signRule p.desc x.desc) (p.mag L * x.mag L))
      (fun y hy => hxs y (by simp [hy])) (numeral_wf hB (signed_signRule _ _) _) (digits_nlz _ _) (by omega)
    refine ⟨q, fun n hn => ?_, h2, h3, ?_⟩
    · rw [List.foldlM_cons, mul_numeral M hp hm hp' hx (by omega) (by omega) hn]
      exact h1 n hn
    · rw [h4, toInt_mul_numeral hp'.1 hx.1, List.map_cons, List.prod_cons, mul_assoc]

/-- C84: multiplying up a list gives the integer product, normalised. -/
theorem C84_product {F : Type} {o : FloatOps F} (M : Ieee o) {L : Limits} {K : Nat} (hp : Preset L K) {env : Env} (hm : env.Ample)
    {xs : List Bignum} (hxs : ∀ x ∈ xs, WF L x ∧ x.digits ≠ []) (hK : 1 + totalLength xs ≤ K) :
    ∃ q, Evaluates (fun n => productOf o L env n xs) (.ok q) ∧ WF L q ∧ NoLeadingZero q.digits ∧
      q.toInt L = (xs.map (fun x => x.toInt L)).prod := by
  have hB := hp.custom.supported.base_ge
  have hr : WF L ⟨.pos, [1]⟩ := ⟨.inl rfl, by intro d hd; rw [List.mem_singleton.1 hd]; omega, .inl (by simp [NoLeadingZero])⟩
  obtain ⟨q, h1, h2, h3, h4⟩ := product_loop M hp hm xs ⟨.pos, [1]⟩ hxs hr (by simp [NoLeadingZero]) hK
  refine ⟨q, ⟨33, fun n hn => ?_⟩, h2, h3, ?_⟩
  · show productOf o L env n xs = _
    unfold productOf
    rw [ofList_eq hm, ok_bind]
    exact h1 n (by omega)
  · rw [h4, toInt_of_signed hr.1]
    simp

example {F : Type} {o : FloatOps F} (M : Ieee o) := C84_product M .base10 Sample.ample (xs := [Sample.n199, Sample.m23]) (by sample)
  (by sample)

/-- C84: the order of the factors does not matter, not even for the object. -/
theorem C84_order_irrelevant {F : Type} {o : FloatOps F} (M : Ieee o) {L : Limits} {K : Nat} (hp : Preset L K) {env : Env} (hm : env.Ample)
    {xs ys : List Bignum} (hxs : ∀ x ∈ xs, WF L x ∧ x.toInt L ≠ 0) (hperm : xs.Perm ys) (hK : 1 + totalLength xs ≤ K) :
    ∃ q, Evaluates (fun n => productOf o L env n xs) (.ok q) ∧ Evaluates (fun n => productOf o L env n ys) (.ok q) := by
  have hB := hp.custom.supported.base_ge
  have h0 : ∀ x, WF L x ∧ x.toInt L ≠ 0 → WF L x ∧ x.digits ≠ [] := by
    rintro x ⟨h, h'⟩
    refine ⟨h, fun hn => h' ?_⟩
    rw [toInt_of_signed h.1, hn]
    simp
  have hlen : totalLength ys = totalLength xs := by
    unfold totalLength
    exact (hperm.map (fun x : Bignum => x.digits.length)).sum_eq.symm
  obtain ⟨q, h1, h2, h3, h4⟩ := C84_product M hp hm (xs := xs) (fun x hx => h0 x (hxs x hx)) hK
  obtain ⟨q', g1, g2, g3, g4⟩ := C84_product M hp hm (xs := ys) (fun x hx => h0 x (hxs x (hperm.mem_iff.2 hx))) (by omega)
  have hv : q.toInt L = q'.toInt L := by rw [h4, g4]; exact (hperm.map _).prod_eq
  have hne : q.toInt L ≠ 0 := by
    rw [h4]
    apply List.prod_ne_zero
    intro h
    obtain ⟨x, hx, hx0⟩ := List.mem_map.1 h
    exact (hxs x hx).2 hx0
  have : q = q' := wf_determined hB h2 g2 hne hv
  subst this
  exact ⟨q, h1, g1⟩

example : ∃ xs : List Bignum, xs.length = 2 ∧ (∀ x ∈ xs, WF .base10 x ∧ x.toInt .base10 ≠ 0) ∧ 1 + totalLength xs ≤ 2 ^ 25 := by
  refine ⟨[⟨.neg, [2]⟩, ⟨.pos, [3, 1]⟩], rfl, ?_, by decide⟩
  intro x hx
  simp only [List.mem_cons, List.not_mem_nil, or_false] at hx
  rcases hx with rfl | rfl
  · exact ⟨by simp [WF, Signed, WFDigits, InRange, NoLeadingZero, Limits.base, Limits.base10, Limits.custom], by decide⟩
  · exact ⟨by simp [WF, Signed, WFDigits, InRange, NoLeadingZero, Limits.base, Limits.base10, Limits.custom], by decide⟩

/-! ### C85 -/

/-- `bignum a{BN_POS, {0}}, b{BN_POS, {1}}; for (unsigned i = 0; i < k; ++i) { bignum t = a + b; a = b; b = t; } return a;` -/
def fibLoop (L : Limits) (env : Env) (n : Nat) : Nat → Bignum → Bignum → Res Bignum
  | 0, a, _ => .ok a
  | k + 1, a, b => do
    let t ← a.add L env n b
    let a ← b.copy env
    let b ← t.copy env
    fibLoop L env n k a b

def fibonacci (L : Limits) (env : Env) (n : Nat) (k : Nat) : Res Bignum := do
  let a ← ofList env .pos [0]
  let b ← ofList env .pos [1]
  fibLoop L env n k a b

theorem fib_le_two_pow (m : Nat) : Nat.fib m ≤ 2 ^ m := by
  induction m using Nat.strong_induction_on with
  | _ m ih =>
    match m with
    | 0 => simp
    | 1 => simp
    | m + 2 =>
      rw [Nat.fib_add_two]
      have h1 := ih m (by omega)
      have h2 := ih (m + 1) (by omega)
      rw [pow_succ] at h2
      rw [pow_add]
      omega

theorem fib_loop {L : Limits} (hL : Supported L) {env : Env} (hm : env.Ample) : ∀ (k i : Nat) (a b : Bignum), WF L a → WF L b →
    a.desc = .pos → b.desc = .pos → a.mag L = Nat.fib i → b.mag L = Nat.fib (i + 1) →
    ∃ c, (∀ n, i + k + 3 < n → fibLoop L env n k a b = .ok c) ∧ WF L c ∧ c.desc = .pos ∧ c.mag L = Nat.fib (i + k)
  | 0, i, a, b, ha, _, hpa, _, hva, _ => ⟨a, fun _ _ => rfl, ha, hpa, hva⟩
  | k + 1, i, a, b, ha, hb, hpa, hpb, hva, hvb => by
    have hB := hL.base_ge
    have hlen : ∀ {x : Bignum} {j : Nat}, WF L x → x.mag L = Nat.fib j → x.digits.length ≤ j + 2 := by
      intro x j hx hj
      have : x.mag L < L.base ^ (j + 1) := by
        rw [hj]
        have h1 : Nat.fib j < 2 ^ (j + 1) := by
          have := fib_le_two_pow j
          rw [pow_succ]
          have := Nat.one_le_two_pow (n := j)
          omega
        exact lt_of_lt_of_le h1 (Nat.pow_le_pow_left hB _)
      have := wf_length hB hx this
      omega
    have la := hlen ha hva
    have lb := hlen hb hvb
    obtain ⟨t, h1, h2, h3, h4⟩ := add_pos hL hm ha hb (hpb.trans hpa.symm)
    obtain ⟨c, g1, g2, g3, g4⟩ := fib_loop hL hm k (i + 1) b t hb h2 hpb (h3.trans hpa) hvb (by rw [h4, hva, hvb, ← Nat.fib_add_two])
    refine ⟨c, fun n hn => ?_, g2, g3, by rw [g4]; congr 1; omega⟩
    rw [fibLoop, h1 n (by omega), ok_bind, copy_ok hm, ok_bind, copy_ok hm, ok_bind]
    exact g1 n (by omega)

/-- C85: the Fibonacci loop, for every index and every supported digit type. -/
theorem C85_fibonacci {L : Limits} (hL : Supported L) {env : Env} (hm : env.Ample) (k : Nat) :
    ∃ c, Evaluates (fun n => fibonacci L env n k) (.ok c) ∧ WF L c ∧ c.toInt L = Nat.fib k := by
  have hB := hL.base_ge
  have e0 := ofList_numeral (L := L) hB hm .pos (l := [0]) (by simp; omega)
  have e1 := ofList_numeral (L := L) hB hm .pos (l := [1]) (by simp; omega)
  obtain ⟨c, h1, h2, h3, h4⟩ := fib_loop hL hm k 0 (numeral L .pos 0) (numeral L .pos 1) (numeral_wf hB (.inl rfl) _)
    (numeral_wf hB (.inl rfl) _) rfl rfl (by rw [numeral_mag]; rfl) (by rw [numeral_mag]; rfl)
  refine ⟨c, ⟨k + 4, fun n hn => ?_⟩, h2, ?_⟩
  · show fibonacci L env n k = _
    unfold fibonacci
    rw [e0, ok_bind, e1, ok_bind]
    simpa using h1 n (by omega)
  · rw [toInt_of_signed h2.1, if_pos h3]
    exact_mod_cast h4.trans (by rw [Nat.zero_add])

example : Supported .base10 ∧ releaseEnv.Ample := ⟨custom_base10.supported, releaseEnv_ample⟩

/-! ### C86: counting loops -/

/-- `for (bignum i{BN_POS, {0}}; i < bound; i = i + step) ...`, the counter after the loop -/
def countLt (L : Limits) (env : Env) (n : Nat) (bound step : Bignum) : Res Bignum := do
  let i ← ofList env .pos [0]
  loopWhile (fun i => i.lt bound) (fun i => i.add L env n step) n i

/-- `for (bignum i{BN_POS, {0}}; !(i >= bound); i = i + step) ...` -/
def countGe (L : Limits) (env : Env) (n : Nat) (bound step : Bignum) : Res Bignum := do
  let i ← ofList env .pos [0]
  loopWhile (fun i => do let r ← i.ge bound; .ok (!r)) (fun i => i.add L env n step) n i

theorem add_step {L : Limits} (hL : Supported L) {env : Env} (hm : env.Ample) {step : Bignum} (hs : WF L step) (hps : step.desc = .pos)
    (hs0 : step.mag L ≠ 0) (i : Nat) {n : Nat} (hn : max (numeral L .pos i).digits.length step.digits.length < n) :
    (numeral L .pos i).add L env n step = .ok (numeral L .pos (i + step.mag L)) := by
  have hB := hL.base_ge
  obtain ⟨c, h1, h2, h3, h4⟩ := add_pos hL hm (numeral_wf hB (d := .pos) (.inl rfl) i) hs hps
  rw [numeral_mag] at h4
  rw [h1 n hn, eq_numeral hB h2.2.1 (nlz_of_mag h2 (by omega)), h3, h4]
  rfl

theorem count_loop {L : Limits} (hL : Supported L) {env : Env} (hm : env.Ample) {step : Bignum} (hs : WF L step) (hps : step.desc = .pos)
    (hs0 : step.mag L ≠ 0) {cond : Bignum → Res Bool} {n k : Nat} (hk : cond (numeral L .pos (k * step.mag L)) = .ok false)
    (hlt : ∀ j, j < k → cond (numeral L .pos (j * step.mag L)) = .ok true)
    (hn : (numeral L .pos (k * step.mag L)).digits.length + step.digits.length < n) :
    ∀ (r j f : Nat), j + r = k → r < f →
      loopWhile cond (fun i => i.add L env n step) f (numeral L .pos (j * step.mag L)) = .ok (numeral L .pos (k * step.mag L))
  | 0, j, f, hj, hf => by
    obtain ⟨f, rfl⟩ : ∃ g, f = g + 1 := ⟨f - 1, by omega⟩
    have : j = k := by omega
    subst this
    rw [loopWhile, hk]
    rfl
  | r + 1, j, f, hj, hf => by
    have hB := hL.base_ge
    obtain ⟨f, rfl⟩ : ∃ g, f = g + 1 := ⟨f - 1, by omega⟩
    have hlen : (numeral L .pos (j * step.mag L)).digits.length ≤ (numeral L .pos (k * step.mag L)).digits.length :=
      length_le_of_natOf_le hB (digits_inRange hB _) (digits_nlz _ _) (by
        show natOf _ (Nat.digits _ _) ≤ natOf _ (Nat.digits _ _)
        rw [natOf_digits, natOf_digits]
        exact Nat.mul_le_mul_right _ (by omega))
    rw [loopWhile, hlt j (by omega), ok_bind, if_pos rfl, add_step hL hm hs hps hs0 _ (by omega), ok_bind,
      show j * step.mag L + step.mag L = (j + 1) * step.mag L by ring]
    exact count_loop hL hm hs hps hs0 hk hlt hn r (j + 1) f (by omega) (by omega)

theorem countLt_exact {L : Limits} (hL : Supported L) {env : Env} (hm : env.Ample) {bound step : Bignum} (hs : WF L step)
    (hps : step.desc = .pos) (hs0 : step.mag L ≠ 0) (hpb : bound.desc = .pos) {k : Nat}
    (hk : ¬ AnyDigitGreater bound.digits (Nat.digits L.base (k * step.mag L)))
    (hlt : ∀ j, j < k → AnyDigitGreater bound.digits (Nat.digits L.base (j * step.mag L))) :
    Evaluates (fun n => countLt L env n bound step) (.ok (numeral L .pos (k * step.mag L))) := by
  have hB := hL.base_ge
  have hc : ∀ j, ∃ r, (numeral L .pos j).lt bound = .ok r ∧ (r = true ↔ AnyDigitGreater bound.digits (Nat.digits L.base j)) :=
    fun j => (C05_gt_lt_meaning (numeral L .pos j) bound rfl hpb).2
  refine ⟨(numeral L .pos (k * step.mag L)).digits.length + step.digits.length + k + 1, fun n hn => ?_⟩
  show countLt L env n bound step = _
  unfold countLt
  rw [ofList_numeral (L := L) hB hm .pos (l := [0]) (by simp; omega), ok_bind]
  have := count_loop hL hm hs hps hs0 (cond := fun i => i.lt bound) (n := n) (k := k) (by
      obtain ⟨r, h1, h2⟩ := hc (k * step.mag L)
      show (numeral L .pos _).lt bound = _
      rw [h1]
      congr 1
      exact Bool.eq_false_iff.2 (fun h => hk (h2.1 h))) (fun j hj => by
      obtain ⟨r, h1, h2⟩ := hc (j * step.mag L)
      show (numeral L .pos _).lt bound = _
      rw [h1, h2.2 (hlt j hj)]) (by omega) k 0 n (by omega) (by omega)
  simpa using this

theorem anyGreater_of_lt {L : Limits} (hB : 2 ≤ L.base) {a b : List Nat} (ha : InRange L.base a) (hb : InRange L.base b) (hb0 : NoLeadingZero b)
    (h : natOf L.base b < natOf L.base a) : AnyDigitGreater a b := by
  rcases Nat.lt_trichotomy a.length b.length with h1 | h1 | h1
  · have := natOf_lt_of_length_lt (by omega) ha hb0 h1; omega
  · exact .inr ⟨h1, exists_digit_gt hb h1 h⟩
  · exact .inl h1

/-- C86: counting by ones with `<` runs the body exactly `bound` times and leaves the counter equal to the bound. -/
theorem C86_step_one_partial {L : Limits} (hL : Supported L) {env : Env} (hm : env.Ample) {bound step : Bignum} (hb : WF L bound)
    (hpb : bound.desc = .pos) (hzb : NoLeadingZero bound.digits) (hs : WF L step) (hps : step.toInt L = 1) :
    Evaluates (fun n => countLt L env n bound step) (.ok bound) := by
  have hB := hL.base_ge
  have hpos : step.desc = .pos := by
    rcases hs.1 with h | h
    · exact h
    · rw [toInt_of_signed hs.1, h] at hps
      simp at hps
      omega
  have h1 : step.mag L = 1 := by
    rw [toInt_of_signed hs.1, if_pos hpos] at hps
    exact_mod_cast hps
  have hbn := eq_numeral hB hb.2.1 hzb
  have hd : bound.digits = Nat.digits L.base (bound.mag L) := congrArg Bignum.digits hbn
  have := countLt_exact hL hm hs hpos (by omega) hpb (k := bound.mag L) (bound := bound) (by
    rw [h1, Nat.mul_one, ← hd]
    rintro (h | ⟨-, i, -, h⟩) <;> omega) (by
    intro j hj
    rw [h1, Nat.mul_one]
    exact anyGreater_of_lt hB hb.2.1 (digits_inRange hB _) (digits_nlz _ _) (by rw [natOf_digits]; exact hj))
  rw [h1, Nat.mul_one] at this
  rw [hpb] at hbn
  rwa [← hbn] at this

example := C86_step_one_partial (L := .base10) (.inr Sample.base10) Sample.ample (bound := Sample.n199) (step := Sample.n1) (by sample) rfl
  (by sample) (by sample) (by sample)

/-- C86, exactly: whatever the positive step, the loop with `<` ends with the first multiple of the step that the bound exceeds neither in
length nor in any digit. It is not below the bound. -/
theorem C86_terminates {L : Limits} (hL : Supported L) {env : Env} (hm : env.Ample) {bound step : Bignum} (hb : WF L bound)
    (hpb : bound.desc = .pos) (hs : WF L step) (hps : 0 < step.toInt L) :
    ∃ k, Evaluates (fun n => countLt L env n bound step) (.ok (numeral L .pos (k * step.mag L))) ∧
      bound.mag L ≤ k * step.mag L ∧ ¬ AnyDigitGreater bound.digits (Nat.digits L.base (k * step.mag L)) ∧
      ∀ j, j < k → AnyDigitGreater bound.digits (Nat.digits L.base (j * step.mag L)) := by
  have hB := hL.base_ge
  have hpos : step.desc = .pos := by
    rcases hs.1 with h | h
    · exact h
    · rw [toInt_of_signed hs.1, h] at hps
      simp at hps
      omega
  have h1 : step.mag L ≠ 0 := by
    rw [toInt_of_signed hs.1, if_pos hpos] at hps
    have : 0 < natOf L.base step.digits := by exact_mod_cast hps
    exact Nat.pos_iff_ne_zero.1 this
  classical
  have hex : ∃ k, ¬ AnyDigitGreater bound.digits (Nat.digits L.base (k * step.mag L)) := by
    refine ⟨L.base ^ bound.digits.length, ?_⟩
    have hlen : bound.digits.length < (Nat.digits L.base (L.base ^ bound.digits.length * step.mag L)).length := by
      rw [Nat.lt_digits_length_iff (by omega)]
      exact Nat.le_mul_of_pos_right _ (by omega)
    rintro (h | ⟨h, -⟩) <;> omega
  have hmin : ∀ j, j < Nat.find hex → AnyDigitGreater bound.digits (Nat.digits L.base (j * step.mag L)) :=
    fun j hj => not_not.1 (Nat.find_min hex hj)
  refine ⟨Nat.find hex, countLt_exact hL hm hs hpos h1 hpb (Nat.find_spec hex) hmin, ?_, Nat.find_spec hex, hmin⟩
  · by_contra h
    refine Nat.find_spec hex (anyGreater_of_lt hB hb.2.1 (digits_inRange hB _) (digits_nlz _ _) ?_)
    rw [natOf_digits]
    exact Nat.lt_of_not_le h

example := C86_terminates (L := .base10) (.inr Sample.base10) Sample.ample (bound := Sample.n199) (step := Sample.n23) (by sample) rfl
  (by sample) (by sample)

/-- C86, refuted: counting to 29 in tens with `<` ends at 100. -/
theorem C86_refuted : ∃ bound step : Bignum, WF .base10 bound ∧ WF .base10 step ∧ bound.toInt .base10 = 29 ∧ step.toInt .base10 = 10 ∧
    Evaluates (fun n => countLt .base10 releaseEnv n bound step) (.ok (numeral .base10 .pos 100)) := by
  refine ⟨⟨.pos, [9, 2]⟩, ⟨.pos, [0, 1]⟩,
    by simp [WF, Signed, WFDigits, InRange, NoLeadingZero, Limits.base, Limits.base10, Limits.custom],
    by simp [WF, Signed, WFDigits, InRange, NoLeadingZero, Limits.base, Limits.base10, Limits.custom], by decide, by decide, ?_⟩
  have hmag : (⟨.pos, [0, 1]⟩ : Bignum).mag .base10 = 10 := by decide
  have := countLt_exact custom_base10.supported releaseEnv_ample (step := ⟨.pos, [0, 1]⟩) (bound := ⟨.pos, [9, 2]⟩) (k := 10)
    (by simp [WF, Signed, WFDigits, InRange, NoLeadingZero, Limits.base, Limits.base10, Limits.custom]) rfl (by rw [hmag]; decide) rfl
    (by
      rw [hmag]
      rintro (h | ⟨h, -⟩) <;> simp [Limits.base, Limits.base10, Limits.custom] at h)
    (by
      intro j hj
      rw [hmag]
      interval_cases j <;> simp [AnyDigitGreater, Limits.base, Limits.base10, Limits.custom] <;> exact ⟨0, by decide, by decide⟩)
  rwa [hmag] at this

/-- C86, with `>=`: the counter ends at the least multiple of the step that is not below the bound. -/
theorem C86_with_ge {L : Limits} (hL : Supported L) {env : Env} (hm : env.Ample) {bound step : Bignum} (hb : WF L bound)
    (hpb : bound.desc = .pos) (hzb : NoLeadingZero bound.digits) (hs : WF L step) (hps : 0 < step.toInt L) :
    ∃ k, Evaluates (fun n => countGe L env n bound step) (.ok (numeral L .pos (k * step.mag L))) ∧ bound.mag L ≤ k * step.mag L ∧
      ∀ j, bound.mag L ≤ j * step.mag L → k ≤ j := by
  have hB := hL.base_ge
  have hpos : step.desc = .pos := by
    rcases hs.1 with h | h
    · exact h
    · rw [toInt_of_signed hs.1, h] at hps
      simp at hps
      omega
  have h1 : step.mag L ≠ 0 := by
    rw [toInt_of_signed hs.1, if_pos hpos] at hps
    have : 0 < natOf L.base step.digits := by exact_mod_cast hps
    exact Nat.pos_iff_ne_zero.1 this
  have hex : ∃ k, bound.mag L ≤ k * step.mag L := ⟨bound.mag L, Nat.le_mul_of_pos_right _ (by omega)⟩
  have hge : ∀ j, (numeral L .pos j).ge bound = .ok (decide (bound.mag L ≤ j)) := by
    intro j
    rw [(C03_ge_le_nonneg L _ bound ⟨digits_inRange hB _, digits_nlz _ _⟩ ⟨hb.2.1, hzb⟩ rfl hpb).1,
      toInt_of_signed hb.1, if_pos hpb, toInt_of_signed (b := numeral L .pos j) (.inl rfl), if_pos (show (numeral L .pos j).desc = .pos from rfl),
      show natOf L.base (numeral L .pos j).digits = j from natOf_digits _ _]
    congr 1
    rw [decide_eq_decide]
    exact Int.ofNat_le
  refine ⟨Nat.find hex, ⟨(numeral L .pos (Nat.find hex * step.mag L)).digits.length + step.digits.length + Nat.find hex + 1, fun n hn => ?_⟩,
    Nat.find_spec hex, fun j hj => Nat.find_min' hex hj⟩
  show countGe L env n bound step = _
  unfold countGe
  rw [ofList_numeral (L := L) hB hm .pos (l := [0]) (by simp; omega), ok_bind]
  have := count_loop hL hm hs hpos h1 (cond := fun i => do let r ← i.ge bound; .ok (!r)) (n := n) (k := Nat.find hex) (by
      show (numeral L .pos _).ge bound >>= _ = _
      rw [hge, decide_eq_true (Nat.find_spec hex)]
      rfl) (fun j hj => by
      show (numeral L .pos _).ge bound >>= _ = _
      rw [hge, decide_eq_false (Nat.find_min hex hj)]
      rfl) (by omega) (Nat.find hex) 0 n (by omega) (by omega)
  simpa using this

example : ∃ bound step : Bignum, WF .base10 bound ∧ bound.desc = .pos ∧ NoLeadingZero bound.digits ∧ bound.mag .base10 = 29 ∧
    WF .base10 step ∧ step.toInt .base10 = 1 :=
  ⟨⟨.pos, [9, 2]⟩, ⟨.pos, [1]⟩, by simp [WF, Signed, WFDigits, InRange, NoLeadingZero, Limits.base, Limits.base10, Limits.custom], rfl,
    by simp [NoLeadingZero], by decide,
    by simp [WF, Signed, WFDigits, InRange, NoLeadingZero, Limits.base, Limits.base10, Limits.custom], by decide⟩

end BN
