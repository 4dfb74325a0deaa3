import Verif.Lemmas.Samples
import Verif.Props.NumberTheory
import Mathlib.Data.Nat.Sqrt
/-
C104: interval bisection, written with the operators.
-/
namespace BN
open Bignum

structure BisectSt where
  lo : Bignum
  hi : Bignum

/-- `while (lo + one < hi) { mid = (lo + hi) / two; if (test(mid)) lo = mid; else hi = mid; } return lo;` -/
def bisect (L : Limits) (env : Env) (n : Nat) (one two : Bignum) (test : Bignum → Res Bool) (lo hi : Bignum) : Res Bignum := do
  let s ← loopWhile (fun s => do
      let t ← s.lo.add L env n one
      t.lt s.hi)
    (fun s => do
      let t ← s.lo.add L env n s.hi
      let mid ← t.div L env n two
      if ← test mid then .ok ⟨mid, s.hi⟩ else .ok ⟨s.lo, mid⟩) n (⟨lo, hi⟩ : BisectSt)
  .ok s.lo

theorem pos_lt_of_le {L : Limits} (hB : 2 ≤ L.base) {a b : Nat} (h : a ≤ b) :
    (numeral L .pos a).lt (numeral L .pos b) = .ok (decide (a < b)) := by
  have hn := fun y => (⟨digits_inRange hB y, digits_nlz _ _⟩ : Normal L (numeral L .pos y))
  by_cases hab : a < b
  · rw [((C04_gt_partial L _ _ (hn b) (hn a) rfl rfl).1 (by
      rw [toInt_of_pos rfl, toInt_of_pos rfl, numeral_mag, numeral_mag]; exact_mod_cast hab)).2]
    simp [hab]
  · have : a = b := by omega
    subst this
    obtain ⟨-, h1, h2, -⟩ := C06_order_partial L _ _ _ (hn a) (hn a) (hn a) rfl rfl rfl
    rw [← h2, h1]; simp

theorem pos_add {L : Limits} (hL : Supported L) {env : Env} (hm : env.Ample) {a b n : Nat} (hb : b ≠ 0)
    (hn : max (numeral L .pos a).digits.length (numeral L .pos b).digits.length < n) :
    (numeral L .pos a).add L env n (numeral L .pos b) = .ok (numeral L .pos (a + b)) := by
  rw [add_step hL hm (numeral_wf hL.base_ge (.inl rfl) b) rfl (by rw [numeral_mag]; exact hb) a hn, numeral_mag]

theorem pos_div {L : Limits} (h : Custom L) {env : Env} (hm : env.Ample) (hd : env.debug = false) {a b n : Nat} (hb : b ≠ 0)
    (hne : a ≠ b ∨ b = 1) (hq : a / b ≠ 0) (hn : a.size + 2 ≤ n) :
    (numeral L .pos a).div L env n (numeral L .pos b) = .ok (numeral L .pos (a / b)) := by
  have hB := h.supported.base_ge
  obtain ⟨c, e1, e2, e3, e4⟩ := div_obj h hm hd (numeral_wf (L := L) hB (d := .pos) (.inl rfl) a) (numeral_wf hB (d := .pos) (.inl rfl) b)
    (by rw [numeral_mag]; exact hb) (by rw [numeral_mag, numeral_mag]; exact hne)
  rw [numeral_mag, numeral_mag] at e4
  rw [e1 n (by rw [numeral_mag]; exact hn), eq_numeral hB e2.2.1 (nlz_of_mag e2 (by rw [e4]; exact hq)), e3, e4]
  rfl

/-- The bisection on numbers. -/
def bisectSpec (P : Nat → Bool) : Nat → Nat → Nat → Nat
  | 0, lo, _ => lo
  | d + 1, lo, hi => if lo + 1 < hi then (if P ((lo + hi) / 2) then bisectSpec P d ((lo + hi) / 2) hi else bisectSpec P d lo ((lo + hi) / 2)) else lo

theorem bisect_loop {L : Limits} (h : Custom L) {env : Env} (hm : env.Ample) (hd : env.debug = false) {test : Bignum → Res Bool} {P : Nat → Bool}
    {top n : Nat} (hn : top.size + 5 ≤ n) (ht : ∀ k, 0 < k → k < top → test (numeral L .pos k) = .ok (P k)) :
    ∀ (d lo hi f : Nat), hi - lo ≤ d + 1 → 0 < lo → lo < hi → hi ≤ top → d < f →
    ∃ s : BisectSt, loopWhile (fun s => do
        let t ← s.lo.add L env n (numeral L .pos 1)
        t.lt s.hi)
      (fun s => do
        let t ← s.lo.add L env n s.hi
        let mid ← t.div L env n (numeral L .pos 2)
        if ← test mid then .ok ⟨mid, s.hi⟩ else .ok ⟨s.lo, mid⟩) f (⟨numeral L .pos lo, numeral L .pos hi⟩ : BisectSt) = .ok s ∧
      s.lo = numeral L .pos (bisectSpec P d lo hi) := by
  have hL := h.supported
  have hB := hL.base_ge
  have len : ∀ {k}, k ≤ top → (numeral L .pos k).digits.length + 1 < n := fun {k} hk => by
    have h1 := pos_len_mono (L := L) hB hk
    have h2 := pos_len_size (L := L) hB top
    omega
  intro d
  induction d with
  | zero =>
    intro lo hi f hd' hlo hlt hhi hf
    obtain ⟨f, rfl⟩ : ∃ g, f = g + 1 := ⟨f - 1, by omega⟩
    have hc : (do
        let t ← (numeral L .pos lo).add L env n (numeral L .pos 1)
        t.lt (numeral L .pos hi)) = Except.ok (decide (lo + 1 < hi)) := by
      rw [pos_inc hL hm (len (by omega)), ok_bind]
      exact pos_lt_of_le hB (by omega)
    rw [loopWhile]
    simp only [hc, ok_bind]
    rw [if_neg (by simp; omega)]
    exact ⟨_, rfl, rfl⟩
  | succ d ih =>
    intro lo hi f hd' hlo hlt hhi hf
    obtain ⟨f, rfl⟩ : ∃ g, f = g + 1 := ⟨f - 1, by omega⟩
    have hc : (do
        let t ← (numeral L .pos lo).add L env n (numeral L .pos 1)
        t.lt (numeral L .pos hi)) = Except.ok (decide (lo + 1 < hi)) := by
      rw [pos_inc hL hm (len (by omega)), ok_bind]
      exact pos_lt_of_le hB (by omega)
    rw [loopWhile]
    simp only [hc, ok_bind]
    by_cases hcase : lo + 1 < hi
    · rw [if_pos (by simpa using hcase)]
      have hsz : (lo + hi).size ≤ top.size + 1 := by
        rw [Nat.size_le, pow_succ]
        have := Nat.lt_size_self top
        omega
      rw [pos_add hL hm (by omega) (by have := @len lo (by omega); have := @len hi hhi; omega), ok_bind,
        pos_div h hm hd (by omega) (.inl (by omega)) (by omega) (by omega), ok_bind, ht _ (by omega) (by omega), ok_bind]
      rw [bisectSpec, if_pos hcase]
      cases hp : P ((lo + hi) / 2)
      · rw [if_neg (by simp), if_neg (by simp), ok_bind]
        exact ih lo ((lo + hi) / 2) f (by omega) hlo (by omega) (by omega) (by omega)
      · rw [if_pos rfl, if_pos rfl, ok_bind]
        exact ih ((lo + hi) / 2) hi f (by omega) (by omega) (by omega) (by omega) (by omega)
    · rw [if_neg (by simpa using hcase), bisectSpec, if_neg hcase]
      exact ⟨_, rfl, rfl⟩

theorem bisectSpec_ok (P : Nat → Bool) : ∀ (d lo hi : Nat), hi - lo ≤ d + 1 → lo < hi → P lo = true → P hi = false →
    lo ≤ bisectSpec P d lo hi ∧ bisectSpec P d lo hi < hi ∧ P (bisectSpec P d lo hi) = true ∧ P (bisectSpec P d lo hi + 1) = false := by
  intro d
  induction d with
  | zero =>
    intro lo hi hd hlt pl ph
    have : lo + 1 = hi := by omega
    exact ⟨le_rfl, hlt, pl, by rw [bisectSpec, this]; exact ph⟩
  | succ d ih =>
    intro lo hi hd hlt pl ph
    rw [bisectSpec]
    by_cases hcase : lo + 1 < hi
    · rw [if_pos hcase]
      cases hp : P ((lo + hi) / 2)
      · rw [if_neg (by simp)]
        obtain ⟨h1, h2, h3⟩ := ih lo ((lo + hi) / 2) (by omega) (by omega) pl hp
        exact ⟨h1, by omega, h3⟩
      · rw [if_pos rfl]
        obtain ⟨h1, h2, h3⟩ := ih ((lo + hi) / 2) hi (by omega) (by omega) hp ph
        exact ⟨by omega, h2, h3⟩
    · rw [if_neg hcase]
      have : lo + 1 = hi := by omega
      exact ⟨le_rfl, hlt, pl, by rw [this]; exact ph⟩

/-- C104: started from an interval with a lower end above zero whose ends answer yes and no, the program returns a number in the interval that
answers yes and whose successor answers no.  Missing: lower end zero, see `C104_zero_diverges`. -/
theorem C104_bisect_partial {L : Limits} (h : Custom L) {env : Env} (hm : env.Ample) (hd : env.debug = false) {one two lo hi : Bignum}
    (w1 : WF L one) (v1 : one.toInt L = 1) (w2 : WF L two) (v2 : two.toInt L = 2) (wlo : WF L lo) (whi : WF L hi) (h0 : 0 < lo.toInt L)
    (hlt : lo.toInt L < hi.toInt L) {test : Nat → Bignum → Res Bool} {P : Int → Bool} {n₀ : Nat}
    (ht : ∀ n, n₀ ≤ n → ∀ x, WF L x → 0 < x.toInt L → x.toInt L < hi.toInt L → test n x = .ok (P (x.toInt L)))
    (hl : P (lo.toInt L) = true) (hh : P (hi.toInt L) = false) :
    ∃ r, Evaluates (fun n => bisect L env n one two (test n) lo hi) (.ok r) ∧ WF L r ∧ lo.toInt L ≤ r.toInt L ∧ r.toInt L < hi.toInt L ∧
      P (r.toInt L) = true ∧ P (r.toInt L + 1) = false := by
  have hB := h.supported.base_ge
  have e1 := eq_pos hB w1 (by omega)
  have e2 := eq_pos hB w2 (by omega)
  have el := eq_pos hB wlo h0
  have eh := eq_pos hB whi (by omega)
  rw [v1] at e1; rw [v2] at e2
  have cl : lo.toInt L = (lo.toInt L).toNat := by omega
  have ch : hi.toInt L = (hi.toInt L).toNat := by omega
  rw [cl] at hl hlt h0 ⊢
  rw [ch] at hh hlt ht ⊢
  generalize (lo.toInt L).toNat = u at *
  generalize (hi.toInt L).toNat = v at *
  subst e1 e2 el eh
  obtain ⟨r1, r2, r3, r4⟩ := bisectSpec_ok (fun k => P (k : Int)) v u v (by omega) (by omega) hl hh
  refine ⟨numeral L .pos (bisectSpec (fun k => P (k : Int)) v u v), ⟨n₀ + v + v.size + 5, fun n hn => ?_⟩, numeral_wf hB (.inl rfl) _, ?_⟩
  · obtain ⟨s, e1, e2⟩ := bisect_loop h hm hd (test := test n) (P := fun k => P (k : Int)) (top := v) (n := n) (by omega)
      (fun k hk hk' => by
        have := ht n (by omega) (numeral L .pos k) (numeral_wf hB (.inl rfl) k)
        rw [toInt_of_pos rfl, numeral_mag] at this
        exact this (by omega) (by omega)) v u v n (by omega) (by omega) (by omega) le_rfl (by omega)
    show bisect L env n _ _ _ _ _ = _
    unfold bisect
    rw [show Int.toNat 1 = 1 from rfl, show Int.toNat 2 = 2 from rfl, e1, ok_bind, e2]
  · rw [toInt_of_pos rfl, numeral_mag]
    exact ⟨by exact_mod_cast r1, by exact_mod_cast r2, r3, by exact_mod_cast r4⟩

example := C104_bisect_partial (L := .base10) Sample.base10 Sample.ample rfl (one := Sample.n1) (two := Sample.n2) (lo := Sample.n1)
  (hi := Sample.n23) (test := fun _ x => .ok (decide (x.toInt .base10 ≤ 7))) (P := fun v => decide (v ≤ 7)) (n₀ := 0)
  (by sample) (by sample) (by sample) (by sample) (by sample) (by sample) (by sample) (by sample)
  (fun _ _ _ _ _ _ => rfl) (by sample) (by sample)

/-- `x * x <= m` -/
def squareAtMost {F : Type} (o : FloatOps F) (L : Limits) (env : Env) (m : Bignum) (n : Nat) (x : Bignum) : Res Bool := do
  let s ← x.mul o L env n x
  s.le m

/-- C104, square roots by bisection: `bisect([&](x) { return x * x <= m; }, one, m + one)` is the integer square root of every m above zero,
including the 1 and 2 that Newton's iteration gets wrong. -/
theorem C104_sqrt {F : Type} {o : FloatOps F} (M : Ieee o) {L : Limits} {K : Nat} (hp : Preset L K) {env : Env} (hm : env.Ample)
    (hd : env.debug = false) {one two m top : Bignum} (w1 : WF L one) (v1 : one.toInt L = 1) (w2 : WF L two) (v2 : two.toInt L = 2) (wm : WF L m)
    (h0 : 0 < m.toInt L) (wt : WF L top) (vt : top.toInt L = m.toInt L + 1) (hK : 2 * top.digits.length ≤ K) :
    ∃ r, Evaluates (fun n => bisect L env n one two (squareAtMost o L env m n) one top) (.ok r) ∧ WF L r ∧
      r.toInt L = Nat.sqrt (m.toInt L).toNat := by
  have hc := hp.custom
  have hB := hc.supported.base_ge
  have tm := toInt_of_pos (L := L) (desc_of_pos wm h0)
  have tt := toInt_of_pos (L := L) (desc_of_pos wt (by omega))
  obtain ⟨r, e1, e2, e3, e4, e5, e6⟩ := C104_bisect_partial hc hm hd w1 v1 w2 v2 w1 wt (by omega) (by omega) (n₀ := 33)
    (test := squareAtMost o L env m) (P := fun z => decide (z * z ≤ m.toInt L)) (by
      intro n hn x wx x0 xt
      have tx := toInt_of_pos (L := L) (desc_of_pos wx x0)
      have lx : x.digits.length ≤ top.digits.length :=
        length_le_of_natOf_le hB wt.2.1 (nlz_of_mag wx (by omega)) (by show x.mag L ≤ top.mag L; omega)
      unfold squareAtMost
      have hle := pos_le hB (x.mag L * x.mag L) (m.toInt L).toNat
      rw [← eq_pos hB wm h0] at hle
      rw [mul_numeral M hp hm wx wx (by have := length_pos (mag_ne_nil (L := L) (x := x) (by omega)); omega) (by omega) (by omega), ok_bind,
        desc_of_pos wx x0, show signRule .pos .pos = .pos from rfl, hle]
      congr 1
      rw [decide_eq_decide, tx]
      constructor <;> intro h
      · have : ((x.mag L * x.mag L : Nat) : Int) ≤ (m.toInt L).toNat := by exact_mod_cast h
        push_cast at this; omega
      · have : ((x.mag L * x.mag L : Nat) : Int) ≤ (m.toInt L).toNat := by push_cast; omega
        exact_mod_cast this)
    (by rw [v1]; simp; omega) (by rw [vt]; simp; nlinarith)
  refine ⟨r, e1, e2, ?_⟩
  have tr := toInt_of_pos (L := L) (desc_of_pos e2 (by omega))
  have em : m.toInt L = (m.toInt L).toNat := by omega
  simp only [decide_eq_true_eq, decide_eq_false_iff_not, not_le] at e5 e6
  rw [tr] at e5 e6 ⊢
  rw [em] at e5 e6
  congr 1
  exact Nat.eq_sqrt.2 ⟨by exact_mod_cast e5, by exact_mod_cast e6⟩

/-- From 0 and 2 the program never returns if the test answers yes to zero: (0 + 2) / 2 is zero. -/
theorem C104_zero_diverges {L : Limits} (h : Supported L) {env : Env} (hm : env.Ample) {one two hi : Bignum}
    (w1 : WF L one) (v1 : one.toInt L = 1) (w2 : WF L two) (v2 : two.toInt L = 2) (whi : WF L hi) (vh : hi.toInt L = 2)
    {test : Nat → Bignum → Res Bool} {n₀ : Nat} (ht : ∀ n, n₀ ≤ n → test n ⟨.pos, [0]⟩ = .ok true) {lo : Bignum} (hl : lo = ⟨.pos, []⟩ ∨ lo = ⟨.pos, [0]⟩) :
    Evaluates (fun n => bisect L env n one two (test n) lo hi) (.error .timeout) := by
  have hB := h.base_ge
  have wz : ∀ {z : Bignum}, z = ⟨.pos, []⟩ ∨ z = ⟨.pos, [0]⟩ → WF L z ∧ z.mag L = 0 := by
    rintro z (rfl | rfl)
    · exact ⟨⟨.inl rfl, by simp [WFDigits, InRange, NoLeadingZero]⟩, mag_of_nil rfl⟩
    · exact ⟨⟨.inl rfl, by simp [WFDigits, InRange, NoLeadingZero]; omega⟩, by simp [Bignum.mag]⟩
  have d1 := desc_of_pos w1 (by omega)
  have dh := desc_of_pos whi (by omega)
  have d2 := desc_of_pos w2 (by omega)
  have m1 := toInt_of_pos (L := L) d1
  have mh := toInt_of_pos (L := L) dh
  have m2 := toInt_of_pos (L := L) d2
  refine ⟨n₀ + one.digits.length + hi.digits.length + 3, fun n hn => ?_⟩
  have cond : ∀ {z : Bignum}, z = ⟨.pos, []⟩ ∨ z = ⟨.pos, [0]⟩ → (do
      let t ← z.add L env n one
      t.lt hi) = Except.ok true := by
    intro z hz
    have lz : z.digits.length ≤ 1 := by rcases hz with rfl | rfl <;> simp
    have dz : z.desc = .pos := by rcases hz with rfl | rfl <;> rfl
    obtain ⟨c, e1, e2, e3, e4⟩ := add_pos h hm (wz hz).1 w1 (d1.trans dz.symm)
    rw [e1 n (by omega), ok_bind]
    rw [(wz hz).2] at e4
    have : c = numeral L .pos 1 := by
      rw [eq_numeral hB e2.2.1 (nlz_of_mag e2 (by omega)), e3, dz, e4]; congr 1; omega
    rw [this, eq_pos hB whi (by omega), vh]
    exact pos_lt_of_le hB (by decide)
  have body : ∀ {z : Bignum}, z = ⟨.pos, []⟩ ∨ z = ⟨.pos, [0]⟩ → (do
      let t ← z.add L env n hi
      let mid ← t.div L env n two
      if ← test n mid then .ok ⟨mid, hi⟩ else .ok ⟨z, mid⟩) = Except.ok (⟨⟨.pos, [0]⟩, hi⟩ : BisectSt) := by
    intro z hz
    have lz : z.digits.length ≤ 1 := by rcases hz with rfl | rfl <;> simp
    have dz : z.desc = .pos := by rcases hz with rfl | rfl <;> rfl
    obtain ⟨c, e1, e2, e3, e4⟩ := add_pos h hm (wz hz).1 whi (dh.trans dz.symm)
    rw [e1 n (by omega), ok_bind]
    rw [(wz hz).2] at e4
    have hdv : c.div L env n two = .ok ⟨.pos, [0]⟩ := by
      unfold Bignum.div viaCopy
      rw [copy_ok hm, ok_bind, C32_self_division_is_zero h (r := .other two) e2 w2 (by show c.mag L = two.mag L; omega) (by omega)]
      show Except.ok (⟨signRule c.desc two.desc, [0]⟩ : Bignum) = _
      rw [e3, dz, d2]; rfl
    rw [hdv, ok_bind, ht n (by omega), ok_bind, if_pos rfl]
  have loop : ∀ (f : Nat) {z : Bignum}, z = ⟨.pos, []⟩ ∨ z = ⟨.pos, [0]⟩ → loopWhile (fun s => do
        let t ← s.lo.add L env n one
        t.lt s.hi)
      (fun s => do
        let t ← s.lo.add L env n s.hi
        let mid ← t.div L env n two
        if ← test n mid then .ok ⟨mid, s.hi⟩ else .ok ⟨s.lo, mid⟩) f (⟨z, hi⟩ : BisectSt) = .error .timeout := by
    intro f
    induction f with
    | zero => intro z _; rfl
    | succ f ih =>
      intro z hz
      rw [loopWhile]
      simp only [cond hz, ok_bind, body hz, if_true]
      exact ih (.inr rfl)
  show bisect L env n one two (test n) lo hi = _
  unfold bisect
  rw [loop n hl]
  rfl

example := C104_zero_diverges (L := .base10) (.inr Sample.base10) Sample.ample (one := Sample.n1) (two := Sample.n2) (hi := Sample.n2)
  (test := fun _ x => .ok (decide (x.toInt .base10 ≤ 1))) (n₀ := 0) (lo := ⟨.pos, []⟩)
  (by sample) (by sample) (by sample) (by sample) (by sample) (by sample) (fun _ _ => by decide) (.inl rfl)

/-- The property fails: searching the square root of 1 between 0 and 2 never ends. -/
theorem C104_refuted {F : Type} {o : FloatOps F} (M : Ieee o) : ∃ one two hi : Bignum, WF .base10 one ∧ WF .base10 two ∧ WF .base10 hi ∧
    one.toInt .base10 = 1 ∧ two.toInt .base10 = 2 ∧ hi.toInt .base10 = 2 ∧
    Evaluates (fun n => bisect .base10 releaseEnv n one two (squareAtMost o .base10 releaseEnv one n) Bignum.default hi) (.error .timeout) := by
  have w : ∀ k < 10, WF .base10 ⟨.pos, [k]⟩ := by
    intro k hk
    refine ⟨.inl rfl, by simp [InRange, Limits.base, Limits.base10, Limits.custom]; omega, ?_⟩
    rcases Nat.eq_zero_or_pos k with h | h
    · exact .inr (by rw [h])
    · exact .inl (by simp [NoLeadingZero]; omega)
  refine ⟨⟨.pos, [1]⟩, ⟨.pos, [2]⟩, ⟨.pos, [2]⟩, w 1 (by omega), w 2 (by omega), w 2 (by omega), by decide, by decide, by decide, ?_⟩
  refine C104_zero_diverges (.inr custom_base10) releaseEnv_ample (w 1 (by omega)) (by decide) (w 2 (by omega)) (by decide) (w 2 (by omega))
    (by decide) (n₀ := 33) (fun n hn => ?_) (.inl rfl)
  unfold squareAtMost
  rw [mul_numeral M .base10 releaseEnv_ample (w 0 (by omega)) (w 0 (by omega)) (by simp) (by simp) (by omega), ok_bind]
  decide

/-- The hypotheses are met: the square root of 29 in base 10. -/
example {F : Type} {o : FloatOps F} (M : Ieee o) : ∃ r, Evaluates (fun n => bisect .base10 releaseEnv n ⟨.pos, [1]⟩ ⟨.pos, [2]⟩
    (squareAtMost o .base10 releaseEnv ⟨.pos, [9, 2]⟩ n) ⟨.pos, [1]⟩ ⟨.pos, [0, 3]⟩) (.ok r) ∧ r.toInt .base10 = 5 := by
  obtain ⟨r, h1, -, h3⟩ := C104_sqrt M .base10 releaseEnv_ample rfl (one := ⟨.pos, [1]⟩) (two := ⟨.pos, [2]⟩) (m := ⟨.pos, [9, 2]⟩)
    (top := ⟨.pos, [0, 3]⟩)
    (by simp [WF, Signed, WFDigits, InRange, NoLeadingZero, Limits.base, Limits.base10, Limits.custom]) (by decide)
    (by simp [WF, Signed, WFDigits, InRange, NoLeadingZero, Limits.base, Limits.base10, Limits.custom]) (by decide)
    (by simp [WF, Signed, WFDigits, InRange, NoLeadingZero, Limits.base, Limits.base10, Limits.custom]) (by decide)
    (by simp [WF, Signed, WFDigits, InRange, NoLeadingZero, Limits.base, Limits.base10, Limits.custom]) (by decide) (by simp)
  refine ⟨r, h1, ?_⟩
  rw [h3, show ((⟨.pos, [9, 2]⟩ : Bignum).toInt .base10).toNat = 29 by decide, show Nat.sqrt 29 = 5 from (Nat.eq_sqrt.2 (by decide)).symm]
  rfl

end BN
