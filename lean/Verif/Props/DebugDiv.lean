import Verif.Lemmas.Samples
import Verif.Props.DebugBuild
import Verif.Props.Algebra
/-
C101: exactly when `/=` throws in a debug build (`BN_DEBUG`, bn_subtraction_impl.h:16-20 called from
bn_division_impl.h:63).
-/
namespace BN
open Bignum

/-- Binary long division of `a` by `b`: for every binary digit `k` of the quotient that is 1, `b·2^k` is subtracted from the
remainder `a mod b·2^(k+1)` left so far.  The division stumbles if, at some such `k`, these two have equally many digits to base `B`
and each has a digit above the other's. -/
def DivClash (B a b : Nat) : Prop :=
  ∃ k, (a / b).testBit k = true ∧ Clash (Nat.digits B (a % (b * 2 ^ (k + 1)))) (Nat.digits B (b * 2 ^ k))

theorem not_clash_self (l : List Nat) : ¬ Clash l l := by
  rintro ⟨-, ⟨i, -, h⟩, -⟩
  omega

theorem not_divClash_lt {B a b : Nat} (h : a < b) : ¬ DivClash B a b := by
  rintro ⟨k, h1, -⟩
  rw [Nat.div_eq_of_lt h] at h1
  simp at h1

/-- The first round of the long division, and the rest. -/
theorem divClash_step {B n D K : Nat} (h1 : D * 2 ^ K ≤ n) (h2 : n < D * 2 ^ (K + 1)) :
    DivClash B n D ↔ Clash (Nat.digits B n) (Nat.digits B (D * 2 ^ K)) ∨ DivClash B (n - D * 2 ^ K) D := by
  have hD : 0 < D := by
    rcases Nat.eq_zero_or_pos D with rfl | h
    · simp at h2
    · exact h
  obtain ⟨m, rfl⟩ := Nat.exists_eq_add_of_le h1
  have hm : m < D * 2 ^ K := by rw [pow_succ, ← Nat.mul_assoc] at h2; omega
  rw [Nat.add_sub_cancel_left]
  have hq : (D * 2 ^ K + m) / D = 2 ^ K + m / D := by
    rw [Nat.mul_add_div hD]
  have hq' : m / D < 2 ^ K := Nat.div_lt_of_lt_mul hm
  have hmod : ∀ k < K, (D * 2 ^ K + m) % (D * 2 ^ (k + 1)) = m % (D * 2 ^ (k + 1)) := by
    intro k hk
    obtain ⟨j, hj⟩ : ∃ j, D * 2 ^ K = D * 2 ^ (k + 1) * j := by
      refine ⟨2 ^ (K - (k + 1)), ?_⟩
      rw [Nat.mul_assoc, ← pow_add, show k + 1 + (K - (k + 1)) = K by omega]
    rw [hj, Nat.mul_add_mod]
  unfold DivClash
  rw [hq]
  constructor
  · rintro ⟨k, k1, k2⟩
    rcases Nat.lt_trichotomy k K with h | rfl | h
    · right
      rw [Nat.testBit_two_pow_add_gt h] at k1
      rw [hmod k h] at k2
      exact ⟨k, k1, k2⟩
    · left
      rwa [Nat.mod_eq_of_lt h2] at k2
    · rw [Nat.testBit_lt_two_pow] at k1
      · cases k1
      · have : 2 ^ (K + 1) ≤ 2 ^ k := Nat.pow_le_pow_right (by omega) h
        rw [pow_succ] at this; omega
  · rintro (h | ⟨k, k1, k2⟩)
    · refine ⟨K, ?_, by rwa [Nat.mod_eq_of_lt h2]⟩
      rw [Nat.testBit_two_pow_add_eq, Nat.testBit_lt_two_pow hq']; rfl
    · have hk : k < K := by
        by_contra hc
        rw [Nat.testBit_lt_two_pow] at k1
        · cases k1
        · exact Nat.lt_of_lt_of_le hq' (Nat.pow_le_pow_right (by omega) (by omega))
      exact ⟨k, by rwa [Nat.testBit_two_pow_add_gt hk], by rwa [hmod k hk]⟩

theorem NZ.eq_digits {B : Nat} (hB : 2 ≤ B) {l : List Nat} (h : NZ B l) : l = Nat.digits B (natOf B l) :=
  natOf_unique (by omega) h.rng (digits_inRange hB _) h.nlz (digits_nlz _ _) (natOf_digits _ _).symm

/-- Like `okOr_search`, and the factor found is a power of two. -/
theorem okOr_search_pow {L : Limits} (h : Custom L) (env : Env) {n : List Nat} (hn : NZ L.base n) (D : Nat) :
    ∀ (fuel : Nat) (b0 b1 q : List Nat) (K : Nat), NZ L.base b0 → NZ L.base b1 → NZ L.base q →
      natOf L.base b0 = D * 2 ^ K → natOf L.base b1 = 2 * natOf L.base b0 → natOf L.base q = 2 ^ K →
      natOf L.base b0 ≤ natOf L.base n → natOf L.base n < natOf L.base b0 * 2 ^ fuel →
      OkOr env (loopWhile (fun t => absGe n t.bsrch1) (searchBody L env) fuel ⟨b0, b1, q⟩) (fun t =>
        NZ L.base t.bsrch0 ∧ NZ L.base t.q ∧ ∃ K, natOf L.base t.bsrch0 = D * 2 ^ K ∧ natOf L.base t.q = 2 ^ K ∧
        natOf L.base t.bsrch0 ≤ natOf L.base n ∧ natOf L.base n < 2 * natOf L.base t.bsrch0)
  | 0, b0, b1, q, _, _, _, _, _, _, _, h6, h7 => by rw [pow_zero] at h7; omega
  | fuel + 1, b0, b1, q, K, h1, h2, h3, h4, h5, hq, h6, h7 => by
    have hB := h.supported.base_ge
    rw [loopWhile]
    simp only
    rw [absGe_normal (B := L.base) (by omega) hn.rng h2.rng hn.nlz h2.nlz, ok_bind]
    by_cases hge : natOf L.base b1 ≤ natOf L.base n
    · simp only [hge, decide_true, if_true]
      refine OkOr.bind (P := fun t => t = ⟨b1, addRest L.base b1 b1 0, addRest L.base q q 0⟩) ?_ ?_
      · unfold searchBody
        refine (okOr_copy env b1).bind ?_
        rintro x rfl
        refine (okOr_shl h env h2.rng).bind ?_
        rintro y rfl
        refine (okOr_shl h env h3.rng).bind ?_
        rintro z rfl
        exact .pure rfl
      · rintro t rfl
        obtain ⟨d1, d2⟩ := h2.double hB
        obtain ⟨e1, e2⟩ := h3.double hB
        exact okOr_search_pow h env hn D fuel b1 _ _ (K + 1) h2 d1 e1 (by rw [h5, h4]; ring) d2 (by rw [e2, hq]; ring) hge
          (by rw [h5, Nat.mul_comm 2, Nat.mul_assoc, ← pow_succ']; exact h7)
    · simp only [hge, decide_false, Bool.false_eq_true, if_false]
      exact .pure ⟨h1, h3, K, h4, hq, h6, by simp only; omega⟩

/-- The first half of a round of the outer loop (bn_division_impl.h:49-61). -/
def divSearch (L : Limits) (env : Env) (fuel : Nat) (dv n : List Nat) : Res SearchSt := do
  let bsrch0 ← Vec.copy env dv
  let bsrch1 ← Vec.copy env dv
  let q ← Vec.copy env [L.store (L.toSingle 1)]
  let bsrch1 ← shiftLeft1 L env bsrch1
  loopWhile (fun t => absGe n t.bsrch1) (searchBody L env) fuel ⟨bsrch0, bsrch1, q⟩

theorem divBody_eq (L : Limits) (env : Env) (fuel : Nat) (dv : List Nat) (s : DivSt) :
    divBody L env fuel dv s = divSearch L env fuel dv s.dividend >>= fun t =>
      absSub L env fuel s.dividend (.other t.bsrch0) >>= fun dividend =>
        if t.q.length ≤ s.res.length then absAdd L env fuel s.res (.other t.q) >>= fun res => .ok ⟨dividend, res⟩
        else absAdd L env fuel t.q (.other s.res) >>= fun q => .ok ⟨dividend, q⟩ := by
  unfold divBody divSearch
  simp only [bind_assoc]

theorem divSearch_debug (L : Limits) (al : Nat → Bool) (fuel : Nat) (dv n : List Nat) :
    divSearch L ⟨al, true⟩ fuel dv n = divSearch L ⟨al, false⟩ fuel dv n := rfl

theorem divSearch_ok {L : Limits} (h : Custom L) {env : Env} (hm : env.Ample) (hd : env.debug = false) {fuel : Nat} {dv n : List Nat}
    (hdv : NZ L.base dv) (hn : NZ L.base n) (hge : natOf L.base dv ≤ natOf L.base n) (hf : natOf L.base n < 2 ^ fuel) :
    ∃ t K, divSearch L env fuel dv n = .ok t ∧ t.bsrch0 = Nat.digits L.base (natOf L.base dv * 2 ^ K) ∧
      natOf L.base dv * 2 ^ K ≤ natOf L.base n ∧ natOf L.base n < natOf L.base dv * 2 ^ (K + 1) := by
  have hB := h.supported.base_ge
  have key : OkOr env (divSearch L env fuel dv n) (fun t => NZ L.base t.bsrch0 ∧ NZ L.base t.q ∧
      ∃ K, natOf L.base t.bsrch0 = natOf L.base dv * 2 ^ K ∧ natOf L.base t.q = 2 ^ K ∧
      natOf L.base t.bsrch0 ≤ natOf L.base n ∧ natOf L.base n < 2 * natOf L.base t.bsrch0) := by
    unfold divSearch
    refine (okOr_copy env dv).bind ?_
    rintro b0 rfl
    refine (okOr_copy env b0).bind ?_
    rintro b1 rfl
    rw [one_store h]
    refine (okOr_copy env [1]).bind ?_
    rintro q rfl
    refine (okOr_shl h env hdv.rng).bind ?_
    rintro b1' rfl
    obtain ⟨d1, d2⟩ := hdv.double hB
    have hq1 : NZ L.base [1] := ⟨by intro x hx; simp at hx; omega, by simp [NoLeadingZero], by simp⟩
    have hp := hdv.pos hB
    refine okOr_search_pow h env hn (natOf L.base b1) fuel b1 _ [1] 0 hdv d1 hq1 (by simp) d2 (by simp) hge ?_
    have h2 : 1 * 2 ^ fuel ≤ natOf L.base b1 * 2 ^ fuel := Nat.mul_le_mul_right _ hp
    omega
  obtain ⟨t, ht, t1, -, K, t3, -, t5, t6⟩ := key.ok hm hd
  refine ⟨t, K, ht, ?_, by omega, ?_⟩
  · rw [← t3]; exact t1.eq_digits hB
  · rw [t3] at t6; rw [pow_succ, ← Nat.mul_assoc]; omega

theorem divLoop_debug {L : Limits} (h : Custom L) {al : Nat → Bool} (hm : ∀ n, al n = true) {dv : List Nat} (hdv : NZ L.base dv)
    (bfuel k : Nat) (hk : k + 2 ≤ bfuel) :
    ∀ (fuel : Nat) (n res : List Nat), InRange L.base n → NoLeadingZero n → (WFDigits L.base res ∧ res ≠ []) →
      natOf L.base n + natOf L.base res < 2 ^ k → 2 * natOf L.base n + 1 < 2 ^ fuel →
      (DivClash L.base (natOf L.base n) (natOf L.base dv) →
        loopWhile (fun s => absGe s.dividend dv) (divBody L ⟨al, true⟩ bfuel dv) fuel ⟨n, res⟩ = .error (.exn .bnUnderflow)) ∧
      (¬ DivClash L.base (natOf L.base n) (natOf L.base dv) →
        loopWhile (fun s => absGe s.dividend dv) (divBody L ⟨al, true⟩ bfuel dv) fuel ⟨n, res⟩ =
        loopWhile (fun s => absGe s.dividend dv) (divBody L ⟨al, false⟩ bfuel dv) fuel ⟨n, res⟩)
  | 0, _, _, _, _, _, _, h7 => by rw [pow_zero] at h7; omega
  | fuel + 1, n, res, h1, h2, h3, h4, h5 => by
    have hB := h.supported.base_ge
    have hm' : Env.Ample ⟨al, false⟩ := hm
    rw [loopWhile, loopWhile]
    simp only
    rw [absGe_normal (B := L.base) (by omega) h1 hdv.rng h2 hdv.nlz, ok_bind, ok_bind]
    by_cases hge : natOf L.base dv ≤ natOf L.base n
    · simp only [hge, decide_true, if_true]
      have hp := hdv.pos hB
      have hnz : NZ L.base n := ⟨h1, h2, by rintro rfl; simp at hge; omega⟩
      have hpow : 2 ^ k ≤ 2 ^ bfuel := Nat.pow_le_pow_right (by omega) (by omega)
      obtain ⟨t, K, ht, t1, t2, t3⟩ := divSearch_ok h hm' rfl hdv hnz hge (fuel := bfuel) (by omega)
      obtain ⟨s, hs, g1, g2, g3, g4, g5, g6⟩ := (okOr_divBody h ⟨al, false⟩ hdv hnz h3.1 hge h4 hk).ok hm' rfl
      rw [pow_succ] at h5
      have ih := divLoop_debug h hm hdv bfuel k hk fuel s.dividend s.res g1 g2 g3 (by omega) (by omega)
      have hstep := divClash_step (B := L.base) t2 t3
      have hlen := length_lt_of_lt_pow hB h2 (k := k) (by omega)
      have hr0 : InRange L.base t.bsrch0 := by rw [t1]; exact digits_inRange hB _
      have hc := C56_debug_throws_iff (L := L) h.supported (env := ⟨al, true⟩) rfl h1 hr0 (n := bfuel) (by omega)
      have hlen2 : t.bsrch0.length ≤ n.length :=
        length_le_of_natOf_le hB h1 (by rw [t1]; exact digits_nlz _ _) (by rw [t1, natOf_digits]; exact t2)
      have hcl : AnyDigitGreater t.bsrch0 n ↔ Clash n t.bsrch0 := by
        refine clash_of_any h1 hr0 ?_
        rcases Nat.lt_or_ge t.bsrch0.length n.length with hl | hl
        · exact .inl hl
        · exact .inr ⟨by omega, by rw [t1, natOf_digits]; exact t2⟩
      have hdig : Clash n t.bsrch0 ↔ Clash (Nat.digits L.base (natOf L.base n)) (Nat.digits L.base (natOf L.base dv * 2 ^ K)) := by
        rw [← hnz.eq_digits hB, ← t1]
      -- the value of the remainder after the round
      have hval : natOf L.base s.dividend = natOf L.base n - natOf L.base dv * 2 ^ K := by
        rw [divBody_eq] at hs
        simp only [ht, ok_bind] at hs
        obtain ⟨n', hn', hn2⟩ := (okOr_absSub h.supported ⟨al, false⟩ (src := .other t.bsrch0) (fuel := bfuel) h1 hr0 hnz.ne hlen2 (by omega)).ok hm' rfl
        rw [hn', ok_bind] at hs
        have : s.dividend = n' := by
          split at hs
          all_goals
            revert hs
            generalize absAdd L ⟨al, false⟩ bfuel _ _ = w
            intro hs
            cases w with
            | error e => cases hs
            | ok w => cases hs; rfl
        rw [this, hn2]
        show natOf L.base (trim (subRest L.base n t.bsrch0 0)) = _
        rw [natOf_trim, subRest_exact hB h1 hr0 hlen2 (by rw [t1, natOf_digits]; exact t2), t1, natOf_digits]
      rw [hval] at ih
      by_cases hcc : Clash n t.bsrch0
      · have hthrow : divBody L ⟨al, true⟩ bfuel dv ⟨n, res⟩ = .error (.exn .bnUnderflow) := by
          rw [divBody_eq, divSearch_debug]
          simp only [ht, ok_bind]
          rw [hc.2 (hcl.2 hcc)]; rfl
        refine ⟨fun _ => by rw [hthrow]; rfl, fun hno => absurd (hstep.2 (.inl (hdig.1 hcc))) hno⟩
      · have hsame : divBody L ⟨al, true⟩ bfuel dv ⟨n, res⟩ = .ok s := by
          rw [← hs, divBody_eq, divBody_eq, divSearch_debug]
          simp only [ht, ok_bind]
          rw [C57_debug_release_agree L al bfuel n (.other t.bsrch0) (fun hx => hcc (hcl.1 (hc.1 hx)))]
          rfl
        rw [hsame, hs, ok_bind, ok_bind]
        have : DivClash L.base (natOf L.base n) (natOf L.base dv) ↔ DivClash L.base (natOf L.base n - natOf L.base dv * 2 ^ K) (natOf L.base dv) := by
          rw [hstep, ← hdig]
          exact or_iff_right hcc
        rw [this]
        exact ih
    · simp only [hge, decide_false, Bool.false_eq_true, if_false]
      exact ⟨fun hd => absurd hd (not_divClash_lt (by omega)), fun _ => trivial⟩

/-- What the rest of the division sees of it. -/
theorem divTry_debug {L : Limits} (h : Custom L) {al : Nat → Bool} (hm : ∀ n, al n = true) {d : Desc} {a b : List Nat}
    (ha : NZ L.base a) (hb : NZ L.base b) {k fuel : Nat} (hf : natOf L.base a < 2 ^ k) (hk : k + 2 ≤ fuel) :
    (DivClash L.base (natOf L.base a) (natOf L.base b) → divTry L ⟨al, true⟩ fuel ⟨d, a⟩ b = .error (.exn .bnUnderflow)) ∧
    (¬ DivClash L.base (natOf L.base a) (natOf L.base b) →
      divTry L ⟨al, true⟩ fuel ⟨d, a⟩ b = divTry L ⟨al, false⟩ fuel ⟨d, a⟩ b) := by
  have hB := h.supported.base_ge
  have hw : WFDigits L.base [0] := ⟨by intro x hx; simp at hx; omega, .inr rfl⟩
  have h2 : 2 ^ (k + 2) ≤ 2 ^ fuel := Nat.pow_le_pow_right (by omega) hk
  rw [pow_succ, pow_succ] at h2
  obtain ⟨l1, l2⟩ := divLoop_debug h hm hb fuel k hk fuel a [0] ha.rng ha.nlz ⟨hw, by simp⟩ (by simpa using hf) (by omega)
  have hcopy : ∀ e : Bool, Vec.copy ⟨al, e⟩ [0] = .ok [0] := fun e => copy_ample (env := ⟨al, e⟩) hm [0]
  unfold divTry absDiv
  rw [zero_store h.supported]
  obtain ⟨g, hg⟩ := absGt_total a b
  simp only [hg, ok_bind, hcopy]
  cases g
  · refine ⟨fun hc => ?_, fun _ => rfl⟩
    exfalso
    rcases Nat.lt_trichotomy (natOf L.base a) (natOf L.base b) with hlt | heq | hgt
    · exact not_divClash_lt hlt hc
    · obtain ⟨j, j1, j2⟩ := hc
      have hp := hb.pos hB
      rw [heq, Nat.div_self (by omega)] at j1
      have hj : j = 0 := by
        by_contra hj
        rw [Nat.testBit_lt_two_pow (Nat.one_lt_two_pow hj)] at j1
        cases j1
      subst hj
      rw [heq, Nat.mod_eq_of_lt (by simp; omega), pow_zero, Nat.mul_one] at j2
      exact not_clash_self _ j2
    · have := absGt_of_lt hB ha.rng hb.rng hb.nlz hgt
      rw [hg] at this; cases this
  · simp only [if_true]
    refine ⟨fun hc => ?_, fun hc => ?_⟩
    · rw [l1 hc]; rfl
    · rw [l2 hc]

/-! ### C101 -/

/-- A debug build refuses a division by a divisor above 1 exactly when the binary long division stumbles (`DivClash`): then it throws a
plain `std::exception` and leaves an infinity with the sign of the divisor; otherwise it ends like the release build.  All
well-formed operands of every custom base. -/
theorem C101_div_throws_iff {L : Limits} (h : Custom L) {al : Nat → Bool} (hm : ∀ n, al n = true) {a b : Bignum}
    (ha : WF L a) (hb : WF L b) (hb1 : 1 < b.mag L) {n : Nat} (hn : Nat.size (a.mag L) + 2 ≤ n) :
    (DivClash L.base (a.mag L) (b.mag L) →
      divAssign L ⟨al, true⟩ n a (.other b) = .threw .stdException ⟨if b.desc = .pos then .posInf else .negInf, []⟩) ∧
    (¬ DivClash L.base (a.mag L) (b.mag L) →
      divAssign L ⟨al, true⟩ n a (.other b) = divAssign L ⟨al, false⟩ n a (.other b)) := by
  have hB := h.supported.base_ge
  have hbm : b.mag L = natOf L.base b.digits := rfl
  have ham : a.mag L = natOf L.base a.digits := rfl
  rcases wf_cases hB hb.2 with ⟨-, hz⟩ | ⟨hbn, -⟩
  · omega
  have e0 : isOneDigit b.digits 0 = false := by
    rw [Bool.eq_false_iff, ne_eq, isOneDigit_iff]; exact hbn.ne_zero
  have e1 : isOneDigit b.digits 1 = false := by
    rw [Bool.eq_false_iff, ne_eq, isOneDigit_iff]; intro hx; rw [hbm, hx] at hb1; simp at hb1
  rcases wf_cases hB ha.2 with ⟨hz, hz0⟩ | ⟨han, -⟩
  · refine ⟨fun hc => absurd hc (not_divClash_lt (by omega)), fun _ => ?_⟩
    rw [divAssign_of_zero (r := .other b) ha.1 hbn.ne_zero hz, divAssign_of_zero (r := .other b) ha.1 hbn.ne_zero hz]
  have e2 : ¬ (a.digits = [] ∨ isOneDigit a.digits 0 = true) := by
    rw [isOneDigit_iff]; rintro (hx | hx)
    · exact han.ne hx
    · exact han.ne_zero hx
  obtain ⟨t1, t2⟩ := divTry_debug h hm (d := mulSign a.desc b.desc) han hbn (Nat.lt_size_self (a.mag L)) hn
  unfold divAssign
  simp only [isComputable_signed ha.1, Rhs.get, e0, e1, e2, Bool.not_true, Bool.false_eq_true, if_false]
  refine ⟨fun hc => ?_, fun hc => ?_⟩
  · rw [t1 hc]; rfl
  · rw [t2 hc]

example := C101_div_throws_iff (L := .base10) (al := fun _ => true) (a := Sample.n199) (b := Sample.n23) (n := 50)
  Sample.base10 (fun _ => rfl) (by sample) (by sample) (by sample) (by sample)

/-- Divisors of one digit `1` and a number divided by itself never throw. -/
theorem C101_quiet_cases {L : Limits} (h : Supported L) {al : Nat → Bool} {a : Bignum} (ha : WF L a) (n : Nat) :
    (∀ b : Bignum, b.digits = [1] → divAssign L ⟨al, true⟩ n a (.other b) = divAssign L ⟨al, false⟩ n a (.other b)) ∧
    (2 ≤ a.mag L → divAssign L ⟨al, true⟩ n a .self = divAssign L ⟨al, false⟩ n a .self) := by
  refine ⟨fun b hb => ?_, fun h2 => ?_⟩
  · rw [divAssign_by_one (r := .other b) ha.1 hb, divAssign_by_one (r := .other b) ha.1 hb]
  · rw [C32_self_division_is_zero h (r := .self) ha ha rfl h2, C32_self_division_is_zero h (r := .self) ha ha rfl h2]

/-- 51 / 7 stumbles at 23 - 14, 96 / 3 does not. -/
example : DivClash 10 51 7 ∧ ¬ DivClash 10 96 3 := by
  refine ⟨⟨1, by decide, ?_⟩, ?_⟩
  · norm_num
    exact ⟨rfl, ⟨0, by decide⟩, ⟨1, by decide⟩⟩
  · rintro ⟨k, k1, k2⟩
    have hk : k = 5 := by
      rw [show 96 / 3 = 2 ^ 5 by norm_num, Nat.testBit_two_pow] at k1
      exact (of_decide_eq_true k1).symm
    subst hk
    norm_num at k2
    exact not_clash_self _ k2

end BN
