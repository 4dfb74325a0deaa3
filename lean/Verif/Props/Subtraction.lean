import Verif.Lemmas.Samples
import Verif.Props.Addition
/-
C15–C20, C56, C57: subtraction.
-/
namespace BN

theorem release_check {env : Env} (hd : env.debug = false) (a b : List Nat) : subDebugCheck env a b = .ok () := by
  rw [subDebugCheck_eq]; simp [hd]

theorem Signed.flip {d : Desc} (h : Signed d) : Signed d.flip := by
  rcases h with rfl | rfl
  · exact .inr rfl
  · exact .inl rfl

/-- Core of same-sign subtraction with an explicit iteration bound; the sign is kept exactly when the
second operand is not longer and not larger. -/
theorem sub_core {L : Limits} (hL : Supported L) {env : Env} (hm : env.Ample) (hd : env.debug = false)
    {a : Bignum} {r : Rhs} (hsa : Signed a.desc) (hs : (r.get a).desc = a.desc)
    (ha : WFDigits L.base a.digits) (hb : WFDigits L.base (r.get a).digits)
    (hne : ¬ (a.digits = [] ∧ (r.get a).digits = [])) :
    ∃ c : Bignum, (∀ n, max a.digits.length (r.get a).digits.length < n → a.subAssign L env n r = .ok c) ∧
      Signed c.desc ∧ Normal L c ∧ c.toInt L = a.toInt L - (r.get a).toInt L ∧
      ((r.get a).digits.length < a.digits.length ∨
        (a.digits.length = (r.get a).digits.length ∧ (r.get a).mag L ≤ a.mag L) → c.desc = a.desc) := by
  have hB := hL.base_ge
  obtain ⟨g, d, he, hr, hz, hg1, hg2, hg3⟩ := magDiff_ok hL env hd (fuel := max a.digits.length (r.get a).digits.length + 1)
    a.desc.flip ha hb hne (by omega) (hm _)
  have hgs : Signed (if g then a.desc else a.desc.flip) := by
    cases g
    · exact hsa.flip
    · exact hsa
  refine ⟨⟨if g then a.desc else a.desc.flip, d⟩, ?_, hgs, ⟨hr, hz⟩, ?_, ?_⟩
  · intro n hn
    obtain ⟨g', d', he', hr', hz', hg1', hg2', hg3'⟩ := magDiff_ok hL env hd (fuel := n)
      a.desc.flip ha hb hne hn (hm _)
    have hgg : g' = g := by rw [Bool.eq_iff_iff, hg3, hg3']
    subst hgg
    have hdd : d' = d := by
      apply natOf_unique (B := L.base) (by omega) hr' hr hz' hz
      cases hgv : g'
      · rw [(hg2 hgv).2, (hg2' hgv).2]
      · rw [(hg1 hgv).2, (hg1' hgv).2]
    subst hdd
    rw [subAssign_signed hsa, subTry_same hsa hs, he']; rfl
  · rw [toInt_of_signed hsa, toInt_of_signed (b := r.get a) (by rw [hs]; exact hsa), toInt_of_signed hgs, hs]
    cases hgv : g
    · obtain ⟨h1, h2⟩ := hg2 hgv
      rcases hsa with h3 | h3 <;> simp only [h3, Desc.flip] <;> simp <;> omega
    · obtain ⟨h1, h2⟩ := hg1 hgv
      rcases hsa with h3 | h3 <;> simp only [h3] <;> simp <;> omega
  · intro h
    have := hg3.2 h
    simp [this]

/-! ### C15 (and C11 for -=) -/

/-- Same-sign subtraction is exact, including results of the other sign; the result has in-range digits and no
leading zero. Covers `a -= a` of a number with digits. -/
theorem C15_sub_same_sign_exact {L : Limits} (hL : Supported L) {env : Env} (hm : env.Ample) (hd : env.debug = false)
    {a : Bignum} {r : Rhs} (ha : WF L a) (hb : WF L (r.get a)) (hs : (r.get a).desc = a.desc)
    (hne : ¬ (a.digits = [] ∧ (r.get a).digits = [])) :
    ∃ c : Bignum, Evaluates (fun n => a.subAssign L env n r) (.ok c) ∧ WF L c ∧ NoLeadingZero c.digits ∧
      c.toInt L = a.toInt L - (r.get a).toInt L := by
  obtain ⟨c, h1, h2, h3, h4, -⟩ := sub_core hL hm hd ha.1 hs ha.2 hb.2 hne
  exact ⟨c, ⟨_, fun n hn => h1 n hn⟩, ⟨h2, h3.1, .inl h3.2⟩, h3.2, h4⟩

example := C15_sub_same_sign_exact (L := .base10) (.inr Sample.base10) Sample.ample rfl (a := ⟨.neg, [9, 1]⟩) (r := .other Sample.m23)
  (by sample) (by sample) rfl (by simp)

/-- ... and undefined exactly when both operands have no digits. -/
theorem C15_sub_same_sign_ub_iff {L : Limits} (hL : Supported L) {env : Env} (hm : env.Ample) (hd : env.debug = false)
    {a : Bignum} {r : Rhs} (ha : WF L a) (hb : WF L (r.get a)) (hs : (r.get a).desc = a.desc) :
    (∃ k, Evaluates (fun n => a.subAssign L env n r) (.ub k)) ↔ a.digits = [] ∧ (r.get a).digits = [] := by
  constructor
  · rintro ⟨k, n₀, hk⟩
    by_contra hne
    obtain ⟨c, h1, -⟩ := sub_core hL hm hd ha.1 hs ha.2 hb.2 hne
    have e1 := hk (max n₀ (max a.digits.length (r.get a).digits.length + 1)) (by omega)
    simp only at e1
    rw [h1 _ (by omega)] at e1
    cases e1
  · rintro ⟨h2, h3⟩
    refine ⟨.outOfBounds, 1, fun n hn => ?_⟩
    show a.subAssign L env n r = _
    rw [subAssign_signed ha.1, subTry_same ha.1 hs, magDiff_ub hL env _ h2 h3 (by omega)]
    rfl

example : ∃ a b : Bignum, WF .base8 a ∧ WF .base8 b ∧ b.desc = a.desc ∧ a.digits.length < b.digits.length ∧
    a.subAssign .base8 releaseEnv 9 (.other b) = .ok ⟨.pos, [7, 7]⟩ :=
  ⟨⟨.neg, [1]⟩, ⟨.neg, [0, 0, 1]⟩, by
    simp [WF, Signed, WFDigits, InRange, NoLeadingZero, Limits.base, Limits.base8, Limits.custom], by
    simp [WF, Signed, WFDigits, InRange, NoLeadingZero, Limits.base, Limits.base8, Limits.custom], rfl, by decide, by decide +kernel⟩

/-! ### C17 -/

theorem absGt_dec (a b : List Nat) [Decidable (AnyDigitGreater a b)] : absGt a b = .ok (decide (AnyDigitGreater a b)) := by
  rw [absGt_eq]; congr 1; rw [decide_eq_decide]; rfl

/-- Opposite signs: the sign stays, the magnitude is `(|a| - |b|) mod base^len(a)` if some digit or the length
of `a` exceeds `b`, and zero otherwise. -/
theorem C17_sub_opposite_sign {L : Limits} (hL : Supported L) {env : Env} (hm : env.Ample) (hd : env.debug = false)
    {a b : Bignum} (hsa : Signed a.desc) (hsb : Signed b.desc) (hs : b.desc ≠ a.desc)
    (ha : InRange L.base a.digits) (hb : InRange L.base b.digits) (hne : ¬ (a.digits = [] ∧ b.digits = [])) :
    ∃ c : Bignum, Evaluates (fun n => a.subAssign L env n (.other b)) (.ok c) ∧ c.desc = a.desc ∧ Normal L c ∧
      (AnyDigitGreater a.digits b.digits →
        (c.mag L : Int) = ((a.mag L : Int) - b.mag L) % ((L.base ^ a.digits.length : Nat) : Int)) ∧
      (¬ AnyDigitGreater a.digits b.digits → c.mag L = 0) := by
  classical
  have hB := hL.base_ge
  have hcopy : ∀ v, Vec.copy env v = .ok v := by
    intro v; unfold Vec.copy; split
    · rename_i h; rw [h]
    · simp [hm _]
  by_cases hg : AnyDigitGreater a.digits b.digits
  · have hlen : b.digits.length ≤ a.digits.length := by rcases hg with h | h <;> omega
    have ha0 : a.digits ≠ [] := by
      intro h; rw [h] at hlen
      exact hne ⟨h, by simpa using hlen⟩
    refine ⟨⟨a.desc, trim (subRest L.base a.digits b.digits 0)⟩, ⟨a.digits.length + 1, fun n hn => ?_⟩, rfl,
      ⟨trim_inRange (subRest_inRange hB _ _ _ ha hb (by omega)), trim_noLeadingZero _⟩, fun _ => ?_, fun h => absurd hg h⟩
    · show a.subAssign L env n (.other b) = _
      rw [subAssign_signed hsa, subTry_opp (r := .other b) hsa hsb hs]
      simp only [Rhs.get]
      rw [absGt_dec, ok_bind, decide_eq_true hg, if_pos rfl, hcopy, ok_bind,
        absSub_ok hL env (src := .other b.digits) (release_check hd _ _) ha hb ha0 hlen (by omega), ok_bind]
      rfl
    · show (natOf L.base (trim _) : Int) = _
      rw [natOf_trim, subRest_mod hB ha hb hlen]; rfl
  · have hb0 : b.digits ≠ [] := by
      intro h
      apply hg
      left; rw [h]
      rcases ha' : a.digits with _ | ⟨x, xs⟩
      · exact absurd ⟨ha', h⟩ hne
      · simp
    refine ⟨⟨a.desc, trim (subRest L.base b.digits b.digits 0)⟩, ⟨b.digits.length + 1, fun n hn => ?_⟩, rfl,
      ⟨trim_inRange (subRest_inRange hB _ _ _ hb hb (by omega)), trim_noLeadingZero _⟩, fun h => absurd h hg, fun _ => ?_⟩
    · show a.subAssign L env n (.other b) = _
      rw [subAssign_signed hsa, subTry_opp (r := .other b) hsa hsb hs]
      simp only [Rhs.get]
      rw [absGt_dec, ok_bind, decide_eq_false hg, if_neg (by simp), hcopy, ok_bind,
        absSub_ok hL env (src := .other b.digits) (release_check hd _ _) hb hb hb0 (Nat.le_refl _) (by omega), ok_bind]
      rfl
    · show natOf L.base (trim _) = 0
      rw [natOf_trim, natOf_subRest_self hB hb]

example := C17_sub_opposite_sign (L := .base10) (.inr Sample.base10) Sample.ample rfl (a := Sample.n199) (b := Sample.m23)
  (.inl rfl) (.inr rfl) (by decide) (by sample) (by sample) (by simp)

/-- When is that the integer difference? Exactly when `b` is zero or the modular value happens to be `|a|+|b|`. -/
theorem C17_sub_opposite_exact_iff {L : Limits} (hL : Supported L) {env : Env} (hm : env.Ample) (hd : env.debug = false)
    {a b c : Bignum} (ha : WF L a) (hb : WF L b) (hs : b.desc ≠ a.desc) (hne : ¬ (a.digits = [] ∧ b.digits = []))
    (hc : Evaluates (fun n => a.subAssign L env n (.other b)) (.ok c)) :
    c.toInt L = a.toInt L - b.toInt L ↔
      b.mag L = 0 ∨ (AnyDigitGreater a.digits b.digits ∧
        ((a.mag L : Int) - b.mag L) % ((L.base ^ a.digits.length : Nat) : Int) = a.mag L + b.mag L) := by
  have hB := hL.base_ge
  obtain ⟨c', ⟨n₁, h1⟩, h2, h3, h4, h5⟩ := C17_sub_opposite_sign hL hm hd ha.1 hb.1 hs ha.2.1 hb.2.1 hne
  obtain ⟨n₂, hc⟩ := hc
  have e : c = c' := by
    have e1 := hc (max n₁ n₂) (by omega)
    have e2 := h1 (max n₁ n₂) (by omega)
    simp only at e1 e2
    rw [e1] at e2; cases e2; rfl
  subst e
  have hsc : Signed c.desc := by rw [h2]; exact ha.1
  have key : c.toInt L = a.toInt L - b.toInt L ↔ c.mag L = a.mag L + b.mag L := by
    rw [toInt_of_signed ha.1, toInt_of_signed hb.1, toInt_of_signed hsc, h2]
    simp only [Bignum.mag]
    rcases ha.1 with h | h <;> rcases hb.1 with h' | h' <;> simp only [h, h'] at hs ⊢ <;> simp at hs ⊢ <;> omega
  have hlt : natOf L.base a.digits < L.base ^ a.digits.length := natOf_lt ha.2.1
  rw [key]
  by_cases hg : AnyDigitGreater a.digits b.digits
  · have h4 := h4 hg
    constructor
    · intro h; right; refine ⟨hg, ?_⟩; rw [← h4, h]; push_cast; rfl
    · rintro (h | ⟨_, h⟩)
      · rw [h] at h4 ⊢
        have : ((a.mag L : Int) - (0 : Nat)) % ((L.base ^ a.digits.length : Nat) : Int) = a.mag L := by
          rw [Int.natCast_zero, Int.sub_zero]
          exact Int.emod_eq_of_lt (by omega) (by unfold Bignum.mag; exact_mod_cast hlt)
        rw [this] at h4; omega
      · rw [← h4] at h; exact_mod_cast h
  · rw [h5 hg]
    have hnl : ¬ (b.mag L < a.mag L) := by
      intro h
      apply hg
      unfold Bignum.mag at h
      rcases Nat.lt_trichotomy a.digits.length b.digits.length with h1 | h1 | h1
      · have := hb.2.le_of_length (by omega) ha.2.1 h1; omega
      · exact .inr ⟨h1, exists_digit_gt hb.2.1 h1 h⟩
      · exact .inl h1
    constructor
    · intro h; left; omega
    · rintro (h | ⟨h, _⟩)
      · omega
      · exact absurd h hg

example : ∃ a b : Bignum, WF .base10 a ∧ WF .base10 b ∧ b.desc ≠ a.desc ∧ ¬ (a.digits = [] ∧ b.digits = []) ∧
    b.mag .base10 ≠ 0 ∧ AnyDigitGreater a.digits b.digits :=
  ⟨⟨.pos, [9, 4]⟩, ⟨.neg, [0, 5]⟩, by
    simp [WF, Signed, WFDigits, InRange, NoLeadingZero, Limits.base, Limits.base10, Limits.custom], by
    simp [WF, Signed, WFDigits, InRange, NoLeadingZero, Limits.base, Limits.base10, Limits.custom], by simp, by simp, by
    simp [Bignum.mag, natOf, Limits.base, Limits.base10, Limits.custom], .inr ⟨rfl, 0, by decide⟩⟩

/-! ### C16 -/

/-- Fails: 5 - (-3) gives 2 (base 10). -/
theorem C16_refuted : ∃ a b : Bignum, WF .base10 a ∧ WF .base10 b ∧
    Evaluates (fun n => a.subAssign .base10 releaseEnv n (.other b)) (.ok ⟨.pos, [2]⟩) ∧
    a.toInt .base10 - b.toInt .base10 = 8 := by
  have wfa : WF .base10 ⟨.pos, [5]⟩ := by
    simp [WF, Signed, WFDigits, InRange, NoLeadingZero, Limits.base, Limits.base10, Limits.custom]
  have wfb : WF .base10 ⟨.neg, [3]⟩ := by
    simp [WF, Signed, WFDigits, InRange, NoLeadingZero, Limits.base, Limits.base10, Limits.custom]
  refine ⟨⟨.pos, [5]⟩, ⟨.neg, [3]⟩, wfa, wfb, ?_, by decide⟩
  have hL : Supported .base10 := .inr ⟨32, 9, by norm_num, by norm_num, by norm_num, rfl⟩
  obtain ⟨c, ⟨n₀, h1⟩, h2, h3, h4, -⟩ := C17_sub_opposite_sign hL releaseEnv_ample rfl (a := ⟨.pos, [5]⟩)
    (b := ⟨.neg, [3]⟩) wfa.1 wfb.1 (by decide) wfa.2.1 wfb.2.1 (by decide)
  have h4 := h4 (.inr ⟨rfl, 0, by decide⟩)
  have hc : c = ⟨.pos, [2]⟩ := by
    obtain ⟨d, ds⟩ := c
    have hd : d = .pos := h2
    have : ds = [2] := by
      apply natOf_unique (B := Limits.base10.base) (by decide) h3.1 (by simp [InRange, Limits.base, Limits.base10, Limits.custom]) h3.2
        (by simp [NoLeadingZero])
      have e : ((natOf Limits.base10.base ds : Nat) : Int) = 2 := by
        have : ((Bignum.mag .base10 ⟨.pos, [5]⟩ : Int) - Bignum.mag .base10 ⟨.neg, [3]⟩) %
          ((Limits.base10.base ^ [5].length : Nat) : Int) = 2 := by decide
        rw [this] at h4; exact h4
      have e2 : natOf Limits.base10.base [2] = 2 := by decide
      rw [e2]; exact_mod_cast e
    rw [hd, this]
  subst hc
  exact ⟨n₀, h1⟩

/-- What does hold: subtracting a zero of the opposite sign is exact (unless both are digit-less).
Missing: every non-zero right operand (see C17 for the exact set on which the result is right by accident). -/
theorem C16_sub_opposite_partial {L : Limits} (hL : Supported L) {env : Env} (hm : env.Ample) (hd : env.debug = false)
    {a b : Bignum} (ha : WF L a) (hb : WF L b) (hs : b.desc ≠ a.desc) (hne : ¬ (a.digits = [] ∧ b.digits = []))
    (hb0 : b.mag L = 0) :
    ∃ c : Bignum, Evaluates (fun n => a.subAssign L env n (.other b)) (.ok c) ∧ c.toInt L = a.toInt L - b.toInt L := by
  obtain ⟨c, h1, -⟩ := C17_sub_opposite_sign hL hm hd ha.1 hb.1 hs ha.2.1 hb.2.1 hne
  exact ⟨c, h1, (C17_sub_opposite_exact_iff hL hm hd ha hb hs hne h1).2 (.inl hb0)⟩

example : ∃ a b : Bignum, WF .lowp a ∧ WF .lowp b ∧ b.desc ≠ a.desc ∧ ¬ (a.digits = [] ∧ b.digits = []) ∧ b.mag .lowp = 0 :=
  ⟨⟨.neg, [200, 1]⟩, ⟨.pos, [0]⟩, by
    simp [WF, Signed, WFDigits, InRange, NoLeadingZero, Limits.base, Limits.lowp, Bignum.mag, natOf]⟩

/-! ### C18 -/

/-- `a -= a` leaves no digits and keeps the descriptor — in debug and release builds and whatever memory is
available — and for an `a` without digits reads out of bounds. -/
theorem C18_self_sub {L : Limits} (hL : Supported L) (env : Env) {a : Bignum} (hs : Signed a.desc)
    (ha : InRange L.base a.digits) :
    (a.digits ≠ [] → Evaluates (fun n => a.subAssign L env n .self) (.ok ⟨a.desc, []⟩)) ∧
    (a.digits = [] → Evaluates (fun n => a.subAssign L env n .self) (.ub .outOfBounds)) := by
  have hB := hL.base_ge
  refine ⟨fun h => ⟨a.digits.length + 1, fun n hn => ?_⟩, fun h => ⟨1, fun n hn => ?_⟩⟩
  · show a.subAssign L env n .self = _
    have hchk : subDebugCheck env a.digits (Src.self.get a.digits) = .ok () := by
      rw [subDebugCheck_eq, if_neg]; simp [Src.get]
    rw [subAssign_signed hs, subTry_same (r := .self) hs rfl]
    unfold magDiff
    simp only [Rhs.get, Rhs.src]
    rw [absGe_eq ha ha, ok_bind, decide_eq_true (.inr ⟨rfl, Nat.le_refl _⟩), if_pos rfl,
      absSub_ok hL env hchk ha ha h (Nat.le_refl _) (by omega), ok_bind]
    have : trim (subRest L.base a.digits a.digits 0) = [] := by
      have h1 := natOf_subRest_self hB ha
      rw [← natOf_trim] at h1
      exact (natOf_eq_zero_iff (by omega) (trim_noLeadingZero _)).1 h1
    simp only [Src.get, this]; rfl
  · show a.subAssign L env n .self = _
    rw [subAssign_signed hs, subTry_same (r := .self) hs rfl, magDiff_ub (r := .self) hL env _ h h (by omega)]
    rfl

example : (⟨.neg, [7, 0, 3]⟩ : Bignum).subAssign .highp ⟨fun _ => false, true⟩ 9 .self = .ok ⟨.neg, []⟩ := by
  decide +kernel

/-! ### C19 -/

/-- `(a + b) - b` for same-sign numbers: the value is `a`'s, and if `a` has no leading zero the object is `== a`. -/
theorem C19_add_sub_cancel {L : Limits} (hL : Supported L) {env : Env} (hm : env.Ample) (hd : env.debug = false)
    {a b : Bignum} (ha : WF L a) (hb : WF L b) (hs : b.desc = a.desc) :
    ∃ c d : Bignum, Evaluates (fun n => a.add L env n b) (.ok c) ∧ Evaluates (fun n => c.sub L env n b) (.ok d) ∧
      d.toInt L = a.toInt L ∧ (NoLeadingZero a.digits → d.eq a = .ok true) := by
  have hB := hL.base_ge
  have hwf := addFull_wf hB ha.2 hb.2
  have hlen := addFull_length hB ha.2.1 hb.2.1 (Nat.zero_le 1)
  have hval := addFull_natOf hB ha.2.1 hb.2.1 (Nat.zero_le 1)
  have hne : addFull L.base a.digits b.digits 0 ≠ [] := by
    intro h; rw [h] at hlen; simp at hlen
  obtain ⟨d, h1, h2, h3, h4, h5⟩ := sub_core hL hm hd (a := ⟨a.desc, addFull L.base a.digits b.digits 0⟩) (r := .other b)
    ha.1 hs hwf hb.2 (fun h => hne h.1)
  refine ⟨⟨a.desc, addFull L.base a.digits b.digits 0⟩, d, ⟨max a.digits.length b.digits.length + 1, fun n hn => ?_⟩,
    ⟨max (addFull L.base a.digits b.digits 0).length b.digits.length + 1, fun n hn => ?_⟩, ?_, ?_⟩
  · show a.add L env n b = _
    rw [C12_add_is_copy_then_assign hm]
    exact addAssign_same_ok (r := .other b) hL hm ha.1 hs ha.2.1 hb.2.1 (by show max _ b.digits.length < n; omega)
  · show Bignum.sub L env n _ b = _
    unfold Bignum.sub Bignum.viaCopy
    rw [copy_ok hm, ok_bind, h1 n (by show max (addFull L.base a.digits b.digits 0).length b.digits.length < n; omega)]
  · have hst : d.toInt L = a.toInt L := by
      rw [h4, toInt_of_signed ha.1, toInt_of_signed (b := ⟨a.desc, addFull L.base a.digits b.digits 0⟩) ha.1]
      show _ - b.toInt L = _
      rw [toInt_of_signed hb.1, hs, hval]
      split <;> push_cast <;> ring
    exact hst
  · intro ha0
    have hd' : d.desc = a.desc := by
      apply h5
      simp only [Rhs.get, Bignum.mag]
      rw [hval]
      by_cases h : b.digits.length < (addFull L.base a.digits b.digits 0).length
      · exact .inl h
      · exact .inr ⟨by omega, by omega⟩
    have hst : d.toInt L = a.toInt L := by
      rw [h4, toInt_of_signed ha.1, toInt_of_signed (b := ⟨a.desc, addFull L.base a.digits b.digits 0⟩) ha.1]
      show _ - b.toInt L = _
      rw [toInt_of_signed hb.1, hs, hval]
      split <;> push_cast <;> ring
    have hdig : d.digits = a.digits := by
      apply natOf_unique (B := L.base) (by omega) h3.1 ha.2.1 h3.2 ha0
      rw [toInt_of_signed h2, toInt_of_signed ha.1, hd'] at hst
      rcases ha.1 with h | h <;> simp only [h] at hst <;> simpa using hst
    have : d = a := by cases d; cases a; simp_all
    rw [this]; exact C01_eq_equivalence.1 a

example : ∃ a b : Bignum, WF .medp a ∧ WF .medp b ∧ b.desc = a.desc ∧ NoLeadingZero a.digits ∧ a.digits ≠ [] :=
  ⟨⟨.neg, [65535, 65535]⟩, ⟨.neg, [1]⟩, by
    simp [WF, Signed, WFDigits, InRange, NoLeadingZero, Limits.base, Limits.medp]⟩

/-! ### C20 -/

/-- Contract of `abs_val_sub(larger, smaller)` (aliased arguments included): exact difference without leading
zeros if `larger` really is at least as large; modular difference otherwise; out-of-bounds read when the first
argument is empty or shorter. -/
theorem C20_absSub_contract {L : Limits} (hL : Supported L) {env : Env} (hd : env.debug = false) {a : List Nat} {src : Src}
    (ha : InRange L.base a) (hb : InRange L.base (src.get a)) :
    (a ≠ [] → (src.get a).length ≤ a.length →
      ∃ res, (∀ n, a.length < n → absSub L env n a src = .ok res) ∧ InRange L.base res ∧ NoLeadingZero res ∧
        res.length ≤ a.length ∧
        (natOf L.base (src.get a) ≤ natOf L.base a → natOf L.base res + natOf L.base (src.get a) = natOf L.base a) ∧
        (natOf L.base a < natOf L.base (src.get a) →
          natOf L.base res + natOf L.base (src.get a) = natOf L.base a + L.base ^ a.length)) ∧
    (a = [] ∨ a.length < (src.get a).length → ∀ n, a.length < n → absSub L env n a src = .error (.ub .outOfBounds)) := by
  have hB := hL.base_ge
  refine ⟨fun h1 h2 => ?_, fun h n hn => absSub_ub hL env (release_check hd _ _) ha hb h hn⟩
  refine ⟨_, fun n hn => absSub_ok hL env (release_check hd _ _) ha hb h1 h2 hn,
    trim_inRange (subRest_inRange hB _ _ _ ha hb (by omega)), trim_noLeadingZero _, ?_, fun h => ?_, fun h => ?_⟩
  · have := trim_length_le (subRest L.base a (src.get a) 0); rwa [subRest_length] at this
  · rw [natOf_trim, subRest_exact hB ha hb h2 h]; omega
  · rw [natOf_trim]
    have e := subRest_natOf hB a (src.get a) 0 ha hb (by omega) h2
    have hb1 := subBorrow_le a (src.get a) 0 (by omega)
    have h4 : subBorrow a (src.get a) 0 = 0 ∨ subBorrow a (src.get a) 0 = 1 := by omega
    rcases h4 with h4 | h4 <;> rw [h4] at e <;> omega

example : absSub .base10 releaseEnv 9 [0, 0, 1] (.other [1]) = .ok [9, 9] ∧
    absSub .base10 releaseEnv 9 [] (.other []) = .error (.ub .outOfBounds) := by decide +kernel

/-! ### C56, C57 -/

/-- Exact trigger of the debug exception: a shorter first operand or ANY smaller digit. -/
theorem C56_debug_throws_iff {L : Limits} (hL : Supported L) {env : Env} (hd : env.debug = true) {a b : List Nat}
    (ha : InRange L.base a) (hb : InRange L.base b) {n : Nat} (hn : a.length < n) :
    absSub L env n a (.other b) = .error (.exn .bnUnderflow) ↔ AnyDigitGreater b a := by
  have hchk := subDebugCheck_eq env a b
  constructor
  · intro h
    by_contra hg
    have hok : subDebugCheck env a ((Src.other b).get a) = .ok () := by
      show subDebugCheck env a b = _
      rw [hchk, if_neg]
      rintro ⟨-, h1 | ⟨h1, h2⟩⟩
      · exact hg (.inl h1)
      · exact hg (.inr ⟨h1.symm, by rwa [← h1]⟩)
    by_cases hbad : a = [] ∨ a.length < b.length
    · rw [absSub_ub hL env (src := .other b) hok ha hb hbad hn] at h; cases h
    · have h1 : a ≠ [] := fun h => hbad (.inl h)
      have h2 : ((Src.other b).get a).length ≤ a.length := by show b.length ≤ _; omega
      rw [absSub_ok hL env hok ha hb h1 h2 hn] at h; cases h
  · intro hg
    unfold absSub
    show (do subDebugCheck env a b; _) = _
    rw [hchk, if_pos]
    · rfl
    · refine ⟨hd, ?_⟩
      rcases hg with h | ⟨h1, h2⟩
      · exact .inl h
      · exact .inr ⟨h1.symm, by rwa [h1] at h2⟩

example := C56_debug_throws_iff (L := .base10) (.inr Sample.base10) (env := ⟨fun _ => true, true⟩) rfl (a := [0, 1]) (b := [1])
  (by sample) (by sample) (n := 3) (by decide)

/-- The property fails: 21 - 19 throws BNUnderflow in a debug build (base 10), and through `operator-` turns
the legal difference into an exception with the object left infinite. -/
theorem C56_refuted : ∃ a b : Bignum, WF .base10 a ∧ WF .base10 b ∧ b.toInt .base10 < a.toInt .base10 ∧
    Evaluates (fun n => absSub .base10 ⟨fun _ => true, true⟩ n a.digits (.other b.digits)) (.error (.exn .bnUnderflow)) ∧
    Evaluates (fun n => a.subAssign .base10 ⟨fun _ => true, true⟩ n (.other b)) (.threw .stdException ⟨.posInf, []⟩) := by
  have wfa : WF .base10 ⟨.pos, [1, 2]⟩ := by
    simp [WF, Signed, WFDigits, InRange, NoLeadingZero, Limits.base, Limits.base10, Limits.custom]
  have wfb : WF .base10 ⟨.pos, [9, 1]⟩ := by
    simp [WF, Signed, WFDigits, InRange, NoLeadingZero, Limits.base, Limits.base10, Limits.custom]
  have hL : Supported .base10 := .inr ⟨32, 9, by norm_num, by norm_num, by norm_num, rfl⟩
  have key : ∀ n, 2 < n → absSub .base10 ⟨fun _ => true, true⟩ n [1, 2] (.other [9, 1]) = .error (.exn .bnUnderflow) :=
    fun n hn => (C56_debug_throws_iff hL rfl wfa.2.1 wfb.2.1 hn).2 (.inr ⟨rfl, 0, by decide⟩)
  refine ⟨_, _, wfa, wfb, by decide, ⟨3, fun n hn => key n hn⟩, ⟨3, fun n hn => ?_⟩⟩
  show Bignum.subAssign .base10 ⟨fun _ => true, true⟩ n ⟨.pos, [1, 2]⟩ (.other ⟨.pos, [9, 1]⟩) = _
  rw [subAssign_signed wfa.1, subTry_same (r := .other ⟨.pos, [9, 1]⟩) wfa.1 rfl]
  unfold magDiff
  simp only [Rhs.get, Rhs.src]
  rw [show absGe [1, 2] [9, 1] = .ok true from by decide, ok_bind, if_pos rfl, key n hn]
  rfl

/-- What does hold: with equal lengths ≤ 1 or different lengths the exception is thrown only for a really smaller
first operand, and a really smaller first operand is always rejected.
Missing: equal lengths of two or more digits. -/
theorem C56_debug_partial {L : Limits} (hL : Supported L) {env : Env} (hd : env.debug = true) {a b : List Nat}
    (ha : InRange L.base a) (hb : InRange L.base b) (ha0 : NoLeadingZero a) (hb0 : NoLeadingZero b) {n : Nat} (hn : a.length < n) :
    (natOf L.base a < natOf L.base b → absSub L env n a (.other b) = .error (.exn .bnUnderflow)) ∧
    (a.length ≠ b.length ∨ a.length ≤ 1 → absSub L env n a (.other b) = .error (.exn .bnUnderflow) →
      natOf L.base a < natOf L.base b) := by
  have hB : 0 < L.base := Nat.succ_pos _
  rw [C56_debug_throws_iff hL hd ha hb hn]
  refine ⟨fun h => ?_, fun h hany => ?_⟩
  · rcases Nat.lt_trichotomy b.length a.length with h1 | h1 | h1
    · have := natOf_lt_of_length_lt hB hb ha0 h1; omega
    · exact .inr ⟨h1, exists_digit_gt ha h1 h⟩
    · exact .inl h1
  · rcases hany with h1 | ⟨h1, i, hi, h2⟩
    · exact natOf_lt_of_length_lt hB ha hb0 h1
    · rcases h with h | h
      · exact absurd h1.symm h
      · have hi0 : i = 0 := by omega
        subst hi0
        obtain ⟨x, hx⟩ := List.length_eq_one_iff.1 (show a.length = 1 by omega)
        obtain ⟨y, hy⟩ := List.length_eq_one_iff.1 (show b.length = 1 by omega)
        rw [hx, hy] at h2 ⊢
        simpa using h2

example := C56_debug_partial (L := .base10) (.inr Sample.base10) (env := ⟨fun _ => true, true⟩) rfl (a := [0, 1]) (b := [1])
  (by sample) (by sample) (by sample) (by sample) (n := 3) (by decide)

/-- Release and debug builds agree unless the debug build throws BNUnderflow. -/
theorem C57_debug_release_agree (L : Limits) (alloc : Nat → Bool) (n : Nat) (a : List Nat) (src : Src)
    (h : absSub L ⟨alloc, true⟩ n a src ≠ .error (.exn .bnUnderflow)) :
    absSub L ⟨alloc, true⟩ n a src = absSub L ⟨alloc, false⟩ n a src := by
  unfold absSub at *
  rw [subDebugCheck_eq] at h ⊢
  rw [subDebugCheck_eq]
  split at h
  · exact absurd rfl h
  · rename_i h1
    rw [if_neg h1, if_neg (by simp)]

example : absSub .base10 ⟨fun _ => true, true⟩ 9 [9, 2] (.other [1, 1]) = .ok [8, 1] := by decide +kernel

end BN
