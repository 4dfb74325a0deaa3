import Verif.Lemmas.Outcome
import Verif.Lemmas.Digit2
/-
Division: the doubling step, the search loop and the subtraction loop.
-/
namespace BN

theorem shlLoop_eq {L : Limits} (h : Custom L) : ∀ (l : List Nat) (c : Nat), InRange L.base l → c ≤ 1 →
    ∃ l' c', shlLoop L l (L.sgl c) = .ok (l', L.sgl c') ∧ c' ≤ 1 ∧ l'.length = l.length ∧
      addRest L.base l l c = l' ++ (if c' = 0 then [] else [1])
  | [], c, _, hc => by
    refine ⟨[], c, rfl, hc, rfl, ?_⟩
    have : c = 0 ∨ c = 1 := by omega
    rcases this with rfl | rfl <;> simp [addRest]
  | d :: l, c, hl, hc => by
    have hB := h.supported.base_ge
    have hd := hl.head
    have hcl : (2 * d + c) / L.base ≤ 1 := by
      have := carry_le hd hd hc
      rwa [show d + d + c = 2 * d + c by ring] at this
    obtain ⟨l', c', h1, h2, h3, h4⟩ := shlLoop_eq h l ((2 * d + c) / L.base) hl.tail hcl
    refine ⟨(2 * d + c) % L.base :: l', c', ?_, h2, by simp [h3], ?_⟩
    · rw [shlLoop, shlDigit_eq h hd hc, ok_bind]
      simp only
      rw [h1, ok_bind]
    · rw [addRest_unfold _ _ _ (by simp)]
      simp only [List.headD_cons, List.tail_cons]
      rw [show d + d + c = 2 * d + c by ring, h4]; rfl

theorem one_store {L : Limits} (h : Custom L) : L.store (L.toSingle 1) = 1 := by
  refine custom_cases (P := fun L => L.store (L.toSingle 1) = 1) h ?_ ?_ ?_ ?_ <;> intros <;> rfl

theorem zero_store {L : Limits} (h : Supported L) : L.store (L.toSingle 0) = 0 := by
  refine supported_cases (P := fun L => L.store (L.toSingle 0) = 0) h ?_ ?_ ?_ ?_ ?_ ?_ ?_ ?_ ?_ ?_ <;> intros <;> rfl

theorem min_plus_one {L : Limits} (h : Custom L) :
    Val.bin .add ((L.toDouble L.minLimit).conv L.single) (L.toSingle 1) = .ok (L.sgl 1) := by
  have key : ∀ w, w = 8 ∨ w = 16 ∨ w = 32 ∨ w = 64 →
      Val.bin .add (Val.conv (.bni w) ⟨.bni w, (cU w).wrap 0⟩) ⟨.bni w, (cU w).wrap 1⟩ = .ok ⟨.bni w, 1⟩ := by
    rintro w (rfl | rfl | rfl | rfl) <;> decide
  obtain ⟨w, max, hw, -, -, rfl⟩ := h
  exact key w hw

theorem store_sgl_one {L : Limits} (h : Custom L) : L.store (L.sgl 1) = 1 := by
  refine custom_cases (P := fun L => L.store (L.sgl 1) = 1) h ?_ ?_ ?_ ?_ <;> intros <;> rfl

/-- `shift_left_1` is doubling. -/
theorem okOr_shl {L : Limits} (h : Custom L) (env : Env) {l : List Nat} (hl : InRange L.base l) :
    OkOr env (shiftLeft1 L env l) (fun x => x = addRest L.base l l 0) := by
  unfold shiftLeft1
  by_cases h0 : l = []
  · subst h0; rw [if_pos rfl]; exact .pure (by simp [addRest])
  · rw [if_neg h0]
    obtain ⟨l', c', h1, h2, h3, h4⟩ := shlLoop_eq h l 0 hl (by omega)
    have e : L.toSingle 0 = L.sgl 0 := toSingle_small h.supported (n := 0) (by omega)
    rw [e, h1, ok_bind]
    simp only [sgl_truthy]
    by_cases hc : c' = 0
    · subst hc; simp only [ne_eq, not_true_eq_false, decide_false, Bool.false_eq_true, if_false]
      exact .pure (by rw [h4]; simp)
    · simp only [ne_eq, hc, not_false_eq_true, decide_true, if_true]
      rw [min_plus_one h, ok_bind, store_sgl_one h]
      unfold Vec.pushBack
      split
      · exact .pure (by rw [h4, if_neg hc])
      · rename_i hh; exact .inr ⟨_, .inl ⟨rfl, _, by simpa using hh⟩, rfl⟩

/-- A normalised non-zero magnitude. -/
structure NZ (B : Nat) (l : List Nat) : Prop where
  rng : InRange B l
  nlz : NoLeadingZero l
  ne : l ≠ []

theorem NZ.pos {B : Nat} (hB : 2 ≤ B) {l : List Nat} (h : NZ B l) : 1 ≤ natOf B l :=
  natOf_pos_of_noLeadingZero (by omega) h.nlz h.ne

theorem NZ.double {B : Nat} (hB : 2 ≤ B) {l : List Nat} (h : NZ B l) :
    NZ B (addRest B l l 0) ∧ natOf B (addRest B l l 0) = 2 * natOf B l := by
  have hl := addRest_length hB l l 0 h.rng h.rng (by omega)
  refine ⟨⟨addRest_inRange hB l l 0 h.rng h.rng (by omega), addRest_noLeadingZero hB l l 0 h.rng h.rng (by omega) h.nlz h.nlz, ?_⟩, ?_⟩
  · intro h0; rw [h0] at hl; simp at hl; exact h.ne hl
  · rw [addRest_natOf hB l l 0 h.rng h.rng (by omega)]; ring

theorem length_le_natOf {B : Nat} (hB : 2 ≤ B) {l : List Nat} (h : NoLeadingZero l) : l.length ≤ natOf B l := by
  by_cases h0 : l = []
  · subst h0; simp
  · have h1 := le_natOf_of_noLeadingZero (B := B) h h0
    have h2 : 2 ^ (l.length - 1) ≤ B ^ (l.length - 1) := Nat.pow_le_pow_left hB _
    have h3 : l.length - 1 < 2 ^ (l.length - 1) := Nat.lt_two_pow_self
    omega

theorem wf_length_le {B : Nat} (hB : 2 ≤ B) {l : List Nat} (h : WFDigits B l) : l.length ≤ natOf B l + 1 := by
  rcases h.2 with h | rfl
  · have := length_le_natOf hB h; omega
  · simp

theorem length_le_of_natOf_le {B : Nat} (hB : 2 ≤ B) {a b : List Nat} (ha : InRange B a) (hb : NoLeadingZero b)
    (h : natOf B b ≤ natOf B a) : b.length ≤ a.length := by
  by_contra hc
  have := natOf_lt_of_length_lt (by omega) ha hb (by omega : a.length < b.length)
  omega

/-- The search loop ends with the largest `divisor·2^k` not exceeding the dividend. -/
theorem okOr_search {L : Limits} (h : Custom L) (env : Env) {n : List Nat} (hn : NZ L.base n) (D : Nat) :
    ∀ (fuel : Nat) (b0 b1 q : List Nat), NZ L.base b0 → NZ L.base b1 → NZ L.base q →
      natOf L.base b0 = D * natOf L.base q → natOf L.base b1 = 2 * natOf L.base b0 →
      natOf L.base b0 ≤ natOf L.base n → natOf L.base n < natOf L.base b0 * 2 ^ fuel →
      OkOr env (loopWhile (fun t => absGe n t.bsrch1) (searchBody L env) fuel ⟨b0, b1, q⟩) (fun t =>
        NZ L.base t.bsrch0 ∧ NZ L.base t.q ∧ natOf L.base t.bsrch0 = D * natOf L.base t.q ∧
        natOf L.base t.bsrch0 ≤ natOf L.base n ∧ natOf L.base n < 2 * natOf L.base t.bsrch0)
  | 0, b0, b1, q, _, _, _, _, _, h6, h7 => by rw [pow_zero] at h7; omega
  | fuel + 1, b0, b1, q, h1, h2, h3, h4, h5, h6, h7 => by
    have hB := h.supported.base_ge
    rw [loopWhile]
    simp only
    rw [absGe_normal (B := L.base) (by omega) hn.rng h2.rng hn.nlz h2.nlz, ok_bind]
    by_cases hge : natOf L.base b1 ≤ natOf L.base n
    · simp only [hge, decide_true, if_true]
      refine OkOr.bind (P := fun t => t = ⟨b1, addRest L.base b1 b1 0, addRest L.base q q 0⟩) ?_ ?_
      · unfold searchBody
        refine (okOr_copy env b1).bind ?_
        rintro x rfl
        refine (okOr_shl h env h2.rng).bind ?_
        rintro y rfl
        refine (okOr_shl h env h3.rng).bind ?_
        rintro z rfl
        exact .pure rfl
      · rintro t rfl
        have hp := h1.pos hB
        obtain ⟨d1, d2⟩ := h2.double hB
        obtain ⟨e1, e2⟩ := h3.double hB
        exact okOr_search h env hn D fuel b1 _ _ h2 d1 e1 (by rw [e2, h5, h4]; ring) d2 hge
          (by rw [h5, Nat.mul_comm 2, Nat.mul_assoc, ← pow_succ']; exact h7)
    · simp only [hge, decide_false, Bool.false_eq_true, if_false]
      exact .pure ⟨h1, h3, h4, h6, by simp only; omega⟩

theorem addFull_ne {B : Nat} (hB : 2 ≤ B) {R S : List Nat} (hR : InRange B R) (hS : InRange B S) :
    addFull B R S 0 ≠ [] := by
  intro h0
  have := addFull_length hB hR hS (c := 0) (by omega)
  rw [h0] at this; simp at this

/-- One round of the outer loop: the dividend shrinks, quotient·divisor + dividend is kept. -/
theorem length_lt_of_lt_pow {B : Nat} (hB : 2 ≤ B) {l : List Nat} (h : NoLeadingZero l) {k : Nat} (hv : natOf B l < 2 ^ k) :
    l.length ≤ k := by
  by_cases hn : l = []
  · simp [hn]
  · have h1 := le_natOf_of_noLeadingZero (B := B) h hn
    have h2 : 2 ^ (l.length - 1) ≤ B ^ (l.length - 1) := Nat.pow_le_pow_left hB _
    have h3 := (Nat.pow_lt_pow_iff_right (by omega : 1 < 2)).1 (Nat.lt_of_le_of_lt (Nat.le_trans h2 h1) hv)
    omega

theorem wf_length_le_pow {B : Nat} (hB : 2 ≤ B) {l : List Nat} (h : WFDigits B l) {k : Nat} (hv : natOf B l < 2 ^ k) :
    l.length ≤ k + 1 := by
  rcases h.2 with h1 | h1
  · have := length_lt_of_lt_pow hB h1 hv; omega
  · simp [h1]

theorem okOr_divBody {L : Limits} (h : Custom L) (env : Env) {fuel : Nat} {dv : List Nat} (hdv : NZ L.base dv)
    {n res : List Nat} (hn : NZ L.base n) (hres : WFDigits L.base res) (hge : natOf L.base dv ≤ natOf L.base n)
    {k : Nat} (hf : natOf L.base n + natOf L.base res < 2 ^ k) (hk : k + 2 ≤ fuel) :
    OkOr env (divBody L env fuel dv ⟨n, res⟩) (fun s =>
      InRange L.base s.dividend ∧ NoLeadingZero s.dividend ∧ (WFDigits L.base s.res ∧ s.res ≠ []) ∧
      2 * natOf L.base s.dividend < natOf L.base n ∧
      natOf L.base s.dividend + natOf L.base dv * natOf L.base s.res =
        natOf L.base n + natOf L.base dv * natOf L.base res ∧
      natOf L.base s.dividend + natOf L.base s.res ≤ natOf L.base n + natOf L.base res) := by
  have hB := h.supported.base_ge
  unfold divBody
  refine (okOr_copy env dv).bind ?_
  rintro b0 rfl
  refine (okOr_copy env b0).bind ?_
  rintro b1 rfl
  rw [one_store h]
  refine (okOr_copy env [1]).bind ?_
  rintro q rfl
  refine (okOr_shl h env hdv.rng).bind ?_
  rintro b1' rfl
  obtain ⟨d1, d2⟩ := hdv.double hB
  have hq1 : NZ L.base [1] := ⟨by intro x hx; simp at hx; omega, by simp [NoLeadingZero], by simp⟩
  have hp := hdv.pos hB
  have hpow : natOf L.base n < natOf L.base b1 * 2 ^ fuel := by
    have h1 : 2 ^ k ≤ 2 ^ fuel := Nat.pow_le_pow_right (by omega) (by omega)
    have h2 : 1 * 2 ^ fuel ≤ natOf L.base b1 * 2 ^ fuel := Nat.mul_le_mul_right _ hp
    omega
  refine (okOr_search h env hn (natOf L.base b1) fuel b1 _ [1] hdv d1 hq1 (by simp) d2 hge hpow).bind ?_
  rintro ⟨t0, t1, tq⟩ ⟨g1, g2, g3, g4, g5⟩
  simp only at g1 g2 g3 g4 g5 ⊢
  have hlen := length_le_of_natOf_le hB hn.rng g1.nlz g4
  have hnl := length_lt_of_lt_pow hB hn.nlz (k := k) (by omega)
  refine (okOr_absSub h.supported env (src := .other t0) hn.rng g1.rng hn.ne hlen (by omega)).bind ?_
  rintro n' rfl
  have hsub := subRest_exact hB hn.rng g1.rng hlen g4
  have hqpos := g2.pos hB
  have hqle : natOf L.base tq ≤ natOf L.base t0 := by rw [g3]; exact Nat.le_mul_of_pos_left _ (by omega)
  have hrl := wf_length_le_pow hB hres (k := k) (by omega)
  have hql := length_lt_of_lt_pow hB g2.nlz (k := k) (by omega)
  have htp := g1.pos hB
  have key : ∀ res', (WFDigits L.base res' ∧ res' ≠ []) → natOf L.base res' = natOf L.base tq + natOf L.base res →
      InRange L.base (trim (subRest L.base n t0 0)) ∧ NoLeadingZero (trim (subRest L.base n t0 0)) ∧
      (WFDigits L.base res' ∧ res' ≠ []) ∧
      2 * natOf L.base (trim (subRest L.base n t0 0)) < natOf L.base n ∧
      natOf L.base (trim (subRest L.base n t0 0)) + natOf L.base b1 * natOf L.base res' =
        natOf L.base n + natOf L.base b1 * natOf L.base res ∧
      natOf L.base (trim (subRest L.base n t0 0)) + natOf L.base res' ≤ natOf L.base n + natOf L.base res := by
    intro res' hw hv
    refine ⟨trim_inRange (subRest_inRange hB _ _ _ hn.rng g1.rng (by omega)), trim_noLeadingZero _, hw, ?_, ?_, ?_⟩ <;>
      rw [natOf_trim, hsub]
    · omega
    · rw [hv, Nat.mul_add, ← g3]; omega
    · rw [hv]; omega
  have hsrc : ∀ l out, (Src.other l).get out = l := fun _ _ => rfl
  by_cases hcmp : tq.length ≤ res.length
  · simp only [hcmp, if_true]
    refine (okOr_absAdd h.supported env (src := .other tq) hres.1 g2.rng (by simp only [hsrc]; omega)).bind ?_
    rintro r rfl
    refine .pure (key _ ⟨addFull_wf hB hres ⟨g2.rng, .inl g2.nlz⟩, addFull_ne hB hres.1 g2.rng⟩ ?_)
    show natOf L.base (addFull L.base res tq 0) = _
    rw [addFull_natOf hB hres.1 g2.rng (by omega)]; omega
  · simp only [hcmp, if_false]
    refine (okOr_absAdd h.supported env (src := .other res) g2.rng hres.1 (by simp only [hsrc]; omega)).bind ?_
    rintro r rfl
    refine .pure (key _ ⟨addFull_wf hB ⟨g2.rng, .inl g2.nlz⟩ hres, addFull_ne hB g2.rng hres.1⟩ ?_)
    show natOf L.base (addFull L.base tq res 0) = _
    rw [addFull_natOf hB g2.rng hres.1 (by omega)]; omega

theorem okOr_divLoop_log {L : Limits} (h : Custom L) (env : Env) {dv : List Nat} (hdv : NZ L.base dv) (bfuel k : Nat) (hk : k + 2 ≤ bfuel) :
    ∀ (fuel : Nat) (n res : List Nat), InRange L.base n → NoLeadingZero n → (WFDigits L.base res ∧ res ≠ []) →
      natOf L.base n + natOf L.base res < 2 ^ k → 2 * natOf L.base n + 1 < 2 ^ fuel →
      OkOr env (loopWhile (fun s => absGe s.dividend dv) (divBody L env bfuel dv) fuel ⟨n, res⟩) (fun s =>
        InRange L.base s.dividend ∧ NoLeadingZero s.dividend ∧ (WFDigits L.base s.res ∧ s.res ≠ []) ∧
        natOf L.base s.dividend < natOf L.base dv ∧
        natOf L.base s.dividend + natOf L.base dv * natOf L.base s.res =
          natOf L.base n + natOf L.base dv * natOf L.base res)
  | 0, _, _, _, _, _, _, h7 => by rw [pow_zero] at h7; omega
  | fuel + 1, n, res, h1, h2, h3, h4, h5 => by
    have hB := h.supported.base_ge
    rw [loopWhile]
    simp only
    rw [absGe_normal (B := L.base) (by omega) h1 hdv.rng h2 hdv.nlz, ok_bind]
    by_cases hge : natOf L.base dv ≤ natOf L.base n
    · simp only [hge, decide_true, if_true]
      have hp := hdv.pos hB
      have hnz : NZ L.base n := ⟨h1, h2, by rintro rfl; simp at hge; omega⟩
      rw [pow_succ] at h5
      refine (okOr_divBody h env hdv hnz h3.1 hge h4 hk).bind ?_
      rintro ⟨n', res'⟩ ⟨g1, g2, g3, g4, g5, g6⟩
      simp only at g1 g2 g3 g4 g5 g6
      exact (okOr_divLoop_log h env hdv bfuel k hk fuel n' res' g1 g2 g3 (by omega) (by omega)).mono (by
        rintro s ⟨k1, k2, k3, k4, k5⟩
        exact ⟨k1, k2, k3, k4, by omega⟩)
    · simp only [hge, decide_false, Bool.false_eq_true, if_false]
      exact .pure ⟨h1, h2, h3, by simp only; omega, rfl⟩

theorem okOr_divLoop {L : Limits} (h : Custom L) (env : Env) {dv : List Nat} (hdv : NZ L.base dv) (bfuel fuel : Nat) (n res : List Nat)
    (h1 : InRange L.base n) (h2 : NoLeadingZero n) (h3 : WFDigits L.base res ∧ res ≠ []) (h4 : natOf L.base n + natOf L.base res + 1 < bfuel)
    (h5 : natOf L.base n < fuel) :
    OkOr env (loopWhile (fun s => absGe s.dividend dv) (divBody L env bfuel dv) fuel ⟨n, res⟩) (fun s =>
      InRange L.base s.dividend ∧ NoLeadingZero s.dividend ∧ (WFDigits L.base s.res ∧ s.res ≠ []) ∧
      natOf L.base s.dividend < natOf L.base dv ∧
      natOf L.base s.dividend + natOf L.base dv * natOf L.base s.res =
        natOf L.base n + natOf L.base dv * natOf L.base res) := by
  refine okOr_divLoop_log h env hdv bfuel (bfuel - 2) (by omega) fuel n res h1 h2 h3 ?_ ?_
  · exact Nat.lt_of_le_of_lt (by omega) (Nat.lt_two_pow_self (n := bfuel - 2))
  · obtain ⟨f, rfl⟩ := Nat.exists_eq_add_of_lt h5
    have := Nat.lt_two_pow_self (n := natOf L.base n + f)
    rw [pow_succ]; omega

/-- `abs_val_div`: quotient for a custom base and non-zero divisor. -/
theorem okOr_absDiv {L : Limits} (h : Custom L) (env : Env) {fuel : Nat} {n dv : List Nat} (hdv : NZ L.base dv)
    (h1 : InRange L.base n) (h2 : NoLeadingZero n) {k : Nat} (hf : natOf L.base n < 2 ^ k) (hk : k + 2 ≤ fuel) :
    OkOr env (absDiv L env fuel n dv) (fun q =>
      WFDigits L.base q ∧ q ≠ [] ∧ natOf L.base q = natOf L.base n / natOf L.base dv) := by
  have hB := h.supported.base_ge
  unfold absDiv
  rw [zero_store h.supported]
  refine (okOr_copy env [0]).bind ?_
  rintro r rfl
  have hw : WFDigits L.base [0] := ⟨by intro x hx; simp at hx; omega, .inr rfl⟩
  refine (okOr_divLoop_log h env hdv fuel k hk fuel n [0] h1 h2 ⟨hw, by simp⟩ (by simpa using hf) ?_).bind ?_
  · have : 2 ^ (k + 2) ≤ 2 ^ fuel := Nat.pow_le_pow_right (by omega) hk
    rw [pow_succ, pow_succ] at this
    omega
  rintro ⟨n', res⟩ ⟨g1, g2, g3, g4, g5⟩
  refine .pure ⟨g3.1, g3.2, ?_⟩
  simp only [natOf_cons, natOf_nil, Nat.mul_zero, Nat.add_zero] at g4 g5 ⊢
  rw [← g5]
  rw [Nat.add_mul_div_left _ _ (hdv.pos hB), Nat.div_eq_of_lt g4, Nat.zero_add]

/-- One-element zero and normalised numbers: non-empty well-formed digit lists are unique. -/
theorem wf_unique {B : Nat} (hB : 2 ≤ B) {a b : List Nat} (ha : WFDigits B a) (hb : WFDigits B b) (ha0 : a ≠ []) (hb0 : b ≠ [])
    (h : natOf B a = natOf B b) : a = b := by
  rcases ha.2 with h1 | rfl <;> rcases hb.2 with h2 | rfl
  · exact natOf_unique (by omega) ha.1 hb.1 h1 h2 h
  · have := natOf_pos_of_noLeadingZero (B := B) (by omega) h1 ha0; simp at h; omega
  · have := natOf_pos_of_noLeadingZero (B := B) (by omega) h2 hb0; simp at h; omega
  · rfl

/-- Dividend below the divisor: the loop is not entered (any digit type). -/
theorem okOr_absDiv_small {L : Limits} (h : Supported L) (env : Env) {fuel : Nat} {n dv : List Nat}
    (hn : InRange L.base n) (hd : InRange L.base dv) (hlt : dv.length < n.length → False)
    (hlt' : n.length = dv.length → natOf L.base n < natOf L.base dv) (hf : 0 < fuel) :
    OkOr env (absDiv L env fuel n dv) (fun q => q = [0]) := by
  unfold absDiv
  rw [zero_store h]
  refine (okOr_copy env [0]).bind ?_
  rintro r rfl
  obtain ⟨k, rfl⟩ : ∃ k, fuel = k + 1 := ⟨fuel - 1, by omega⟩
  rw [loopWhile]
  simp only
  rw [absGe_eq hn hd, ok_bind]
  have : ¬ (dv.length < n.length ∨ (n.length = dv.length ∧ natOf L.base dv ≤ natOf L.base n)) := by
    rintro (h1 | ⟨h1, h2⟩)
    · exact hlt h1
    · have := hlt' h1; omega
  simp only [this, decide_false, Bool.false_eq_true, if_false]
  exact .pure rfl

/-- With an empty divisor the search never ends normally, whatever the surroundings. -/
theorem search_empty_not_ok (L : Limits) (env : Env) {n : List Nat} (hn : n ≠ []) :
    ∀ (fuel : Nat) (b0 q : List Nat) (s : SearchSt),
      loopWhile (fun t => absGe n t.bsrch1) (searchBody L env) fuel ⟨b0, [], q⟩ ≠ .ok s
  | 0, _, _, _ => by intro h; cases h
  | fuel + 1, b0, q, s => by
    rw [loopWhile]
    have hge : absGe n [] = .ok true := by
      unfold absGe; rw [if_pos (by simpa using List.length_pos_iff.2 hn)]
    simp only [hge, ok_bind, if_true, searchBody]
    have hc : Vec.copy env [] = .ok [] := by simp [Vec.copy]
    have hs : shiftLeft1 L env [] = .ok [] := by simp [shiftLeft1]
    rw [hc, hs]
    cases hq : shiftLeft1 L env q with
    | error e => intro h; cases h
    | ok q' => exact search_empty_not_ok L env hn fuel [] q' s

theorem search_empty_timeout {L : Limits} (h : Custom L) {env : Env} (hm : env.Ample) (hd : env.debug = false) {n : List Nat} (hn : n ≠ []) :
    ∀ (fuel : Nat) (b0 q : List Nat), InRange L.base q →
      loopWhile (fun t => absGe n t.bsrch1) (searchBody L env) fuel ⟨b0, [], q⟩ = .error .timeout
  | 0, _, _, _ => rfl
  | fuel + 1, b0, q, hq => by
    rw [loopWhile]
    have hge : absGe n [] = .ok true := by
      unfold absGe; rw [if_pos (by simpa using List.length_pos_iff.2 hn)]
    simp only [hge, ok_bind, if_true, searchBody]
    have hc : Vec.copy env [] = .ok [] := by simp [Vec.copy]
    have hs : shiftLeft1 L env [] = .ok [] := by simp [shiftLeft1]
    rw [hc, hs]
    obtain ⟨x, hx, rfl⟩ := (okOr_shl h env hq).ok hm hd
    simp only [hx, ok_bind]
    exact search_empty_timeout h hm hd hn fuel [] _ (addRest_inRange h.supported.base_ge q q 0 hq hq (by omega))

theorem copy_ample {env : Env} (hm : env.Ample) (v : List Nat) : Vec.copy env v = .ok v := by
  unfold Vec.copy; rw [hm]; split
  · rename_i h; rw [h]
  · rfl

theorem divBody_empty_timeout {L : Limits} (h : Custom L) {env : Env} (hm : env.Ample) (hd : env.debug = false) {n res : List Nat} (hn : n ≠ [])
    (fuel : Nat) : divBody L env fuel [] ⟨n, res⟩ = .error .timeout := by
  have hs : shiftLeft1 L env [] = .ok [] := by simp [shiftLeft1]
  unfold divBody
  simp only [copy_ample hm, ok_bind, hs, one_store h]
  rw [search_empty_timeout h hm hd hn fuel [] [1] (by intro x hx; simp at hx; have := h.supported.base_ge; omega)]
  rfl

theorem absDiv_empty_timeout {L : Limits} (h : Custom L) {env : Env} (hm : env.Ample) (hd : env.debug = false) {n : List Nat} (hn : n ≠ [])
    (fuel : Nat) : absDiv L env fuel n [] = .error .timeout := by
  unfold absDiv
  simp only [copy_ample hm, ok_bind]
  cases fuel with
  | zero => rfl
  | succ k =>
    rw [loopWhile]
    have hge : absGe n [] = .ok true := by
      unfold absGe; rw [if_pos (by simpa using List.length_pos_iff.2 hn)]
    simp only [hge, ok_bind, if_true]
    rw [divBody_empty_timeout h hm hd hn]; rfl

theorem absDiv_empty_not_ok (L : Limits) (env : Env) {n : List Nat} (hn : n ≠ []) (fuel : Nat) (q : List Nat) :
    absDiv L env fuel n [] ≠ .ok q := by
  unfold absDiv
  cases hc : Vec.copy env [L.store (L.toSingle 0)] with
  | error e => intro h; cases h
  | ok r =>
    rw [ok_bind]
    cases fuel with
    | zero => intro h; cases h
    | succ k =>
      rw [loopWhile]
      have hge : absGe n [] = .ok true := by
        unfold absGe; rw [if_pos (by simpa using List.length_pos_iff.2 hn)]
      simp only [hge, ok_bind, if_true]
      have hb : ∀ s, divBody L env (k + 1) [] ⟨n, r⟩ ≠ .ok s := by
        intro s
        unfold divBody
        have hc : Vec.copy env [] = .ok [] := by simp [Vec.copy]
        have hs : shiftLeft1 L env [] = .ok [] := by simp [shiftLeft1]
        simp only [hc, ok_bind, hs]
        cases hq : Vec.copy env [L.store (L.toSingle 1)] with
        | error e => intro h; cases h
        | ok q1 =>
          simp only [ok_bind]
          cases hl : loopWhile (fun t => absGe n t.bsrch1) (searchBody L env) (k + 1) ⟨[], [], q1⟩ with
          | error e => intro h; cases h
          | ok t => exact absurd hl (search_empty_not_ok L env hn _ _ _ _)
      cases hb' : divBody L env (k + 1) [] ⟨n, r⟩ with
      | error e => intro h; cases h
      | ok s => exact absurd hb' (hb s)

/-- Native digit types: doubling a non-empty number is undefined. -/
theorem shl_native {L : Limits} (h : Native L) (env : Env) {l : List Nat} (hl : InRange L.base l) (hne : l ≠ []) :
    shiftLeft1 L env l = .error (.ub .divByZero) := by
  unfold shiftLeft1
  rw [if_neg hne]
  obtain ⟨d, ds, rfl⟩ := List.exists_cons_of_ne_nil hne
  have e : L.toSingle 0 = L.sgl 0 := toSingle_small h.supported (n := 0) (by omega)
  rw [e, shlLoop, shlDigit_native h hl.head (by omega)]; rfl

theorem absDiv_native_ub {L : Limits} (h : Native L) {env : Env} (hm : env.Ample) {fuel : Nat} {n dv : List Nat}
    (hd : InRange L.base dv) (hdv : dv ≠ []) (hge : absGe n dv = .ok true) (hf : 0 < fuel) :
    absDiv L env fuel n dv = .error (.ub .divByZero) := by
  obtain ⟨k, rfl⟩ : ∃ k, fuel = k + 1 := ⟨fuel - 1, by omega⟩
  unfold absDiv
  simp only [copy_ample hm, ok_bind]
  rw [loopWhile]
  simp only [hge, ok_bind, if_true, divBody, copy_ample hm]
  rw [shl_native h env hd hdv]; rfl

theorem one_store_native {L : Limits} (h : Native L) : L.store (L.toSingle 1) = 1 := by cases h <;> rfl

theorem absDiv_native_empty {L : Limits} (h : Native L) {env : Env} (hm : env.Ample) {fuel : Nat} {n : List Nat}
    (hn : n ≠ []) (hf : 0 < fuel) : absDiv L env fuel n [] = .error (.ub .divByZero) := by
  obtain ⟨k, rfl⟩ : ∃ k, fuel = k + 1 := ⟨fuel - 1, by omega⟩
  have hge : absGe n [] = .ok true := by
    unfold absGe; rw [if_pos (by simpa using List.length_pos_iff.2 hn)]
  have hs : shiftLeft1 L env [] = .ok [] := by simp [shiftLeft1]
  unfold absDiv
  simp only [copy_ample hm, ok_bind]
  rw [loopWhile]
  simp only [hge, ok_bind, if_true, divBody, copy_ample hm, hs]
  rw [loopWhile]
  simp only [hge, ok_bind, if_true, searchBody, copy_ample hm, hs]
  rw [one_store_native h, shl_native h env (by intro x hx; simp at hx; have := h.supported.base_ge; omega) (by simp)]
  rfl

end BN
