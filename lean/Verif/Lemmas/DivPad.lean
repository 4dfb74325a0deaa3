import Verif.Lemmas.Div
import Mathlib.Tactic.Ring
import Mathlib.Tactic.ByContra
/-
Division of a dividend whose most significant digit is zero.
-/
namespace BN

theorem InRange.snoc_zero {B : Nat} (hB : 2 ≤ B) {v : List Nat} (h : InRange B v) : InRange B (v ++ [0]) :=
  h.append (by intro x hx; rw [List.mem_singleton.1 hx]; omega)

theorem natOf_snoc_zero (B : Nat) (v : List Nat) : natOf B (v ++ [0]) = natOf B v := by
  rw [natOf_append]; simp

/-- With a leading zero `>=` only compares lengths. -/
theorem absGe_pad {B : Nat} (hB : 2 ≤ B) {v b : List Nat} (hv : InRange B v) (hb : NZ B b) :
    absGe (v ++ [0]) b = .ok (decide (natOf B b < B ^ v.length)) := by
  rw [absGe_eq (hv.snoc_zero hB) hb.rng]
  congr 1
  have h1 := natOf_lt hb.rng
  have h2 := le_natOf_of_noLeadingZero (B := B) hb.nlz hb.ne
  have h3 := natOf_lt hv
  have hbl : 1 ≤ b.length := List.length_pos_iff.2 hb.ne
  rw [decide_eq_decide, natOf_snoc_zero, List.length_append, List.length_singleton]
  constructor
  · rintro (h | ⟨h, h'⟩)
    · exact Nat.lt_of_lt_of_le h1 (Nat.pow_le_pow_right (by omega) (by omega))
    · have : b.length - 1 = v.length := by omega
      rw [this] at h2; omega
  · intro h
    left
    by_contra hc
    have : B ^ v.length ≤ B ^ (b.length - 1) := Nat.pow_le_pow_right (by omega) (by omega)
    omega

theorem okOr_search_pad {L : Limits} (h : Custom L) (env : Env) {v : List Nat} (hv : InRange L.base v) (D : Nat) :
    ∀ (fuel : Nat) (b0 b1 q : List Nat), NZ L.base b0 → NZ L.base b1 → NZ L.base q → (∃ k, natOf L.base q = 2 ^ k) →
      natOf L.base b0 = D * natOf L.base q → natOf L.base b1 = 2 * natOf L.base b0 →
      natOf L.base b0 < L.base ^ v.length → L.base ^ v.length ≤ natOf L.base b0 + fuel → 0 < fuel →
      OkOr env (loopWhile (fun t => absGe (v ++ [0]) t.bsrch1) (searchBody L env) fuel ⟨b0, b1, q⟩) (fun t =>
        NZ L.base t.bsrch0 ∧ NZ L.base t.q ∧ (∃ k, natOf L.base t.q = 2 ^ k) ∧ natOf L.base t.bsrch0 = D * natOf L.base t.q ∧
        natOf L.base t.bsrch0 < L.base ^ v.length ∧ L.base ^ v.length ≤ 2 * natOf L.base t.bsrch0)
  | 0, _, _, _, _, _, _, _, _, _, _, _, h8 => by omega
  | fuel + 1, b0, b1, q, h1, h2, h3, hk, h4, h5, h6, h7, h8 => by
    have hB := h.supported.base_ge
    rw [loopWhile]
    simp only
    rw [absGe_pad hB hv h2, ok_bind]
    by_cases hge : natOf L.base b1 < L.base ^ v.length
    · simp only [hge, decide_true, if_true]
      refine OkOr.bind (P := fun t => t = ⟨b1, addRest L.base b1 b1 0, addRest L.base q q 0⟩) ?_ ?_
      · unfold searchBody
        refine (okOr_copy env b1).bind ?_
        rintro x rfl
        refine (okOr_shl h env h2.rng).bind ?_
        rintro y rfl
        refine (okOr_shl h env h3.rng).bind ?_
        rintro z rfl
        exact .pure rfl
      · rintro t rfl
        have hp := h1.pos hB
        obtain ⟨d1, d2⟩ := h2.double hB
        obtain ⟨e1, e2⟩ := h3.double hB
        obtain ⟨k, hk⟩ := hk
        exact okOr_search_pad h env hv D fuel b1 _ _ h2 d1 e1 ⟨k + 1, by rw [e2, hk]; ring⟩ (by rw [e2, h5, h4]; ring)
          d2 hge (by omega) (by omega)
    · simp only [hge, decide_false, Bool.false_eq_true, if_false]
      exact .pure ⟨h1, h3, hk, h4, h6, by simp only; omega⟩

/-- What the loop subtracts from: the value, or the value plus one more digit position when the first
subtraction wraps around. -/
def padVal (B : Nat) (v : List Nat) (D k : Nat) : Nat :=
  if D * 2 ^ k ≤ natOf B v then natOf B v else natOf B v + B ^ (v.length + 1)

theorem okOr_absDiv_pad {L : Limits} (h : Custom L) (env : Env) {fuel : Nat} {v dv : List Nat} (hdv : NZ L.base dv)
    (hv : InRange L.base v) (hlt : natOf L.base dv < L.base ^ v.length) (hf : 2 * L.base ^ (v.length + 1) + 1 < fuel) :
    OkOr env (absDiv L env fuel (v ++ [0]) dv) (fun q => ∃ k, natOf L.base dv * 2 ^ k < L.base ^ v.length ∧
      L.base ^ v.length ≤ 2 * (natOf L.base dv * 2 ^ k) ∧ WFDigits L.base q ∧ q ≠ [] ∧
      natOf L.base q = padVal L.base v (natOf L.base dv) k / natOf L.base dv) := by
  have hB := h.supported.base_ge
  have hpow : L.base ^ (v.length + 1) = L.base * L.base ^ v.length := by ring
  have hVlt := natOf_lt hv
  have hmul : 2 * L.base ^ v.length ≤ L.base * L.base ^ v.length := Nat.mul_le_mul_right _ hB
  unfold absDiv
  rw [zero_store h.supported]
  refine (okOr_copy env [0]).bind ?_
  rintro r rfl
  obtain ⟨f, rfl⟩ : ∃ f, fuel = f + 1 := ⟨fuel - 1, by omega⟩
  have hp := hdv.pos hB
  have hw : WFDigits L.base [0] := ⟨by intro x hx; simp at hx; omega, .inr rfl⟩
  refine OkOr.bind (P := fun s : DivSt => ∃ k, natOf L.base dv * 2 ^ k < L.base ^ v.length ∧
      L.base ^ v.length ≤ 2 * (natOf L.base dv * 2 ^ k) ∧ WFDigits L.base s.res ∧ s.res ≠ [] ∧
      natOf L.base s.res = padVal L.base v (natOf L.base dv) k / natOf L.base dv) ?_ (fun s hs => .pure hs)
  rw [loopWhile]
  simp only
  rw [absGe_pad hB hv hdv, ok_bind]
  simp only [hlt, decide_true, if_true]
  refine OkOr.bind (P := fun s : DivSt => ∃ k, natOf L.base dv * 2 ^ k < L.base ^ v.length ∧
      L.base ^ v.length ≤ 2 * (natOf L.base dv * 2 ^ k) ∧ InRange L.base s.dividend ∧ NoLeadingZero s.dividend ∧
      (WFDigits L.base s.res ∧ s.res ≠ []) ∧ natOf L.base s.res = 2 ^ k ∧
      natOf L.base s.dividend + natOf L.base dv * 2 ^ k = padVal L.base v (natOf L.base dv) k) ?_ ?_
  · unfold divBody
    refine (okOr_copy env dv).bind ?_
    rintro b0 rfl
    refine (okOr_copy env b0).bind ?_
    rintro b1 rfl
    rw [one_store h]
    refine (okOr_copy env [1]).bind ?_
    rintro q rfl
    refine (okOr_shl h env hdv.rng).bind ?_
    rintro b1' rfl
    obtain ⟨d1, d2⟩ := hdv.double hB
    have hq1 : NZ L.base [1] := ⟨by intro x hx; simp at hx; omega, by simp [NoLeadingZero], by simp⟩
    refine (okOr_search_pad h env hv (natOf L.base b1) (f + 1) b1 _ [1] hdv d1 hq1 ⟨0, by simp⟩ (by simp) d2 hlt
      (by omega) (by omega)).bind ?_
    rintro ⟨t0, t1, tq⟩ ⟨g1, g2, ⟨k, g3⟩, g4, g5, g6⟩
    simp only at g1 g2 g3 g4 g5 g6 ⊢
    rw [g3] at g4
    have ht0 := le_natOf_of_noLeadingZero (B := L.base) g1.nlz g1.ne
    have hlen : t0.length ≤ v.length := by
      by_contra hc
      have : L.base ^ v.length ≤ L.base ^ (t0.length - 1) := Nat.pow_le_pow_right (by omega) (by omega)
      omega
    have hvl : v.length < L.base ^ v.length := Nat.lt_pow_self (by omega)
    have hvr := hv.snoc_zero hB
    have hl1 : (v ++ [0]).length = v.length + 1 := by simp
    refine (okOr_absSub h.supported env (src := .other t0) hvr g1.rng (by simp) (by show t0.length ≤ _; omega)
      (by omega)).bind ?_
    rintro n' rfl
    have hsub := subRest_natOf hB (v ++ [0]) t0 0 hvr g1.rng (by omega) (by omega)
    have hbl := subBorrow_le (v ++ [0]) t0 0 (by omega)
    have hrng := subRest_inRange hB (v ++ [0]) t0 0 hvr g1.rng (by omega)
    have hrlt := natOf_lt hrng
    rw [subRest_length, hl1] at hrlt
    rw [natOf_snoc_zero, hl1] at hsub
    have hsrc : ∀ l out, (Src.other l).get out = l := fun _ _ => rfl
    have hql := length_le_natOf hB g2.nlz
    have hkle : 2 ^ k ≤ natOf L.base b1 * 2 ^ k := Nat.le_mul_of_pos_left _ (by omega)
    have hval : natOf L.base (trim (subRest L.base (v ++ [0]) t0 0)) + natOf L.base b1 * 2 ^ k =
        padVal L.base v (natOf L.base b1) k := by
      rw [natOf_trim, ← g4]
      unfold padVal
      rw [← g4]
      rcases Nat.le_one_iff_eq_zero_or_eq_one.1 hbl with hb | hb <;> rw [hb] at hsub
      · rw [if_pos (by omega)]; omega
      · rw [if_neg (by omega)]; omega
    have key : ∀ res', (WFDigits L.base res' ∧ res' ≠ []) → natOf L.base res' = 2 ^ k →
        (fun s : DivSt => ∃ k, natOf L.base b1 * 2 ^ k < L.base ^ v.length ∧
          L.base ^ v.length ≤ 2 * (natOf L.base b1 * 2 ^ k) ∧ InRange L.base s.dividend ∧ NoLeadingZero s.dividend ∧
          (WFDigits L.base s.res ∧ s.res ≠ []) ∧ natOf L.base s.res = 2 ^ k ∧
          natOf L.base s.dividend + natOf L.base b1 * 2 ^ k = padVal L.base v (natOf L.base b1) k)
          ⟨trim (subRest L.base (v ++ [0]) t0 0), res'⟩ := by
      intro res' hw' hv'
      exact ⟨k, by omega, by omega, trim_inRange hrng, trim_noLeadingZero _, hw', hv', hval⟩
    by_cases hcmp : tq.length ≤ ([0] : List Nat).length
    · simp only [hcmp, if_true]
      refine (okOr_absAdd h.supported env (src := .other tq) hw.1 g2.rng (by simp only [hsrc]; simp at hcmp ⊢; omega)).bind ?_
      rintro r rfl
      refine .pure (key _ ⟨addFull_wf hB hw ⟨g2.rng, .inl g2.nlz⟩, addFull_ne hB hw.1 g2.rng⟩ ?_)
      show natOf L.base (addFull L.base [0] tq 0) = _
      rw [addFull_natOf hB hw.1 g2.rng (by omega), g3]; simp
    · simp only [hcmp, if_false]
      refine (okOr_absAdd h.supported env (src := .other [0]) g2.rng hw.1 (by simp only [hsrc]; simp at hcmp ⊢; omega)).bind ?_
      rintro r rfl
      refine .pure (key _ ⟨addFull_wf hB ⟨g2.rng, .inl g2.nlz⟩ hw, addFull_ne hB g2.rng hw.1⟩ ?_)
      show natOf L.base (addFull L.base tq [0] 0) = _
      rw [addFull_natOf hB g2.rng hw.1 (by omega), g3]; simp
  · rintro ⟨n', res⟩ ⟨k, k1, k2, k3, k4, k5, k6, k7⟩
    simp only at k3 k4 k5 k6 k7
    have hpv : padVal L.base v (natOf L.base dv) k < 2 * L.base ^ (v.length + 1) := by
      unfold padVal; split <;> omega
    have hkle : 2 ^ k ≤ natOf L.base dv * 2 ^ k := Nat.le_mul_of_pos_left _ (by omega)
    refine (okOr_divLoop h env hdv (f + 1) f n' res k3 k4 k5 (by omega) (by omega)).mono ?_
    rintro s ⟨g1, g2, g3, g4, g5⟩
    refine ⟨k, k1, k2, g3.1, g3.2, ?_⟩
    rw [← k7, ← k6, ← g5, Nat.add_mul_div_left _ _ hp, Nat.div_eq_of_lt g4, Nat.zero_add]

end BN
