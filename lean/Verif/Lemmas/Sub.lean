import Verif.Lemmas.Add
/-
What `abs_val_sub` computes.
-/
namespace BN

/-- Digits of `R - S - b`, one for each digit of `R`. -/
def subRest (B : Nat) : List Nat → List Nat → Nat → List Nat
  | [], _, _ => []
  | x :: xs, S, b =>
    (if x < S.headD 0 + b then x + B - S.headD 0 - b else x - S.headD 0 - b) ::
      subRest B xs S.tail (if x < S.headD 0 + b then 1 else 0)

/-- The borrow left over at the end. -/
def subBorrow : List Nat → List Nat → Nat → Nat
  | [], _, b => b
  | x :: xs, S, b => subBorrow xs S.tail (if x < S.headD 0 + b then 1 else 0)

theorem subRest_length (B : Nat) : ∀ (R S : List Nat) (b : Nat), (subRest B R S b).length = R.length
  | [], _, _ => rfl
  | x :: xs, S, b => by simp [subRest, subRest_length B xs]

theorem subRest_inRange {B : Nat} (hB : 2 ≤ B) : ∀ (R S : List Nat) (b : Nat), InRange B R → InRange B S → b ≤ 1 →
    InRange B (subRest B R S b)
  | [], _, _, _, _, _ => .nil B
  | x :: xs, S, b, hR, hS, hb => by
    rw [subRest]
    have hx := hR.head
    have hy := headD_lt hB hS
    refine .cons ?_ (subRest_inRange hB xs S.tail _ hR.tail hS.tl (by split <;> omega))
    split <;> omega

theorem subBorrow_le : ∀ (R S : List Nat) (b : Nat), b ≤ 1 → subBorrow R S b ≤ 1
  | [], _, _, hb => hb
  | x :: xs, S, b, hb => subBorrow_le xs S.tail _ (by split <;> omega)

theorem natOf_headD_tail (B : Nat) (S : List Nat) : natOf B S = S.headD 0 + B * natOf B S.tail := by
  cases S <;> simp

theorem subRest_natOf {B : Nat} (hB : 2 ≤ B) : ∀ (R S : List Nat) (b : Nat), InRange B R → InRange B S → b ≤ 1 →
    S.length ≤ R.length →
    natOf B (subRest B R S b) + natOf B S + b = natOf B R + B ^ R.length * subBorrow R S b
  | [], [], b, _, _, _, _ => by simp [subRest, subBorrow]
  | [], _ :: _, _, _, _, _, h => by simp at h
  | x :: xs, S, b, hR, hS, hb, hlen => by
    have hx := hR.head
    have hy := headD_lt hB hS
    have ih := subRest_natOf hB xs S.tail (if x < S.headD 0 + b then 1 else 0) hR.tail hS.tl (by split <;> omega)
      (by simp only [List.length_tail, List.length_cons] at *; omega)
    rw [subRest, subBorrow, natOf_headD_tail B S]
    simp only [natOf_cons, List.length_cons, pow_succ]
    have ih2 := congrArg (B * ·) ih
    simp only [Nat.mul_add] at ih2
    rw [Nat.mul_comm (B ^ xs.length) B, Nat.mul_assoc]
    split <;> rename_i hlt <;> simp only [hlt, if_true, if_false] at ih2 ⊢ <;> omega

/-- Without a final borrow the result is the difference. -/
theorem subRest_exact {B : Nat} (hB : 2 ≤ B) {R S : List Nat} (hR : InRange B R) (hS : InRange B S)
    (hlen : S.length ≤ R.length) (h : natOf B S ≤ natOf B R) :
    natOf B (subRest B R S 0) = natOf B R - natOf B S := by
  have h1 := subRest_natOf hB R S 0 hR hS (by omega) hlen
  have h2 := subBorrow_le R S 0 (by omega)
  have h3 := natOf_lt (subRest_inRange hB R S 0 hR hS (by omega))
  rw [subRest_length] at h3
  have h4 : subBorrow R S 0 = 0 ∨ subBorrow R S 0 = 1 := by omega
  rcases h4 with h4 | h4
  · rw [h4] at h1; omega
  · rw [h4, Nat.mul_one] at h1; omega

/-- In general the result is the difference modulo `B ^ length`. -/
theorem subRest_mod {B : Nat} (hB : 2 ≤ B) {R S : List Nat} (hR : InRange B R) (hS : InRange B S)
    (hlen : S.length ≤ R.length) :
    (natOf B (subRest B R S 0) : Int) = ((natOf B R : Int) - natOf B S) % (B ^ R.length : Nat) := by
  have h1 := subRest_natOf hB R S 0 hR hS (by omega) hlen
  have h3 := natOf_lt (subRest_inRange hB R S 0 hR hS (by omega))
  rw [subRest_length] at h3
  have e : (natOf B R : Int) - natOf B S =
      natOf B (subRest B R S 0) + (B ^ R.length : Nat) * (-(subBorrow R S 0 : Int)) := by
    have h1' : (natOf B (subRest B R S 0) : Int) + natOf B S + 0 =
      natOf B R + (B ^ R.length : Nat) * (subBorrow R S 0 : Int) := by exact_mod_cast h1
    rw [Int.mul_neg]; omega
  rw [e, Int.add_mul_emod_self_left, Int.emod_eq_of_lt (by omega) (by exact_mod_cast h3)]

theorem subBody_ub {L : Limits} (h : Supported L) (src : Src) (P : List Nat) (b : Nat)
    (hS : InRange L.base (src.suffix P [])) :
    subBody L src ⟨P, P.length, P.length, L.dbl b⟩ = .error (.ub .outOfBounds) := by
  unfold subBody
  simp only
  have : ∃ v, digitOrZero L (src.get P) P.length = .ok v := by
    cases src with
    | other l => exact ⟨_, digitOrZero_other h l P.length hS⟩
    | self => exact ⟨_, digitOrZero_other h P P.length (by simp [InRange])⟩
  obtain ⟨v, hv⟩ := this
  rw [hv, ok_bind, rd_ub (Nat.le_refl _)]
  rfl

/-- One iteration of the subtraction loop. -/
theorem subBody_eq {L : Limits} (h : Supported L) (src : Src) (P : List Nat) (x : Nat) (R : List Nat) {b : Nat}
    (hb : b ≤ 1) (hR : InRange L.base (x :: R)) (hS : InRange L.base (src.suffix P (x :: R))) :
    let y := (src.suffix P (x :: R)).headD 0
    let d := if x < y + b then x + L.base - y - b else x - y - b
    subBody L src ⟨P ++ x :: R, P.length, P.length, L.dbl b⟩ =
      .ok (⟨(P ++ [d]) ++ R, (P ++ [d]).length, (P ++ [d]).length, L.dbl (if x < y + b then 1 else 0)⟩,
        decide (R = []) && decide ((src.suffix P (x :: R)).tail = [])) := by
  intro y d
  have hB := h.base_ge
  have hx := hR.head
  have hy := headD_lt hB hS
  unfold subBody
  simp only
  have hin : digitOrZero L (src.get (P ++ x :: R)) P.length = .ok (L.dbl y) := by
    cases src with
    | other l => exact digitOrZero_other h l P.length hS
    | self =>
      have e : (P ++ x :: R).drop P.length = x :: R := by simp
      have := digitOrZero_other h (P ++ x :: R) P.length (by rw [e]; exact hR)
      rw [e] at this
      exact this
  rw [hin]
  simp only [ok_bind]
  rw [rd_eq (by simp)]
  simp only [List.getElem_append_right (Nat.le_refl _), Nat.sub_self, List.getElem_cons_zero, ok_bind]
  rw [subDigit_eq h hx hy hb]
  simp only [ok_bind]
  rw [Vec.wr, if_pos (by simp)]
  simp only [ok_bind, List.set_append_right _ _ (Nat.le_refl _), Nat.sub_self, List.set_cons_zero]
  have e1 : (P ++ [d]) ++ R = P ++ d :: R := by simp
  have e2 : (P ++ [d]).length = P.length + 1 := by simp
  rw [e1, e2]
  have e3 : (decide (P.length + 1 = (P ++ d :: R).length)) = decide (R = []) := by
    rw [decide_eq_decide]; simp
  show Except.ok ((⟨P ++ d :: R, _, _, _⟩ : SubSt), decide (P.length + 1 = (P ++ d :: R).length) &&
    decide ((src.get (P ++ d :: R)).length ≤ P.length + 1)) = _
  rw [e3]
  congr 2
  cases src with
  | other l =>
    congr 1
    show decide (l.length ≤ P.length + 1) = decide ((l.drop P.length).tail = [])
    rw [decide_eq_decide]; simp
  | self =>
    show (decide (R = []) && decide ((P ++ d :: R).length ≤ P.length + 1)) = (decide (R = []) && decide (R = []))
    by_cases hR0 : R = [] <;> simp [hR0]

theorem subLoop_eq {L : Limits} (h : Supported L) (src : Src) :
    ∀ (fuel : Nat) (P R : List Nat) (b : Nat), b ≤ 1 → InRange L.base R → InRange L.base (src.suffix P R) →
    R.length < fuel →
    (R ≠ [] → (src.suffix P R).length ≤ R.length →
      ∃ s, loopForever (subBody L src) fuel ⟨P ++ R, P.length, P.length, L.dbl b⟩ = .ok s ∧
        s.larger = P ++ subRest L.base R (src.suffix P R) b) ∧
    (R = [] ∨ R.length < (src.suffix P R).length →
      loopForever (subBody L src) fuel ⟨P ++ R, P.length, P.length, L.dbl b⟩ = .error (.ub .outOfBounds))
  | 0, _, _, _, _, _, _, hf => by omega
  | fuel + 1, P, [], b, hb, hR, hS, hf => by
    refine ⟨fun h => absurd rfl h, fun _ => ?_⟩
    rw [loopForever, List.append_nil, subBody_ub h src P b hS]
    rfl
  | fuel + 1, P, x :: R, b, hb, hR, hS, hf => by
    have hstep := suffix_step src P (x :: R)
    simp only [List.tail_cons] at hstep
    rw [loopForever, subBody_eq h src P x R hb hR hS]
    simp only [ok_bind]
    have ih := fun d => subLoop_eq h src fuel (P ++ [d]) R
      (if x < (src.suffix P (x :: R)).headD 0 + b then 1 else 0) (by split <;> omega) hR.tail
      (by rw [hstep]; exact hS.tl) (by simp only [List.length_cons] at hf; omega)
    simp only [hstep] at ih
    set S := src.suffix P (x :: R) with hSdef
    by_cases hbrk : R = [] ∧ S.tail = []
    · rw [if_pos (by simp [hbrk])]
      constructor
      · intro _ _
        refine ⟨_, rfl, ?_⟩
        simp [hbrk.1, subRest]
      · rintro (h0 | h0)
        · cases h0
        · exfalso
          have : S.length ≤ 1 := by
            have := congrArg List.length hbrk.2
            simp only [List.length_tail, List.length_nil] at this; omega
          simp only [List.length_cons] at h0; omega
    · rw [if_neg (by simpa using hbrk)]
      constructor
      · intro _ hlen
        have hRne : R ≠ [] := by
          rintro rfl
          apply hbrk
          refine ⟨rfl, ?_⟩
          apply List.length_eq_zero_iff.1
          simp only [List.length_tail, List.length_cons, List.length_nil] at *; omega
        obtain ⟨s, hs, ho⟩ := (ih _).1 hRne (by simp only [List.length_tail, List.length_cons] at *; omega)
        refine ⟨s, hs, ?_⟩
        rw [ho, subRest]; simp
      · rintro (h0 | h0)
        · cases h0
        · apply (ih _).2
          right
          simp only [List.length_tail, List.length_cons] at *; omega

theorem popZeros_eq : ∀ (v : List Nat), popZeros v v.length = .ok (trim v) := by
  intro v
  induction v using trim_induction with
  | h0 => rfl
  | h1 l ih =>
    rw [List.length_append, List.length_singleton, popZeros, rd_eq (by simp)]
    simp only [ok_bind, List.getElem_append_right (Nat.le_refl _), Nat.sub_self, List.getElem_cons_zero, if_true]
    rw [Vec.popBack, if_neg (by simp)]
    simp only [ok_bind, List.dropLast_concat, ih, trim_append_zero]
  | h2 l d hd =>
    rw [List.length_append, List.length_singleton, popZeros, rd_eq (by simp)]
    simp only [ok_bind, List.getElem_append_right (Nat.le_refl _), Nat.sub_self, List.getElem_cons_zero]
    rw [if_neg hd, trim_append_pos _ hd]

theorem subDebugCheck_eq (env : Env) (a b : List Nat) : subDebugCheck env a b =
    if env.debug = true ∧ (a.length < b.length ∨ (a.length = b.length ∧ ∃ i < a.length, a.getD i 0 < b.getD i 0))
    then .error (.exn .bnUnderflow) else .ok () := by
  unfold subDebugCheck
  cases hd : env.debug
  · simp
  · simp only [if_true, absLt_eq, absGt_eq, true_and]
    by_cases h1 : a.length < b.length
    · simp [h1]
    · simp only [h1, if_false, false_or, ok_bind, decide_eq_true_eq]
      by_cases h2 : a.length = b.length
      · simp only [h2, true_and]
      · have : ¬ b.length = a.length := fun h => h2 h.symm
        simp [h2, this]

/-- `abs_val_sub` when the debug check does not fire. -/
theorem absSub_ok {L : Limits} (h : Supported L) (env : Env) {fuel : Nat} {a : List Nat} {src : Src}
    (hchk : subDebugCheck env a (src.get a) = .ok ())
    (hR : InRange L.base a) (hS : InRange L.base (src.get a)) (hne : a ≠ []) (hlen : (src.get a).length ≤ a.length)
    (hf : a.length < fuel) :
    absSub L env fuel a src = .ok (trim (subRest L.base a (src.get a) 0)) := by
  have e : src.suffix [] a = src.get a := by cases src <;> simp [Src.suffix, Src.get]
  have := (subLoop_eq h src fuel [] a 0 (by omega) hR (by rwa [e]) hf).1 hne (by rwa [e])
  rw [e] at this
  obtain ⟨s, hs, ho⟩ := this
  unfold absSub
  simp only [List.nil_append, List.length_nil] at hs ho
  have e0 : L.toDouble 0 = L.dbl 0 := toDouble_small h (n := 0) (by omega)
  rw [hchk, e0, ok_bind, hs, ok_bind, ho, popZeros_eq]

/-- `abs_val_sub` reads past the end when the first operand is empty or shorter than the second. -/
theorem absSub_ub {L : Limits} (h : Supported L) (env : Env) {fuel : Nat} {a : List Nat} {src : Src}
    (hchk : subDebugCheck env a (src.get a) = .ok ())
    (hR : InRange L.base a) (hS : InRange L.base (src.get a)) (hbad : a = [] ∨ a.length < (src.get a).length)
    (hf : a.length < fuel) :
    absSub L env fuel a src = .error (.ub .outOfBounds) := by
  have e : src.suffix [] a = src.get a := by cases src <;> simp [Src.suffix, Src.get]
  have hs := (subLoop_eq h src fuel [] a 0 (by omega) hR (by rwa [e]) hf).2 (by rwa [e])
  unfold absSub
  simp only [List.nil_append, List.length_nil] at hs
  have e0 : L.toDouble 0 = L.dbl 0 := toDouble_small h (n := 0) (by omega)
  rw [hchk, e0, ok_bind, hs]
  rfl

/-- `x - x` is zero. -/
theorem natOf_subRest_self {B : Nat} (hB : 2 ≤ B) {a : List Nat} (h : InRange B a) : natOf B (subRest B a a 0) = 0 := by
  rw [subRest_exact hB h h (Nat.le_refl _) (Nat.le_refl _)]; omega

end BN
