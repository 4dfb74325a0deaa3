import Verif.Lemmas.Compare
import Verif.Lemmas.Digit
/-
What `abs_val_add` computes.
-/
namespace BN

theorem Supported.base_ge {L : Limits} (h : Supported L) : 2 ≤ L.base := by
  refine supported_cases (P := fun L => 2 ≤ L.base) h ?_ ?_ ?_ ?_ ?_ ?_ ?_ ?_ ?_ ?_ <;>
    simp [Limits.base, Limits.lowp, Limits.medp, Limits.highp, Limits.pair, Limits.custom] <;> omega

theorem Custom.supported {L : Limits} (h : Custom L) : Supported L := .inr h
theorem Native.supported {L : Limits} (h : Native L) : Supported L := .inl h

theorem toSingle_small {L : Limits} (h : Supported L) {n : Nat} (hn : n ≤ 1) : L.toSingle n = L.sgl n := by
  have : n = 0 ∨ n = 1 := by omega
  refine supported_cases (P := fun L => L.toSingle n = L.sgl n) h ?_ ?_ ?_ ?_ ?_ ?_ ?_ ?_ ?_ ?_ <;>
    rcases this with rfl | rfl <;>
    simp [Limits.toSingle, Limits.sgl, Limits.lowp, Limits.medp, Limits.highp, Limits.pair, Limits.custom, Ty.raw, wrapU_eq]

theorem toDouble_small {L : Limits} (h : Supported L) {n : Nat} (hn : n ≤ 1) : L.toDouble n = L.dbl n := by
  have : n = 0 ∨ n = 1 := by omega
  refine supported_cases (P := fun L => L.toDouble n = L.dbl n) h ?_ ?_ ?_ ?_ ?_ ?_ ?_ ?_ ?_ ?_ <;>
    rcases this with rfl | rfl <;>
    simp [Limits.toDouble, Limits.dbl, Limits.lowp, Limits.medp, Limits.highp, Limits.pair, Limits.custom, Ty.raw, wrapU_eq]

theorem digit_conv_double {L : Limits} (h : Supported L) {n : Nat} (hn : n < L.base) :
    (L.digit n).conv L.double = L.dbl n := by
  revert hn
  refine supported_cases (P := fun L => n < L.base → (L.digit n).conv L.double = L.dbl n) h ?_ ?_ ?_ ?_ ?_ ?_ ?_ ?_ ?_ ?_ <;> intros <;> lim

theorem sgl_truthy (L : Limits) (n : Nat) : (L.sgl n).truthy = decide (n ≠ 0) := by
  simp [Val.truthy, Limits.sgl]

/-- Digits still to be produced when neither operand is exhausted or a carry is pending. -/
def addRest (B : Nat) : List Nat → List Nat → Nat → List Nat
  | [], [], c => if c = 0 then [] else [c]
  | x :: xs, [], c => (x + 0 + c) % B :: addRest B xs [] ((x + 0 + c) / B)
  | [], y :: ys, c => (0 + y + c) % B :: addRest B [] ys ((0 + y + c) / B)
  | x :: xs, y :: ys, c => (x + y + c) % B :: addRest B xs ys ((x + y + c) / B)

/-- The digits produced by the loop, which runs at least once. -/
def addFull (B : Nat) (R S : List Nat) (c : Nat) : List Nat :=
  if R = [] ∧ S = [] then [c] else addRest B R S c

theorem addRest_unfold {B : Nat} (R S : List Nat) (c : Nat) (h : ¬ (R = [] ∧ S = [])) :
    addRest B R S c = (R.headD 0 + S.headD 0 + c) % B ::
      addRest B R.tail S.tail ((R.headD 0 + S.headD 0 + c) / B) := by
  rcases R with _ | ⟨x, R⟩ <;> rcases S with _ | ⟨y, S⟩
  · simp at h
  · simp [addRest]
  · simp [addRest]
  · simp [addRest]

theorem carry_le {B x y c : Nat} (hx : x < B) (hy : y < B) (hc : c ≤ 1) : (x + y + c) / B ≤ 1 := by
  have : (x + y + c) / B < 2 := by
    apply Nat.div_lt_of_lt_mul; omega
  omega

theorem addRest_natOf {B : Nat} (hB : 2 ≤ B) : ∀ (R S : List Nat) (c : Nat), InRange B R → InRange B S → c ≤ 1 →
    natOf B (addRest B R S c) = natOf B R + natOf B S + c
  | [], [], c, _, _, hc => by
    unfold addRest; split <;> simp_all
  | x :: xs, [], c, hR, hS, hc => by
    have ih := addRest_natOf hB xs [] ((x + 0 + c) / B) hR.tail hS (carry_le hR.head (by omega) hc)
    simp only [addRest, natOf_cons, ih, natOf_nil]
    have := Nat.mod_add_div (x + 0 + c) B
    rw [Nat.mul_add, Nat.mul_add]; omega
  | [], y :: ys, c, hR, hS, hc => by
    have ih := addRest_natOf hB [] ys ((0 + y + c) / B) hR hS.tail (carry_le (by omega) hS.head hc)
    simp only [addRest, natOf_cons, ih, natOf_nil]
    have := Nat.mod_add_div (0 + y + c) B
    rw [Nat.mul_add, Nat.mul_add]; omega
  | x :: xs, y :: ys, c, hR, hS, hc => by
    have ih := addRest_natOf hB xs ys ((x + y + c) / B) hR.tail hS.tail (carry_le hR.head hS.head hc)
    simp only [addRest, natOf_cons, ih]
    have := Nat.mod_add_div (x + y + c) B
    rw [Nat.mul_add, Nat.mul_add]; omega

theorem addRest_inRange {B : Nat} (hB : 2 ≤ B) : ∀ (R S : List Nat) (c : Nat), InRange B R → InRange B S → c ≤ 1 →
    InRange B (addRest B R S c)
  | [], [], c, _, _, hc => by
    unfold addRest; split
    · exact .nil B
    · exact .cons (by omega) (.nil B)
  | x :: xs, [], c, hR, hS, hc => by
    rw [addRest]
    exact .cons (Nat.mod_lt _ (by omega)) (addRest_inRange hB xs [] _ hR.tail hS (carry_le hR.head (by omega) hc))
  | [], y :: ys, c, hR, hS, hc => by
    rw [addRest]
    exact .cons (Nat.mod_lt _ (by omega)) (addRest_inRange hB [] ys _ hR hS.tail (carry_le (by omega) hS.head hc))
  | x :: xs, y :: ys, c, hR, hS, hc => by
    rw [addRest]
    exact .cons (Nat.mod_lt _ (by omega)) (addRest_inRange hB xs ys _ hR.tail hS.tail (carry_le hR.head hS.head hc))

theorem addRest_length {B : Nat} (hB : 2 ≤ B) : ∀ (R S : List Nat) (c : Nat), InRange B R → InRange B S → c ≤ 1 →
    max R.length S.length ≤ (addRest B R S c).length ∧ (addRest B R S c).length ≤ max R.length S.length + 1
  | [], [], c, _, _, hc => by
    unfold addRest; split <;> simp
  | x :: xs, [], c, hR, hS, hc => by
    have := addRest_length hB xs [] _ hR.tail hS (carry_le (c := c) hR.head (show 0 < B by omega) hc)
    simp only [addRest, List.length_cons, List.length_nil] at *; omega
  | [], y :: ys, c, hR, hS, hc => by
    have := addRest_length hB [] ys _ hR hS.tail (carry_le (c := c) (show 0 < B by omega) hS.head hc)
    simp only [addRest, List.length_cons, List.length_nil] at *; omega
  | x :: xs, y :: ys, c, hR, hS, hc => by
    have := addRest_length hB xs ys _ hR.tail hS.tail (carry_le (c := c) hR.head hS.head hc)
    simp only [addRest, List.length_cons] at *; omega

theorem addRest_comm {B : Nat} : ∀ (R S : List Nat) (c : Nat), addRest B R S c = addRest B S R c
  | [], [], c => rfl
  | x :: xs, [], c => by simp only [addRest]; rw [addRest_comm xs [], show x + 0 + c = 0 + x + c by omega]
  | [], y :: ys, c => by simp only [addRest]; rw [addRest_comm [] ys, show y + 0 + c = 0 + y + c by omega]
  | x :: xs, y :: ys, c => by simp only [addRest]; rw [addRest_comm xs ys, show x + y + c = y + x + c by omega]

theorem addFull_natOf {B : Nat} (hB : 2 ≤ B) {R S : List Nat} {c : Nat} (hR : InRange B R) (hS : InRange B S)
    (hc : c ≤ 1) : natOf B (addFull B R S c) = natOf B R + natOf B S + c := by
  unfold addFull; split
  · rename_i h; simp [h]
  · exact addRest_natOf hB R S c hR hS hc

theorem addFull_inRange {B : Nat} (hB : 2 ≤ B) {R S : List Nat} {c : Nat} (hR : InRange B R) (hS : InRange B S)
    (hc : c ≤ 1) : InRange B (addFull B R S c) := by
  unfold addFull; split
  · exact .cons (by omega) (.nil B)
  · exact addRest_inRange hB R S c hR hS hc

theorem addFull_length {B : Nat} (hB : 2 ≤ B) {R S : List Nat} {c : Nat} (hR : InRange B R) (hS : InRange B S)
    (hc : c ≤ 1) : max 1 (max R.length S.length) ≤ (addFull B R S c).length ∧
      (addFull B R S c).length ≤ max R.length S.length + 1 := by
  unfold addFull; split
  · rename_i h; simp [h]
  · rename_i h
    have h1 := addRest_length hB R S c hR hS hc
    have h2 : 0 < max R.length S.length := by
      rcases R with _ | _ <;> rcases S with _ | _ <;> simp at * 
    omega

/-- The digits of the argument not yet consumed. -/
def Src.suffix (s : Src) (P R : List Nat) : List Nat :=
  match s with
  | .other l => l.drop P.length
  | .self => R

theorem headD_lt {B : Nat} (hB : 2 ≤ B) {l : List Nat} (h : InRange B l) : l.headD 0 < B := by
  cases l with
  | nil => simp; omega
  | cons a l => exact h.head

theorem InRange.tl {B : Nat} {l : List Nat} (h : InRange B l) : InRange B l.tail := by
  cases l with
  | nil => exact h
  | cons a l => exact h.tail

theorem digitOrZero_other {L : Limits} (h : Supported L) (l : List Nat) (i : Nat)
    (hS : InRange L.base (l.drop i)) : digitOrZero L l i = .ok (L.dbl ((l.drop i).headD 0)) := by
  unfold digitOrZero
  split
  · rename_i hl
    rw [rd_eq hl]
    have e : l.drop i = l[i] :: l.drop (i + 1) := List.drop_eq_getElem_cons hl
    rw [e] at hS ⊢
    simp only [ok_bind, digit_conv_double h hS.head, List.headD_cons]
  · rename_i hl
    rw [List.drop_eq_nil_of_le (by omega)]
    exact congrArg Except.ok (toDouble_small h (n := 0) (by omega))

/-- The state after one iteration on the container `P ++ x :: R'`. -/
theorem addBody_core {L : Limits} (h : Supported L) (src : Src) (P : List Nat) (x y : Nat) (R' : List Nat) {c : Nat}
    (hc : c ≤ 1) (hx : x < L.base) (hy : y < L.base)
    (hin : digitOrZero L (src.get (P ++ x :: R')) P.length = .ok (L.dbl y)) (fin : Bool)
    (hfin : ∀ d, decide ((src.get (P ++ d :: R')).length ≤ P.length + 1) = fin ∨ R' ≠ []) :
    (do let inDigit ← digitOrZero L (src.get (P ++ x :: R')) P.length
        let o ← Vec.rd (P ++ x :: R') P.length
        let (d, rem) ← addDigit L o inDigit (L.sgl c)
        let out ← Vec.wr (P ++ x :: R') P.length d
        let outIter := P.length + 1
        let inIter := P.length + 1
        let brk := decide (outIter = out.length) && decide ((src.get out).length ≤ inIter) && !rem.truthy
        .ok ((⟨out, outIter, inIter, rem⟩ : AddSt), brk) : Res (AddSt × Bool))
      = .ok (⟨(P ++ [(x + y + c) % L.base]) ++ R', (P ++ [(x + y + c) % L.base]).length,
              (P ++ [(x + y + c) % L.base]).length, L.sgl ((x + y + c) / L.base)⟩,
          decide (R' = []) && fin && decide ((x + y + c) / L.base = 0)) := by
  rw [hin]
  simp only [ok_bind]
  rw [rd_eq (by simp)]
  simp only [List.getElem_append_right (Nat.le_refl _), Nat.sub_self, List.getElem_cons_zero, ok_bind]
  rw [addDigit_eq h hx hy hc]
  simp only [ok_bind]
  rw [Vec.wr, if_pos (by simp)]
  simp only [ok_bind, List.set_append_right _ _ (Nat.le_refl _), Nat.sub_self, List.set_cons_zero]
  have e1 : (P ++ [(x + y + c) % L.base]) ++ R' = P ++ (x + y + c) % L.base :: R' := by simp
  have e2 : (P ++ [(x + y + c) % L.base]).length = P.length + 1 := by simp
  rw [e1, e2]
  have e3 : (decide (P.length + 1 = (P ++ (x + y + c) % L.base :: R').length)) = decide (R' = []) := by
    rw [decide_eq_decide]; simp
  rw [e3, sgl_truthy]
  have e4 : (!decide ((x + y + c) / L.base ≠ 0)) = decide ((x + y + c) / L.base = 0) := by
    simp only [ne_eq, decide_not, Bool.not_not]
  rw [e4]
  rcases hfin ((x + y + c) % L.base) with h1 | h1
  · rw [h1]
  · rw [decide_eq_false h1]; simp

/-- One iteration of the addition loop. -/
theorem addBody_eq {L : Limits} (h : Supported L) (env : Env) (src : Src) (P R : List Nat) {c : Nat} (hc : c ≤ 1)
    (hR : InRange L.base R) (hS : InRange L.base (src.suffix P R)) :
    addBody L env src ⟨P ++ R, P.length, P.length, L.sgl c⟩ =
      if R = [] ∧ env.alloc (P.length + 1) = false then .error (.exn .badAlloc)
      else
        .ok (⟨(P ++ [(R.headD 0 + (src.suffix P R).headD 0 + c) % L.base]) ++ R.tail,
              (P ++ [(R.headD 0 + (src.suffix P R).headD 0 + c) % L.base]).length,
              (P ++ [(R.headD 0 + (src.suffix P R).headD 0 + c) % L.base]).length,
              L.sgl ((R.headD 0 + (src.suffix P R).headD 0 + c) / L.base)⟩,
          decide (R.tail = []) && decide ((src.suffix P R).tail = []) &&
            decide ((R.headD 0 + (src.suffix P R).headD 0 + c) / L.base = 0)) := by
  have hB := h.base_ge
  have hgrow : growTo env (P ++ R) P.length =
      if R = [] ∧ env.alloc (P.length + 1) = false then .error (.exn .badAlloc)
      else .ok (P ++ R.headD 0 :: R.tail) := by
    unfold growTo Vec.pushBack
    rcases R with _ | ⟨x, R'⟩
    · cases ha : env.alloc (P.length + 1) <;> simp [ha]
    · simp
  unfold addBody
  simp only [hgrow]
  split
  · rfl
  · simp only [ok_bind]
    apply addBody_core h src P _ _ R.tail hc (headD_lt hB hR) (headD_lt hB hS)
    · cases src with
      | other l => exact digitOrZero_other h l P.length hS
      | self =>
        have e : (P ++ R.headD 0 :: R.tail).drop P.length = R.headD 0 :: R.tail := by simp
        have := digitOrZero_other h (P ++ R.headD 0 :: R.tail) P.length
          (by rw [e]; exact .cons (headD_lt hB hR) hR.tl)
        rw [e] at this
        exact this
    · intro d
      cases src with
      | other l =>
        left
        show decide (l.length ≤ P.length + 1) = decide ((l.drop P.length).tail = [])
        rw [decide_eq_decide]; simp
      | self =>
        by_cases hR' : R.tail = []
        · left
          show decide ((P ++ d :: R.tail).length ≤ P.length + 1) = decide (R.tail = [])
          rw [decide_eq_decide]; simp [hR']
        · exact .inr hR'

/-- The suffix of the argument after one more iteration. -/
theorem suffix_step (src : Src) (P R : List Nat) (d : Nat) :
    src.suffix (P ++ [d]) R.tail = (src.suffix P R).tail := by
  cases src <;> simp [Src.suffix]

/-- The whole loop, from any intermediate state, under any memory behaviour. -/
theorem addLoop_eq {L : Limits} (h : Supported L) (env : Env) (src : Src) :
    ∀ (fuel : Nat) (P R : List Nat) (c : Nat), c ≤ 1 → InRange L.base R → InRange L.base (src.suffix P R) →
    max R.length (src.suffix P R).length < fuel →
    let res := P ++ addFull L.base R (src.suffix P R) c
    ((∀ n, (P ++ R).length < n → n ≤ res.length → env.alloc n = true) →
      ∃ s, loopForever (addBody L env src) fuel ⟨P ++ R, P.length, P.length, L.sgl c⟩ = .ok s ∧ s.out = res) ∧
    ((∃ n, (P ++ R).length < n ∧ n ≤ res.length ∧ env.alloc n = false) →
      loopForever (addBody L env src) fuel ⟨P ++ R, P.length, P.length, L.sgl c⟩ = .error (.exn .badAlloc))
  | 0, _, _, _, _, _, _, hf => by omega
  | fuel + 1, P, R, c, hc, hR, hS, hf => by
    have hB := h.base_ge
    intro res
    have hx := headD_lt hB hR
    have hy := headD_lt hB hS
    rw [loopForever, addBody_eq h env src P R hc hR hS]
    have hpos := (addFull_length hB (c := c) hR hS hc).1
    have hreslen : res.length = P.length + (addFull L.base R (src.suffix P R) c).length := by
      simp [res]
    by_cases hA : R = [] ∧ env.alloc (P.length + 1) = false
    · rw [if_pos hA]
      constructor
      · intro hall
        have := hall (P.length + 1) (by simp [hA.1]) (by omega)
        rw [hA.2] at this; cases this
      · intro _; rfl
    · rw [if_neg hA]
      simp only [ok_bind]
      set t := R.headD 0 + (src.suffix P R).headD 0 + c with ht
      have hc' : t / L.base ≤ 1 := carry_le hx hy hc
      by_cases hbrk : R.tail = [] ∧ (src.suffix P R).tail = [] ∧ t / L.base = 0
      · -- the loop stops here
        have hres : res = P ++ [t % L.base] := by
          simp only [res, addFull]
          split
          · rename_i hh
            rw [hh.2, hh.1] at ht
            simp only [List.headD_nil, Nat.zero_add] at ht
            rw [ht, Nat.mod_eq_of_lt (by omega)]
          · rename_i hh
            rw [addRest_unfold _ _ _ hh, hbrk.1, hbrk.2.1, ← ht, hbrk.2.2]
            simp [addRest]
        rw [if_pos (by simp [hbrk])]
        constructor
        · intro _
          refine ⟨_, rfl, ?_⟩
          simp [hbrk.1, hres]
        · rintro ⟨n, h1, h2, h3⟩
          exfalso
          have : res.length = P.length + 1 := by rw [hres]; simp
          have hRn : R = [] := by
            by_contra hne
            have : 1 ≤ R.length := List.length_pos_iff.2 hne
            simp only [List.length_append] at h1
            omega
          have hn : n = P.length + 1 := by
            rw [hRn] at h1; simp only [List.append_nil] at h1; omega
          exact hA ⟨hRn, by rw [← hn]; exact h3⟩
      · rw [if_neg (by simp only [Bool.and_eq_true, decide_eq_true_eq]; tauto)]
        have hsuf := suffix_step src P R (t % L.base)
        have hR' := hR.tl
        have hS' : InRange L.base (src.suffix (P ++ [t % L.base]) R.tail) := by rw [hsuf]; exact hS.tl
        have hf' : max R.tail.length (src.suffix (P ++ [t % L.base]) R.tail).length < fuel := by
          rw [hsuf]; simp only [List.length_tail]
          rcases Nat.eq_zero_or_pos (max R.length (src.suffix P R).length) with h0 | h0
          · exfalso
            have r0 : R = [] := List.length_eq_zero_iff.1 (by omega)
            have s0 : src.suffix P R = [] := List.length_eq_zero_iff.1 (by omega)
            apply hbrk
            rw [s0, r0] at ht ⊢
            refine ⟨rfl, rfl, ?_⟩
            rw [ht]; simp only [List.headD_nil, Nat.zero_add]
            exact Nat.div_eq_of_lt (by omega)
          · omega
        have ih := addLoop_eq h env src fuel (P ++ [t % L.base]) R.tail (t / L.base) hc' hR' hS' hf'
        have hres : res = (P ++ [t % L.base]) ++ addFull L.base R.tail (src.suffix (P ++ [t % L.base]) R.tail) (t / L.base) := by
          simp only [res]
          have hne : ¬ (R = [] ∧ src.suffix P R = []) := by
            rintro ⟨r0, s0⟩
            apply hbrk
            rw [s0, r0] at ht ⊢
            refine ⟨rfl, rfl, ?_⟩
            rw [ht]; simp only [List.headD_nil, Nat.zero_add]
            exact Nat.div_eq_of_lt (by omega)
          rw [addFull, if_neg hne, addRest_unfold _ _ _ hne, ← ht, hsuf, addFull]
          split
          · rename_i hh
            rw [hh.1, hh.2, addRest, if_neg (by intro h0; exact hbrk ⟨hh.1, hh.2, h0⟩)]
            simp
          · simp
        simp only at ih
        rw [← hres] at ih
        have hlen' : (P ++ [t % L.base] ++ R.tail).length = if R = [] then P.length + 1 else (P ++ R).length := by
          rcases R with _ | ⟨a, R⟩
          · simp
          · simp
        constructor
        · intro hall
          apply ih.1
          intro n h1 h2
          rw [hlen'] at h1
          apply hall n _ h2
          split at h1
          · rename_i hRn; rw [hRn, List.append_nil]; omega
          · exact h1
        · rintro ⟨n, h1, h2, h3⟩
          apply ih.2
          refine ⟨n, ?_, h2, h3⟩
          rw [hlen']
          split
          · rename_i hRn
            rw [hRn, List.append_nil] at h1
            rcases Nat.lt_or_ge (P.length + 1) n with h4 | h4
            · exact h4
            · exfalso
              have hn : n = P.length + 1 := by omega
              exact hA ⟨hRn, by rw [← hn]; exact h3⟩
          · exact h1

/-- `abs_val_add` with enough memory. -/
theorem absAdd_ok {L : Limits} (h : Supported L) (env : Env) {fuel : Nat} {out : List Nat} {src : Src}
    (hR : InRange L.base out) (hS : InRange L.base (src.get out))
    (hf : max out.length (src.get out).length < fuel)
    (hall : ∀ n, out.length < n → n ≤ (addFull L.base out (src.get out) 0).length → env.alloc n = true) :
    absAdd L env fuel out src = .ok (addFull L.base out (src.get out) 0) := by
  have e : src.suffix [] out = src.get out := by cases src <;> simp [Src.suffix, Src.get]
  have := (addLoop_eq h env src fuel [] out 0 (by omega) hR (by rwa [e]) (by rwa [e])).1
  rw [e] at this
  obtain ⟨s, hs, ho⟩ := this (by simpa using hall)
  unfold absAdd
  simp only [List.nil_append, List.length_nil] at hs ho
  have e0 : L.toSingle 0 = L.sgl 0 := toSingle_small h (n := 0) (by omega)
  rw [e0, hs]
  simp [ho]

/-- `abs_val_add` when some needed size cannot be obtained. -/
theorem absAdd_fail {L : Limits} (h : Supported L) (env : Env) {fuel : Nat} {out : List Nat} {src : Src}
    (hR : InRange L.base out) (hS : InRange L.base (src.get out))
    (hf : max out.length (src.get out).length < fuel)
    (hex : ∃ n, out.length < n ∧ n ≤ (addFull L.base out (src.get out) 0).length ∧ env.alloc n = false) :
    absAdd L env fuel out src = .error (.exn .badAlloc) := by
  have e : src.suffix [] out = src.get out := by cases src <;> simp [Src.suffix, Src.get]
  have := (addLoop_eq h env src fuel [] out 0 (by omega) hR (by rwa [e]) (by rwa [e])).2
  rw [e] at this
  have hs := this (by simpa using hex)
  unfold absAdd
  simp only [List.nil_append, List.length_nil] at hs
  have e0 : L.toSingle 0 = L.sgl 0 := toSingle_small h (n := 0) (by omega)
  rw [e0, hs]
  rfl

end BN
