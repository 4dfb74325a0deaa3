import Verif.Lemmas.Samples
import Verif.Props.Addition
import Verif.Props.IntType
/-
Digits that are not below the base: C119. `push_back`, `resize`, `operator[]` and the constructors take any value of the digit type.
-/
namespace BN

theorem wrap_self {w a : Nat} (ha : a < 2 ^ w) : ((cU w).wrap (a : Int)).toNat = a := by
  rw [wrapU_eq]
  rw [show ((2 : Int) ^ w) = ((2 ^ w : Nat) : Int) by push_cast; rfl, ← Int.natCast_mod, Nat.mod_eq_of_lt ha]; rfl

theorem vbin_raw_add {w : Nat} (hw : IsWidth w) {t : Ty} {a b : Nat} (ha : a < 2 ^ w) (hb : b < 2 ^ w) :
    Val.bin .add ⟨.bni w, a⟩ ⟨t, b⟩ = .ok ⟨.bni w, ((a + b) % 2 ^ w : Nat)⟩ := by
  unfold Val.bin
  simp only
  rw [wrap_self hb, Int.toNat_natCast, C49_add hw ha hb]
  rfl

theorem vbin_raw_mod {w : Nat} (hw : IsWidth w) {t : Ty} {a b : Nat} (ha : a < 2 ^ w) (hb : b < 2 ^ w) (h0 : b ≠ 0) :
    Val.bin .mod ⟨.bni w, a⟩ ⟨t, b⟩ = .ok ⟨.bni w, (a % b : Nat)⟩ := by
  unfold Val.bin
  simp only
  rw [wrap_self hb, Int.toNat_natCast, (C50_div_mod hw ha hb).2, if_neg h0]
  rfl

theorem raw_conv {w a : Nat} {t : Ty} (ha : a < 2 ^ w) : Val.conv (.bni w) ⟨t, (a : Int)⟩ = ⟨.bni w, a⟩ := by
  unfold Val.conv Ty.raw
  congr 1
  rw [wrapU_eq, show ((2 : Int) ^ w) = ((2 ^ w : Nat) : Int) by push_cast; rfl, ← Int.natCast_mod, Nat.mod_eq_of_lt ha]

theorem raw_store {w mx a : Nat} {t : Ty} (ha : a < 2 ^ w) : (Limits.custom w mx).store ⟨t, (a : Int)⟩ = a := by
  unfold Limits.store Limits.custom
  rw [raw_conv ha]; rfl

theorem raw_const {w mx a : Nat} (ha : a < 2 ^ w) :
    (Limits.custom w mx).toDouble a = ⟨.bni w, a⟩ ∧ (Limits.custom w mx).toSingle a = ⟨.bni w, a⟩ := by
  have := raw_conv (t := .bni w) ha
  unfold Val.conv at this
  exact ⟨this, this⟩

/-- One column: total `t` modulo 2^w, digit `t % B`, carry 1 iff `t` reaches the base. -/
theorem addDigit_raw {w mx : Nat} (hw : IsWidth w) (h1 : 1 ≤ mx) (h2 : 2 * mx + 1 < 2 ^ w) {o i r : Nat} (ho : o < 2 ^ w) (hi : i < 2 ^ w) (hr : r ≤ 1) :
    addDigit (.custom w mx) o ((Limits.custom w mx).dbl i) ((Limits.custom w mx).sgl r) =
      .ok ((o + i + r) % 2 ^ w % (mx + 1), (Limits.custom w mx).sgl (if mx < (o + i + r) % 2 ^ w then 1 else 0)) := by
  have hp : 0 < 2 ^ w := by positivity
  have ht : (o + i + r) % 2 ^ w < 2 ^ w := Nat.mod_lt _ hp
  have e1 : Val.bin .add ((Limits.custom w mx).digit o) ((Limits.custom w mx).dbl i) = .ok ⟨.bni w, ((o + i) % 2 ^ w : Nat)⟩ := vbin_raw_add hw ho hi
  have e2 : Val.bin .add (⟨.bni w, ((o + i) % 2 ^ w : Nat)⟩ : Val) ((Limits.custom w mx).sgl r) = .ok ⟨.bni w, ((o + i + r) % 2 ^ w : Nat)⟩ := by
    have := vbin_raw_add hw (t := .bni w) (Nat.mod_lt (o + i) hp) (show r < 2 ^ w by omega)
    rw [Nat.mod_add_mod] at this
    exact this
  unfold addDigit
  simp only [e1, e2, ok_bind]
  have e3 : (Val.conv (Limits.custom w mx).double ⟨.bni w, ((o + i + r) % 2 ^ w : Nat)⟩) = ⟨.bni w, ((o + i + r) % 2 ^ w : Nat)⟩ := raw_conv ht
  have e4 : (Limits.custom w mx).toDouble ((Limits.custom w mx).maxLimit) = ⟨.bni w, (mx : Nat)⟩ := (raw_const (show mx < 2 ^ w by omega)).1
  have e5 : (Limits.custom w mx).toDouble 1 = ⟨.bni w, (1 : Nat)⟩ := (raw_const (show 1 < 2 ^ w by omega)).1
  have e6 : ∀ n : Nat, n ≤ 1 → (Limits.custom w mx).toSingle n = (Limits.custom w mx).sgl n := fun n hn => (raw_const (show n < 2 ^ w by omega)).2
  rw [e3, e4]
  have e7 : Val.cmp .lt ⟨.bni w, (mx : Nat)⟩ ⟨.bni w, ((o + i + r) % 2 ^ w : Nat)⟩ = decide (mx < (o + i + r) % 2 ^ w) :=
    (C51_comparisons hw (show mx < 2 ^ w by omega) ht).2.2.2.2.1
  rw [e7, e5]
  by_cases hc : mx < (o + i + r) % 2 ^ w
  · have e8 : Val.bin .add (⟨.bni w, (mx : Nat)⟩ : Val) ⟨.bni w, (1 : Nat)⟩ = .ok ⟨.bni w, (mx + 1 : Nat)⟩ := by
      have := vbin_raw_add hw (t := .bni w) (show mx < 2 ^ w by omega) (show 1 < 2 ^ w by omega)
      rw [Nat.mod_eq_of_lt (show mx + 1 < 2 ^ w by omega)] at this
      exact this
    have hlt : (o + i + r) % 2 ^ w % (mx + 1) < 2 ^ w := lt_of_le_of_lt (Nat.mod_le _ _) ht
    have e9 := vbin_raw_mod hw (t := .bni w) ht (show mx + 1 < 2 ^ w by omega) (by omega)
    have e10 : (Val.conv (Limits.custom w mx).single ⟨.bni w, ((o + i + r) % 2 ^ w % (mx + 1) : Nat)⟩) = ⟨.bni w, ((o + i + r) % 2 ^ w % (mx + 1) : Nat)⟩ := raw_conv hlt
    rw [if_pos (by simpa using hc), if_pos hc, e8, ok_bind, e9, ok_bind, e10, raw_store hlt]
    exact congrArg Except.ok (congrArg _ (e6 1 le_rfl))
  · rw [if_neg (by simpa using hc), if_neg hc, raw_store ht, Nat.mod_eq_of_lt (show (o + i + r) % 2 ^ w < mx + 1 by omega)]
    exact congrArg Except.ok (congrArg _ (e6 0 (by omega)))

/-- Total of a column in a digit type of `m` values. -/
def colTotal (m : Nat) (R S : List Nat) (c : Nat) : Nat := (R.headD 0 + S.headD 0 + c) % m
/-- Carry out of a column. -/
def colCarry (m B : Nat) (R S : List Nat) (c : Nat) : Nat := if B ≤ colTotal m R S c then 1 else 0

/-- Digits of a sum of sequences of arbitrary digits, with carry `c`. -/
def rawRest (m B : Nat) : List Nat → List Nat → Nat → List Nat
  | [], [], c => if c = 0 then [] else [c]
  | x :: xs, [], c => colTotal m (x :: xs) [] c % B :: rawRest m B xs [] (colCarry m B (x :: xs) [] c)
  | [], y :: ys, c => colTotal m [] (y :: ys) c % B :: rawRest m B [] ys (colCarry m B [] (y :: ys) c)
  | x :: xs, y :: ys, c => colTotal m (x :: xs) (y :: ys) c % B :: rawRest m B xs ys (colCarry m B (x :: xs) (y :: ys) c)

/-- The loop runs at least once. -/
def rawFull (m B : Nat) (R S : List Nat) (c : Nat) : List Nat := if R = [] ∧ S = [] then [c] else rawRest m B R S c

theorem rawRest_unfold {m B : Nat} (R S : List Nat) (c : Nat) (h : ¬ (R = [] ∧ S = [])) :
    rawRest m B R S c = colTotal m R S c % B :: rawRest m B R.tail S.tail (colCarry m B R S c) := by
  rcases R with _ | ⟨x, R⟩ <;> rcases S with _ | ⟨y, S⟩
  · simp at h
  all_goals simp [rawRest]

theorem raw_headD {m : Nat} (hm : 0 < m) {l : List Nat} (h : InRange m l) : l.headD 0 < m := by
  cases l with
  | nil => simpa using hm
  | cons a l => exact h.head

theorem digitOrZero_raw {w mx : Nat} (l : List Nat) (i : Nat) (hS : InRange (2 ^ w) (l.drop i)) :
    digitOrZero (.custom w mx) l i = .ok ((Limits.custom w mx).dbl ((l.drop i).headD 0)) := by
  unfold digitOrZero
  split
  · rename_i hl
    rw [rd_eq hl]
    have e : l.drop i = l[i] :: l.drop (i + 1) := List.drop_eq_getElem_cons hl
    rw [e] at hS ⊢
    rw [ok_bind]
    exact congrArg Except.ok (raw_conv hS.head)
  · rename_i hl
    rw [List.drop_eq_nil_of_le (by omega)]
    exact congrArg Except.ok (raw_const (show 0 < 2 ^ w by positivity)).1

theorem addBody_raw {w mx : Nat} (hw : IsWidth w) (h1 : 1 ≤ mx) (h2 : 2 * mx + 1 < 2 ^ w) {env : Env} (hm : env.Ample) (src : Src) (P R : List Nat) {c : Nat} (hc : c ≤ 1)
    (hR : InRange (2 ^ w) R) (hS : InRange (2 ^ w) (src.suffix P R)) :
    addBody (.custom w mx) env src ⟨P ++ R, P.length, P.length, (Limits.custom w mx).sgl c⟩ =
      .ok (⟨P ++ [colTotal (2 ^ w) R (src.suffix P R) c % (mx + 1)] ++ R.tail, P.length + 1, P.length + 1,
          (Limits.custom w mx).sgl (colCarry (2 ^ w) (mx + 1) R (src.suffix P R) c)⟩,
        decide (R.tail = []) && decide ((src.suffix P R).tail = []) && decide (colCarry (2 ^ w) (mx + 1) R (src.suffix P R) c = 0)) := by
  have hp : 0 < 2 ^ w := by positivity
  have hgrow : growTo env (P ++ R) P.length = .ok (P ++ R.headD 0 :: R.tail) := by
    unfold growTo Vec.pushBack
    rcases R with _ | ⟨x, R'⟩
    · simp [hm _]
    · simp
  have hdig : digitOrZero (.custom w mx) (src.get (P ++ R.headD 0 :: R.tail)) P.length = .ok ((Limits.custom w mx).dbl ((src.suffix P R).headD 0)) := by
    cases src with
    | other l => exact digitOrZero_raw l P.length hS
    | self =>
      have e : (P ++ R.headD 0 :: R.tail).drop P.length = R.headD 0 :: R.tail := by simp
      have := digitOrZero_raw (w := w) (mx := mx) (P ++ R.headD 0 :: R.tail) P.length (by rw [e]; exact .cons (raw_headD hp hR) hR.tl)
      rw [e] at this
      exact this
  unfold addBody
  simp only [hgrow, ok_bind, hdig]
  rw [rd_eq (by simp)]
  simp only [List.getElem_append_right (Nat.le_refl _), Nat.sub_self, List.getElem_cons_zero, ok_bind]
  rw [addDigit_raw hw h1 h2 (raw_headD hp hR) (raw_headD hp hS) hc]
  simp only [ok_bind]
  rw [Vec.wr, if_pos (by simp)]
  simp only [ok_bind, List.set_append_right _ _ (Nat.le_refl _), Nat.sub_self, List.set_cons_zero]
  generalize hd : (R.headD 0 + (src.suffix P R).headD 0 + c) % 2 ^ w % (mx + 1) = d
  have hd' : colTotal (2 ^ w) R (src.suffix P R) c % (mx + 1) = d := hd
  have hcar : (if mx < (R.headD 0 + (src.suffix P R).headD 0 + c) % 2 ^ w then 1 else 0) = colCarry (2 ^ w) (mx + 1) R (src.suffix P R) c := by
    simp only [colCarry, colTotal, Nat.succ_le_iff]
  rw [hd', hcar]
  have e1 : P ++ [d] ++ R.tail = P ++ d :: R.tail := by simp
  have e3 : (decide (P.length + 1 = (P ++ d :: R.tail).length)) = decide (R.tail = []) := by
    rw [decide_eq_decide, List.length_append, List.length_cons, ← List.length_eq_zero_iff]; omega
  rw [e1, e3, sgl_truthy]
  have e4 : ∀ n : Nat, (!decide (n ≠ 0)) = decide (n = 0) := by intro n; simp
  rw [e4]
  by_cases hR' : R.tail = []
  · have : decide ((src.get (P ++ d :: R.tail)).length ≤ P.length + 1) = decide ((src.suffix P R).tail = []) := by
      cases src with
      | other l =>
        show decide (l.length ≤ P.length + 1) = decide ((l.drop P.length).tail = [])
        rw [decide_eq_decide]; simp
      | self =>
        show decide ((P ++ d :: R.tail).length ≤ P.length + 1) = decide (R.tail = [])
        rw [decide_eq_decide]; simp [hR']
    rw [this]
  · rw [decide_eq_false hR']; simp

theorem colCarry_le (m B : Nat) (R S : List Nat) (c : Nat) : colCarry m B R S c ≤ 1 := by unfold colCarry; split <;> omega

/-- The loop from an intermediate state. -/
theorem addLoop_raw {w mx : Nat} (hw : IsWidth w) (h1 : 1 ≤ mx) (h2 : 2 * mx + 1 < 2 ^ w) {env : Env} (hm : env.Ample) (src : Src) :
    ∀ (fuel : Nat) (P R : List Nat) (c : Nat), c ≤ 1 → InRange (2 ^ w) R → InRange (2 ^ w) (src.suffix P R) →
    max R.length (src.suffix P R).length < fuel →
    ∃ s, loopForever (addBody (.custom w mx) env src) fuel ⟨P ++ R, P.length, P.length, (Limits.custom w mx).sgl c⟩ = .ok s ∧
      s.out = P ++ rawFull (2 ^ w) (mx + 1) R (src.suffix P R) c
  | 0, _, _, _, _, _, _, hf => by omega
  | fuel + 1, P, R, c, hc, hR, hS, hf => by
    rw [loopForever, addBody_raw hw h1 h2 hm src P R hc hR hS]
    simp only [ok_bind]
    generalize ht : colTotal (2 ^ w) R (src.suffix P R) c = t
    generalize hk : colCarry (2 ^ w) (mx + 1) R (src.suffix P R) c = k
    have hk1 : k ≤ 1 := by rw [← hk]; exact colCarry_le _ _ _ _ _
    have hempty : R = [] ∧ src.suffix P R = [] → t = c ∧ k = 0 := by
      rintro ⟨e1, e2⟩
      have : t = c := by
        rw [← ht, e2, e1]
        simp only [colTotal, List.headD_nil, Nat.zero_add]
        exact Nat.mod_eq_of_lt (by omega)
      refine ⟨this, ?_⟩
      rw [← hk, colCarry, ht, this, if_neg (by omega)]
    by_cases hbrk : R.tail = [] ∧ (src.suffix P R).tail = [] ∧ k = 0
    · rw [if_pos (by simp [hbrk])]
      refine ⟨_, rfl, ?_⟩
      simp only [hbrk.1, List.append_nil]
      congr 1
      unfold rawFull
      split
      · rename_i he
        rw [(hempty he).1, Nat.mod_eq_of_lt (by omega)]
      · rename_i he
        rw [rawRest_unfold _ _ _ he, ht, hk, hbrk.1, hbrk.2.1, hbrk.2.2]; simp [rawRest]
    · rw [if_neg (by simp only [Bool.and_eq_true, decide_eq_true_eq]; tauto)]
      have hne : ¬ (R = [] ∧ src.suffix P R = []) := by
        intro he
        refine hbrk ⟨by rw [he.1]; rfl, by rw [he.2]; rfl, (hempty he).2⟩
      have hsuf := suffix_step src P R (t % (mx + 1))
      have hlen : (P ++ [t % (mx + 1)]).length = P.length + 1 := by simp
      obtain ⟨s, e1, e2⟩ := addLoop_raw hw h1 h2 hm src fuel (P ++ [t % (mx + 1)]) R.tail k hk1 hR.tl (by rw [hsuf]; exact hS.tl) (by
        rw [hsuf, List.length_tail, List.length_tail]
        have : 0 < max R.length (src.suffix P R).length := by
          by_contra h0
          exact hne ⟨List.length_eq_zero_iff.1 (by omega), List.length_eq_zero_iff.1 (by omega)⟩
        omega)
      rw [hlen] at e1
      refine ⟨s, e1, ?_⟩
      rw [e2, hsuf, List.append_assoc]
      congr 1
      unfold rawFull
      rw [if_neg hne, rawRest_unfold _ _ _ hne, ht, hk]
      simp only [List.singleton_append, List.cons.injEq, true_and]
      split
      · rename_i he
        have hk0 : k ≠ 0 := fun h => hbrk ⟨he.1, he.2, h⟩
        rw [he.1, he.2, rawRest, if_neg hk0]
      · rfl

theorem absAdd_raw {w mx : Nat} (hw : IsWidth w) (h1 : 1 ≤ mx) (h2 : 2 * mx + 1 < 2 ^ w) {env : Env} (hm : env.Ample) {a : List Nat} {src : Src}
    (ha : InRange (2 ^ w) a) (hb : InRange (2 ^ w) (src.get a)) {n : Nat} (hn : max a.length (src.get a).length < n) :
    absAdd (.custom w mx) env n a src = .ok (rawFull (2 ^ w) (mx + 1) a (src.get a) 0) := by
  have hs : src.suffix [] a = src.get a := by cases src <;> simp [Src.suffix, Src.get]
  obtain ⟨s, e1, e2⟩ := addLoop_raw hw h1 h2 hm src n [] a 0 (by omega) ha (by rw [hs]; exact hb) (by rw [hs]; exact hn)
  unfold absAdd
  have e3 : (Limits.custom w mx).toSingle 0 = (Limits.custom w mx).sgl 0 := (raw_const (show 0 < 2 ^ w by positivity)).2
  simp only [List.nil_append, List.length_nil] at e1 e2
  rw [e3, e1, ok_bind, e2, hs]

/-- Every column of the sum, with the carry 0 or 1 into it, stays below twice the base. -/
def ColumnsFit (B : Nat) : List Nat → List Nat → Nat → Prop
  | [], [], _ => True
  | x :: xs, [], c => x + c < 2 * B ∧ ColumnsFit B xs [] (if B ≤ x + c then 1 else 0)
  | [], y :: ys, c => y + c < 2 * B ∧ ColumnsFit B [] ys (if B ≤ y + c then 1 else 0)
  | x :: xs, y :: ys, c => x + y + c < 2 * B ∧ ColumnsFit B xs ys (if B ≤ x + y + c then 1 else 0)

/-- One column. -/
theorem column_value {m B : Nat} (hB : 2 ≤ B) (hm : 2 * B ≤ m) (R S : List Nat) (c : Nat) :
    colTotal m R S c % B + B * colCarry m B R S c ≤ R.headD 0 + S.headD 0 + c ∧
    (colTotal m R S c % B + B * colCarry m B R S c = R.headD 0 + S.headD 0 + c ↔ R.headD 0 + S.headD 0 + c < 2 * B) ∧
    (R.headD 0 + S.headD 0 + c < 2 * B → colCarry m B R S c = if B ≤ R.headD 0 + S.headD 0 + c then 1 else 0) := by
  unfold colCarry colTotal
  generalize R.headD 0 + S.headD 0 + c = t
  by_cases ht : t < 2 * B
  · rw [Nat.mod_eq_of_lt (show t < m by omega)]
    by_cases hb : B ≤ t
    · rw [if_pos hb, Nat.mod_eq_sub_mod hb, Nat.mod_eq_of_lt (show t - B < B by omega)]
      omega
    · rw [if_neg hb, Nat.mod_eq_of_lt (show t < B by omega)]
      omega
  · have h1 : t % m % B < B := Nat.mod_lt _ (by omega)
    have h2 : B * (if B ≤ t % m then 1 else 0) ≤ B := by split <;> omega
    omega

theorem rawRest_value {m B : Nat} (hB : 2 ≤ B) (hm : 2 * B ≤ m) : ∀ (R S : List Nat) (c : Nat), c ≤ 1 →
    natOf B (rawRest m B R S c) ≤ natOf B R + natOf B S + c ∧
    (natOf B (rawRest m B R S c) = natOf B R + natOf B S + c ↔ ColumnsFit B R S c) := by
  have step : ∀ (R S : List Nat) (c N : Nat), (natOf B R + natOf B S + c = R.headD 0 + S.headD 0 + c + B * (natOf B R.tail + natOf B S.tail)) →
      N ≤ natOf B R.tail + natOf B S.tail + colCarry m B R S c →
      (colTotal m R S c % B + B * N ≤ natOf B R + natOf B S + c ∧ (colTotal m R S c % B + B * N = natOf B R + natOf B S + c ↔
        R.headD 0 + S.headD 0 + c < 2 * B ∧ N = natOf B R.tail + natOf B S.tail + colCarry m B R S c)) := by
    intro R S c N he hN
    obtain ⟨h1, h2, -⟩ := column_value hB hm R S c
    rw [he, ← h2]
    generalize colTotal m R S c % B = d at *
    generalize colCarry m B R S c = k at *
    generalize R.headD 0 + S.headD 0 + c = t at *
    generalize natOf B R.tail + natOf B S.tail = M at *
    have h3 : B * N ≤ B * (M + k) := Nat.mul_le_mul_left B hN
    rw [Nat.mul_add] at h3
    refine ⟨by omega, fun h => ?_, fun h => ?_⟩
    · have h4 : d + B * k = t := by omega
      refine ⟨h4, Nat.eq_of_mul_eq_mul_left (show 0 < B by omega) (?_ : B * N = B * (M + k))⟩
      rw [Nat.mul_add]; omega
    · rw [h.2, Nat.mul_add]; omega
  intro R S c hc
  induction R, S, c using rawRest.induct m B with
  | case1 => simp [rawRest, ColumnsFit]
  | case2 c h => simp [rawRest, h, ColumnsFit]
  | case3 x xs c ih =>
    obtain ⟨i1, i2⟩ := ih (colCarry_le _ _ _ _ _)
    obtain ⟨s1, s2⟩ := step (x :: xs) [] c _ (by simp; ring) i1
    rw [rawRest, natOf_cons]
    refine ⟨s1, s2.trans ?_⟩
    have hk := (column_value hB hm (x :: xs) [] c).2.2
    simp only [List.headD_cons, List.headD_nil, Nat.add_zero] at hk ⊢
    rw [ColumnsFit]
    refine and_congr_right fun ht => ?_
    exact i2.trans (by by_cases hb : B ≤ x + c <;> simp [hk ht, hb])
  | case4 y ys c ih =>
    obtain ⟨i1, i2⟩ := ih (colCarry_le _ _ _ _ _)
    obtain ⟨s1, s2⟩ := step [] (y :: ys) c _ (by simp; ring) i1
    rw [rawRest, natOf_cons]
    refine ⟨s1, s2.trans ?_⟩
    have hk := (column_value hB hm [] (y :: ys) c).2.2
    simp only [List.headD_cons, List.headD_nil, Nat.zero_add] at hk ⊢
    rw [ColumnsFit]
    refine and_congr_right fun ht => ?_
    exact i2.trans (by by_cases hb : B ≤ y + c <;> simp [hk ht, hb])
  | case5 x xs y ys c ih =>
    obtain ⟨i1, i2⟩ := ih (colCarry_le _ _ _ _ _)
    obtain ⟨s1, s2⟩ := step (x :: xs) (y :: ys) c _ (by simp; ring) i1
    rw [rawRest, natOf_cons]
    refine ⟨s1, s2.trans ?_⟩
    have hk := (column_value hB hm (x :: xs) (y :: ys) c).2.2
    simp only [List.headD_cons] at hk ⊢
    rw [ColumnsFit]
    refine and_congr_right fun ht => ?_
    exact i2.trans (by by_cases hb : B ≤ x + y + c <;> simp [hk ht, hb])

theorem rawRest_inRange {m B : Nat} (hB : 2 ≤ B) (R S : List Nat) (c : Nat) (hc : c ≤ 1) : InRange B (rawRest m B R S c) := by
  induction R, S, c using rawRest.induct m B with
  | case1 => simp [rawRest]; exact .nil B
  | case2 c h => simp [rawRest, h]; exact .cons (by omega) (.nil B)
  | case3 x xs c ih => rw [rawRest]; exact .cons (Nat.mod_lt _ (by omega)) (ih (colCarry_le _ _ _ _ _))
  | case4 y ys c ih => rw [rawRest]; exact .cons (Nat.mod_lt _ (by omega)) (ih (colCarry_le _ _ _ _ _))
  | case5 x xs y ys c ih => rw [rawRest]; exact .cons (Nat.mod_lt _ (by omega)) (ih (colCarry_le _ _ _ _ _))

/-- Numbers of one sign with arbitrary digits of the type: += always returns a number whose digits are below the base and which is
at most the sum; it is the sum exactly if every column stays below twice the base. -/
theorem C119_add {w mx : Nat} (hw : IsWidth w) (h1 : 1 ≤ mx) (h2 : 2 * mx + 1 < 2 ^ w) {env : Env} (hm : env.Ample) {x : Bignum} {r : Rhs}
    (hs : Signed x.desc) (hd : (r.get x).desc = x.desc) (hx : InRange (2 ^ w) x.digits) (hy : InRange (2 ^ w) (r.get x).digits) :
    ∃ z : Bignum, Evaluates (fun n => x.addAssign (.custom w mx) env n r) (.ok z) ∧ z.desc = x.desc ∧ InRange (mx + 1) z.digits ∧
      natOf (mx + 1) z.digits ≤ natOf (mx + 1) x.digits + natOf (mx + 1) (r.get x).digits ∧
      (natOf (mx + 1) z.digits = natOf (mx + 1) x.digits + natOf (mx + 1) (r.get x).digits ↔
        ColumnsFit (mx + 1) x.digits (r.get x).digits 0) := by
  refine ⟨⟨x.desc, rawFull (2 ^ w) (mx + 1) x.digits (r.get x).digits 0⟩, ⟨max x.digits.length (r.get x).digits.length + 1, fun n hn => ?_⟩, rfl, ?_, ?_⟩
  · simp only
    rw [addAssign_signed hs, addTry_same hs hd, absAdd_raw hw h1 h2 hm hx (by rw [Rhs.src_get]; exact hy) (by rw [Rhs.src_get]; omega), ok_bind, Rhs.src_get]
    rfl
  · simp only [rawFull]
    split
    · exact .cons (by omega) (.nil _)
    · exact rawRest_inRange (by omega) _ _ _ (by omega)
  · simp only [rawFull]
    split
    · rename_i he; simp [he.1, he.2, ColumnsFit]
    · exact rawRest_value (by omega) (by omega) _ _ _ (by omega)

example := C119_add (w := 32) (mx := 9) (.inr (.inr (.inl rfl))) (by decide) (by decide) Sample.ample (x := ⟨.pos, [12, 4]⟩) (r := .other ⟨.pos, [9, 30]⟩)
  (.inl rfl) rfl (by sample) (by sample)

/-- Adding a zero brings the digits of a number into range and keeps its value if no digit exceeds twice the largest digit. -/
theorem C119_repair {w mx : Nat} (hw : IsWidth w) (h1 : 1 ≤ mx) (h2 : 2 * mx + 1 < 2 ^ w) {env : Env} (hm : env.Ample) {x z : Bignum}
    (hs : Signed x.desc) (hx : ∀ d ∈ x.digits, d ≤ 2 * mx) (hz : z.desc = x.desc) (hz0 : z.digits = [] ∨ z.digits = [0]) :
    ∃ y : Bignum, Evaluates (fun n => x.addAssign (.custom w mx) env n (.other z)) (.ok y) ∧ InRange (mx + 1) y.digits ∧
      y.toInt (.custom w mx) = x.toInt (.custom w mx) := by
  have fit : ∀ (R : List Nat) (c : Nat), c ≤ 1 → (∀ d ∈ R, d ≤ 2 * mx) → ColumnsFit (mx + 1) R [] c := by
    intro R
    induction R with
    | nil => intro c _ _; rw [ColumnsFit]; trivial
    | cons d R ih =>
      intro c hc hR
      have := hR d (by simp)
      rw [ColumnsFit]
      exact ⟨by omega, ih _ (by split <;> omega) fun e he => hR e (by simp [he])⟩
  have hfit : ColumnsFit (mx + 1) x.digits z.digits 0 := by
    rcases hz0 with e | e
    · rw [e]; exact fit _ _ (by omega) hx
    · rw [e]
      cases hxd : x.digits with
      | nil => simp [ColumnsFit]
      | cons d R =>
        have := hx d (by simp [hxd])
        rw [ColumnsFit]
        exact ⟨by omega, fit R _ (by split <;> omega) fun e he => hx e (by simp [hxd, he])⟩
  obtain ⟨y, e1, e2, e3, -, e4⟩ := C119_add hw h1 h2 hm (r := .other z) hs hz (fun d hd => by have := hx d hd; omega)
    (by rcases hz0 with e | e <;> intro d hd <;> simp [Rhs.get, e] at hd; omega)
  refine ⟨y, e1, e3, ?_⟩
  have hv := e4.2 hfit
  have hzv : natOf (mx + 1) z.digits = 0 := by rcases hz0 with e | e <;> simp [e]
  have hv' : natOf (mx + 1) y.digits = natOf (mx + 1) x.digits := by
    rw [hv]; show _ + natOf (mx + 1) z.digits = _; rw [hzv]; rfl
  rw [toInt_of_signed hs, toInt_of_signed (b := y) (by rw [e2]; exact hs), e2]
  have hv'' : natOf (Limits.custom w mx).base y.digits = natOf (Limits.custom w mx).base x.digits := hv'
  rw [hv'']

example := C119_repair (w := 32) (mx := 9) (.inr (.inr (.inl rfl))) (by decide) (by decide) Sample.ample (x := ⟨.pos, [12, 18]⟩) (z := ⟨.pos, [0]⟩)
  (.inl rfl) (by decide) rfl (.inr rfl)

/-- With larger digits value is lost; subtraction and comparison already fail for digits just beyond the base: in base 10 the number
with the only digit 20 becomes 10 by adding 0, that with the digit 15 becomes 23 by subtracting 2 and is less than 11. -/
theorem C119_beyond :
    (⟨.pos, [20]⟩ : Bignum).addAssign .base10 releaseEnv 10 (.other ⟨.pos, [0]⟩) = .ok ⟨.pos, [0, 1]⟩ ∧
    (⟨.pos, [15]⟩ : Bignum).subAssign .base10 releaseEnv 10 (.other ⟨.pos, [2]⟩) = .ok ⟨.pos, [23]⟩ ∧
    (⟨.pos, [15]⟩ : Bignum).lt ⟨.pos, [1, 1]⟩ = .ok true := ⟨rfl, rfl, rfl⟩

/-- Digits beyond the base that add up exactly, and digits that do not. -/
example : IsWidth 32 ∧ (1 ≤ 9 ∧ 2 * 9 + 1 < 2 ^ 32) ∧ Limits.base10 = .custom 32 9 ∧
    ColumnsFit 10 [12, 7] [6, 11] 0 ∧ ¬ ColumnsFit 10 [12, 7] [8, 0] 0 ∧
    (⟨.neg, [12, 7]⟩ : Bignum).addAssign .base10 releaseEnv 10 (.other ⟨.neg, [6, 11]⟩) = .ok ⟨.neg, [8, 9, 1]⟩ :=
  ⟨.inr (.inr (.inl rfl)), by norm_num, rfl, by simp [ColumnsFit], by simp [ColumnsFit], rfl⟩

end BN
