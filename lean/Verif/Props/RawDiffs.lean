import Verif.Lemmas.Harmless
import Verif.Props.Subtraction
import Mathlib.Tactic.Linarith
/-
Differences of numbers with digits beyond the base: C159.
-/
namespace BN

/-! ### One column -/

/-- A column of a difference in a type of `m` values. -/
def colDiff (m o i r : Nat) : Nat := (o + (m - (i + r))) % m

theorem colDiff_two {m o i r : Nat} (hi : i < m) (hr : r ≤ 1) (hm : 1 < m) : ((o + (m - r)) % m + (m - i)) % m = colDiff m o i r := by
  unfold colDiff
  rw [Nat.mod_add_mod, show o + (m - r) + (m - i) = o + (m - (i + r)) + m by omega, Nat.add_mod_right]

theorem subDigit_raw {w mx : Nat} (hw : IsWidth w) (h1 : 1 ≤ mx) (h2 : 2 * mx + 1 < 2 ^ w) {o i r : Nat} (ho : o < 2 ^ w) (hi : i < 2 ^ w) (hr : r ≤ 1) :
    subDigit (.custom w mx) o ((Limits.custom w mx).dbl i) ((Limits.custom w mx).dbl r) =
      .ok (if mx < colDiff (2 ^ w) o i r then (colDiff (2 ^ w) o i r + (mx + 1)) % 2 ^ w else colDiff (2 ^ w) o i r,
        (Limits.custom w mx).dbl (if mx < colDiff (2 ^ w) o i r then 1 else 0)) := by
  have hp : 0 < 2 ^ w := by positivity
  have ht : colDiff (2 ^ w) o i r < 2 ^ w := Nat.mod_lt _ hp
  have e1 : Val.bin .sub ((Limits.custom w mx).digit o) ((Limits.custom w mx).dbl r) = .ok ⟨.bni w, ((o + (2 ^ w - r)) % 2 ^ w : Nat)⟩ := vbin_raw_sub hw ho (by omega)
  have e2 : Val.bin .sub (⟨.bni w, ((o + (2 ^ w - r)) % 2 ^ w : Nat)⟩ : Val) ((Limits.custom w mx).dbl i) = .ok ⟨.bni w, (colDiff (2 ^ w) o i r : Nat)⟩ := by
    have := vbin_raw_sub hw (t := .bni w) (Nat.mod_lt (o + (2 ^ w - r)) hp) hi
    rw [colDiff_two hi hr (by omega)] at this
    exact this
  unfold subDigit
  simp only [e1, e2, ok_bind]
  have e3 : (Val.conv (Limits.custom w mx).double ⟨.bni w, (colDiff (2 ^ w) o i r : Nat)⟩) = ⟨.bni w, (colDiff (2 ^ w) o i r : Nat)⟩ := raw_conv ht
  have e4 : (Limits.custom w mx).toDouble ((Limits.custom w mx).maxLimit) = ⟨.bni w, (mx : Nat)⟩ := (raw_const (show mx < 2 ^ w by omega)).1
  have e5 : (Limits.custom w mx).toDouble 1 = ⟨.bni w, (1 : Nat)⟩ := (raw_const (show 1 < 2 ^ w by omega)).1
  have e6 : (Limits.custom w mx).toDouble 0 = ⟨.bni w, (0 : Nat)⟩ := (raw_const (show 0 < 2 ^ w by omega)).1
  rw [e3, e4]
  have e7 : Val.cmp .lt ⟨.bni w, (mx : Nat)⟩ ⟨.bni w, (colDiff (2 ^ w) o i r : Nat)⟩ = decide (mx < colDiff (2 ^ w) o i r) :=
    (C51_comparisons hw (show mx < 2 ^ w by omega) ht).2.2.2.2.1
  rw [e7, e5, e6]
  generalize colDiff (2 ^ w) o i r = t at *
  by_cases hc : mx < t
  · have e8 := vbin_raw_add hw (t := .bni w) ht (show mx < 2 ^ w by omega)
    have e9 := vbin_raw_add hw (t := .bni w) (Nat.mod_lt (t + mx) hp) (show 1 < 2 ^ w by omega)
    rw [Nat.mod_add_mod] at e9
    rw [if_pos (by simpa using hc), if_pos hc, if_pos hc, e8, ok_bind, e9, ok_bind, raw_store (Nat.mod_lt _ hp)]
    rfl
  · rw [if_neg (by simpa using hc), if_neg hc, if_neg hc, raw_store ht]
    rfl

/-! ### The loop -/

/-- Digits of a difference of sequences of arbitrary digits, with borrow `r`. -/
def rawDiff (m B : Nat) : List Nat → List Nat → Nat → List Nat
  | [], _, _ => []
  | x :: xs, S, r =>
    (if B ≤ colDiff m x (S.headD 0) r then (colDiff m x (S.headD 0) r + B) % m else colDiff m x (S.headD 0) r) ::
      rawDiff m B xs S.tail (if B ≤ colDiff m x (S.headD 0) r then 1 else 0)

theorem subBody_raw {w mx : Nat} (hw : IsWidth w) (h1 : 1 ≤ mx) (h2 : 2 * mx + 1 < 2 ^ w) (src : Src) (P : List Nat) (x : Nat) (R : List Nat) {b : Nat}
    (hb : b ≤ 1) (hR : InRange (2 ^ w) (x :: R)) (hS : InRange (2 ^ w) (src.suffix P (x :: R))) :
    let t := colDiff (2 ^ w) x ((src.suffix P (x :: R)).headD 0) b
    let d := if mx + 1 ≤ t then (t + (mx + 1)) % 2 ^ w else t
    subBody (.custom w mx) src ⟨P ++ x :: R, P.length, P.length, (Limits.custom w mx).dbl b⟩ =
      .ok (⟨(P ++ [d]) ++ R, (P ++ [d]).length, (P ++ [d]).length, (Limits.custom w mx).dbl (if mx + 1 ≤ t then 1 else 0)⟩,
        decide (R = []) && decide ((src.suffix P (x :: R)).tail = [])) := by
  intro t d
  have hp : 0 < 2 ^ w := by positivity
  have hin : digitOrZero (.custom w mx) (src.get (P ++ x :: R)) P.length = .ok ((Limits.custom w mx).dbl ((src.suffix P (x :: R)).headD 0)) := by
    cases src with
    | other l => exact digitOrZero_raw l P.length hS
    | self =>
      have e : (P ++ x :: R).drop P.length = x :: R := by simp
      have := digitOrZero_raw (w := w) (mx := mx) (P ++ x :: R) P.length (by rw [e]; exact hR)
      rw [e] at this
      exact this
  unfold subBody
  simp only
  rw [hin]
  simp only [ok_bind]
  rw [rd_eq (by simp)]
  simp only [List.getElem_append_right (Nat.le_refl _), Nat.sub_self, List.getElem_cons_zero, ok_bind]
  rw [subDigit_raw hw h1 h2 hR.head (raw_headD hp hS) hb]
  simp only [ok_bind]
  rw [Vec.wr, if_pos (by simp)]
  simp only [ok_bind, List.set_append_right _ _ (Nat.le_refl _), Nat.sub_self, List.set_cons_zero]
  have e1 : (P ++ [d]) ++ R = P ++ d :: R := by simp
  have e2 : (P ++ [d]).length = P.length + 1 := by simp
  rw [e1, e2]
  have e3 : (decide (P.length + 1 = (P ++ d :: R).length)) = decide (R = []) := by
    rw [decide_eq_decide]; simp
  show Except.ok ((⟨P ++ d :: R, _, _, _⟩ : SubSt), decide (P.length + 1 = (P ++ d :: R).length) &&
    decide ((src.get (P ++ d :: R)).length ≤ P.length + 1)) = _
  rw [e3]
  congr 2
  cases src with
  | other l =>
    congr 1
    show decide (l.length ≤ P.length + 1) = decide ((l.drop P.length).tail = [])
    rw [decide_eq_decide]; simp
  | self =>
    show (decide (R = []) && decide ((P ++ d :: R).length ≤ P.length + 1)) = (decide (R = []) && decide (R = []))
    by_cases hR0 : R = [] <;> simp [hR0]

theorem subLoop_raw {w mx : Nat} (hw : IsWidth w) (h1 : 1 ≤ mx) (h2 : 2 * mx + 1 < 2 ^ w) (src : Src) :
    ∀ (fuel : Nat) (P R : List Nat) (b : Nat), b ≤ 1 → InRange (2 ^ w) R → InRange (2 ^ w) (src.suffix P R) → R.length < fuel →
    R ≠ [] → (src.suffix P R).length ≤ R.length →
      ∃ s, loopForever (subBody (.custom w mx) src) fuel ⟨P ++ R, P.length, P.length, (Limits.custom w mx).dbl b⟩ = .ok s ∧
        s.larger = P ++ rawDiff (2 ^ w) (mx + 1) R (src.suffix P R) b
  | 0, _, _, _, _, _, _, hf => by omega
  | fuel + 1, P, [], b, hb, hR, hS, hf => fun h => absurd rfl h
  | fuel + 1, P, x :: R, b, hb, hR, hS, hf => by
    have hstep := suffix_step src P (x :: R)
    simp only [List.tail_cons] at hstep
    rw [loopForever, subBody_raw hw h1 h2 src P x R hb hR hS]
    simp only [ok_bind]
    have ih := fun d => subLoop_raw hw h1 h2 src fuel (P ++ [d]) R
      (if mx + 1 ≤ colDiff (2 ^ w) x ((src.suffix P (x :: R)).headD 0) b then 1 else 0) (by split <;> omega) hR.tail
      (by rw [hstep]; exact hS.tl) (by simp only [List.length_cons] at hf; omega)
    simp only [hstep] at ih
    set S := src.suffix P (x :: R) with hSdef
    intro _ hlen
    by_cases hbrk : R = [] ∧ S.tail = []
    · rw [if_pos (by simp [hbrk])]
      refine ⟨_, rfl, ?_⟩
      simp [hbrk.1, rawDiff]
    · rw [if_neg (by simpa using hbrk)]
      have hRne : R ≠ [] := by
        rintro rfl
        apply hbrk
        refine ⟨rfl, ?_⟩
        apply List.length_eq_zero_iff.1
        simp only [List.length_tail, List.length_cons, List.length_nil] at *; omega
      obtain ⟨s, hs, ho⟩ := ih _ hRne (by simp only [List.length_tail, List.length_cons] at *; omega)
      refine ⟨s, hs, ?_⟩
      rw [ho, rawDiff]; simp

theorem absSub_raw {w mx : Nat} (hw : IsWidth w) (h1 : 1 ≤ mx) (h2 : 2 * mx + 1 < 2 ^ w) {env : Env} (hd : env.debug = false) {fuel : Nat} {a : List Nat} {src : Src}
    (hR : InRange (2 ^ w) a) (hS : InRange (2 ^ w) (src.get a)) (hne : a ≠ []) (hlen : (src.get a).length ≤ a.length) (hf : a.length < fuel) :
    absSub (.custom w mx) env fuel a src = .ok (trim (rawDiff (2 ^ w) (mx + 1) a (src.get a) 0)) := by
  have e : src.suffix [] a = src.get a := by cases src <;> simp [Src.suffix, Src.get]
  obtain ⟨s, hs, ho⟩ := subLoop_raw hw h1 h2 src fuel [] a 0 (by omega) hR (by rwa [e]) hf hne (by rwa [e])
  rw [e] at ho
  have hchk : subDebugCheck env a (src.get a) = .ok () := by rw [subDebugCheck_eq, if_neg (by simp [hd])]
  unfold absSub
  simp only [List.nil_append, List.length_nil] at hs ho
  have e0 : (Limits.custom w mx).toDouble 0 = (Limits.custom w mx).dbl 0 := (raw_const (show 0 < 2 ^ w by positivity)).1
  rw [hchk, e0, ok_bind, hs, ok_bind, ho, popZeros_eq]

/-! ### Values -/

/-- Every column difference `x - y - borrow` is at least `-B` and less than `m - B`; the next column lends if it is negative, or not below `B`. -/
def DiffsFit (m B : Nat) : List Nat → List Nat → Nat → Prop
  | [], _, _ => True
  | x :: xs, S, r => S.headD 0 + r ≤ x + B ∧ x + B < m + S.headD 0 + r ∧
      DiffsFit m B xs S.tail (if x < S.headD 0 + r ∨ B + S.headD 0 + r ≤ x then 1 else 0)

/-- Whether the first column beyond the number would have to lend. -/
def lastBorrow (B : Nat) : List Nat → List Nat → Nat → Nat
  | [], _, r => r
  | x :: xs, S, r => lastBorrow B xs S.tail (if x < S.headD 0 + r ∨ B + S.headD 0 + r ≤ x then 1 else 0)

/-- Every column difference is at least `-B` and less than `B`. -/
def DiffsSmall (B : Nat) : List Nat → List Nat → Nat → Prop
  | [], _, _ => True
  | x :: xs, S, r => S.headD 0 + r ≤ x + B ∧ x < B + S.headD 0 + r ∧ DiffsSmall B xs S.tail (if x < S.headD 0 + r then 1 else 0)

theorem DiffsSmall.fit {m B : Nat} (hm : 2 * B ≤ m) : ∀ {R S : List Nat} {r : Nat}, DiffsSmall B R S r → DiffsFit m B R S r
  | [], _, _, _ => trivial
  | x :: R, S, r, ⟨h1, h2, h3⟩ => by
    refine ⟨h1, by omega, ?_⟩
    have : (x < S.headD 0 + r ∨ B + S.headD 0 + r ≤ x) ↔ x < S.headD 0 + r := or_iff_left (by omega)
    simp only [this]
    exact h3.fit hm

/-- The three cases of a column. -/
theorem colDiff_cases {m B x y r : Nat} (hm : 2 * B ≤ m) (hx : x < m) (hy : y < m) (hr : r ≤ 1) (h1 : y + r ≤ x + B) (h2 : x + B < m + y + r) (hB : 2 ≤ B) :
    let t := colDiff m x y r
    (B ≤ t ↔ x < y + r ∨ B + y + r ≤ x) ∧
    (if B ≤ t then (t + B) % m else t) + y + r = x + B * (if B ≤ t then 1 else 0) := by
  intro t
  have ht : t = if x < y + r then x + m - (y + r) else x - (y + r) := by
    show (x + (m - (y + r))) % m = _
    split
    · rw [Nat.mod_eq_of_lt (by omega)]; omega
    · rw [show x + (m - (y + r)) = (x - (y + r)) + m by omega, Nat.add_mod_right, Nat.mod_eq_of_lt (by omega)]
  by_cases hlt : x < y + r
  · rw [if_pos hlt] at ht
    have hb : B ≤ t := by omega
    refine ⟨by simp [hb, hlt], ?_⟩
    rw [if_pos hb, if_pos hb]
    rcases Nat.eq_or_lt_of_le h1 with e | e
    · rw [show t + B = m by omega, Nat.mod_self]; omega
    · rw [show t + B = (x + B - (y + r)) + m by omega, Nat.add_mod_right, Nat.mod_eq_of_lt (by omega)]; omega
  · rw [if_neg hlt] at ht
    refine ⟨by rw [ht]; omega, ?_⟩
    by_cases hb : B ≤ t
    · rw [if_pos hb, if_pos hb, Nat.mod_eq_of_lt (by omega)]; omega
    · rw [if_neg hb, if_neg hb]; omega

theorem rawDiff_value {m B : Nat} (hB : 2 ≤ B) (hm : 2 * B ≤ m) : ∀ (R S : List Nat) (r : Nat), r ≤ 1 → InRange m R → InRange m S → S.length ≤ R.length →
    DiffsFit m B R S r → natOf B (rawDiff m B R S r) + natOf B S + r = natOf B R + B ^ R.length * lastBorrow B R S r
  | [], S, r, _, _, _, hl, _ => by
    have : S = [] := List.length_eq_zero_iff.1 (by simpa using hl)
    simp [this, rawDiff, lastBorrow]
  | x :: R, S, r, hr, hR, hS, hl, ⟨h1, h2, h3⟩ => by
    obtain ⟨c1, c2⟩ := colDiff_cases (m := m) hm hR.head (raw_headD (by omega) hS) hr h1 h2 hB
    have ih := rawDiff_value hB hm R S.tail (if x < S.headD 0 + r ∨ B + S.headD 0 + r ≤ x then 1 else 0) (by split <;> omega) hR.tail hS.tl
      (by simp only [List.length_tail, List.length_cons] at *; omega) h3
    rw [rawDiff, lastBorrow, natOf_cons, natOf_cons, natOf_headD_tail B S, List.length_cons, Nat.pow_succ]
    simp only [c1] at c2 ⊢
    generalize natOf B (rawDiff m B R S.tail _) = V at *
    generalize lastBorrow B R S.tail _ = l at *
    generalize (if x < S.headD 0 + r ∨ B + S.headD 0 + r ≤ x then 1 else 0) = k at *
    generalize (if x < S.headD 0 + r ∨ B + S.headD 0 + r ≤ x then (colDiff m x (S.headD 0) r + B) % m else colDiff m x (S.headD 0) r) = d at *
    generalize natOf B S.tail = s at *
    generalize natOf B R = q at *
    have e := congrArg (B * ·) ih
    simp only [Nat.mul_add] at e
    have e2 : B ^ R.length * B * l = B * (B ^ R.length * l) := by ring
    rw [e2]
    generalize B * (B ^ R.length * l) = z at *
    omega

theorem rawDiff_inRange {m B : Nat} (hm : 0 < m) : ∀ (R S : List Nat) (r : Nat), InRange m (rawDiff m B R S r)
  | [], _, _ => .nil _
  | x :: R, S, r => by
    rw [rawDiff]
    refine .cons ?_ (rawDiff_inRange hm R _ _)
    split
    · exact Nat.mod_lt _ hm
    · exact Nat.mod_lt _ hm

theorem rawDiff_small {m B : Nat} (hB : 2 ≤ B) (hm : 2 * B ≤ m) : ∀ (R S : List Nat) (r : Nat), r ≤ 1 → InRange m R → InRange m S → DiffsSmall B R S r →
    InRange B (rawDiff m B R S r)
  | [], _, _, _, _, _, _ => .nil _
  | x :: R, S, r, hr, hR, hS, ⟨h1, h2, h3⟩ => by
    obtain ⟨c1, c2⟩ := colDiff_cases (m := m) hm hR.head (raw_headD (by omega) hS) hr h1 (show x + B < m + S.headD 0 + r by omega) hB
    have hor : (x < S.headD 0 + r ∨ B + S.headD 0 + r ≤ x) ↔ x < S.headD 0 + r := or_iff_left (by omega)
    rw [rawDiff]
    simp only [c1, hor] at c2 ⊢
    refine .cons ?_ (rawDiff_small hB hm R S.tail _ (by split <;> omega) hR.tail hS.tl h3)
    split
    · next h => rw [if_pos h, if_pos h] at c2; omega
    · next h => rw [if_neg h, if_neg h] at c2; omega

/-! ### Operators -/

/-- `a` comes after `b` or is the same: it is longer, or as long and not less when both are read in base `2 ^ w`. -/
def RawGe (w : Nat) (a b : List Nat) : Prop := b.length < a.length ∨ (a.length = b.length ∧ natOf (2 ^ w) b ≤ natOf (2 ^ w) a)

instance (w : Nat) (a b : List Nat) : Decidable (RawGe w a b) := inferInstanceAs (Decidable (_ ∨ _))

/-- `>=` of non-negative numbers with arbitrary digits of the type orders by length, then as numbers in base `2 ^ w`, not by value. -/
theorem C159_order {w : Nat} {x y : Bignum} (hx : x.desc = .pos) (hy : y.desc = .pos) (ix : InRange (2 ^ w) x.digits) (iy : InRange (2 ^ w) y.digits) :
    x.ge y = .ok (decide (RawGe w x.digits y.digits)) := by
  unfold Bignum.ge
  rw [hx, hy, if_neg (by simp), if_neg (by simp), if_neg (by simp), absGe_eq ix iy]
  rfl

example := C159_order (w := 32) (x := ⟨.pos, [15]⟩) (y := ⟨.pos, [1, 1]⟩) rfl rfl (by sample) (by sample)

section
variable {w mx : Nat} (hw : IsWidth w) (h1 : 1 ≤ mx) (h2 : 2 * mx + 1 < 2 ^ w) {env : Env} (hm : env.Ample) (hd : env.debug = false)
include hw h1 h2 hm hd

theorem magDiff_raw {x : Bignum} {r : Rhs} (t : Desc) (ix : InRange (2 ^ w) x.digits) (iy : InRange (2 ^ w) (r.get x).digits)
    (hne : ¬ (x.digits = [] ∧ (r.get x).digits = [])) {n : Nat} (hn : max x.digits.length (r.get x).digits.length < n) :
    magDiff (.custom w mx) env n x r t =
      if RawGe w x.digits (r.get x).digits then .ok ⟨x.desc, trim (rawDiff (2 ^ w) (mx + 1) x.digits (r.get x).digits 0)⟩
      else .ok ⟨t, trim (rawDiff (2 ^ w) (mx + 1) (r.get x).digits x.digits 0)⟩ := by
  unfold magDiff
  rw [absGe_eq ix iy, ok_bind]
  change (if decide (RawGe w x.digits (r.get x).digits) = true then _ else _) = _
  by_cases hg : RawGe w x.digits (r.get x).digits
  · rw [if_pos hg, if_pos (decide_eq_true hg)]
    have hx0 : x.digits ≠ [] := fun h => hne ⟨h, by
      rcases hg with hg | hg
      · rw [h] at hg; simp at hg
      · exact List.length_eq_zero_iff.1 (by rw [← hg.1, h]; rfl)⟩
    rw [absSub_raw hw h1 h2 hd ix (by rw [Rhs.src_get]; exact iy) hx0 (by rw [Rhs.src_get]; rcases hg with hg | hg <;> omega) (by omega), ok_bind, Rhs.src_get]
  · rw [if_neg hg, if_neg (by rw [decide_eq_true_iff]; exact hg)]
    have hlen : x.digits.length ≤ (r.get x).digits.length := by
      by_contra h
      exact hg (.inl (by omega))
    have hy0 : (r.get x).digits ≠ [] := fun h => hne ⟨List.length_eq_zero_iff.1 (by rw [h] at hlen; simpa using hlen), h⟩
    have hc : (r.get x).copy env = .ok (r.get x) := copy_ok hm _
    rw [hc, ok_bind, absSub_raw (src := .other x.digits) hw h1 h2 hd iy ix hy0 hlen (by omega), ok_bind]
    rfl

/-- `x -= y` of numbers of one sign with arbitrary digits of the type: the number that comes later in that order loses the other. Where every
column difference is at least minus the base and less than `2 ^ w` minus the base, the value is right but for a borrow from beyond the last
digit, which is not paid back. -/
theorem C159_sub {x : Bignum} {r : Rhs} (hs : Signed x.desc) (hsame : (r.get x).desc = x.desc) (ix : InRange (2 ^ w) x.digits)
    (iy : InRange (2 ^ w) (r.get x).digits) (hne : ¬ (x.digits = [] ∧ (r.get x).digits = [])) :
    ∃ z : Bignum, Evaluates (fun n => x.subAssign (.custom w mx) env n r) (.ok z) ∧ InRange (2 ^ w) z.digits ∧ NoLeadingZero z.digits ∧
      (RawGe w x.digits (r.get x).digits → z.desc = x.desc ∧ (DiffsFit (2 ^ w) (mx + 1) x.digits (r.get x).digits 0 →
        natOf (mx + 1) z.digits + natOf (mx + 1) (r.get x).digits =
          natOf (mx + 1) x.digits + (mx + 1) ^ x.size * lastBorrow (mx + 1) x.digits (r.get x).digits 0)) ∧
      (¬ RawGe w x.digits (r.get x).digits → z.desc = x.desc.flip ∧ (DiffsFit (2 ^ w) (mx + 1) (r.get x).digits x.digits 0 →
        natOf (mx + 1) z.digits + natOf (mx + 1) x.digits =
          natOf (mx + 1) (r.get x).digits + (mx + 1) ^ (r.get x).size * lastBorrow (mx + 1) (r.get x).digits x.digits 0)) := by
  have hp : 0 < 2 ^ w := by positivity
  have key := fun n hn => magDiff_raw hw h1 h2 hm hd x.desc.flip ix iy hne (n := n) hn
  by_cases hg : RawGe w x.digits (r.get x).digits
  · refine ⟨⟨x.desc, trim (rawDiff (2 ^ w) (mx + 1) x.digits (r.get x).digits 0)⟩, ⟨max x.digits.length (r.get x).digits.length + 1, fun n hn => ?_⟩,
      trim_inRange (rawDiff_inRange hp _ _ _), trim_noLeadingZero _, fun _ => ⟨rfl, fun hf => ?_⟩, fun h => absurd hg h⟩
    · simp only
      rw [subAssign_signed hs, subTry_same hs hsame, key n (by omega), if_pos hg]
      rfl
    · have := rawDiff_value (show 2 ≤ mx + 1 by omega) (show 2 * (mx + 1) ≤ 2 ^ w by omega) _ _ 0 (by omega) ix iy (by rcases hg with h | h <;> omega) hf
      simp only [natOf_trim]
      exact this
  · refine ⟨⟨x.desc.flip, trim (rawDiff (2 ^ w) (mx + 1) (r.get x).digits x.digits 0)⟩, ⟨max x.digits.length (r.get x).digits.length + 1, fun n hn => ?_⟩,
      trim_inRange (rawDiff_inRange hp _ _ _), trim_noLeadingZero _, fun h => absurd h hg, fun _ => ⟨rfl, fun hf => ?_⟩⟩
    · simp only
      rw [subAssign_signed hs, subTry_same hs hsame, key n (by omega), if_neg hg]
      rfl
    · have := rawDiff_value (show 2 ≤ mx + 1 by omega) (show 2 * (mx + 1) ≤ 2 ^ w by omega) _ _ 0 (by omega) iy ix
        (by by_contra h; exact hg (.inl (by omega))) hf
      simp only [natOf_trim]
      exact this

/-- Where all column differences are between minus the base and the base, and the number that comes later is not the lesser one, the difference
is right and its digits are below the base. -/
theorem C159_exact {x : Bignum} {r : Rhs} (hs : Signed x.desc) (hsame : (r.get x).desc = x.desc) (ix : InRange (2 ^ w) x.digits)
    (iy : InRange (2 ^ w) (r.get x).digits) (hne : ¬ (x.digits = [] ∧ (r.get x).digits = []))
    (hge : RawGe w x.digits (r.get x).digits → DiffsSmall (mx + 1) x.digits (r.get x).digits 0 ∧ natOf (mx + 1) (r.get x).digits ≤ natOf (mx + 1) x.digits)
    (hlt : ¬ RawGe w x.digits (r.get x).digits → DiffsSmall (mx + 1) (r.get x).digits x.digits 0 ∧ natOf (mx + 1) x.digits ≤ natOf (mx + 1) (r.get x).digits) :
    ∃ z : Bignum, Evaluates (fun n => x.subAssign (.custom w mx) env n r) (.ok z) ∧ WF (.custom w mx) z ∧
      z.toInt (.custom w mx) = x.toInt (.custom w mx) - (r.get x).toInt (.custom w mx) := by
  have hB : 2 ≤ mx + 1 := by omega
  have hM : 2 * (mx + 1) ≤ 2 ^ w := by omega
  have diff : ∀ a b : List Nat, InRange (2 ^ w) a → InRange (2 ^ w) b → b.length ≤ a.length → DiffsSmall (mx + 1) a b 0 →
      natOf (mx + 1) b ≤ natOf (mx + 1) a → InRange (mx + 1) (rawDiff (2 ^ w) (mx + 1) a b 0) ∧
      natOf (mx + 1) (rawDiff (2 ^ w) (mx + 1) a b 0) + natOf (mx + 1) b = natOf (mx + 1) a := by
    intro a b ia ib hl hsm hv
    have e1 := rawDiff_small hB hM a b 0 (by omega) ia ib hsm
    have e2 := rawDiff_value hB hM a b 0 (by omega) ia ib hl (hsm.fit hM)
    refine ⟨e1, ?_⟩
    have e3 := natOf_lt e1
    have e4 : (rawDiff (2 ^ w) (mx + 1) a b 0).length = a.length := by
      have : ∀ (R S : List Nat) (q : Nat), (rawDiff (2 ^ w) (mx + 1) R S q).length = R.length := fun R => by
        induction R with
        | nil => intro S q; rfl
        | cons x R ih => intro S q; rw [rawDiff, List.length_cons, ih, List.length_cons]
      exact this _ _ _
    rw [e4] at e3
    rcases Nat.eq_zero_or_pos (lastBorrow (mx + 1) a b 0) with h0 | h0
    · rw [h0] at e2; omega
    · exfalso
      have : (mx + 1) ^ a.length ≤ (mx + 1) ^ a.length * lastBorrow (mx + 1) a b 0 := Nat.le_mul_of_pos_right _ h0
      omega
  have hflip : Signed x.desc.flip := by rcases hs with h | h <;> rw [h] <;> simp [Signed, Desc.flip]
  have key := fun n hn => magDiff_raw hw h1 h2 hm hd x.desc.flip ix iy hne (n := n) hn
  have hy : Signed (r.get x).desc := hsame ▸ hs
  by_cases hg : RawGe w x.digits (r.get x).digits
  · obtain ⟨e1, e2⟩ := diff _ _ ix iy (by rcases hg with h | h <;> omega) (hge hg).1 (hge hg).2
    refine ⟨⟨x.desc, trim (rawDiff (2 ^ w) (mx + 1) x.digits (r.get x).digits 0)⟩, ⟨max x.digits.length (r.get x).digits.length + 1, fun n hn => ?_⟩,
      ⟨hs, trim_inRange e1, .inl (trim_noLeadingZero _)⟩, ?_⟩
    · simp only
      rw [subAssign_signed hs, subTry_same hs hsame, key n (by omega), if_pos hg]
      rfl
    · rw [toInt_of_signed hs, toInt_of_signed (b := ⟨x.desc, trim (rawDiff (2 ^ w) (mx + 1) x.digits (r.get x).digits 0)⟩) hs, toInt_of_signed hy, hsame]
      simp only [natOf_trim]
      change (if _ then ((natOf (mx + 1) _ : Nat) : Int) else -((natOf (mx + 1) _ : Nat) : Int)) = (if _ then ((natOf (mx + 1) _ : Nat) : Int) else -((natOf (mx + 1) _ : Nat) : Int)) - (if _ then ((natOf (mx + 1) _ : Nat) : Int) else -((natOf (mx + 1) _ : Nat) : Int))
      have e3 := congrArg (Nat.cast (R := Int)) e2
      push_cast at e3
      split <;> linarith
  · obtain ⟨e1, e2⟩ := diff _ _ iy ix (by by_contra h; exact hg (.inl (by omega))) (hlt hg).1 (hlt hg).2
    refine ⟨⟨x.desc.flip, trim (rawDiff (2 ^ w) (mx + 1) (r.get x).digits x.digits 0)⟩, ⟨max x.digits.length (r.get x).digits.length + 1, fun n hn => ?_⟩,
      ⟨hflip, trim_inRange e1, .inl (trim_noLeadingZero _)⟩, ?_⟩
    · simp only
      rw [subAssign_signed hs, subTry_same hs hsame, key n (by omega), if_neg hg]
      rfl
    · rw [toInt_of_signed hs, toInt_of_signed (b := ⟨x.desc.flip, trim (rawDiff (2 ^ w) (mx + 1) (r.get x).digits x.digits 0)⟩) hflip, toInt_of_signed hy, hsame]
      simp only [natOf_trim]
      change (if _ then ((natOf (mx + 1) _ : Nat) : Int) else -((natOf (mx + 1) _ : Nat) : Int)) = (if _ then ((natOf (mx + 1) _ : Nat) : Int) else -((natOf (mx + 1) _ : Nat) : Int)) - (if _ then ((natOf (mx + 1) _ : Nat) : Int) else -((natOf (mx + 1) _ : Nat) : Int))
      have e3 := congrArg (Nat.cast (R := Int)) e2
      push_cast at e3
      rcases hs with h | h <;> rw [h] <;> simp only [Desc.flip, if_true, reduceCtorEq, if_false] <;> linarith

/-- Adding a number of the other sign is subtracting that number with its sign turned, for any digits of the type. -/
theorem C159_opposite {x y : Bignum} (hs : Signed x.desc) (hopp : y.desc = x.desc.flip) (ix : InRange (2 ^ w) x.digits)
    (iy : InRange (2 ^ w) y.digits) (hne : ¬ (x.digits = [] ∧ y.digits = [])) :
    ∃ z : Bignum, Evaluates (fun n => x.addAssign (.custom w mx) env n (.other y)) (.ok z) ∧
      Evaluates (fun n => x.subAssign (.custom w mx) env n (.other ⟨x.desc, y.digits⟩)) (.ok z) := by
  have hy : Signed y.desc := by rw [hopp]; rcases hs with h | h <;> rw [h] <;> simp [Signed, Desc.flip]
  have hd' : y.desc ≠ x.desc := by rw [hopp]; rcases hs with h | h <;> rw [h] <;> simp [Desc.flip]
  have k1 := fun n hn => magDiff_raw hw h1 h2 hm hd (r := .other y) x.desc.flip ix iy hne (n := n) hn
  have k2 := fun n hn => magDiff_raw hw h1 h2 hm hd (r := .other ⟨x.desc, y.digits⟩) x.desc.flip ix iy hne (n := n) hn
  by_cases hg : RawGe w x.digits y.digits
  · refine ⟨⟨x.desc, trim (rawDiff (2 ^ w) (mx + 1) x.digits y.digits 0)⟩, ⟨max x.digits.length y.digits.length + 1, fun n hn => ?_⟩, ⟨max x.digits.length y.digits.length + 1, fun n hn => ?_⟩⟩
    · simp only
      rw [addAssign_signed hs, addTry_opp (r := .other y) hs hy hd', show ((Rhs.other y).get x).desc = x.desc.flip from hopp, k1 n (show max x.digits.length y.digits.length < n by omega), if_pos (by exact hg)]
      rfl
    · simp only
      rw [subAssign_signed hs, subTry_same hs rfl, k2 n (show max x.digits.length y.digits.length < n by omega), if_pos (by exact hg)]
      rfl
  · refine ⟨⟨x.desc.flip, trim (rawDiff (2 ^ w) (mx + 1) y.digits x.digits 0)⟩, ⟨max x.digits.length y.digits.length + 1, fun n hn => ?_⟩, ⟨max x.digits.length y.digits.length + 1, fun n hn => ?_⟩⟩
    · simp only
      rw [addAssign_signed hs, addTry_opp (r := .other y) hs hy hd', show ((Rhs.other y).get x).desc = x.desc.flip from hopp, k1 n (show max x.digits.length y.digits.length < n by omega), if_neg (by exact hg)]
      rfl
    · simp only
      rw [subAssign_signed hs, subTry_same hs rfl, k2 n (show max x.digits.length y.digits.length < n by omega), if_neg (by exact hg)]
      rfl

/-- `x -= x`, or subtracting a number with the same sign and digits, leaves no digits whatever the digits are. -/
theorem C159_self {x : Bignum} {r : Rhs} (hs : Signed x.desc) (hsame : r.get x = x) (ix : InRange (2 ^ w) x.digits) (hne : x.digits ≠ []) :
    Evaluates (fun n => x.subAssign (.custom w mx) env n r) (.ok ⟨x.desc, []⟩) := by
  have hself : ∀ a : List Nat, InRange (2 ^ w) a → trim (rawDiff (2 ^ w) (mx + 1) a a 0) = [] := by
    intro a
    induction a with
    | nil => intro _; rfl
    | cons d a ih =>
      intro ia
      have hd : d < 2 ^ w := ia d (by simp)
      have e : colDiff (2 ^ w) d d 0 = 0 := by
        unfold colDiff
        rw [show d + (2 ^ w - (d + 0)) = 2 ^ w by omega, Nat.mod_self]
      rw [rawDiff, List.headD_cons, e, if_neg (by omega), if_neg (by omega), List.tail_cons]
      have := ih fun q hq => ia q (by simp [hq])
      rw [trim_eq_nil_iff (B := mx + 1) (by omega)] at this ⊢
      rw [natOf_cons, this]; rfl
  refine ⟨x.digits.length + 1, fun n hn => ?_⟩
  simp only
  have iy : InRange (2 ^ w) (r.get x).digits := by rw [hsame]; exact ix
  rw [subAssign_signed hs, subTry_same hs (by rw [hsame]), magDiff_raw hw h1 h2 hm hd x.desc.flip ix iy (fun h => hne h.1) (by rw [hsame]; omega),
    if_pos (by rw [hsame]; exact .inr ⟨rfl, le_rfl⟩), hsame, hself _ ix]
  rfl

end

/-- 15 less 2 in base 10, where a borrow is lost. -/
example {env : Env} (hm : env.Ample) (hd : env.debug = false) :=
  C159_sub (w := 32) (mx := 9) (.inr (.inr (.inl rfl))) (by sample) (by sample) hm hd (x := ⟨.pos, [15]⟩) (r := .other ⟨.pos, [2]⟩) (by sample) rfl (by sample) (by sample) (by sample)
example : RawGe 32 [15] [2] ∧ DiffsFit (2 ^ 32) 10 [15] [2] 0 ∧ lastBorrow 10 [15] [2] 0 = 1 ∧
    (⟨.pos, [15]⟩ : Bignum).subAssign .base10 releaseEnv 10 (.other ⟨.pos, [2]⟩) = .ok ⟨.pos, [23]⟩ := ⟨by decide, by simp [DiffsFit], by simp [lastBorrow], rfl⟩

/-- 116 less 182 in base 10, both with digits beyond the base. -/
example {env : Env} (hm : env.Ample) (hd : env.debug = false) :=
  C159_exact (w := 32) (mx := 9) (.inr (.inr (.inl rfl))) (by sample) (by sample) hm hd (x := ⟨.neg, [6, 11]⟩) (r := .other ⟨.neg, [12, 17]⟩) (by sample) rfl (by sample) (by sample)
    (by sample) (fun h => absurd h (by decide)) (fun _ => ⟨by simp [DiffsSmall, Rhs.get], by decide⟩)
example : (⟨.neg, [6, 11]⟩ : Bignum).subAssign .base10 releaseEnv 10 (.other ⟨.neg, [12, 17]⟩) = .ok ⟨.pos, [6, 6]⟩ := rfl

/-- 182 and -116. -/
example {env : Env} (hm : env.Ample) (hd : env.debug = false) :=
  C159_opposite (w := 32) (mx := 9) (.inr (.inr (.inl rfl))) (by sample) (by sample) hm hd (x := ⟨.pos, [12, 17]⟩) (y := ⟨.neg, [6, 11]⟩) (by sample) rfl (by sample) (by sample) (by sample)

/-- Digits far beyond the base. -/
example {env : Env} (hm : env.Ample) (hd : env.debug = false) :=
  C159_self (w := 32) (mx := 9) (.inr (.inr (.inl rfl))) (by sample) (by sample) hm hd (x := ⟨.pos, [12345, 99]⟩) (r := .self) (by sample) rfl (by sample) (by sample)

end BN
