import Verif.Lemmas.NatOf
import Verif.Lemmas.CInt
/-
What the comparison loops compute.
-/
namespace BN

theorem rd_eq {v : List Nat} {i : Nat} (h : i < v.length) : Vec.rd v i = .ok v[i] := by
  simp [Vec.rd, h]

theorem rd_ub {v : List Nat} {i : Nat} (h : v.length ≤ i) : Vec.rd v i = .error (.ub .outOfBounds) := by
  simp [Vec.rd, h]

theorem eqLoop_eq (a b : List Nat) : ∀ n, n ≤ a.length → n ≤ b.length →
    eqLoop a b n = .ok (decide (a.take n = b.take n))
  | 0, _, _ => by simp [eqLoop]
  | n + 1, ha, hb => by
    rw [eqLoop, rd_eq (by omega), rd_eq (by omega)]
    simp only [ok_bind]
    rw [eqLoop_eq a b n (by omega) (by omega)]
    have e1 : a.take (n + 1) = a.take n ++ [a[n]] := by rw [List.take_append_getElem]
    have e2 : b.take (n + 1) = b.take n ++ [b[n]] := by rw [List.take_append_getElem]
    have hl : (a.take n).length = (b.take n).length := by simp; omega
    have e3 : a.take (n + 1) = b.take (n + 1) ↔ a.take n = b.take n ∧ a[n] = b[n] := by
      rw [e1, e2]
      constructor
      · intro h; have := List.append_inj h hl; simpa using this
      · rintro ⟨h1, h2⟩; rw [h1, h2]
    by_cases h : a[n] = b[n]
    · simp [h, e3]
    · simp [h, e3]

theorem absEq_eq (a b : List Nat) : absEq a b = .ok (decide (a = b)) := by
  unfold absEq
  split
  · rename_i h
    rw [decide_eq_false]
    rintro rfl; exact h rfl
  · rename_i h
    simp only [ne_eq, not_not] at h
    rw [eqLoop_eq a b _ (le_refl _) (by omega)]
    congr 1
    rw [List.take_length, h, List.take_length]

theorem gtLoop_eq (a b : List Nat) : ∀ n, n ≤ a.length → n ≤ b.length →
    gtLoop a b n = .ok (decide (∃ i < n, b.getD i 0 < a.getD i 0))
  | 0, _, _ => by simp [gtLoop]
  | n + 1, ha, hb => by
    rw [gtLoop, rd_eq (by omega), rd_eq (by omega)]
    simp only [ok_bind]
    rw [gtLoop_eq a b n (by omega) (by omega)]
    have e1 : a.getD n 0 = a[n] := by simp [List.getD, show n < a.length by omega]
    have e2 : b.getD n 0 = b[n] := by simp [List.getD, show n < b.length by omega]
    split
    · rename_i h
      congr 1; symm; rw [decide_eq_true_iff]
      exact ⟨n, by omega, by rw [e1, e2]; exact h⟩
    · rename_i h
      congr 1
      rw [decide_eq_decide]
      constructor
      · rintro ⟨i, hi, h'⟩; exact ⟨i, by omega, h'⟩
      · rintro ⟨i, hi, h'⟩
        refine ⟨i, ?_, h'⟩
        rcases Nat.lt_succ_iff_lt_or_eq.1 hi with h1 | rfl
        · exact h1
        · rw [e1, e2] at h'; omega

theorem ltLoop_eq (a b : List Nat) : ∀ n, ltLoop a b n = gtLoop b a n ∨ a.length < n ∨ b.length < n
  | 0 => .inl rfl
  | n + 1 => by
    by_cases h : n + 1 ≤ a.length ∧ n + 1 ≤ b.length
    · left
      rw [ltLoop, gtLoop, rd_eq (by omega), rd_eq (by omega)]
      rcases ltLoop_eq a b n with h1 | h1 | h1
      · simp [h1]
      · omega
      · omega
    · omega

theorem absGt_eq (a b : List Nat) : absGt a b = .ok (decide (b.length < a.length ∨
    (a.length = b.length ∧ ∃ i < a.length, b.getD i 0 < a.getD i 0))) := by
  unfold absGt
  split
  · rename_i h; congr 1; symm; rw [decide_eq_true_iff]; exact .inl h
  · split
    · rename_i h; congr 1; symm; rw [decide_eq_false_iff_not]; omega
    · rw [gtLoop_eq a b _ (le_refl _) (by omega)]
      congr 1; rw [decide_eq_decide]
      constructor
      · intro h; exact .inr ⟨by omega, h⟩
      · rintro (h | ⟨_, h⟩)
        · omega
        · exact h

theorem absLt_eq (a b : List Nat) : absLt a b = absGt b a := by
  unfold absLt absGt
  split
  · rfl
  · split
    · rfl
    · have e : a.length = b.length := by omega
      rcases ltLoop_eq a b a.length with h | h | h
      · rw [h, e]
      · omega
      · omega

theorem absGt_total (a b : List Nat) : ∃ r, absGt a b = .ok r := ⟨_, absGt_eq a b⟩

theorem natOf_take_succ (B : Nat) (a : List Nat) (n : Nat) (h : n < a.length) :
    natOf B (a.take (n + 1)) = natOf B (a.take n) + B ^ n * a[n] := by
  have e1 : a.take (n + 1) = a.take n ++ [a[n]] := by rw [List.take_append_getElem]
  have e2 : (a.take n).length = n := by simp; omega
  rw [e1, natOf_append, e2]; simp

theorem InRange.take {B : Nat} {l : List Nat} (h : InRange B l) (n : Nat) : InRange B (l.take n) :=
  fun x hx => h x (List.mem_of_mem_take hx)
theorem InRange.drop {B : Nat} {l : List Nat} (h : InRange B l) (n : Nat) : InRange B (l.drop n) :=
  fun x hx => h x (List.mem_of_mem_drop hx)

theorem natOf_take_lt {B : Nat} {a : List Nat} (h : InRange B a) (n : Nat) (hn : n ≤ a.length) :
    natOf B (a.take n) < B ^ n := by
  have := natOf_lt (h.take n)
  rwa [List.length_take, Nat.min_eq_left hn] at this

/-- Comparison of two numbers by their top digit. -/
theorem top_digit_cmp {P x y u v : Nat} (hu : u < P) (h : x < y) : u + P * x < v + P * y := by
  have : P * (x + 1) ≤ P * y := Nat.mul_le_mul_left _ h
  rw [Nat.mul_add] at this; omega

theorem geLoop_eq {B : Nat} {a b : List Nat} (hra : InRange B a) (hrb : InRange B b) :
    ∀ n, n ≤ a.length → n ≤ b.length →
    geLoop a b n = .ok (decide (natOf B (b.take n) ≤ natOf B (a.take n)))
  | 0, _, _ => by simp [geLoop]
  | n + 1, ha, hb => by
    rw [geLoop, rd_eq (by omega), rd_eq (by omega)]
    simp only [ok_bind]
    rw [geLoop_eq hra hrb n (by omega) (by omega), natOf_take_succ B a n (by omega), natOf_take_succ B b n (by omega)]
    have ua := natOf_take_lt hra n (by omega)
    have ub := natOf_take_lt hrb n (by omega)
    split
    · rename_i h
      congr 1; symm; rw [decide_eq_true_iff]
      exact Nat.le_of_lt (top_digit_cmp ub h)
    · split
      · rename_i h
        congr 1; symm; rw [decide_eq_false_iff_not]
        have := top_digit_cmp (v := natOf B (b.take n)) ua h
        omega
      · have e : a[n] = b[n] := by omega
        rw [e]; congr 1; rw [decide_eq_decide]; omega

theorem leLoop_eq {B : Nat} {a b : List Nat} (hra : InRange B a) (hrb : InRange B b) :
    ∀ n, n ≤ a.length → n ≤ b.length →
    leLoop a b n = .ok (decide (natOf B (a.take n) ≤ natOf B (b.take n)))
  | 0, _, _ => by simp [leLoop]
  | n + 1, ha, hb => by
    rw [leLoop, rd_eq (by omega), rd_eq (by omega)]
    simp only [ok_bind]
    rw [leLoop_eq hra hrb n (by omega) (by omega), natOf_take_succ B a n (by omega), natOf_take_succ B b n (by omega)]
    have ua := natOf_take_lt hra n (by omega)
    have ub := natOf_take_lt hrb n (by omega)
    split
    · rename_i h
      congr 1; symm; rw [decide_eq_true_iff]
      exact Nat.le_of_lt (top_digit_cmp ua h)
    · split
      · rename_i h
        congr 1; symm; rw [decide_eq_false_iff_not]
        have := top_digit_cmp (v := natOf B (a.take n)) ub h
        omega
      · have e : a[n] = b[n] := by omega
        rw [e]; congr 1; rw [decide_eq_decide]; omega

/-- `abs_val_is_ge` in terms of lengths and values. -/
theorem absGe_eq {B : Nat} {a b : List Nat} (hra : InRange B a) (hrb : InRange B b) :
    absGe a b = .ok (decide (b.length < a.length ∨ (a.length = b.length ∧ natOf B b ≤ natOf B a))) := by
  unfold absGe
  split
  · rename_i h; congr 1; symm; rw [decide_eq_true_iff]; exact .inl h
  · split
    · rename_i h; congr 1; symm; rw [decide_eq_false_iff_not]; omega
    · have e : a.length = b.length := by omega
      rw [geLoop_eq hra hrb _ (le_refl _) (by omega)]
      congr 1
      rw [List.take_length, e, List.take_length, decide_eq_decide]
      omega

theorem absLe_eq {B : Nat} {a b : List Nat} (hra : InRange B a) (hrb : InRange B b) :
    absLe a b = .ok (decide (a.length < b.length ∨ (a.length = b.length ∧ natOf B a ≤ natOf B b))) := by
  unfold absLe
  split
  · rename_i h; congr 1; symm; rw [decide_eq_true_iff]; exact .inl h
  · split
    · rename_i h; congr 1; symm; rw [decide_eq_false_iff_not]; omega
    · have e : a.length = b.length := by omega
      rw [leLoop_eq hra hrb _ (le_refl _) (by omega)]
      congr 1
      rw [List.take_length, e, List.take_length, decide_eq_decide]
      omega

/-- For lists without leading zeros the order is the order of values. -/
theorem absGe_normal {B : Nat} {a b : List Nat} (hB : 0 < B) (hra : InRange B a) (hrb : InRange B b)
    (ha : NoLeadingZero a) (hb : NoLeadingZero b) : absGe a b = .ok (decide (natOf B b ≤ natOf B a)) := by
  rw [absGe_eq hra hrb]; congr 1; rw [decide_eq_decide]
  constructor
  · rintro (h | ⟨_, h⟩)
    · exact Nat.le_of_lt (natOf_lt_of_length_lt hB hrb ha h)
    · exact h
  · intro h
    rcases Nat.lt_trichotomy a.length b.length with h1 | h1 | h1
    · have := natOf_lt_of_length_lt hB hra hb h1; omega
    · exact .inr ⟨h1, h⟩
    · exact .inl h1

theorem absLe_normal {B : Nat} {a b : List Nat} (hB : 0 < B) (hra : InRange B a) (hrb : InRange B b)
    (ha : NoLeadingZero a) (hb : NoLeadingZero b) : absLe a b = .ok (decide (natOf B a ≤ natOf B b)) := by
  rw [absLe_eq hra hrb]; congr 1; rw [decide_eq_decide]
  constructor
  · rintro (h | ⟨_, h⟩)
    · exact Nat.le_of_lt (natOf_lt_of_length_lt hB hra hb h)
    · exact h
  · intro h
    rcases Nat.lt_trichotomy a.length b.length with h1 | h1 | h1
    · exact .inl h1
    · exact .inr ⟨h1, h⟩
    · have := natOf_lt_of_length_lt hB hrb ha h1; omega

/-- Some digit is larger if the value is larger (equal lengths). -/
theorem exists_digit_gt {B : Nat} : ∀ {a b : List Nat}, InRange B b → a.length = b.length →
    natOf B b < natOf B a → ∃ i < a.length, b.getD i 0 < a.getD i 0
  | [], [], _, _, h => by simp at h
  | [], _ :: _, _, h, _ => by simp at h
  | _ :: _, [], _, h, _ => by simp at h
  | x :: a, y :: b, hb, hlen, h => by
    by_cases hxy : y < x
    · exact ⟨0, by simp, by simpa using hxy⟩
    · have h2 : natOf B b < natOf B a := by
        simp only [natOf_cons] at h
        by_contra hcon
        have := Nat.mul_le_mul_left B (Nat.le_of_not_lt hcon)
        omega
      obtain ⟨i, hi, h3⟩ := exists_digit_gt hb.tail (by simpa using hlen) h2
      exact ⟨i + 1, by simpa using hi, by simpa using h3⟩

end BN
