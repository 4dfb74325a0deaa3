import Verif.SpecConv
import Verif.Lemmas.NatOf
import Mathlib.Data.List.GetD
/-
Columns of a product and the value they denote.
-/
namespace BN

theorem colSum_nil_left (b : List Nat) (k : Nat) : colSum [] b k = 0 := by
  simp [colSum]

theorem colSum_nil_right (a : List Nat) (k : Nat) : colSum a [] k = 0 := by
  simp [colSum]

theorem colSum_comm (a b : List Nat) (k : Nat) : colSum a b k = colSum b a k := by
  unfold colSum
  rw [← Finset.sum_range_reflect]
  apply Finset.sum_congr rfl
  intro i hi
  have := Finset.mem_range.1 hi
  rw [show k + 1 - 1 - i = k - i by omega, show k - (k - i) = i by omega, Nat.mul_comm]

theorem colSum_cons_zero (x : Nat) (a b : List Nat) : colSum (x :: a) b 0 = x * b.getD 0 0 := by
  simp [colSum]

theorem colSum_cons_succ (x : Nat) (a b : List Nat) (k : Nat) :
    colSum (x :: a) b (k + 1) = x * b.getD (k + 1) 0 + colSum a b k := by
  unfold colSum
  rw [Finset.sum_range_succ', Nat.add_comm]
  congr 1
  apply Finset.sum_congr rfl
  intro i _
  rw [List.getD_cons_succ, show k + 1 - (i + 1) = k - i by omega]

/-- Value of a digit list as a sum over its positions. -/
theorem natOf_eq_sum (B : Nat) : ∀ (l : List Nat) (n : Nat), l.length ≤ n →
    natOf B l = ∑ k ∈ Finset.range n, l.getD k 0 * B ^ k
  | [], n, _ => by simp
  | x :: l, 0, h => by simp at h
  | x :: l, n + 1, h => by
    rw [natOf_cons, natOf_eq_sum B l n (by simpa using h), Finset.sum_range_succ', Finset.mul_sum, Nat.add_comm]
    congr 1
    · apply Finset.sum_congr rfl
      intro i _
      rw [List.getD_cons_succ, pow_succ]; ring
    · simp

/-- The columns add up to the product. -/
theorem sum_colSum (B : Nat) : ∀ (a b : List Nat) (n : Nat), a.length + b.length ≤ n →
    ∑ k ∈ Finset.range n, colSum a b k * B ^ k = natOf B a * natOf B b
  | [], b, n, _ => by simp [colSum_nil_left]
  | x :: a, b, 0, h => by simp at h
  | x :: a, b, n + 1, h => by
    have hl : a.length + b.length ≤ n := by simp at h; omega
    have ih := sum_colSum B a b n hl
    rw [Finset.sum_range_succ']
    have h1 : ∀ k ∈ Finset.range n, colSum (x :: a) b (k + 1) * B ^ (k + 1) =
        x * (b.getD (k + 1) 0 * B ^ (k + 1)) + B * (colSum a b k * B ^ k) := by
      intro k _
      rw [colSum_cons_succ, pow_succ]; ring
    rw [Finset.sum_congr rfl h1, Finset.sum_add_distrib, ← Finset.mul_sum, ← Finset.mul_sum, ih,
      colSum_cons_zero, natOf_cons, natOf_eq_sum B b (n + 1) (by simp at h; omega), Finset.sum_range_succ']
    simp only [pow_zero, Nat.mul_one]
    ring

theorem colSum_eq_zero {a b : List Nat} {k : Nat} (h : a.length + b.length ≤ k + 1) : colSum a b k = 0 := by
  unfold colSum
  apply Finset.sum_eq_zero
  intro i _
  by_cases hi : i < a.length
  · rw [List.getD_eq_default b _ (by omega), Nat.mul_zero]
  · rw [List.getD_eq_default a _ (by omega), Nat.zero_mul]

/-- A column has at most `min |a| |b|` terms. -/
theorem colSum_le {B : Nat} {a b : List Nat} (ha : InRange B a) (hb : InRange B b) (k : Nat) :
    colSum a b k ≤ min a.length b.length * ((B - 1) * (B - 1)) := by
  have key : ∀ (a b : List Nat), InRange B a → InRange B b → ∀ k, colSum a b k ≤ a.length * ((B - 1) * (B - 1)) := by
    have hd : ∀ (l : List Nat), InRange B l → ∀ i, l.getD i 0 ≤ B - 1 := by
      intro l hl i
      by_cases hi : i < l.length
      · rw [List.getD_eq_getElem _ _ hi]
        have := hl _ (List.getElem_mem hi); omega
      · rw [List.getD_eq_default _ _ (by omega)]; omega
    intro a
    induction a with
    | nil => intro b _ _ k; simp [colSum_nil_left]
    | cons x a ih =>
      intro b ha hb k
      have hx : x ≤ B - 1 := by have := ha.head; omega
      cases k with
      | zero =>
        rw [colSum_cons_zero, List.length_cons, Nat.succ_mul]
        have := Nat.mul_le_mul hx (hd b hb 0); omega
      | succ k =>
        rw [colSum_cons_succ, List.length_cons, Nat.succ_mul]
        have := Nat.mul_le_mul hx (hd b hb (k + 1))
        have := ih b ha.tail hb k; omega
  rcases Nat.le_total a.length b.length with h | h
  · rw [Nat.min_eq_left h]; exact key a b ha hb k
  · rw [Nat.min_eq_right h, colSum_comm]; exact key b a hb ha k

end BN
