import Verif.Lemmas.Samples
import Verif.Props.Loops
/-
C87, C88: choosing the larger of two numbers and sorting lists of numbers with the comparison operators.
-/
namespace BN
open Bignum

/-- `std::max(a, b)`: `(a < b) ? b : a` -/
def stdMax (a b : Bignum) : Res Bignum := do
  if ← a.lt b then .ok b else .ok a

/-- `(a >= b) ? a : b` -/
def geMax (a b : Bignum) : Res Bignum := do
  if ← a.ge b then .ok a else .ok b

/-- A non-negative number without leading zeros. -/
def NonNeg (L : Limits) (a : Bignum) : Prop := a.desc = .pos ∧ Normal L a

theorem C87_max_refuted : ∃ a b c : Bignum, NonNeg .base10 a ∧ NonNeg .base10 b ∧ stdMax a b = .ok c ∧
    c.toInt .base10 ≠ max (a.toInt .base10) (b.toInt .base10) :=
  ⟨⟨.pos, [1, 2]⟩, ⟨.pos, [9, 1]⟩, ⟨.pos, [9, 1]⟩,
    ⟨rfl, by simp [Normal, InRange, NoLeadingZero, Limits.base, Limits.base10, Limits.custom]⟩,
    ⟨rfl, by simp [Normal, InRange, NoLeadingZero, Limits.base, Limits.base10, Limits.custom]⟩, by rfl, by decide⟩

/-- C87: `std::max` is right when its second argument is the larger one, and always when the lengths differ or are at most one. -/
theorem C87_max_partial {L : Limits} {a b : Bignum} (ha : NonNeg L a) (hb : NonNeg L b)
    (h : a.toInt L ≤ b.toInt L ∨ a.digits.length ≠ b.digits.length ∨ a.digits.length ≤ 1) :
    ∃ c, stdMax a b = .ok c ∧ c.toInt L = max (a.toInt L) (b.toInt L) := by
  obtain ⟨g1, g2⟩ := C04_gt_partial L b a hb.2 ha.2 hb.1 ha.1
  unfold stdMax
  by_cases hlt : a.toInt L < b.toInt L
  · rw [(g1 hlt).2]
    exact ⟨b, rfl, (max_eq_right hlt.le).symm⟩
  · by_cases hlen : a.digits.length ≠ b.digits.length ∨ a.digits.length ≤ 1
    · rw [(g2 (by omega)).2, decide_eq_false hlt]
      exact ⟨a, rfl, (max_eq_left (not_lt.1 hlt)).symm⟩
    · have heq : a.toInt L = b.toInt L := by
        rcases h with h | h
        · exact le_antisymm h (not_lt.1 hlt)
        · exact absurd h hlen
      obtain ⟨-, ⟨r, hr, -⟩⟩ := C05_gt_lt_meaning a b ha.1 hb.1
      rw [hr]
      cases r
      · exact ⟨a, rfl, by rw [heq, max_self]⟩
      · exact ⟨b, rfl, by rw [heq, max_self]⟩

example := C87_max_partial (L := .base10) (a := Sample.n199) (b := Sample.n23) ⟨rfl, by sample, by sample⟩ ⟨rfl, by sample, by sample⟩
  (.inr (.inl (by decide)))

/-- C87, with `>=` instead: always right. -/
theorem C87_max_ge {L : Limits} {a b : Bignum} (ha : NonNeg L a) (hb : NonNeg L b) :
    ∃ c, geMax a b = .ok c ∧ c.toInt L = max (a.toInt L) (b.toInt L) := by
  unfold geMax
  rw [(C03_ge_le_nonneg L a b ha.2 hb.2 ha.1 hb.1).1]
  by_cases h : b.toInt L ≤ a.toInt L
  · rw [decide_eq_true h]
    exact ⟨a, rfl, (max_eq_left h).symm⟩
  · rw [decide_eq_false h]
    exact ⟨b, rfl, (max_eq_right (not_le.1 h).le).symm⟩

example := C87_max_ge (L := .base10) (a := ⟨.pos, [9, 1]⟩) (b := Sample.n23) ⟨rfl, by sample, by sample⟩ ⟨rfl, by sample, by sample⟩

/-! ### C88 -/

/-- Inserting into a sorted list, stopping at the first element `y` with `before x y`. -/
def insertBy (before : Bignum → Bignum → Res Bool) (x : Bignum) : List Bignum → Res (List Bignum)
  | [] => .ok [x]
  | y :: ys => do
    if ← before x y then .ok (x :: y :: ys)
    else
      let t ← insertBy before x ys
      .ok (y :: t)

/-- Insertion sort with a given comparison operator. -/
def sortBy (before : Bignum → Bignum → Res Bool) : List Bignum → Res (List Bignum)
  | [] => .ok []
  | x :: xs => do
    let t ← sortBy before xs
    insertBy before x t

/-- The comparison never contradicts the order of the values. -/
def Decides (L : Limits) (S : Bignum → Prop) (before : Bignum → Bignum → Res Bool) : Prop :=
  ∀ x y, S x → S y → ∃ r, before x y = .ok r ∧ (r = true → x.toInt L ≤ y.toInt L) ∧ (r = false → y.toInt L ≤ x.toInt L)

theorem insert_sorted {L : Limits} {S : Bignum → Prop} {before : Bignum → Bignum → Res Bool} (hd : Decides L S before) {x : Bignum}
    (hx : S x) : ∀ {ys : List Bignum}, (∀ y ∈ ys, S y) → ys.Pairwise (fun a b => a.toInt L ≤ b.toInt L) →
    ∃ zs, insertBy before x ys = .ok zs ∧ zs.Perm (x :: ys) ∧ zs.Pairwise (fun a b => a.toInt L ≤ b.toInt L)
  | [], _, _ => ⟨[x], rfl, .refl _, by simp⟩
  | y :: ys, hy, hs => by
    obtain ⟨r, hr, h1, h2⟩ := hd x y hx (hy y (by simp))
    rw [insertBy, hr]
    rw [List.pairwise_cons] at hs
    cases r
    · have h := h2 rfl
      obtain ⟨zs, h1, h2, h3⟩ := insert_sorted hd hx (fun z hz => hy z (by simp [hz])) hs.2
      refine ⟨y :: zs, ?_, (h2.cons y).trans (.swap x y ys), ?_⟩
      · show (insertBy before x ys >>= _) = _
        rw [h1]
        rfl
      · rw [List.pairwise_cons]
        refine ⟨fun z hz => ?_, h3⟩
        rcases List.mem_cons.1 (h2.mem_iff.1 hz) with rfl | hz
        · exact h
        · exact hs.1 z hz
    · have h := h1 rfl
      refine ⟨x :: y :: ys, rfl, .refl _, ?_⟩
      rw [List.pairwise_cons, List.pairwise_cons]
      refine ⟨?_, hs⟩
      intro z hz
      rcases List.mem_cons.1 hz with rfl | hz
      · exact h
      · exact h.trans (hs.1 z hz)

theorem sort_sorted {L : Limits} {S : Bignum → Prop} {before : Bignum → Bignum → Res Bool} (hd : Decides L S before) :
    ∀ {xs : List Bignum}, (∀ x ∈ xs, S x) →
    ∃ ys, sortBy before xs = .ok ys ∧ ys.Perm xs ∧ ys.Pairwise (fun a b => a.toInt L ≤ b.toInt L)
  | [], _ => ⟨[], rfl, .refl _, by simp⟩
  | x :: xs, hx => by
    obtain ⟨ys, h1, h2, h3⟩ := sort_sorted hd (xs := xs) (fun z hz => hx z (by simp [hz]))
    obtain ⟨zs, g1, g2, g3⟩ := insert_sorted hd (hx x (by simp)) (fun z hz => hx z (by simp [h2.mem_iff.1 hz])) h3
    refine ⟨zs, ?_, g2.trans (h2.cons x), g3⟩
    rw [sortBy, h1]
    exact g1

/-- C88: sorting with `<=` gives a permutation in increasing order, for every list of non-negative numbers. -/
theorem C88_sort_le {L : Limits} {xs : List Bignum} (hx : ∀ x ∈ xs, NonNeg L x) :
    ∃ ys, sortBy Bignum.le xs = .ok ys ∧ ys.Perm xs ∧ ys.Pairwise (fun a b => a.toInt L ≤ b.toInt L) := by
  refine sort_sorted (S := NonNeg L) (fun x y hx hy => ⟨_, (C03_ge_le_nonneg L x y hx.2 hy.2 hx.1 hy.1).2, ?_, ?_⟩) hx
  · exact fun h => of_decide_eq_true h
  · exact fun h => (not_le.1 (of_decide_eq_false h)).le

example := C88_sort_le (L := .base10) (xs := [Sample.n199, ⟨.pos, [9, 1]⟩, Sample.n23])
  (by simp only [List.mem_cons, List.not_mem_nil, or_false]; rintro x (rfl | rfl | rfl) <;> exact ⟨rfl, by sample, by sample⟩)

/-- C88, refuted for `<`, the operator the standard algorithms use: the sorted list of 21 and 19 is 21, 19. -/
theorem C88_sort_lt_refuted : ∃ xs ys : List Bignum, (∀ x ∈ xs, NonNeg .base10 x) ∧ sortBy Bignum.lt xs = .ok ys ∧
    ¬ ys.Pairwise (fun a b => a.toInt .base10 ≤ b.toInt .base10) := by
  refine ⟨[⟨.pos, [1, 2]⟩, ⟨.pos, [9, 1]⟩], [⟨.pos, [1, 2]⟩, ⟨.pos, [9, 1]⟩], ?_, by rfl, by decide⟩
  intro x hx
  simp only [List.mem_cons, List.not_mem_nil, or_false] at hx
  rcases hx with rfl | rfl <;>
    exact ⟨rfl, by simp [Normal, InRange, NoLeadingZero, Limits.base, Limits.base10, Limits.custom]⟩

/-- C88: with `<` the sort is right for lists in which different numbers have different lengths or at most one digit. -/
theorem C88_sort_lt_partial {L : Limits} {xs : List Bignum} (hx : ∀ x ∈ xs, NonNeg L x)
    (hl : ∀ x ∈ xs, ∀ y ∈ xs, x.toInt L = y.toInt L ∨ x.digits.length ≠ y.digits.length ∨ x.digits.length ≤ 1) :
    ∃ ys, sortBy Bignum.lt xs = .ok ys ∧ ys.Perm xs ∧ ys.Pairwise (fun a b => a.toInt L ≤ b.toInt L) := by
  refine sort_sorted (S := fun x => x ∈ xs) (fun x y hx' hy' => ?_) (fun _ h => h)
  have nx := hx x hx'
  have ny := hx y hy'
  rcases hl x hx' y hy' with h | h
  · obtain ⟨-, ⟨r, hr, -⟩⟩ := C05_gt_lt_meaning x y nx.1 ny.1
    exact ⟨r, hr, fun _ => h.le, fun _ => h.ge⟩
  · refine ⟨_, ((C04_gt_partial L y x ny.2 nx.2 ny.1 nx.1).2 (by omega)).2, ?_, ?_⟩
    · exact fun h => (of_decide_eq_true h).le
    · exact fun h => not_lt.1 (of_decide_eq_false h)

example : ∃ xs : List Bignum, xs.length = 3 ∧ (∀ x ∈ xs, NonNeg .base10 x) ∧ ¬ xs.Pairwise (fun a b => a.toInt .base10 ≤ b.toInt .base10) := by
  refine ⟨[⟨.pos, [1, 2]⟩, ⟨.pos, [9, 1]⟩, ⟨.pos, []⟩], rfl, ?_, by decide⟩
  intro x hx
  simp only [List.mem_cons, List.not_mem_nil, or_false] at hx
  rcases hx with rfl | rfl | rfl <;>
    exact ⟨rfl, by simp [Normal, InRange, NoLeadingZero, Limits.base, Limits.base10, Limits.custom]⟩

end BN
