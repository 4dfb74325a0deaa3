import Mathlib.Logic.Equiv.Basic
import Mathlib.Algebra.Group.End
import Verif.Model.Swap
import Verif.Lemmas.Samples
import Verif.Props.Object
/-
`std::swap`, `std::reverse`, `std::rotate`: C120.
-/
namespace BN
open Bignum

/-- `std::swap` exchanges two numbers whatever they are and leaves all others alone; swapping an object with
itself changes nothing, whatever a vector moved into itself holds. -/
theorem C120_swap (junk : List Nat) (s : Store) (i j k : Nat) :
    s.swap junk i j k = if k = i then s j else if k = j then s i else s k := by
  unfold Store.swap Store.moveTo
  by_cases h : i = j
  · subst h
    simp only [moveCtor, moveAssign, Store.set, if_true]
    by_cases hk : k = i <;> simp [hk]
  · simp only [moveCtor, moveAssign, Store.set, h, if_false]
    by_cases hj : k = j
    · subst hj; simp [Ne.symm h]
    · by_cases hi : k = i
      · subst hi; simp [h, Ne.symm h]
      · simp [hi, hj]

example : (Store.swap [7] (fun k => if k = 0 then Sample.n199 else Sample.m23) 0 1 0,
    Store.swap [7] (fun k => if k = 0 then Sample.n199 else Sample.m23) 0 1 1,
    Store.swap [7] (fun k => if k = 0 then Sample.n199 else Sample.m23) 1 1 1) = (Sample.m23, Sample.n199, Sample.m23) := by decide

/-- Any sequence of swaps rearranges the numbers: there is a permutation of the objects, the same for all contents
and whatever self-moves leave behind, such that object `k` ends with what object `p k` held. -/
theorem C120_permutation (l : List (Nat × Nat)) :
    ∃ p : Equiv.Perm Nat, ∀ (junk : Nat → List Nat) (s : Store) (k : Nat), s.swaps junk l k = s (p k) := by
  induction l with
  | nil => exact ⟨1, fun _ _ _ => rfl⟩
  | cons x l ih =>
    obtain ⟨p, hp⟩ := ih
    obtain ⟨i, j⟩ := x
    refine ⟨(Equiv.swap i j) * p, fun junk s k => ?_⟩
    rw [Store.swaps, hp, C120_swap, Equiv.Perm.mul_apply, Equiv.swap_apply_def]
    split
    · rfl
    · split <;> rfl

/-- So no number is lost and none is held twice: what some object held is held by some object, and objects that
differ in contents keep differing. -/
theorem C120_nothing_lost (l : List (Nat × Nat)) (junk : Nat → List Nat) (s : Store) :
    (∀ b, (∃ k, s k = b) ↔ ∃ k, s.swaps junk l k = b) ∧
      ((∀ i j, s i = s j → i = j) → ∀ i j, s.swaps junk l i = s.swaps junk l j → i = j) := by
  obtain ⟨p, hp⟩ := C120_permutation l
  refine ⟨fun b => ⟨fun ⟨k, hk⟩ => ⟨p.symm k, ?_⟩, fun ⟨k, hk⟩ => ⟨p k, ?_⟩⟩, fun h i j e => ?_⟩
  · rw [hp, Equiv.apply_symm_apply, hk]
  · rw [← hp junk s k, hk]
  · rw [hp, hp] at e
    exact p.injective (h _ _ e)

/-- `std::reverse` on the objects `x_i, ..., x_(j-1)`. -/
theorem C120_reverse (s : Store) (i j k : Nat) :
    s.reverse i j k = if i ≤ k ∧ k < j then s (i + (j - 1 - k)) else s k := by
  induction j generalizing s i with
  | zero => simp [Store.reverse]
  | succ j ih =>
    rw [Store.reverse]
    split
    · next h =>
      rw [ih, C120_swap]
      by_cases h1 : i + 1 ≤ k ∧ k < j
      · rw [if_pos h1, if_neg (by omega), if_neg (by omega), if_pos (by omega)]
        congr 1; omega
      · rw [if_neg h1, C120_swap]
        by_cases h2 : k = i
        · rw [if_pos h2, if_pos (by omega)]; congr 1; omega
        · rw [if_neg h2]
          by_cases h3 : k = j
          · rw [if_pos h3, if_pos (by omega)]; congr 1; omega
          · rw [if_neg h3, if_neg (by omega)]
    · next h =>
      split
      · congr 1; omega
      · rfl

example : (List.range 5).map (Store.reverse (fun k => ⟨.pos, [k]⟩) 1 5) =
    [⟨.pos, [0]⟩, ⟨.pos, [4]⟩, ⟨.pos, [3]⟩, ⟨.pos, [2]⟩, ⟨.pos, [1]⟩] := by decide

/-- `std::rotate` brings `x_m` to position `i`: the objects `x_m, ..., x_(j-1)` come before `x_i, ..., x_(m-1)`. -/
theorem C120_rotate (s : Store) {i m j : Nat} (hi : i ≤ m) (hm : m ≤ j) (k : Nat) :
    s.rotate i m j k =
      if i ≤ k ∧ k < i + (j - m) then s (k + (m - i)) else if i + (j - m) ≤ k ∧ k < j then s (k - (j - m)) else s k := by
  unfold Store.rotate
  rw [C120_reverse]
  by_cases h : i ≤ k ∧ k < j
  · rw [if_pos h, C120_reverse]
    by_cases h1 : k < i + (j - m)
    · rw [if_pos (by omega), C120_reverse, if_neg (by omega), if_pos (by omega)]; congr 1; omega
    · rw [if_neg (by omega), C120_reverse, if_pos (by omega), if_neg (by omega), if_pos (by omega)]; congr 1; omega
  · rw [if_neg h, C120_reverse, if_neg (by omega), C120_reverse, if_neg (by omega), if_neg (by omega), if_neg (by omega)]

example := C120_rotate (fun k => ⟨.pos, [k]⟩) (i := 1) (m := 3) (j := 7) (by decide) (by decide) 2

/-- Moving a number into itself is not harmless: a negative number never survives, whatever the vector holds
afterwards, and no NaN or infinity does. -/
theorem C120_self_move (x : Bignum) (junk : List Nat) (h : x.desc ≠ .pos) : (x.selfMove junk).eq x = .ok false := by
  obtain ⟨r, e, hr⟩ := C01_eq_structural (x.selfMove junk) x
  rw [e]
  cases r with
  | false => rfl
  | true => exact absurd (hr.1 rfl).1.symm h

example := C120_self_move Sample.m23 [3, 2] (by decide)

/-- What `x = y` and `x = std::move(y)` have in common for two objects: the target is `y`; only the copy keeps `y`. -/
theorem C120_move_or_copy (junk : List Nat) (s : Store) {i j : Nat} (h : i ≠ j) :
    s.moveTo junk i j i = s j ∧ s.moveTo junk i j j = Bignum.default ∧ ∀ k, k ≠ i → k ≠ j → s.moveTo junk i j k = s k := by
  unfold Store.moveTo
  rw [if_neg h]
  refine ⟨by simp [Store.set, moveAssign, h], by simp [Store.set, moveAssign, Bignum.default], fun k hi hj => ?_⟩
  simp [Store.set, hi, hj]

example := C120_move_or_copy [] (fun k => ⟨.neg, [k + 1]⟩) (show 0 ≠ 1 by decide)

end BN
