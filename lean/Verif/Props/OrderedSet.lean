import Verif.Lemmas.Samples
import Verif.Props.Sorting
import Verif.Props.SpecialOrder
/-
C125: numbers as keys of `std::set` and `std::map`, and binary search in sorted vectors.  The containers and algorithms are client code
of the comparison operators; they are modelled as in the usual implementations (libstdc++ `stl_tree.h`, `stl_algobase.h`): a binary search
tree whose rebalancing may change the shape but not the sequence of its keys, and halving of an interval.
-/
namespace BN
open Bignum

/-- The requirement of the standard library on the comparison of keys (strict weak ordering), for the keys in `S`. -/
structure StrictWeak (S : Bignum → Prop) (before : Bignum → Bignum → Res Bool) : Prop where
  answers : ∀ a b, S a → S b → before a b = .ok true ∨ before a b = .ok false
  irrefl : ∀ a, S a → before a a ≠ .ok true
  trans : ∀ a b c, S a → S b → S c → before a b = .ok true → before b c = .ok true → before a c = .ok true
  equiv : ∀ a b c, S a → S b → S c → before a b = .ok false → before b a = .ok false → before b c = .ok false → before c b = .ok false →
    before a c = .ok false ∧ before c a = .ok false

/-- In addition different keys are never equivalent. -/
structure StrictTotal (S : Bignum → Prop) (before : Bignum → Bignum → Res Bool) : Prop where
  weak : StrictWeak S before
  connected : ∀ a b, S a → S b → before a b = .ok false → before b a = .ok false → a = b

/-- Of two numbers with the same sign and the same number of digits one has no digit above the other's. -/
def Nested (a b : Bignum) : Prop :=
  a.desc = b.desc → a.digits.length = b.digits.length →
    (∀ i, a.digits.getD i 0 ≤ b.digits.getD i 0) ∨ (∀ i, b.digits.getD i 0 ≤ a.digits.getD i 0)

/-- `a < b` for signed numbers in terms of digits. -/
def Below (a b : Bignum) : Prop :=
  (a.desc = .neg ∧ b.desc = .pos) ∨ (a.desc = .pos ∧ b.desc = .pos ∧ AnyDigitGreater b.digits a.digits) ∨
    (a.desc = .neg ∧ b.desc = .neg ∧ AnyDigitGreater a.digits b.digits)

theorem lt_iff_below {a b : Bignum} (ha : Signed a.desc) (hb : Signed b.desc) : ∃ r, a.lt b = .ok r ∧ (r = true ↔ Below a b) := by
  rcases ha with ha | ha <;> rcases hb with hb | hb
  · obtain ⟨-, r, h1, h2⟩ := C05_gt_lt_meaning a b ha hb
    exact ⟨r, h1, by simp [Below, ha, hb, h2]⟩
  · exact ⟨false, (C08_opposite_signs a b ha hb).2.2.1, by simp [Below, ha, hb]⟩
  · exact ⟨true, (C08_opposite_signs b a hb ha).2.2.2.2.2.2.1, by simp [Below, ha, hb]⟩
  · unfold Bignum.lt
    simp only [ha, hb]
    simp only [reduceCtorEq, and_false, false_and, if_false, and_self, if_true]
    rw [absGt_eq]
    exact ⟨_, rfl, by simp [Below, ha, hb, AnyDigitGreater]⟩

theorem lt_true_iff {a b : Bignum} (ha : Signed a.desc) (hb : Signed b.desc) : a.lt b = .ok true ↔ Below a b := by
  obtain ⟨r, h1, h2⟩ := lt_iff_below ha hb
  rw [h1, ← h2]
  simp

theorem lt_false_iff {a b : Bignum} (ha : Signed a.desc) (hb : Signed b.desc) : a.lt b = .ok false ↔ ¬ Below a b := by
  obtain ⟨r, h1, h2⟩ := lt_iff_below ha hb
  rw [h1, ← h2]
  simp

theorem lists_eq {x y : List Nat} (h : x.length = y.length) (hxy : ∀ i, x.getD i 0 = y.getD i 0) : x = y := by
  apply List.ext_getElem h
  intro i h1 h2
  have := hxy i
  rwa [List.getD_eq_getElem _ _ h1, List.getD_eq_getElem _ _ h2] at this

/-- Digit sequences ordered by length, then digit by digit. -/
def Smaller (x y : List Nat) : Prop :=
  x.length < y.length ∨ (x.length = y.length ∧ (∀ i, x.getD i 0 ≤ y.getD i 0) ∧ x ≠ y)

theorem greater_iff_smaller {x y : List Nat}
    (h : x.length = y.length → (∀ i, x.getD i 0 ≤ y.getD i 0) ∨ (∀ i, y.getD i 0 ≤ x.getD i 0)) :
    AnyDigitGreater y x ↔ Smaller x y := by
  constructor
  · rintro (h1 | ⟨h1, i, hi, h2⟩)
    · exact .inl h1
    · refine .inr ⟨h1.symm, ?_, fun e => by rw [e] at h2; omega⟩
      rcases h h1.symm with h | h
      · exact h
      · have := h i; omega
  · rintro (h1 | ⟨h1, h2, h3⟩)
    · exact .inl h1
    · refine .inr ⟨h1.symm, ?_⟩
      by_contra hc
      push Not at hc
      refine h3 (lists_eq h1 fun i => le_antisymm (h2 i) ?_)
      by_cases hi : i < y.length
      · exact hc i hi
      · rw [List.getD_eq_default _ _ (by omega)]; omega

theorem smaller_trans {x y z : List Nat} (h1 : Smaller x y) (h2 : Smaller y z) : Smaller x z := by
  rcases h1 with h1 | ⟨h1, h3, h4⟩ <;> rcases h2 with h2 | ⟨h2, h5, h6⟩
  · exact .inl (by omega)
  · exact .inl (by omega)
  · exact .inl (by omega)
  · refine .inr ⟨by omega, fun i => (h3 i).trans (h5 i), fun e => h4 (lists_eq h1 fun i => le_antisymm (h3 i) ?_)⟩
    rw [e]; exact h5 i

theorem smaller_irrefl (x : List Nat) : ¬ Smaller x x := by
  rintro (h | ⟨-, -, h⟩)
  · omega
  · exact h rfl

theorem smaller_connected {x y : List Nat}
    (h : x.length = y.length → (∀ i, x.getD i 0 ≤ y.getD i 0) ∨ (∀ i, y.getD i 0 ≤ x.getD i 0))
    (h1 : ¬ Smaller x y) (h2 : ¬ Smaller y x) : x = y := by
  have hl : x.length = y.length := by
    by_contra hl
    rcases Nat.lt_or_gt_of_ne hl with hl | hl
    · exact h1 (.inl hl)
    · exact h2 (.inl hl)
  by_contra hne
  rcases h hl with h | h
  · exact h1 (.inr ⟨hl, h, hne⟩)
  · exact h2 (.inr ⟨hl.symm, h, Ne.symm hne⟩)

/-- `Below` on nested numbers. -/
theorem below_iff {a b : Bignum} (h : Nested a b) : Below a b ↔
    (a.desc = .neg ∧ b.desc = .pos) ∨ (a.desc = .pos ∧ b.desc = .pos ∧ Smaller a.digits b.digits) ∨
      (a.desc = .neg ∧ b.desc = .neg ∧ Smaller b.digits a.digits) := by
  unfold Below
  refine or_congr_right (or_congr ?_ ?_)
  · refine and_congr_right fun h1 => and_congr_right fun h2 => ?_
    exact greater_iff_smaller (h (h1.trans h2.symm))
  · refine and_congr_right fun h1 => and_congr_right fun h2 => ?_
    exact greater_iff_smaller (fun hl => (h (h1.trans h2.symm) hl.symm).symm)

/-- C125: the operator `<` meets the requirement of the standard library for the keys in `S` exactly if of any two keys in `S` with the
same sign and length one has no digit above the other's. -/
theorem C125_strict_weak_iff {S : Bignum → Prop} (hS : ∀ a, S a → Signed a.desc) :
    StrictWeak S Bignum.lt ↔ ∀ a b, S a → S b → Nested a b := by
  constructor
  · intro h a b ha hb hd hl
    by_contra hc
    push Not at hc
    obtain ⟨⟨i, hi⟩, j, hj⟩ := hc
    have g1 : AnyDigitGreater a.digits b.digits := by
      refine .inr ⟨hl, i, ?_, hi⟩
      by_contra h'
      rw [List.getD_eq_default a.digits _ (by omega)] at hi
      omega
    have g2 : AnyDigitGreater b.digits a.digits := by
      refine .inr ⟨hl.symm, j, ?_, hj⟩
      by_contra h'
      rw [List.getD_eq_default b.digits _ (by omega)] at hj
      omega
    have hb1 : Below a b ∧ Below b a := by
      rcases hS a ha with h1 | h1
      · have h2 := hd.symm.trans h1
        simp [Below, h1, h2, g1, g2]
      · have h2 := hd.symm.trans h1
        simp [Below, h1, h2, g1, g2]
    exact h.irrefl a ha (h.trans a b a ha hb ha ((lt_true_iff (hS a ha) (hS b hb)).2 hb1.1) ((lt_true_iff (hS b hb) (hS a ha)).2 hb1.2))
  · intro h
    have hcon : ∀ a b, S a → S b → ¬ Below a b → ¬ Below b a → a = b := by
      intro a b ha hb h1 h2
      rw [below_iff (h a b ha hb)] at h1
      rw [below_iff (h b a hb ha)] at h2
      obtain ⟨da, xa⟩ := a
      obtain ⟨db, xb⟩ := b
      have ea := hS _ ha
      have eb := hS _ hb
      simp only [Signed] at ea eb h1 h2
      rcases ea with rfl | rfl <;> rcases eb with rfl | rfl <;> simp at h1 h2
      · exact congrArg _ (smaller_connected (h _ _ ha hb rfl) h1 h2)
      · exact congrArg _ (smaller_connected (h _ _ ha hb rfl) h2 h1)
    refine ⟨fun a b ha hb => ?_, fun a ha e => ?_, fun a b c ha hb hc h1 h2 => ?_, fun a b c ha hb hc h1 h2 h3 h4 => ?_⟩
    · obtain ⟨r, h1, -⟩ := lt_iff_below (hS a ha) (hS b hb)
      rw [h1]; cases r <;> simp
    · rw [lt_true_iff (hS a ha) (hS a ha), below_iff (h a a ha ha)] at e
      rcases e with ⟨h1, h2⟩ | ⟨-, -, h1⟩ | ⟨-, -, h1⟩
      · rw [h1] at h2; cases h2
      · exact smaller_irrefl _ h1
      · exact smaller_irrefl _ h1
    · rw [lt_true_iff (hS _ ha) (hS _ hb), below_iff (h _ _ ha hb)] at h1
      rw [lt_true_iff (hS _ hb) (hS _ hc), below_iff (h _ _ hb hc)] at h2
      rw [lt_true_iff (hS _ ha) (hS _ hc), below_iff (h _ _ ha hc)]
      rcases h1 with ⟨h1, h1'⟩ | ⟨h1, h1', h1''⟩ | ⟨h1, h1', h1''⟩ <;> rcases h2 with ⟨h2, h2'⟩ | ⟨h2, h2', h2''⟩ | ⟨h2, h2', h2''⟩ <;>
        simp_all
      · exact smaller_trans h1'' h2''
      · exact smaller_trans h2'' h1''
    · rw [lt_false_iff (hS _ ha) (hS _ hb)] at h1
      rw [lt_false_iff (hS _ hb) (hS _ ha)] at h2
      obtain rfl := hcon a b ha hb h1 h2
      exact ⟨h3, h4⟩

/-- 12 and 34 are nested, 19 and 21 are not. -/
example : StrictWeak (fun a => a = ⟨.pos, [2, 1]⟩ ∨ a = ⟨.pos, [4, 3]⟩) Bignum.lt ∧ ¬ StrictWeak (fun a => a = ⟨.pos, [9, 1]⟩ ∨ a = ⟨.pos, [1, 2]⟩) Bignum.lt := by
  constructor
  · rw [C125_strict_weak_iff (by rintro a (rfl | rfl) <;> exact .inl rfl)]
    rintro a b (rfl | rfl) (rfl | rfl) - -
    · exact .inl fun _ => le_rfl
    · exact .inl fun i => by rcases i with _ | _ | i <;> simp
    · exact .inr fun i => by rcases i with _ | _ | i <;> simp
    · exact .inl fun _ => le_rfl
  · rw [C125_strict_weak_iff (by rintro a (rfl | rfl) <;> exact .inl rfl)]
    intro h
    rcases h _ _ (.inl rfl) (.inr rfl) rfl rfl with h | h
    · exact absurd (h 0) (by decide)
    · exact absurd (h 1) (by decide)

theorem strictTotal_lt {S : Bignum → Prop} (hS : ∀ a, S a → Signed a.desc) (hN : ∀ a b, S a → S b → Nested a b) : StrictTotal S Bignum.lt := by
  have hw := (C125_strict_weak_iff hS).2 hN
  refine ⟨hw, fun a b ha hb h1 h2 => ?_⟩
  rw [lt_false_iff (hS _ ha) (hS _ hb), below_iff (hN _ _ ha hb)] at h1
  rw [lt_false_iff (hS _ hb) (hS _ ha), below_iff (hN _ _ hb ha)] at h2
  obtain ⟨da, xa⟩ := a
  obtain ⟨db, xb⟩ := b
  have ea := hS _ ha
  have eb := hS _ hb
  simp only [Signed] at ea eb h1 h2
  rcases ea with rfl | rfl <;> rcases eb with rfl | rfl <;> simp at h1 h2
  · exact congrArg _ (smaller_connected (hN _ _ ha hb rfl) h1 h2)
  · exact congrArg _ (smaller_connected (hN _ _ ha hb rfl) h2 h1)

/-! ### The tree -/

/-- The nodes of a `std::set`. -/
inductive Tree where
  | leaf : Tree
  | node : Tree → Bignum → Tree → Tree

/-- The keys in the order of iteration. -/
def Tree.toList : Tree → List Bignum
  | .leaf => []
  | .node l x r => l.toList ++ x :: r.toList

/-- `_M_lower_bound`: `y` is the last key that was not before `k`. -/
def Tree.lowerBound (before : Bignum → Bignum → Res Bool) (k : Bignum) : Tree → Option Bignum → Res (Option Bignum)
  | .leaf, y => .ok y
  | .node l x r, y => do
    if ← before x k then r.lowerBound before k y else l.lowerBound before k (some x)

/-- `find`: is the key found? -/
def Tree.find (before : Bignum → Bignum → Res Bool) (k : Bignum) (t : Tree) : Res Bool := do
  match ← t.lowerBound before k none with
  | none => .ok false
  | some x => do
    let b ← before k x
    .ok !b

/-- `insert` (`_M_get_insert_unique_pos`): `p` is the key left of the place reached. -/
def Tree.insertAt (before : Bignum → Bignum → Res Bool) (k : Bignum) : Tree → Option Bignum → Res Tree
  | .leaf, none => .ok (.node .leaf k .leaf)
  | .leaf, some p => do
    if ← before p k then .ok (.node .leaf k .leaf) else .ok .leaf
  | .node l x r, p => do
    if ← before k x then do
      let l' ← l.insertAt before k p
      .ok (.node l' x r)
    else do
      let r' ← r.insertAt before k (some x)
      .ok (.node l x r')

/-- Trees that arise from the empty one by inserting `ks` (the last key first) and rebalancing in any way at any time. -/
inductive Grown (before : Bignum → Bignum → Res Bool) : List Bignum → Tree → Prop where
  | empty : Grown before [] .leaf
  | insert {ks : List Bignum} {t t' : Tree} {k : Bignum} : Grown before ks t → t.insertAt before k none = .ok t' → Grown before (k :: ks) t'
  | rebalance {ks : List Bignum} {t t' : Tree} : Grown before ks t → t'.toList = t.toList → Grown before ks t'

section
variable {S : Bignum → Prop} {before : Bignum → Bignum → Res Bool}

/-- Sorted without repetitions. -/
def Ascending (before : Bignum → Bignum → Res Bool) (l : List Bignum) : Prop := l.Pairwise fun a b => before a b = .ok true

theorem StrictTotal.cases (h : StrictTotal S before) {a b : Bignum} (ha : S a) (hb : S b) :
    (before a b = .ok true ∧ before b a = .ok false) ∨ a = b ∨ (before b a = .ok true ∧ before a b = .ok false) := by
  have asym : ∀ {a b}, S a → S b → before a b = .ok true → before b a = .ok false := fun {a b} ha hb h1 => by
    rcases h.weak.answers b a hb ha with h2 | h2
    · exact absurd (h.weak.trans a b a ha hb ha h1 h2) (h.weak.irrefl a ha)
    · exact h2
  rcases h.weak.answers a b ha hb with h1 | h1
  · exact .inl ⟨h1, asym ha hb h1⟩
  · rcases h.weak.answers b a hb ha with h2 | h2
    · exact .inr (.inr ⟨h2, h1⟩)
    · exact .inr (.inl (h.connected a b ha hb h1 h2))

theorem StrictTotal.self (h : StrictTotal S before) {a : Bignum} (ha : S a) : before a a = .ok false := by
  rcases h.weak.answers a a ha ha with h1 | h1
  · exact absurd h1 (h.weak.irrefl a ha)
  · exact h1

theorem lowerBound_spec (h : StrictTotal S before) {k : Bignum} (hk : S k) : ∀ (t : Tree) (y : Option Bignum), (∀ x ∈ t.toList, S x) →
    Ascending before t.toList →
    t.lowerBound before k y = .ok ((t.toList.find? fun x => decide (before x k = .ok false)).or y)
  | .leaf, y, _, _ => by simp [Tree.lowerBound, Tree.toList]
  | .node l x r, y, hS, ha => by
    have hl : ∀ z ∈ l.toList, S z := fun z hz => hS z (by simp [Tree.toList, hz])
    have hr : ∀ z ∈ r.toList, S z := fun z hz => hS z (by simp [Tree.toList, hz])
    have hx : S x := hS x (by simp [Tree.toList])
    unfold Ascending at ha
    rw [Tree.toList, List.pairwise_append, List.pairwise_cons] at ha
    obtain ⟨al, ⟨hxr, ar⟩, hlx⟩ := ha
    rw [Tree.lowerBound, Tree.toList, List.find?_append, List.find?_cons]
    rcases h.weak.answers x k hx hk with e | e
    · rw [e, ok_bind, if_pos rfl, lowerBound_spec h hk r y hr ar]
      have : l.toList.find? (fun x => decide (before x k = .ok false)) = none := by
        rw [List.find?_eq_none]
        intro z hz
        rw [h.weak.trans z x k (hl z hz) hx hk (hlx z hz x (by simp)) e]
        simp
      rw [this]
      simp
    · rw [e, ok_bind, if_neg (by simp), lowerBound_spec h hk l (some x) hl al]
      simp

theorem find_spec (h : StrictTotal S before) {k : Bignum} (hk : S k) {t : Tree} (hS : ∀ x ∈ t.toList, S x) (ha : Ascending before t.toList) :
    ∃ r, t.find before k = .ok r ∧ (r = true ↔ k ∈ t.toList) := by
  unfold Tree.find
  rw [lowerBound_spec h hk t none hS ha, ok_bind, Option.or_none]
  rcases e : t.toList.find? fun x => decide (before x k = .ok false) with _ | x
  · refine ⟨false, rfl, ?_⟩
    rw [List.find?_eq_none] at e
    constructor
    · simp
    · intro hm
      have := e k hm
      rw [h.self hk] at this
      simp at this
  · have hxm := List.mem_of_find?_eq_some e
    have hxk := List.find?_some e
    simp only [decide_eq_true_eq] at hxk
    have hx := hS x hxm
    rcases h.cases hx hk with c | rfl | c
    · rw [c.1] at hxk; cases hxk
    · refine ⟨true, ?_, by simp [hxm]⟩
      show (before x x >>= _) = _
      rw [hxk]; rfl
    · refine ⟨false, ?_, ?_⟩
      · show (before k x >>= _) = _
        rw [c.1]; rfl
      · constructor
        · simp
        · intro hm
          exfalso
          obtain ⟨as, bs, e1, h2⟩ := (List.find?_eq_some_iff_append.1 e).2
          rw [e1] at hm ha
          unfold Ascending at ha
          rw [List.pairwise_append, List.pairwise_cons] at ha
          rcases List.mem_append.1 hm with hm | hm
          · have := h2 k hm
            rw [h.self hk] at this
            simp at this
          · rcases List.mem_cons.1 hm with rfl | hm
            · rw [h.self hk] at c; exact absurd c.1 (by simp)
            · rw [ha.2.1.1 k hm] at hxk; cases hxk

theorem insertAt_spec (h : StrictTotal S before) {k : Bignum} (hk : S k) : ∀ (t : Tree) (p : Option Bignum),
    (∀ x ∈ p.toList ++ t.toList, S x) → Ascending before (p.toList ++ t.toList) → (∀ x ∈ p, before k x = .ok false) →
    ∃ t', t.insertAt before k p = .ok t' ∧ Ascending before (p.toList ++ t'.toList) ∧
      (∀ x, x ∈ p.toList ++ t'.toList ↔ x = k ∨ x ∈ p.toList ++ t.toList)
  | .leaf, none, _, _, _ => ⟨.node .leaf k .leaf, rfl, by simp [Ascending, Tree.toList], by simp [Tree.toList]⟩
  | .leaf, some p, hS, _, hp => by
    have sp : S p := hS p (by simp)
    have hp := hp p (by simp)
    rw [Tree.insertAt]
    rcases h.cases sp hk with c | rfl | c
    · rw [c.1]
      refine ⟨.node .leaf k .leaf, rfl, by simp [Ascending, Tree.toList, c.1], fun x => ?_⟩
      simp [Tree.toList, or_comm]
    · rw [hp]
      refine ⟨.leaf, rfl, by simp [Ascending, Tree.toList], fun x => ?_⟩
      simp [Tree.toList]
    · rw [c.1] at hp; cases hp
  | .node l x r, p, hS, ha, hp => by
    have sx : S x := hS x (by simp [Tree.toList])
    unfold Ascending at ha
    rw [Tree.toList, ← List.append_assoc, List.pairwise_append, List.pairwise_cons] at ha
    obtain ⟨al, ⟨hxr, ar⟩, hlx⟩ := ha
    rw [Tree.insertAt]
    rcases h.weak.answers k x hk sx with e | e
    · obtain ⟨l', h1, h2, h3⟩ := insertAt_spec h hk l p
        (fun z hz => hS z (by rcases List.mem_append.1 hz with hz | hz <;> simp [Tree.toList, List.mem_append, hz])) al hp
      rw [e, ok_bind, if_pos rfl, h1]
      refine ⟨.node l' x r, rfl, ?_, fun z => ?_⟩
      · unfold Ascending
        rw [Tree.toList, ← List.append_assoc, List.pairwise_append, List.pairwise_cons]
        refine ⟨h2, ⟨hxr, ar⟩, fun y hy z hz => ?_⟩
        rcases (h3 y).1 hy with rfl | hy
        · rcases List.mem_cons.1 hz with rfl | hz
          · exact e
          · exact h.weak.trans _ _ _ hk sx (hS z (by simp [Tree.toList, hz])) e (hxr z hz)
        · exact hlx y hy z hz
      · have := h3 z
        simp only [Tree.toList, List.mem_append, List.mem_cons] at this ⊢
        tauto
    · obtain ⟨r', h1, h2, h3⟩ := insertAt_spec h hk r (some x)
        (fun z hz => hS z (by
          simp only [Option.toList, List.cons_append, List.nil_append, List.mem_cons] at hz
          simp only [Tree.toList, List.mem_append, List.mem_cons]
          tauto))
        (by simpa [Ascending] using ⟨hxr, ar⟩) (by simpa using e)
      rw [e, ok_bind, if_neg (by simp), h1]
      refine ⟨.node l x r', rfl, ?_, fun z => ?_⟩
      · unfold Ascending
        rw [Tree.toList, ← List.append_assoc, List.pairwise_append]
        refine ⟨al, by simpa [Ascending] using h2, fun y hy z hz => ?_⟩
        rcases (h3 z).1 (by simpa using hz) with rfl | hz
        · have hyx := hlx y hy x (by simp)
          have sy : S y := hS y (by
            simp only [Tree.toList, List.mem_append, List.mem_cons] at hy ⊢
            tauto)
          rcases h.cases hk sx with c | rfl | c
          · rw [c.1] at e; cases e
          · exact hyx
          · exact h.weak.trans _ _ _ sy sx hk hyx c.1
        · exact hlx y hy z (by simpa using hz)
      · have := h3 z
        simp only [Tree.toList, Option.toList, List.mem_append, List.mem_cons, List.cons_append, List.nil_append] at this ⊢
        tauto

theorem grown_spec (h : StrictTotal S before) {ks : List Bignum} {t : Tree} (hg : Grown before ks t) (hks : ∀ k ∈ ks, S k) :
    Ascending before t.toList ∧ ∀ x, x ∈ t.toList ↔ x ∈ ks := by
  induction hg with
  | empty => simp [Ascending, Tree.toList]
  | @insert ks t t' k _ he ih =>
    obtain ⟨h1, h2⟩ := ih fun z hz => hks z (by simp [hz])
    obtain ⟨t'', g1, g2, g3⟩ := insertAt_spec h (hks k (by simp)) t none
      (fun z hz => hks z (by rw [Option.toList, List.nil_append, h2] at hz; simp [hz])) (by simpa using h1) (by simp)
    rw [he] at g1
    cases g1
    refine ⟨by simpa using g2, fun x => ?_⟩
    have := g3 x
    simp only [Option.toList, List.nil_append, h2] at this
    rw [this, List.mem_cons]
  | rebalance _ he ih =>
    obtain ⟨h1, h2⟩ := ih hks
    rw [he]
    exact ⟨h1, h2⟩

end

/-- C125, `std::set` with any comparison that is a strict order in which different keys are not equivalent: whatever was inserted, in whatever
order, and however the tree was rebalanced, exactly the inserted keys are found, the iteration is in ascending order without repetitions, and
further keys can be inserted. -/
theorem C125_set {S : Bignum → Prop} {before : Bignum → Bignum → Res Bool} (h : StrictTotal S before) {ks : List Bignum} {t : Tree}
    (hg : Grown before ks t) (hks : ∀ k ∈ ks, S k) :
    (t.toList.Pairwise fun a b => before a b = .ok true) ∧ (∀ x, x ∈ t.toList ↔ x ∈ ks) ∧
    ∀ k, S k → (∃ r, t.find before k = .ok r ∧ (r = true ↔ k ∈ ks)) ∧ ∃ t', t.insertAt before k none = .ok t' := by
  obtain ⟨h1, h2⟩ := grown_spec h hg hks
  refine ⟨h1, h2, fun k hk => ⟨?_, ?_⟩⟩
  · obtain ⟨r, g1, g2⟩ := find_spec h hk (fun x hx => hks x ((h2 x).1 hx)) h1
    exact ⟨r, g1, g2.trans (h2 k)⟩
  · obtain ⟨t', g, -⟩ := insertAt_spec h hk t none (fun z hz => hks z ((h2 z).1 (by simpa using hz))) (by simpa using h1) (by simp)
    exact ⟨t', g⟩

example := C125_set (strictTotal_lt (S := fun a => a = ⟨.pos, [2, 1]⟩) (by rintro a rfl; exact .inl rfl)
  (by rintro a b rfl rfl - -; exact .inl fun _ => le_rfl)) (ks := [⟨.pos, [2, 1]⟩]) (.insert .empty rfl) (by simp)

/-- `!(b <= a)` -/
def notLe (a b : Bignum) : Res Bool := do
  let r ← b.le a
  .ok !r

theorem notLe_eq {L : Limits} {a b : Bignum} (ha : NonNeg L a) (hb : NonNeg L b) : notLe a b = .ok (decide (a.toInt L < b.toInt L)) := by
  unfold notLe
  rw [(C03_ge_le_nonneg L b a hb.2 ha.2 hb.1 ha.1).2]
  show Except.ok (!decide (b.toInt L ≤ a.toInt L)) = _
  rw [← decide_not]
  simp only [not_le]

theorem nonNeg_ext {L : Limits} {a b : Bignum} (ha : NonNeg L a) (hb : NonNeg L b) (h : a.toInt L = b.toInt L) : a = b := by
  obtain ⟨da, xa⟩ := a
  obtain ⟨db, xb⟩ := b
  obtain ⟨rfl, h1⟩ := ha
  obtain ⟨rfl, h2⟩ := hb
  simp only [toInt, mag, reduceCtorEq, if_false] at h
  exact congrArg _ (natOf_unique (Nat.succ_pos _) h1.1 h2.1 h1.2 h2.2 (by exact_mod_cast h))

theorem strictTotal_notLe (L : Limits) : StrictTotal (NonNeg L) notLe := by
  refine ⟨⟨fun a b ha hb => ?_, fun a ha => ?_, fun a b c ha hb hc h1 h2 => ?_, fun a b c ha hb hc h1 h2 h3 h4 => ?_⟩, fun a b ha hb h1 h2 => ?_⟩
  · rw [notLe_eq ha hb]; by_cases h : a.toInt L < b.toInt L <;> simp [h]
  · rw [notLe_eq ha ha]; simp
  · rw [notLe_eq ha hb] at h1
    rw [notLe_eq hb hc] at h2
    rw [notLe_eq ha hc]
    simp only [Except.ok.injEq, decide_eq_true_eq] at *
    omega
  · rw [notLe_eq ha hb] at h1
    rw [notLe_eq hb ha] at h2
    rw [notLe_eq hb hc] at h3
    rw [notLe_eq hc hb] at h4
    rw [notLe_eq ha hc, notLe_eq hc ha]
    simp only [Except.ok.injEq, decide_eq_false_iff_not] at *
    omega
  · rw [notLe_eq ha hb] at h1
    rw [notLe_eq hb ha] at h2
    simp only [Except.ok.injEq, decide_eq_false_iff_not] at *
    exact nonNeg_ext ha hb (by omega)

/-- C125, `std::set` with `!(b <= a)` as the comparison: right for all non-negative numbers without leading zeros. -/
theorem C125_set_le {L : Limits} {ks : List Bignum} {t : Tree} (hg : Grown notLe ks t) (hks : ∀ k ∈ ks, NonNeg L k) :
    (t.toList.Pairwise fun a b => a.toInt L < b.toInt L) ∧ (∀ x, x ∈ t.toList ↔ x ∈ ks) ∧
    ∀ k, NonNeg L k → (∃ r, t.find notLe k = .ok r ∧ (r = true ↔ k ∈ ks)) ∧ ∃ t', t.insertAt notLe k none = .ok t' := by
  obtain ⟨h1, h2, h3⟩ := C125_set (strictTotal_notLe L) hg hks
  refine ⟨h1.imp_of_mem fun {a b} ha hb h => ?_, h2, h3⟩
  rw [notLe_eq (hks a ((h2 a).1 ha)) (hks b ((h2 b).1 hb))] at h
  simpa using h

example := C125_set_le (L := .base10) (ks := [⟨.pos, [9, 1]⟩, ⟨.pos, [1, 2]⟩]) (.insert (.insert .empty rfl) rfl)
  (by simp only [List.mem_cons, List.not_mem_nil, or_false]; rintro x (rfl | rfl) <;> exact ⟨rfl, by sample, by sample⟩)

/-- C125, `std::set` as declared (with `<`): right for keys of which any two with the same sign and length are nested.  Missing: all other
sets of keys; for them `<` is not a strict weak ordering (`C125_strict_weak_iff`) and a key can be lost (`C125_refuted`). -/
theorem C125_set_lt_partial {ks : List Bignum} {t : Tree} (hg : Grown Bignum.lt ks t) (hs : ∀ k ∈ ks, Signed k.desc)
    (hn : ∀ a ∈ ks, ∀ b ∈ ks, Nested a b) :
    (∀ x, x ∈ t.toList ↔ x ∈ ks) ∧ t.toList.Nodup ∧ (∀ k ∈ ks, t.find Bignum.lt k = .ok true) ∧
    ∀ L, (∀ k ∈ ks, NonNeg L k) → t.toList.Pairwise fun a b => a.toInt L < b.toInt L := by
  have ht : StrictTotal (fun x => x ∈ ks) Bignum.lt := strictTotal_lt hs fun a b ha hb => hn a ha b hb
  obtain ⟨h1, h2, h3⟩ := C125_set ht hg fun _ h => h
  refine ⟨h2, ?_, fun k hk => ?_, fun L hL => ?_⟩
  · refine h1.imp_of_mem fun {a b} ha hb h e => ?_
    subst e
    exact ht.weak.irrefl a ((h2 a).1 ha) h
  · obtain ⟨⟨r, g1, g2⟩, -⟩ := h3 k hk
    rw [g1, g2.2 hk]
  · refine h1.imp_of_mem fun {a b} ha hb h => ?_
    have ha := (h2 a).1 ha
    have hb := (h2 b).1 hb
    have na := hL a ha
    have nb := hL b hb
    by_contra hc
    rcases lt_or_eq_of_le (not_lt.1 hc) with hc | hc
    · have := ((C05_no_false_negatives L a b na.2 nb.2 na.1 nb.1).1 hc).2
      rcases ht.cases ha hb with c | rfl | c
      · rw [c.2] at this; cases this
      · exact ht.weak.irrefl a ha h
      · rw [c.2] at h; cases h
    · rw [nonNeg_ext na nb hc.symm] at h
      exact ht.weak.irrefl b hb h

example := C125_set_lt_partial (ks := [⟨.pos, [2, 1]⟩, ⟨.pos, [4, 3]⟩]) (.insert (.insert .empty rfl) rfl)
  (by simp [Signed]) (by
    simp only [List.mem_cons, List.not_mem_nil, or_false]
    rintro a (rfl | rfl) b (rfl | rfl) - -
    · exact .inl fun _ => le_rfl
    · exact .inl fun i => by rcases i with _ | _ | i <;> simp
    · exact .inr fun i => by rcases i with _ | _ | i <;> simp
    · exact .inl fun _ => le_rfl)

/-- C125: and for every two signed keys that are not nested a key is lost: insert the first and then the second, and the second is not found. -/
theorem C125_lost {a b : Bignum} (ha : Signed a.desc) (hb : Signed b.desc) (h : ¬ Nested a b) :
    ∃ t, Grown Bignum.lt [b, a] t ∧ t.find Bignum.lt b = .ok false := by
  unfold Nested at h
  push Not at h
  obtain ⟨hd, hl, ⟨i, hi⟩, j, hj⟩ := h
  have g1 : AnyDigitGreater a.digits b.digits := by
    refine .inr ⟨hl, i, ?_, hi⟩
    by_contra h'
    rw [List.getD_eq_default a.digits _ (by omega)] at hi
    omega
  have g2 : AnyDigitGreater b.digits a.digits := by
    refine .inr ⟨hl.symm, j, ?_, hj⟩
    by_contra h'
    rw [List.getD_eq_default b.digits _ (by omega)] at hj
    omega
  have h1 : a.lt b = .ok true := by
    rw [lt_true_iff ha hb]
    rcases ha with h1 | h1 <;> simp [Below, h1, hd.symm.trans h1, g1, g2]
  have h2 : b.lt a = .ok true := by
    rw [lt_true_iff hb ha]
    rcases ha with h1 | h1 <;> simp [Below, h1, hd.symm.trans h1, g1, g2]
  refine ⟨.node (.node .leaf b .leaf) a .leaf, .insert (.insert .empty (t' := .node .leaf a .leaf) rfl) ?_, ?_⟩
  · rw [Tree.insertAt, h2]; rfl
  · rw [Tree.find, Tree.lowerBound, h1]; rfl

example := C125_lost (a := ⟨.neg, [1, 2]⟩) (b := ⟨.neg, [9, 1]⟩) (.inr rfl) (.inr rfl)
  (fun h => by rcases h rfl rfl with h | h; exacts [absurd (h 1) (by decide), absurd (h 0) (by decide)])

/-- The property fails: after inserting 21 and then 19 into an empty `std::set` the key 19 is not found. -/
theorem C125_refuted : ∃ (a b : Bignum) (t : Tree), NonNeg .base10 a ∧ NonNeg .base10 b ∧ a.toInt .base10 = 21 ∧ b.toInt .base10 = 19 ∧
    Grown Bignum.lt [b, a] t ∧ t.find Bignum.lt b = .ok false :=
  ⟨⟨.pos, [1, 2]⟩, ⟨.pos, [9, 1]⟩, .node (.node .leaf ⟨.pos, [9, 1]⟩ .leaf) ⟨.pos, [1, 2]⟩ .leaf,
    ⟨rfl, by simp [Normal, InRange, NoLeadingZero, Limits.base, Limits.base10, Limits.custom]⟩,
    ⟨rfl, by simp [Normal, InRange, NoLeadingZero, Limits.base, Limits.base10, Limits.custom]⟩, by decide, by decide,
    .insert (.insert .empty (t' := .node .leaf ⟨.pos, [1, 2]⟩ .leaf) rfl) rfl, rfl⟩

/-! ### Binary search in a vector -/

/-- `std::lower_bound`: the loop on `first` and `len`. -/
def lowerIndex (before : Bignum → Bignum → Res Bool) (v : List Bignum) (k : Bignum) (first len : Nat) : Res Nat :=
  if _h : len = 0 then .ok first
  else
    match v[first + len / 2]? with
    | none => .error (.ub .outOfBounds)
    | some x => do
      if ← before x k then lowerIndex before v k (first + len / 2 + 1) (len - (len / 2 + 1))
      else lowerIndex before v k first (len / 2)
termination_by len

/-- `std::binary_search` -/
def binarySearch (before : Bignum → Bignum → Res Bool) (v : List Bignum) (k : Bignum) : Res Bool := do
  let i ← lowerIndex before v k 0 v.length
  match v[i]? with
  | none => .ok false
  | some x => do
    let b ← before k x
    .ok !b

theorem lowerIndex_spec {before : Bignum → Bignum → Res Bool} {v : List Bignum} {k : Bignum} {P : Bignum → Bool}
    (hP : ∀ x ∈ v, before x k = .ok (P x)) (hmono : ∀ i j (hi : i < v.length) (hj : j < v.length), i ≤ j → P v[j] = true → P v[i] = true) :
    ∀ len first, first + len ≤ v.length → (∀ i (hi : i < v.length), i < first → P v[i] = true) →
      (∀ i (hi : i < v.length), first + len ≤ i → P v[i] = false) →
      ∃ m, lowerIndex before v k first len = .ok m ∧ m ≤ v.length ∧ ∀ i (hi : i < v.length), P v[i] = decide (i < m) := by
  intro len
  induction len using Nat.strong_induction_on with
  | _ len ih =>
    intro first hle h1 h2
    unfold lowerIndex
    by_cases h0 : len = 0
    · rw [dif_pos h0]
      refine ⟨first, rfl, by omega, fun i hi => ?_⟩
      by_cases hf : i < first
      · rw [h1 i hi hf]; simp [hf]
      · rw [h2 i hi (by omega)]; simp [hf]
    · have hmid : first + len / 2 < v.length := by omega
      rw [dif_neg h0, List.getElem?_eq_getElem hmid]
      show ∃ m, (before v[first + len / 2] k >>= _) = _ ∧ _
      rw [hP _ (List.getElem_mem hmid), ok_bind]
      cases hv : P v[first + len / 2]
      · rw [if_neg (by simp)]
        refine ih (len / 2) (by omega) first (by omega) h1 fun i hi hfi => ?_
        by_contra hc
        have := hmono _ i hmid hi hfi (by simpa using hc)
        rw [hv] at this; cases this
      · rw [if_pos rfl]
        refine ih (len - (len / 2 + 1)) (by omega) _ (by omega) (fun i hi hfi => hmono i _ hi hmid (by omega) hv) fun i hi hfi => h2 i hi (by omega)

/-- C125, `std::lower_bound` and `std::binary_search` with `!(b <= a)` in a vector in ascending order (such as `C88_sort_le` produces): the
index found separates the smaller numbers from the others, and the answer is whether the number is there. All non-negative numbers without
leading zeros. -/
theorem C125_binary_search {L : Limits} {v : List Bignum} {k : Bignum} (hk : NonNeg L k) (hv : ∀ x ∈ v, NonNeg L x)
    (hs : v.Pairwise fun a b => a.toInt L ≤ b.toInt L) :
    (∃ m, lowerIndex notLe v k 0 v.length = .ok m ∧ m ≤ v.length ∧ ∀ i (hi : i < v.length), v[i].toInt L < k.toInt L ↔ i < m) ∧
    ∃ r, binarySearch notLe v k = .ok r ∧ (r = true ↔ k ∈ v) := by
  obtain ⟨m, h1, h2, h3⟩ := lowerIndex_spec (before := notLe) (v := v) (k := k) (P := fun x => decide (x.toInt L < k.toInt L))
    (fun x hx => notLe_eq (hv x hx) hk) (fun i j hi hj hij h => by
      rcases Nat.lt_or_eq_of_le hij with hij | rfl
      · have := List.pairwise_iff_getElem.1 hs i j hi hj hij
        simp only [decide_eq_true_eq] at *
        omega
      · exact h) v.length 0 (by omega) (fun i hi h => by omega) (fun i hi h => by omega)
  have h3 : ∀ i (hi : i < v.length), v[i].toInt L < k.toInt L ↔ i < m := fun i hi => by simpa using h3 i hi
  refine ⟨⟨m, h1, h2, h3⟩, ?_⟩
  unfold binarySearch
  rw [h1, ok_bind]
  rcases Nat.lt_or_ge m v.length with hm | hm
  · rw [List.getElem?_eq_getElem hm]
    show ∃ r, (notLe k v[m] >>= _) = _ ∧ _
    rw [notLe_eq hk (hv _ (List.getElem_mem hm)), ok_bind]
    refine ⟨_, rfl, ?_⟩
    have hnm := (h3 m hm).not.2 (lt_irrefl m)
    simp only [Bool.not_eq_true', decide_eq_false_iff_not]
    constructor
    · intro h
      rw [nonNeg_ext hk (hv _ (List.getElem_mem hm)) (by omega)]
      exact List.getElem_mem hm
    · intro h
      obtain ⟨j, hj, e⟩ := List.getElem_of_mem h
      have hjm := (h3 j hj).not.1 (by rw [e]; exact lt_irrefl _)
      rcases Nat.lt_or_eq_of_le (not_lt.1 hjm) with hlt | rfl
      · have := List.pairwise_iff_getElem.1 hs m j hm hj hlt
        rw [e] at this
        omega
      · rw [e]; exact lt_irrefl _
  · rw [List.getElem?_eq_none hm]
    refine ⟨false, rfl, ?_⟩
    constructor
    · simp
    · intro h
      obtain ⟨j, hj, e⟩ := List.getElem_of_mem h
      have := (h3 j hj).2 (by omega)
      rw [e] at this
      exact absurd this (lt_irrefl _)

example := C125_binary_search (L := .base10) (v := [⟨.pos, [9, 1]⟩, ⟨.pos, [1, 2]⟩, Sample.n199]) (k := ⟨.pos, [1, 2]⟩)
  ⟨rfl, by sample, by sample⟩
  (by simp only [List.mem_cons, List.not_mem_nil, or_false]; rintro x (rfl | rfl | rfl) <;> exact ⟨rfl, by sample, by sample⟩) (by decide)

/-- With `<` the search fails in a vector that is in ascending order: 19 is not found among 19, 21. -/
theorem C125_search_refuted : ∃ v : List Bignum, ∃ k ∈ v, (∀ x ∈ v, NonNeg .base10 x) ∧ (v.Pairwise fun a b => a.toInt .base10 ≤ b.toInt .base10) ∧
    binarySearch Bignum.lt v k = .ok false := by
  refine ⟨[⟨.pos, [9, 1]⟩, ⟨.pos, [1, 2]⟩], ⟨.pos, [9, 1]⟩, by simp, ?_, by decide, ?_⟩
  · intro x hx
    simp only [List.mem_cons, List.not_mem_nil, or_false] at hx
    rcases hx with rfl | rfl <;> exact ⟨rfl, by simp [Normal, InRange, NoLeadingZero, Limits.base, Limits.base10, Limits.custom]⟩
  · have h2 : lowerIndex Bignum.lt [⟨.pos, [9, 1]⟩, ⟨.pos, [1, 2]⟩] ⟨.pos, [9, 1]⟩ 0 2 = .ok 2 := by
      unfold lowerIndex
      show lowerIndex Bignum.lt _ _ 2 0 = _
      unfold lowerIndex
      rfl
    unfold binarySearch
    show (lowerIndex Bignum.lt _ _ 0 2 >>= _) = _
    rw [h2]
    rfl

end BN
