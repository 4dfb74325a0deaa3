import Verif.Props.OrderedSet
/-
C148: a comparison that clients write themselves, with `size()`, subscripts and `isNegative()`.
-/
namespace BN
open Bignum

/-- `while (i--) { if (a[i] != b[i]) return (a[i] < b[i]) != neg; } return false;` -/
def lessLoop (a b : Bignum) (neg : Bool) : Nat → Res Bool
  | 0 => .ok false
  | i + 1 => do
    let x ← a.at_ i
    let y ← b.at_ i
    if x ≠ y then .ok (decide (x < y) != neg) else lessLoop a b neg i

/-- `bool neg = a.isNegative(); if (neg != b.isNegative()) return neg; if (a.size() != b.size()) return (a.size() < b.size()) != neg;`
and then the loop over all digits, the most significant first. -/
def less (a b : Bignum) : Res Bool :=
  if a.isNegative != b.isNegative then .ok a.isNegative
  else if a.size ≠ b.size then .ok (decide (a.size < b.size) != a.isNegative)
  else lessLoop a b a.isNegative a.size

/-- A finite number without leading zeros that is not a zero with a minus sign. -/
def Proper (L : Limits) (a : Bignum) : Prop := Signed a.desc ∧ Normal L a ∧ (a.digits = [] → a.desc = .pos)

theorem lessLoop_eq {B : Nat} {a b : Bignum} (ha : InRange B a.digits) (hb : InRange B b.digits) (neg : Bool) :
    ∀ n, n ≤ a.digits.length → n ≤ b.digits.length → lessLoop a b neg n =
      .ok (decide (if neg then natOf B (b.digits.take n) < natOf B (a.digits.take n) else natOf B (a.digits.take n) < natOf B (b.digits.take n)))
  | 0, _, _ => by cases neg <;> simp [lessLoop]
  | n + 1, hna, hnb => by
    have h1 : a.at_ n = .ok a.digits[n] := by unfold at_; rw [if_pos (by omega), rd_eq (by omega)]
    have h2 : b.at_ n = .ok b.digits[n] := by unfold at_; rw [if_pos (by omega), rd_eq (by omega)]
    rw [lessLoop, h1, ok_bind, h2, ok_bind, lessLoop_eq ha hb neg n (by omega) (by omega), natOf_take_succ B a.digits n (by omega),
      natOf_take_succ B b.digits n (by omega)]
    have ua := natOf_take_lt ha n (by omega)
    have ub := natOf_take_lt hb n (by omega)
    rcases Nat.lt_trichotomy a.digits[n] b.digits[n] with h | h | h
    · have := top_digit_cmp (v := natOf B (b.digits.take n)) ua h
      rw [if_pos (by omega)]
      cases neg <;> simp [h] <;> omega
    · rw [if_neg (by omega), h]
      cases neg <;> simp
    · have := top_digit_cmp (v := natOf B (a.digits.take n)) ub h
      have h' : ¬ a.digits[n] < b.digits[n] := by omega
      rw [if_pos (by omega)]
      cases neg <;> simp [h'] <;> omega

/-- C148: this comparison is the order of the integers. -/
theorem C148_less {L : Limits} {a b : Bignum} (ha : Proper L a) (hb : Proper L b) : less a b = .ok (decide (a.toInt L < b.toInt L)) := by
  obtain ⟨sa, ⟨ra, na⟩, za⟩ := ha
  obtain ⟨sb, ⟨rb, nb⟩, zb⟩ := hb
  have pa : ∀ {x : Bignum}, (x.digits = [] → x.desc = .pos) → InRange L.base x.digits → NoLeadingZero x.digits → x.desc = .neg → 0 < x.mag L := by
    intro x h hr hn hd
    by_contra h0
    have : x.digits = [] := (natOf_eq_zero_iff (Nat.succ_pos _) hn).1 (show x.mag L = 0 by omega)
    rw [h this] at hd
    cases hd
  unfold less
  have hlen : ∀ {x y : Bignum}, InRange L.base x.digits → NoLeadingZero y.digits → x.size < y.size → x.mag L < y.mag L :=
    fun hx hy h => natOf_lt_of_length_lt (Nat.succ_pos _) hx hy h
  have hl := lessLoop_eq ra rb a.isNegative a.size (Nat.le_refl _)
  have ta : a.digits.take a.size = a.digits := List.take_length
  rcases sa with da | da <;> rcases sb with db | db
  · have h1 : a.isNegative = false := by unfold Bignum.isNegative; rw [da]; rfl
    have h2 : b.isNegative = false := by unfold Bignum.isNegative; rw [db]; rfl
    have e : (a.toInt L < b.toInt L) ↔ a.mag L < b.mag L := by unfold Bignum.toInt; rw [da, db]; simp
    rw [h1, h2, if_neg (by simp)]
    split
    · rename_i h
      rcases Nat.lt_or_gt_of_ne h with h | h
      · simp [e, h, hlen ra nb h]
      · have := hlen rb na h
        simp only [e, Bool.bne_false]
        congr 1
        rw [decide_eq_decide]
        omega
    · rename_i h
      rw [not_not] at h
      have hl := hl (le_of_eq h)
      rw [h1, ta, show b.digits.take a.size = b.digits by rw [h]; exact List.take_length] at hl
      rw [hl]
      simp only [Bool.false_eq_true, if_false, e]
      rfl
  · have h1 : a.isNegative = false := by unfold Bignum.isNegative; rw [da]; rfl
    have h2 : b.isNegative = true := by unfold Bignum.isNegative; rw [db]; rfl
    have := pa zb rb nb db
    rw [h1, h2, if_pos (by simp)]
    congr 1; symm; rw [decide_eq_false_iff_not]
    unfold Bignum.toInt; rw [da, db]; simp; try omega
  · have h1 : a.isNegative = true := by unfold Bignum.isNegative; rw [da]; rfl
    have h2 : b.isNegative = false := by unfold Bignum.isNegative; rw [db]; rfl
    have := pa za ra na da
    rw [h1, h2, if_pos (by simp)]
    congr 1; symm; rw [decide_eq_true_iff]
    unfold Bignum.toInt; rw [da, db]; simp; try omega
  · have h1 : a.isNegative = true := by unfold Bignum.isNegative; rw [da]; rfl
    have h2 : b.isNegative = true := by unfold Bignum.isNegative; rw [db]; rfl
    have e : (a.toInt L < b.toInt L) ↔ b.mag L < a.mag L := by unfold Bignum.toInt; rw [da, db]; simp
    rw [h1, h2, if_neg (by simp)]
    split
    · rename_i h
      rcases Nat.lt_or_gt_of_ne h with h | h
      · have := hlen ra nb h
        have h' : ¬ b.mag L < a.mag L := by omega
        simp [e, h, h']
      · have := hlen rb na h
        have h' : ¬ a.size < b.size := by omega
        simp [e, h', this]
    · rename_i h
      rw [not_not] at h
      have hl := hl (le_of_eq h)
      rw [h1, ta, show b.digits.take a.size = b.digits by rw [h]; exact List.take_length] at hl
      rw [hl]
      simp only [if_true, e]
      rfl

theorem Sample.proper199 : Proper .base10 Sample.n199 := ⟨by sample, ⟨by sample, by sample⟩, by simp⟩
theorem Sample.proper23 : Proper .base10 Sample.m23 := ⟨by sample, ⟨by sample, by sample⟩, by simp⟩

example := C148_less Sample.proper199 Sample.proper23

theorem proper_ext {L : Limits} {a b : Bignum} (ha : Proper L a) (hb : Proper L b) (h : a.toInt L = b.toInt L) : a = b := by
  have hm : a.mag L = b.mag L := by
    rcases ha.1 with h1 | h1 <;> rcases hb.1 with h2 | h2 <;> unfold Bignum.toInt at h <;> rw [h1, h2] at h <;> simp at h <;> omega
  have hd : a.digits = b.digits := natOf_unique (Nat.succ_pos _) ha.2.1.1 hb.2.1.1 ha.2.1.2 hb.2.1.2 hm
  by_cases h0 : a.digits = []
  · have h1 := ha.2.2 h0
    have h2 := hb.2.2 (hd ▸ h0)
    cases a; cases b; simp_all
  · have hp : 0 < a.mag L := natOf_pos_of_noLeadingZero (Nat.succ_pos _) ha.2.1.2 h0
    have hs : a.desc = b.desc := by
      rcases ha.1 with h1 | h1 <;> rcases hb.1 with h2 | h2
      · rw [h1, h2]
      · unfold Bignum.toInt at h; rw [h1, h2] at h; simp at h; omega
      · unfold Bignum.toInt at h; rw [h1, h2] at h; simp at h; omega
      · rw [h1, h2]
    cases a; cases b; simp_all

/-- C148: it is a strict total ordering, as the containers and algorithms of the standard library require. -/
theorem C148_strict (L : Limits) : StrictTotal (Proper L) less := by
  refine ⟨⟨fun a b ha hb => ?_, fun a ha => ?_, fun a b c ha hb hc h1 h2 => ?_, fun a b c ha hb hc h1 h2 h3 h4 => ?_⟩, fun a b ha hb h1 h2 => ?_⟩
  · rw [C148_less ha hb]; by_cases h : a.toInt L < b.toInt L <;> simp [h]
  · rw [C148_less ha ha]; simp
  · rw [C148_less ha hb] at h1
    rw [C148_less hb hc] at h2
    rw [C148_less ha hc]
    simp only [Except.ok.injEq, decide_eq_true_eq] at *
    omega
  · rw [C148_less ha hb] at h1
    rw [C148_less hb ha] at h2
    rw [C148_less hb hc] at h3
    rw [C148_less hc hb] at h4
    rw [C148_less ha hc, C148_less hc ha]
    simp only [Except.ok.injEq, decide_eq_false_iff_not] at *
    omega
  · rw [C148_less ha hb] at h1
    rw [C148_less hb ha] at h2
    simp only [Except.ok.injEq, decide_eq_false_iff_not] at *
    exact proper_ext ha hb (by omega)

/-- C148, `std::set` with this comparison: right for all such numbers of both signs. -/
theorem C148_set {L : Limits} {ks : List Bignum} {t : Tree} (hg : Grown less ks t) (hks : ∀ k ∈ ks, Proper L k) :
    (t.toList.Pairwise fun a b => a.toInt L < b.toInt L) ∧ (∀ x, x ∈ t.toList ↔ x ∈ ks) ∧
    ∀ k, Proper L k → (∃ r, t.find less k = .ok r ∧ (r = true ↔ k ∈ ks)) ∧ ∃ t', t.insertAt less k none = .ok t' := by
  obtain ⟨h1, h2, h3⟩ := C125_set (C148_strict L) hg hks
  refine ⟨h1.imp_of_mem fun {a b} ha hb h => ?_, h2, h3⟩
  rw [C148_less (hks a ((h2 a).1 ha)) (hks b ((h2 b).1 hb))] at h
  simpa using h

example := C148_set (L := .base10) (ks := [Sample.n199, Sample.m23]) (.insert (.insert .empty rfl) rfl)
  (by simp only [List.mem_cons, List.not_mem_nil, or_false]; rintro x (rfl | rfl) <;> [exact Sample.proper199; exact Sample.proper23])

/-- C148, sorting with this comparison. -/
theorem C148_sort {L : Limits} {xs : List Bignum} (hx : ∀ x ∈ xs, Proper L x) :
    ∃ ys, sortBy less xs = .ok ys ∧ ys.Perm xs ∧ ys.Pairwise (fun a b => a.toInt L ≤ b.toInt L) := by
  refine sort_sorted (S := Proper L) (fun x y hx hy => ⟨_, C148_less hx hy, ?_, ?_⟩) hx
  · exact fun h => (of_decide_eq_true h).le
  · exact fun h => not_lt.1 (of_decide_eq_false h)

example := C148_sort (L := .base10) (xs := [Sample.n199, Sample.m23])
  (by simp only [List.mem_cons, List.not_mem_nil, or_false]; rintro x (rfl | rfl) <;> [exact Sample.proper199; exact Sample.proper23])

/-- C148, binary search with this comparison in a sorted vector. -/
theorem C148_binary_search {L : Limits} {v : List Bignum} {k : Bignum} (hk : Proper L k) (hv : ∀ x ∈ v, Proper L x)
    (hs : v.Pairwise fun a b => a.toInt L ≤ b.toInt L) :
    (∃ m, lowerIndex less v k 0 v.length = .ok m ∧ m ≤ v.length ∧ ∀ i (hi : i < v.length), v[i].toInt L < k.toInt L ↔ i < m) ∧
    ∃ r, binarySearch less v k = .ok r ∧ (r = true ↔ k ∈ v) := by
  obtain ⟨m, h1, h2, h3⟩ := lowerIndex_spec (before := less) (v := v) (k := k) (P := fun x => decide (x.toInt L < k.toInt L))
    (fun x hx => C148_less (hv x hx) hk) (fun i j hi hj hij h => by
      rcases Nat.lt_or_eq_of_le hij with hij | rfl
      · have := List.pairwise_iff_getElem.1 hs i j hi hj hij
        simp only [decide_eq_true_eq] at *
        omega
      · exact h) v.length 0 (by omega) (fun i hi h => by omega) (fun i hi h => by omega)
  have h3 : ∀ i (hi : i < v.length), v[i].toInt L < k.toInt L ↔ i < m := fun i hi => by simpa using h3 i hi
  refine ⟨⟨m, h1, h2, h3⟩, ?_⟩
  unfold binarySearch
  rw [h1, ok_bind]
  rcases Nat.lt_or_ge m v.length with hm | hm
  · rw [List.getElem?_eq_getElem hm]
    show ∃ r, (less k v[m] >>= _) = _ ∧ _
    rw [C148_less hk (hv _ (List.getElem_mem hm)), ok_bind]
    refine ⟨_, rfl, ?_⟩
    have hnm := (h3 m hm).not.2 (lt_irrefl m)
    simp only [Bool.not_eq_true', decide_eq_false_iff_not]
    constructor
    · intro h
      rw [proper_ext hk (hv _ (List.getElem_mem hm)) (by omega)]
      exact List.getElem_mem hm
    · intro h
      obtain ⟨j, hj, e⟩ := List.getElem_of_mem h
      have hjm := (h3 j hj).not.1 (by rw [e]; exact lt_irrefl _)
      rcases Nat.lt_or_eq_of_le (not_lt.1 hjm) with hlt | rfl
      · have := List.pairwise_iff_getElem.1 hs m j hm hj hlt
        rw [e] at this
        omega
      · rw [e]; exact lt_irrefl _
  · rw [List.getElem?_eq_none hm]
    refine ⟨false, rfl, ?_⟩
    constructor
    · simp
    · intro h
      obtain ⟨j, hj, e⟩ := List.getElem_of_mem h
      have := (h3 j hj).2 (by omega)
      rw [e] at this
      exact absurd this (lt_irrefl _)

example := C148_binary_search (L := .base10) (v := [Sample.m23, Sample.n199]) Sample.proper199
  (by simp only [List.mem_cons, List.not_mem_nil, or_false]; rintro x (rfl | rfl) <;> [exact Sample.proper23; exact Sample.proper199])
  (by simp only [List.pairwise_cons, List.mem_cons, List.not_mem_nil, or_false]; exact ⟨by rintro x rfl; decide, by simp, .nil⟩)

/-- C148: on a zero with a minus sign the comparison is wrong: it comes before the zero. -/
theorem C148_minus_zero_wrong (L : Limits) : less ⟨.neg, []⟩ ⟨.pos, []⟩ = .ok true ∧
    Bignum.toInt L ⟨.neg, []⟩ = Bignum.toInt L ⟨.pos, []⟩ := ⟨rfl, rfl⟩

end BN
