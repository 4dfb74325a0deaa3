import Verif.Lemmas.Samples
import Verif.Props.Addition
/-
C36, C37, C41–C46, C53, C54: object interface, construction, limits, assertion.
-/
namespace BN
open Bignum

/-! ### C36 -/

/-- Exactly one of positive / negative / NaN; infinite numbers are positive or negative; computable means
neither NaN nor infinite; and the five descriptors are told apart by the predicates. -/
theorem C36_predicates (b : Bignum) :
    (b.isPositive.toNat + b.isNegative.toNat + b.isNan.toNat = 1) ∧
    (b.isInfinite = true → b.isPositive.toNat + b.isNegative.toNat = 1) ∧
    (isComputable b.desc = !(b.isNan || b.isInfinite)) ∧
    (b.isPositive = true ↔ b.desc = .pos ∨ b.desc = .posInf) ∧
    (b.isNegative = true ↔ b.desc = .neg ∨ b.desc = .negInf) ∧
    (b.isInfinite = true ↔ b.desc = .posInf ∨ b.desc = .negInf) ∧
    (b.isNan = true ↔ b.desc = .nan) := by
  obtain ⟨d, ds⟩ := b
  cases d <;> simp [isPositive, isNegative, isNan, isInfinite, isComputable] <;> rfl

/-- The predicates determine the descriptor. -/
theorem C36_predicates_separate (a b : Bignum) (h1 : a.isPositive = b.isPositive) (h2 : a.isNegative = b.isNegative)
    (h3 : a.isInfinite = b.isInfinite) : a.desc = b.desc := by
  obtain ⟨d, ds⟩ := a
  obtain ⟨e, es⟩ := b
  cases d <;> cases e <;> simp [isPositive, isNegative, isInfinite] at h1 h2 h3 ⊢

example := C36_predicates_separate ⟨.nan, [1]⟩ ⟨.nan, []⟩ rfl rfl rfl

/-! ### C37 -/

theorem C37_setDescriptor (b : Bignum) (d : Desc) :
    (b.setDescriptor d).getDescriptor = d ∧
    (isComputable d = false → (b.setDescriptor d).getData = []) ∧
    (isComputable d = true → (b.setDescriptor d).getData = b.getData) := by
  cases d <;> simp [setDescriptor, getDescriptor, getData, isComputable]

/-- "computable" spelled out, so that C37 does not lean on the model's predicate. -/
theorem C37_setDescriptor_cases (b : Bignum) :
    b.setDescriptor .nan = ⟨.nan, []⟩ ∧ b.setDescriptor .posInf = ⟨.posInf, []⟩ ∧ b.setDescriptor .negInf = ⟨.negInf, []⟩ ∧
    b.setDescriptor .pos = ⟨.pos, b.digits⟩ ∧ b.setDescriptor .neg = ⟨.neg, b.digits⟩ := ⟨rfl, rfl, rfl, rfl, rfl⟩

/-! ### C41 -/

/-- Reading. -/
theorem C41_subscript_read (b : Bignum) (i : Nat) :
    (∀ h : i < b.digits.length, b.at_ i = .ok b.digits[i]) ∧
    (b.digits.length ≤ i → b.at_ i = .error (.exn .bnError)) := by
  refine ⟨fun h => ?_, fun h => ?_⟩
  · rw [at_, if_pos h, rd_eq h]
  · rw [at_, if_neg (by omega)]

/-- Writing changes digit `i` and nothing else; out of range it throws `BN_ERROR` and changes nothing. -/
theorem C41_subscript_write (b : Bignum) (i d : Nat) :
    (i < b.digits.length → ∃ c, b.setAt i d = .ok c ∧ c.desc = b.desc ∧ c.digits.length = b.digits.length ∧
      c.digits[i]? = some d ∧ ∀ j, j ≠ i → c.digits[j]? = b.digits[j]?) ∧
    (b.digits.length ≤ i → b.setAt i d = .error (.exn .bnError)) := by
  refine ⟨fun h => ?_, fun h => ?_⟩
  · refine ⟨⟨b.desc, b.digits.set i d⟩, ?_, rfl, by simp, by simp [h], fun j hj => ?_⟩
    · rw [setAt, if_pos h, Vec.wr, if_pos h]; rfl
    · show (b.digits.set i d)[j]? = _
      rw [List.getElem?_set_ne hj.symm]
  · rw [setAt, if_neg (by omega)]

/-- Effect on the value: the weight of position `i` is `base^i`. -/
theorem C41_subscript_value (B : Nat) (b : Bignum) (i d : Nat) (h : i < b.digits.length) :
    ∃ c, b.setAt i d = .ok c ∧ natOf B c.digits + B ^ i * b.digits[i] = natOf B b.digits + B ^ i * d := by
  refine ⟨⟨b.desc, b.digits.set i d⟩, by rw [setAt, if_pos h, Vec.wr, if_pos h]; rfl, ?_⟩
  simp only
  have e : ∀ (l : List Nat) (i d : Nat) (h : i < l.length), natOf B (l.set i d) + B ^ i * l[i] = natOf B l + B ^ i * d := by
    intro l
    induction l with
    | nil => intro i d h; simp at h
    | cons x xs ih =>
      intro i d h
      cases i with
      | zero => simp; omega
      | succ i =>
        have := ih i d (by simpa using h)
        simp only [List.set_cons_succ, natOf_cons, List.getElem_cons_succ, pow_succ]
        calc _ = x + B * (natOf B (xs.set i d) + B ^ i * xs[i]'(by simpa using h)) := by ring
          _ = _ := by rw [this]; ring
  exact e _ _ _ h

example : (⟨.pos, [7, 8, 9]⟩ : Bignum).at_ 2 = .ok 9 ∧ (⟨.pos, [7, 8, 9]⟩ : Bignum).at_ 3 = .error (.exn .bnError) ∧
    (⟨.pos, [7, 8, 9]⟩ : Bignum).setAt 1 0 = .ok ⟨.pos, [7, 0, 9]⟩ := by decide

/-! ### C42 -/

/-- Values after the four insertions. -/
theorem C42_push_values {env : Env} (hm : env.Ample) (B : Nat) (b : Bignum) (d p : Nat) (hp : p ≤ b.digits.length) :
    (∃ c, b.pushFront env d = .ok c ∧ c.desc = b.desc ∧ natOf B c.digits = natOf B b.digits * B + d) ∧
    (∃ c, b.pushBack env d = .ok c ∧ c.desc = b.desc ∧ natOf B c.digits = natOf B b.digits + d * B ^ b.digits.length) ∧
    (∃ c, b.push env d p = .ok c ∧ c.desc = b.desc ∧
      natOf B c.digits = natOf B (b.digits.take p) + B ^ p * (d + B * natOf B (b.digits.drop p))) := by
  refine ⟨⟨⟨b.desc, d :: b.digits⟩, ?_, rfl, ?_⟩, ⟨⟨b.desc, b.digits ++ [d]⟩, ?_, rfl, ?_⟩,
    ⟨⟨b.desc, b.digits.take p ++ d :: b.digits.drop p⟩, ?_, rfl, ?_⟩⟩
  · simp [pushFront, Vec.insert, hm _]
  · simp only [natOf_cons]; ring
  · simp [pushBack, Vec.pushBack, hm _]
  · simp only [natOf_append, natOf_cons, natOf_nil]; ring
  · rw [push, Vec.insert, if_neg (by omega), hm]; rfl
  · simp only [natOf_append, natOf_cons, List.length_take, Nat.min_eq_left hp]

example := C42_push_values Sample.ample 10 Sample.n199 7 2 (by decide)

/-- Removal undoes the corresponding insertion exactly. -/
theorem C42_pop_undoes_push {env : Env} (hm : env.Ample) (b : Bignum) (d p : Nat) (hp : p ≤ b.digits.length) :
    (∃ c, b.pushFront env d = .ok c ∧ c.popFront = .ok b) ∧
    (∃ c, b.pushBack env d = .ok c ∧ c.popBack = .ok b) ∧
    (∃ c, b.push env d p = .ok c ∧ c.pop p = .ok b) := by
  refine ⟨⟨⟨b.desc, d :: b.digits⟩, ?_, ?_⟩, ⟨⟨b.desc, b.digits ++ [d]⟩, ?_, ?_⟩,
    ⟨⟨b.desc, b.digits.take p ++ d :: b.digits.drop p⟩, ?_, ?_⟩⟩
  · simp [pushFront, Vec.insert, hm _]
  · simp [popFront, Vec.erase]
  · simp [pushBack, Vec.pushBack, hm _]
  · simp [popBack, Vec.popBack]
  · rw [push, Vec.insert, if_neg (by omega), hm]; rfl
  · have hl : (b.digits.take p).length = p := by rw [List.length_take]; omega
    have he : (b.digits.take p ++ d :: b.digits.drop p).eraseIdx p = b.digits := by
      rw [List.eraseIdx_append_of_length_le (by omega), hl, Nat.sub_self, List.eraseIdx_cons_zero, List.take_append_drop]
    rw [pop, Vec.erase, if_pos (by simp only [List.length_append, List.length_cons]; omega)]
    simp only [he, ok_bind]

example := C42_pop_undoes_push Sample.ample Sample.n199 7 3 (by decide)

/-- Removing from a number without digits is undefined behaviour. -/
theorem C42_pop_empty_ub (d : Desc) (p : Nat) :
    (⟨d, []⟩ : Bignum).popFront = .error (.ub .outOfBounds) ∧ (⟨d, []⟩ : Bignum).popBack = .error (.ub .emptyPop) ∧
    (⟨d, []⟩ : Bignum).pop p = .error (.ub .outOfBounds) := by
  refine ⟨rfl, rfl, ?_⟩
  rw [pop, Vec.erase, if_neg (by simp)]; rfl

example : (⟨.pos, [0, 2]⟩ : Bignum).push releaseEnv 7 1 = .ok ⟨.pos, [0, 7, 2]⟩ ∧ (1 : Nat) ≤ [0, 2].length := by decide

/-! ### C43 -/

/-- Documentation (bn_type.h:217-237) says push_front adds at the highest magnitude. On 20 (base 10),
push_front(1) gives 201 instead of 120, and push_back(1) gives 120 instead of 201. -/
theorem C43_refuted : ∃ (b : Bignum) (d : Nat) (c c' : Bignum), WF .base10 b ∧ d < Limits.base10.base ∧
    b.pushFront releaseEnv d = .ok c ∧ c.mag .base10 ≠ b.mag .base10 + d * Limits.base10.base ^ b.size ∧
    b.pushBack releaseEnv d = .ok c' ∧ c'.mag .base10 ≠ b.mag .base10 * Limits.base10.base + d :=
  ⟨⟨.pos, [0, 2]⟩, 1, ⟨.pos, [1, 0, 2]⟩, ⟨.pos, [0, 2, 1]⟩, by
    simp [WF, Signed, WFDigits, InRange, NoLeadingZero, Limits.base, Limits.base10, Limits.custom],
    by decide, by decide, by decide, by decide, by decide⟩

/-- What holds of the documented behaviour: it is right on a number without digits, and more generally exactly
when all digits equal the pushed one (every rotation is then the same). Missing: all other numbers. -/
theorem C43_doc_partial {env : Env} (hm : env.Ample) (b : Bignum) (d : Nat) :
    (b.pushFront env d = b.pushBack env d) ↔ ∀ x ∈ b.digits, x = d := by
  have h1 : b.pushFront env d = .ok ⟨b.desc, d :: b.digits⟩ := by simp [pushFront, Vec.insert, hm _]
  have h2 : b.pushBack env d = .ok ⟨b.desc, b.digits ++ [d]⟩ := by simp [pushBack, Vec.pushBack, hm _]
  rw [h1, h2]
  have key : ∀ l : List Nat, d :: l = l ++ [d] ↔ ∀ x ∈ l, x = d := by
    intro l
    induction l with
    | nil => simp
    | cons x xs ih =>
      constructor
      · intro h
        simp only [List.cons_append, List.cons.injEq] at h
        obtain ⟨rfl, h⟩ := h
        intro y hy
        rcases List.mem_cons.1 hy with rfl | hy
        · rfl
        · exact ih.1 h y hy
      · intro h
        have hx : x = d := h x (by simp)
        subst hx
        rw [List.cons_append, ← ih.2 (fun y hy => h y (by simp [hy]))]
  simpa using key b.digits

example := C43_doc_partial Sample.ample Sample.n199 9

/-! ### C44 -/

/-- `resize(n)` (default fill digit 0). -/
theorem C44_resize {env : Env} (hm : env.Ample) (B : Nat) (b : Bignum) (n : Nat) (hr : InRange B b.digits) :
    ∃ c, b.resize env n 0 = .ok c ∧ c.desc = b.desc ∧ c.size = n ∧
      (n ≤ b.size → natOf B c.digits = natOf B b.digits % B ^ n) ∧
      (b.size ≤ n → natOf B c.digits = natOf B b.digits) ∧
      (∀ i, i < n → i < b.size → c.digits[i]? = b.digits[i]?) := by
  unfold Bignum.resize Vec.resize size
  by_cases h : n ≤ b.digits.length
  · rw [if_pos h]
    refine ⟨⟨b.desc, b.digits.take n⟩, rfl, rfl, by simp [h], fun _ => ?_, fun h' => ?_, fun i hi _ => ?_⟩
    · have e := natOf_take_add_drop B b.digits n
      rw [List.length_take, Nat.min_eq_left h] at e
      have h3 := natOf_take_lt hr n h
      rw [e, Nat.add_mul_mod_self_left, Nat.mod_eq_of_lt h3]
    · have : n = b.digits.length := by omega
      simp [this]
    · simp [hi]
  · rw [if_neg h, hm]
    refine ⟨⟨b.desc, b.digits ++ List.replicate (n - b.digits.length) 0⟩, rfl, rfl, by simp; omega, fun h' => absurd h' h,
      fun _ => ?_, fun i hi hi' => ?_⟩
    · simp only [natOf_append, natOf_replicate_zero]; omega
    · show (b.digits ++ _)[i]? = _
      rw [List.getElem?_append_left hi']

example : InRange 10 (⟨.pos, [3, 2, 1]⟩ : Bignum).digits ∧
    (⟨.pos, [3, 2, 1]⟩ : Bignum).resize releaseEnv 2 0 = .ok ⟨.pos, [3, 2]⟩ := by
  constructor
  · simp [InRange]
  · decide

/-- `resize(n, d)` beyond the size: the digit at every new position is d, so the value grows by d times base^size + … + base^(n - 1). -/
theorem C44_fill {env : Env} (hm : env.Ample) {B : Nat} (hB : 0 < B) (b : Bignum) {n : Nat} (d : Nat) (hn : b.size ≤ n) :
    ∃ c, b.resize env n d = .ok c ∧ c.desc = b.desc ∧ c.size = n ∧ (∀ i, i < b.size → c.digits[i]? = b.digits[i]?) ∧
      (∀ i, b.size ≤ i → i < n → c.digits[i]? = some d) ∧
      (B - 1) * natOf B c.digits + d * B ^ b.size = (B - 1) * natOf B b.digits + d * B ^ n := by
  have hv : ∀ k, (B - 1) * natOf B (List.replicate k d) + d = d * B ^ k := by
    intro k
    induction k with
    | zero => simp
    | succ k ih =>
      obtain ⟨B, rfl⟩ : ∃ C, B = C + 1 := ⟨B - 1, by omega⟩
      simp only [Nat.add_sub_cancel] at ih ⊢
      rw [List.replicate_succ, natOf, pow_succ, ← Nat.mul_assoc, ← ih]
      ring
  refine ⟨⟨b.desc, b.digits ++ List.replicate (n - b.digits.length) d⟩, ?_, rfl, ?_, fun i hi => ?_, fun i hi hi' => ?_, ?_⟩
  · unfold Bignum.resize Vec.resize
    by_cases h : n ≤ b.digits.length
    · have e : n = b.digits.length := Nat.le_antisymm h hn
      rw [if_pos h, e, List.take_length, Nat.sub_self]
      simp
    · rw [if_neg h, hm]
      rfl
  · show (b.digits ++ _).length = n
    have : b.digits.length ≤ n := hn
    simp
    omega
  · exact List.getElem?_append_left hi
  · have h1 : b.digits.length ≤ i := hi
    show (b.digits ++ _)[i]? = _
    rw [List.getElem?_append_right h1, List.getElem?_replicate, if_pos (by omega)]
  · show _ * natOf B (b.digits ++ _) + d * B ^ b.digits.length = _
    have e : B ^ n = B ^ b.digits.length * B ^ (n - b.digits.length) := by
      rw [← pow_add, Nat.add_sub_cancel' (show b.digits.length ≤ n from hn)]
    have h := hv (n - b.digits.length)
    rw [natOf_append, e]
    calc _ = (B - 1) * natOf B b.digits +
          B ^ b.digits.length * ((B - 1) * natOf B (List.replicate (n - b.digits.length) d) + d) := by ring
      _ = _ := by rw [h]; ring

example := C44_fill Sample.ample (B := 10) (by decide) Sample.n23 (n := 4) 9 (by decide)

/-! ### C45 -/

theorem countLeading_eq (l : List Nat) : countLeading l = (l.takeWhile (· == 0)).length := by
  induction l with
  | nil => rfl
  | cons v vs ih =>
    unfold countLeading
    by_cases h : v = 0
    · simp [h, ih]
    · simp [h]

theorem ctorLoop_zero : ∀ (l data : List Nat), l.length ≤ data.length →
    ctorLoop l 0 l.length data = .ok (l.reverse ++ data.drop l.length)
  | [], data, _ => by simp [ctorLoop]
  | v :: vs, data, h => by
    have h' : vs.length < data.length := by simp only [List.length_cons] at h; omega
    rw [List.length_cons, ctorLoop, Vec.wr, if_pos h', ok_bind, ctorLoop_zero vs _ (by simp; omega)]
    rw [List.drop_set, if_neg (by omega), Nat.sub_self, List.drop_eq_getElem_cons h', List.set_cons_zero]
    simp

theorem ctorLoop_skip (data : List Nat) (k : Nat) : ∀ (l : List Nat),
    ctorLoop l (countLeading l) k data = ctorLoop (l.dropWhile (· == 0)) 0 k data
  | [] => rfl
  | v :: vs => by
    by_cases h : v = 0
    · subst h
      rw [show countLeading (0 :: vs) = countLeading vs + 1 by simp [countLeading], ctorLoop, ctorLoop_skip data k vs]
      simp
    · rw [show countLeading (v :: vs) = 0 by simp [countLeading, h]]
      simp [h]

theorem ofList_eq {env : Env} (hm : env.Ample) (desc : Desc) (l : List Nat) :
    ofList env desc l = .ok ⟨desc, (l.dropWhile (· == 0)).reverse⟩ := by
  unfold ofList
  by_cases h0 : l.length = 0
  · have : l = [] := by simpa using h0
    subst this; rfl
  · rw [if_neg h0]
    have hlen : l.length - countLeading l = (l.dropWhile (· == 0)).length := by
      have e := congrArg List.length (List.takeWhile_append_dropWhile (p := (· == 0)) (l := l))
      rw [List.length_append, ← countLeading_eq] at e
      omega
    have hres : Vec.resize env [] (l.length - countLeading l) 0 = .ok (List.replicate (l.length - countLeading l) 0) := by
      unfold Vec.resize
      split
      · rename_i h
        have : l.length - countLeading l = 0 := by simpa using h
        rw [this]; rfl
      · rw [hm]; simp
    simp only
    rw [hres, ok_bind, ctorLoop_skip]
    rw [List.length_replicate, hlen, ctorLoop_zero _ _ (by simp), ok_bind]
    simp

theorem natOf_reverse (B : Nat) (l : List Nat) : natOf B l.reverse = l.foldl (fun acc d => acc * B + d) 0 := by
  induction l using List.reverseRecOn with
  | nil => rfl
  | append_singleton l d ih =>
    rw [List.reverse_append, List.foldl_append, ← ih]
    simp; ring

/-- Big-endian construction: the value is the Horner value of the list, leading zeros are dropped, the
descriptor is kept. -/
theorem C45_construct {env : Env} (hm : env.Ample) (B : Nat) (desc : Desc) (l : List Nat) :
    ∃ b, ofList env desc l = .ok b ∧ b.desc = desc ∧ NoLeadingZero b.digits ∧
      natOf B b.digits = l.foldl (fun acc d => acc * B + d) 0 ∧ (∀ x ∈ b.digits, x ∈ l) := by
  have ht : (l.dropWhile (· == 0)).reverse = trim l.reverse := by simp [trim]
  refine ⟨_, ofList_eq hm desc l, rfl, ?_, ?_, ?_⟩
  · rw [ht]; exact trim_noLeadingZero _
  · rw [ht, natOf_trim, natOf_reverse]
  · intro x hx
    simp only [List.mem_reverse] at hx
    exact (List.dropWhile_suffix _).subset hx

example := C45_construct Sample.ample 10 .neg [0, 0, 3, 0]

/-- Two lists construct `==` objects exactly when the descriptors agree and the lists agree after removing
leading zeros. -/
theorem C45_construct_eq {env : Env} (hm : env.Ample) (d d' : Desc) (l l' : List Nat) :
    ∃ b b' r, ofList env d l = .ok b ∧ ofList env d' l' = .ok b' ∧ b.eq b' = .ok r ∧
      (r = true ↔ d = d' ∧ l.dropWhile (· == 0) = l'.dropWhile (· == 0)) := by
  obtain ⟨r, h1, h2⟩ := C01_eq_structural ⟨d, (l.dropWhile (· == 0)).reverse⟩ ⟨d', (l'.dropWhile (· == 0)).reverse⟩
  exact ⟨_, _, r, ofList_eq hm d l, ofList_eq hm d' l', h1, by rw [h2]; simp⟩

example := C45_construct_eq Sample.ample .neg .neg [0, 0, 3, 0] [3, 0]

/-- For in-range digits: `==` exactly when the descriptors and the denoted numbers agree. -/
theorem C45_construct_eq_value {env : Env} (hm : env.Ample) {B : Nat} (hB : 0 < B) (d d' : Desc) (l l' : List Nat)
    (hl : InRange B l) (hl' : InRange B l') :
    ∃ b b' r, ofList env d l = .ok b ∧ ofList env d' l' = .ok b' ∧ b.eq b' = .ok r ∧
      (r = true ↔ d = d' ∧ l.foldl (fun acc d => acc * B + d) 0 = l'.foldl (fun acc d => acc * B + d) 0) := by
  obtain ⟨b, h1, h2, h3, h4, h5⟩ := C45_construct hm B d l
  obtain ⟨b', h1', h2', h3', h4', h5'⟩ := C45_construct hm B d' l'
  obtain ⟨r, h6, h7⟩ := C01_eq_structural b b'
  refine ⟨b, b', r, h1, h1', h6, ?_⟩
  rw [h7, h2, h2', ← h4, ← h4']
  constructor
  · rintro ⟨h, h'⟩; exact ⟨h, by rw [h']⟩
  · rintro ⟨h, h'⟩
    exact ⟨h, natOf_unique hB (fun x hx => hl x (h5 x hx)) (fun x hx => hl' x (h5' x hx)) h3 h3' h'⟩

example : ofList releaseEnv .neg [0, 0, 1, 2, 0] = .ok ⟨.neg, [0, 2, 1]⟩ ∧ ofList releaseEnv .pos [0, 0] = .ok ⟨.pos, []⟩ := by
  decide

/-! ### C46 -/

theorem C46_copy {env : Env} (hm : env.Ample) (a : Bignum) :
    ∃ c, a.copy env = .ok c ∧ c.eq a = .ok true ∧ c.getDescriptor = a.getDescriptor ∧ c.getData = a.getData :=
  ⟨a, copy_ok hm a, C01_eq_equivalence.1 a, rfl, rfl⟩

example := C46_copy Sample.ample Sample.n199

/-- A failing copy throws and nothing else (the source is untouched: it is an input only). -/
theorem C46_copy_fail (env : Env) (a : Bignum) : a.copy env = .ok a ∨ a.copy env = .error (.exn .badAlloc) := by
  unfold Bignum.copy Vec.copy
  obtain ⟨d, ds⟩ := a
  simp only
  split
  · rename_i h; subst h; exact .inl rfl
  · split
    · exact .inl rfl
    · exact .inr rfl

/-- Moving: the target is `==` the old source; the source is left without digits — with its descriptor after move
construction, as the default object after move assignment. -/
theorem C46_move (a : Bignum) :
    (moveCtor a).1.eq a = .ok true ∧ (moveCtor a).2 = ⟨a.desc, []⟩ ∧
    (moveAssign a).1.eq a = .ok true ∧ (moveAssign a).2 = Bignum.default :=
  ⟨C01_eq_equivalence.1 a, rfl, C01_eq_equivalence.1 a, rfl⟩

theorem C46_clear (a : Bignum) : a.clear = Bignum.default ∧ a.clear.size = 0 ∧ a.clear.isPositive = true ∧
    a.clear.eq Bignum.default = .ok true := ⟨rfl, rfl, rfl, C01_eq_equivalence.1 _⟩

/-! ### C53 -/

/-- The seven preset limit types and the base-256 type of the tests. -/
def presets : List Limits := [.lowp, .medp, .highp, .base2, .base8, .base10, .base16, .base256]

/-- For every preset the digits 0 .. SINGLE_BASE_MAX fit the single type, the base is SINGLE_BASE_MAX+1 (values
listed), the sum of two digits and a carry fits the double type, and so does the product of two digits. -/
theorem C53_limits :
    presets.map Limits.base = [256, 65536, 4294967296, 2, 8, 10, 16, 256] ∧
    ∀ L ∈ presets, L.minLimit = 0 ∧ L.maxLimit + 1 = L.base ∧ L.maxLimit < 2 ^ L.single.raw.bits ∧
      ∀ a b c, a ≤ L.maxLimit → b ≤ L.maxLimit → c ≤ 1 →
        a + b + c < 2 ^ L.double.raw.bits ∧ a * b < 2 ^ L.double.raw.bits := by
  refine ⟨by decide, ?_⟩
  intro L hL
  have hsq : ∀ a b m : Nat, a ≤ m → b ≤ m → a * b ≤ m * m := fun a b m h1 h2 => Nat.mul_le_mul h1 h2
  have hfac : L.maxLimit < 2 ^ L.single.raw.bits ∧ 2 * L.maxLimit + 1 < 2 ^ L.double.raw.bits ∧
      L.maxLimit * L.maxLimit < 2 ^ L.double.raw.bits := by
    revert L; decide
  refine ⟨rfl, rfl, hfac.1, fun a b c ha hb hc => ⟨by omega, Nat.lt_of_le_of_lt (hsq a b _ ha hb) hfac.2.2⟩⟩

/-- Every preset is a digit type to which the addition and subtraction theorems apply. -/
theorem C53_presets_supported : ∀ L ∈ presets, Supported L := by
  intro L hL
  simp only [presets, List.mem_cons, List.not_mem_nil, or_false] at hL
  rcases hL with rfl | rfl | rfl | rfl | rfl | rfl | rfl | rfl
  · exact .inl .lowp
  · exact .inl .medp
  · exact .inl .highp
  · exact .inr ⟨8, 1, by norm_num, by norm_num, by norm_num, rfl⟩
  · exact .inr ⟨16, 7, by norm_num, by norm_num, by norm_num, rfl⟩
  · exact .inr ⟨32, 9, by norm_num, by norm_num, by norm_num, rfl⟩
  · exact .inr ⟨32, 15, by norm_num, by norm_num, by norm_num, rfl⟩
  · exact .inr ⟨16, 255, by norm_num, by norm_num, by norm_num, rfl⟩

/-! ### C54 -/

theorem C54_assert_true (t : ErrType) (msg : String) : runtimeAssert true t msg = ⟨[], [], none⟩ := rfl

theorem C54_assert_false (t : ErrType) (msg : String) :
    (runtimeAssert false .alert msg = ⟨["ALERT: " ++ msg ++ "\n"], [], none⟩) ∧
    (runtimeAssert false .warning msg = ⟨[], ["WARNING: " ++ msg ++ "\n"], none⟩) ∧
    (runtimeAssert false .error msg = ⟨[], ["ERROR: " ++ msg ++ "\n"], some .error⟩) ∧
    ((runtimeAssert false t msg).thrown ≠ none ↔ t = .error) := by
  refine ⟨by simp [runtimeAssert, ErrType.toNat], by simp [runtimeAssert, ErrType.toNat], by
    simp [runtimeAssert, ErrType.toNat], ?_⟩
  cases t <;> simp [runtimeAssert, ErrType.toNat]

end BN
