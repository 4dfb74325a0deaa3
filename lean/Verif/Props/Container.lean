import Verif.Model.Container
import Verif.Lemmas.Samples
import Verif.Props.Object
/-
C128: vectors of numbers. C129: numbers moved into a vector.
-/
namespace BN
open Bignum

/-! ### Specification -/

/-- The memory for a copy of `x` is to be had. -/
def Given (env : Env) (x : Bignum) : Prop := x.getData = [] ∨ env.alloc x.size = true

/-- Everything that a call needs for longer storage of `n` places is to be had: the places and a copy of every element. -/
def Regrows (S : Around) (v : Numbers) (n : Nat) : Prop :=
  S.slots n = true ∧ ∀ i x, v.items[i]? = some x → Given (S.old i) x

/-- What a call does to a sequence. -/
def Call.onList (l : List Bignum) : Call → List Bignum
  | .pushCopy x => l ++ [x]
  | .pushMove x => l ++ [x]
  | .pushOwn i => l ++ (l[i]?).toList
  | .insert pos x => l.take pos ++ x :: l.drop pos
  | .erase pos => l.take pos ++ l.drop (pos + 1)
  | .reserve _ => l
  | .popBack => l.dropLast

/-- The call names a place of the vector. -/
def Call.Legal (l : List Bignum) : Call → Prop
  | .pushOwn i => i < l.length
  | .insert pos _ => pos ≤ l.length
  | .erase pos => pos < l.length
  | .popBack => l ≠ []
  | _ => True

/-- What the call asks the allocator for is granted. -/
def Call.Granted (grow : Nat → Nat) (S : Around) (v : Numbers) : Call → Prop
  | .pushCopy x => Given S.fresh x ∧ (v.cap ≤ v.items.length → Regrows S v (grow v.items.length))
  | .pushMove _ => v.cap ≤ v.items.length → Regrows S v (grow v.items.length)
  | .pushOwn i => (∀ x, v.items[i]? = some x → Given S.fresh x) ∧
      (v.cap ≤ v.items.length → Regrows S v (grow v.items.length))
  | .insert _ x => Given S.fresh x ∧ (v.cap ≤ v.items.length → Regrows S v (grow v.items.length))
  | .reserve n => v.cap < n → Regrows S v n
  | .erase _ => True
  | .popBack => True

/-- A vector as the standard library keeps it. -/
def Numbers.Ok (v : Numbers) : Prop := v.items.length ≤ v.cap

/-! ### Lemmas -/

theorem copy_given {env : Env} {x : Bignum} (h : Given env x) : x.copy env = .ok x := by
  obtain ⟨d, ds⟩ := x
  unfold Bignum.copy Vec.copy
  rcases h with h | h
  · simp only [getData] at h; subst h; rfl
  · simp only [size] at h
    by_cases h0 : ds = []
    · subst h0; rfl
    · simp only [if_neg h0, h, if_true]; rfl

theorem copy_denied {env : Env} {x : Bignum} (h : ¬ Given env x) : x.copy env = .error (.exn .badAlloc) := by
  obtain ⟨d, ds⟩ := x
  unfold Given at h
  push Not at h
  simp only [getData, size] at h
  unfold Bignum.copy Vec.copy
  simp only [if_neg h.1, h.2]; rfl

theorem copyItems_given : ∀ (l : List Bignum) (E : Nat → Env), (∀ i x, l[i]? = some x → Given (E i) x) →
    copyItems E l = .ok l
  | [], _, _ => rfl
  | x :: l, E, h => by
    have h0 := copy_given (h 0 x rfl)
    have h1 := copyItems_given l (fun k => E (k + 1)) (fun i y hy => h (i + 1) y (by simpa using hy))
    simp only [copyItems, h0, h1]; rfl

theorem copyItems_denied : ∀ (l : List Bignum) (E : Nat → Env), (¬ ∀ i x, l[i]? = some x → Given (E i) x) →
    copyItems E l = .error (.exn .badAlloc)
  | [], _, h => absurd (fun i x hx => by simp at hx) h
  | x :: l, E, h => by
    by_cases h0 : Given (E 0) x
    · have h1 := copyItems_denied l (fun k => E (k + 1)) (by
        intro hh
        apply h
        intro i y hy
        cases i with
        | zero => simp at hy; subst hy; exact h0
        | succ i => exact hh i y (by simpa using hy))
      simp only [copyItems, copy_given h0, h1]; rfl
    · simp only [copyItems, copy_denied h0]; rfl

theorem copyItems_split (E : Nat → Env) (l : List Bignum) (p : Nat) :
    (∀ i x, l[i]? = some x → Given (E i) x) ↔
    (∀ i x, (l.take p)[i]? = some x → Given (E i) x) ∧ (∀ i x, (l.drop p)[i]? = some x → Given (E (p + i)) x) := by
  constructor
  · intro h
    refine ⟨fun i x hx => h i x ?_, fun i x hx => h (p + i) x ?_⟩
    · rw [List.getElem?_take] at hx
      split at hx
      · exact hx
      · simp at hx
    · rw [List.getElem?_drop] at hx; exact hx
  · rintro ⟨h1, h2⟩ i x hx
    by_cases hi : i < p
    · exact h1 i x (by rw [List.getElem?_take, if_pos hi]; exact hx)
    · have := h2 (i - p) x (by rw [List.getElem?_drop]; rwa [show p + (i - p) = i by omega])
      rwa [show p + (i - p) = i by omega] at this

theorem moveItem_down (a : List Bignum) (x y : Bignum) (c : List Bignum) :
    moveItem (a ++ x :: y :: c) a.length (a.length + 1) = a ++ y :: ⟨.pos, []⟩ :: c := by
  have h : (a ++ x :: y :: c)[a.length + 1]? = some y := by simp
  simp only [moveItem, h, moveAssign]
  simp

theorem moveDown_eq : ∀ (b a : List Bignum) (x : Bignum),
    ∃ y, moveDown (a ++ x :: b) a.length b.length = a ++ b ++ [y]
  | [], a, x => ⟨x, by simp [moveDown]⟩
  | z :: b, a, x => by
    obtain ⟨y, hy⟩ := moveDown_eq b (a ++ [z]) ⟨.pos, []⟩
    refine ⟨y, ?_⟩
    simp only [List.length_cons, moveDown]
    rw [moveItem_down]
    simpa using hy

theorem moveItem_up (a : List Bignum) (x y : Bignum) (c : List Bignum) :
    moveItem (a ++ x :: y :: c) (a.length + 1) a.length = a ++ ⟨.pos, []⟩ :: x :: c := by
  have h : (a ++ x :: y :: c)[a.length]? = some x := by simp
  simp only [moveItem, h, moveAssign]
  simp

theorem moveUp_eq (a : List Bignum) : ∀ (n : Nat) (b : List Bignum) (y : Bignum) (c : List Bignum), b.length = n →
    ∃ y', moveUp (a ++ b ++ y :: c) a.length n = a ++ y' :: b ++ c
  | 0, b, y, c, h => by
    obtain rfl := List.length_eq_zero_iff.1 h
    exact ⟨y, by simp [moveUp]⟩
  | n + 1, b, y, c, h => by
    obtain ⟨b', z, rfl⟩ : ∃ b' z, b = b' ++ [z] := ⟨b.dropLast, b.getLast (by intro h0; simp [h0] at h), by rw [List.dropLast_append_getLast]⟩
    have hl : b'.length = n := by simpa using h
    obtain ⟨y', hy⟩ := moveUp_eq a n b' ⟨.pos, []⟩ (z :: c) hl
    refine ⟨y', ?_⟩
    have := moveItem_up (a ++ b') z y c
    simp only [List.length_append, hl] at this
    simp only [moveUp]
    rw [show a ++ (b' ++ [z]) ++ y :: c = a ++ b' ++ z :: y :: c by simp, this, hy]
    simp

namespace Sample

/-- A full vector holding 199, -23 and NaN. -/
def three : Numbers := ⟨[n199, m23, ⟨.nan, []⟩], 3⟩

/-- Surroundings that grant everything. -/
def around : Around := ⟨fun _ => true, releaseEnv, fun _ => releaseEnv⟩

/-- Surroundings that refuse more than two digits for an old element. -/
def tight : Around := ⟨fun _ => true, releaseEnv, fun _ => ⟨fun n => decide (n < 3), false⟩⟩

end Sample

/-! ### C128 -/

/-- `v.erase(v.begin() + pos)` asks for no memory and takes out one number; the others stay as they are. -/
theorem C128_erase (v : Numbers) (pos : Nat) (h : pos < v.items.length) :
    v.erase pos = (⟨v.items.take pos ++ v.items.drop (pos + 1), v.cap⟩, .ok ()) := by
  unfold Numbers.erase
  rw [if_pos h]
  have hd : v.items = v.items.take pos ++ v.items[pos] :: v.items.drop (pos + 1) := by simp
  have hl : (v.items.take pos).length = pos := by simp; omega
  have hn : (v.items.drop (pos + 1)).length = v.items.length - (pos + 1) := by simp
  obtain ⟨y, hy⟩ := moveDown_eq (v.items.drop (pos + 1)) (v.items.take pos) v.items[pos]
  rw [← hd, hl, hn] at hy
  rw [hy]
  simp

example := C128_erase Sample.three 0 (by decide)

/-- `v.insert(v.begin() + pos, x)`: if everything asked for is granted, `x` comes to its place and the others stay
as they are; otherwise `bad_alloc` and the vector is as before. -/
theorem C128_insert (grow : Nat → Nat) (S : Around) (v : Numbers) (pos : Nat) (x : Bignum) (h : pos ≤ v.items.length) :
    (Call.Granted grow S v (.insert pos x) ∧ v.insert grow S pos x =
      (⟨v.items.take pos ++ x :: v.items.drop pos, if v.items.length < v.cap then v.cap else grow v.items.length⟩, .ok ())) ∨
    (¬ Call.Granted grow S v (.insert pos x) ∧ v.insert grow S pos x = (v, .error (.exn .badAlloc))) := by
  unfold Numbers.insert
  rw [if_neg (by omega)]
  by_cases hx : Given S.fresh x
  · by_cases hc : v.items.length < v.cap
    · left
      refine ⟨⟨hx, fun hh => by omega⟩, ?_⟩
      rw [if_pos hc, if_pos hc, copy_given hx]
      cases hz : v.items.getLast? with
      | none =>
        rw [List.getLast?_eq_none_iff] at hz
        rw [hz]
        simp [Numbers.commit, bind, Except.bind]
      | some z =>
        by_cases hp : pos = v.items.length
        · subst hp
          simp [Numbers.commit, bind, Except.bind]
        · obtain ⟨b, hb⟩ : ∃ b, v.items.drop pos = b ++ [z] := by
            refine ⟨(v.items.drop pos).dropLast, ?_⟩
            have hne : v.items.drop pos ≠ [] := by
              intro h0; rw [List.drop_eq_nil_iff] at h0; omega
            have : (v.items.drop pos).getLast hne = z := by
              rw [List.getLast_drop]
              have := List.getLast?_eq_some_getLast (l := v.items) (by intro h0; simp [h0] at hz)
              rw [this] at hz; simpa using hz
            rw [← this, List.dropLast_append_getLast]
          have hi : v.items = v.items.take pos ++ (b ++ [z]) := by rw [← hb]; simp
          have hla : (v.items.take pos).length = pos := by simp; omega
          have hlen : v.items.length = pos + (b.length + 1) := by
            have := congrArg List.length hi
            simp only [List.length_append, hla] at this
            simpa using this
          have hset : v.items.set (v.items.length - 1) (moveCtor z).2 = v.items.take pos ++ b ++ [(moveCtor z).2] := by
            rw [show v.items.length - 1 = (v.items.take pos ++ b).length by simp only [List.length_append, hla]; omega]
            conv_lhs => rw [hi]
            rw [← List.append_assoc, List.set_append_right _ _ (by simp [hla])]
            simp [hla]
          obtain ⟨y', hy⟩ := moveUp_eq (v.items.take pos) b.length b (moveCtor z).2 [(moveCtor z).1] rfl
          rw [hla] at hy
          simp only [bind, Except.bind, if_neg hp, Numbers.commit]
          rw [hset, show v.items.length - 1 - pos = b.length by omega, List.append_assoc _ [_] [_]]
          simp only [List.singleton_append]
          rw [hy, hb]
          congr 2
          rw [List.append_assoc, List.set_append_right _ _ (by omega), hla]
          simp [moveAssign, moveCtor]
    · by_cases hr : Regrows S v (grow v.items.length)
      · left
        refine ⟨⟨hx, fun _ => hr⟩, ?_⟩
        have hs := (copyItems_split S.old v.items pos).1 hr.2
        have h1 := copyItems_given _ S.old hs.1
        have h2 := copyItems_given _ (fun k => S.old (pos + k)) hs.2
        simp only [if_neg hc, newRoom, hr.1, copy_given hx, h1, h2]
        rfl
      · right
        refine ⟨fun hh => hr (hh.2 (by omega)), ?_⟩
        simp only [if_neg hc, newRoom]
        by_cases hs : S.slots (grow v.items.length) = true
        · have hg : ¬ ∀ i x, v.items[i]? = some x → Given (S.old i) x := fun hh => hr ⟨hs, hh⟩
          rw [copyItems_split S.old v.items pos] at hg
          simp only [hs, copy_given hx]
          by_cases h1 : ∀ i x, (v.items.take pos)[i]? = some x → Given (S.old i) x
          · have h2 : ¬ ∀ i x, (v.items.drop pos)[i]? = some x → Given (S.old (pos + i)) x := fun h2 => hg ⟨h1, h2⟩
            rw [copyItems_given _ _ h1, copyItems_denied _ (fun k => S.old (pos + k)) h2]
            rfl
          · rw [copyItems_denied _ _ h1]; rfl
        · simp only [hs]; rfl
  · right
    refine ⟨fun hh => hx hh.1, ?_⟩
    by_cases hc : v.items.length < v.cap
    · simp only [if_pos hc, copy_denied hx]; rfl
    · simp only [if_neg hc, newRoom, copy_denied hx]
      by_cases hs : S.slots (grow v.items.length) = true <;> simp only [hs] <;> rfl

example := C128_insert (fun n => n + 1) Sample.around Sample.three 1 Sample.n23 (by decide)

/-- `v.push_back(x)`: if everything asked for is granted, `x` is appended and the others stay as they are; otherwise
`bad_alloc` and the vector is as before. A full vector asks for the digits of EVERY element. -/
theorem C128_push (grow : Nat → Nat) (S : Around) (v : Numbers) (x : Bignum) :
    (Call.Granted grow S v (.pushCopy x) ∧ v.pushCopy grow S x =
      (⟨v.items ++ [x], if v.items.length < v.cap then v.cap else grow v.items.length⟩, .ok ())) ∨
    (¬ Call.Granted grow S v (.pushCopy x) ∧ v.pushCopy grow S x = (v, .error (.exn .badAlloc))) := by
  unfold Numbers.pushCopy
  by_cases hx : Given S.fresh x
  · by_cases hc : v.items.length < v.cap
    · left
      refine ⟨⟨hx, fun hh => by omega⟩, ?_⟩
      rw [if_pos hc, if_pos hc, copy_given hx]; rfl
    · by_cases hr : Regrows S v (grow v.items.length)
      · left
        refine ⟨⟨hx, fun _ => hr⟩, ?_⟩
        simp only [if_neg hc, newRoom, hr.1, copy_given hx, copyItems_given _ _ hr.2]; rfl
      · right
        refine ⟨fun hh => hr (hh.2 (by omega)), ?_⟩
        simp only [if_neg hc, newRoom, copy_given hx]
        by_cases hs : S.slots (grow v.items.length) = true
        · simp only [hs, copyItems_denied _ _ (fun hh => hr ⟨hs, hh⟩)]; rfl
        · simp only [hs]; rfl
  · right
    refine ⟨fun hh => hx hh.1, ?_⟩
    by_cases hc : v.items.length < v.cap
    · simp only [if_pos hc, copy_denied hx]; rfl
    · simp only [if_neg hc, newRoom, copy_denied hx]
      by_cases hs : S.slots (grow v.items.length) = true <;> simp only [hs] <;> rfl

/-- `v.push_back(std::move(x))`, the four ways it can end: with room left nothing is asked for; a full vector asks for longer storage
and for the digits of every element; `x` is given up as soon as the storage is there. -/
theorem C129_push_move (grow : Nat → Nat) (S : Around) (v : Numbers) (x : Bignum) :
    (v.items.length < v.cap → v.pushMove grow S x = (⟨v.items ++ [x], v.cap⟩, ⟨x.desc, []⟩, .ok ())) ∧
    (v.cap ≤ v.items.length → Regrows S v (grow v.items.length) →
      v.pushMove grow S x = (⟨v.items ++ [x], grow v.items.length⟩, ⟨x.desc, []⟩, .ok ())) ∧
    (v.cap ≤ v.items.length → S.slots (grow v.items.length) = false →
      v.pushMove grow S x = (v, x, .error (.exn .badAlloc))) ∧
    (v.cap ≤ v.items.length → S.slots (grow v.items.length) = true → ¬ Regrows S v (grow v.items.length) →
      v.pushMove grow S x = (v, ⟨x.desc, []⟩, .error (.exn .badAlloc))) := by
  unfold Numbers.pushMove
  refine ⟨fun h => ?_, fun h hr => ?_, fun h hs => ?_, fun h hs hr => ?_⟩
  · rw [if_pos h]; rfl
  · rw [if_neg (by omega)]
    simp only [newRoom, hr.1, if_true, copyItems_given _ _ hr.2, moveCtor]
  · rw [if_neg (by omega)]
    simp [newRoom, hs]
  · rw [if_neg (by omega)]
    simp only [newRoom, hs, if_true, copyItems_denied _ _ (fun hh => hr ⟨hs, hh⟩), moveCtor]

example := (C129_push_move (fun n => 2 * n) Sample.tight Sample.three Sample.n23).2.2.2 (by decide) rfl
  (fun h => by have := h.2 0 Sample.n199 rfl; revert this; unfold Given; decide)

/-- Every call that names a place of the vector either does to the numbers what it does to a sequence, and the vector stays in order, or
throws `bad_alloc` and leaves the vector exactly as it was; the first happens exactly if what it asks for is granted. -/
theorem C128_call (grow : Nat → Nat) (hg : ∀ n, n < grow n) (S : Around) (v : Numbers) (hv : v.Ok) (c : Call)
    (hc : c.Legal v.items) :
    (c.Granted grow S v ∧ (c.run grow S v).2 = .ok () ∧ (c.run grow S v).1.items = c.onList v.items ∧ (c.run grow S v).1.Ok) ∨
    (¬ c.Granted grow S v ∧ c.run grow S v = (v, .error (.exn .badAlloc))) := by
  have hcap : ∀ l : List Bignum, l.length = v.items.length + 1 →
      l.length ≤ if v.items.length < v.cap then v.cap else grow v.items.length := by
    intro l hl
    have := hg v.items.length
    split <;> omega
  cases c with
  | pushCopy x =>
    rcases C128_push grow S v x with ⟨h1, h2⟩ | ⟨h1, h2⟩
    · left
      simp only [Call.run, h2]
      exact ⟨h1, trivial, rfl, hcap _ (by simp)⟩
    · exact .inr ⟨h1, h2⟩
  | pushMove x =>
    obtain ⟨h1, h2, h3, h4⟩ := C129_push_move grow S v x
    by_cases hr : v.items.length < v.cap
    · left
      simp only [Call.run, h1 hr]
      exact ⟨fun h => absurd h (by omega), trivial, rfl, by simpa [Numbers.Ok] using Nat.succ_le_of_lt hr⟩
    · by_cases hre : Regrows S v (grow v.items.length)
      · left
        simp only [Call.run, h2 (by omega) hre]
        exact ⟨fun _ => hre, trivial, rfl, by simpa [Numbers.Ok] using Nat.succ_le_of_lt (hg _)⟩
      · right
        refine ⟨fun h => hre (h (by omega)), ?_⟩
        cases hs : S.slots (grow v.items.length) with
        | false => simp only [Call.run, h3 (by omega) hs]
        | true => simp only [Call.run, h4 (by omega) hs hre]
  | pushOwn i =>
    have hi : v.items[i]? = some v.items[i] := List.getElem?_eq_getElem hc
    rcases C128_push grow S v v.items[i] with ⟨h1, h2⟩ | ⟨h1, h2⟩
    · left
      simp only [Call.run, hi, h2, Call.onList, Option.toList_some, Call.Granted]
      exact ⟨⟨fun x hx => by cases hx; exact h1.1, h1.2⟩, trivial, trivial, hcap _ (by simp)⟩
    · right
      simp only [Call.run, hi, h2, Call.Granted]
      exact ⟨fun h => h1 ⟨h.1 _ rfl, h.2⟩, trivial⟩
  | insert pos x =>
    rcases C128_insert grow S v pos x hc with ⟨h1, h2⟩ | ⟨h1, h2⟩
    · left
      simp only [Call.run, h2]
      refine ⟨h1, trivial, rfl, hcap _ ?_⟩
      have : pos ≤ v.items.length := hc
      simp; omega
    · exact .inr ⟨h1, h2⟩
  | erase pos =>
    left
    simp only [Call.run, C128_erase v pos hc]
    refine ⟨trivial, trivial, rfl, ?_⟩
    simp only [Numbers.Ok] at hv ⊢
    simp; omega
  | reserve n =>
    simp only [Call.run, Numbers.reserve, Call.Granted, Call.onList]
    by_cases hn : n ≤ v.cap
    · left
      rw [if_pos hn]
      exact ⟨fun h => absurd h (by omega), rfl, rfl, hv⟩
    · rw [if_neg hn]
      by_cases hr : Regrows S v n
      · left
        simp only [newRoom, hr.1, copyItems_given _ _ hr.2]
        refine ⟨fun _ => hr, rfl, rfl, ?_⟩
        simp only [Numbers.Ok] at hv
        show v.items.length ≤ n
        omega
      · right
        refine ⟨fun h => hr (h (by omega)), ?_⟩
        simp only [newRoom]
        by_cases hs : S.slots n = true
        · simp only [hs, copyItems_denied _ _ (fun hh => hr ⟨hs, hh⟩)]; rfl
        · simp only [hs]; rfl
  | popBack =>
    left
    simp only [Call.run, Numbers.popBack, if_neg (show v.items ≠ [] from hc)]
    refine ⟨trivial, trivial, rfl, ?_⟩
    simp only [Numbers.Ok] at hv ⊢
    simp; omega

example := C128_call (fun n => n + 1) (by simp) Sample.around Sample.three (le_refl 3) (.insert 2 Sample.n23)
  (by simp [Call.Legal, Sample.three])

/-- The sequence after those calls that did not throw. -/
def Call.replay : List Bignum → List Call → List (Res Unit) → List Bignum
  | l, c :: cs, .ok _ :: rs => Call.replay (c.onList l) cs rs
  | l, _ :: cs, .error _ :: rs => Call.replay l cs rs
  | l, _, _ => l

/-- The calls name places of the sequence they come to. -/
def Call.AllLegal : List Bignum → List Call → List (Res Unit) → Prop
  | l, c :: cs, .ok _ :: rs => c.Legal l ∧ Call.AllLegal (c.onList l) cs rs
  | l, c :: cs, .error _ :: rs => c.Legal l ∧ Call.AllLegal l cs rs
  | _, _, _ => True

/-- Any sequence of calls, with any answers of the allocator at any moment: the vector holds at the end what a sequence holds after
those calls that did not throw. No number is lost, doubled or changed by the others, and nothing but `bad_alloc` is thrown. -/
theorem C128_history (grow : Nat → Nat) (hg : ∀ n, n < grow n) :
    ∀ (cs : List Call) (S : Nat → Around) (v : Numbers), v.Ok → Call.AllLegal v.items cs (Call.runAll grow S v cs).2 →
    (Call.runAll grow S v cs).1.items = Call.replay v.items cs (Call.runAll grow S v cs).2 ∧
    ∀ r ∈ (Call.runAll grow S v cs).2, r = .ok () ∨ r = .error (.exn .badAlloc)
  | [], _, _, _, _ => ⟨rfl, by simp [Call.runAll]⟩
  | c :: cs, S, v, hv, hl => by
    simp only [Call.runAll] at hl ⊢
    have hleg : c.Legal v.items := by
      cases h : (c.run grow (S 0) v).2 with
      | ok _ => rw [h] at hl; exact hl.1
      | error _ => rw [h] at hl; exact hl.1
    rcases C128_call grow hg (S 0) v hv c hleg with ⟨-, h2, h3, h4⟩ | ⟨-, h2⟩
    · rw [h2] at hl ⊢
      have ih := C128_history grow hg cs (fun k => S (k + 1)) (c.run grow (S 0) v).1 h4 (by rw [h3]; exact hl.2)
      rw [h3] at ih
      refine ⟨ih.1, fun r hr => ?_⟩
      rcases List.mem_cons.1 hr with rfl | hr
      · exact .inl rfl
      · exact ih.2 r hr
    · simp only [h2] at hl ⊢
      have ih := C128_history grow hg cs (fun k => S (k + 1)) v hv hl.2
      refine ⟨ih.1, fun r hr => ?_⟩
      rcases List.mem_cons.1 hr with rfl | hr
      · exact .inr rfl
      · exact ih.2 r hr

/-- A vector that grows while copies are refused, then loses an element. -/
example := C128_history (fun n => n + 1) (by simp) [.pushCopy Sample.n23, .erase 0, .pushOwn 1, .pushMove Sample.n2]
  (fun i => if i = 0 then Sample.tight else Sample.around) Sample.three (le_refl 3)
  (by
    have h : (Call.runAll (fun n => n + 1) (fun i => if i = 0 then Sample.tight else Sample.around) Sample.three
      [.pushCopy Sample.n23, .erase 0, .pushOwn 1, .pushMove Sample.n2]).2 = [.error (.exn .badAlloc), .ok (), .ok (), .ok ()] := rfl
    rw [h]
    simp [Call.AllLegal, Call.Legal, Call.onList, Sample.three])

/-- Every request is granted. -/
def Around.Ample (S : Around) : Prop := (∀ n, S.slots n = true) ∧ S.fresh.Ample ∧ ∀ i, (S.old i).Ample

theorem Around.Ample.granted {S : Around} (h : S.Ample) (grow : Nat → Nat) (v : Numbers) (c : Call) : c.Granted grow S v := by
  have hf : ∀ x, Given S.fresh x := fun x => .inr (h.2.1 _)
  have hr : ∀ n, Regrows S v n := fun n => ⟨h.1 n, fun i x _ => .inr (h.2.2 i _)⟩
  cases c <;> simp only [Call.Granted] <;> grind

/-- The capacity that libstdc++ chooses: twice the size, at least one place. -/
def doubling (n : Nat) : Nat := n + max n 1

theorem copiesMade_le : ∀ (l : List Bignum) (S : Nat → Around) (v : Numbers), (∀ i, (S i).Ample) → v.Ok →
    copiesMade doubling S v l ≤ 3 * l.length + (2 * v.items.length - v.cap)
  | [], _, _, _, _ => by simp [copiesMade]
  | x :: l, S, v, hS, hv => by
    rcases C128_push doubling (S 0) v x with ⟨-, h2⟩ | ⟨h1, -⟩
    · have hok : (v.pushCopy doubling (S 0) x).1.Ok := by
        rw [h2]
        simp only [Numbers.Ok, List.length_append, List.length_singleton, doubling] at hv ⊢
        split <;> omega
      have ih := copiesMade_le l (fun k => S (k + 1)) _ (fun i => hS (i + 1)) hok
      simp only [copiesMade, List.length_cons]
      rw [h2] at ih ⊢
      simp only [Numbers.Ok, List.length_append, List.length_singleton, doubling] at hv ih ⊢
      split at ih <;> split <;> omega
    · exact absurd ((hS 0).granted doubling v (.pushCopy x)) h1

theorem copiesMade_ge : ∀ (l : List Bignum) (S : Nat → Around) (v : Numbers), (∀ i, (S i).Ample) → v.Ok →
    2 * l.length + v.items.length ≤ copiesMade doubling S v l + max v.cap 1
  | [], _, v, _, hv => by simp only [Numbers.Ok] at hv; simp [copiesMade]; omega
  | x :: l, S, v, hS, hv => by
    rcases C128_push doubling (S 0) v x with ⟨-, h2⟩ | ⟨h1, -⟩
    · have hok : (v.pushCopy doubling (S 0) x).1.Ok := by
        rw [h2]
        simp only [Numbers.Ok, List.length_append, List.length_singleton, doubling] at hv ⊢
        split <;> omega
      have ih := copiesMade_ge l (fun k => S (k + 1)) _ (fun i => hS (i + 1)) hok
      simp only [copiesMade, List.length_cons]
      rw [h2] at ih ⊢
      simp only [Numbers.Ok, List.length_append, List.length_singleton, doubling] at hv ih ⊢
      split at ih <;> split <;> omega
    · exact absurd ((hS 0).granted doubling v (.pushCopy x)) h1

/-- With libstdc++'s doubling, appending `n` numbers to an empty vector copies at most `3 n` and at least `2 n - 1` numbers in all (`n` if
the old ones were moved), although one `push_back` may copy them all. -/
theorem C128_amortised (l : List Bignum) (S : Nat → Around) (hS : ∀ i, (S i).Ample) :
    copiesMade doubling S ⟨[], 0⟩ l ≤ 3 * l.length ∧ 2 * l.length ≤ copiesMade doubling S ⟨[], 0⟩ l + 1 :=
  ⟨by simpa using copiesMade_le l S ⟨[], 0⟩ hS (by simp [Numbers.Ok]), by simpa using copiesMade_ge l S ⟨[], 0⟩ hS (by simp [Numbers.Ok])⟩

example := C128_amortised [Sample.n199, Sample.m23, Sample.n1] (fun _ => Sample.around)
  (fun _ => ⟨fun _ => rfl, Sample.ample, fun _ => Sample.ample⟩)

/-! ### C129 -/

/-- A number that is moved into a vector can be lost: the call throws, the vector is as it was and the number is gone. -/
theorem C129_refuted : ∃ (S : Around) (v w : Numbers) (x x' : Bignum), WF .base10 x ∧ v.Ok ∧
    v.pushMove doubling S x = (w, x', .error (.exn .badAlloc)) ∧ w.items = v.items ∧ x ∉ w.items ∧
    x'.toInt .base10 ≠ x.toInt .base10 := by
  refine ⟨⟨fun _ => true, releaseEnv, fun _ => ⟨fun n => decide (n < 3), false⟩⟩, ⟨[Sample.n199], 1⟩, ⟨[Sample.n199], 1⟩, Sample.n23,
    ⟨.pos, []⟩, by sample, le_refl 1, ?_, rfl, by decide, by decide⟩
  refine (C129_push_move _ _ _ _).2.2.2 (by decide) rfl ?_
  intro h
  have := h.2 0 Sample.n199 rfl
  revert this
  unfold Given
  decide

/-- What holds: a number with digits is lost exactly if the vector is full, the longer storage is granted and a copy of one of the numbers
already in the vector is refused. In particular it is not lost with room in the vector, so not after `reserve`. Missing: those cases. -/
theorem C129_lost_iff_partial (grow : Nat → Nat) (S : Around) (v : Numbers) (hv : v.Ok) (x : Bignum) :
    (∃ x' e, v.pushMove grow S x = (v, x', .error e) ∧ x' ≠ x) ↔
    (v.items.length = v.cap ∧ S.slots (grow v.items.length) = true ∧
      (∃ (i : Nat) (y : Bignum), v.items[i]? = some y ∧ ¬ Given (S.old i) y) ∧ x.getData ≠ []) := by
  obtain ⟨h1, h2, h3, h4⟩ := C129_push_move grow S v x
  have hx : (⟨x.desc, []⟩ : Bignum) ≠ x ↔ x.getData ≠ [] := by
    obtain ⟨d, ds⟩ := x
    simp [getData, eq_comm]
  simp only [Numbers.Ok] at hv
  by_cases hr : v.items.length < v.cap
  · rw [h1 hr]
    exact ⟨fun ⟨_, _, h, _⟩ => by simp at h, fun h => by omega⟩
  · have hc : v.cap ≤ v.items.length := by omega
    cases hs : S.slots (grow v.items.length) with
    | false =>
      rw [h3 hc hs]
      refine ⟨fun ⟨x', e, h, hne⟩ => ?_, fun h => by simp at h⟩
      simp only [Prod.mk.injEq, true_and] at h
      exact absurd h.1.symm hne
    | true =>
      by_cases hre : Regrows S v (grow v.items.length)
      · rw [h2 hc hre]
        refine ⟨fun ⟨_, _, h, _⟩ => by simp at h, fun ⟨_, _, ⟨i, y, hi, hn⟩, _⟩ => absurd (hre.2 i y hi) hn⟩
      · rw [h4 hc hs hre]
        have hex : ∃ (i : Nat) (y : Bignum), v.items[i]? = some y ∧ ¬ Given (S.old i) y := by
          by_contra hno
          push Not at hno
          exact hre ⟨hs, hno⟩
        constructor
        · rintro ⟨x', e, h, hne⟩
          simp only [Prod.mk.injEq, true_and] at h
          rw [← h.1] at hne
          exact ⟨by omega, rfl, hex, hx.1 hne⟩
        · rintro ⟨_, _, _, hd⟩
          exact ⟨_, _, rfl, hx.2 hd⟩

example := C129_lost_iff_partial doubling Sample.tight Sample.three (le_refl 3) Sample.n23

end BN
