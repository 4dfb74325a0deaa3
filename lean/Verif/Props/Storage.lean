import Verif.Lemmas.Storage
import Verif.Lemmas.Sub
import Verif.Lemmas.Samples
import Verif.Props.Memory
import Verif.Props.Addition
import Verif.Props.Subtraction
/-
C143: the storage of a number is reused.
-/
namespace BN
open Bignum

theorem handleH_out (this : Bignum) (d : Desc) (r : Res Held) : (handleH this d r).out = handle this d (r.map Held.num) := by
  rcases r with (u | e | _) | h
  · rfl
  · cases e <;> rfl
  · rfl
  · rfl

theorem strongH_out (this : Bignum) (r : Res Held) : (strongH this r).out = strong this (r.map Held.num) := by
  rcases r with (u | e | _) | h <;> rfl

theorem handleH_ok {this : Bignum} {d : Desc} {r : Res Held} {y : Held} : handleH this d r = .ok y ↔ r = .ok y := by
  constructor
  · intro h
    rcases r with (u | e | _) | x
    · cases h
    · cases e <;> cases h
    · cases h
    · cases h; rfl
  · rintro rfl; rfl

theorem strongH_ok {this : Bignum} {r : Res Held} {y : Held} : strongH this r = .ok y ↔ r = .ok y := by
  constructor
  · intro h
    rcases r with (u | e | _) | x <;> cases h
    rfl
  · rintro rfl; rfl

theorem handle_ok' {this : Bignum} {d : Desc} {r : Res Bignum} {b : Bignum} (h : handle this d r = .ok b) : r = .ok b := by
  rcases r with (u | e | _) | x
  · cases h
  · cases e <;> cases h
  · cases h
  · cases h; rfl

theorem strong_ok' {this : Bignum} {r : Res Bignum} {b : Bignum} (h : strong this r = .ok b) : r = .ok b := by
  rcases r with (u | e | _) | x <;> cases h
  rfl

/-! ### The length of a difference -/

theorem subBody_length {L : Limits} {src : Src} {s t : SubSt} {b : Bool} (h : subBody L src s = .ok (t, b)) : t.larger.length = s.larger.length := by
  unfold subBody at h
  cases e1 : digitOrZero L (src.get s.larger) s.inIter with
  | error _ => rw [e1] at h; cases h
  | ok i =>
    rw [e1, ok_bind] at h
    cases e2 : Vec.rd s.larger s.outIter with
    | error _ => rw [e2] at h; cases h
    | ok o =>
      rw [e2, ok_bind] at h
      cases e3 : subDigit L o i s.numBorrowed with
      | error _ => rw [e3] at h; cases h
      | ok p =>
        rw [e3, ok_bind] at h
        simp only at h
        unfold Vec.wr at h
        by_cases hi : s.outIter < s.larger.length
        · rw [if_pos hi, ok_bind] at h
          cases h
          simp
        · rw [if_neg hi] at h; cases h

theorem subLoop_length {L : Limits} {src : Src} : ∀ {n : Nat} {s t : SubSt}, loopForever (subBody L src) n s = .ok t → t.larger.length = s.larger.length
  | 0, _, _, h => by cases h
  | n + 1, s, t, h => by
    unfold loopForever at h
    cases e : subBody L src s with
    | error _ => rw [e] at h; cases h
    | ok p =>
      obtain ⟨u, b⟩ := p
      rw [e, ok_bind] at h
      simp only at h
      by_cases hb : b = true
      · rw [if_pos hb] at h; cases h; exact subBody_length e
      · rw [if_neg hb] at h; rw [subLoop_length h, subBody_length e]

theorem popZeros_shorter : ∀ (i : Nat) {v w : List Nat}, popZeros v i = .ok w → w.length ≤ v.length
  | 0, _, _, h => by cases h; exact le_rfl
  | i + 1, v, w, h => by
    unfold popZeros at h
    cases e : Vec.rd v i with
    | error _ => rw [e] at h; cases h
    | ok d =>
      rw [e, ok_bind] at h
      by_cases hd : d = 0
      · rw [if_pos hd] at h
        unfold Vec.popBack at h
        by_cases hv : v = []
        · rw [if_pos hv] at h; cases h
        · rw [if_neg hv, ok_bind] at h
          have := popZeros_shorter i h
          simp at this
          omega
      · rw [if_neg hd] at h; cases h; exact le_rfl

theorem absSub_shorter {L : Limits} {env : Env} {n : Nat} {v w : List Nat} {src : Src} (h : absSub L env n v src = .ok w) : w.length ≤ v.length := by
  unfold absSub at h
  cases e : subDebugCheck env v (src.get v) with
  | error _ => rw [e] at h; cases h
  | ok _ =>
    rw [e, ok_bind] at h
    cases e2 : loopForever (subBody L src) n ⟨v, 0, 0, L.toDouble 0⟩ with
    | error _ => rw [e2] at h; cases h
    | ok s =>
      rw [e2, ok_bind] at h
      have h1 := popZeros_shorter _ h
      rw [subLoop_length e2] at h1
      exact h1

/-- The number in its storage, and the storage is large enough. -/
def Housed (r : Res Held) (q : Res Bignum) : Prop := r.map Held.num = q ∧ ∀ y, r = .ok y → y.num.digits.length ≤ y.room

theorem Housed.bind {α : Type} {r : Res α} {f : α → Res Held} {q : α → Res Bignum} (h : ∀ a, r = .ok a → Housed (f a) (q a)) :
    Housed (r >>= f) (r >>= q) := by
  cases r with
  | error e => exact ⟨rfl, fun _ h => by cases h⟩
  | ok a => exact h a rfl

theorem Housed.ite {p : Prop} [Decidable p] {f f' : Res Held} {q q' : Res Bignum} (h : p → Housed f q) (h' : ¬ p → Housed f' q') :
    Housed (if p then f else f') (if p then q else q') := by
  by_cases hp : p
  · rw [if_pos hp, if_pos hp]; exact h hp
  · rw [if_neg hp, if_neg hp]; exact h' hp

theorem copy_same {env : Env} {v w : List Nat} (h : Vec.copy env v = .ok w) : w = v := by
  unfold Vec.copy at h
  by_cases hv : v = []
  · rw [if_pos hv] at h; cases h; exact hv.symm
  · rw [if_neg hv] at h
    by_cases ha : env.alloc v.length = true
    · rw [if_pos ha] at h; cases h; rfl
    · rw [if_neg ha] at h; cases h

section
variable {g : Growth} {L : Limits}

theorem housed_sub {env : Env} {n : Nat} {x : Held} {src : Src} (hx : x.num.digits.length ≤ x.room) :
    Housed (subInPlace L env n x src) (absSub L env n x.num.digits src >>= fun d => .ok ⟨x.num.desc, d⟩) :=
  .bind fun d hd => ⟨rfl, fun y hy => by cases hy; exact (absSub_shorter hd).trans hx⟩

theorem housed_copy {env : Env} {n : Nat} {x : Held} {num : Bignum} {sign : Desc} :
    Housed (subFromCopy L env n x num sign) (num.copy env >>= fun t => absSub L env n t.digits (.other x.num.digits) >>= fun d => .ok ⟨sign, d⟩) := by
  refine .bind fun t ht => .bind fun d hd => ⟨rfl, fun y hy => ?_⟩
  cases hy
  unfold Bignum.copy at ht
  cases e : Vec.copy env num.digits with
  | error _ => rw [e] at ht; cases ht
  | ok w =>
    rw [e, ok_bind] at ht
    cases ht
    rw [← copy_same e]
    exact absSub_shorter hd

theorem housed_mixed {env : Env} {n : Nat} {x : Held} {num : Bignum} :
    Housed (subMixed L env n x num) (absGt x.num.digits num.digits >>= fun gt => Vec.copy env (if gt then x.num.digits else num.digits) >>= fun t =>
      absSub L env n t (.other num.digits) >>= fun d => .ok ⟨x.num.desc, d⟩) :=
  .bind fun _ _ => .bind fun _ _ => .bind fun d hd => ⟨rfl, fun y hy => by cases hy; exact absSub_shorter hd⟩

theorem housed_sum (hg : ∀ a b, b ≤ g a b) {env : Env} (hm : env.Ample) {n : Nat} {x : Held} {src : Src} (hx : x.num.digits.length ≤ x.room) :
    Housed (absAddH g L env n x.num.digits x.room x.moves src >>= fun d => .ok ⟨⟨x.num.desc, d.1⟩, d.2.1, d.2.2⟩)
      (absAdd L env n x.num.digits src >>= fun d => .ok ⟨x.num.desc, d⟩) := by
  obtain ⟨room', moves', e, -, -, h⟩ := absAddH_ample (L := L) (src := src) hg hm n x.num.digits x.room x.moves
  rw [e]
  cases e2 : absAdd L env n x.num.digits src with
  | error _ => exact ⟨rfl, fun _ h => by cases h⟩
  | ok w => exact ⟨rfl, fun y hy => by cases hy; exact h w e2 hx⟩

theorem housed_addTry (hg : ∀ a b, b ≤ g a b) {env : Env} (hm : env.Ample) {n : Nat} {x : Held} {r : Rhs} (hx : x.num.digits.length ≤ x.room) :
    Housed (addTryH g L env n x r) (addTry L env n x.num r) := by
  unfold addTryH addTry
  refine .ite (fun _ => housed_sum hg hm hx) fun _ => .ite (fun _ => .bind fun ge _ => .ite (fun _ => housed_sub hx) fun _ => housed_copy)
    fun _ => .ite (fun _ => .bind fun ge _ => .ite (fun _ => housed_sub hx) fun _ => housed_copy) fun _ => housed_sum hg hm hx

theorem housed_subTry {env : Env} {n : Nat} {x : Held} {r : Rhs} (hx : x.num.digits.length ≤ x.room) :
    Housed (subTryH L env n x r) (subTry L env n x.num r) := by
  unfold subTryH subTry
  refine .ite (fun _ => .bind fun ge _ => .ite (fun _ => housed_sub hx) fun _ => housed_copy) fun _ => .ite (fun _ => housed_mixed)
    fun _ => .ite (fun _ => housed_mixed) fun _ => .bind fun ge _ => .ite (fun _ => housed_sub hx) fun _ => housed_copy

theorem housed_room (hg : ∀ a b, b ≤ g a b) {env : Env} (hm : env.Ample) (x : Held) {m : Nat} {f q : Res Bignum} (hq : f = q)
    (hl : ∀ b, f = .ok b → b.digits.length ≤ max m x.num.digits.length) (hx : x.num.digits.length ≤ x.room) :
    (inRoom g env x m f).out = strong x.num q ∧ ∀ y, inRoom g env x m f = .ok y → y.num.digits.length ≤ y.room := by
  subst hq
  have key : Housed (roomFor g env x.num.digits.length m x.room x.moves >>= fun r => f >>= fun b => .ok ⟨b, r.1, r.2⟩) f := by
    have hr : ∃ r, roomFor g env x.num.digits.length m x.room x.moves = .ok r ∧ m ≤ r.1 ∧ x.num.digits.length ≤ max m r.1 := by
      unfold roomFor
      by_cases h : m ≤ x.room
      · exact ⟨_, if_pos h, h, by omega⟩
      · refine ⟨(g x.num.digits.length m, x.moves + 1), by rw [if_neg h, if_pos (hm _)], hg _ _, ?_⟩
        omega
    obtain ⟨r, e, h1, h2⟩ := hr
    rw [e, ok_bind]
    cases f with
    | error _ => exact ⟨rfl, fun _ h => by cases h⟩
    | ok b => exact ⟨rfl, fun y hy => by cases hy; have := hl b rfl; simp only; omega⟩
  exact ⟨by rw [inRoom, strongH_out]; exact congrArg _ key.1, fun y hy => key.2 y (strongH_ok.1 hy)⟩

theorem housed_storage (x : Held) {f : Res Bignum} (hx : x.num.digits.length ≤ x.room)
    (hl : ∀ b, f = .ok b → b.digits.length ≤ x.num.digits.length) :
    (inStorage x f).out = strong x.num f ∧ ∀ y, inStorage x f = .ok y → y.num.digits.length ≤ y.room := by
  cases f with
  | error e => rcases e with u | e | _ <;> exact ⟨rfl, fun _ h => by cases h⟩
  | ok b => exact ⟨rfl, fun y hy => by cases hy; exact (hl b rfl).trans hx⟩

/-- The calls that work in the storage of the number itself: all but sums of opposite signs and differences in which the other magnitude
is larger, and differences of opposite signs. -/
def Call1.InPlace (b : Bignum) : Call1 → Prop
  | .add r => (r.get b).desc = b.desc ∨ absGe b.digits (r.get b).digits = .ok true
  | .sub r => (r.get b).desc = b.desc ∧ absGe b.digits (r.get b).digits = .ok true
  | _ => True

/-- With enough memory a number in its storage is the number of the other modules, and its digits are in its storage. -/
theorem C143_same_numbers (hg : ∀ a b, b ≤ g a b) {env : Env} (hm : env.Ample) (n : Nat) {x : Held} (hx : x.num.digits.length ≤ x.room) (c : Call1) :
    (c.call g L env n x).out = c.plain L env n x.num ∧ ∀ y, c.call g L env n x = .ok y → y.num.digits.length ≤ y.room := by
  cases c with
  | clear => exact housed_storage x hx (fun b h => by cases h; exact Nat.zero_le _)
  | setDescriptor d => exact housed_storage x hx (fun b h => by cases h; cases d <;> simp [setDescriptor])
  | setAt k d =>
    refine housed_storage x hx (fun b h => ?_)
    unfold setAt Vec.wr at h
    by_cases hk : k < x.num.digits.length
    · rw [if_pos hk, if_pos hk] at h; cases h; simp
    · rw [if_neg hk] at h; cases h
  | popBack =>
    refine housed_storage x hx (fun b h => ?_)
    unfold Bignum.popBack Vec.popBack at h
    by_cases hk : x.num.digits = []
    · rw [if_pos hk] at h; cases h
    · rw [if_neg hk] at h; cases h; simp
  | pop p =>
    refine housed_storage x hx (fun b h => ?_)
    unfold Bignum.pop Vec.erase at h
    by_cases hk : p < x.num.digits.length
    · rw [if_pos hk] at h; cases h; simp [List.length_eraseIdx]; split <;> omega
    · rw [if_neg hk] at h; cases h
  | pushBack d =>
    have e : x.num.pushBack env d = .ok ⟨x.num.desc, x.num.digits ++ [d]⟩ := by
      unfold Bignum.pushBack Vec.pushBack; rw [if_pos (hm _)]; rfl
    refine housed_room hg hm x (f := .ok ⟨x.num.desc, x.num.digits ++ [d]⟩) e.symm (fun b h => ?_) hx
    cases h; simp
  | push d p =>
    simp only [Call1.call, Call1.plain]
    by_cases hp : x.num.digits.length < p
    · rw [if_pos hp]
      refine ⟨?_, fun _ h => by cases h⟩
      unfold Bignum.push Vec.insert; rw [if_pos hp]; rfl
    · rw [if_neg hp]
      have e : ∀ env : Env, env.Ample → x.num.push env d p = .ok ⟨x.num.desc, x.num.digits.take p ++ d :: x.num.digits.drop p⟩ := fun env hm => by
        unfold Bignum.push Vec.insert; rw [if_neg hp, if_pos (hm _)]; rfl
      refine housed_room hg hm x ((e _ (fun _ => rfl)).trans (e _ hm).symm) (fun b h => ?_) hx
      rw [e _ (fun _ => rfl)] at h
      cases h; simp; omega
  | resize m d =>
    have e : ∀ env : Env, env.Ample → x.num.resize env m d =
        .ok ⟨x.num.desc, if m ≤ x.num.digits.length then x.num.digits.take m else x.num.digits ++ List.replicate (m - x.num.digits.length) d⟩ :=
      fun env hm => by
        unfold Bignum.resize Vec.resize; rw [if_pos (hm _)]; split <;> rfl
    refine housed_room hg hm x ((e _ (fun _ => rfl)).trans (e _ hm).symm) (fun b h => ?_) hx
    rw [e _ (fun _ => rfl)] at h
    cases h; simp; split <;> simp <;> omega
  | add r =>
    simp only [Call1.call, Call1.plain, addAssign]
    by_cases hc : (!isComputable x.num.desc) = true
    · rw [if_pos hc, if_pos hc]
      exact ⟨rfl, fun y h => by cases h; simp [notComputable]⟩
    · rw [if_neg hc, if_neg hc]
      have h := housed_addTry (L := L) (n := n) (r := r) hg hm hx
      exact ⟨by rw [handleH_out, h.1], fun y hy => h.2 y (handleH_ok.1 hy)⟩
  | sub r =>
    simp only [Call1.call, Call1.plain, subAssign]
    by_cases hc : (!isComputable x.num.desc) = true
    · rw [if_pos hc, if_pos hc]
      exact ⟨rfl, fun y h => by cases h; simp [notComputable]⟩
    · rw [if_neg hc, if_neg hc]
      have h := housed_subTry (L := L) (env := env) (n := n) (r := r) hx
      exact ⟨by rw [handleH_out, h.1], fun y hy => h.2 y (handleH_ok.1 hy)⟩

/-- `95` with room for three digits. -/
def held95 : Held := ⟨⟨.pos, [5, 9]⟩, 3, 0⟩

example := C143_same_numbers (g := fun _ n => n) (L := .base10) (fun _ _ => le_rfl) Sample.ample 9 (x := held95) (by decide) (.add (.other ⟨.pos, [5]⟩))
example : Call1.call (fun _ n => n) .base10 releaseEnv 9 ⟨⟨.pos, [5, 9]⟩, 2, 0⟩ (.add (.other ⟨.pos, [5]⟩)) = .ok ⟨⟨.pos, [0, 0, 1]⟩, 3, 1⟩ := rfl

/-! ### Calls in the storage of the number -/

theorem addTry_inPlace {env env' : Env} {n : Nat} {x : Held} {r : Rhs} (h : Call1.InPlace x.num (.add r)) :
    (addTryH g L env n x r = (absAddH g L env n x.num.digits x.room x.moves r.src >>= fun d => .ok ⟨⟨x.num.desc, d.1⟩, d.2.1, d.2.2⟩) ∧
      addTry L env' n x.num r = (absAdd L env' n x.num.digits r.src >>= fun d => .ok ⟨x.num.desc, d⟩)) ∨
    (addTryH g L env n x r = subInPlace L env n x r.src ∧
      addTry L env' n x.num r = (absSub L env' n x.num.digits r.src >>= fun d => .ok ⟨x.num.desc, d⟩)) := by
  unfold addTryH addTry
  by_cases h1 : x.num.desc = .pos ∧ (r.get x.num).desc = .pos
  · left; simp only [if_pos h1, and_self]
  · simp only [if_neg h1]
    by_cases h2 : x.num.desc = .pos ∧ (r.get x.num).desc = .neg
    · rcases h with h | h
      · rw [h2.1, h2.2] at h; cases h
      · right; simp only [if_pos h2, h, ok_bind, if_true, and_self]
    · simp only [if_neg h2]
      by_cases h3 : x.num.desc = .neg ∧ (r.get x.num).desc = .pos
      · rcases h with h | h
        · rw [h3.1, h3.2] at h; cases h
        · right; simp only [if_pos h3, h, ok_bind, if_true, and_self]
      · left; simp only [if_neg h3, and_self]

theorem subTry_inPlace {env env' : Env} {n : Nat} {x : Held} {r : Rhs} (h : Call1.InPlace x.num (.sub r)) :
    subTryH L env n x r = subInPlace L env n x r.src ∧
      subTry L env' n x.num r = (absSub L env' n x.num.digits r.src >>= fun d => .ok ⟨x.num.desc, d⟩) := by
  obtain ⟨h, hge⟩ := h
  unfold subTryH subTry
  simp only [h, hge, ok_bind, if_true]
  cases x.num.desc <;> simp

theorem subInPlace_ok {env env' : Env} (hd : env'.debug = env.debug) {n : Nat} {x : Held} {src : Src} {b : Bignum}
    (h : (absSub L env' n x.num.digits src >>= fun d => .ok ⟨x.num.desc, d⟩) = .ok b) : subInPlace L env n x src = .ok ⟨b, x.room, x.moves⟩ := by
  have e : absSub L env' n x.num.digits src = absSub L env n x.num.digits src := by unfold absSub subDebugCheck; rw [hd]
  unfold subInPlace
  rw [e] at h
  cases e2 : absSub L env n x.num.digits src with
  | error _ => rw [e2] at h; cases h
  | ok d => rw [e2, ok_bind] at h; cases h; rfl

theorem inRoom_enough {env : Env} {x : Held} {m : Nat} {b : Bignum} (h : m ≤ x.room) : inRoom g env x m (.ok b) = .ok ⟨b, x.room, x.moves⟩ := by
  unfold inRoom roomFor; rw [if_pos h]; rfl

theorem pushBack_ample {env : Env} (hm : env.Ample) (b : Bignum) (d : Nat) : b.pushBack env d = .ok ⟨b.desc, b.digits ++ [d]⟩ := by
  unfold Bignum.pushBack Vec.pushBack; rw [if_pos (hm _)]; rfl

theorem push_ample {env : Env} (hm : env.Ample) (b : Bignum) (d : Nat) {p : Nat} (hp : ¬ b.digits.length < p) :
    b.push env d p = .ok ⟨b.desc, b.digits.take p ++ d :: b.digits.drop p⟩ := by
  unfold Bignum.push Vec.insert; rw [if_neg hp, if_pos (hm _)]; rfl

theorem push_outside (env : Env) (b : Bignum) (d : Nat) {p : Nat} (hp : b.digits.length < p) : b.push env d p = .error (.ub .outOfBounds) := by
  unfold Bignum.push Vec.insert; rw [if_pos hp]; rfl

theorem resize_ample' (b : Bignum) (m d : Nat) :
    ∃ v : List Nat, v.length = m ∧ ∀ env : Env, env.Ample → b.resize env m d = .ok ⟨b.desc, v⟩ := by
  refine ⟨if m ≤ b.digits.length then b.digits.take m else b.digits ++ List.replicate (m - b.digits.length) d, ?_, fun env hm => ?_⟩
  · split <;> simp <;> omega
  · unfold Bignum.resize Vec.resize; rw [if_pos (hm _)]; split <;> rfl

/-- How a call in the number's own storage goes: with room for the result it leaves the storage alone and asks for no memory; without room
and without memory it throws. -/
theorem inPlace_call {env env' : Env} (hm : env'.Ample) (hd : env'.debug = env.debug) (n : Nat) {x : Held} (hx : x.num.digits.length ≤ x.room)
    {c : Call1} (hc : c.InPlace x.num) {b : Bignum} (h : c.plain L env' n x.num = .ok b) :
    (b.digits.length ≤ x.room → c.call g L env n x = .ok ⟨b, x.room, x.moves⟩) ∧
    (x.room < b.digits.length → (∀ m, env.alloc m = false) → ∃ e s, c.call g L env n x = .threw e s) := by
  have st : ∀ {f : Res Bignum}, (∀ b, f = .ok b → b.digits.length ≤ x.num.digits.length) → strong x.num f = .ok b →
      (b.digits.length ≤ x.room → inStorage x f = .ok ⟨b, x.room, x.moves⟩) ∧
      (x.room < b.digits.length → (∀ m, env.alloc m = false) → ∃ e s, inStorage x f = .threw e s) := fun {f} hl h => by
    have e := strong_ok' h
    subst e
    have := hl b rfl
    exact ⟨fun _ => rfl, fun h' => by omega⟩
  have rm : ∀ {m : Nat} {v : List Nat} {d : Desc}, v.length = m → b = ⟨d, v⟩ →
      (b.digits.length ≤ x.room → inRoom g env x m (.ok ⟨d, v⟩) = .ok ⟨b, x.room, x.moves⟩) ∧
      (x.room < b.digits.length → (∀ m, env.alloc m = false) → ∃ e s, inRoom g env x m (.ok ⟨d, v⟩) = .threw e s) := fun {m v d} hv hb => by
    subst hb
    simp only
    refine ⟨fun h => inRoom_enough (by omega), fun h hn => ⟨.badAlloc, x.num, ?_⟩⟩
    unfold inRoom roomFor
    rw [if_neg (by omega), hn]
    rfl
  cases c with
  | clear => exact st (fun b h => by cases h; exact Nat.zero_le _) h
  | setDescriptor d => exact st (fun b h => by cases h; cases d <;> simp [setDescriptor]) h
  | setAt k d =>
    refine st (fun b h => ?_) h
    unfold setAt Vec.wr at h
    by_cases hk : k < x.num.digits.length
    · rw [if_pos hk, if_pos hk] at h; cases h; simp
    · rw [if_neg hk] at h; cases h
  | popBack =>
    refine st (fun b h => ?_) h
    unfold Bignum.popBack Vec.popBack at h
    by_cases hk : x.num.digits = []
    · rw [if_pos hk] at h; cases h
    · rw [if_neg hk] at h; cases h; simp
  | pop p =>
    refine st (fun b h => ?_) h
    unfold Bignum.pop Vec.erase at h
    by_cases hk : p < x.num.digits.length
    · rw [if_pos hk] at h; cases h; simp [List.length_eraseIdx]; split <;> omega
    · rw [if_neg hk] at h; cases h
  | pushBack d =>
    simp only [Call1.call]
    rw [pushBack_ample (fun _ => rfl)]
    have h := strong_ok' h
    rw [pushBack_ample hm] at h
    cases h
    exact rm (by simp) rfl
  | push d p =>
    have h := strong_ok' h
    simp only [Call1.call]
    by_cases hp : x.num.digits.length < p
    · rw [push_outside _ _ _ hp] at h; cases h
    · rw [push_ample hm _ _ hp] at h
      rw [if_neg hp, push_ample (fun _ => rfl) _ _ hp]
      cases h
      exact rm (by simp; omega) rfl
  | resize m d =>
    obtain ⟨v, hv, e⟩ := resize_ample' x.num m d
    have h := strong_ok' h
    rw [e _ hm] at h
    simp only [Call1.call]
    rw [e _ (fun _ => rfl)]
    cases h
    exact rm hv rfl
  | add r =>
    simp only [Call1.call]
    simp only [Call1.plain, addAssign] at h
    by_cases hcm : (!isComputable x.num.desc) = true
    · rw [if_pos hcm] at h ⊢
      cases h
      exact ⟨fun _ => rfl, fun h => by simp [notComputable] at h⟩
    · rw [if_neg hcm] at h ⊢
      have h := handle_ok' h
      rcases addTry_inPlace (g := g) (L := L) (env := env) (env' := env') (n := n) hc with ⟨e1, e2⟩ | ⟨e1, e2⟩
      · rw [e2] at h
        rw [e1]
        cases e3 : absAdd L env' n x.num.digits r.src with
        | error _ => rw [e3] at h; cases h
        | ok w =>
          rw [e3, ok_bind] at h
          cases h
          refine ⟨fun hr => ?_, fun hr hn => ?_⟩
          · rw [absAddH_room hm _ e3 hr]; rfl
          · rw [absAddH_none hm hn _ e3 hx hr]; exact ⟨_, _, rfl⟩
      · rw [e2] at h
        rw [e1, subInPlace_ok hd h]
        refine ⟨fun _ => rfl, fun hr => ?_⟩
        have := (housed_sub (L := L) (env := env) (n := n) (src := r.src) hx).2 _ (subInPlace_ok hd h)
        simp only at this
        omega
  | sub r =>
    simp only [Call1.call]
    simp only [Call1.plain, subAssign] at h
    by_cases hcm : (!isComputable x.num.desc) = true
    · rw [if_pos hcm] at h ⊢
      cases h
      exact ⟨fun _ => rfl, fun h => by simp [notComputable] at h⟩
    · rw [if_neg hcm] at h ⊢
      have h := handle_ok' h
      obtain ⟨e1, e2⟩ := subTry_inPlace (L := L) (env := env) (env' := env') (n := n) hc
      rw [e2] at h
      rw [e1, subInPlace_ok hd h]
      refine ⟨fun _ => rfl, fun hr => ?_⟩
      have := (housed_sub (L := L) (env := env) (n := n) (src := r.src) hx).2 _ (subInPlace_ok hd h)
      simp only at this
      omega

/-- **Partial**: every call in the number's own storage whose result has room there asks for no memory, leaves the number that enough memory
would leave, and leaves the storage (and so the references to digits) as it is. Missing: sums of opposite signs and differences in which
the other magnitude is larger, and differences of opposite signs (`C143_refuted`). -/
theorem C143_in_place_partial {env env' : Env} (hm : env'.Ample) (hd : env'.debug = env.debug) (n : Nat) {x : Held} (hx : x.num.digits.length ≤ x.room)
    {c : Call1} (hc : c.InPlace x.num) {b : Bignum} (h : c.plain L env' n x.num = .ok b) (hr : b.digits.length ≤ x.room) :
    c.call g L env n x = .ok ⟨b, x.room, x.moves⟩ :=
  (inPlace_call hm hd n hx hc h).1 hr

example := C143_in_place_partial (g := fun _ n => n) (L := .base10) (env := ⟨fun _ => false, false⟩) Sample.ample rfl 9 (x := held95) (by decide)
  (c := .add (.other ⟨.pos, [5]⟩)) (.inl rfl) (b := ⟨.pos, [0, 0, 1]⟩) rfl (by decide)

/-- No memory at all: such a call goes through exactly when its result has room. -/
theorem C143_no_memory_partial {env env' : Env} (hm : env'.Ample) (hd : env'.debug = env.debug) (hn : ∀ m, env.alloc m = false) (n : Nat) {x : Held}
    (hx : x.num.digits.length ≤ x.room) {c : Call1} (hc : c.InPlace x.num) {b : Bignum} (h : c.plain L env' n x.num = .ok b) :
    (∃ y, c.call g L env n x = .ok y) ↔ b.digits.length ≤ x.room := by
  obtain ⟨h1, h2⟩ := inPlace_call (g := g) hm hd n hx hc h
  refine ⟨fun ⟨y, hy⟩ => ?_, fun hr => ⟨_, h1 hr⟩⟩
  by_contra hr
  obtain ⟨e, s, he⟩ := h2 (by omega) hn
  rw [he] at hy
  cases hy

example := C143_no_memory_partial (g := fun _ n => n) (L := .base10) (env := ⟨fun _ => false, false⟩) Sample.ample rfl (fun _ => rfl) 9
  (x := ⟨⟨.pos, [5, 9]⟩, 2, 0⟩) (by decide) (c := .add (.other ⟨.pos, [5]⟩)) (.inl rfl) (b := ⟨.pos, [0, 0, 1]⟩) rfl

theorem inPlace_moves (hg : ∀ a b, b ≤ g a b) {env : Env} (hm : env.Ample) (n : Nat) {x y : Held} {c : Call1} (hc : c.InPlace x.num)
    (h : c.call g L env n x = .ok y) : x.moves ≤ y.moves ∧ (y.moves = x.moves → y.room = x.room) := by
  have st : ∀ {f : Res Bignum}, inStorage x f = .ok y → x.moves ≤ y.moves ∧ (y.moves = x.moves → y.room = x.room) := fun {f} h => by
    have h := strongH_ok.1 h
    cases f with
    | error _ => cases h
    | ok b => cases h; exact ⟨le_rfl, fun _ => rfl⟩
  have rm : ∀ {m : Nat} {f : Res Bignum}, inRoom g env x m f = .ok y → x.moves ≤ y.moves ∧ (y.moves = x.moves → y.room = x.room) := fun {m f} h => by
    have h := strongH_ok.1 h
    unfold roomFor at h
    by_cases hr : m ≤ x.room
    · rw [if_pos hr, ok_bind] at h
      cases f with
      | error _ => cases h
      | ok b => cases h; exact ⟨le_rfl, fun _ => rfl⟩
    · rw [if_neg hr, if_pos (hm _), ok_bind] at h
      cases f with
      | error _ => cases h
      | ok b => cases h; exact ⟨Nat.le_succ _, fun h => absurd h (by simp)⟩
  have sb : ∀ {src : Src}, subInPlace L env n x src = .ok y → x.moves ≤ y.moves ∧ (y.moves = x.moves → y.room = x.room) := fun {src} h => by
    unfold subInPlace at h
    cases e : absSub L env n x.num.digits src with
    | error _ => rw [e] at h; cases h
    | ok d => rw [e] at h; cases h; exact ⟨le_rfl, fun _ => rfl⟩
  cases c with
  | clear => exact st h
  | setDescriptor d => exact st h
  | setAt k d => exact st h
  | popBack => exact st h
  | pop p => exact st h
  | pushBack d => exact rm h
  | push d p =>
    simp only [Call1.call] at h
    by_cases hp : x.num.digits.length < p
    · rw [if_pos hp] at h; cases h
    · rw [if_neg hp] at h; exact rm h
  | resize m d => exact rm h
  | add r =>
    simp only [Call1.call] at h
    by_cases hcm : (!isComputable x.num.desc) = true
    · rw [if_pos hcm] at h; cases h; exact ⟨le_rfl, fun _ => rfl⟩
    · rw [if_neg hcm] at h
      have h := handleH_ok.1 h
      rcases addTry_inPlace (g := g) (L := L) (env := env) (env' := env) (n := n) hc with ⟨e1, -⟩ | ⟨e1, -⟩
      · rw [e1] at h
        obtain ⟨room', moves', e, h1, h2, -⟩ := absAddH_ample (L := L) (src := r.src) hg hm n x.num.digits x.room x.moves
        rw [e] at h
        cases e2 : absAdd L env n x.num.digits r.src with
        | error _ => rw [e2] at h; cases h
        | ok w => rw [e2] at h; cases h; exact ⟨h1, h2⟩
      · rw [e1] at h; exact sb h
  | sub r =>
    simp only [Call1.call] at h
    by_cases hcm : (!isComputable x.num.desc) = true
    · rw [if_pos hcm] at h; cases h; exact ⟨le_rfl, fun _ => rfl⟩
    · rw [if_neg hcm] at h
      have h := handleH_ok.1 h
      rw [(subTry_inPlace (L := L) (env := env) (env' := env) (n := n) hc).1] at h
      exact sb h

/-- With enough memory such a call moves the digits exactly when the result has no room. -/
theorem C143_moves_partial (hg : ∀ a b, b ≤ g a b) {env : Env} (hm : env.Ample) (n : Nat) {x y : Held} (hx : x.num.digits.length ≤ x.room)
    {c : Call1} (hc : c.InPlace x.num) (h : c.call g L env n x = .ok y) : y.moves = x.moves ↔ y.num.digits.length ≤ x.room := by
  obtain ⟨h1, h2⟩ := C143_same_numbers (L := L) hg hm n hx c
  constructor
  · intro he
    rw [← (inPlace_moves hg hm n hc h).2 he]
    exact h2 y h
  · intro hr
    rw [h] at h1
    have := C143_in_place_partial (g := g) hm rfl n hx hc h1.symm hr
    rw [h] at this
    have e : y = ⟨y.num, x.room, x.moves⟩ := OutH.ok.inj this
    have e' := congrArg Held.moves e
    exact e'

example := C143_moves_partial (g := fun _ n => n) (L := .base10) (fun _ _ => le_rfl) Sample.ample 9 (x := ⟨⟨.pos, [5, 9]⟩, 2, 0⟩) (by decide)
  (c := .add (.other ⟨.pos, [5]⟩)) (.inl rfl) (y := ⟨⟨.pos, [0, 0, 1]⟩, 3, 1⟩) rfl

/-- The calls, one after the other, work in the number's own storage and never have more than `room` digits. -/
def Fits (L : Limits) (env : Env) (n room : Nat) : Bignum → List Call1 → Prop
  | _, [] => True
  | b, c :: cs => c.InPlace b ∧ ∃ b', c.plain L env n b = .ok b' ∧ b'.digits.length ≤ room ∧ Fits L env n room b' cs

/-- The number that the calls leave. -/
def plainCalls (L : Limits) (env : Env) (n : Nat) : Bignum → List Call1 → Out
  | b, [] => .ok b
  | b, c :: cs =>
    match c.plain L env n b with
    | .ok b' => plainCalls L env n b' cs
    | o => o

/-- **Partial** (see `C143_in_place_partial`): so does every history of such calls, whatever memory there is from call to call. -/
theorem C143_histories_partial {env' : Env} (hm : env'.Ample) (n : Nat) : ∀ (cs : List Call1) (env : Nat → Env) (x : Held),
    (∀ k, env'.debug = (env k).debug) → x.num.digits.length ≤ x.room → Fits L env' n x.room x.num cs →
    ∃ b, plainCalls L env' n x.num cs = .ok b ∧ calls g L n env x cs = .ok ⟨b, x.room, x.moves⟩
  | [], _, x, _, _, _ => ⟨x.num, rfl, rfl⟩
  | c :: cs, env, x, hd, hx, hf => by
    obtain ⟨hc, b', h, hl, hf⟩ := hf
    obtain ⟨b, h1, h2⟩ := C143_histories_partial hm n cs (fun k => env (k + 1)) ⟨b', x.room, x.moves⟩ (fun k => hd (k + 1)) hl hf
    refine ⟨b, ?_, ?_⟩
    · rw [plainCalls, h]; exact h1
    · rw [calls, C143_in_place_partial hm (hd 0) n hx hc h hl]; exact h2

example := C143_histories_partial (g := fun _ n => n) (L := .base10) Sample.ample 9 [.add (.other ⟨.pos, [5]⟩), .sub (.other ⟨.pos, [1]⟩)]
  (fun _ => ⟨fun _ => false, false⟩) held95 (fun _ => rfl) (by decide)
  ⟨.inl rfl, ⟨.pos, [0, 0, 1]⟩, rfl, by decide, ⟨rfl, rfl⟩, ⟨.pos, [9, 9]⟩, rfl, by decide, trivial⟩

theorem Fits.mono {env : Env} {n room room' : Nat} (hr : room ≤ room') : ∀ {cs : List Call1} {b : Bignum}, Fits L env n room b cs → Fits L env n room' b cs
  | [], _, _ => trivial
  | _ :: _, _, ⟨h1, b', h2, h3, h4⟩ => ⟨h1, b', h2, h3.trans hr, h4.mono hr⟩

/-- **Partial** (see `C143_in_place_partial`): `x.resize(n); x.clear();` reserves `n` digits: if that returns, every later history of such calls
with at most `n` digits goes through without memory. -/
theorem C143_reserved_partial {env' : Env} (hm : env'.Ample) (n : Nat) {g : Growth} (hg : ∀ a b, b ≤ g a b) (size digit : Nat) (cs : List Call1)
    (env : Nat → Env) (hd : ∀ k, env'.debug = (env k).debug) {x : Held}
    (h0 : ∃ y, Call1.call g L (env 0) n x (.resize size digit) = .ok y) (hf : Fits L env' n size x.num.clear cs) :
    ∃ b y, plainCalls L env' n x.num.clear cs = .ok b ∧ calls g L n env x (.resize size digit :: .clear :: cs) = .ok y ∧ y.num = b ∧
      size ≤ y.room ∧ ∀ z, Call1.call g L (env 0) n x (.resize size digit) = .ok z → y.room = z.room ∧ y.moves = z.moves := by
  obtain ⟨y0, h0⟩ := h0
  obtain ⟨v, hv, e⟩ := resize_ample' x.num size digit
  have key : y0.num = ⟨x.num.desc, v⟩ ∧ size ≤ y0.room := by
    have h := h0
    simp only [Call1.call] at h
    rw [e _ (fun _ => rfl)] at h
    have h := strongH_ok.1 h
    unfold roomFor at h
    by_cases hs : size ≤ x.room
    · rw [if_pos hs] at h; cases h; exact ⟨rfl, hs⟩
    · rw [if_neg hs] at h
      by_cases ha : (env 0).alloc (g x.num.digits.length size) = true
      · rw [if_pos ha] at h; cases h; exact ⟨rfl, hg _ _⟩
      · rw [if_neg ha] at h; cases h
  obtain ⟨b, h1, h2⟩ := C143_histories_partial (L := L) (g := g) hm n cs (fun k => env (k + 2)) ⟨x.num.clear, y0.room, y0.moves⟩
    (fun k => hd (k + 2)) (Nat.zero_le _) (hf.mono key.2)
  refine ⟨b, ⟨b, y0.room, y0.moves⟩, h1, ?_, rfl, key.2, fun z hz => ?_⟩
  · rw [calls, h0]
    simp only
    rw [calls]
    have hcl : Call1.call g L (env (0 + 1)) n y0 .clear = .ok ⟨x.num.clear, y0.room, y0.moves⟩ := by
      simp only [Call1.call, inStorage, key.1]
      rfl
    rw [hcl]
    exact h2
  · rw [h0] at hz; cases hz; exact ⟨rfl, rfl⟩

example := C143_reserved_partial (L := .base10) Sample.ample 9 (g := fun _ n => n) (fun _ _ => le_rfl) 3 0
  [.add (.other ⟨.pos, [5, 9]⟩), .add (.other ⟨.pos, [5]⟩)] (fun k => ⟨fun _ => decide (k = 0), false⟩) (fun _ => rfl) (x := ⟨⟨.pos, []⟩, 0, 0⟩)
  ⟨⟨⟨.pos, [0, 0, 0]⟩, 3, 1⟩, rfl⟩ ⟨.inl rfl, ⟨.pos, [5, 9]⟩, rfl, by decide, .inl rfl, ⟨.pos, [0, 0, 1]⟩, rfl, by decide, trivial⟩

theorem length_le_room {B room : Nat} (hB : 2 ≤ B) (hr : 1 ≤ room) {v : List Nat} (hv : WFDigits B v) (h : natOf B v < B ^ room) : v.length ≤ room := by
  rcases hv.2 with h1 | rfl
  · by_cases h0 : v = []
    · subst h0; simp
    · have h2 := le_natOf_of_noLeadingZero (B := B) h1 h0
      have h3 : v.length - 1 < room := (Nat.pow_lt_pow_iff_right (by omega)).1 (h2.trans_lt h)
      omega
  · simpa using hr

/-- **Partial**: the sum of two numbers of the same sign needs no memory when it has room. Missing: opposite signs, which need memory when
the other magnitude is larger (`C143_refuted`). -/
theorem C143_sums_partial (hL : Supported L) {x : Held} {y : Bignum} (hx : WF L x.num) (hy : WF L y) (hs : y.desc = x.num.desc)
    (hl : x.num.digits.length ≤ x.room) (h1 : 1 ≤ x.room) (hr : x.num.mag L + y.mag L < L.base ^ x.room) :
    ∃ c : Bignum, (∀ (g : Growth) (env : Env) (n : Nat), max x.num.digits.length y.digits.length < n →
      Call1.call g L env n x (.add (.other y)) = .ok ⟨c, x.room, x.moves⟩) ∧ WF L c ∧ c.toInt L = x.num.toInt L + y.toInt L := by
  have hB := hL.base_ge
  have hy' : WF L (Rhs.get (.other y) x.num) := hy
  have hs' : (Rhs.get (.other y) x.num).desc = x.num.desc := hs
  have h3 : WF L ⟨x.num.desc, addFull L.base x.num.digits y.digits 0⟩ := ⟨hx.1, addFull_wf hB hx.2 hy.2⟩
  have h4 : natOf L.base (addFull L.base x.num.digits y.digits 0) = natOf L.base x.num.digits + natOf L.base y.digits := by
    rw [addFull_natOf hB hx.2.1 hy.2.1 (Nat.zero_le 1), Nat.add_zero]
  refine ⟨⟨x.num.desc, addFull L.base x.num.digits y.digits 0⟩, fun g env n hn => ?_, h3, ?_⟩
  · have hm : Env.Ample ⟨fun _ => true, env.debug⟩ := fun _ => rfl
    have hp : (Call1.add (.other y)).plain L ⟨fun _ => true, env.debug⟩ n x.num = .ok ⟨x.num.desc, addFull L.base x.num.digits y.digits 0⟩ :=
      addAssign_same_ok (r := .other y) hL hm hx.1 hs' hx.2.1 hy'.2.1 hn
    have hr' : natOf L.base (addFull L.base x.num.digits y.digits 0) < L.base ^ x.room := by rw [h4]; exact hr
    have hlen := length_le_room hB h1 h3.2 hr'
    have hc : (Call1.add (.other y)).InPlace x.num := .inl hs
    exact C143_in_place_partial (env := env) hm rfl n hl hc hp hlen
  · rw [toInt_of_signed hx.1, toInt_of_signed hy.1, toInt_of_signed h3.1, hs]
    simp only [h4]
    split <;> push_cast <;> ring

example := C143_sums_partial (L := .base10) Sample.base10.supported (x := held95) (y := ⟨.pos, [5]⟩) (by sample) (by sample) rfl (by decide) (by decide)
  (by decide)

/-- **Partial**: a difference of two numbers of the same sign needs no memory at all when the other magnitude is not larger. Missing: the other
differences (`C143_refuted`), and builds with `BN_DEBUG`. -/
theorem C143_differences_partial (hL : Supported L) {x : Held} {y : Bignum} (hx : WF L x.num) (hy : WF L y) (hs : y.desc = x.num.desc)
    (hl : x.num.digits.length ≤ x.room) (hz : y.digits.length ≤ x.num.digits.length) (h0 : x.num.digits ≠ []) (hr : y.mag L ≤ x.num.mag L) :
    ∃ c : Bignum, (∀ (g : Growth) (env : Env) (n : Nat), env.debug = false → x.num.digits.length < n →
      Call1.call g L env n x (.sub (.other y)) = .ok ⟨c, x.room, x.moves⟩) ∧ WF L c ∧ c.toInt L = x.num.toInt L - y.toInt L := by
  obtain ⟨c, h2, h3, h3', h4, -⟩ := sub_core (r := .other y) hL Sample.ample rfl hx.1 hs hx.2 hy.2 (fun h => h0 h.1)
  refine ⟨c, fun g env n hd hn => ?_, ⟨h3, h3'.1, .inl h3'.2⟩, h4⟩
  have hge : absGe x.num.digits y.digits = .ok true := by
    rw [absGe_eq hx.2.1 hy.2.1, decide_eq_true]
    by_cases h : y.digits.length < x.num.digits.length
    · exact .inl h
    · exact .inr ⟨by omega, hr⟩
  have hp : (Call1.sub (.other y)).plain L releaseEnv n x.num = .ok c := h2 n (by simp only [Rhs.get]; omega)
  refine C143_in_place_partial (env' := releaseEnv) Sample.ample hd.symm n hl (c := .sub (.other y)) ⟨hs, hge⟩ hp ?_
  have := housed_subTry (L := L) (env := releaseEnv) (n := n) (r := .other y) hl
  obtain ⟨e1, e2⟩ := subTry_inPlace (L := L) (env := releaseEnv) (env' := releaseEnv) (n := n) (x := x) (r := .other y) ⟨hs, hge⟩
  simp only [Call1.plain, subAssign] at hp
  have hcm : ¬ (!isComputable x.num.desc) = true := by rcases hx.1 with h | h <;> rw [h] <;> decide
  rw [if_neg hcm] at hp
  have hp := handle_ok' hp
  rw [e2] at hp
  have := (housed_sub (L := L) (env := releaseEnv) (n := n) (src := .other y.digits) hl).2 _ (subInPlace_ok rfl hp)
  exact this

example := C143_differences_partial (L := .base10) Sample.base10.supported (x := held95) (y := ⟨.pos, [5]⟩) (by sample) (by sample) rfl (by decide)
  (by decide) (by decide) (by decide)

/-- No memory. -/
def noMemory : Env := ⟨fun _ => false, false⟩

/-- Refutation of the unrestricted claim: `3` with room for five digits, of which `12` is subtracted: the result has one digit, but the call
copies the other number; without memory it throws and leaves an infinity, and with memory it changes the storage. -/
theorem C143_refuted : ∀ g : Growth,
    Call1.call g .base10 noMemory 9 ⟨⟨.pos, [3]⟩, 5, 0⟩ (.sub (.other ⟨.pos, [2, 1]⟩)) = .threw .stdException ⟨.posInf, []⟩ ∧
    Call1.call g .base10 releaseEnv 9 ⟨⟨.pos, [3]⟩, 5, 0⟩ (.sub (.other ⟨.pos, [2, 1]⟩)) = .ok ⟨⟨.neg, [9]⟩, 2, 1⟩ ∧
    Call1.call g .base10 noMemory 9 ⟨⟨.pos, [3]⟩, 5, 0⟩ (.add (.other ⟨.neg, [2, 1]⟩)) = .threw .stdException ⟨.negInf, []⟩ ∧
    Call1.call g .base10 releaseEnv 9 ⟨⟨.pos, [3]⟩, 5, 0⟩ (.add (.other ⟨.neg, [2, 1]⟩)) = .ok ⟨⟨.neg, [9]⟩, 2, 1⟩ ∧
    Call1.call g .base10 noMemory 9 ⟨⟨.pos, [3]⟩, 5, 0⟩ (.sub (.other ⟨.neg, [2]⟩)) = .threw .stdException ⟨.negInf, []⟩ ∧
    Call1.call g .base10 releaseEnv 9 ⟨⟨.pos, [3]⟩, 5, 0⟩ (.sub (.other ⟨.neg, [2]⟩)) = .ok ⟨⟨.pos, [1]⟩, 1, 1⟩ := by
  intro g
  exact ⟨rfl, rfl, rfl, rfl, rfl, rfl⟩
end
end BN
