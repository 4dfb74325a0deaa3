import Verif.Model.Storage
import Verif.Lemmas.Memory
/-
Lemmas about numbers with storage.
-/
namespace BN
open Bignum

/-- The part of an iteration of `abs_val_add` after the vector has grown. -/
def addAfter (L : Limits) (src : Src) (s : AddSt) : Res (AddSt × Bool) := do
  let inDigit ← digitOrZero L (src.get s.out) s.inIter
  let o ← Vec.rd s.out s.outIter
  let (d, rem) ← addDigit L o inDigit s.remainder
  let out ← Vec.wr s.out s.outIter d
  let outIter := s.outIter + 1
  let inIter := s.inIter + 1
  let brk := decide (outIter = out.length) && decide ((src.get out).length ≤ inIter) && !rem.truthy
  .ok (⟨out, outIter, inIter, rem⟩, brk)

theorem addBody_split (L : Limits) (env : Env) (src : Src) (s : AddSt) :
    addBody L env src s = growTo env s.out s.outIter >>= fun out => addAfter L src { s with out := out } := rfl

theorem addAfter_length {L : Limits} {src : Src} {s t : AddSt} {b : Bool} (h : addAfter L src s = .ok (t, b)) : t.out.length = s.out.length := by
  unfold addAfter at h
  cases h1 : digitOrZero L (src.get s.out) s.inIter with
  | error e => rw [h1] at h; cases h
  | ok v =>
    rw [h1, ok_bind] at h
    cases h2 : Vec.rd s.out s.outIter with
    | error e => rw [h2] at h; cases h
    | ok w =>
      rw [h2, ok_bind] at h
      cases h3 : addDigit L w v s.remainder with
      | error e => rw [h3] at h; cases h
      | ok p =>
        rw [h3, ok_bind] at h
        simp only [Vec.wr] at h
        split at h
        · cases h; simp
        · cases h

theorem growTo_grown (env : Env) {out : List Nat} {i : Nat} (h : i ≠ out.length) : growTo env out i = .ok out := by
  unfold growTo
  rw [if_neg h]

section
variable {g : Growth} {L : Limits} {src : Src}

/-- An iteration after which the digits have room. -/
theorem addBodyH_room {env env' : Env} (hm : env'.Ample) {s t : AddSt} {b : Bool} {room : Nat} (moves : Nat)
    (h : addBody L env' src s = .ok (t, b)) (hr : t.out.length ≤ room) :
    addBodyH g L env src (s, room, moves) = .ok ((t, room, moves), b) := by
  rw [addBody_split] at h
  unfold addBodyH growToH
  by_cases hi : s.outIter = s.out.length
  · have e : growTo env' s.out s.outIter = .ok (s.out ++ [0]) := by
      unfold growTo Vec.pushBack; rw [if_pos hi, if_pos (hm _)]
    rw [e, ok_bind] at h
    have hl := addAfter_length h
    simp only [List.length_append, List.length_singleton] at hl
    simp only [if_pos hi, roomFor, if_pos (show s.out.length + 1 ≤ room by omega), ok_bind, addBody_split]
    rw [growTo_grown env (by simp; omega), ok_bind, h, ok_bind]
  · rw [growTo_grown env' hi, ok_bind] at h
    simp only [if_neg hi, ok_bind, addBody_split]
    rw [growTo_grown env hi, ok_bind, h, ok_bind]

/-- Iterations only lengthen the number. -/
theorem addBody_longer {env : Env} {s t : AddSt} {b : Bool} (h : addBody L env src s = .ok (t, b)) :
    s.out.length ≤ t.out.length := by
  rw [addBody_split] at h
  cases e : growTo env s.out s.outIter with
  | error e' => rw [e] at h; cases h
  | ok out =>
    rw [e, ok_bind] at h
    have hl := addAfter_length h
    unfold growTo Vec.pushBack at e
    split at e
    · split at e
      · cases e; simp at hl; omega
      · cases e
    · cases e; simp at hl; omega

theorem addLoop_longer {env : Env} : ∀ {n : Nat} {s t : AddSt}, loopForever (addBody L env src) n s = .ok t → s.out.length ≤ t.out.length
  | 0, _, _, h => by cases h
  | n + 1, s, t, h => by
    unfold loopForever at h
    cases e : addBody L env src s with
    | error e' => rw [e] at h; cases h
    | ok p =>
      obtain ⟨u, b⟩ := p
      rw [e, ok_bind] at h
      have h1 := addBody_longer e
      simp only at h
      by_cases hb : b = true
      · rw [if_pos hb] at h; cases h; exact h1
      · rw [if_neg hb] at h; exact le_trans h1 (addLoop_longer h)

/-- The whole sum when the result has room. -/
theorem addLoopH_room {env env' : Env} (hm : env'.Ample) {room : Nat} (moves : Nat) : ∀ {n : Nat} {s t : AddSt},
    loopForever (addBody L env' src) n s = .ok t → t.out.length ≤ room →
    loopForever (addBodyH g L env src) n (s, room, moves) = .ok (t, room, moves)
  | 0, _, _, h, _ => by cases h
  | n + 1, s, t, h, hr => by
    unfold loopForever at h ⊢
    cases e : addBody L env' src s with
    | error e' => rw [e] at h; cases h
    | ok p =>
      obtain ⟨u, b⟩ := p
      rw [e, ok_bind] at h
      simp only at h
      by_cases hb : b = true
      · rw [if_pos hb] at h
        cases h
        rw [addBodyH_room hm moves e hr, ok_bind]
        simp only [if_pos hb]
      · rw [if_neg hb] at h
        rw [addBodyH_room hm moves e (le_trans (addLoop_longer h) hr), ok_bind]
        simp only [if_neg hb]
        exact addLoopH_room hm moves h hr

/-- An iteration with enough memory: the number is the same, and the storage moves if there is no room. -/
theorem addBodyH_ample (hg : ∀ a b, b ≤ g a b) {env : Env} (hm : env.Ample) (s : AddSt) (room moves : Nat) :
    ∃ room' moves', addBodyH g L env src (s, room, moves) = (addBody L env src s).map (fun p => ((p.1, room', moves'), p.2)) ∧
      moves ≤ moves' ∧ (moves' = moves → room' = room) ∧
      ∀ t b, addBody L env src s = .ok (t, b) → s.out.length ≤ room → t.out.length ≤ room' := by
  unfold addBodyH growToH
  simp only [addBody_split]
  by_cases hi : s.outIter = s.out.length
  · have e : growTo env s.out s.outIter = .ok (s.out ++ [0]) := by
      unfold growTo Vec.pushBack; rw [if_pos hi, if_pos (hm _)]
    simp only [e, if_pos hi, ok_bind, roomFor]
    by_cases hr : s.out.length + 1 ≤ room
    · refine ⟨room, moves, ?_, le_rfl, fun _ => rfl, fun t b h _ => ?_⟩
      · rw [if_pos hr, ok_bind, ok_bind, growTo_grown env (by simp; omega), ok_bind]
        cases addAfter L src { s with out := s.out ++ [0] } <;> rfl
      · have := addAfter_length h
        simp at this
        omega
    · refine ⟨g s.out.length (s.out.length + 1), moves + 1, ?_, by omega, fun h => by omega, fun t b h _ => ?_⟩
      · rw [if_neg hr, if_pos (hm _), ok_bind, ok_bind, growTo_grown env (by simp; omega), ok_bind]
        cases addAfter L src { s with out := s.out ++ [0] } <;> rfl
      · have := addAfter_length h
        have h2 := hg s.out.length (s.out.length + 1)
        simp at this
        omega
  · simp only [growTo_grown env hi, if_neg hi, ok_bind]
    refine ⟨room, moves, ?_, le_rfl, fun _ => rfl, fun t b h hs => ?_⟩
    · cases addAfter L src s <;> rfl
    · have : t.out.length = s.out.length := addAfter_length h
      omega

theorem addLoopH_ample (hg : ∀ a b, b ≤ g a b) {env : Env} (hm : env.Ample) : ∀ (n : Nat) (s : AddSt) (room moves : Nat),
    ∃ room' moves', loopForever (addBodyH g L env src) n (s, room, moves) =
        (loopForever (addBody L env src) n s).map (fun t => (t, room', moves')) ∧ moves ≤ moves' ∧ (moves' = moves → room' = room) ∧
      ∀ t, loopForever (addBody L env src) n s = .ok t → s.out.length ≤ room → t.out.length ≤ room'
  | 0, _, room, moves => ⟨room, moves, rfl, le_rfl, fun _ => rfl, fun _ h => by cases h⟩
  | n + 1, s, room, moves => by
    obtain ⟨room1, moves1, e1, h1, h2, h3⟩ := addBodyH_ample (L := L) (src := src) hg hm s room moves
    unfold loopForever
    rw [e1]
    cases e : addBody L env src s with
    | error e' => exact ⟨room, moves, rfl, le_rfl, fun _ => rfl, fun _ h => by cases h⟩
    | ok p =>
      obtain ⟨u, b⟩ := p
      have h3 := h3 u b e
      simp only [Except.map, ok_bind]
      by_cases hb : b = true
      · simp only [if_pos hb]
        exact ⟨room1, moves1, rfl, h1, h2, fun t h => by cases h; exact h3⟩
      · simp only [if_neg hb]
        obtain ⟨room2, moves2, e2, h4, h5, h6⟩ := addLoopH_ample hg hm n u room1 moves1
        refine ⟨room2, moves2, e2, by omega, fun h => ?_, fun t h hs => h6 t h (h3 hs)⟩
        rw [h5 (by omega), h2 (by omega)]

/-- The whole sum when the result has no room and no memory is granted. -/
theorem addLoopH_none {env env' : Env} (hm : env'.Ample) (hn : ∀ m, env.alloc m = false) {room : Nat} (moves : Nat) :
    ∀ {n : Nat} {s t : AddSt}, loopForever (addBody L env' src) n s = .ok t → s.out.length ≤ room → room < t.out.length →
    loopForever (addBodyH g L env src) n (s, room, moves) = .error (.exn .badAlloc)
  | 0, _, _, h, _, _ => by cases h
  | n + 1, s, t, h, hs, hr => by
    unfold loopForever at h ⊢
    cases e : addBody L env' src s with
    | error e' => rw [e] at h; cases h
    | ok p =>
      obtain ⟨u, b⟩ := p
      rw [e, ok_bind] at h
      simp only at h
      by_cases hu : u.out.length ≤ room
      · rw [addBodyH_room hm moves e hu, ok_bind]
        by_cases hb : b = true
        · rw [if_pos hb] at h; cases h; omega
        · rw [if_neg hb] at h
          simp only [if_neg hb]
          exact addLoopH_none hm hn moves h hu hr
      · have hl : addBodyH g L env src (s, room, moves) = .error (.exn .badAlloc) := by
          rw [addBody_split] at e
          unfold addBodyH growToH
          by_cases hi : s.outIter = s.out.length
          · have e1 : growTo env' s.out s.outIter = .ok (s.out ++ [0]) := by
              unfold growTo Vec.pushBack; rw [if_pos hi, if_pos (hm _)]
            rw [e1, ok_bind] at e
            have := addAfter_length e
            simp only [List.length_append, List.length_singleton] at this
            simp only [if_pos hi, roomFor, if_neg (show ¬ s.out.length + 1 ≤ room by omega), hn]
            rfl
          · rw [growTo_grown env' hi, ok_bind] at e
            have : u.out.length = s.out.length := addAfter_length e
            omega
        rw [hl]
        rfl

/-! ### `abs_val_add` -/

theorem absAddH_room {env env' : Env} (hm : env'.Ample) {n : Nat} {v w : List Nat} {room : Nat} (moves : Nat)
    (h : absAdd L env' n v src = .ok w) (hr : w.length ≤ room) : absAddH g L env n v room moves src = .ok (w, room, moves) := by
  unfold absAdd at h
  unfold absAddH
  cases e : loopForever (addBody L env' src) n ⟨v, 0, 0, L.toSingle 0⟩ with
  | error e' => rw [e] at h; cases h
  | ok t =>
    rw [e, ok_bind] at h
    cases h
    rw [addLoopH_room hm moves e hr]
    rfl

theorem absAddH_ample (hg : ∀ a b, b ≤ g a b) {env : Env} (hm : env.Ample) (n : Nat) (v : List Nat) (room moves : Nat) :
    ∃ room' moves', absAddH g L env n v room moves src = (absAdd L env n v src).map (fun w => (w, room', moves')) ∧ moves ≤ moves' ∧
      (moves' = moves → room' = room) ∧ ∀ w, absAdd L env n v src = .ok w → v.length ≤ room → w.length ≤ room' := by
  obtain ⟨room', moves', e, h1, h2, h3⟩ := addLoopH_ample (L := L) (src := src) hg hm n ⟨v, 0, 0, L.toSingle 0⟩ room moves
  refine ⟨room', moves', ?_, h1, h2, fun w hw hv => ?_⟩
  · unfold absAddH absAdd
    rw [e]
    cases loopForever (addBody L env src) n ⟨v, 0, 0, L.toSingle 0⟩ <;> rfl
  · unfold absAdd at hw
    cases e : loopForever (addBody L env src) n ⟨v, 0, 0, L.toSingle 0⟩ with
    | error e' => rw [e] at hw; cases hw
    | ok t => rw [e, ok_bind] at hw; cases hw; exact h3 t e hv

theorem absAddH_none {env env' : Env} (hm : env'.Ample) (hn : ∀ m, env.alloc m = false) {n : Nat} {v w : List Nat} {room : Nat} (moves : Nat)
    (h : absAdd L env' n v src = .ok w) (hv : v.length ≤ room) (hr : room < w.length) :
    absAddH g L env n v room moves src = .error (.exn .badAlloc) := by
  unfold absAdd at h
  unfold absAddH
  cases e : loopForever (addBody L env' src) n ⟨v, 0, 0, L.toSingle 0⟩ with
  | error e' => rw [e] at h; cases h
  | ok t =>
    rw [e, ok_bind] at h
    cases h
    rw [addLoopH_none hm hn moves e hv hr]
    rfl

end
end BN
