import Verif.Model.Stream
import Verif.Props.Format
/-
C124: output to a device that may refuse characters.
-/
namespace BN
open Bignum

/-! Specification -/

/-- `p` is what a device that already holds `w` takes of the text `t`: every character of `p`, and not the one after it. -/
def Received (dev : Device) (w t p : List Char) : Prop :=
  ∃ u, t = p ++ u ∧ (∀ p' c q, p = p' ++ c :: q → dev (w ++ p') c = true) ∧ (∀ c u', u = c :: u' → dev (w ++ p) c = false)

/-- The text of several numbers written one after the other. -/
def textOf (L : Limits) : Fmt → List Bignum → List Char
  | _, [] => []
  | f, b :: bs => (put L f b).1 ++ textOf L { f with width := 0 } bs

theorem Received.nil (dev : Device) (w : List Char) : Received dev w [] [] :=
  ⟨[], rfl, fun p' c q h => by simp at h, fun c u h => by simp at h⟩

/-- A text that is taken completely, then another one. -/
theorem Received.append {dev : Device} {w t t' p : List Char} (h : Received dev w t t) (h' : Received dev (w ++ t) t' p) :
    Received dev w (t ++ t') (t ++ p) := by
  obtain ⟨u, h1, h2, h3⟩ := h'
  obtain ⟨-, -, h5, -⟩ := h
  refine ⟨u, by rw [h1, List.append_assoc], ?_, ?_⟩
  · intro p' c q e
    rcases List.append_eq_append_iff.1 e with ⟨a, e1, e2⟩ | ⟨a, e1, e2⟩
    · have := h2 a c q e2
      rw [e1, ← List.append_assoc]; exact this
    · match a, e2 with
      | [], e2 =>
        have := h2 [] c q (by simpa using e2.symm)
        rw [e1] at this
        simpa using this
      | x :: a, e2 =>
        simp only [List.cons_append, List.cons.injEq] at e2
        obtain ⟨rfl, -⟩ := e2
        exact h5 p' c a e1
  · intro c u' e
    have := h3 c u' e
    rwa [← List.append_assoc]

/-- A text that is not taken completely: what follows it does not matter. -/
theorem Received.stop {dev : Device} {w t p : List Char} (h : Received dev w t p) (hp : p ≠ t) (t' : List Char) :
    Received dev w (t ++ t') p := by
  obtain ⟨u, h1, h2, h3⟩ := h
  refine ⟨u ++ t', by rw [h1, List.append_assoc], h2, fun c u' e => ?_⟩
  cases u with
  | nil => simp at h1; exact absurd h1.symm hp
  | cons x u =>
    simp only [List.cons_append, List.cons.injEq] at e
    obtain ⟨rfl, -⟩ := e
    exact h3 x u rfl

theorem Received.unique {dev : Device} {w t p q : List Char} (h : Received dev w t p) (h' : Received dev w t q) : p = q := by
  have key : ∀ p q, Received dev w t p → Received dev w t q → p.length ≤ q.length → p = q := by
    intro p q ⟨u, a1, a2, a3⟩ ⟨v, b1, b2, b3⟩ hl
    have hpre : p <+: q := List.prefix_of_prefix_length_le ⟨u, a1.symm⟩ ⟨v, b1.symm⟩ hl
    obtain ⟨r, rfl⟩ := hpre
    cases r with
    | nil => simp
    | cons c r =>
      have e : u = c :: (r ++ v) := by
        rw [a1, List.append_assoc] at b1
        exact List.append_cancel_left b1
      have := b2 p c r rfl
      rw [a3 c _ e] at this
      cases this
  rcases Nat.le_total p.length q.length with hl | hl
  · exact key p q h h' hl
  · exact (key q p h' h hl).symm

/-- What a stream looks like after writing the text `t`, of which its device took `p`. -/
def after (s : Ostream) (f : Fmt) (t p : List Char) : Ostream :=
  { s with fmt := f, good := decide (p = t), written := s.written ++ p }

def outcome (s : Ostream) : Except Ostream Ostream := if s.raises && !s.good then .error s else .ok s

theorem send_received (dev : Device) : ∀ (t : List Char) (s : Ostream), s.good = true →
    ∃ p, Received dev s.written t p ∧ s.send dev t = after s s.fmt t p
  | [], s, hg => ⟨[], .nil _ _, by simp [Ostream.send, after, ← hg]⟩
  | c :: t, s, hg => by
    unfold Ostream.send
    by_cases hc : dev s.written c = true
    · rw [if_pos hc]
      obtain ⟨p, h1, h2⟩ := send_received dev t { s with written := s.written ++ [c] } hg
      refine ⟨c :: p, ?_, ?_⟩
      · have h0 : Received dev s.written [c] [c] := by
          refine ⟨[], by simp, fun p' x q e => ?_, fun x u e => by simp at e⟩
          cases p' with
          | nil => simp at e; rw [← e.1]; simpa using hc
          | cons y p' => simp at e
        exact h0.append h1
      · rw [h2]; simp [after]
    · rw [if_neg hc]
      refine ⟨[], ⟨c :: t, rfl, fun p' x q e => by simp at e, fun x u e => ?_⟩, by simp [after]⟩
      simp only [List.cons.injEq] at e
      rw [← e.1]; simpa using hc

/-- One formatted output. -/
theorem formatted_received {dev : Device} {s : Ostream} (hg : s.good = true) (piece : Fmt → List Char × Fmt) :
    ∃ p, Received dev s.written (piece s.fmt).1 p ∧ s.formatted dev piece = outcome (after s (piece s.fmt).2 (piece s.fmt).1 p) := by
  obtain ⟨p, h1, h2⟩ := send_received dev (piece s.fmt).1 { s with fmt := (piece s.fmt).2 } hg
  refine ⟨p, h1, ?_⟩
  unfold Ostream.formatted
  rw [if_pos hg]
  simp only [h2]
  rfl

theorem formatted_bad {dev : Device} {s : Ostream} (hg : s.good = false) (piece : Fmt → List Char × Fmt) : s.formatted dev piece = .ok s := by
  unfold Ostream.formatted
  rw [if_neg (by simp [hg])]

theorem writeDigits_bad (dev : Device) (L : Limits) {s : Ostream} (hg : s.good = false) : ∀ ds, writeDigits dev L s ds = .ok s
  | [] => rfl
  | d :: ds => by
    unfold writeDigits
    rw [formatted_bad hg]
    exact writeDigits_bad dev L hg ds

/-- C124: once a stream has failed, nothing more is written. -/
theorem C124_after_failure (dev : Device) (L : Limits) {s : Ostream} (hg : s.good = false) (b : Bignum) : writeTo dev L s b = .ok s := by
  unfold writeTo
  cases b.desc <;> simp only [formatted_bad hg] <;> try rfl
  · split
    · rfl
    · exact writeDigits_bad dev L hg _
  · show (if b.digits.length = 0 then s.formatted dev (·.putText ['0']) else writeDigits dev L s b.digits.reverse) = _
    split
    · exact formatted_bad hg _
    · exact writeDigits_bad dev L hg _

example := C124_after_failure (fun _ _ => true) .base10 (s := { good := false }) rfl Sample.m23

/-- Two outputs in a row. -/
theorem bind_received {dev : Device} {s : Ostream} {f1 f2 : Fmt} {t1 t2 p : List Char} {k : Ostream → Except Ostream Ostream}
    (h : Received dev s.written t1 p) (hff : p ≠ t1 → f1 = f2) (hbad : ∀ s, s.good = false → k s = .ok s)
    (hk : ∀ s', s'.good = true → s'.written = s.written ++ t1 → s'.fmt = f1 → s'.raises = s.raises →
      ∃ q, Received dev s'.written t2 q ∧ k s' = outcome (after s' f2 t2 q)) :
    ∃ q, Received dev s.written (t1 ++ t2) q ∧ (outcome (after s f1 t1 p) >>= k) = outcome (after s f2 (t1 ++ t2) q) := by
  by_cases hp : p = t1
  · subst hp
    obtain ⟨q, h1, h2⟩ := hk (after s f1 p p) (by simp [after]) rfl rfl rfl
    refine ⟨p ++ q, h.append h1, ?_⟩
    have e : outcome (after s f1 p p) = .ok (after s f1 p p) := by simp [outcome, after]
    rw [e]
    show k (after s f1 p p) = _
    rw [h2]
    simp [after]
  · have hlt : p ≠ t1 ++ t2 := by
      obtain ⟨u, h1, -, -⟩ := h
      intro e
      have := congrArg List.length e
      have := congrArg List.length h1
      simp only [List.length_append] at *
      have hu : u = [] := List.length_eq_zero_iff.1 (by omega)
      rw [hu] at h1
      exact hp (by simpa using h1.symm)
    refine ⟨p, h.stop hp t2, ?_⟩
    rw [hff hp]
    have e : after s f2 t1 p = after s f2 (t1 ++ t2) p := by simp [after, hp, hlt]
    rw [e]
    unfold outcome
    split
    · rfl
    · exact hbad _ (by simp [after, hlt])

theorem putDigit_fmt (L : Limits) (f : Fmt) (d : Nat) : (putDigit L f d).2 = { f with width := 0 } := by unfold putDigit; split <;> rfl

theorem writeDigits_received (dev : Device) (L : Limits) : ∀ (ds : List Nat) (s : Ostream), s.good = true → ds ≠ [] →
    ∃ p, Received dev s.written (putDigits L s.fmt ds).1 p ∧
      writeDigits dev L s ds = outcome (after s { s.fmt with width := 0 } (putDigits L s.fmt ds).1 p)
  | [], s, hg, h => absurd rfl h
  | [d], s, hg, h => by
    obtain ⟨p, h1, h2⟩ := formatted_received (dev := dev) hg (putDigit L · d)
    refine ⟨p, by simpa [putDigits] using h1, ?_⟩
    simp only [writeDigits, h2, putDigit_fmt]
    simp only [putDigits, List.append_nil]
    unfold outcome
    split <;> rfl
  | d :: e :: ds, s, hg, h => by
    obtain ⟨p, h1, h2⟩ := formatted_received (dev := dev) hg (putDigit L · d)
    rw [writeDigits, h2]
    simp only [putDigit_fmt]
    rw [putDigits]
    simp only [putDigit_fmt]
    refine bind_received h1 (fun _ => rfl) (fun s hs => writeDigits_bad dev L hs _) fun s' g1 g2 g3 g4 => ?_
    obtain ⟨q, h5, h6⟩ := writeDigits_received dev L (e :: ds) s' g1 (by simp)
    rw [g3] at h5 h6
    exact ⟨q, h5, h6⟩

theorem writeTo_outcome (dev : Device) (L : Limits) {s : Ostream} (hg : s.good = true) (b : Bignum) :
    ∃ p, Received dev s.written (put L s.fmt b).1 p ∧
      writeTo dev L s b = outcome (after s { s.fmt with width := 0 } (put L s.fmt b).1 p) := by
  have text : ∀ t : List Char, ∃ p, Received dev s.written (s.fmt.putText t).1 p ∧
      s.formatted dev (·.putText t) = outcome (after s { s.fmt with width := 0 } (s.fmt.putText t).1 p) :=
    fun t => formatted_received hg (·.putText t)
  have body : ∀ s : Ostream, s.good = true →
      ∃ p, Received dev s.written (if b.digits.length = 0 then s.fmt.putText ['0'] else putDigits L s.fmt b.digits.reverse).1 p ∧
      (if b.digits.length = 0 then s.formatted dev (·.putText ['0']) else writeDigits dev L s b.digits.reverse) =
      outcome (after s { s.fmt with width := 0 } (if b.digits.length = 0 then s.fmt.putText ['0'] else putDigits L s.fmt b.digits.reverse).1 p) := by
    intro s hg
    by_cases h0 : b.digits.length = 0
    · simp only [if_pos h0]
      exact formatted_received hg (·.putText ['0'])
    · simp only [if_neg h0]
      exact writeDigits_received dev L _ s hg (by simpa using h0)
  unfold put writeTo
  cases hd : b.desc with
  | posInf => exact text _
  | negInf => exact text _
  | nan => exact text _
  | pos => exact body s hg
  | neg =>
    obtain ⟨p, h1, h2⟩ := text ['-']
    simp only [h2]
    exact bind_received h1 (fun _ => rfl)
      (fun s hs => by
        split
        · exact formatted_bad hs _
        · exact writeDigits_bad dev L hs _)
      fun s' g1 g2 g3 g4 => by
        obtain ⟨q, h5, h6⟩ := body s' g1
        rw [g3] at h5 h6
        exact ⟨q, h5, h6⟩

/-- C124, exactly: the device receives the text of the number up to the first character it refuses; afterwards the stream is good
exactly when that was all, its width is 0, and an exception is thrown exactly when it is asked for and something is missing. -/
theorem C124_received (dev : Device) (L : Limits) {s : Ostream} (hg : s.good = true) (b : Bignum) :
    ∃ p, Received dev s.written (put L s.fmt b).1 p ∧
      writeTo dev L s b =
        (let s' : Ostream := ⟨{ s.fmt with width := 0 }, decide (p = (put L s.fmt b).1), s.raises, s.written ++ p⟩
         if s.raises = true ∧ p ≠ (put L s.fmt b).1 then .error s' else .ok s') := by
  have conv : ∀ (f : Fmt) (t p : List Char), outcome (after s f t p) =
      (let s' : Ostream := ⟨f, decide (p = t), s.raises, s.written ++ p⟩
       if s.raises = true ∧ p ≠ t then .error s' else .ok s') := by
    intro f t p
    simp [outcome, after]
  obtain ⟨p, h1, h2⟩ := writeTo_outcome dev L hg b
  exact ⟨p, h1, h2.trans (conv _ _ _)⟩

example := C124_received (fun w _ => decide (w.length < 2)) .base10 (s := { raises := true }) rfl Sample.m23

/-- C124: a stream that is still good after the output has written the whole number (whatever its state was before). -/
theorem C124_good_means_complete (dev : Device) (L : Limits) {s s' : Ostream} {b : Bignum} (h : writeTo dev L s b = .ok s')
    (hg : s'.good = true) : s.good = true ∧ s'.written = s.written ++ (put L s.fmt b).1 := by
  cases hs : s.good
  · rw [C124_after_failure dev L hs] at h
    obtain rfl := Except.ok.inj h
    rw [hs] at hg; cases hg
  · obtain ⟨p, h1, h2⟩ := C124_received dev L hs b
    rw [h2] at h
    simp only at h
    split at h
    · cases h
    · obtain rfl := Except.ok.inj h
      simp only [decide_eq_true_eq] at hg
      exact ⟨rfl, by rw [hg]⟩

example := C124_good_means_complete (fun _ _ => true) .base10 (s := {}) (s' := { written := ['-', '2', '3'] }) (b := Sample.m23) (by decide) rfl

/-- C124: when the exception is asked for, the output returns only if everything has been written. -/
theorem C124_returned_means_complete (dev : Device) (L : Limits) {s s' : Ostream} {b : Bignum} (hg : s.good = true) (hr : s.raises = true)
    (h : writeTo dev L s b = .ok s') : s'.good = true ∧ s'.written = s.written ++ (put L s.fmt b).1 := by
  obtain ⟨p, h1, h2⟩ := C124_received dev L hg b
  rw [h2] at h
  simp only [hr, true_and] at h
  split at h
  · cases h
  · rename_i hp
    obtain rfl := Except.ok.inj h
    simp only [ne_eq, not_not] at hp
    exact ⟨by simp [hp], by rw [hp]⟩

example := C124_returned_means_complete (fun _ _ => true) .base10 (s := { raises := true }) (s' := { raises := true, written := ['-', '2', '3'] })
  (b := Sample.m23) rfl rfl (by decide)

theorem writeAll_bad (dev : Device) (L : Limits) {s : Ostream} (hg : s.good = false) : ∀ bs, writeAll dev L s bs = .ok s
  | [] => rfl
  | b :: bs => by
    unfold writeAll
    rw [C124_after_failure dev L hg]
    exact writeAll_bad dev L hg bs

theorem textOf_width (L : Limits) (f : Fmt) : ∀ bs, textOf L { f with width := 0 } bs = bs.flatMap fun b => (put L { f with width := 0 } b).1
  | [] => rfl
  | b :: bs => by
    rw [textOf, textOf_width L f bs, List.flatMap_cons]

theorem writeAll_outcome (dev : Device) (L : Limits) : ∀ (bs : List Bignum) {s : Ostream}, s.good = true →
    ∃ p, Received dev s.written (textOf L s.fmt bs) p ∧
      writeAll dev L s bs = outcome (after s (if bs = [] then s.fmt else { s.fmt with width := 0 }) (textOf L s.fmt bs) p)
  | [], s, hg => ⟨[], .nil _ _, by simp [writeAll, textOf, outcome, after, ← hg]⟩
  | b :: bs, s, hg => by
    obtain ⟨p, h1, h2⟩ := writeTo_outcome dev L hg b
    rw [writeAll, h2, textOf, if_neg (by simp)]
    refine bind_received h1 (fun _ => rfl) (fun s hs => writeAll_bad dev L hs bs) fun s' g1 g2 g3 g4 => ?_
    obtain ⟨q, h3, h4⟩ := writeAll_outcome dev L bs g1
    rw [g3] at h3 h4
    exact ⟨q, h3, by rw [h4]; split <;> rfl⟩

/-- C124: several numbers written to one stream: the device holds their texts in order up to the first character it refused, also
when an exception is thrown; the stream is good exactly when nothing is missing. -/
theorem C124_sequence (dev : Device) (L : Limits) (bs : List Bignum) {s : Ostream} (hg : s.good = true) :
    ∃ p s', Received dev s.written (textOf L s.fmt bs) p ∧ s'.written = s.written ++ p ∧ (s'.good = true ↔ p = textOf L s.fmt bs) ∧
      writeAll dev L s bs = if s.raises = true ∧ p ≠ textOf L s.fmt bs then .error s' else .ok s' := by
  obtain ⟨p, h1, h2⟩ := writeAll_outcome dev L bs hg
  refine ⟨p, after s (if bs = [] then s.fmt else { s.fmt with width := 0 }) (textOf L s.fmt bs) p, h1, ?_, ?_, h2.trans ?_⟩
  · rfl
  · simp [after]
  · simp [outcome, after]

example := C124_sequence (fun w _ => decide (w.length < 4)) .base10 [Sample.n199, Sample.m23] (s := { fmt := { width := 6 } }) rfl

/-- C124 for a device with room for `n` more characters: decimal numbers arrive completely exactly when sign and digits fit. -/
theorem C124_room {L : Limits} (h8 : L.single.raw.bits ≠ 8) (h2 : 2 ≤ L.base) (h10 : L.base ≤ 10) (n : Nat) {b : Bignum} (hb : WF L b) :
    ∃ p s', writeTo (fun w _ => decide (w.length < n)) L {} b = .ok s' ∧
      s'.written = p ∧ p = ((if b.desc = .neg then ['-'] else []) ++ Nat.toDigits L.base (b.mag L)).take n ∧
      (s'.good = true ↔ (if b.desc = .neg then 1 else 0) + (Nat.toDigits L.base (b.mag L)).length ≤ n) := by
  obtain ⟨p, h3, h4⟩ := C124_received (fun w _ => decide (w.length < n)) L (s := {}) rfl b
  have ht : (put L {} b).1 = (if b.desc = .neg then ['-'] else []) ++ Nat.toDigits L.base (b.mag L) := by
    rw [C97_numeral h8 h2 (by simpa [radixValue] using h10) rfl rfl hb, show cased _ = id from funext fun c => by simp [cased], List.map_id]
  have hp : p = (put L {} b).1.take n := by
    refine h3.unique ⟨(put L {} b).1.drop n, by simp, fun p' c q e => ?_, fun c u e => ?_⟩
    · have := congrArg List.length e
      simp only [List.length_take, List.length_append, List.length_cons] at this
      simp; omega
    · have := congrArg List.length e
      simp only [List.length_drop, List.length_cons] at this
      simp; omega
  have hlen : (if b.desc = .neg then 1 else 0) + (Nat.toDigits L.base (b.mag L)).length = (put L {} b).1.length := by
    rw [ht]; split <;> simp; omega
  simp only [Bool.false_eq_true, false_and, if_false] at h4
  refine ⟨p, _, h4, by simp, by rw [hp, ht], ?_⟩
  rw [hlen, hp]
  simp

example := C124_room (L := .base10) (by decide) (by decide) (by decide) 2 (b := Sample.m23) (by sample)

end BN
