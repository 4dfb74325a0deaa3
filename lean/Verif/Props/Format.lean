import Verif.Lemmas.Samples
import Verif.Model.Format
import Verif.Props.NumberTheory
import Verif.Props.Print
/-
C97 – C99: output with formatting flags.
-/
namespace BN
open Bignum

/-! Specification: what the flags of a stream mean for one number. -/

def radixValue : Radix → Nat
  | .dec => 10
  | .oct => 8
  | .hex => 16

/-- A character of a numeral, in capitals if asked for. -/
def cased (upper : Bool) (c : Char) : Char := if upper then c.toUpper else c

/-- A text padded to the width of the stream, as for a single formatted output. -/
def paddedText (f : Fmt) (t : List Char) : List Char :=
  if f.adjust = .left then t ++ List.replicate (f.width - t.length) f.fill else List.replicate (f.width - t.length) f.fill ++ t

/-- What a digit prints as when neither a width nor `showbase` is set. -/
def pieceText (L : Limits) (f : Fmt) (d : Nat) : List Char :=
  if L.single.raw.bits = 8 then [Char.ofNat d] else (Nat.toDigits (radixValue f.radix) d).map (cased f.upper)

theorem radix_base (r : Radix) : r.base = radixValue r := by cases r <;> rfl
theorem letter_cased (f : Fmt) : f.letter = cased f.upper := rfl

/-- The stream state after a formatted output. -/
theorem putDigits_fmt (L : Limits) : ∀ (ds : List Nat) (f : Fmt), (putDigits L f ds).2 = if ds = [] then f else { f with width := 0 }
  | [], f => rfl
  | d :: ds, f => by
    have h : (putDigit L f d).2 = { f with width := 0 } := by unfold putDigit; split <;> rfl
    show (putDigits L (putDigit L f d).2 ds).2 = _
    rw [putDigits_fmt L ds, h]
    split <;> simp

/-- C97: printing changes nothing in the stream but the width, which becomes 0. -/
theorem C97_state (L : Limits) (f : Fmt) (b : Bignum) : (put L f b).2 = { f with width := 0 } := by
  unfold put
  cases b.desc <;> try rfl
  · by_cases h : b.digits.length = 0
    · rw [if_pos h]; rfl
    · rw [if_neg h, putDigits_fmt, if_neg (by simpa using h)]
  · by_cases h : b.digits.length = 0
    · simp only [if_pos h]; rfl
    · simp only [if_neg h, putDigits_fmt]
      rw [if_neg (by simpa using h)]
      rfl

theorem padding_zero {f : Fmt} (h : f.width = 0) (n : Nat) : f.padding n = [] := by
  unfold Fmt.padding; rw [h]; simp

theorem putText_zero {f : Fmt} (h : f.width = 0) (t : List Char) : (f.putText t).1 = t := by
  unfold Fmt.putText; rw [padding_zero h]; simp

theorem putInt_zero {f : Fmt} (h : f.width = 0) (v : Nat) :
    (f.putInt v).1 = f.prefixOf v ++ (Nat.toDigits f.radix.base v).map f.letter := by
  unfold Fmt.putInt
  simp only [padding_zero h]
  cases f.adjust <;> simp

/-- What a digit prints as when no width is set. -/
def digitText (L : Limits) (f : Fmt) (d : Nat) : List Char :=
  if L.single.raw.bits = 8 then [Char.ofNat d] else f.prefixOf d ++ (Nat.toDigits f.radix.base d).map f.letter

theorem putDigit_zero {L : Limits} {f : Fmt} (h : f.width = 0) (d : Nat) : (putDigit L f d) = (digitText L f d, f) := by
  have e : ({ f with width := 0 } : Fmt) = f := by cases f; simp_all
  unfold putDigit digitText
  split
  · refine Prod.ext (putText_zero h _) e
  · exact Prod.ext (putInt_zero h _) e

theorem putDigits_zero {L : Limits} {f : Fmt} (h : f.width = 0) : ∀ ds : List Nat, (putDigits L f ds) = ((ds.map (digitText L f)).flatten, f)
  | [] => rfl
  | d :: ds => by
    simp only [putDigits, putDigit_zero h, putDigits_zero h ds, List.map_cons, List.flatten_cons]

/-- The text printed when no width is set. -/
def plainText (L : Limits) (f : Fmt) (b : Bignum) : List Char :=
  match b.desc with
  | .posInf => ['+', 'I', 'N', 'F']
  | .negInf => ['-', 'I', 'N', 'F']
  | .nan => ['N', 'a', 'N']
  | .neg => '-' :: (if b.digits.length = 0 then ['0'] else (b.digits.reverse.map (digitText L f)).flatten)
  | .pos => if b.digits.length = 0 then ['0'] else (b.digits.reverse.map (digitText L f)).flatten

theorem put_zero {L : Limits} {f : Fmt} (h : f.width = 0) (b : Bignum) : (put L f b).1 = plainText L f b := by
  have e : ({ f with width := 0 } : Fmt) = f := by cases f; simp_all
  have ht : ∀ t, f.putText t = (t, f) := fun t => Prod.ext (putText_zero h t) e
  unfold put plainText
  cases b.desc <;> simp only [ht, putDigits_zero h] <;> split <;> rfl

/-- With default flags this is the `toStream` of the other theorems. -/
theorem put_default (L : Limits) (b : Bignum) : (put L {} b).1 = toStream L b := by
  have hd : digitText L {} = showDigit L := by
    funext d
    unfold digitText showDigit
    split
    · rfl
    · show [] ++ (Nat.toDigits 10 d).map (fun c => c) = _
      simp
  rw [put_zero rfl]
  unfold plainText toStream showDigits
  rw [hd]
  cases b.desc <;> simp only [reduceCtorEq, if_false, if_true, List.nil_append]
  all_goals split <;> rfl

/-- C97: with a radix flag that is not below the base of the digits, without `showbase`, a number prints as the sign and the standard
numeral of its value (in capitals with `uppercase`). -/
theorem C97_numeral {L : Limits} (h8 : L.single.raw.bits ≠ 8) (h2 : 2 ≤ L.base) {f : Fmt} (hr : L.base ≤ radixValue f.radix)
    (hw : f.width = 0) (hs : f.showbase = false) {b : Bignum} (hb : WF L b) :
    (put L f b).1 = (if b.desc = .neg then ['-'] else []) ++ (Nat.toDigits L.base (b.mag L)).map (cased f.upper) := by
  rw [← radix_base] at hr
  rw [← letter_cased]
  have hdig : ∀ d, d < L.base → digitText L f d = [f.letter (Nat.digitChar d)] := by
    intro d hd
    unfold digitText
    rw [if_neg h8, Nat.toDigits_of_lt_base (by omega)]
    simp [Fmt.prefixOf, hs]
  have key : (if b.digits.length = 0 then ['0'] else (b.digits.reverse.map (digitText L f)).flatten) =
      (Nat.toDigits L.base (b.mag L)).map f.letter := by
    have h00 : f.letter '0' = '0' := by unfold Fmt.letter; split <;> decide
    by_cases h0 : b.digits = []
    · rw [if_pos (by rw [h0]; rfl)]
      unfold Bignum.mag
      rw [h0, show natOf L.base [] = 0 from rfl, Nat.toDigits_zero]
      simp [h00]
    · rw [if_neg (by simpa using h0)]
      have e1 : (b.digits.reverse.map (digitText L f)).flatten = (b.digits.reverse.map Nat.digitChar).map f.letter := by
        rw [List.map_map]
        have : ∀ l : List Nat, (∀ d ∈ l, d < L.base) → (l.map (digitText L f)).flatten = l.map (f.letter ∘ Nat.digitChar) := by
          intro l
          induction l with
          | nil => intro _; rfl
          | cons d l ih =>
            intro hl
            rw [List.map_cons, List.flatten_cons, hdig d (hl d (by simp)), ih (fun x hx => hl x (by simp [hx]))]
            rfl
        exact this _ (fun d hd => hb.2.1 d (List.mem_reverse.1 hd))
      rw [e1]
      rcases hb.2.2 with hz | hz
      · rw [← toDigits_natOf h2 hb.2.1 hz h0]; rfl
      · unfold Bignum.mag
        rw [hz, show natOf L.base [0] = 0 by simp [natOf], Nat.toDigits_zero]; rfl
  rw [put_zero hw]
  unfold plainText
  rcases hb.1 with e | e <;> rw [e] <;> simp only [reduceCtorEq, if_false, if_true, List.nil_append]
  all_goals rw [key]
  rfl

example := C97_numeral (L := .base10) (f := { radix := .hex }) (b := Sample.m23) (by decide) (by decide) (by decide) rfl rfl (by sample)

/-- C97: base-16 numbers on a stream with `std::hex` print as ordinary hexadecimal numerals. -/
theorem C97_hex {b : Bignum} (hb : WF .base16 b) (f : Fmt) (hf : f.radix = .hex) (hw : f.width = 0) (hs : f.showbase = false)
    (hu : f.upper = false) :
    (put .base16 f b).1 = (if b.desc = .neg then ['-'] else []) ++ Nat.toDigits 16 (b.mag .base16) := by
  rw [C97_numeral (by decide) (by decide) (by rw [hf]; decide) hw hs hb]
  have : cased f.upper = id := by funext c; simp [cased, hu]
  rw [this, List.map_id]
  rfl

example := C97_hex (b := ⟨.neg, [10, 15]⟩) (by sample) { radix := .hex } rfl rfl rfl rfl

theorem letter_digitChar_inj (f : Fmt) : ∀ a < 16, ∀ b < 16, f.letter (Nat.digitChar a) = f.letter (Nat.digitChar b) → a = b := by
  unfold Fmt.letter
  cases f.upper <;> decide

theorem letter_ne_dash (f : Fmt) : ∀ a < 16, f.letter (Nat.digitChar a) ≠ '-' := by
  unfold Fmt.letter
  cases f.upper <;> decide

/-- The digits of the numeral of `n`, most significant first, with one digit for zero. -/
theorem toDigits_map {B : Nat} (hB : 2 ≤ B) (n : Nat) :
    ∃ l : List Nat, l ≠ [] ∧ (∀ d ∈ l, d < B) ∧ Nat.toDigits B n = l.map Nat.digitChar ∧ l.foldl (fun acc x => acc * B + x) 0 = n := by
  by_cases h0 : n = 0
  · subst h0
    exact ⟨[0], by simp, by simp; omega, by simp [Nat.toDigits_zero, Nat.digitChar], by simp⟩
  · have hr := digits_inRange hB n
    have hne : Nat.digits B n ≠ [] := Nat.digits_ne_nil_iff_ne_zero.2 h0
    have e := toDigits_natOf hB hr (digits_nlz B n) hne
    rw [natOf_digits] at e
    refine ⟨(Nat.digits B n).reverse, by simpa using hne, fun d hd => hr d (List.mem_reverse.1 hd), e, ?_⟩
    rw [← natOf_reverse, List.reverse_reverse, natOf_digits]

theorem map_letter_inj (f : Fmt) : ∀ l m : List Nat, (∀ d ∈ l, d < 16) → (∀ d ∈ m, d < 16) →
    (l.map Nat.digitChar).map f.letter = (m.map Nat.digitChar).map f.letter → l = m
  | [], [], _, _, _ => rfl
  | [], _ :: _, _, _, h => by simp at h
  | _ :: _, [], _, _, h => by simp at h
  | a :: l, b :: m, hl, hm, h => by
    simp only [List.map_cons, List.cons.injEq] at h
    rw [letter_digitChar_inj f a (hl a (by simp)) b (hm b (by simp)) h.1,
      map_letter_inj f l m (fun d hd => hl d (by simp [hd])) (fun d hd => hm d (by simp [hd])) h.2]

/-- C97: such a text determines the sign and the value. -/
theorem C97_text_determines_value {L : Limits} (h8 : L.single.raw.bits ≠ 8) (h2 : 2 ≤ L.base) {f : Fmt} (hr : L.base ≤ radixValue f.radix)
    (hw : f.width = 0) (hs : f.showbase = false) {x y : Bignum} (hx : WF L x) (hy : WF L y) (h : (put L f x).1 = (put L f y).1) :
    x.desc = y.desc ∧ x.toInt L = y.toInt L := by
  rw [C97_numeral h8 h2 hr hw hs hx, C97_numeral h8 h2 hr hw hs hy, ← letter_cased] at h
  have h16 : L.base ≤ 16 := hr.trans (by cases f.radix <;> decide)
  obtain ⟨l, l1, l2, l3, l4⟩ := toDigits_map h2 (x.mag L)
  obtain ⟨m, m1, m2, m3, m4⟩ := toDigits_map h2 (y.mag L)
  rw [l3, m3] at h
  have dash : ∀ (k k' : List Nat), k ≠ [] → (∀ d ∈ k, d < L.base) →
      (k.map Nat.digitChar).map f.letter ≠ ['-'] ++ (k'.map Nat.digitChar).map f.letter := by
    intro k k' hk hd he
    cases k with
    | nil => exact hk rfl
    | cons a k =>
      simp only [List.map_cons, List.cons_append, List.nil_append, List.cons.injEq] at he
      exact letter_ne_dash f a (by have := hd a (by simp); omega) he.1
  have fin : (l.map Nat.digitChar).map f.letter = (m.map Nat.digitChar).map f.letter → x.mag L = y.mag L := by
    intro e
    rw [← l4, ← m4, map_letter_inj f l m (fun d hd => by have := l2 d hd; omega) (fun d hd => by have := m2 d hd; omega) e]
  unfold Bignum.toInt
  rcases hx.1 with ex | ex <;> rcases hy.1 with ey | ey <;> rw [ex, ey] at h ⊢ <;>
    simp only [reduceCtorEq, if_false, if_true, List.nil_append] at h
  · exact ⟨rfl, by rw [fin h]⟩
  · exact absurd h (dash _ _ l1 l2)
  · exact absurd h.symm (dash _ _ m1 m2)
  · exact ⟨rfl, by rw [fin (List.append_cancel_left h)]⟩

/-- The hypotheses are met: -2AF with `std::hex << std::uppercase`. -/
example : (put .base16 { radix := .hex, upper := true } ⟨.neg, [15, 10, 2]⟩).1 = ['-', '2', 'A', 'F'] := by decide

/-! ### C98 -/

theorem putInt_paddedText {f : Fmt} (hs : f.showbase = false) (v : Nat) :
    f.putInt v = (paddedText f ((Nat.toDigits f.radix.base v).map f.letter), { f with width := 0 }) := by
  have hp : f.prefixOf v = [] := by simp [Fmt.prefixOf, hs]
  unfold Fmt.putInt paddedText Fmt.padding
  simp only [hp]
  cases f.adjust <;> simp

theorem putDigit_paddedText {L : Limits} {f : Fmt} (hs : f.showbase = false) (d : Nat) :
    putDigit L f d = (paddedText f (digitText L f d), { f with width := 0 }) := by
  unfold putDigit digitText
  split
  · rfl
  · rw [putInt_paddedText hs, show f.prefixOf d = [] by simp [Fmt.prefixOf, hs]]; rfl

theorem digitText_piece {L : Limits} {f : Fmt} (hs : f.showbase = false) : digitText L f = pieceText L f := by
  funext d
  unfold digitText pieceText
  rw [radix_base, letter_cased, show f.prefixOf d = [] by simp [Fmt.prefixOf, hs]]
  rfl

/-- C98, exactly: only the first piece that is written (the minus sign, or else the leading digit) is padded; what follows it is printed
as without a width. -/
theorem C98_only_first_piece {L : Limits} {f : Fmt} (hs : f.showbase = false) (b : Bignum) :
    (∀ ds d, b.desc = .pos → b.digits = ds ++ [d] →
      (put L f b).1 = paddedText f (pieceText L f d) ++ (ds.reverse.map (pieceText L f)).flatten) ∧
    (b.desc = .neg → (put L f b).1 = paddedText f ['-'] ++
      if b.digits = [] then ['0'] else (b.digits.reverse.map (pieceText L f)).flatten) := by
  rw [← digitText_piece hs]
  have hdt : digitText L { f with width := 0 } = digitText L f := by funext d; rfl
  constructor
  · intro ds d hd hdig
    unfold put
    rw [hd, hdig]
    simp only
    rw [if_neg (by simp), List.reverse_append]
    show (putDigits L f (d :: ds.reverse)).1 = _
    simp only [putDigits, putDigit_paddedText hs, putDigits_zero (f := { f with width := 0 }) rfl, hdt]
  · intro hd
    unfold put
    rw [hd]
    by_cases h0 : b.digits = []
    · simp only [h0, List.length_nil, if_true]
      exact congrArg _ (putText_zero (f := { f with width := 0 }) rfl _)
    · simp only [if_neg h0, if_neg (show ¬ b.digits.length = 0 by simpa using h0)]
      show paddedText f ['-'] ++ (putDigits L { f with width := 0 } b.digits.reverse).1 = _
      rw [putDigits_zero (f := { f with width := 0 }) rfl, hdt]

example := C98_only_first_piece (L := .base10) (f := { width := 6, fill := '*' }) rfl Sample.m23

/-- C98: a width is honoured for infinities, NaN, numbers without digits that are not negative, and one-digit numbers that are not
negative.  Missing: everything that is written in more than one piece (see C98_only_first_piece and the witness). -/
theorem C98_width_partial {L : Limits} {f : Fmt} (hs : f.showbase = false) {b : Bignum} (h : b.desc ≠ .neg)
    (h1 : b.desc = .pos → b.digits.length ≤ 1) : (put L f b).1 = paddedText f (put L { f with width := 0 } b).1 := by
  have hdt : digitText L { f with width := 0 } = digitText L f := by funext d; rfl
  rw [put_zero (f := { f with width := 0 }) rfl]
  obtain ⟨e, ds⟩ := b
  cases e with
  | pos =>
    match ds, h1 rfl with
    | [], _ => rfl
    | [d], _ =>
      rw [(C98_only_first_piece hs ⟨.pos, [d]⟩).1 [] d rfl rfl]
      simp [plainText, hdt, digitText_piece hs]
  | neg => exact absurd rfl h
  | posInf => rfl
  | negInf => rfl
  | nan => rfl

example := C98_width_partial (L := .base10) (f := { width := 6, fill := '*' }) rfl (b := ⟨.pos, [7]⟩) (by decide) (by decide)

/-- C98: how many characters are written with width w when every digit takes one character: w - 1 more than without. -/
theorem C98_length {L : Limits} {f : Fmt} (hr : L.single.raw.bits = 8 ∨ L.base ≤ radixValue f.radix)
    (hs : f.showbase = false) {b : Bignum} (hb : WF L b) : (put L f b).1.length = (put L { f with width := 0 } b).1.length + (f.width - 1) := by
  rw [← radix_base] at hr
  have hdt : digitText L { f with width := 0 } = digitText L f := by funext d; rfl
  have hpad : ∀ c : Char, (paddedText f [c]).length = 1 + (f.width - 1) := by
    intro c; unfold paddedText; split <;> simp <;> omega
  have hlen : ∀ d, d < L.base → ∃ c, digitText L f d = [c] := by
    intro d hd
    unfold digitText
    split
    · exact ⟨_, rfl⟩
    · next h8 =>
      rw [Nat.toDigits_of_lt_base (by rcases hr with h | h; exact absurd h h8; omega)]
      exact ⟨f.letter (Nat.digitChar d), by simp [Fmt.prefixOf, hs]⟩
  rw [put_zero (f := { f with width := 0 }) rfl]
  obtain ⟨e, l⟩ := b
  rcases hb.1 with he | he
  · simp only at he
    subst he
    rcases List.eq_nil_or_concat l with rfl | ⟨ds, d, rfl⟩
    · show (paddedText f ['0']).length = _
      rw [hpad]; rfl
    · obtain ⟨c, hc⟩ := hlen d (hb.2.1 d (by simp))
      rw [(C98_only_first_piece hs ⟨.pos, ds.concat d⟩).1 ds d rfl (by simp), ← digitText_piece hs, hc, List.length_append, hpad]
      simp [plainText, hdt, hc]; omega
  · simp only at he
    subst he
    rw [(C98_only_first_piece hs ⟨.neg, l⟩).2 rfl, ← digitText_piece hs, List.length_append, hpad]
    simp [plainText, hdt]; omega

example := C98_length (L := .base10) (f := { width := 6, fill := '*' }) (.inr (by decide)) rfl (b := Sample.m23) (by sample)

/-- `std::setw(5) << 12` writes six characters. -/
theorem C98_refuted : (put .base10 { width := 5 } ⟨.pos, [2, 1]⟩).1 = [' ', ' ', ' ', ' ', '1', '2'] ∧
    (put .base10 { width := 5, adjust := .left } ⟨.neg, [2, 1]⟩).1 = ['-', ' ', ' ', ' ', ' ', '1', '2'] := by decide

/-! ### C99 -/

/-- C99, exactly: with `std::hex << std::showbase` every digit other than 0 carries its own prefix. -/
theorem C99_prefixes {b : Bignum} (hb : WF .base16 b) {f : Fmt} (hf : f.radix = .hex) (hw : f.width = 0) (hs : f.showbase = true)
    (h0 : b.digits ≠ []) :
    (put .base16 f b).1 = (if b.desc = .neg then ['-'] else []) ++
      (b.digits.reverse.map fun d => if d = 0 then ['0'] else ['0', cased f.upper 'x', cased f.upper (Nat.digitChar d)]).flatten := by
  rw [← letter_cased]
  rw [put_zero hw]
  have hdt : digitText .base16 f = fun d => if d = 0 then ['0'] else ['0', f.letter 'x'] ++ (Nat.toDigits 16 d).map f.letter := by
    funext d
    unfold digitText Fmt.prefixOf
    rw [if_neg (by decide), hf, hs]
    by_cases h : d = 0
    · subst h
      have h00 : f.letter '0' = '0' := by unfold Fmt.letter; split <;> decide
      simp [h00]
    · simp [h, Radix.base]
  have key : (b.digits.reverse.map (digitText .base16 f)) =
      b.digits.reverse.map fun d => if d = 0 then ['0'] else ['0', f.letter 'x', f.letter (Nat.digitChar d)] := by
    refine List.map_congr_left fun d hd => ?_
    rw [hdt]
    simp only
    rw [Nat.toDigits_of_lt_base (show d < 16 from hb.2.1 d (List.mem_reverse.1 hd))]
    rfl
  unfold plainText
  rw [if_neg (by simpa using h0), key]
  rcases hb.1 with e | e <;> rw [e] <;> simp

example := C99_prefixes (b := ⟨.neg, [10, 15]⟩) (by sample) (f := { radix := .hex, showbase := true }) rfl rfl rfl (by simp)

/-- C99: `std::hex << std::showbase` prints the sign, 0x and the numeral for numbers of one digit other than 0.  Missing: all others (see
C99_prefixes and the witness). -/
theorem C99_showbase_partial {b : Bignum} (hb : WF .base16 b) (h1 : b.digits.length = 1) (h0 : b.mag .base16 ≠ 0) {f : Fmt}
    (hf : f.radix = .hex) (hw : f.width = 0) (hs : f.showbase = true) :
    (put .base16 f b).1 = (if b.desc = .neg then ['-'] else []) ++ ['0', cased f.upper 'x'] ++ (Nat.toDigits 16 (b.mag .base16)).map (cased f.upper) := by
  obtain ⟨e, l⟩ := b
  match l, h1 with
  | [d], _ =>
    rw [C99_prefixes hb hf hw hs (by simp)]
    have hd : (⟨e, [d]⟩ : Bignum).mag .base16 = d := by simp [Bignum.mag, natOf]
    rw [hd] at h0 ⊢
    rw [Nat.toDigits_of_lt_base (show d < 16 from hb.2.1 d (by simp))]
    simp [h0]

example := C99_showbase_partial (b := ⟨.neg, [10]⟩) (by sample) rfl (by sample) (f := { radix := .hex, showbase := true }) rfl rfl rfl

/-- 18 in base 16 prints as 0x10x2. -/
theorem C99_refuted : (put .base16 { radix := .hex, showbase := true } ⟨.pos, [2, 1]⟩).1 = ['0', 'x', '1', '0', 'x', '2'] := by decide

/-- The hypotheses are met. -/
example : WF .base16 ⟨.pos, [11]⟩ ∧ (⟨.pos, [11]⟩ : Bignum).mag .base16 ≠ 0 ∧
    (put .base16 { radix := .hex, showbase := true, upper := true } ⟨.pos, [11]⟩).1 = ['0', 'X', 'B'] := by
  refine ⟨?_, by decide, by decide⟩
  simp [WF, Signed, WFDigits, InRange, NoLeadingZero, Limits.base, Limits.base16, Limits.custom]

/-- The prefix of a digit: none for 0 and in decimal. -/
def marker (f : Fmt) (d : Nat) : List Char :=
  match f.showbase, f.radix, d with
  | true, .oct, _ + 1 => ['0']
  | true, .hex, _ + 1 => ['0', cased f.upper 'x']
  | _, _, _ => []

/-- One digit of a wide type in any format: the fill characters stand behind it, before it, or, with `std::internal`, between the prefix 0x
and the digit (but before the prefix 0). -/
def markedText (f : Fmt) (d : Nat) : List Char :=
  let t := (Nat.toDigits (radixValue f.radix) d).map (cased f.upper)
  let pad := List.replicate (f.width - (marker f d ++ t).length) f.fill
  match f.adjust, f.radix with
  | .left, _ => marker f d ++ t ++ pad
  | .internal, .hex => marker f d ++ pad ++ t
  | _, _ => pad ++ marker f d ++ t

theorem putInt_marked (f : Fmt) (d : Nat) : f.putInt d = (markedText f d, { f with width := 0 }) := by
  obtain ⟨r, sb, up, adj, fl, w⟩ := f
  unfold Fmt.putInt markedText
  rw [letter_cased, radix_base]
  refine Prod.ext ?_ rfl
  have hp : Fmt.prefixOf ⟨r, sb, up, adj, fl, w⟩ d = marker ⟨r, sb, up, adj, fl, w⟩ d := by
    unfold Fmt.prefixOf marker
    rw [letter_cased]
    cases sb <;> cases r <;> cases d <;> simp
  simp only [hp, Fmt.padding, List.length_append]
  cases adj with
  | left => rfl
  | right => rfl
  | internal =>
    cases r with
    | dec => simp [marker]
    | oct => cases sb <;> cases d <;> simp [marker]
    | hex => cases sb <;> cases d <;> simp [marker]

/-- C98, C99, in any format whatsoever: the exact text of every number of a type with digits of more than 8 bits.  The leading piece has the
width asked for, every digit its own prefix. -/
theorem C99_every_format {L : Limits} (h8 : L.single.raw.bits ≠ 8) (f : Fmt) (b : Bignum) :
    (∀ ds d, b.desc = .pos → b.digits = ds ++ [d] →
      (put L f b).1 = markedText f d ++ (ds.reverse.map (markedText { f with width := 0 })).flatten) ∧
    (b.desc = .neg → (put L f b).1 = paddedText f ['-'] ++
      if b.digits = [] then ['0'] else (b.digits.reverse.map (markedText { f with width := 0 })).flatten) := by
  have hdt : digitText L { f with width := 0 } = markedText { f with width := 0 } := by
    funext d
    have h1 := putDigit_zero (L := L) (f := { f with width := 0 }) rfl d
    have h2 := putInt_marked { f with width := 0 } d
    unfold putDigit at h1
    rw [if_neg h8, h2] at h1
    exact (congrArg Prod.fst h1).symm
  constructor
  · intro ds d hd hdig
    unfold put
    rw [hd, hdig]
    simp only
    rw [if_neg (by simp), List.reverse_append]
    show (putDigits L f (d :: ds.reverse)).1 = _
    simp only [putDigits, putDigit, if_neg h8, putInt_marked, putDigits_zero (f := { f with width := 0 }) rfl, hdt]
  · intro hd
    unfold put
    rw [hd]
    by_cases h0 : b.digits = []
    · simp only [h0, List.length_nil, if_true]
      exact congrArg _ (putText_zero (f := { f with width := 0 }) rfl _)
    · simp only [if_neg h0, if_neg (show ¬ b.digits.length = 0 by simpa using h0)]
      show paddedText f ['-'] ++ (putDigits L { f with width := 0 } b.digits.reverse).1 = _
      rw [putDigits_zero (f := { f with width := 0 }) rfl, hdt]

example : (put .base16 { radix := .hex, showbase := true, adjust := .internal, fill := '*', width := 6 } ⟨.pos, [2, 10]⟩).1 =
    ['0', 'x', '*', '*', '*', 'a', '0', 'x', '2'] ∧
    (put .base8 { radix := .oct, showbase := true, adjust := .internal, fill := '*', width := 6 } ⟨.pos, [5]⟩).1 =
    ['*', '*', '*', '*', '0', '5'] := by decide

end BN
