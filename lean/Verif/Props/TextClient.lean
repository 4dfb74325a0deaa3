import Verif.Lemmas.Samples
import Verif.Props.Euclid
import Verif.Props.Print
import Verif.Props.Object
/-
C78, C79: clients that read numbers back from text, with the list constructor and with the operators.
-/
namespace BN
open Bignum

/-- `c - '0'` -/
def digitOf (c : Char) : Nat := c.toNat - 48

/-- A client's reader: there is no `operator>>`, so a client strips a minus sign and hands the digits, most significant first, to
the constructor `bignum_t(bn_desc_t, std::initializer_list)` (or an equal list). -/
def readNumber (env : Env) : List Char → Res Bignum
  | [] => ofList env .pos []
  | c :: t => if c = '-' then ofList env .neg (t.map digitOf) else ofList env .pos ((c :: t).map digitOf)

/-- Digit characters of a base of at most ten. -/
def IsText (B : Nat) (t : List Char) : Prop := ∀ c ∈ t, '0' ≤ c ∧ c.toNat < 48 + B

/-- Horner value of a text. -/
def textValue (B : Nat) (t : List Char) : Nat := t.foldl (fun acc c => acc * B + (c.toNat - 48)) 0

theorem foldl_dropZero (B : Nat) : ∀ l : List Nat,
    (l.dropWhile (· == 0)).foldl (fun acc d => acc * B + d) 0 = l.foldl (fun acc d => acc * B + d) 0
  | [] => rfl
  | d :: l => by
    by_cases h : d = 0
    · subst h
      rw [List.dropWhile_cons_of_pos (by simp), foldl_dropZero B l]
      simp
    · rw [List.dropWhile_cons_of_neg (by simpa using h)]

theorem nlz_reverse_drop (l : List Nat) : NoLeadingZero (l.dropWhile (· == 0)).reverse := by
  have h := List.head?_dropWhile_not (p := (· == 0)) (l := l)
  unfold NoLeadingZero
  rw [List.getLast?_reverse]
  intro h'
  rw [h'] at h
  simp at h

/-- The list constructor builds the canonical object of the Horner value. -/
theorem ofList_numeral {L : Limits} (hB : 2 ≤ L.base) {env : Env} (hm : env.Ample) (d : Desc) {l : List Nat}
    (hl : ∀ x ∈ l, x < L.base) : ofList env d l = .ok (numeral L d (l.foldl (fun acc x => acc * L.base + x) 0)) := by
  rw [ofList_eq hm]
  have := eq_numeral hB (c := ⟨d, (l.dropWhile (· == 0)).reverse⟩)
    (fun x hx => hl x (List.dropWhile_subset _ (List.mem_reverse.1 hx))) (nlz_reverse_drop l)
  rw [this]
  show Except.ok (numeral L d (natOf L.base (l.dropWhile (· == 0)).reverse)) = _
  rw [natOf_reverse, foldl_dropZero]

theorem text_digits {B : Nat} {t : List Char} (ht : IsText B t) : ∀ x ∈ t.map digitOf, x < B := by
  intro x hx
  obtain ⟨c, hc, rfl⟩ := List.mem_map.1 hx
  obtain ⟨h1, h2⟩ := ht c hc
  have : 48 ≤ c.toNat := h1
  unfold digitOf
  omega

theorem dash_not_text {B : Nat} {t : List Char} (h : IsText B ('-' :: t)) : False := by
  have := (h '-' (by simp)).1
  exact absurd this (by decide)

/-- C78: a text of digit characters is read as its value, whatever its length and however many zeros lead it. -/
theorem C78_read {L : Limits} (h2 : 2 ≤ L.base) {env : Env} (hm : env.Ample) {t : List Char} (ht : IsText L.base t) :
    readNumber env t = .ok (numeral L .pos (textValue L.base t)) ∧
    readNumber env ('-' :: t) = .ok (numeral L .neg (textValue L.base t)) := by
  have hf : ∀ d, ofList env d (t.map digitOf) = .ok (numeral L d (textValue L.base t)) := by
    intro d
    rw [ofList_numeral h2 hm d (text_digits ht), List.foldl_map]
    rfl
  constructor
  · cases t with
    | nil => exact hf .pos
    | cons c t =>
      have hc : c ≠ '-' := by
        rintro rfl
        exact dash_not_text ht
      simp only [readNumber]
      rw [if_neg hc]
      exact hf .pos
  · simp only [readNumber]
    exact hf .neg

example := C78_read (L := .base10) (by decide) Sample.ample (t := ['0', '0', '7']) (by unfold IsText; decide)

theorem toDigits_isText {B : Nat} (h2 : 2 ≤ B) (h10 : B ≤ 10) (m : Nat) :
    IsText B (Nat.toDigits B m) ∧ textValue B (Nat.toDigits B m) = m := by
  have hv : ∀ d, d < 10 → (Nat.digitChar d).toNat = 48 + d ∧ '0' ≤ Nat.digitChar d := by decide
  by_cases hm : m = 0
  · subst hm
    have : Nat.toDigits B 0 = ['0'] := by simp [Nat.toDigits, Nat.toDigitsCore, Nat.digitChar]
    rw [this]
    refine ⟨?_, by simp [textValue]⟩
    intro c hc
    rw [List.mem_singleton.1 hc]
    exact ⟨by decide, by show 48 < _; omega⟩
  · have hr := digits_inRange h2 m
    have hne : Nat.digits B m ≠ [] := Nat.digits_ne_nil_iff_ne_zero.2 hm
    have e := toDigits_natOf h2 hr (digits_nlz B m) hne
    rw [natOf_digits] at e
    rw [e]
    have h10' : ∀ d ∈ Nat.digits B m, d < 10 := fun d hd => lt_of_lt_of_le (hr d hd) h10
    constructor
    · intro c hc
      obtain ⟨d, hd, rfl⟩ := List.mem_map.1 hc
      have hd' := List.mem_reverse.1 hd
      refine ⟨(hv d (h10' d hd')).2, ?_⟩
      rw [(hv d (h10' d hd')).1]
      have := hr d hd'
      omega
    · unfold textValue
      rw [List.foldl_map]
      have : (Nat.digits B m).reverse.foldl (fun acc d => acc * B + ((Nat.digitChar d).toNat - 48)) 0 =
          (Nat.digits B m).reverse.foldl (fun acc d => acc * B + d) 0 := by
        apply List.foldl_ext
        intro a d hd
        rw [(hv d (h10' d (List.mem_reverse.1 hd))).1]
        omega
      rw [this, ← natOf_reverse, List.reverse_reverse, natOf_digits]

/-- C78: what `operator<<` printed is read back as the same sign and value; the object itself comes back unless it was a zero with a
digit. -/
theorem C78_print_then_read {L : Limits} (h8 : L.single.raw.bits ≠ 8) (h2 : 2 ≤ L.base) (h10 : L.base ≤ 10) {env : Env} (hm : env.Ample)
    {b : Bignum} (hb : WF L b) :
    (∃ c, readNumber env (toStream L b) = .ok c ∧ c.desc = b.desc ∧ c.toInt L = b.toInt L) ∧
    (NoLeadingZero b.digits → readNumber env (toStream L b) = .ok b) := by
  have ht := toDigits_isText h2 h10 (b.mag L)
  have hr := C78_read h2 hm ht.1
  rw [ht.2] at hr
  have key : readNumber env (toStream L b) = .ok (numeral L b.desc (b.mag L)) := by
    rw [C47_numeral h8 h2 h10 hb]
    rcases hb.1 with hd | hd
    · rw [hd, if_neg (by decide)]
      exact hr.1
    · rw [hd, if_pos rfl]
      exact hr.2
  refine ⟨⟨_, key, rfl, ?_⟩, fun hz => ?_⟩
  · rw [toInt_of_signed hb.1, toInt_of_signed (b := numeral L b.desc (b.mag L)) hb.1]
    rw [show natOf L.base (numeral L b.desc (b.mag L)).digits = b.mag L from natOf_digits _ _]
    rfl
  · rw [key, ← eq_numeral h2 hb.2.1 hz]

example := C78_print_then_read (L := .base10) (by decide) (by decide) (by decide) Sample.ample (b := Sample.m23) (by sample)

/-- C78: reading a digit text and printing it gives the usual numeral of its value: leading zeros disappear, nothing else changes. -/
theorem C78_read_then_print {L : Limits} (h8 : L.single.raw.bits ≠ 8) (h2 : 2 ≤ L.base) (h10 : L.base ≤ 10) {env : Env} (hm : env.Ample)
    {t : List Char} (ht : IsText L.base t) :
    (∃ b, readNumber env t = .ok b ∧ toStream L b = Nat.toDigits L.base (textValue L.base t)) ∧
    (∃ b, readNumber env ('-' :: t) = .ok b ∧ toStream L b = '-' :: Nat.toDigits L.base (textValue L.base t)) := by
  obtain ⟨hp, hn⟩ := C78_read h2 hm ht
  refine ⟨⟨_, hp, ?_⟩, ⟨_, hn, ?_⟩⟩
  · rw [C47_numeral h8 h2 h10 (numeral_wf h2 (.inl rfl) _), numeral_mag]
    rfl
  · rw [C47_numeral h8 h2 h10 (numeral_wf h2 (.inr rfl) _), numeral_mag]
    rfl

example := C78_read_then_print (L := .base10) (by decide) (by decide) (by decide) Sample.ample (t := ['0', '0', '7']) (by unfold IsText; decide)

/-- C78, identity on canonical numerals. -/
theorem C78_canonical_text {L : Limits} (h8 : L.single.raw.bits ≠ 8) (h2 : 2 ≤ L.base) (h10 : L.base ≤ 10) {env : Env} (hm : env.Ample)
    (m : Nat) : ∃ b, readNumber env (Nat.toDigits L.base m) = .ok b ∧ toStream L b = Nat.toDigits L.base m := by
  have ht := toDigits_isText h2 h10 m
  have := (C78_read_then_print h8 h2 h10 hm ht.1).1
  rwa [ht.2] at this

example : ∃ b : Bignum, WF .base10 b ∧ NoLeadingZero b.digits ∧ toStream .base10 b = ['-', '1', '0', '7'] :=
  ⟨⟨.neg, [7, 0, 1]⟩, by simp [WF, Signed, WFDigits, InRange, NoLeadingZero, Limits.base, Limits.base10, Limits.custom],
    by simp [NoLeadingZero], by decide⟩
example : IsText 10 ['0', '0', '7'] ∧ textValue 10 ['0', '0', '7'] = 7 := ⟨by unfold IsText; decide, by decide⟩

/-! ### C79: the same with the operators -/

/-- One step `x = x * base + digit` -/
def hornerStep {F : Type} (o : FloatOps F) (L : Limits) (env : Env) (n : Nat) (base : Bignum) (x : Bignum) (c : Char) : Res Bignum := do
  let d ← ofList env .pos [digitOf c]
  let p ← x.mul o L env n base
  p.add L env n d

/-- `bignum x{BN_POS, {0}}, base{BN_POS, {1, 0}}; for (char c : text) x = x * base + bignum{BN_POS, {c - '0'}};` -/
def hornerRead {F : Type} (o : FloatOps F) (L : Limits) (env : Env) (n : Nat) (t : List Char) : Res Bignum := do
  let x ← ofList env .pos [0]
  let base ← ofList env .pos [1, 0]
  t.foldlM (fun x c => hornerStep o L env n base x c) x

theorem add_pos {L : Limits} (hL : Supported L) {env : Env} (hm : env.Ample) {x y : Bignum} (hx : WF L x) (hy : WF L y)
    (hs : y.desc = x.desc) : ∃ c, (∀ n, max x.digits.length y.digits.length < n → x.add L env n y = .ok c) ∧ WF L c ∧ c.desc = x.desc ∧ c.mag L = x.mag L + y.mag L := by
  have hB := hL.base_ge
  refine ⟨⟨x.desc, addFull L.base x.digits y.digits 0⟩, ?_, ⟨hx.1, addFull_wf hB hx.2 hy.2⟩, rfl, ?_⟩
  · intro n hn
    unfold Bignum.add viaCopy
    rw [copy_ok hm, ok_bind, addAssign_same_ok hL hm (r := .other y) hx.1 hs hx.2.1 hy.2.1 hn]
    rfl
  · show natOf _ (addFull _ _ _ _) = _
    rw [addFull_natOf hB hx.2.1 hy.2.1 (Nat.zero_le 1)]
    rfl

theorem wf_length {L : Limits} (hB : 2 ≤ L.base) {x : Bignum} (hx : WF L x) {k : Nat} (h : x.mag L < L.base ^ k) :
    x.digits.length ≤ k + 1 := by
  rcases hx.2.2 with hz | hz
  · rw [eq_numeral hB hx.2.1 hz]
    have := length_numeral_le hB (d := x.desc) h
    omega
  · rw [hz]
    simp

theorem wf_length_pos {L : Limits} (hB : 2 ≤ L.base) {x : Bignum} (hx : WF L x) {k : Nat} (hk : 1 ≤ k) (h : x.mag L < L.base ^ k) :
    x.digits.length ≤ k := by
  rcases hx.2.2 with hz | hz
  · rw [eq_numeral hB hx.2.1 hz]
    exact length_numeral_le hB (d := x.desc) h
  · rw [hz]
    exact hk

theorem horner_step {F : Type} {o : FloatOps F} (M : Ieee o) {L : Limits} {K : Nat} (hp : Preset L K) {env : Env} (hm : env.Ample)
    {x : Bignum} (hx : WF L x) (hxp : x.desc = .pos) {c : Char} (hc : '0' ≤ c ∧ c.toNat < 48 + L.base)
    (hK : x.digits.length + 2 ≤ K) :
    ∃ y, (∀ n, 32 < n → x.digits.length + 2 < n → hornerStep o L env n (numeral L .pos L.base) x c = .ok y) ∧ WF L y ∧ y.desc = .pos ∧
      y.mag L = x.mag L * L.base + (c.toNat - 48) := by
  have hB := hp.custom.supported.base_ge
  have hb2 : (numeral L .pos L.base).digits.length ≤ 2 := length_numeral_le hB (by nlinarith)
  have hb1 : 1 ≤ (numeral L .pos L.base).digits.length := length_pos (Nat.digits_ne_nil_iff_ne_zero.2 (by omega))
  have hd : ∀ z ∈ [digitOf c], z < L.base := by
    have := text_digits (B := L.base) (t := [c]) (by intro c' h'; rw [List.mem_singleton.1 h']; exact hc)
    simpa using this
  have hv : ([digitOf c].foldl (fun acc z => acc * L.base + z) 0) = c.toNat - 48 := by simp [digitOf]
  have h48 : 48 ≤ c.toNat := hc.1
  have hlen : (numeral L .pos (x.mag L * L.base)).digits.length ≤ x.digits.length + 2 := by
    have := length_prod hB hx (numeral_wf hB (d := .pos) (.inl rfl) L.base) .pos
    rw [numeral_mag] at this
    omega
  have hlen' : (numeral L .pos (c.toNat - 48)).digits.length ≤ 1 := length_numeral_le hB (by rw [pow_one]; omega)
  obtain ⟨y, h1, h2, h3, h4⟩ := add_pos hp.custom.supported hm (numeral_wf hB (d := .pos) (.inl rfl) (x.mag L * L.base))
    (numeral_wf hB (d := .pos) (.inl rfl) (c.toNat - 48))  rfl
  refine ⟨y, fun n hn hl => ?_, h2, h3, ?_⟩
  · have hmul := mul_numeral M hp hm hx (numeral_wf hB (d := .pos) (.inl rfl) L.base) (by omega) (by omega) hn
    rw [numeral_mag, hxp] at hmul
    unfold hornerStep
    rw [ofList_numeral hB hm .pos hd, ok_bind, hmul, ok_bind, hv]
    exact h1 n (by omega)
  · rw [h4, numeral_mag, numeral_mag]

theorem textValue_lt {B : Nat} : ∀ (t : List Char), IsText B t → ∀ acc k : Nat, acc < B ^ k →
    t.foldl (fun acc c => acc * B + (c.toNat - 48)) acc < B ^ (k + t.length)
  | [], _, acc, k, h => h
  | c :: t, ht, acc, k, h => by
    have hc := ht c (by simp)
    have h48 : 48 ≤ c.toNat := hc.1
    have hd : c.toNat - 48 < B := by omega
    have : acc * B + (c.toNat - 48) < B ^ (k + 1) := by
      rw [pow_succ]
      nlinarith [Nat.mul_le_mul_right B (Nat.succ_le_of_lt h)]
    have := textValue_lt t (fun c' h' => ht c' (by simp [h'])) _ _ this
    rw [List.foldl_cons, List.length_cons]
    rwa [show k + (t.length + 1) = k + 1 + t.length by omega]

theorem horner_loop {F : Type} {o : FloatOps F} (M : Ieee o) {L : Limits} {K : Nat} (hp : Preset L K) {env : Env} (hm : env.Ample)
    : ∀ (t : List Char), IsText L.base t → ∀ (x : Bignum) (k : Nat), WF L x → x.desc = .pos → x.mag L < L.base ^ k →
      k + t.length + 3 ≤ K →
    ∃ y, (∀ n, 32 < n → k + t.length + 3 < n → t.foldlM (fun x c => hornerStep o L env n (numeral L .pos L.base) x c) x = .ok y) ∧ WF L y ∧ y.desc = .pos ∧
      y.mag L = t.foldl (fun acc c => acc * L.base + (c.toNat - 48)) (x.mag L)
  | [], _, x, k, hx, hxp, _, _ => ⟨x, fun _ _ _ => rfl, hx, hxp, rfl⟩
  | c :: t, ht, x, k, hx, hxp, hk, hK => by
    have hB := hp.custom.supported.base_ge
    have hc := ht c (by simp)
    have h48 : 48 ≤ c.toNat := hc.1
    have hlx := wf_length hB hx hk
    rw [List.length_cons] at hK
    obtain ⟨y, h1, h2, h3, h4⟩ := horner_step M hp hm hx hxp hc (by omega)
    have hy : y.mag L < L.base ^ (k + 1) := by
      have hd : c.toNat - 48 < L.base := by omega
      rw [h4, pow_succ]
      nlinarith [Nat.mul_le_mul_right L.base (Nat.succ_le_of_lt hk)]
    obtain ⟨z, g1, g2, g3, g4⟩ := horner_loop M hp hm t (fun c' h' => ht c' (by simp [h'])) y (k + 1) h2 h3 hy (by omega)
    refine ⟨z, fun n hn hl => ?_, g2, g3, ?_⟩
    · rw [List.length_cons] at hl
      rw [List.foldlM_cons, h1 n hn (by omega)]
      exact g1 n hn (by omega)
    · rw [g4, h4, List.foldl_cons]

/-- C79: the Horner loop with `*` and `+` computes the value of the text, and the very object the constructor builds unless the
value is zero (where it may carry one zero digit). -/
theorem C79_horner {F : Type} {o : FloatOps F} (M : Ieee o) {L : Limits} {K : Nat} (hp : Preset L K) {env : Env} (hm : env.Ample)
    {t : List Char} (ht : IsText L.base t) (hK : t.length + 3 ≤ K) :
    ∃ x, Evaluates (fun n => hornerRead o L env n t) (.ok x) ∧ WF L x ∧ x.desc = .pos ∧ x.toInt L = textValue L.base t ∧
      (textValue L.base t ≠ 0 → readNumber env t = .ok x) := by
  have hB := hp.custom.supported.base_ge
  obtain ⟨x, h1, h2, h3, h4⟩ := horner_loop M hp hm t ht (numeral L .pos 0) 0 (numeral_wf hB (.inl rfl) 0) rfl
    (by rw [numeral_mag]; simp) (by omega)
  rw [numeral_mag] at h4
  have h4 : x.mag L = textValue L.base t := h4
  refine ⟨x, ⟨t.length + 36, fun n hn => ?_⟩, h2, h3, ?_, fun h0 => ?_⟩
  · have := h1 n (by omega) (by omega)
    show hornerRead o L env n t = _
    unfold hornerRead
    rw [ofList_numeral (L := L) hB hm .pos (l := [0]) (by simp; omega), ok_bind,
      ofList_numeral (L := L) hB hm .pos (l := [1, 0]) (by simp; omega), ok_bind]
    simpa using this
  · rw [toInt_of_signed h2.1, if_pos h3]
    exact congrArg _ h4
  · have hz : NoLeadingZero x.digits := by
      rcases h2.2.2 with hz | hz
      · exact hz
      · exfalso
        apply h0
        rw [← h4]
        show natOf _ x.digits = 0
        rw [hz]
        rfl
    rw [(C78_read hB hm ht).1, ← h4, ← h3, ← eq_numeral hB h2.2.1 hz]

example {F : Type} {o : FloatOps F} (M : Ieee o) := C79_horner M .base10 Sample.ample (t := ['0', '0', '7']) (by unfold IsText; decide) (by decide)

/-- The zero digit is real: "0" read by the loop is not the object the constructor builds. -/
theorem C79_zero_differs {F : Type} {o : FloatOps F} (M : Ieee o) :
    Evaluates (fun n => hornerRead o .base10 releaseEnv n ['0']) (.ok ⟨.pos, [0]⟩) ∧
    readNumber releaseEnv ['0'] = .ok ⟨.pos, []⟩ := by
  have hm := releaseEnv_ample
  refine ⟨⟨34, fun n hn => ?_⟩, by rw [readNumber, if_neg (by decide), ofList_eq hm]; rfl⟩
  show hornerRead o .base10 releaseEnv n ['0'] = _
  unfold hornerRead
  rw [ofList_eq hm, ok_bind, ofList_eq hm, ok_bind]
  show (hornerStep o .base10 releaseEnv n ⟨.pos, [0, 1]⟩ ⟨.pos, []⟩ '0' >>= fun x => pure x) = _
  unfold hornerStep
  have hmul := mul_numeral M Preset.base10 hm (x := ⟨.pos, []⟩) (y := ⟨.pos, [0, 1]⟩) (n := n)
    (by simp [WF, Signed, WFDigits, InRange, NoLeadingZero, Limits.base, Limits.base10, Limits.custom])
    (by simp [WF, Signed, WFDigits, InRange, NoLeadingZero, Limits.base, Limits.base10, Limits.custom]) (by simp) (by simp) (by omega)
  have hz : (⟨.pos, []⟩ : Bignum).mag .base10 * (⟨.pos, [0, 1]⟩ : Bignum).mag .base10 = 0 := by simp [mag]
  rw [hz] at hmul
  rw [ofList_eq hm, ok_bind, hmul, ok_bind]
  show (Bignum.add .base10 releaseEnv n ⟨.pos, []⟩ ⟨.pos, []⟩ >>= fun x => pure x) = _
  unfold Bignum.add viaCopy
  rw [copy_ok hm, ok_bind, addAssign_same_ok custom_base10.supported hm (r := .other ⟨.pos, []⟩) (.inl rfl) rfl (.nil _) (.nil _)
    (by simp [Rhs.get]; omega)]
  rfl

example : IsText 10 ['1', '0', '7'] ∧ textValue 10 ['1', '0', '7'] = 107 := ⟨by unfold IsText; decide, by decide⟩
end BN
