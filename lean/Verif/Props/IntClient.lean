import Verif.Lemmas.Samples
import Verif.Props.IntType
import Verif.Model.IntegerTest
/-
C65–C66: the client tests/integer_test.cpp, and streaming of single digits.
-/
namespace BN
open BNInt

/-! ### C65 -/

/-- C65 fails: the generator of the test draws values from 0 to 100, and 0 as well as 32 and above are undefined operands. -/
theorem C65_refuted : (∃ n t, n ≤ 100 ∧ t ≤ 100 ∧ integerTest n t = .error (.ub .divByZero)) ∧
    ∃ n t, n ≤ 100 ∧ t ≤ 100 ∧ integerTest n t = .error (.ub .badShift) :=
  ⟨⟨5, 0, by decide⟩, ⟨5, 32, by decide⟩⟩

theorem bin32 {a b : Nat} (ha : a < 2 ^ 32) (hb : b < 2 ^ 32) :
    bin 32 .add a b = .ok ((a + b) % 2 ^ 32) ∧ bin 32 .sub a b = .ok ((a + (2 ^ 32 - b)) % 2 ^ 32) ∧
    bin 32 .mul a b = .ok (a * b % 2 ^ 32) ∧ bin 32 .div a b = (if b = 0 then .error (.ub .divByZero) else .ok (a / b)) ∧
    bin 32 .mod a b = (if b = 0 then .error (.ub .divByZero) else .ok (a % b)) ∧
    bin 32 .and a b = .ok (a &&& b) ∧ bin 32 .or a b = .ok (a ||| b) ∧ bin 32 .xor a b = .ok (a ^^^ b) ∧
    bin 32 .shr a b = (if 32 ≤ b then .error (.ub .badShift) else .ok (a / 2 ^ b)) ∧
    bin 32 .shl a b = (if 32 ≤ b then .error (.ub .badShift) else .ok (a * 2 ^ b % 2 ^ 32)) := by
  have hw : IsWidth 32 := .inr (.inr (.inl rfl))
  refine ⟨C49_add hw ha hb, C49_sub hw ha hb, C49_mul hw ha hb (by omega), (C50_div_mod hw ha hb).1, (C50_div_mod hw ha hb).2,
    (C49_bitwise hw ha hb).1, (C49_bitwise hw ha hb).2.1, (C49_bitwise hw ha hb).2.2, C50_shr hw ha, ?_⟩
  rw [C50_shl hw ha]
  simp [promotedWidth]

/-- The results of the ten operators on defined operands. -/
def opResults (a b : Nat) : List Nat :=
  [(a + b) % 2 ^ 32, (a + (2 ^ 32 - b)) % 2 ^ 32, a * b % 2 ^ 32, a / b, a % b, a &&& b, a ||| b, a ^^^ b, a * 2 ^ b % 2 ^ 32, a / 2 ^ b]

theorem testOps_eq {a b : Nat} (ha : a < 2 ^ 32) (hb : b < 2 ^ 32) :
    testOps.mapM (fun op => bin 32 op a b) =
      if b = 0 then .error (.ub .divByZero) else if 32 ≤ b then .error (.ub .badShift) else .ok (opResults a b) := by
  obtain ⟨h1, h2, h3, h4, h5, h6, h7, h8, h9, h10⟩ := bin32 ha hb
  simp only [testOps, List.mapM_cons, List.mapM_nil, h1, h2, h3, h4, h5, h6, h7, h8, h9, h10]
  by_cases h0 : b = 0
  · simp only [h0, if_true]; rfl
  · by_cases hs : 32 ≤ b
    · simp only [if_neg h0, if_pos hs]; rfl
    · simp only [if_neg h0, if_neg hs]; rfl

/-- C65, what holds: for any two 32-bit values the test runs without an undefined operation exactly when both values are between 1 and
31, and then prints the results of the operators on integers modulo 2^32. Missing: the other values of the generator. -/
theorem C65_integer_test_partial {n t : Nat} (hn : n < 2 ^ 32) (ht : t < 2 ^ 32) :
    ((∃ out, integerTest n t = .ok out) ↔ (1 ≤ n ∧ n < 32) ∧ (1 ≤ t ∧ t < 32)) ∧
    ∀ out, integerTest n t = .ok out →
      out.left = opResults n t ∧ out.right = opResults t n ∧
      out.leftCmp = [decide (t < n), decide (n < t), decide (t ≤ n), decide (n ≤ t), decide (n = t), decide (n ≠ t)] ∧
      out.rightCmp = [decide (n < t), decide (t < n), decide (n ≤ t), decide (t ≤ n), decide (t = n), decide (t ≠ n)] := by
  have hw : IsWidth 32 := .inr (.inr (.inl rfl))
  have e : integerTest n t = (do
      let l ← testOps.mapM fun op => bin 32 op n t
      let r ← testOps.mapM fun op => bin 32 op t n
      .ok ⟨l, testCmps.map fun op => cmpR 32 op n t, r, testCmps.map fun op => BNInt.cmp 32 op t n⟩) := by
    unfold integerTest
    simp only [(C49_compound 32 _ _ _).2]
  rw [e, testOps_eq hn ht, testOps_eq ht hn]
  by_cases h : (1 ≤ n ∧ n < 32) ∧ (1 ≤ t ∧ t < 32)
  · rw [if_neg (by omega), if_neg (by omega), if_neg (by omega), if_neg (by omega)]
    refine ⟨⟨fun _ => h, fun _ => ⟨_, rfl⟩⟩, ?_⟩
    rintro out ⟨⟩
    obtain ⟨h1, h2, h3, h4, h5, h6, h7⟩ := C51_comparisons hw hn ht
    obtain ⟨g1, g2, g3, g4, g5, g6, -⟩ := C51_comparisons hw ht hn
    refine ⟨rfl, rfl, ?_, ?_⟩
    · simp only [testCmps, List.map_cons, List.map_nil, h1, h2, h3, h4, h5, h6, h7]
    · simp only [testCmps, List.map_cons, List.map_nil, g1, g2, g3, g4, g5, g6]
  · have hne : ∀ out, ¬ ((do
        let l ← (if t = 0 then .error (.ub .divByZero) else if 32 ≤ t then .error (.ub .badShift) else .ok (opResults n t) : Res (List Nat))
        let r ← (if n = 0 then .error (.ub .divByZero) else if 32 ≤ n then .error (.ub .badShift) else .ok (opResults t n) : Res (List Nat))
        .ok ⟨l, testCmps.map fun op => cmpR 32 op n t, r, testCmps.map fun op => BNInt.cmp 32 op t n⟩) = (.ok out : Res TestOutput)) := by
      intro out
      by_cases h1 : t = 0
      · rw [if_pos h1]; exact fun h => by cases h
      by_cases h2 : 32 ≤ t
      · rw [if_neg h1, if_pos h2]; exact fun h => by cases h
      rw [if_neg h1, if_neg h2]
      by_cases h3 : n = 0
      · rw [if_pos h3]; exact fun h => by cases h
      by_cases h4 : 32 ≤ n
      · rw [if_neg h3, if_pos h4]; exact fun h => by cases h
      omega
    exact ⟨⟨fun ⟨out, ho⟩ => absurd ho (hne out), fun hc => absurd hc h⟩, fun out ho => absurd ho (hne out)⟩

example : integerTest 17 31 = .ok ⟨[48, 4294967282, 527, 0, 17, 17, 31, 14, 2147483648, 0],
    [false, true, false, true, false, true], [48, 14, 527, 1, 14, 17, 31, 14, 4063232, 0],
    [true, false, true, false, false, true]⟩ := by decide

/-! ### C66 -/

theorem decimal_eq : ∀ (cs : List Char) (a : Nat), cs.foldl (fun acc c => acc * 10 + (c.toNat - 48)) a = Nat.ofDigitChars 10 cs a
  | [], _ => rfl
  | c :: cs, a => by
    rw [List.foldl_cons, decimal_eq cs, Nat.ofDigitChars_cons, Nat.mul_comm]
    rfl

theorem decimal_toDigits (d : Nat) : decimal (Nat.toDigits 10 d) = d := by
  unfold decimal
  rw [decimal_eq, Nat.ofDigitChars_toDigits (by omega) (by omega)]

theorem isDigit_toDigits {d : Nat} {c : Char} (h : c ∈ Nat.toDigits 10 d) : c.isDigit = true :=
  Nat.isDigit_of_mem_toDigits (by omega) (by omega) h

theorem not_space_of_digit {c : Char} (h : c.isDigit = true) : isSpace c = false ∧ c ≠ '-' ∧ c ≠ '+' := by
  have h1 : 48 ≤ c.toNat ∧ c.toNat ≤ 57 := by
    simp only [Char.isDigit, Bool.and_eq_true, decide_eq_true_eq] at h
    exact ⟨h.1, h.2⟩
  refine ⟨?_, ?_, ?_⟩
  · unfold isSpace
    rw [decide_eq_false_iff_not]
    rintro (rfl | h2)
    · exact absurd h1.1 (by decide)
    · omega
  · rintro rfl; exact absurd h1.1 (by decide)
  · rintro rfl; exact absurd h1.1 (by decide)

/-- C66, wide digits: a printed digit followed by anything that is not a decimal digit is read back, whatever blanks precede it. -/
theorem C66_read_back_partial {w : Nat} (hw : w = 16 ∨ w = 32 ∨ w = 64) {a : Nat} (ha : a < 2 ^ w) (old : Nat) {blanks rest : List Char}
    (hb : ∀ c ∈ blanks, isSpace c = true) (hr : ∀ c, rest.head? = some c → c.isDigit = false) :
    extract w old (blanks ++ put w a ++ rest) = ⟨a, false, rest⟩ := by
  have h8 : w ≠ 8 := by omega
  obtain ⟨c, cs, hc⟩ := List.exists_cons_of_ne_nil (Nat.toDigits_ne_nil (n := a) (b := 10))
  have hall : ∀ x ∈ Nat.toDigits 10 a, x.isDigit = true := fun x hx => isDigit_toDigits hx
  obtain ⟨hc1, hc2, hc3⟩ := not_space_of_digit (hall c (by rw [hc]; simp))
  have hs : (blanks ++ put w a ++ rest).dropWhile isSpace = Nat.toDigits 10 a ++ rest := by
    unfold put
    rw [if_neg h8, List.append_assoc, List.dropWhile_append_of_pos hb, hc, List.cons_append, List.dropWhile_cons_of_neg (by rw [hc1]; simp)]
  have ht : (Nat.toDigits 10 a ++ rest).takeWhile Char.isDigit = Nat.toDigits 10 a ∧
      (Nat.toDigits 10 a ++ rest).dropWhile Char.isDigit = rest := by
    rw [List.takeWhile_append_of_pos hall, List.dropWhile_append_of_pos hall]
    cases rest with
    | nil => simp
    | cons x xs =>
      have := hr x rfl
      simp [this]
  unfold extract
  simp only [hs]
  rw [hc, List.cons_append]
  simp only [if_neg h8, hc2, hc3, or_self, if_false]
  rw [← List.cons_append, ← hc, ht.1, ht.2, if_neg Nat.toDigits_ne_nil, decimal_toDigits, if_neg (by omega)]

example := C66_read_back_partial (w := 16) (a := 65535) (.inl rfl) (by decide) 7 (blanks := [' ', '\n']) (rest := [',', '5'])
  (by decide) (by decide)

/-- C66, 8-bit digits: the value is written and read as a character, so it comes back unless it is a white space character, in which
case the reader skips it. -/
theorem C66_read_back_byte_partial {a : Nat} (ha : a < 256) (old : Nat) (rest : List Char) :
    (¬ (a = 32 ∨ 9 ≤ a ∧ a ≤ 13) → extract 8 old (put 8 a ++ rest) = ⟨a, false, rest⟩) ∧
    (a = 32 ∨ 9 ≤ a ∧ a ≤ 13 → extract 8 old (put 8 a ++ rest) = extract 8 old rest) := by
  have hn : (Char.ofNat a).toNat = a := by
    have hv : a.isValidChar := Or.inl (by omega)
    simp [Char.ofNat, hv, Char.ofNatAux, Char.toNat]
  have hsp : isSpace (Char.ofNat a) = decide (a = 32 ∨ 9 ≤ a ∧ a ≤ 13) := by
    unfold isSpace
    rw [hn]
    have : (Char.ofNat a = ' ') ↔ a = 32 := by
      constructor
      · intro h; rw [← hn, h]; rfl
      · rintro rfl; rfl
    simp only [this]
  constructor
  · intro h
    unfold extract put
    rw [if_pos rfl, List.singleton_append, List.dropWhile_cons_of_neg (by rw [hsp]; simpa using h)]
    simp only [if_true, hn]
  · intro h
    unfold extract put
    rw [if_pos rfl, List.singleton_append, List.dropWhile_cons_of_pos (by rw [hsp]; simpa using h)]

example := C66_read_back_byte_partial (a := 200) (by decide) 7 ['x']

/-- C66 fails for 8-bit digits: 9 is written as a tab, which the reader skips; with nothing behind it reading fails and the object keeps
its old value. -/
theorem C66_refuted : extract 8 7 (put 8 9) = ⟨7, true, []⟩ ∧ extract 8 7 (put 8 9 ++ put 8 65) = ⟨65, false, []⟩ := by
  decide

/-- Adjacent numerals run into one: 1 and 2 are read as 12. -/
theorem C66_adjacent : extract 32 0 (put 32 1 ++ put 32 2) = ⟨12, false, []⟩ := by decide

example : ∀ c, [' ', '7'].head? = some c → c.isDigit = false := by
  rintro c ⟨⟩; decide

/-- C66, what a user may type: blanks, an optional sign and a decimal numeral.  Too large a numeral is reported as a failure and gives the
largest value; a minus sign gives the value modulo 2^w; everything behind the numeral stays unread. -/
theorem C66_numerals {w : Nat} (hw : w = 16 ∨ w = 32 ∨ w = 64) (old : Nat) {blanks sign ds rest : List Char}
    (hb : ∀ c ∈ blanks, isSpace c = true) (hs : sign = [] ∨ sign = ['+'] ∨ sign = ['-']) (hd : ∀ c ∈ ds, c.isDigit = true)
    (hr : ∀ c, rest.head? = some c → c.isDigit = false) (hne : ds ≠ []) :
    extract w old (blanks ++ sign ++ ds ++ rest) =
      if 2 ^ w ≤ Nat.ofDigitChars 10 ds 0 then ⟨2 ^ w - 1, true, rest⟩
      else ⟨((if sign = ['-'] then -1 else 1) * (Nat.ofDigitChars 10 ds 0 : Int) % 2 ^ w).toNat, false, rest⟩ := by
  have h8 : w ≠ 8 := by omega
  have hdec : decimal ds = Nat.ofDigitChars 10 ds 0 := decimal_eq ds 0
  have ht : (ds ++ rest).takeWhile Char.isDigit = ds ∧ (ds ++ rest).dropWhile Char.isDigit = rest := by
    rw [List.takeWhile_append_of_pos hd, List.dropWhile_append_of_pos hd]
    cases rest with
    | nil => simp
    | cons x xs =>
      have := hr x rfl
      simp [this]
  have key : ∀ c cs, isSpace c = false → sign ++ ds ++ rest = c :: cs →
      (if c = '-' ∨ c = '+' then cs else c :: cs) = ds ++ rest → (c = '-' ↔ sign = ['-']) → 
      extract w old (blanks ++ sign ++ ds ++ rest) =
        if 2 ^ w ≤ Nat.ofDigitChars 10 ds 0 then ⟨2 ^ w - 1, true, rest⟩
        else ⟨((if sign = ['-'] then -1 else 1) * (Nat.ofDigitChars 10 ds 0 : Int) % 2 ^ w).toNat, false, rest⟩ := by
    intro c cs hc e1 e2 e3
    have hsp : (blanks ++ sign ++ ds ++ rest).dropWhile isSpace = c :: cs := by
      rw [List.append_assoc, List.append_assoc, List.dropWhile_append_of_pos hb, ← List.append_assoc, e1,
        List.dropWhile_cons_of_neg (by rw [hc]; simp)]
    unfold extract
    simp only [hsp, if_neg h8, e2, ht.1, ht.2, if_neg hne, hdec]
    split
    · rfl
    · rename_i hlt
      congr 1
      generalize hv : Nat.ofDigitChars 10 ds 0 = v at *
      have hlt' : (v : Int) < 2 ^ w := by exact_mod_cast (by omega : v < 2 ^ w)
      by_cases hm : c = '-'
      · rw [if_pos hm, if_pos (e3.1 hm)]
        by_cases h0 : v = 0
        · subst h0; simp
        · have h1 : (-1 * (v : Int)) % 2 ^ w = 2 ^ w - v := by
            rw [← Int.add_emod_right, Int.emod_eq_of_lt] <;> omega
          rw [h1, Nat.mod_eq_of_lt (by omega)]
          have h2 : ((2 ^ w - v : Nat) : Int) = 2 ^ w - v := by rw [Nat.cast_sub (by omega)]; norm_num
          rw [← h2]; rfl
      · rw [if_neg hm, if_neg (fun h => hm (e3.2 h)), one_mul, Int.emod_eq_of_lt (by omega) hlt']; rfl
  obtain ⟨d, ds', rfl⟩ := List.exists_cons_of_ne_nil hne
  obtain ⟨n1, n2, n3⟩ := not_space_of_digit (hd d (by simp))
  rcases hs with rfl | rfl | rfl
  · exact key d (ds' ++ rest) n1 rfl (by rw [if_neg (by tauto)]; rfl) (by simp [n2])
  · exact key '+' (d :: ds' ++ rest) (by decide) rfl (by simp) (by decide)
  · exact key '-' (d :: ds' ++ rest) (by decide) rfl (by simp) (by decide)

example := C66_numerals (w := 16) (.inl rfl) 7 (blanks := [' ', '\n']) (sign := ['-']) (ds := ['1', '2']) (rest := [',', '5'])
  (by decide) (by decide) (by decide) (by decide) (by decide)

/-- C66, anything else: at the end of the input the object is left alone, and a text without a numeral gives zero; both fail. -/
theorem C66_no_numeral {w : Nat} (hw : w = 16 ∨ w = 32 ∨ w = 64) (old : Nat) {blanks sign rest : List Char}
    (hb : ∀ c ∈ blanks, isSpace c = true) (hs : sign = [] ∨ sign = ['+'] ∨ sign = ['-'])
    (hr : ∀ c, rest.head? = some c → c.isDigit = false ∧ (sign = [] → isSpace c = false ∧ c ≠ '+' ∧ c ≠ '-')) :
    extract w old (blanks ++ sign ++ rest) = ⟨if sign = [] ∧ rest = [] then old else 0, true, rest⟩ := by
  have h8 : w ≠ 8 := by omega
  rw [List.append_assoc]
  unfold extract
  simp only [List.dropWhile_append_of_pos hb]
  have ht : rest.takeWhile Char.isDigit = [] ∧ rest.dropWhile Char.isDigit = rest := by
    cases rest with
    | nil => simp
    | cons x xs =>
      have := (hr x rfl).1
      simp [this]
  rcases hs with rfl | rfl | rfl
  · cases rest with
    | nil => simp
    | cons x xs =>
      obtain ⟨h1, h2⟩ := hr x rfl
      obtain ⟨h3, h4, h5⟩ := h2 rfl
      rw [List.nil_append, List.dropWhile_cons_of_neg (by rw [h3]; simp)]
      simp [h8, h4, h5, ht.1, ht.2]
  · rw [List.singleton_append, List.dropWhile_cons_of_neg (by decide)]
    simp [h8, ht.1, ht.2]
  · rw [List.singleton_append, List.dropWhile_cons_of_neg (by decide)]
    simp [h8, ht.1, ht.2]

example : extract 16 7 [' ', '6', '5', '5', '3', '6', 'x'] = ⟨65535, true, ['x']⟩ ∧ extract 16 7 ['-', '1'] = ⟨65535, false, []⟩ ∧
    extract 16 7 ['x'] = ⟨0, true, ['x']⟩ ∧ extract 16 7 [' '] = ⟨7, true, []⟩ := by decide

end BN
