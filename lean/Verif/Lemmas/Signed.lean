import Verif.Lemmas.Sub
/-
The signed case distinctions of `operator+=` and `operator-=`.
-/
namespace BN

theorem noLeadingZero_cons (d : Nat) (l : List Nat) : NoLeadingZero (d :: l) ↔ if l = [] then d ≠ 0 else NoLeadingZero l := by
  split
  · rename_i h; subst h; simp [NoLeadingZero]
  · rename_i h
    exact noLeadingZero_append (l := [d]) h

theorem addRest_noLeadingZero {B : Nat} (hB : 2 ≤ B) : ∀ (R S : List Nat) (c : Nat), InRange B R → InRange B S → c ≤ 1 →
    NoLeadingZero R → NoLeadingZero S → NoLeadingZero (addRest B R S c)
  | [], [], c, _, _, _, _, _ => by
    unfold addRest; split
    · exact .nil
    · simpa [NoLeadingZero]
  | x :: xs, [], c, hR, hS, hc, h1, _ => by
    rw [noLeadingZero_cons] at h1
    have hx := hR.head
    have hcl := carry_le (c := c) hR.head (show 0 < B by omega) hc
    rw [addRest, noLeadingZero_cons]
    split at h1
    · rename_i h; subst h
      by_cases hlt : x + 0 + c < B
      · rw [Nat.div_eq_of_lt hlt, Nat.mod_eq_of_lt hlt]; simp [addRest]; omega
      · have : 0 < (x + 0 + c) / B := Nat.div_pos (by omega) (by omega)
        simp only [addRest, show ¬ (x + 0 + c) / B = 0 by omega, if_false]
        simp [NoLeadingZero]; omega
    · rename_i h
      have ih := addRest_noLeadingZero hB xs [] _ hR.tail hS hcl h1 .nil
      have hl := (addRest_length hB xs [] _ hR.tail hS hcl).1
      rw [if_neg]; · exact ih
      intro h0; rw [h0] at hl; simp at hl; exact h hl
  | [], y :: ys, c, hR, hS, hc, _, h2 => by
    rw [noLeadingZero_cons] at h2
    have hx := hS.head
    have hcl := carry_le (c := c) (show 0 < B by omega) hS.head hc
    rw [addRest, noLeadingZero_cons]
    split at h2
    · rename_i h; subst h
      by_cases hlt : 0 + y + c < B
      · rw [Nat.div_eq_of_lt hlt, Nat.mod_eq_of_lt hlt]; simp [addRest]; omega
      · have : 0 < (0 + y + c) / B := Nat.div_pos (by omega) (by omega)
        simp only [addRest, show ¬ (0 + y + c) / B = 0 by omega, if_false]
        simp [NoLeadingZero]; omega
    · rename_i h
      have ih := addRest_noLeadingZero hB [] ys _ hR hS.tail hcl .nil h2
      have hl := (addRest_length hB [] ys _ hR hS.tail hcl).1
      rw [if_neg]; · exact ih
      intro h0; rw [h0] at hl; simp at hl; exact h hl
  | x :: xs, y :: ys, c, hR, hS, hc, h1, h2 => by
    rw [noLeadingZero_cons] at h1 h2
    have hx := hR.head
    have hy := hS.head
    have hcl := carry_le (c := c) hR.head hS.head hc
    rw [addRest, noLeadingZero_cons]
    have hl := (addRest_length hB xs ys _ hR.tail hS.tail hcl).1
    by_cases hxs : xs = [] ∧ ys = []
    · obtain ⟨rfl, rfl⟩ := hxs
      simp only [if_true] at h1 h2
      by_cases hlt : x + y + c < B
      · rw [Nat.div_eq_of_lt hlt, Nat.mod_eq_of_lt hlt]; simp [addRest]; omega
      · have : 0 < (x + y + c) / B := Nat.div_pos (by omega) (by omega)
        simp only [addRest, show ¬ (x + y + c) / B = 0 by omega, if_false]
        simp [NoLeadingZero]; omega
    · have ih := addRest_noLeadingZero hB xs ys _ hR.tail hS.tail hcl
        (by split at h1; (· rename_i h; rw [h]; exact .nil); exact h1)
        (by split at h2; (· rename_i h; rw [h]; exact .nil); exact h2)
      rw [if_neg]; · exact ih
      intro h0; rw [h0] at hl; simp at hl
      exact hxs hl

theorem addRest_nil {B : Nat} (hB : 2 ≤ B) : ∀ (S : List Nat), InRange B S → addRest B [] S 0 = S
  | [], _ => by simp [addRest]
  | y :: ys, h => by
    have hy := h.head
    rw [addRest, Nat.zero_add, Nat.add_zero, Nat.div_eq_of_lt hy, Nat.mod_eq_of_lt hy, addRest_nil hB ys h.tail]

theorem addRest_zero {B : Nat} (hB : 2 ≤ B) {S : List Nat} (h : InRange B S) (hne : S ≠ []) :
    addRest B [0] S 0 = S := by
  obtain ⟨y, ys, rfl⟩ := List.exists_cons_of_ne_nil hne
  have hy := h.head
  rw [addRest, Nat.zero_add, Nat.add_zero, Nat.div_eq_of_lt hy, Nat.mod_eq_of_lt hy, addRest_nil hB ys h.tail]

theorem WFDigits.nil (B : Nat) : WFDigits B [] := ⟨.nil B, .inl .nil⟩

theorem addFull_wf {B : Nat} (hB : 2 ≤ B) {R S : List Nat} (hR : WFDigits B R) (hS : WFDigits B S) :
    WFDigits B (addFull B R S 0) := by
  refine ⟨addFull_inRange hB hR.1 hS.1 (by omega), ?_⟩
  unfold addFull
  split
  · exact .inr rfl
  · rename_i h
    rcases hR.2 with h1 | rfl
    · rcases hS.2 with h2 | rfl
      · exact .inl (addRest_noLeadingZero hB _ _ _ hR.1 hS.1 (by omega) h1 h2)
      · rw [addRest_comm]
        by_cases hR0 : R = []
        · subst hR0; right
          rw [addRest_comm, addRest_nil hB _ hS.1]
        · rw [addRest_zero hB hR.1 hR0]; exact .inl h1
    · by_cases hS0 : S = []
      · subst hS0; right
        rw [addRest_comm, addRest_nil hB _ hR.1]
      · rw [addRest_zero hB hS.1 hS0]; exact hS.2

/-- A longer well-formed magnitude is at least as large. -/
theorem WFDigits.le_of_length {B : Nat} (hB : 0 < B) {a b : List Nat} (ha : WFDigits B a) (hb : InRange B b)
    (h : b.length < a.length) : natOf B b ≤ natOf B a := by
  rcases ha.2 with h1 | rfl
  · exact Nat.le_of_lt (natOf_lt_of_length_lt hB hb h1 h)
  · have : b = [] := by simpa using h
    subst this; simp

@[simp] theorem Rhs.src_get (r : Rhs) (this : Bignum) : r.src.get this.digits = (r.get this).digits := by
  cases r <;> rfl

/-- The block "subtract the smaller magnitude from the larger, keeping `this`' sign or taking `t`". -/
def magDiff (L : Limits) (env : Env) (fuel : Nat) (this : Bignum) (r : Rhs) (t : Desc) : Res Bignum := do
  if ← absGe this.digits (r.get this).digits then
    let d ← absSub L env fuel this.digits r.src
    .ok ⟨this.desc, d⟩
  else
    let tempNum ← (r.get this).copy env
    let d ← absSub L env fuel tempNum.digits (.other this.digits)
    .ok ⟨t, d⟩

theorem magDiff_ok {L : Limits} (h : Supported L) (env : Env) (hd : env.debug = false) {fuel : Nat} {this : Bignum} {r : Rhs}
    (t : Desc) (ha : WFDigits L.base this.digits) (hb : WFDigits L.base (r.get this).digits)
    (hne : ¬ (this.digits = [] ∧ (r.get this).digits = []))
    (hf : max this.digits.length (r.get this).digits.length < fuel)
    (hall : env.alloc (r.get this).digits.length = true) :
    ∃ (g : Bool) (d : List Nat), magDiff L env fuel this r t = .ok ⟨if g then this.desc else t, d⟩ ∧
      InRange L.base d ∧ NoLeadingZero d ∧
      (g = true → natOf L.base (r.get this).digits ≤ natOf L.base this.digits ∧
        natOf L.base d = natOf L.base this.digits - natOf L.base (r.get this).digits) ∧
      (g = false → natOf L.base this.digits ≤ natOf L.base (r.get this).digits ∧
        natOf L.base d = natOf L.base (r.get this).digits - natOf L.base this.digits) ∧
      (g = true ↔ (r.get this).digits.length < this.digits.length ∨
        (this.digits.length = (r.get this).digits.length ∧ natOf L.base (r.get this).digits ≤ natOf L.base this.digits)) := by
  have hB := h.base_ge
  have hchk : ∀ a b, subDebugCheck env a b = .ok () := by intro a b; rw [subDebugCheck_eq]; simp [hd]
  generalize hnum : r.get this = num at *
  obtain ⟨ds, a⟩ := this
  obtain ⟨dn, b⟩ := num
  simp only at *
  have hsrc : r.src.get a = b := by
    have := r.src_get ⟨ds, a⟩
    simp only [hnum] at this; exact this
  unfold magDiff
  simp only [hnum]
  rw [absGe_eq ha.1 hb.1, ok_bind]
  by_cases hg : b.length < a.length ∨ (a.length = b.length ∧ natOf L.base b ≤ natOf L.base a)
  · rw [decide_eq_true hg, if_pos rfl]
    have hle : natOf L.base b ≤ natOf L.base a := by
      rcases hg with h1 | h1
      · exact ha.le_of_length (by omega) hb.1 h1
      · exact h1.2
    have hlen : b.length ≤ a.length := by omega
    have ha0 : a ≠ [] := by
      rintro rfl
      have : b = [] := by simpa using hlen
      exact hne ⟨rfl, this⟩
    rw [absSub_ok h env (src := r.src) (hchk _ _) ha.1 (by rw [hsrc]; exact hb.1) ha0 (by rw [hsrc]; exact hlen) (by omega),
      hsrc, ok_bind]
    refine ⟨true, _, rfl, trim_inRange (subRest_inRange hB _ _ _ ha.1 hb.1 (by omega)), trim_noLeadingZero _, ?_, by simp, by simpa using hg⟩
    intro _
    rw [natOf_trim, subRest_exact hB ha.1 hb.1 hlen hle]
    exact ⟨hle, by omega⟩
  · rw [decide_eq_false hg, if_neg (by simp)]
    have hle : natOf L.base a ≤ natOf L.base b := by
      by_cases h1 : a.length < b.length
      · exact hb.le_of_length (by omega) ha.1 h1
      · omega
    have hlen : a.length ≤ b.length := by omega
    have hb0 : b ≠ [] := by
      rintro rfl
      have : a = [] := by simpa using hlen
      exact hne ⟨this, rfl⟩
    have hcopy : Bignum.copy env ⟨dn, b⟩ = .ok ⟨dn, b⟩ := by
      unfold Bignum.copy Vec.copy; simp [hb0, hall, ok_bind]
    rw [hcopy, ok_bind]
    simp only
    rw [absSub_ok h env (src := .other a) (hchk _ _) hb.1 ha.1 hb0 hlen (by omega), ok_bind]
    refine ⟨false, _, rfl, trim_inRange (subRest_inRange hB _ _ _ hb.1 ha.1 (by omega)), trim_noLeadingZero _, by simp, ?_, by simpa using hg⟩
    intro _
    rw [natOf_trim, show (Src.other a).get b = a from rfl, subRest_exact hB hb.1 ha.1 hlen hle]
    exact ⟨hle, by omega⟩

/-- Both magnitudes empty: out-of-bounds read, in every environment. -/
theorem magDiff_ub {L : Limits} (h : Supported L) (env : Env) {fuel : Nat} {this : Bignum} {r : Rhs}
    (t : Desc) (ha : this.digits = []) (hb : (r.get this).digits = []) (hf : 0 < fuel) :
    magDiff L env fuel this r t = .error (.ub .outOfBounds) := by
  have hsrc : r.src.get this.digits = [] := by rw [Rhs.src_get, hb]
  unfold magDiff
  rw [absGe_eq (B := L.base) (by rw [ha]; exact .nil _) (by rw [hb]; exact .nil _), ok_bind]
  simp only [ha, hb] at hsrc ⊢
  rw [if_pos (by simp)]
  rw [absSub_ub h env (src := r.src) (by rw [subDebugCheck_eq, hsrc]; simp) (.nil _) (by rw [hsrc]; exact .nil _) (.inl rfl) hf]
  rfl

theorem signed_cases {d : Desc} (h : Signed d) {P : Desc → Prop} (h1 : P .pos) (h2 : P .neg) : P d := by
  rcases h with rfl | rfl <;> assumption

/-- The other sign. -/
def Desc.flip : Desc → Desc
  | .pos => .neg
  | .neg => .pos
  | d => d

theorem addTry_same {L : Limits} {env : Env} {fuel : Nat} {this : Bignum} {r : Rhs} (hs : Signed this.desc)
    (hsame : (r.get this).desc = this.desc) :
    Bignum.addTry L env fuel this r = (do
      let d ← absAdd L env fuel this.digits r.src
      .ok ⟨this.desc, d⟩) := by
  unfold Bignum.addTry
  rcases hs with h | h
  · simp [h, hsame]
  · simp [h, hsame]

theorem addTry_opp {L : Limits} {env : Env} {fuel : Nat} {this : Bignum} {r : Rhs} (hs : Signed this.desc)
    (hs' : Signed (r.get this).desc) (hne : (r.get this).desc ≠ this.desc) :
    Bignum.addTry L env fuel this r = magDiff L env fuel this r (r.get this).desc := by
  unfold Bignum.addTry magDiff
  rcases hs with h | h <;> rcases hs' with h' | h' <;> simp only [h, h'] at hne ⊢ <;> simp at hne ⊢

theorem subTry_same {L : Limits} {env : Env} {fuel : Nat} {this : Bignum} {r : Rhs} (hs : Signed this.desc)
    (hsame : (r.get this).desc = this.desc) :
    Bignum.subTry L env fuel this r = magDiff L env fuel this r this.desc.flip := by
  unfold Bignum.subTry magDiff
  rcases hs with h | h
  · simp [h, hsame, Desc.flip]
  · simp [h, hsame, Desc.flip]

theorem subTry_opp {L : Limits} {env : Env} {fuel : Nat} {this : Bignum} {r : Rhs} (hs : Signed this.desc)
    (hs' : Signed (r.get this).desc) (hne : (r.get this).desc ≠ this.desc) :
    Bignum.subTry L env fuel this r = (do
      let g ← absGt this.digits (r.get this).digits
      let temp ← Vec.copy env (if g then this.digits else (r.get this).digits)
      let temp ← absSub L env fuel temp (.other (r.get this).digits)
      .ok ⟨this.desc, temp⟩) := by
  unfold Bignum.subTry
  rcases hs with h | h <;> rcases hs' with h' | h' <;> simp only [h, h'] at hne ⊢ <;> simp at hne ⊢

theorem isComputable_signed {d : Desc} (h : Signed d) : Bignum.isComputable d = true := by
  rcases h with rfl | rfl <;> rfl

theorem addAssign_signed {L : Limits} {env : Env} {fuel : Nat} {this : Bignum} {r : Rhs} (hs : Signed this.desc) :
    Bignum.addAssign L env fuel this r = Bignum.handle this (r.get this).desc (Bignum.addTry L env fuel this r) := by
  rw [Bignum.addAssign, isComputable_signed hs]; rfl

theorem subAssign_signed {L : Limits} {env : Env} {fuel : Nat} {this : Bignum} {r : Rhs} (hs : Signed this.desc) :
    Bignum.subAssign L env fuel this r = Bignum.handle this (r.get this).desc (Bignum.subTry L env fuel this r) := by
  rw [Bignum.subAssign, isComputable_signed hs]; rfl

end BN
