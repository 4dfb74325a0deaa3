import Verif.Spec
import Mathlib.Tactic.Ring
import Mathlib.Tactic.Positivity
/-
Positional notation.
-/
namespace BN

@[simp] theorem natOf_nil (B : Nat) : natOf B [] = 0 := rfl
@[simp] theorem natOf_cons (B d : Nat) (l : List Nat) : natOf B (d :: l) = d + B * natOf B l := rfl

theorem natOf_append (B : Nat) (l m : List Nat) : natOf B (l ++ m) = natOf B l + B ^ l.length * natOf B m := by
  induction l with
  | nil => simp
  | cons d l ih => simp [ih, pow_succ]; ring

theorem natOf_replicate_zero (B n : Nat) : natOf B (List.replicate n 0) = 0 := by
  induction n with
  | zero => rfl
  | succ n ih => simp [List.replicate_succ, ih]

theorem InRange.nil (B : Nat) : InRange B [] := by intro d h; cases h
theorem InRange.cons {B d : Nat} {l : List Nat} (h : d < B) (hl : InRange B l) : InRange B (d :: l) := by
  intro x hx; rcases List.mem_cons.1 hx with rfl | hx
  · exact h
  · exact hl x hx
theorem InRange.head {B d : Nat} {l : List Nat} (h : InRange B (d :: l)) : d < B := h d (by simp)
theorem InRange.tail {B d : Nat} {l : List Nat} (h : InRange B (d :: l)) : InRange B l :=
  fun x hx => h x (by simp [hx])
theorem InRange.append {B : Nat} {l m : List Nat} (h : InRange B l) (hm : InRange B m) : InRange B (l ++ m) := by
  intro x hx; rcases List.mem_append.1 hx with hx | hx
  · exact h x hx
  · exact hm x hx
theorem InRange.left {B : Nat} {l m : List Nat} (h : InRange B (l ++ m)) : InRange B l :=
  fun x hx => h x (by simp [hx])
theorem InRange.right {B : Nat} {l m : List Nat} (h : InRange B (l ++ m)) : InRange B m :=
  fun x hx => h x (by simp [hx])

theorem natOf_lt {B : Nat} {l : List Nat} (h : InRange B l) : natOf B l < B ^ l.length := by
  induction l with
  | nil => simp
  | cons d l ih =>
    have h1 := h.head
    have h2 := ih h.tail
    have h3 : B * (natOf B l + 1) ≤ B * B ^ l.length := Nat.mul_le_mul_left _ h2
    simp only [natOf_cons, List.length_cons, pow_succ]
    rw [Nat.mul_comm (B ^ l.length) B]
    rw [Nat.mul_add] at h3
    omega

theorem natOf_inj {B : Nat} : ∀ {l m : List Nat}, InRange B l → InRange B m → l.length = m.length →
    natOf B l = natOf B m → l = m
  | [], [], _, _, _, _ => rfl
  | [], _ :: _, _, _, h, _ => by simp at h
  | _ :: _, [], _, _, h, _ => by simp at h
  | d :: l, e :: m, hl, hm, hlen, h => by
    have h1 := hl.head
    have h2 := hm.head
    simp only [natOf_cons] at h
    have hde : d = e := by
      have := congrArg (· % B) h
      simp only [Nat.add_mul_mod_self_left] at this
      rwa [Nat.mod_eq_of_lt h1, Nat.mod_eq_of_lt h2] at this
    subst hde
    have h3 : B * natOf B l = B * natOf B m := by omega
    have h4 : natOf B l = natOf B m := Nat.eq_of_mul_eq_mul_left (by omega) h3
    rw [natOf_inj hl.tail hm.tail (by simpa using hlen) h4]

theorem NoLeadingZero.nil : NoLeadingZero [] := by simp [NoLeadingZero]

theorem noLeadingZero_append_singleton (l : List Nat) (d : Nat) : NoLeadingZero (l ++ [d]) ↔ d ≠ 0 := by
  simp [NoLeadingZero]

theorem noLeadingZero_append {l m : List Nat} (hm : m ≠ []) : NoLeadingZero (l ++ m) ↔ NoLeadingZero m := by
  unfold NoLeadingZero
  rw [List.getLast?_append_of_ne_nil _ hm]

/-- A non-empty list is `init ++ [top]`. -/
theorem exists_snoc {l : List Nat} (h : l ≠ []) : ∃ i t, l = i ++ [t] :=
  ⟨l.dropLast, l.getLast h, (List.dropLast_append_getLast h).symm⟩

theorem le_natOf_of_noLeadingZero {B : Nat} {l : List Nat} (h : NoLeadingZero l) (hne : l ≠ []) :
    B ^ (l.length - 1) ≤ natOf B l := by
  obtain ⟨i, t, rfl⟩ := exists_snoc hne
  rw [noLeadingZero_append_singleton] at h
  simp only [natOf_append, natOf_cons, natOf_nil, List.length_append, List.length_singleton, Nat.add_sub_cancel]
  have : B ^ i.length * 1 ≤ B ^ i.length * (t + B * 0) := Nat.mul_le_mul_left _ (by omega)
  omega

theorem natOf_lt_of_length_lt {B : Nat} {l m : List Nat} (hB : 0 < B) (hl : InRange B l) (hm : NoLeadingZero m)
    (h : l.length < m.length) : natOf B l < natOf B m := by
  have h1 := natOf_lt hl
  have h2 := le_natOf_of_noLeadingZero (B := B) hm (by intro h0; simp [h0] at h)
  have h3 : B ^ l.length ≤ B ^ (m.length - 1) := Nat.pow_le_pow_right hB (by omega)
  omega

theorem natOf_pos_of_noLeadingZero {B : Nat} {l : List Nat} (hB : 0 < B) (h : NoLeadingZero l) (hne : l ≠ []) :
    0 < natOf B l := by
  have h2 := le_natOf_of_noLeadingZero (B := B) h hne
  have : 0 < B ^ (l.length - 1) := Nat.pow_pos hB
  omega

theorem natOf_eq_zero_iff {B : Nat} {l : List Nat} (hB : 0 < B) (h : NoLeadingZero l) : natOf B l = 0 ↔ l = [] := by
  constructor
  · intro h0; by_contra hne
    have := natOf_pos_of_noLeadingZero hB h hne
    omega
  · rintro rfl; rfl

/-- Uniqueness of positional notation. -/
theorem natOf_unique {B : Nat} {l m : List Nat} (hB : 0 < B) (hl : InRange B l) (hm : InRange B m)
    (hl0 : NoLeadingZero l) (hm0 : NoLeadingZero m) (h : natOf B l = natOf B m) : l = m := by
  apply natOf_inj hl hm _ h
  rcases Nat.lt_trichotomy l.length m.length with h1 | h1 | h1
  · have := natOf_lt_of_length_lt hB hl hm0 h1; omega
  · exact h1
  · have := natOf_lt_of_length_lt hB hm hl0 h1; omega

theorem natOf_take_add_drop (B : Nat) (l : List Nat) (n : Nat) :
    natOf B l = natOf B (l.take n) + B ^ (l.take n).length * natOf B (l.drop n) := by
  conv_lhs => rw [← List.take_append_drop n l]
  exact natOf_append B _ _

/-- Removal of leading (most significant) zeros. -/
def trim (l : List Nat) : List Nat := (l.reverse.dropWhile (· == 0)).reverse

@[simp] theorem trim_nil : trim [] = [] := rfl

theorem trim_append_zero (l : List Nat) : trim (l ++ [0]) = trim l := by
  simp [trim]

theorem trim_append_pos (l : List Nat) {d : Nat} (h : d ≠ 0) : trim (l ++ [d]) = l ++ [d] := by
  simp [trim, h]

theorem trim_induction {P : List Nat → Prop} (h0 : P []) (h1 : ∀ l, P l → P (l ++ [0]))
    (h2 : ∀ l d, d ≠ 0 → P (l ++ [d])) (l : List Nat) : P l := by
  induction l using List.reverseRecOn with
  | nil => exact h0
  | append_singleton l d ih =>
    by_cases hd : d = 0
    · subst hd; exact h1 l ih
    · exact h2 l d hd

theorem natOf_trim (B : Nat) (l : List Nat) : natOf B (trim l) = natOf B l := by
  induction l using trim_induction with
  | h0 => rfl
  | h1 l ih => rw [trim_append_zero, ih, natOf_append]; simp
  | h2 l d h => rw [trim_append_pos _ h]

theorem trim_noLeadingZero (l : List Nat) : NoLeadingZero (trim l) := by
  induction l using trim_induction with
  | h0 => exact NoLeadingZero.nil
  | h1 l ih => rwa [trim_append_zero]
  | h2 l d h => rw [trim_append_pos _ h]; rwa [noLeadingZero_append_singleton]

theorem trim_prefix (l : List Nat) : ∃ n, l = trim l ++ List.replicate n 0 := by
  induction l using trim_induction with
  | h0 => exact ⟨0, rfl⟩
  | h1 l ih =>
    obtain ⟨n, hn⟩ := ih
    refine ⟨n + 1, ?_⟩
    rw [trim_append_zero, List.replicate_succ', ← List.append_assoc, ← hn]
  | h2 l d h => exact ⟨0, by rw [trim_append_pos _ h]; simp⟩

theorem trim_inRange {B : Nat} {l : List Nat} (h : InRange B l) : InRange B (trim l) := by
  obtain ⟨n, hn⟩ := trim_prefix l
  rw [hn] at h; exact h.left

theorem trim_eq_self {l : List Nat} (h : NoLeadingZero l) : trim l = l := by
  rcases eq_or_ne l [] with rfl | hne
  · rfl
  · obtain ⟨i, t, rfl⟩ := exists_snoc hne
    exact trim_append_pos _ ((noLeadingZero_append_singleton _ _).1 h)

theorem trim_eq_nil_iff {B : Nat} (hB : 0 < B) (l : List Nat) : trim l = [] ↔ natOf B l = 0 := by
  rw [← natOf_trim, natOf_eq_zero_iff hB (trim_noLeadingZero l)]

theorem trim_length_le (l : List Nat) : (trim l).length ≤ l.length := by
  obtain ⟨n, hn⟩ := trim_prefix l
  conv_rhs => rw [hn]
  simp

end BN
