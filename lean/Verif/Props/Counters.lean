import Verif.Lemmas.Samples
import Verif.Props.MulNaive
import Verif.Lemmas.Keeps
/-
The 32-bit loop counters of the schoolbook multiplication: C117.
-/
namespace BN

/-- A loop whose condition stays true never ends normally. -/
theorem loopWhile_never {σ : Type} {cond : σ → Res Bool} {body : σ → Res σ} (I : σ → Prop) (hc : ∀ s, I s → cond s = .ok true)
    (hb : ∀ s s', I s → body s = .ok s' → I s') : ∀ (n : Nat) (s t : σ), I s → loopWhile cond body n s ≠ .ok t
  | 0, _, _, _ => by rw [loopWhile]; simp
  | n + 1, s, t, hs => by
    rw [loopWhile, hc s hs, ok_bind, if_pos rfl]
    cases h : body s with
    | error f => simp [error_bind]
    | ok s' => rw [ok_bind]; exact loopWhile_never I hc hb n s' t (hb s s' hs h)

/-- A loop that passes through the states `f 0`, …, `f N`. -/
theorem loopWhile_count {σ : Type} {cond : σ → Res Bool} {body : σ → Res σ} (f : Nat → σ) (N : Nat) (hc : ∀ j, j < N → cond (f j) = .ok true)
    (hN : cond (f N) = .ok false) (hb : ∀ j, j < N → body (f j) = .ok (f (j + 1))) :
    ∀ k j n, j + k = N → k < n → loopWhile cond body n (f j) = .ok (f N)
  | k, _, 0, _, h => absurd h (Nat.not_lt_zero k)
  | 0, j, n + 1, e, _ => by
    obtain rfl : j = N := by omega
    rw [loopWhile, hN, ok_bind, if_neg (by simp)]
  | k + 1, j, n + 1, e, h => by
    rw [loopWhile, hc j (by omega), ok_bind, if_pos rfl, hb j (by omega), ok_bind]
    exact loopWhile_count f N hc hN hb k (j + 1) n (by omega) (by omega)

/-- The counter of the inner loop never reaches 2^32: with that many digits in the first factor the call does not return,
whatever the digits are. -/
theorem C117_first_too_long (L : Limits) (env : Env) (fuel : Nat) {a b : List Nat} (ha : 2 ^ 32 ≤ a.length) (hb : b ≠ []) (c : List Nat) :
    mulNaive L env fuel a b ≠ .ok c := by
  have h0 : a.length + b.length ≠ 0 := by omega
  have hbl : 0 < b.length := List.length_pos_of_ne_nil hb
  unfold mulNaive
  simp only [if_neg h0]
  cases Vec.resize env [] (a.length + b.length) 0 with
  | error f => simp [error_bind]
  | ok ret =>
    rw [ok_bind]
    intro hr
    have hin : ∀ i ret p, naiveInner L fuel a b i ret ≠ .ok p := by
      intro i ret p hp
      unfold naiveInner at hp
      cases hl : loopWhile (fun s => .ok (decide (s.j < a.length))) (naiveBody L a b i) fuel ⟨0, ret, 0⟩ with
      | error f => rw [hl] at hp; cases hp
      | ok t =>
        refine loopWhile_never (fun s : NaiveSt => s.j < 2 ^ 32) (fun s hs => ?_) (fun s s' _ h => ?_) fuel _ t ?_ hl
        · exact congrArg Except.ok (decide_eq_true (show s.j < a.length by omega))
        · have hk : Keeps (naiveBody L a b i s) (fun s' => s'.j < 2 ^ 32) := by
            unfold naiveBody
            exact .bind (.any _) fun _ _ => .bind (.any _) fun _ _ => .bind (.any _) fun _ _ => .bind (.any _) fun _ _ =>
              .bind (.any _) fun _ _ => .ok (Nat.mod_lt _ (by norm_num))
          exact hk s' h
        · norm_num
    cases fuel with
    | zero => rw [loopWhile] at hr; cases hr
    | succ n =>
      rw [loopWhile] at hr
      simp only [ok_bind, decide_eq_true_eq, if_pos hbl] at hr
      cases h : naiveInner L (n + 1) a b 0 ret with
      | ok p => exact hin _ _ _ h
      | error f =>
        unfold naiveRow at hr
        simp only [h] at hr
        cases hr

example {n : Nat} (h : 2 ^ 32 ≤ n) := C117_first_too_long .base10 releaseEnv 5 (a := List.replicate n 1) (b := [1])
  (by rw [List.length_replicate]; exact h) (by simp)

/-- Nor does the counter of the outer loop. -/
theorem C117_second_too_long (L : Limits) (env : Env) (fuel : Nat) {a b : List Nat} (hb : 2 ^ 32 ≤ b.length) (c : List Nat) :
    mulNaive L env fuel a b ≠ .ok c := by
  have h0 : a.length + b.length ≠ 0 := by omega
  unfold mulNaive
  simp only [if_neg h0]
  cases Vec.resize env [] (a.length + b.length) 0 with
  | error f => simp [error_bind]
  | ok ret =>
    rw [ok_bind]
    intro hr
    cases hl : loopWhile (fun s => .ok (decide (s.1 < b.length))) (naiveRow L fuel a b) fuel (0, ret) with
    | error f => rw [hl] at hr; cases hr
    | ok t =>
      refine loopWhile_never (fun s : Nat × List Nat => s.1 < 2 ^ 32) (fun s hs => ?_) (fun s s' _ h => ?_) fuel _ t ?_ hl
      · exact congrArg Except.ok (decide_eq_true (show s.1 < b.length by omega))
      · have hk : Keeps (naiveRow L fuel a b s) (fun s' => s'.1 < 2 ^ 32) := by
          unfold naiveRow
          exact .bind (.any _) fun _ _ => .bind (.any _) fun _ _ => .bind (.any _) fun _ _ => .bind (.any _) fun _ _ =>
            .ok (Nat.mod_lt _ (by norm_num))
        exact hk s' h
      · norm_num

example {n : Nat} (h : 2 ^ 32 ≤ n) := C117_second_too_long .base10 releaseEnv 5 (a := []) (b := List.replicate n 1)
  (by rw [List.length_replicate]; exact h)

/-- The digits of B^(p-1). -/
def powerDigits (p : Nat) : List Nat := List.replicate (p - 1) 0 ++ [1]

theorem powerDigits_length {p : Nat} (hp : 0 < p) : (powerDigits p).length = p := by simp [powerDigits]; omega
theorem powerDigits_get {p j : Nat} (hp : 0 < p) (hj : j < p) : Vec.rd (powerDigits p) j = .ok (if j + 1 = p then 1 else 0) := by
  rw [rd_eq (by rw [powerDigits_length hp]; exact hj)]
  unfold powerDigits
  congr 1
  rw [List.getElem_append]
  split
  · rename_i h; simp at h; rw [if_neg (by omega)]; simp
  · rename_i h; simp at h; rw [if_pos (by omega)]; simp
theorem powerDigits_val (B : Nat) (p : Nat) : natOf B (powerDigits p) = B ^ (p - 1) := by
  unfold powerDigits
  rw [natOf_append, natOf_replicate_zero]; simp

theorem rd_zeros {N i : Nat} (h : i < N) : Vec.rd (List.replicate N 0) i = .ok 0 := by rw [rd_eq (by simpa using h)]; simp
theorem wr_zeros {N i : Nat} (h : i < N) : Vec.wr (List.replicate N 0) i 0 = .ok (List.replicate N 0) := by
  unfold Vec.wr
  rw [if_pos (by simpa using h)]
  congr 1
  apply List.ext_getElem
  · simp
  · intro k h1 h2
    rw [List.getElem_set]; split <;> simp

/-- The index of the last column is computed in 32 bits: with p + q > 2^32 + 1 the product of B^(p-1) and B^(q-1) is
B^(p+q-2-2^32). -/
theorem C117_wrapped_index {L : Limits} (h : CustomSq L) {env : Env} (hm : env.Ample) {p q : Nat} (hp : p < 2 ^ 32) (hq : q < 2 ^ 32)
    (hs : 2 ^ 32 + 1 < p + q) {fuel : Nat} (hf : max p q < fuel) :
    ∃ c, mulNaive L env fuel (powerDigits p) (powerDigits q) = .ok c ∧ natOf L.base c = L.base ^ (p + q - 2 - 2 ^ 32) := by
  have hp0 : 0 < p := by omega
  have hq0 : 0 < q := by omega
  have hB := h.custom.supported.base_ge
  have hidx : (p + q - 2) % 2 ^ 32 = p + q - 2 - 2 ^ 32 := by omega
  generalize hZ : List.replicate (p + q) 0 = Z
  have hZl : Z.length = p + q := by rw [← hZ]; simp
  generalize hW : Z.set ((p + q - 2) % 2 ^ 32) 1 = W
  have hWl : W.length = p + q := by rw [← hW]; simp [hZl]
  have inner : ∀ i, i < q → naiveInner L fuel (powerDigits p) (powerDigits q) i Z = .ok (if i + 1 = q then W else Z, 0) := by
    intro i hi
    unfold naiveInner
    have key := loopWhile_count (cond := fun s : NaiveSt => .ok (decide (s.j < (powerDigits p).length)))
      (body := naiveBody L (powerDigits p) (powerDigits q) i)
      (fun j => ⟨j, if i + 1 = q ∧ j = p then W else Z, 0⟩) p
      (fun j hj => by rw [powerDigits_length hp0]; exact congrArg Except.ok (decide_eq_true hj))
      (by rw [powerDigits_length hp0]; exact congrArg Except.ok (decide_eq_false (by simp)))
      (fun j hj => by
        unfold naiveBody
        have hlt : (i + j) % 2 ^ 32 < p + q := lt_of_le_of_lt (Nat.mod_le _ _) (by omega)
        have e1 : Vec.rd Z ((i + j) % 2 ^ 32) = .ok 0 := by rw [← hZ]; exact rd_zeros hlt
        have hne : ¬ (i + 1 = q ∧ j = p) := by omega
        simp only [if_neg hne, e1, ok_bind, powerDigits_get hp0 hj, powerDigits_get hq0 hi]
        rw [naiveDigit_eq h (by omega) (by omega) (by split <;> omega) (by split <;> omega), ok_bind]
        by_cases hc : i + 1 = q ∧ j + 1 = p
        · rw [if_pos hc.1, if_pos hc.2, if_pos hc]
          have e2 : (0 + 0 + 1 * 1) % L.base = 1 := Nat.mod_eq_of_lt (by omega)
          have e3 : (0 + 0 + 1 * 1) / L.base = 0 := Nat.div_eq_of_lt (by omega)
          have e4 : i + j = p + q - 2 := by omega
          simp only [e2, e3, e4]
          unfold Vec.wr
          rw [if_pos (by rw [hZl]; omega), ok_bind, hW, Nat.mod_eq_of_lt (by omega : j + 1 < 2 ^ 32)]
        · rw [if_neg hc]
          have e0 : (if j + 1 = p then 1 else 0) * (if i + 1 = q then 1 else 0) = 0 := by
            split <;> split <;> simp_all
          have e2 : (0 + 0 + 0) % L.base = 0 := Nat.zero_mod _
          have e3 : (0 + 0 + 0) / L.base = 0 := Nat.zero_div _
          simp only [e0, e2, e3]
          rw [← hZ, wr_zeros hlt, ok_bind, Nat.mod_eq_of_lt (by omega : j + 1 < 2 ^ 32)])
      p 0 fuel (by omega) (by omega)
    simp only [and_true] at key
    have hp0' : ¬ (0 = p) := by omega
    simp only [hp0', and_false, if_false] at key
    rw [key, ok_bind]
  have outer := loopWhile_count (cond := fun s : Nat × List Nat => .ok (decide (s.1 < (powerDigits q).length)))
    (body := naiveRow L fuel (powerDigits p) (powerDigits q))
    (fun i => (i, if i = q then W else Z)) q
    (fun i hi => by rw [powerDigits_length hq0]; exact congrArg Except.ok (decide_eq_true hi))
    (by rw [powerDigits_length hq0]; exact congrArg Except.ok (decide_eq_false (by simp)))
    (fun i hi => by
      unfold naiveRow
      have hne : ¬ i = q := by omega
      simp only [if_neg hne, inner i hi, ok_bind, powerDigits_length hp0]
      have e1 : Vec.rd (if i + 1 = q then W else Z) (i + p) = .ok 0 := by
        split
        · rw [rd_eq (by omega)]
          congr 1
          subst hW; subst hZ
          rw [List.getElem_set]
          rw [if_neg (by omega)]; simp
        · rw [← hZ]; exact rd_zeros (by omega)
      have e2 := naiveTop_eq h (r := 0) (c := 0) (by omega)
      have e3 : Vec.wr (if i + 1 = q then W else Z) (i + p) 0 = .ok (if i + 1 = q then W else Z) := by
        split
        · unfold Vec.wr
          rw [if_pos (by omega)]
          congr 1
          subst hW; subst hZ
          rw [List.set_comm _ _ (by omega)]
          congr 1
          have := wr_zeros (N := p + q) (i := i + p) (by omega)
          unfold Vec.wr at this
          rw [if_pos (by simp; omega)] at this
          exact Except.ok.inj this
        · rw [← hZ]; exact wr_zeros (by omega)
      rw [e1, ok_bind]
      cases ht : Val.bin .add (L.digit 0) ⟨.prim (cU 32), ((0 : Nat) : Int)⟩ with
      | error f => rw [ht] at e2; cases e2
      | ok t =>
        rw [ht, ok_bind] at e2
        have e4 : L.store t = 0 := by simpa using Except.ok.inj e2
        rw [ok_bind, e4, e3, ok_bind, Nat.mod_eq_of_lt (by omega : i + 1 < 2 ^ 32)])
    q 0 fuel (by omega) (by omega)
  refine ⟨W, ?_, ?_⟩
  · unfold mulNaive
    have h0 : (powerDigits p).length + (powerDigits q).length ≠ 0 := by rw [powerDigits_length hp0]; omega
    simp only [if_neg h0]
    have hr : Vec.resize env [] ((powerDigits p).length + (powerDigits q).length) 0 = .ok Z := by
      unfold Vec.resize
      rw [powerDigits_length hp0, powerDigits_length hq0, if_neg (by simp; omega), if_pos (hm _), ← hZ]; rfl
    have hq0' : ¬ (0 = q) := by omega
    simp only [if_neg hq0', if_true] at outer
    rw [hr, ok_bind, outer, ok_bind]
  · rw [← hW, ← hZ, hidx]
    generalize hk : p + q - 2 - 2 ^ 32 = k
    obtain ⟨m, hm'⟩ : ∃ m, p + q = k + (m + 1) := ⟨p + q - k - 1, by omega⟩
    rw [hm', List.replicate_add, List.set_append_right _ _ (by simp)]
    simp [natOf_append, natOf_replicate_zero, List.replicate_succ]

example {p : Nat} (h : p = 2 ^ 31 + 1) := C117_wrapped_index (L := .base10) (p := p) (q := p) (fuel := p + 1)
  ⟨32, 9, .inr (.inr (.inl rfl)), by decide, by decide, rfl⟩ Sample.ample (by omega) (by omega) (by omega) (by omega)

/-- Products of p by q digits are right, for all digits, exactly for these lengths. -/
theorem C117_lengths {L : Limits} (h : CustomSq L) {env : Env} (hm : env.Ample) (p q : Nat) :
    (∀ a b, InRange L.base a → InRange L.base b → a.length = p → b.length = q →
      ∃ c, Evaluates (fun n => mulNaive L env n a b) (.ok c) ∧ natOf L.base c = natOf L.base a * natOf L.base b) ↔
    q = 0 ∨ p < 2 ^ 32 ∧ q < 2 ^ 32 ∧ p + q ≤ 2 ^ 32 + 1 := by
  have hB := h.custom.supported.base_ge
  constructor
  · intro hall
    by_contra hc
    have hq0 : 0 < q := by omega
    have hz : ∀ n, InRange L.base (List.replicate n 0) := fun n d hd => by rw [List.eq_of_mem_replicate hd]; omega
    by_cases hp : 2 ^ 32 ≤ p
    · obtain ⟨c, ⟨n, hn⟩, -⟩ := hall (List.replicate p 0) (List.replicate q 0) (hz _) (hz _) (by simp) (by simp)
      exact C117_first_too_long L env n (by simpa using hp) (by intro h; simp at h; omega) c (hn n le_rfl)
    by_cases hq : 2 ^ 32 ≤ q
    · obtain ⟨c, ⟨n, hn⟩, -⟩ := hall (List.replicate p 0) (List.replicate q 0) (hz _) (hz _) (by simp) (by simp)
      exact C117_second_too_long L env n (by simpa using hq) c (hn n le_rfl)
    have hp0 : 0 < p := by omega
    have hr : ∀ n, InRange L.base (powerDigits n) := fun n d hd => by
      unfold powerDigits at hd
      rcases List.mem_append.1 hd with hd | hd
      · exact hz _ d hd
      · rw [List.mem_singleton.1 hd]; omega
    obtain ⟨c, ⟨n, hn⟩, hv⟩ := hall _ _ (hr p) (hr q) (powerDigits_length hp0) (powerDigits_length hq0)
    obtain ⟨c', h1, h2⟩ := C117_wrapped_index h hm (by omega) (by omega) (show 2 ^ 32 + 1 < p + q by omega) (fuel := n + p + q + 1) (by omega)
    have h3 := (hn (n + p + q + 1) (by omega)).symm.trans h1
    cases h3
    rw [h2, powerDigits_val, powerDigits_val, ← Nat.pow_add] at hv
    have := Nat.pow_right_injective hB hv
    omega
  · intro hc a b ha hb rfl rfl
    by_cases hq : b.length = 0
    · have hb0 : b = [] := List.eq_nil_of_length_eq_zero hq
      subst hb0
      by_cases ha0 : a.length = 0
      · have : a = [] := List.eq_nil_of_length_eq_zero ha0
        subst this
        exact ⟨[], ⟨0, fun n _ => rfl⟩, rfl⟩
      · refine ⟨List.replicate a.length 0, ⟨1, fun n hn => ?_⟩, by simp [natOf_replicate_zero]⟩
        obtain ⟨m, rfl⟩ : ∃ m, n = m + 1 := ⟨n - 1, by omega⟩
        unfold mulNaive
        have hr : Vec.resize env [] (a.length + 0) 0 = .ok (List.replicate a.length 0) := by
          unfold Vec.resize
          rw [if_neg (show ¬ (a.length + 0 ≤ ([] : List Nat).length) by simp only [List.length_nil]; omega), if_pos (hm _)]; rfl
        simp only [List.length_nil]
        rw [if_neg (show ¬ (a.length + 0 = 0) from ha0), hr, ok_bind, loopWhile]
        rfl
    · have hc' := hc.resolve_left hq
      obtain ⟨c, h1, -, -, h2⟩ := (C28_naive_exact h env ha hb hc' (fuel := max a.length b.length + 1) (by omega)).1 (.inl (hm _))
      refine ⟨c, ⟨max a.length b.length + 1, fun n hn => ?_⟩, h2⟩
      show mulNaive L env n a b = _
      rw [mulNaive_eq L env hc'.1 hc'.2.1 hc'.2.2 (by omega) (by omega)] at h1 ⊢
      exact h1

/-- Lengths on both sides of the boundary. -/
example : CustomSq .base10 ∧ Countable32 (2 ^ 31) (2 ^ 31 + 1) ∧ ¬ Countable32 (2 ^ 31 + 1) (2 ^ 31 + 1) :=
  ⟨C28_presets _ (by simp), by norm_num [Countable32], by norm_num [Countable32]⟩

end BN
