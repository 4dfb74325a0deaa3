import Verif.Lemmas.Requests
import Verif.Lemmas.CostDiv
import Verif.Props.Algebra
/-
How many requests for memory a division makes.
-/
namespace BN

/-- `f` asks as `a` with unlimited memory does, and if `a` is a value, it and the number of requests are as `C` says. -/
def AsksC {α : Type} (d : Bool) (P : List Nat → Prop) (f : Moments → Res α) (a : Res α) (C : Nat → α → Prop) : Prop :=
  ∃ N, Asks d P N f a ∧ ∀ x, a = .ok x → C N x

section
variable {α β : Type} {d : Bool} {P Q : List Nat → Prop}

theorem AsksC.mono {f : Moments → Res α} {a : Res α} {C D : Nat → α → Prop} (h : AsksC d P f a C) (hPQ : ∀ p, P p → Q p)
    (hCD : ∀ N x, C N x → D N x) : AsksC d Q f a D :=
  let ⟨N, h1, h2⟩ := h
  ⟨N, h1.mono hPQ, fun x hx => hCD N x (h2 x hx)⟩

theorem AsksC.bind {f : Moments → Res α} {a : Res α} {g : α → Moments → Res β} {g' : α → Res β} {C : Nat → α → Prop} {D : Nat → β → Prop}
    (hf : AsksC d P f a C) (hg : ∀ N x, C N x → AsksC d Q (g x) (g' x) (fun M y => D (N + M) y)) (hd : ∀ p, P p → ¬ Q p) :
    AsksC d (fun p => P p ∨ Q p) (fun E => f E >>= fun y => g y E) (a >>= g') D := by
  obtain ⟨N, h1, h2⟩ := hf
  cases a with
  | error e => exact ⟨N, h1.bind_error.mono fun _ => .inl, fun x hx => by cases hx⟩
  | ok x =>
    obtain ⟨M, h3, h4⟩ := hg N x (h2 x rfl)
    exact ⟨N + M, h1.bind_ok h3 hd, h4⟩

theorem AsksC.andThen {f : Moments → Res α} {a : Res α} {C : Nat → α → Prop} {g : α → β} {D : Nat → β → Prop} (h : AsksC d P f a C)
    (hg : ∀ N x, C N x → D N (g x)) : AsksC d P (fun E => f E >>= fun x => .ok (g x)) (a >>= fun x => .ok (g x)) D := by
  obtain ⟨N, h1, h2⟩ := h
  refine ⟨N, h1.andThen _, fun y hy => ?_⟩
  cases a with
  | error e => cases hy
  | ok x => cases hy; exact hg N x (h2 x rfl)

theorem AsksC.at {f : Moments → Res α} {a : Res α} {C : Nat → α → Prop} (i : Nat) (h : AsksC d P f a C) :
    AsksC d (fun p => ∃ q, p = i :: q ∧ P q) (fun E => f (E.at i)) a C :=
  let ⟨N, h1, h2⟩ := h
  ⟨N, h1.at i, h2⟩

theorem AsksC.ite {c : Prop} [Decidable c] {f g : Moments → Res α} {a b : Res α} {C : Nat → α → Prop} (hf : c → AsksC d P f a C)
    (hg : ¬ c → AsksC d P g b C) : AsksC d P (fun E => if c then f E else g E) (if c then a else b) C := by
  by_cases h : c
  · simp only [if_pos h]; exact hf h
  · simp only [if_neg h]; exact hg h

theorem asksC_copy (i : Nat) {v : List Nat} (hv : v ≠ []) :
    AsksC d (· = [i]) (fun E => Vec.copy (E [i]) v) (Vec.copy (fullEnv d) v) (fun N w => N = 1 ∧ w = v) :=
  ⟨1, .one [i] v.length rfl fun E _ => by simp [Vec.copy, hv], fun x hx => ⟨rfl, by simpa [Vec.copy, hv] using hx.symm⟩⟩

theorem shlLoop_length (L : Limits) : ∀ (l : List Nat) (c : Val), Keeps (shlLoop L l c) fun x => x.1.length = l.length
  | [], c => .ok rfl
  | a :: l, c => by
    unfold shlLoop
    refine .bind (P := fun _ => True) (fun _ _ => trivial) fun x _ => .bind (shlLoop_length L l x.2) fun y hy => .ok ?_
    simp [hy]

/-- `shift_left_1` asks once if the number becomes longer. -/
theorem asks_shift_count (i : Nat) (L : Limits) (v : List Nat) :
    AsksC d (· = [i]) (fun E => shiftLeft1 L (E [i]) v) (shiftLeft1 L (fullEnv d) v) (fun N w => N + v.length = w.length) := by
  unfold shiftLeft1
  refine .ite (fun h => ⟨0, .none fun _ _ => rfl, fun x hx => by cases hx; simp [h]⟩) fun _ => ?_
  have hl := shlLoop_length L v (L.toSingle 0)
  cases h : shlLoop L v (L.toSingle 0) with
  | error e => exact ⟨0, .none fun _ _ => rfl, fun x hx => by cases hx⟩
  | ok x =>
    have hx := hl x h
    simp only [ok_bind]
    refine .ite (fun _ => ?_) fun _ => ⟨0, .none fun _ _ => rfl, fun y hy => by cases hy; omega⟩
    cases Val.bin .add ((L.toDouble L.minLimit).conv L.single) (L.toSingle 1) with
    | error e => exact ⟨0, .none fun _ _ => rfl, fun x hx => by cases hx⟩
    | ok y =>
      simp only [ok_bind]
      refine ⟨1, .one [i] (x.1.length + 1) rfl fun E _ => by simp [Vec.pushBack], fun z hz => ?_⟩
      simp only [Vec.pushBack, if_true] at hz
      cases hz
      simp; omega

/-- A counted loop with an invariant about the state, the number of iterations and the number of requests so far. -/
theorem asksC_while {σ : Type} {c : σ → Res Bool} {b : Moments → σ → Res σ} {b' : σ → Res σ} (I : σ → Nat → Nat → Prop)
    (h : ∀ s k N, I s k N → c s = .ok true → AsksC d (fun _ => True) (fun E => b E s) (b' s) (fun M s' => I s' (k + 1) (N + M))) :
    ∀ (n : Nat) (s : σ) (k N : Nat), I s k N →
    AsksC d (fun p => ∃ i q, k ≤ i ∧ p = i :: q)
      (fun E => loopWhile (fun t : σ × Nat => c t.1) (fun t => do let t' ← b (E.at t.2) t.1; .ok (t', t.2 + 1)) n (s, k))
      (loopWhile (fun t : σ × Nat => c t.1) (fun t => do let t' ← b' t.1; .ok (t', t.2 + 1)) n (s, k))
      (fun M t => I t.1 t.2 (N + M) ∧ c t.1 = .ok false)
  | 0, _, _, _, _ => ⟨0, .none fun _ _ => rfl, fun x hx => by cases hx⟩
  | n + 1, s, k, N, hI => by
    unfold loopWhile
    cases hc : c s with
    | error e => exact ⟨0, .none fun _ _ => rfl, fun x hx => by cases hx⟩
    | ok t =>
      simp only [ok_bind]
      refine .ite (fun ht => ?_) fun ht => ⟨0, .none fun _ _ => rfl, fun x hx => ?_⟩
      · refine (AsksC.bind (((h s k N hI (by rw [hc, ht])).at k).andThen (D := fun M (x : σ × Nat) => x.2 = k + 1 ∧ I x.1 (k + 1) (N + M))
          fun M s' hs' => ⟨rfl, hs'⟩) (Q := fun p => ∃ i q, k + 1 ≤ i ∧ p = i :: q) (fun M x hx => ?_) ?_).mono ?_ fun _ _ => id
        · obtain ⟨s', k'⟩ := x
          obtain ⟨h1, h2⟩ := hx
          simp only at h1 h2
          subst h1
          refine (asksC_while I h n s' (k + 1) (N + M) h2).mono (fun _ => id) fun M' t ht => ?_
          rw [Nat.add_assoc] at ht
          exact ht
        · rintro p ⟨q, rfl, -⟩ ⟨i, q', hi, e⟩
          obtain ⟨rfl, -⟩ := by simpa using e
          omega
        · rintro p (⟨q, rfl, -⟩ | ⟨i, q, hi, rfl⟩)
          · exact ⟨k, q, le_rfl, rfl⟩
          · exact ⟨i, q, by omega, rfl⟩
      · cases hx
        exact ⟨hI, by rw [hc]; simpa using ht⟩

/-! ### The search -/

/-- The variables of the search after `k` iterations and `N` requests. -/
structure Searching (L : Limits) (n dv : List Nat) (l0 : Nat) (t : SearchSt) (k N : Nat) : Prop where
  b0 : NZ L.base t.bsrch0
  b1 : NZ L.base t.bsrch1
  q : NZ L.base t.q
  v0 : natOf L.base t.bsrch0 = natOf L.base dv * 2 ^ k
  v1 : natOf L.base t.bsrch1 = natOf L.base dv * 2 ^ (k + 1)
  vq : natOf L.base t.q = 2 ^ k
  le : natOf L.base dv * 2 ^ k ≤ natOf L.base n
  asked : N + l0 + 1 = k + t.bsrch1.length + t.q.length

theorem asksC_searchBody {L : Limits} (h : Custom L) {n dv : List Nat} (hn : NZ L.base n) {l0 : Nat} {s : SearchSt} {k N : Nat}
    (hs : Searching L n dv l0 s k N) (hc : absGe n s.bsrch1 = .ok true) :
    AsksC d (fun _ => True) (fun E => searchBodyM L E s) (searchBody L (fullEnv d) s) (fun M s' => Searching L n dv l0 s' (k + 1) (N + M)) := by
  have hB := h.supported.base_ge
  rw [absGe_normal (B := L.base) (by omega) hn.rng hs.b1.rng hn.nlz hs.b1.nlz] at hc
  have hge : natOf L.base s.bsrch1 ≤ natOf L.base n := by simpa using hc
  obtain ⟨d1, d2⟩ := hs.b1.double hB
  obtain ⟨e1, e2⟩ := hs.q.double hB
  have k1 := (okOr_shl h (fullEnv d) hs.b1.rng).keeps
  have k2 := (okOr_shl h (fullEnv d) hs.q.rng).keeps
  unfold searchBodyM searchBody
  refine ((asksC_copy 0 hs.b1.ne).bind (Q := fun p => p = [1] ∨ p = [2]) (fun N1 b0 hb0 => ?_) (by rintro p rfl; simp)).mono (fun _ _ => trivial) fun _ _ => id
  obtain ⟨rfl, rfl⟩ := hb0
  obtain ⟨M1, h1, c1⟩ := asks_shift_count (d := d) 1 L s.bsrch1
  obtain ⟨M2, h2, c2⟩ := asks_shift_count (d := d) 2 L s.q
  refine AsksC.bind (C := fun N w => w = addRest L.base s.bsrch1 s.bsrch1 0 ∧ N + s.bsrch1.length = w.length) ⟨M1, h1, fun x hx => ⟨k1 x hx, c1 x hx⟩⟩
    (Q := fun p => p = [2]) (fun N2 b1 hb1 => ?_) (by rintro p rfl; simp)
  refine AsksC.andThen (C := fun N w => w = addRest L.base s.q s.q 0 ∧ N + s.q.length = w.length) ⟨M2, h2, fun x hx => ⟨k2 x hx, c2 x hx⟩⟩
    fun N3 q hq => ?_
  obtain ⟨rfl, g1⟩ := hb1
  obtain ⟨rfl, g2⟩ := hq
  refine ⟨hs.b1, d1, e1, hs.v1, ?_, ?_, ?_, ?_⟩
  · rw [d2, hs.v1, pow_succ _ (k + 1)]; ring
  · rw [e2, hs.vq, pow_succ]; ring
  · rw [← hs.v1]; exact hge
  · have := hs.asked
    simp only
    omega

/-! ### The outer loop -/

/-- The number of digits of a positive number. -/
def lenOf (L : Limits) (m : Nat) : Nat := (Nat.digits L.base m).length

theorem NZ.lenOf {L : Limits} (hB : 2 ≤ L.base) {l : List Nat} (h : NZ L.base l) : lenOf L (natOf L.base l) = l.length := by
  have : Nat.digits L.base (natOf L.base l) = l :=
    natOf_unique (by omega) (digits_inRange hB _) h.rng (digits_nlz _ _) h.nlz (natOf_digits _ _)
  rw [BN.lenOf, this]

/-- The requests of one iteration that finds the place `j`, without those of the final sum. -/
def askPlace (L : Limits) (b j : Nat) : Nat := 2 + j + (lenOf L (b * 2 ^ (j + 1)) - lenOf L b) + lenOf L (2 ^ j)

theorem lenOf_le {L : Limits} {a b : Nat} (h : a ≤ b) : lenOf L a ≤ lenOf L b := Nat.le_length_digits_le L.base a b h

theorem absSub_result {L : Limits} (h : Supported L) (env : Env) (fuel : Nat) {a b : List Nat} (ha : InRange L.base a) (hb : InRange L.base b)
    (hne : a ≠ []) (hlen : b.length ≤ a.length) : Keeps (absSub L env fuel a (.other b)) fun x => x = trim (subRest L.base a b 0) := fun x hx =>
  ((costs_absSub ⟨0, 0, 0⟩ L h env fuel ha hb hne hlen le_rfl).2 x (by rw [res_absSub]; exact hx)).1

theorem absAdd_result {L : Limits} (h : Supported L) (env : Env) (fuel : Nat) {a b : List Nat} (ha : InRange L.base a) (hb : InRange L.base b) :
    Keeps (absAdd L env fuel a (.other b)) fun x => x = addFull L.base a b 0 := fun x hx =>
  ((costs_absAdd ⟨0, 0, 0⟩ h env fuel ha hb le_rfl).2 x (by rw [res_absAdd]; exact hx)).1

theorem asksC_divBody {L : Limits} (h : Custom L) (fuel : Nat) {dv : List Nat} (hdv : NZ L.base dv) {n res : List Nat} (hn : NZ L.base n)
    (hres : WFDigits L.base res) (hge : natOf L.base dv ≤ natOf L.base n) :
    AsksC d (fun _ => True) (fun E => divBodyM L E fuel dv ⟨n, res⟩) (divBody L (fullEnv d) fuel dv ⟨n, res⟩) (fun N s =>
      InRange L.base s.dividend ∧ NoLeadingZero s.dividend ∧ (WFDigits L.base s.res ∧ s.res ≠ []) ∧
      natOf L.base s.dividend = natOf L.base n - natOf L.base dv * 2 ^ Nat.log 2 (natOf L.base n / natOf L.base dv) ∧
      natOf L.base s.res = natOf L.base res + 2 ^ Nat.log 2 (natOf L.base n / natOf L.base dv) ∧
      N + max res.length (lenOf L (2 ^ Nat.log 2 (natOf L.base n / natOf L.base dv))) =
        askPlace L (natOf L.base dv) (Nat.log 2 (natOf L.base n / natOf L.base dv)) + s.res.length) := by
  have hB := h.supported.base_ge
  have hp := hdv.pos hB
  obtain ⟨d1, d2⟩ := hdv.double hB
  have hq1 : NZ L.base [1] := ⟨by intro x hx; simp at hx; omega, by simp [NoLeadingZero], by simp⟩
  rw [← divBodyM_always L (fullEnv d) fuel dv ⟨n, res⟩]
  unfold divBodyM
  simp only [Env.always_at]
  refine (AsksC.bind (asksC_copy 0 hdv.ne) (Q := fun p => ∃ i q, 1 ≤ i ∧ p = i :: q) (fun N0 b0 h0 => ?_) (by rintro p rfl; simp)).mono
    (fun _ _ => trivial) fun _ _ => id
  obtain ⟨rfl, rfl⟩ := h0
  refine (AsksC.bind (asksC_copy 1 hdv.ne) (Q := fun p => ∃ i q, 2 ≤ i ∧ p = i :: q) (fun N1 b1 h1 => ?_) (by rintro p rfl; simp)).mono
    (by rintro p (rfl | ⟨i, q, hi, rfl⟩); exacts [⟨_, _, le_rfl, rfl⟩, ⟨_, _, by omega, rfl⟩]) fun _ _ => id
  obtain ⟨rfl, rfl⟩ := h1
  refine (AsksC.bind (asksC_copy 2 (by simp)) (Q := fun p => ∃ i q, 3 ≤ i ∧ p = i :: q) (fun N2 q0 h2 => ?_) (by rintro p rfl; simp)).mono
    (by rintro p (rfl | ⟨i, q, hi, rfl⟩); exacts [⟨_, _, le_rfl, rfl⟩, ⟨_, _, by omega, rfl⟩]) fun _ _ => id
  obtain ⟨rfl, rfl⟩ := h2
  rw [one_store h]
  obtain ⟨M3, a3, c3⟩ := asks_shift_count (d := d) 3 L b1
  have k3 := (okOr_shl h (fullEnv d) hdv.rng).keeps
  refine (AsksC.bind (C := fun N w => w = addRest L.base b1 b1 0 ∧ N + b1.length = w.length) ⟨M3, a3, fun x hx => ⟨k3 x hx, c3 x hx⟩⟩
    (Q := fun p => ∃ i q, 4 ≤ i ∧ p = i :: q) (fun N3 w h3 => ?_) (by rintro p rfl; simp)).mono
    (by rintro p (rfl | ⟨i, q, hi, rfl⟩); exacts [⟨_, _, le_rfl, rfl⟩, ⟨_, _, by omega, rfl⟩]) fun _ _ => id
  obtain ⟨hw, h3⟩ := h3
  have hw1 : NZ L.base w := by rw [hw]; exact d1
  have hw2 : natOf L.base w = 2 * natOf L.base b1 := by rw [hw]; exact d2
  have hloop := (asksC_while (d := d) (c := fun t : SearchSt => absGe n t.bsrch1) (b := fun E t => searchBodyM L E t)
    (b' := fun t => searchBodyM L (fullEnv d).always t) (Searching L n b1 w.length) (fun s k N hs hc => asksC_searchBody h hn hs hc)) fuel
    ⟨b1, w, [1]⟩ 0 0 ⟨hdv, hw1, hq1, by simp, by rw [hw2]; simp; ring, by simp, by simpa using hge, by simp⟩
  refine (AsksC.bind (hloop.at 4) (Q := fun p => ∃ i q, 5 ≤ i ∧ p = i :: q) (fun N4 t h4 => ?_) ?_).mono
    (by rintro p (⟨q, rfl, -⟩ | ⟨i, q, hi, rfl⟩); exacts [⟨_, _, le_rfl, rfl⟩, ⟨_, _, by omega, rfl⟩]) fun _ _ => id
  · obtain ⟨⟨t0, t1, tq⟩, j⟩ := t
    obtain ⟨hs, hc⟩ := h4
    simp only at hs hc ⊢
    rw [absGe_normal (B := L.base) (by omega) hn.rng hs.b1.rng hn.nlz hs.b1.nlz] at hc
    have hlt : natOf L.base n < natOf L.base b1 * 2 ^ (j + 1) := by
      have := hs.v1
      simp only at this
      rw [← this]; simpa using hc
    have hj : Nat.log 2 (natOf L.base n / natOf L.base b1) = j := by
      rw [Nat.log_eq_iff (by right; exact ⟨by omega, by rw [Nat.div_ne_zero_iff]; omega⟩)]
      constructor
      · rw [Nat.le_div_iff_mul_le (by omega), Nat.mul_comm]; exact hs.le
      · rw [Nat.div_lt_iff_lt_mul (by omega), Nat.mul_comm]; exact hlt
    rw [hj]
    have g0 := hs.v0
    have gq := hs.vq
    have hle := hs.le
    have hasked := hs.asked
    have l1 := hs.b1.lenOf hB
    have lq := hs.q.lenOf hB
    have ld := hdv.lenOf hB
    rw [hs.v1] at l1
    rw [hs.vq] at lq
    have hmono : lenOf L (natOf L.base b1) ≤ lenOf L (natOf L.base b1 * 2 ^ (j + 1)) := lenOf_le (Nat.le_mul_of_pos_right _ (Nat.two_pow_pos _))
    have h0' := hs.b0
    have hq' := hs.q
    simp only at g0 gq hasked l1 lq h0' hq'
    have hlen := length_le_of_natOf_le hB hn.rng h0'.nlz (by omega)
    have hsub := subRest_exact hB hn.rng h0'.rng hlen (by omega)
    refine (AsksC.bind (C := fun N x => N = 0 ∧ x = trim (subRest L.base n t0 0)) (P := fun p => p = [5])
      ⟨0, .none (a := absSub L (fullEnv d) fuel n (.other t0)) fun E hE => by unfold absSub subDebugCheck; rw [hE [5]],
        fun x hx => ⟨rfl, absSub_result h.supported (fullEnv d) fuel hn.rng h0'.rng hn.ne hlen x hx⟩⟩
      (Q := fun p => ∃ q, p = 6 :: q ∧ True) (fun N5 n' h5 => ?_)
      (by rintro p rfl; simp)).mono (by rintro p (rfl | ⟨q, rfl, -⟩); exacts [⟨_, _, le_rfl, rfl⟩, ⟨_, _, by omega, rfl⟩]) fun _ _ => id
    obtain ⟨rfl, rfl⟩ := h5
    have key : ∀ res', (WFDigits L.base res' ∧ res' ≠ []) → natOf L.base res' = natOf L.base res + 2 ^ j →
        InRange L.base (trim (subRest L.base n t0 0)) ∧ NoLeadingZero (trim (subRest L.base n t0 0)) ∧ (WFDigits L.base res' ∧ res' ≠ []) ∧
        natOf L.base (trim (subRest L.base n t0 0)) = natOf L.base n - natOf L.base b1 * 2 ^ j ∧
        natOf L.base res' = natOf L.base res + 2 ^ j := by
      intro res' hw hv
      refine ⟨trim_inRange (subRest_inRange hB _ _ _ hn.rng h0'.rng (by omega)), trim_noLeadingZero _, hw, ?_, hv⟩
      rw [natOf_trim, hsub, g0]
    refine .ite (fun hcmp => ?_) fun hcmp => ?_
    · obtain ⟨N6, a6, c6⟩ := asks_add_count (d := d) L fuel res (.other tq)
      refine AsksC.andThen (AsksC.at 6 (C := fun N r => N + res.length = r.length ∧ r = addFull L.base res tq 0)
        ⟨N6, a6, fun x hx => ⟨c6 x hx, absAdd_result h.supported (fullEnv d) fuel hres.1 hq'.rng x hx⟩⟩) ?_
      rintro N r ⟨g6, rfl⟩
      obtain ⟨r1, r2, r3, r4, r5⟩ := key _ ⟨addFull_wf hB hres ⟨hq'.rng, .inl hq'.nlz⟩, addFull_ne hB hres.1 hq'.rng⟩
        (by rw [addFull_natOf hB hres.1 hq'.rng (by omega), gq]; omega)
      refine ⟨r1, r2, r3, r4, r5, ?_⟩
      simp only [askPlace, lq, l1, ld]
      rw [l1, ld] at hmono
      rw [max_eq_left hcmp]
      omega
    · obtain ⟨N6, a6, c6⟩ := asks_add_count (d := d) L fuel tq (.other res)
      refine AsksC.andThen (AsksC.at 6 (C := fun N r => N + tq.length = r.length ∧ r = addFull L.base tq res 0)
        ⟨N6, a6, fun x hx => ⟨c6 x hx, absAdd_result h.supported (fullEnv d) fuel hq'.rng hres.1 x hx⟩⟩) ?_
      rintro N r ⟨g6, rfl⟩
      obtain ⟨r1, r2, r3, r4, r5⟩ := key _ ⟨addFull_wf hB ⟨hq'.rng, .inl hq'.nlz⟩ hres, addFull_ne hB hq'.rng hres.1⟩
        (by rw [addFull_natOf hB hq'.rng hres.1 (by omega), gq]; omega)
      refine ⟨r1, r2, r3, r4, r5, ?_⟩
      simp only [askPlace, lq, l1, ld]
      rw [l1, ld] at hmono
      rw [max_eq_right (by omega)]
      omega
  · rintro p ⟨q, rfl, -⟩ ⟨i, q', hi, e⟩
    obtain ⟨rfl, -⟩ := by simpa using e
    omega

/-- The requests of the iterations for a quotient `m`, without those of the sums. -/
def askPlaces (L : Limits) (b m : Nat) : Nat := (m.bitIndices.map (askPlace L b)).sum

theorem askPlaces_top {L : Limits} {b m : Nat} (hm : m ≠ 0) :
    askPlaces L b m = askPlaces L b (m - 2 ^ Nat.log 2 m) + askPlace L b (Nat.log 2 m) := by
  unfold askPlaces; rw [bitIndices_top hm]; simp

/-- The variables of the outer loop after `N` requests. -/
structure Dividing (L : Limits) (a dv : List Nat) (s : DivSt) (N : Nat) : Prop where
  rng : InRange L.base s.dividend
  nlz : NoLeadingZero s.dividend
  wf : WFDigits L.base s.res
  ne : s.res ≠ []
  sum : natOf L.base s.dividend + natOf L.base dv * natOf L.base s.res = natOf L.base a
  asked : (s.res = [0] ∧ N = 0) ∨ (natOf L.base s.dividend / natOf L.base dv < natOf L.base s.res ∧
    N + askPlaces L (natOf L.base dv) (natOf L.base s.dividend / natOf L.base dv) +
      lenOf L (2 ^ Nat.log 2 (natOf L.base a / natOf L.base dv)) =
    askPlaces L (natOf L.base dv) (natOf L.base a / natOf L.base dv) + s.res.length)

theorem asksC_div {L : Limits} (h : Custom L) (fuel : Nat) {a dv : List Nat} (hdv : NZ L.base dv) (ha : NZ L.base a)
    (hge : natOf L.base dv ≤ natOf L.base a) :
    AsksC d (fun _ => True) (fun E => absDivM L E fuel a dv) (absDiv L (fullEnv d) fuel a dv) (fun N _ =>
      N + lenOf L (2 ^ Nat.log 2 (natOf L.base a / natOf L.base dv)) =
        1 + askPlaces L (natOf L.base dv) (natOf L.base a / natOf L.base dv) + lenOf L (natOf L.base a / natOf L.base dv)) := by
  have hB := h.supported.base_ge
  have hp := hdv.pos hB
  have step : ∀ (s : DivSt) (k N : Nat), Dividing L a dv s N → absGe s.dividend dv = .ok true →
      AsksC d (fun _ => True) (fun E => divBodyM L E fuel dv s) (divBodyM L (fullEnv d).always fuel dv s) (fun M s' => Dividing L a dv s' (N + M)) := by
    rintro ⟨n, res⟩ k N hs hc
    obtain ⟨h1, h2, h3, h4, h5, h6⟩ := hs
    simp only at h1 h2 h3 h4 h5 h6 hc
    rw [absGe_normal (B := L.base) (by omega) h1 hdv.rng h2 hdv.nlz] at hc
    have hle : natOf L.base dv ≤ natOf L.base n := by simpa using hc
    have hn : NZ L.base n := ⟨h1, h2, by rintro rfl; simp at hle; omega⟩
    rw [divBodyM_always]
    refine (asksC_divBody h fuel hdv hn h3 hle).mono (fun _ => id) ?_
    rintro M ⟨n', res'⟩ ⟨g1, g2, g3, g4, g5, g6⟩
    simp only at g1 g2 g3 g4 g5 g6
    have hm : natOf L.base n / natOf L.base dv ≠ 0 := by rw [Nat.div_ne_zero_iff]; omega
    have t1 := Nat.pow_log_le_self 2 hm
    have t2 := Nat.lt_pow_succ_log_self (b := 2) (by omega) (natOf L.base n / natOf L.base dv)
    have htop := askPlaces_top (L := L) (b := natOf L.base dv) hm
    have hsub : natOf L.base n' / natOf L.base dv = natOf L.base n / natOf L.base dv - 2 ^ Nat.log 2 (natOf L.base n / natOf L.base dv) := by
      rw [g4, Nat.sub_mul_div]
    have hmul : natOf L.base dv * 2 ^ Nat.log 2 (natOf L.base n / natOf L.base dv) ≤ natOf L.base n := by
      rw [Nat.mul_comm]; exact (Nat.le_div_iff_mul_le (by omega)).1 t1
    rw [pow_succ] at t2
    refine ⟨g1, g2, g3.1, g3.2, ?_, .inr ⟨?_, ?_⟩⟩
    · simp only; rw [g4, g5, Nat.mul_add]; omega
    · simp only; rw [hsub, g5]; omega
    · simp only
      rw [hsub]
      rcases h6 with ⟨rfl, rfl⟩ | ⟨h6, h7⟩
      · have e0 : natOf L.base n = natOf L.base a := by simpa using h5
        have hpos : 1 ≤ lenOf L (2 ^ Nat.log 2 (natOf L.base n / natOf L.base dv)) :=
          List.length_pos_iff.2 (Nat.digits_ne_nil_iff_ne_zero.2 (by positivity))
        rw [List.length_singleton, max_eq_right hpos] at g6
        rw [← e0]
        omega
      · have hle' : lenOf L (2 ^ Nat.log 2 (natOf L.base n / natOf L.base dv)) ≤ res.length := by
          have hz : NZ L.base res := ⟨h3.1, h3.2.resolve_right (by rintro rfl; simp at h6), h4⟩
          rw [← hz.lenOf hB]
          exact lenOf_le (by omega)
        rw [max_eq_left hle'] at g6
        omega
  rw [← absDivM_always L (fullEnv d) fuel a dv]
  unfold absDivM
  simp only [Env.always_at]
  have hloop := (asksC_while (d := d) (c := fun t : DivSt => absGe t.dividend dv) (b := fun E t => divBodyM L E fuel dv t)
    (b' := fun t => divBodyM L (fullEnv d).always fuel dv t) (fun s _ N => Dividing L a dv s N) step) fuel ⟨a, [0]⟩ 0 0
    ⟨ha.rng, ha.nlz, ⟨by intro x hx; simp at hx; omega, .inr rfl⟩, by simp, by simp, .inl ⟨rfl, rfl⟩⟩
  refine (AsksC.bind (asksC_copy 0 (by simp)) (Q := fun p => ∃ q, p = 1 :: q ∧ True) (fun N0 r0 h0 => ?_) (by rintro p rfl; simp)).mono
    (fun _ _ => trivial) fun _ _ => id
  obtain ⟨rfl, rfl⟩ := h0
  rw [zero_store h.supported]
  refine ((hloop.mono (Q := fun _ => True) (fun _ _ => trivial) fun _ _ => id).at 1).andThen ?_
  rintro N ⟨⟨n', res'⟩, k⟩ ⟨⟨h1, h2, h3, h4, h5, h6⟩, hc⟩
  simp only at h1 h2 h3 h4 h5 h6 hc ⊢
  rw [absGe_normal (B := L.base) (by omega) h1 hdv.rng h2 hdv.nlz] at hc
  have hlt : natOf L.base n' < natOf L.base dv := by simpa using hc
  rw [Nat.div_eq_of_lt hlt] at h6
  have hq : natOf L.base a / natOf L.base dv = natOf L.base res' := by
    rw [← h5, Nat.add_mul_div_left _ _ (by omega), Nat.div_eq_of_lt hlt]; omega
  rcases h6 with ⟨rfl, -⟩ | ⟨h6, h7⟩
  · simp at hq; omega
  · have hz : NZ L.base res' := ⟨h3.1, h3.2.resolve_right (by rintro rfl; simp at h6), h4⟩
    have := hz.lenOf hB
    rw [← hq] at this
    have e : askPlaces L (natOf L.base dv) 0 = 0 := by simp [askPlaces]
    omega

end

end BN
