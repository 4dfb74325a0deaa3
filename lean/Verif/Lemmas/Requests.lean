import Verif.Lemmas.FftShape
import Verif.Props.Moments
/-
The requests for memory of an execution: a list of places and sizes such that the execution fails exactly if one of them
is refused.
-/
namespace BN
open Bignum

/-- `f` makes `N` requests at different places within `P`; if all are granted it ends with `a`, else with `bad_alloc`. -/
def Asks {α : Type} (d : Bool) (P : List Nat → Prop) (N : Nat) (f : Moments → Res α) (a : Res α) : Prop :=
  ∃ R : List (List Nat × Nat), R.length = N ∧ (∀ q ∈ R, P q.1) ∧ (R.map Prod.fst).Nodup ∧ ∀ E : Moments, E.OfBuild d →
    ((∀ q ∈ R, (E q.1).alloc q.2 = true) → f E = a) ∧
    ((∃ q ∈ R, (E q.1).alloc q.2 = false) → f E = .error (.exn .badAlloc))

section
variable {α β : Type} {d : Bool} {P Q : List Nat → Prop} {N M : Nat}

theorem Asks.mono {f : Moments → Res α} {a : Res α} (h : Asks d P N f a) (hPQ : ∀ p, P p → Q p) : Asks d Q N f a := by
  obtain ⟨R, h1, h2, h3, h4⟩ := h
  exact ⟨R, h1, fun q hq => hPQ _ (h2 q hq), h3, h4⟩

/-- No request. -/
theorem Asks.none {f : Moments → Res α} {a : Res α} (h : ∀ E : Moments, E.OfBuild d → f E = a) : Asks d P 0 f a :=
  ⟨[], rfl, by simp, by simp, fun E hE => ⟨fun _ => h E hE, fun ⟨_, hq, _⟩ => by cases hq⟩⟩

/-- One request. -/
theorem Asks.one {f : Moments → Res α} {a : Res α} (p : List Nat) (n : Nat) (hp : P p)
    (h : ∀ E : Moments, E.OfBuild d → f E = if (E p).alloc n then a else .error (.exn .badAlloc)) : Asks d P 1 f a :=
  ⟨[(p, n)], rfl, by simpa using hp, by simp, fun E hE => ⟨fun hg => by rw [h E hE, if_pos (hg (p, n) (by simp))],
    fun ⟨q, hq, hr⟩ => by
      obtain rfl : q = (p, n) := by simpa using hq
      rw [h E hE, if_neg (by rw [hr]; simp)]⟩⟩

theorem Asks.congr {f g : Moments → Res α} {a : Res α} (h : Asks d P N f a) (hfg : ∀ E : Moments, E.OfBuild d → g E = f E) :
    Asks d P N g a := by
  obtain ⟨R, h1, h2, h3, h4⟩ := h
  exact ⟨R, h1, h2, h3, fun E hE => by rw [hfg E hE]; exact h4 E hE⟩

theorem Asks.bind_ok {f : Moments → Res α} {x : α} {g : α → Moments → Res β} {b : Res β} (hf : Asks d P N f (.ok x))
    (hg : Asks d Q M (g x) b) (hd : ∀ p, P p → ¬ Q p) : Asks d (fun p => P p ∨ Q p) (N + M) (fun E => f E >>= fun y => g y E) b := by
  obtain ⟨R, h1, h2, h3, h4⟩ := hf
  obtain ⟨S, k1, k2, k3, k4⟩ := hg
  refine ⟨R ++ S, by simp [h1, k1], fun q hq => ?_, ?_, fun E hE => ⟨fun h => ?_, fun ⟨q, hq, hr⟩ => ?_⟩⟩
  · rcases List.mem_append.1 hq with h | h
    · exact .inl (h2 q h)
    · exact .inr (k2 q h)
  · rw [List.map_append, List.nodup_append]
    refine ⟨h3, k3, ?_⟩
    rintro p hp q hq rfl
    obtain ⟨a, ha, rfl⟩ := List.mem_map.1 hp
    obtain ⟨b, hb, e⟩ := List.mem_map.1 hq
    exact hd _ (h2 a ha) (e ▸ k2 b hb)
  · simp only
    rw [(h4 E hE).1 fun q hq => h q (List.mem_append_left _ hq), ok_bind]
    exact (k4 E hE).1 fun q hq => h q (List.mem_append_right _ hq)
  · simp only
    by_cases hR : ∃ q ∈ R, (E q.1).alloc q.2 = false
    · rw [(h4 E hE).2 hR, error_bind]
    · rw [(h4 E hE).1 fun q hq => by
        by_contra hc
        exact hR ⟨q, hq, by simpa using hc⟩, ok_bind]
      rcases List.mem_append.1 hq with h | h
      · exact absurd ⟨q, h, hr⟩ hR
      · exact (k4 E hE).2 ⟨q, h, hr⟩

theorem Asks.bind_error {f : Moments → Res α} {e : Fault} {g : α → Moments → Res β} (hf : Asks d P N f (.error e)) :
    Asks d P N (fun E => f E >>= fun y => g y E) (.error e) := by
  obtain ⟨R, h1, h2, h3, h4⟩ := hf
  exact ⟨R, h1, h2, h3, fun E hE => ⟨fun h => by simp only; rw [(h4 E hE).1 h, error_bind], fun h => by simp only; rw [(h4 E hE).2 h, error_bind]⟩⟩

theorem Asks.at {f : Moments → Res α} {a : Res α} (i : Nat) (h : Asks d P N f a) :
    Asks d (fun p => ∃ q, p = i :: q ∧ P q) N (fun E => f (E.at i)) a := by
  obtain ⟨R, h1, h2, h3, h4⟩ := h
  refine ⟨R.map fun q => (i :: q.1, q.2), by simpa using h1, fun q hq => ?_, ?_, fun E hE => ?_⟩
  · obtain ⟨r, hr, rfl⟩ := List.mem_map.1 hq
    exact ⟨r.1, rfl, h2 r hr⟩
  · rw [List.map_map, show (Prod.fst ∘ fun q : List Nat × Nat => (i :: q.1, q.2)) = (fun p => i :: p) ∘ Prod.fst from rfl, ← List.map_map]
    exact h3.map (fun a b h => by simpa using h)
  · have := h4 (E.at i) fun p => hE (i :: p)
    refine ⟨fun h => this.1 fun q hq => h _ (List.mem_map.2 ⟨q, hq, rfl⟩), fun ⟨q, hq, hr⟩ => this.2 ?_⟩
    obtain ⟨r, hr', rfl⟩ := List.mem_map.1 hq
    exact ⟨r, hr', hr⟩

/-- What follows asks for nothing. -/
theorem Asks.andThen {f : Moments → Res α} {a : Res α} (h : Asks d P N f a) (g : α → Res β) :
    Asks d P N (fun E => f E >>= g) (a >>= g) := by
  cases a with
  | error e => exact h.bind_error
  | ok x => exact (h.bind_ok (g := fun y _ => g y) (b := g x) (Q := fun _ => False) (.none fun _ _ => rfl) fun _ _ h => h).mono fun p h => h.elim id False.elim

/-- Some number of requests. -/
def AsksSome {α : Type} (d : Bool) (P : List Nat → Prop) (f : Moments → Res α) (a : Res α) : Prop := ∃ N, Asks d P N f a

theorem AsksSome.bind {f : Moments → Res α} {a : Res α} {g : α → Moments → Res β} {g' : α → Res β} (hf : AsksSome d P f a)
    (hg : ∀ x, a = .ok x → AsksSome d Q (g x) (g' x)) (hd : ∀ p, P p → ¬ Q p) :
    AsksSome d (fun p => P p ∨ Q p) (fun E => f E >>= fun y => g y E) (a >>= g') := by
  obtain ⟨N, hf⟩ := hf
  cases a with
  | error e => exact ⟨N, hf.bind_error.mono fun _ => .inl⟩
  | ok x =>
    obtain ⟨M, hg⟩ := hg x rfl
    exact ⟨_, hf.bind_ok hg hd⟩

theorem AsksSome.mono {f : Moments → Res α} {a : Res α} (h : AsksSome d P f a) (hPQ : ∀ p, P p → Q p) : AsksSome d Q f a :=
  ⟨h.choose, h.choose_spec.mono hPQ⟩

theorem AsksSome.andThen {f : Moments → Res α} {a : Res α} (h : AsksSome d P f a) (g : α → Res β) :
    AsksSome d P (fun E => f E >>= g) (a >>= g) := ⟨h.choose, h.choose_spec.andThen g⟩

theorem AsksSome.none {f : Moments → Res α} {a : Res α} (h : ∀ E : Moments, E.OfBuild d → f E = a) : AsksSome d P f a :=
  ⟨0, .none h⟩

theorem AsksSome.at {f : Moments → Res α} {a : Res α} (i : Nat) (h : AsksSome d P f a) :
    AsksSome d (fun p => ∃ q, p = i :: q ∧ P q) (fun E => f (E.at i)) a := ⟨h.choose, h.choose_spec.at i⟩

theorem AsksSome.ite {c : Prop} [Decidable c] {f g : Moments → Res α} {a b : Res α} (hf : c → AsksSome d P f a) (hg : ¬ c → AsksSome d P g b) :
    AsksSome d P (fun E => if c then f E else g E) (if c then a else b) := by
  by_cases h : c
  · simp only [if_pos h]; exact hf h
  · simp only [if_neg h]; exact hg h

end

/-! ### The functions -/

section
variable {d : Bool}

/-- The build, with unlimited memory. -/
abbrev fullEnv (d : Bool) : Env := ⟨fun _ => true, d⟩

theorem asks_copy (i : Nat) (v : List Nat) : AsksSome d (· = [i]) (fun E => Vec.copy (E [i]) v) (Vec.copy (fullEnv d) v) := by
  by_cases h : v = []
  · exact .none fun E _ => by simp [Vec.copy, h]
  · exact ⟨1, .one [i] v.length rfl fun E _ => by simp [Vec.copy, h]⟩

theorem asks_pushBack (i : Nat) (v : List Nat) (x : Nat) :
    AsksSome d (· = [i]) (fun E => Vec.pushBack (E [i]) v x) (Vec.pushBack (fullEnv d) v x) :=
  ⟨1, .one [i] (v.length + 1) rfl fun E _ => by simp [Vec.pushBack]⟩

theorem asks_shift (i : Nat) (L : Limits) (v : List Nat) :
    AsksSome d (· = [i]) (fun E => shiftLeft1 L (E [i]) v) (shiftLeft1 L (fullEnv d) v) := by
  unfold shiftLeft1
  refine .ite (fun _ => .none fun _ _ => rfl) fun _ => ?_
  cases h : shlLoop L v (L.toSingle 0) with
  | error e => exact .none fun _ _ => rfl
  | ok x =>
    simp only [ok_bind]
    refine .ite (fun _ => ?_) fun _ => .none fun _ _ => rfl
    cases Val.bin .add ((L.toDouble L.minLimit).conv L.single) (L.toSingle 1) with
    | error e => exact .none fun _ _ => rfl
    | ok y => simp only [ok_bind]; exact asks_pushBack i _ _

theorem asks_grow (i : Nat) (v : List Nat) (k : Nat) : AsksSome d (· = [i]) (fun E => growTo (E [i]) v k) (growTo (fullEnv d) v k) :=
  .ite (fun _ => asks_pushBack i v 0) fun _ => .none fun _ _ => rfl

theorem growTo_length {env : Env} {v w : List Nat} {k : Nat} (h : growTo env v k = .ok w) :
    w.length = v.length ∨ w.length = v.length + 1 := by
  unfold growTo Vec.pushBack at h
  split at h
  · split at h
    · cases h; right; simp
    · cases h
  · cases h; exact .inl rfl

/-- One iteration of `abs_val_add`. -/
theorem addBody_step {L : Limits} {env : Env} {src : Src} {s : AddSt} {g : List Nat} (hg : growTo env s.out s.outIter = .ok g) :
    Keeps (addBody L env src s) fun x => x.1.outIter = s.outIter + 1 ∧ x.1.out.length = g.length := by
  unfold addBody
  rw [hg, ok_bind]
  exact .bind (P := fun _ => True) (fun _ _ => trivial) fun _ _ => .bind (P := fun _ => True) (fun _ _ => trivial) fun _ _ =>
    .bind (P := fun _ => True) (fun _ _ => trivial) fun _ _ => .bind (P := fun w => w.length = g.length)
      (fun w hw => by unfold Vec.wr at hw; split at hw <;> cases hw; simp) fun w hw => .ok ⟨rfl, hw⟩

theorem asks_addBody (L : Limits) (src : Src) (s : AddSt) : ∃ N, Asks d (· = [s.outIter]) N (fun E => addBody L (E [s.outIter]) src s)
    (addBody L (fullEnv d) src s) ∧ ∀ x, addBody L (fullEnv d) src s = .ok x →
      x.1.outIter = s.outIter + 1 ∧ N + s.out.length = x.1.out.length := by
  by_cases h : s.outIter = s.out.length
  · have hg : growTo (fullEnv d) s.out s.outIter = .ok (s.out ++ [0]) := by rw [growTo, if_pos h]; rfl
    refine ⟨1 + 0, ?_, fun x hx => ⟨(addBody_step hg x hx).1, by rw [(addBody_step hg x hx).2]; simp; omega⟩⟩
    unfold addBody
    rw [hg, ok_bind]
    exact ((Asks.one (P := (· = [s.outIter])) [s.outIter] (s.out.length + 1) rfl fun E _ => by rw [growTo, if_pos h]; rfl).bind_ok (Q := fun _ => False)
      (.none fun _ _ => rfl) fun _ _ h => h).mono fun p h => h.elim id False.elim
  · have hg : ∀ env : Env, growTo env s.out s.outIter = .ok s.out := fun env => by rw [growTo, if_neg h]
    refine ⟨0, .none fun E _ => ?_, fun x hx => ⟨(addBody_step (hg _) x hx).1, by rw [(addBody_step (hg _) x hx).2]; omega⟩⟩
    unfold addBody
    rw [hg, hg]

/-- Each iteration of `abs_val_add` asks at a place of its own, and only if the number becomes longer. -/
theorem asks_addLoop (L : Limits) (src : Src) : ∀ (n : Nat) (s : AddSt), ∃ N,
    Asks d (fun p => ∃ i, s.outIter ≤ i ∧ p = [i]) N (fun E => loopForever (fun s => addBody L (E [s.outIter]) src s) n s)
      (loopForever (addBody L (fullEnv d) src) n s) ∧
    ∀ s', loopForever (addBody L (fullEnv d) src) n s = .ok s' → N + s.out.length = s'.out.length
  | 0, _ => ⟨0, .none fun _ _ => rfl, fun _ h => by cases h⟩
  | n + 1, s => by
    unfold loopForever
    obtain ⟨N, hN, hlen⟩ := asks_addBody (d := d) L src s
    cases hx : addBody L (fullEnv d) src s with
    | error e =>
      rw [hx] at hN
      exact ⟨N, hN.bind_error.mono (by rintro p rfl; exact ⟨_, le_rfl, rfl⟩), fun _ h => by cases h⟩
    | ok x =>
      rw [hx] at hN
      obtain ⟨s', b⟩ := x
      obtain ⟨h1, h2⟩ := hlen _ hx
      simp only at h1 h2
      simp only [ok_bind]
      by_cases hb : b = true
      · refine ⟨N + 0, (hN.bind_ok (Q := fun _ => False) (.none fun _ _ => by simp only [if_pos hb]) fun _ _ h => h).mono ?_, ?_⟩
        · rintro p (rfl | h)
          exacts [⟨_, le_rfl, rfl⟩, h.elim]
        · rw [if_pos hb]
          rintro _ ⟨⟩
          exact h2
      · obtain ⟨M, hM, hlen'⟩ := asks_addLoop L src n s'
        refine ⟨N + M, (hN.bind_ok (Q := fun p => ∃ i, s'.outIter ≤ i ∧ p = [i]) ?_ ?_).mono ?_, ?_⟩
        · simp only [if_neg hb]
          exact hM
        · rintro p rfl ⟨i, hi, e⟩
          obtain rfl : s.outIter = i := by simpa using e
          omega
        · rintro p (rfl | ⟨i, hi, rfl⟩)
          · exact ⟨_, le_rfl, rfl⟩
          · exact ⟨i, by omega, rfl⟩
        · rw [if_neg hb]
          intro s'' h
          have := hlen' s'' h
          omega

theorem asks_add_count (L : Limits) (n : Nat) (v : List Nat) (src : Src) : ∃ N,
    Asks d (fun _ => True) N (fun E => absAddM L E n v src) (absAdd L (fullEnv d) n v src) ∧
    ∀ w, absAdd L (fullEnv d) n v src = .ok w → N + v.length = w.length := by
  unfold absAddM absAdd
  obtain ⟨N, hN, hlen⟩ := asks_addLoop (d := d) L src n ⟨v, 0, 0, L.toSingle 0⟩
  cases hx : loopForever (addBody L (fullEnv d) src) n ⟨v, 0, 0, L.toSingle 0⟩ with
  | error e =>
    rw [hx] at hN
    exact ⟨N, hN.bind_error.mono fun _ _ => trivial, fun _ h => by cases h⟩
  | ok x =>
    rw [hx] at hN
    refine ⟨N + 0, (hN.bind_ok (g := fun s _ => .ok s.out) (Q := fun _ => False) (.none fun _ _ => rfl) fun _ _ h => h).mono fun _ _ => trivial, ?_⟩
    rintro _ ⟨⟩
    exact hlen x hx

theorem asks_add (L : Limits) (n : Nat) (v : List Nat) (src : Src) :
    AsksSome d (fun _ => True) (fun E => absAddM L E n v src) (absAdd L (fullEnv d) n v src) :=
  let ⟨N, h, _⟩ := asks_add_count L n v src
  ⟨N, h⟩

theorem asks_search (L : Limits) (s : SearchSt) :
    AsksSome d (fun _ => True) (fun E => searchBodyM L E s) (searchBody L (fullEnv d) s) := by
  unfold searchBodyM searchBody
  refine ((asks_copy 0 _).bind (Q := fun p => p = [1] ∨ p = [2]) (fun b0 _ => ?_) (by rintro p rfl; simp)).mono fun _ _ => trivial
  exact (asks_shift 1 L _).bind (Q := fun p => p = [2]) (fun b1 _ => (asks_shift 2 L _).andThen _) (by rintro p rfl; simp)

/-- A counted loop: iteration `i` asks at the places that begin with `i`. -/
theorem asks_while {σ : Type} {c : σ → Res Bool} {b : Moments → σ → Res σ} {b' : σ → Res σ}
    (h : ∀ s, AsksSome d (fun _ => True) (fun E => b E s) (b' s)) : ∀ (n : Nat) (s : σ) (k : Nat),
    AsksSome d (fun p => ∃ i q, k ≤ i ∧ p = i :: q)
      (fun E => loopWhile (fun t : σ × Nat => c t.1) (fun t => do let t' ← b (E.at t.2) t.1; .ok (t', t.2 + 1)) n (s, k))
      (loopWhile (fun t : σ × Nat => c t.1) (fun t => do let t' ← b' t.1; .ok (t', t.2 + 1)) n (s, k))
  | 0, _, _ => .none fun _ _ => rfl
  | n + 1, s, k => by
    unfold loopWhile
    cases hc : c s with
    | error e => exact .none fun _ _ => rfl
    | ok t =>
      simp only [ok_bind]
      refine .ite (fun _ => ?_) fun _ => .none fun _ _ => rfl
      refine (AsksSome.bind (((h s).at k).andThen _) (Q := fun p => ∃ i q, k + 1 ≤ i ∧ p = i :: q) (fun x hx => ?_) ?_).mono ?_
      · have hx' : x.2 = k + 1 := by
          refine Keeps.bind (P := fun _ => True) (Q := fun x : σ × Nat => x.2 = k + 1) (fun _ _ => trivial) (fun _ _ => .ok rfl) _ hx
        obtain ⟨s', k'⟩ := x
        obtain rfl : k' = k + 1 := hx'
        exact asks_while h n s' (k + 1)
      · rintro p ⟨q, rfl, -⟩ ⟨i, q', hi, e⟩
        obtain ⟨rfl, -⟩ := by simpa using e
        omega
      · rintro p (⟨q, rfl, -⟩ | ⟨i, q, hi, rfl⟩)
        · exact ⟨k, q, le_rfl, rfl⟩
        · exact ⟨i, q, by omega, rfl⟩

theorem asks_sub (i : Nat) (L : Limits) (n : Nat) (a : List Nat) (src : Src) {P : List Nat → Prop} :
    AsksSome d P (fun E => absSub L (E [i]) n a src) (absSub L (fullEnv d) n a src) :=
  .none fun E hE => by
    unfold absSub subDebugCheck
    rw [hE [i]]

theorem asks_divBody (L : Limits) (n : Nat) (dv : List Nat) (s : DivSt) :
    AsksSome d (fun _ => True) (fun E => divBodyM L E n dv s) (divBody L (fullEnv d) n dv s) := by
  rw [← divBodyM_always L (fullEnv d) n dv s]
  unfold divBodyM
  simp only [Env.always_at]
  refine (AsksSome.bind (asks_copy 0 _) (Q := fun p => ∃ i q, 1 ≤ i ∧ p = i :: q) (fun _ _ => ?_) (by rintro p rfl; simp)).mono fun _ _ => trivial
  refine (AsksSome.bind (asks_copy 1 _) (Q := fun p => ∃ i q, 2 ≤ i ∧ p = i :: q) (fun _ _ => ?_) (by rintro p rfl; simp)).mono
    (by rintro p (rfl | ⟨i, q, hi, rfl⟩); exacts [⟨_, _, le_rfl, rfl⟩, ⟨_, _, by omega, rfl⟩])
  refine (AsksSome.bind (asks_copy 2 _) (Q := fun p => ∃ i q, 3 ≤ i ∧ p = i :: q) (fun _ _ => ?_) (by rintro p rfl; simp)).mono
    (by rintro p (rfl | ⟨i, q, hi, rfl⟩); exacts [⟨_, _, le_rfl, rfl⟩, ⟨_, _, by omega, rfl⟩])
  refine (AsksSome.bind (asks_shift 3 L _) (Q := fun p => ∃ i q, 4 ≤ i ∧ p = i :: q) (fun _ _ => ?_) (by rintro p rfl; simp)).mono
    (by rintro p (rfl | ⟨i, q, hi, rfl⟩); exacts [⟨_, _, le_rfl, rfl⟩, ⟨_, _, by omega, rfl⟩])
  have hw := (asks_while (d := d) (c := fun t : SearchSt => absGe s.dividend t.bsrch1) (b := fun E t => searchBodyM L E t)
    (b' := fun t => searchBodyM L (fullEnv d).always t) (asks_search L)) n
  refine (AsksSome.bind ((hw _ 0).at 4) (Q := fun p => ∃ i q, 5 ≤ i ∧ p = i :: q) (fun _ _ => ?_) ?_).mono
    (by rintro p (⟨q, rfl, -⟩ | ⟨i, q, hi, rfl⟩); exacts [⟨_, _, le_rfl, rfl⟩, ⟨_, _, by omega, rfl⟩])
  · refine (AsksSome.bind (asks_sub 5 L n _ _ (P := fun p => p = [5])) (Q := fun p => ∃ q, p = 6 :: q ∧ True) (fun _ _ => ?_)
      (by rintro p rfl; simp)).mono (by rintro p (rfl | ⟨q, rfl, -⟩); exacts [⟨_, _, le_rfl, rfl⟩, ⟨_, _, by omega, rfl⟩])
    exact .ite (fun _ => ((asks_add L n _ _).at 6).andThen _) fun _ => ((asks_add L n _ _).at 6).andThen _
  · rintro p ⟨q, rfl, -⟩ ⟨i, q', hi, e⟩
    obtain ⟨rfl, -⟩ := by simpa using e
    omega

theorem asks_div (L : Limits) (n : Nat) (a b : List Nat) :
    AsksSome d (fun _ => True) (fun E => absDivM L E n a b) (absDiv L (fullEnv d) n a b) := by
  rw [← absDivM_always L (fullEnv d) n a b]
  unfold absDivM
  simp only [Env.always_at]
  have hw := (asks_while (d := d) (c := fun t : DivSt => absGe t.dividend b) (b := fun E t => divBodyM L E n b t)
    (b' := fun t => divBodyM L (fullEnv d).always n b t) (fun s => by rw [divBodyM_always]; exact asks_divBody L n b s)) n
  exact (AsksSome.bind (asks_copy 0 _) (Q := fun p => ∃ q, p = 1 :: q ∧ _) (fun _ _ => ((hw _ 0).at 1).andThen _) (by rintro p rfl; simp)).mono
    fun _ _ => trivial

variable {F : Type} (o : FloatOps F)

theorem asks_reserve (i n : Nat) : Asks d (· = [i]) 1 (fun E => reserve (E [i]) n) (.ok ()) :=
  .one [i] n rfl fun _ _ => rfl

/-- A transform of 2^k points asks 3·2^k - 2 times. -/
theorem asks_fft : ∀ (k : Nat) (f : Nat → Cx F) {n : Nat}, k < n →
    Asks d (fun _ => True) (3 * 2 ^ k - 2) (fun E => fftComplexM o E n (tab (2 ^ k) f)) (.ok (tab (2 ^ k) (fftF o k f))) := by
  intro k
  induction k with
  | zero =>
    intro f n hn
    obtain ⟨n, rfl⟩ : ∃ m, n = m + 1 := ⟨n - 1, by omega⟩
    have := fftComplex_eq o 0 f (fuel := n + 1) (by omega)
    refine ((asks_reserve 0 1).bind_ok (g := fun _ _ => .ok (tab (2 ^ 0) f)) (Q := fun _ => False) (.none fun _ _ => ?_) fun _ _ h => h).mono fun _ _ => trivial
    · simpa [fftComplex] using this
  | succ k ih =>
    intro f n hn
    obtain ⟨n, rfl⟩ : ∃ m, n = m + 1 := ⟨n - 1, by omega⟩
    have h2 : 2 ^ (k + 1) = 2 * 2 ^ k := by ring
    have hpos : 0 < 2 ^ k := Nat.two_pow_pos k
    have hlen : (tab (2 ^ (k + 1)) f).length = 2 * 2 ^ k := by rw [h2]; simp [tab]
    have hne : ¬ (tab (2 ^ (k + 1)) f).length = 1 := by omega
    have hhalf : (tab (2 ^ (k + 1)) f).length / 2 = 2 ^ k := by omega
    have hpart := fftPartition_eq (h := 2 ^ k) f (2 ^ k) le_rfl
    rw [← h2] at hpart
    have key := fftComplex_eq o (k + 1) f (fuel := n + 1) hn
    rw [fftComplex] at key
    simp only [if_neg hne, hhalf, hpart, ok_bind, fftComplex_eq o k _ (show k < n by omega)] at key
    refine Asks.congr (f := fun E => reserve (E [0]) (2 ^ k) >>= fun _ => reserve (E [1]) (2 ^ k) >>= fun _ =>
      fftComplexM o (E.at 2) n (tab (2 ^ k) fun t => f (2 * t)) >>= fun e => fftComplexM o (E.at 3) n (tab (2 ^ k) fun t => f (2 * t + 1)) >>= fun u =>
      fftCombine o (tab (2 ^ (k + 1)) f).length (2 ^ k) e u (2 ^ k) (tab (2 ^ (k + 1)) f)) ?_ fun E _ => ?_
    · have e : 3 * 2 ^ (k + 1) - 2 = 1 + (1 + (3 * 2 ^ k - 2 + (3 * 2 ^ k - 2 + 0))) := by omega
      rw [e]
      refine ((asks_reserve 0 _).bind_ok (Q := fun p => ∃ i q, 1 ≤ i ∧ p = i :: q) ?_ (by rintro p rfl; simp)).mono fun _ _ => trivial
      refine ((asks_reserve 1 _).bind_ok (Q := fun p => ∃ i q, 2 ≤ i ∧ p = i :: q) ?_ (by rintro p rfl; simp)).mono
        (by rintro p (rfl | ⟨i, q, hi, rfl⟩); exacts [⟨_, _, le_rfl, rfl⟩, ⟨_, _, by omega, rfl⟩])
      refine (((ih (fun t => f (2 * t)) (by omega)).at 2).bind_ok (Q := fun p => ∃ q, p = 3 :: q ∧ True) ?_
        (by rintro p ⟨q, rfl, -⟩; simp)).mono (by rintro p (⟨q, rfl, -⟩ | ⟨q, rfl, -⟩); exacts [⟨_, _, le_rfl, rfl⟩, ⟨_, _, by omega, rfl⟩])
      exact (((ih (fun t => f (2 * t + 1)) (by omega)).at 3).bind_ok (Q := fun _ => False) (.none fun _ _ => key) fun _ _ h => h).mono
        fun p h => h.elim id False.elim
    · rw [fftComplexM]
      simp only [if_neg hne, hhalf, hpart, ok_bind]

theorem asks_convolute {k : Nat} (hk : k ≤ 64) (f : Nat → Cx F) {n : Nat} (hn : k < n) :
    Asks d (fun _ => True) (3 * 2 ^ k - 1) (fun E => convoluteFftM o E n (tab (2 ^ k) f)) (.ok (tab (2 ^ k) (pointF o (2 ^ k) (fftF o k f)))) := by
  have key := convoluteFft_eq o hk f hn
  unfold convoluteFft at key
  rw [fftComplex_eq o k f hn, ok_bind] at key
  unfold convoluteFftM
  have hpos : 0 < 2 ^ k := Nat.two_pow_pos k
  rw [show 3 * 2 ^ k - 1 = 1 + (3 * 2 ^ k - 2 + 0) by omega]
  refine ((asks_reserve 0 _).bind_ok (Q := fun p => ∃ q, p = 1 :: q ∧ True) ?_ (by rintro p rfl; simp)).mono fun _ _ => trivial
  exact (((asks_fft o k f hn).at 1).bind_ok (Q := fun _ => False) (.none fun _ _ => key) fun _ _ h => h).mono fun p h => h.elim id False.elim

theorem asks_ifft (k : Nat) (f : Nat → Cx F) {n : Nat} (hn : k < n) :
    Asks d (fun _ => True) (3 * 2 ^ k - 2) (fun E => ifftComplexM o E n (tab (2 ^ k) f)) (.ok (tab (2 ^ k) (ifftF o k f))) := by
  have key := ifftComplex_eq o k f hn
  unfold ifftComplex at key
  unfold ifftComplexM
  simp only [tab_map] at key ⊢
  rw [fftComplex_eq o k _ hn, ok_bind] at key
  exact ((asks_fft o k _ hn).bind_ok (Q := fun _ => False) (.none fun _ _ => key) fun _ _ h => h).mono fun _ _ => trivial

/-- A product with a table of 2^k entries asks 6·2^k - 1 times. -/
theorem asks_mul (L : Limits) {k : Nat} (hk : k ≤ 32) {a b : List Nat} (hs : fftTableSize a.length b.length = 2 ^ k) {n : Nat} (hn : 32 < n) :
    Asks d (fun _ => True) (6 * 2 ^ k - 1) (fun E => mulStrassenM o L E n a b) (mulStrassen o L (fullEnv d) n a b) := by
  have hpos : 0 < 2 ^ k := Nat.two_pow_pos k
  unfold mulStrassenM mulStrassen
  rw [if_neg (by simp), createFftTable_eq, hs]
  simp only [ok_bind]
  rw [convoluteFft_eq o (by omega) _ (show k < n by omega), ok_bind, ifftComplex_eq o k _ (show k < n by omega), ok_bind]
  rw [show 6 * 2 ^ k - 1 = 1 + (3 * 2 ^ k - 1 + (3 * 2 ^ k - 2 + (1 + 0))) by omega]
  refine ((asks_reserve 0 _).bind_ok (Q := fun p => ∃ i q, 1 ≤ i ∧ p = i :: q) ?_ (by rintro p rfl; simp)).mono fun _ _ => trivial
  refine (((asks_convolute o (by omega) _ (by omega)).at 1).bind_ok (Q := fun p => ∃ i q, 2 ≤ i ∧ p = i :: q) ?_
    (by rintro p ⟨q, rfl, -⟩; simp)).mono (by rintro p (⟨q, rfl, -⟩ | ⟨i, q, hi, rfl⟩); exacts [⟨_, _, le_rfl, rfl⟩, ⟨_, _, by omega, rfl⟩])
  refine (((asks_ifft o k _ (by omega)).at 2).bind_ok (Q := fun p => p = [3]) ?_
    (by rintro p ⟨q, rfl, -⟩; simp)).mono (by rintro p (⟨q, rfl, -⟩ | rfl); exacts [⟨_, _, le_rfl, rfl⟩, ⟨_, _, by omega, rfl⟩])
  refine ((asks_reserve 3 _).bind_ok (Q := fun _ => False) (.none fun E _ => ?_) fun _ _ h => h).mono fun p h => h.elim id False.elim
  refine congrArg _ (funext fun ret => congrArg _ (funext fun z => ?_))
  simp [Vec.resize]

/-- The transform of a list of any length. -/
theorem asks_fft_any : ∀ (n : Nat) (x : List (Cx F)),
    AsksSome d (fun _ => True) (fun E => fftComplexM o E n x) (fftComplexM o (fullEnv d).always n x)
  | 0, _ => .none fun _ _ => rfl
  | n + 1, x => by
    unfold fftComplexM
    simp only [Env.always_at]
    have hr : ∀ i m, AsksSome d (· = [i]) (fun E => reserve (E [i]) m) (reserve ((fullEnv d).always [i]) m) := fun i m => ⟨1, asks_reserve i m⟩
    refine .ite (fun _ => ((hr 0 1).andThen _).mono fun _ _ => trivial) fun _ => ?_
    refine (AsksSome.bind (hr 0 _) (Q := fun p => ∃ i q, 1 ≤ i ∧ p = i :: q) (fun _ _ => ?_) (by rintro p rfl; simp)).mono fun _ _ => trivial
    refine (AsksSome.bind (hr 1 _) (Q := fun p => ∃ i q, 2 ≤ i ∧ p = i :: q) (fun _ _ => ?_) (by rintro p rfl; simp)).mono
      (by rintro p (rfl | ⟨i, q, hi, rfl⟩); exacts [⟨_, _, le_rfl, rfl⟩, ⟨_, _, by omega, rfl⟩])
    cases fftPartition x (x.length / 2) (x.length / 2) with
    | error e => exact .none fun _ _ => rfl
    | ok y =>
      simp only [ok_bind]
      refine (AsksSome.bind ((asks_fft_any n _).at 2) (Q := fun p => ∃ q, p = 3 :: q ∧ True)
        (fun _ _ => ((asks_fft_any n _).at 3).andThen _) (by rintro p ⟨q, rfl, -⟩; simp)).mono
        (by rintro p (⟨q, rfl, -⟩ | ⟨q, rfl, -⟩); exacts [⟨_, _, le_rfl, rfl⟩, ⟨_, _, by omega, rfl⟩])

theorem asks_mul_any (L : Limits) (n : Nat) (a b : List Nat) :
    AsksSome d (fun _ => True) (fun E => mulStrassenM o L E n a b) (mulStrassenM o L (fullEnv d).always n a b) := by
  unfold mulStrassenM convoluteFftM ifftComplexM
  simp only [Env.always_at]
  have hr : ∀ i m, AsksSome d (· = [i]) (fun E => reserve (E [i]) m) (reserve ((fullEnv d).always [i]) m) := fun i m => ⟨1, asks_reserve i m⟩
  refine (AsksSome.bind (hr 0 _) (Q := fun p => ∃ i q, 1 ≤ i ∧ p = i :: q) (fun _ _ => ?_) (by rintro p rfl; simp)).mono fun _ _ => trivial
  rw [createFftTable_eq]
  simp only [ok_bind]
  have hc : ∀ x : List (Cx F), AsksSome d (fun _ => True)
      (fun E => reserve (E [0]) x.length >>= fun _ => fftComplexM o (E.at 1) n x >>= fun t => (List.range x.length).mapM (convolutePoint o t x.length))
      (reserve ((fullEnv d).always [0]) x.length >>= fun _ => fftComplexM o (fullEnv d).always n x >>= fun t =>
        (List.range x.length).mapM (convolutePoint o t x.length)) := fun x =>
    (AsksSome.bind (hr 0 _) (Q := fun p => ∃ q, p = 1 :: q ∧ True) (fun _ _ => ((asks_fft_any o n x).at 1).andThen _)
      (by rintro p rfl; simp)).mono fun _ _ => trivial
  refine (AsksSome.bind ((hc _).at 1) (Q := fun p => ∃ i q, 2 ≤ i ∧ p = i :: q) (fun _ _ => ?_)
    (by rintro p ⟨q, rfl, -⟩; simp)).mono (by rintro p (⟨q, rfl, -⟩ | ⟨i, q, hi, rfl⟩); exacts [⟨_, _, le_rfl, rfl⟩, ⟨_, _, by omega, rfl⟩])
  refine (AsksSome.bind (((asks_fft_any o n _).andThen _).at 2) (Q := fun p => p = [3]) (fun _ _ => (hr 3 _).andThen _)
    (by rintro p ⟨q, rfl, -⟩; simp)).mono (by rintro p (⟨q, rfl, -⟩ | rfl); exacts [⟨_, _, le_rfl, rfl⟩, ⟨_, _, by omega, rfl⟩])

theorem asks_bcopy (i : Nat) (x : Bignum) : AsksSome d (· = [i]) (fun E => x.copy (E [i])) (x.copy (fullEnv d)) :=
  (asks_copy i x.digits).andThen _

theorem asks_addTry (L : Limits) (n : Nat) (x : Bignum) (r : Rhs) :
    AsksSome d (fun _ => True) (fun E => addTryM L E n x r) (addTryM L (fullEnv d).always n x r) := by
  unfold addTryM
  simp only [Env.always_at, absAddM_always]
  have ha : ∀ de, AsksSome d (fun _ => True) (fun E => absAddM L (E.at 0) n x.digits r.src >>= fun l => Except.ok (⟨de, l⟩ : Bignum))
      (absAdd L (fullEnv d) n x.digits r.src >>= fun l => Except.ok (⟨de, l⟩ : Bignum)) := fun de =>
    (((asks_add L n _ _).at 0).andThen _).mono fun _ _ => trivial
  have hs : ∀ de v, AsksSome d (fun _ => True) (fun E => absSub L (E [0]) n x.digits r.src >>= fun l => Except.ok (⟨de, l⟩ : Bignum))
      (absSub L (fullEnv d) n x.digits r.src >>= fun l => Except.ok (⟨de, l⟩ : Bignum)) ∧
      AsksSome d (fun _ => True) (fun E => (r.get x).copy (E [1]) >>= fun t => absSub L (E [0]) n t.digits v >>= fun l => Except.ok (⟨de, l⟩ : Bignum))
      ((r.get x).copy (fullEnv d) >>= fun t => absSub L (fullEnv d) n t.digits v >>= fun l => Except.ok (⟨de, l⟩ : Bignum)) := fun de v =>
    ⟨(asks_sub 0 L n _ _).andThen _, (AsksSome.bind (asks_bcopy 1 _) (Q := fun _ => False) (fun _ _ => (asks_sub 0 L n _ _).andThen _) fun _ _ h => h).mono fun _ _ => trivial⟩
  refine .ite (fun _ => ha _) fun _ => .ite (fun _ => ?_) fun _ => .ite (fun _ => ?_) fun _ => ha _
  all_goals
    cases absGe x.digits (r.get x).digits with
    | error e => exact .none fun _ _ => rfl
    | ok t =>
      simp only [ok_bind]
      exact .ite (fun _ => (hs _ (.self)).1) fun _ => (hs _ _).2

/-- At most one request. -/
def AsksOnce {α : Type} (d : Bool) (f : Moments → Res α) (a : Res α) : Prop := ∃ N, N ≤ 1 ∧ Asks d (fun _ => True) N f a

theorem AsksOnce.none {α : Type} {f : Moments → Res α} {a : Res α} (h : ∀ E : Moments, E.OfBuild d → f E = a) : AsksOnce d f a :=
  ⟨0, by omega, .none h⟩

theorem AsksOnce.ite {α : Type} {c : Prop} [Decidable c] {f g : Moments → Res α} {a b : Res α} (hf : c → AsksOnce d f a)
    (hg : ¬ c → AsksOnce d g b) : AsksOnce d (fun E => if c then f E else g E) (if c then a else b) := by
  by_cases h : c
  · simp only [if_pos h]; exact hf h
  · simp only [if_neg h]; exact hg h

theorem AsksOnce.copyThen {β : Type} (i : Nat) {v : List Nat} {g : List Nat → Moments → Res β} {g' : List Nat → Res β}
    (hg : ∀ w E, Moments.OfBuild E d → g w E = g' w) :
    AsksOnce d (fun E => Vec.copy (E [i]) v >>= fun w => g w E) (Vec.copy (fullEnv d) v >>= g') := by
  by_cases h : v = []
  · exact .none fun E hE => by simp [Vec.copy, h, hg [] E hE]
  · refine ⟨1 + 0, by omega, ?_⟩
    have h1 : Asks d (· = [i]) 1 (fun E => Vec.copy (E [i]) v) (.ok v) := .one [i] v.length rfl fun E _ => by simp [Vec.copy, h]
    rw [show Vec.copy (fullEnv d) v = .ok v by simp [Vec.copy, h], ok_bind]
    exact (h1.bind_ok (Q := fun _ => False) (.none (hg v)) fun _ _ h => h).mono fun _ _ => trivial

theorem absSub_build {E : Moments} (hE : E.OfBuild d) (L : Limits) (n : Nat) (a : List Nat) (src : Src) :
    absSub L (E [0]) n a src = absSub L (fullEnv d) n a src := by
  unfold absSub subDebugCheck
  rw [hE [0]]

theorem asks_subTry (L : Limits) (n : Nat) (x : Bignum) (r : Rhs) :
    AsksOnce d (fun E => subTry L (E [0]) n x r) (subTry L (fullEnv d) n x r) := by
  unfold subTry Bignum.copy
  simp only [bind_assoc, ok_bind]
  have hc : ∀ (v : List Nat) src de, AsksOnce d (fun E => Vec.copy (E [0]) v >>= fun w => absSub L (E [0]) n w src >>= fun l => Except.ok (⟨de, l⟩ : Bignum))
      (Vec.copy (fullEnv d) v >>= fun w => absSub L (fullEnv d) n w src >>= fun l => Except.ok (⟨de, l⟩ : Bignum)) := fun v src de =>
    .copyThen 0 fun w E hE => by rw [absSub_build hE]
  have hs : ∀ (v : List Nat) src de, AsksOnce d (fun E => absSub L (E [0]) n v src >>= fun l => Except.ok (⟨de, l⟩ : Bignum))
      (absSub L (fullEnv d) n v src >>= fun l => Except.ok (⟨de, l⟩ : Bignum)) := fun v src de => .none fun E hE => by rw [absSub_build hE]
  refine .ite (fun _ => ?_) fun _ => .ite (fun _ => ?_) fun _ => .ite (fun _ => ?_) fun _ => ?_
  · cases absGe x.digits (r.get x).digits with
    | error e => exact .none fun _ _ => rfl
    | ok t => simp only [ok_bind]; exact .ite (fun _ => hs _ _ _) fun _ => hc _ _ _
  · cases absGt x.digits (r.get x).digits with
    | error e => exact .none fun _ _ => rfl
    | ok t => simp only [ok_bind]; exact hc _ _ _
  · cases absGt x.digits (r.get x).digits with
    | error e => exact .none fun _ _ => rfl
    | ok t => simp only [ok_bind]; exact hc _ _ _
  · cases absGe x.digits (r.get x).digits with
    | error e => exact .none fun _ _ => rfl
    | ok t => simp only [ok_bind]; exact .ite (fun _ => hs _ _ _) fun _ => hc _ _ _

/-- An addition of numbers of opposite signs. -/
theorem asks_addTry_opposite (L : Limits) (n : Nat) {x : Bignum} {r : Rhs}
    (h : x.desc = .pos ∧ (r.get x).desc = .neg ∨ x.desc = .neg ∧ (r.get x).desc = .pos) :
    AsksOnce d (fun E => addTryM L E n x r) (addTryM L (fullEnv d).always n x r) := by
  unfold addTryM Bignum.copy
  simp only [bind_assoc, ok_bind]
  have hc : ∀ (v : List Nat) src de, AsksOnce d (fun E => Vec.copy (E [1]) v >>= fun w => absSub L (E [0]) n w src >>= fun l => Except.ok (⟨de, l⟩ : Bignum))
      (Vec.copy (fullEnv d) v >>= fun w => absSub L (fullEnv d) n w src >>= fun l => Except.ok (⟨de, l⟩ : Bignum)) := fun v src de =>
    .copyThen 1 fun w E hE => by rw [absSub_build hE]
  have hs : ∀ (v : List Nat) src de, AsksOnce d (fun E => absSub L (E [0]) n v src >>= fun l => Except.ok (⟨de, l⟩ : Bignum))
      (absSub L (fullEnv d) n v src >>= fun l => Except.ok (⟨de, l⟩ : Bignum)) := fun v src de => .none fun E hE => by rw [absSub_build hE]
  refine .ite (fun h' => ?_) fun _ => .ite (fun _ => ?_) fun h1 => .ite (fun _ => ?_) fun h2 => absurd h (not_or.2 ⟨h1, h2⟩)
  · rcases h with h | h
    · rw [h.2] at h'; cases h'.2
    · rw [h.1] at h'; cases h'.1
  all_goals
    cases absGe x.digits (r.get x).digits with
    | error e => exact .none fun _ _ => rfl
    | ok t => simp only [ok_bind]; exact .ite (fun _ => hs _ _ _) fun _ => hc _ _ _

end
end BN
