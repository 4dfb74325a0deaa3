import Verif.Lemmas.Samples
import Verif.Model.Concurrent
import Verif.Spec
import Mathlib.Data.List.Induction
import Mathlib.Data.List.Basic
/-
Threads: C118.
-/
namespace BN
variable {σ F : Type}

/-- A statement leaves the objects it does not write alone. -/
theorem step_frame (o : FloatOps F) (L : Limits) (env : Env) (fuel : Nat) {s s' : Store} {op : Op} (h : op.step o L env fuel s = some s') {i : Nat}
    (hi : i ∉ op.targets) : s' i = s i := by
  have key : ∀ (j : Nat) (x : Out), x.store s j = some s' → i ≠ j → s' i = s i := by
    intro j x hx hij
    cases x <;> simp only [Out.store, Option.some.injEq, reduceCtorEq] at hx <;> subst hx <;> simp [Store.set, hij]
  cases op <;> simp only [Op.targets, List.mem_cons, List.not_mem_nil, or_false, not_or] at hi <;> simp only [Op.step] at h
  case copy =>
    split at h
    · cases h; rfl
    · exact key _ _ h hi
  case move =>
    split at h
    · cases h
    · cases h; simp [Store.set, hi.1, hi.2]
  case setDescriptor => cases h; simp [Store.set, hi]
  case clear => cases h; simp [Store.set, hi]
  all_goals exact key _ _ h hi

theorem targets_sub_operands (op : Op) {i : Nat} (h : i ∈ op.targets) : i ∈ op.operands := by
  cases op <;> simp_all [Op.targets, Op.operands]

/-- What a statement does depends on its operands only. -/
theorem step_local (o : FloatOps F) (L : Limits) (env : Env) (fuel : Nat) {s t : Store} {op : Op} (h : ∀ i ∈ op.operands, s i = t i) :
    (∀ s', op.step o L env fuel s = some s' → ∃ t', op.step o L env fuel t = some t' ∧ ∀ i ∈ op.targets, s' i = t' i) := by
  have key : ∀ (j : Nat) (x y : Out), x = y → ∀ s', x.store s j = some s' → ∃ t', y.store t j = some t' ∧ ∀ i ∈ [j], s' i = t' i := by
    rintro j x _ rfl s' hx
    cases x <;> simp only [Out.store, Option.some.injEq, reduceCtorEq] at hx <;> subst hx <;> refine ⟨_, rfl, ?_⟩ <;> simp [Store.set]
  intro s' hs
  cases op <;> simp only [Op.operands, Op.targets, List.mem_cons, List.not_mem_nil, or_false, forall_eq_or_imp, forall_eq] at h <;>
    simp only [Op.step] at hs ⊢
  case copy i j =>
    split at hs
    · rename_i e; subst e; cases hs; exact ⟨t, by rw [if_pos rfl], by simp [Op.targets, h.1]⟩
    · rename_i e; rw [if_neg e]; exact key _ _ _ (by rw [h.1, h.2]) _ hs
  case move i j =>
    split at hs
    · cases hs
    · rename_i e; rw [if_neg e]; cases hs; exact ⟨_, rfl, by simp [Op.targets, Store.set, h.2]⟩
  case setDescriptor i d => cases hs; exact ⟨_, rfl, by simp [Op.targets, Store.set, h]⟩
  case clear i => cases hs; exact ⟨_, rfl, by simp [Op.targets, Store.set, h]⟩
  case arith k i j =>
    refine key _ _ _ ?_ _ hs
    have : rhsOf s i j = rhsOf t i j := by unfold rhsOf; rw [h.2]
    rw [h.1, this]
  case binary k i j l => exact key _ _ _ (by rw [h.1, h.2.1, h.2.2]) _ hs
  all_goals exact key _ _ _ (by rw [h]) _ hs

/-- Thread `t` writes the objects in `own t` only, and uses the objects in `uses t` only. -/
structure Obeys (T : Thread σ) (own uses : Nat → Prop) : Prop where
  sub : ∀ i, own i → uses i
  view : ∀ q s s', (∀ i, uses i → s i = s' i) → T.next q s = T.next q s'
  reads : ∀ q s env op q', T.next q s = some (env, op, q') → ∀ i ∈ op.operands, uses i
  writes : ∀ q s env op q', T.next q s = some (env, op, q') → ∀ i ∈ op.targets, own i

/-- No thread writes an object that another one uses (no data race in the sense of the C++ standard). Several threads
may read an object that none of them writes. -/
structure RaceFree (T : Nat → Thread σ) (own uses : Nat → Nat → Prop) : Prop where
  obeys : ∀ t, Obeys (T t) (own t) (uses t)
  apart : ∀ t u i, t ≠ u → own t i → ¬ uses u i

/-- The machines `m` and `m'` are the same for thread `t`. -/
structure SameFor (own uses : Nat → Nat → Prop) (t : Nat) (m m' : Machine σ) : Prop where
  loc : m.loc t = m'.loc t
  store : ∀ i, uses t i → m.store i = m'.store i
  idle : m.busy t = none → m'.busy t = none
  busy : ∀ op s1 q, m.busy t = some (op, s1, q) →
    (∀ i ∈ op.targets, own t i) ∧ ∃ s1', m'.busy t = some (op, s1', q) ∧ ∀ i ∈ op.targets, s1 i = s1' i

/-- A turn of another thread. -/
theorem SameFor.other {T : Nat → Thread σ} {own uses : Nat → Nat → Prop} (hr : RaceFree T own uses) {o : FloatOps F} {L : Limits} {fuel : Nat}
    {t u : Nat} (htu : t ≠ u) {m m' n : Machine σ} (h : SameFor own uses t m m') (hown : ∀ op s1 q, m.busy u = some (op, s1, q) → ∀ i ∈ op.targets, own u i)
    (hn : turn o L fuel T u m = some n) : SameFor own uses t n m' := by
  unfold turn at hn
  split at hn
  · rename_i op s1 q hb
    cases hn
    refine ⟨by simpa [putAt, htu] using h.loc, fun i hi => ?_, by simpa [putAt, htu] using h.idle, by simpa [putAt, htu] using h.busy⟩
    rw [← h.store i hi]
    exact if_neg fun hc => hr.apart u t i (Ne.symm htu) (hown op s1 q hb i hc) hi
  · split at hn
    · cases hn; exact h
    · cases hs : (Op.step o L _ fuel m.store _ : Option Store) with
      | none => rw [hs] at hn; cases hn
      | some s1 =>
        rw [hs] at hn; cases hn
        exact ⟨h.loc, h.store, by simpa [putAt, htu] using h.idle, by simpa [putAt, htu] using h.busy⟩

/-- A turn of the thread itself. -/
theorem SameFor.own_turn {T : Nat → Thread σ} {own uses : Nat → Nat → Prop} (hr : RaceFree T own uses) (o : FloatOps F) (L : Limits) (fuel : Nat)
    {t : Nat} {m m' : Machine σ} (h : SameFor own uses t m m') :
    (turn o L fuel T t m = none ∧ turn o L fuel T t m' = none) ∨
    ∃ n n', turn o L fuel T t m = some n ∧ turn o L fuel T t m' = some n' ∧ SameFor own uses t n n' := by
  unfold turn
  cases hb : m.busy t with
  | some p =>
    obtain ⟨op, s1, q⟩ := p
    obtain ⟨h1, s1', h2, h3⟩ := h.busy op s1 q hb
    rw [h2]
    refine .inr ⟨_, _, rfl, rfl, ⟨by simp [putAt], fun i hi => ?_, by simp [putAt], by simp [putAt]⟩⟩
    by_cases hc : i ∈ op.targets
    · simp only [if_pos hc]; exact h3 i hc
    · simp only [if_neg hc]; exact h.store i hi
  | none =>
    rw [h.idle hb]
    have hv : (T t).next (m.loc t) m.store = (T t).next (m'.loc t) m'.store := by
      rw [h.loc]; exact (hr.obeys t).view _ _ _ h.store
    simp only [← hv]
    cases hx : (T t).next (m.loc t) m.store with
    | none => exact .inr ⟨m, m', rfl, rfl, h⟩
    | some p =>
      obtain ⟨env, op, q⟩ := p
      have hu := (hr.obeys t).reads _ _ _ _ _ hx
      have hw := (hr.obeys t).writes _ _ _ _ _ hx
      simp only
      cases hs : op.step o L env fuel m.store with
      | none =>
        left
        refine ⟨rfl, ?_⟩
        cases hs' : op.step o L env fuel m'.store with
        | none => rfl
        | some s' =>
          obtain ⟨t', e, -⟩ := step_local o L env fuel (fun i hi => (h.store i (hu i hi)).symm) s' hs'
          rw [hs] at e; cases e
      | some s1 =>
        obtain ⟨s1', e, h3⟩ := step_local o L env fuel (fun i hi => h.store i (hu i hi)) s1 hs
        rw [e]
        refine .inr ⟨_, _, rfl, rfl, ⟨h.loc, h.store, by simp [putAt], ?_⟩⟩
        intro op' s' q' hb'
        simp only [putAt, if_true, Option.some.injEq, Prod.mk.injEq] at hb' ⊢
        obtain ⟨rfl, rfl, rfl⟩ := hb'
        exact ⟨hw, s1', ⟨rfl, rfl, rfl⟩, h3⟩

theorem turns_append (o : FloatOps F) (L : Limits) (fuel : Nat) (T : Nat → Thread σ) : ∀ (w w' : List Nat) (m : Machine σ),
    turns o L fuel T (w ++ w') m = (turns o L fuel T w m).bind (turns o L fuel T w')
  | [], _, _ => rfl
  | t :: w, w', m => by
    simp only [List.cons_append, turns]
    cases turn o L fuel T t m with
    | none => rfl
    | some n => exact turns_append o L fuel T w w' n

theorem as_if_alone {T : Nat → Thread σ} {own uses : Nat → Nat → Prop} (hr : RaceFree T own uses) (o : FloatOps F) (L : Limits) (fuel : Nat)
    (s : Store) (q : Nat → σ) : ∀ w : List Nat,
    (turns o L fuel T w (.start s q) = none → ∃ t, turns o L fuel T (List.replicate (w.count t) t) (.start s q) = none) ∧
      ∀ m, turns o L fuel T w (.start s q) = some m →
        ∀ t, ∃ m', turns o L fuel T (List.replicate (w.count t) t) (.start s q) = some m' ∧ SameFor own uses t m m' := by
  intro w
  induction w using List.reverseRecOn with
  | nil =>
    refine ⟨fun h => (by cases h), fun m hm t => ?_⟩
    cases hm
    exact ⟨_, rfl, rfl, fun _ _ => rfl, fun h => h, fun op s1 q' hb => (by cases hb)⟩
  | append_singleton w u ih =>
    have hcu : (w ++ [u]).count u = w.count u + 1 := by simp [List.count_append]
    have hct : ∀ t, t ≠ u → (w ++ [u]).count t = w.count t := by
      intro t ht; simp [List.count_append, Ne.symm ht]
    have hrep : ∀ n, turns o L fuel T (List.replicate (n + 1) u) (.start s q) =
        (turns o L fuel T (List.replicate n u) (.start s q)).bind (turn o L fuel T u) := by
      intro n
      rw [List.replicate_succ', turns_append]
      congr 1
      funext m
      simp [turns]
    have hlast : turns o L fuel T (w ++ [u]) (.start s q) = (turns o L fuel T w (.start s q)).bind (turn o L fuel T u) := by
      rw [turns_append]
      congr 1
      funext m
      simp [turns]
    rw [hlast]
    cases hw : turns o L fuel T w (.start s q) with
    | none =>
      refine ⟨fun _ => ?_, fun m hm => (by cases hm)⟩
      obtain ⟨t, ht⟩ := ih.1 hw
      by_cases e : t = u
      · subst e
        exact ⟨t, by rw [hcu, hrep, ht]; rfl⟩
      · exact ⟨t, by rw [hct t e, ht]⟩
    | some n =>
      obtain ⟨n', h1, h2⟩ := ih.2 n hw u
      simp only [Option.bind_some]
      rcases h2.own_turn hr o L fuel with ⟨e1, e2⟩ | ⟨p, p', e1, e2, h3⟩
      · refine ⟨fun _ => ⟨u, by rw [hcu, hrep, h1]; exact e2⟩, fun m hm => ?_⟩
        rw [e1] at hm; cases hm
      · refine ⟨fun h => (by rw [e1] at h; cases h), fun m hm t => ?_⟩
        rw [e1] at hm; cases hm
        by_cases e : t = u
        · subst e
          exact ⟨p', by rw [hcu, hrep, h1]; exact e2, h3⟩
        · obtain ⟨m', h4, h5⟩ := ih.2 n hw t
          refine ⟨m', by rw [hct t e, h4], h5.other hr e (fun op s1 q' hb => (h2.busy op s1 q' hb).1) e1⟩

/-- Whatever the order in which the threads take turns, each of them sees and does what it does alone, and the program
fails exactly when one of the threads fails alone: `w.count t` is the number of turns of thread t in the schedule w. -/
theorem C118_as_if_alone {T : Nat → Thread σ} {own uses : Nat → Nat → Prop} (hr : RaceFree T own uses) (o : FloatOps F) (L : Limits) (fuel : Nat)
    (s : Store) (q : Nat → σ) (w : List Nat) :
    (turns o L fuel T w (.start s q) = none → ∃ t, turns o L fuel T (List.replicate (w.count t) t) (.start s q) = none) ∧
    ∀ m, turns o L fuel T w (.start s q) = some m →
      ∀ t, ∃ m', turns o L fuel T (List.replicate (w.count t) t) (.start s q) = some m' ∧
        m.loc t = m'.loc t ∧ ∀ i, uses t i → m.store i = m'.store i := by
  have key := as_if_alone hr o L fuel s q
  refine ⟨(key w).1, fun m hm t => ?_⟩
  obtain ⟨m', h1, h2⟩ := (key w).2 m hm t
  exact ⟨m', h1, h2.loc, h2.store⟩

/-- Each of nine threads adds the shared x9 to a number of its own three times. -/
theorem nineThreads : RaceFree
    (fun t => ⟨fun (q : Nat) _ => if q < 3 ∧ t < 9 then some (releaseEnv, .arith .add t 9, q + 1) else none⟩)
    (fun t i => t < 9 ∧ i = t) (fun t i => t < 9 ∧ (i = t ∨ i = 9)) := by
  refine ⟨fun t => ⟨fun i h => ⟨h.1, .inl h.2⟩, fun _ _ _ _ => rfl, fun q s env op q' h => ?_, fun q s env op q' h => ?_⟩,
    fun t u i h h' h'' => by omega⟩ <;>
  · simp only [Option.ite_none_right_eq_some, Option.some.injEq, Prod.mk.injEq] at h
    obtain ⟨⟨-, ht⟩, -, rfl, -⟩ := h
    simp [Op.operands, Op.targets, ht]

example (o : FloatOps F) := C118_as_if_alone nineThreads o .base10 100 (fun _ => Sample.n23) (fun _ => 0) [0, 1, 1, 0, 1, 8]

/-- No thread has anything left to do. -/
def Finished (T : Nat → Thread σ) (m : Machine σ) : Prop := ∀ t, m.busy t = none ∧ (T t).next (m.loc t) m.store = none

/-- An object that no thread writes keeps its value. -/
theorem turns_untouched {T : Nat → Thread σ} {own uses : Nat → Nat → Prop} (hr : RaceFree T own uses) (o : FloatOps F) (L : Limits) (fuel : Nat)
    {i : Nat} (hi : ∀ t, ¬ own t i) : ∀ (w : List Nat) (m n : Machine σ), (∀ t op s1 q, m.busy t = some (op, s1, q) → i ∉ op.targets) →
      turns o L fuel T w m = some n → n.store i = m.store i
  | [], m, n, _, h => by cases h; rfl
  | t :: w, m, n, hb, h => by
    rw [turns] at h
    cases ht : turn o L fuel T t m with
    | none => rw [ht] at h; cases h
    | some p =>
      rw [ht] at h
      have hp : p.store i = m.store i ∧ ∀ u op s1 q, p.busy u = some (op, s1, q) → i ∉ op.targets := by
        unfold turn at ht
        split at ht
        · rename_i op s1 q hbt
          cases ht
          refine ⟨if_neg (hb t op s1 q hbt), fun u op' s1' q' hu => ?_⟩
          simp only [putAt] at hu
          split at hu
          · cases hu
          · exact hb u op' s1' q' hu
        · split at ht
          · cases ht; exact ⟨rfl, hb⟩
          · rename_i env op q hx
            cases hs : (Op.step o L env fuel m.store op : Option Store) with
            | none => rw [hs] at ht; cases ht
            | some s1 =>
              rw [hs] at ht; cases ht
              refine ⟨rfl, fun u op' s1' q' hu => ?_⟩
              simp only [putAt] at hu
              split at hu
              · cases hu
                exact fun hc => hi t ((hr.obeys t).writes _ _ _ _ _ hx i hc)
              · exact hb u op' s1' q' hu
      rw [turns_untouched hr o L fuel hi w p n hp.2 h, hp.1]

/-- A thread that has ended uses its turns for nothing. -/
theorem turns_idle {T : Nat → Thread σ} (o : FloatOps F) (L : Limits) (fuel : Nat) {t : Nat} {m : Machine σ} (h : m.busy t = none)
    (hn : (T t).next (m.loc t) m.store = none) : ∀ n, turns o L fuel T (List.replicate n t) m = some m
  | 0 => rfl
  | n + 1 => by
    rw [List.replicate_succ, turns, turn, h]
    simp only [hn, Option.bind_some]
    exact turns_idle o L fuel h hn n

/-- All schedules in which the threads come to their end leave the same objects. -/
theorem C118_same_end {T : Nat → Thread σ} {own uses : Nat → Nat → Prop} (hr : RaceFree T own uses) (o : FloatOps F) (L : Limits) (fuel : Nat)
    {s : Store} {q : Nat → σ} {w w' : List Nat} {m m' : Machine σ} (h : turns o L fuel T w (.start s q) = some m) (hf : Finished T m)
    (h' : turns o L fuel T w' (.start s q) = some m') (hf' : Finished T m') : m.store = m'.store ∧ m.loc = m'.loc := by
  have solo : ∀ (w : List Nat) (m : Machine σ), turns o L fuel T w (.start s q) = some m → Finished T m → ∀ t, ∃ p,
      turns o L fuel T (List.replicate (w.count t) t) (.start s q) = some p ∧ SameFor own uses t m p ∧
      ∀ n, w.count t ≤ n → turns o L fuel T (List.replicate n t) (.start s q) = some p := by
    intro w m h hf t
    obtain ⟨p, h1, h2⟩ := (as_if_alone hr o L fuel s q w).2 m h t
    refine ⟨p, h1, h2, fun n hn => ?_⟩
    obtain ⟨k, rfl⟩ := Nat.exists_eq_add_of_le hn
    rw [← List.replicate_append_replicate, turns_append, h1]
    refine turns_idle o L fuel (h2.idle (hf t).1) ?_ k
    rw [← h2.loc, ← (hr.obeys t).view _ _ _ h2.store]
    exact (hf t).2
  have both : ∀ t, ∃ p, SameFor own uses t m p ∧ SameFor own uses t m' p := by
    intro t
    obtain ⟨p, _, h2, h3⟩ := solo w m h hf t
    obtain ⟨p', _, h2', h3'⟩ := solo w' m' h' hf' t
    have := (h3 (w.count t + w'.count t) (by omega)).symm.trans (h3' _ (by omega))
    cases this
    exact ⟨p, h2, h2'⟩
  constructor
  · funext i
    by_cases hi : ∃ t, own t i
    · obtain ⟨t, ht⟩ := hi
      obtain ⟨p, h1, h2⟩ := both t
      have := (hr.obeys t).sub i ht
      rw [h1.store i this, h2.store i this]
    · have hi' : ∀ t, ¬ own t i := fun t ht => hi ⟨t, ht⟩
      rw [turns_untouched hr o L fuel hi' w _ m (fun _ _ _ _ hb => by cases hb) h, turns_untouched hr o L fuel hi' w' _ m' (fun _ _ _ _ hb => by cases hb) h']
  · funext t
    obtain ⟨p, h1, h2⟩ := both t
    rw [h1.loc, h2.loc]

/-- Thread 0 doubles x0, thread 1 doubles x1. -/
example (o : FloatOps F) {m m' : Machine Nat} :=
  C118_same_end (T := fun t => ⟨fun (q : Nat) _ => if q < 1 ∧ t < 2 then some (releaseEnv, .arith .add t t, q + 1) else none⟩)
  (own := fun t i => t < 2 ∧ i = t) (uses := fun t i => t < 2 ∧ i = t)
  ⟨fun t => ⟨fun i h => h, fun _ _ _ _ => rfl, fun q s env op q' h => by
      simp only [Option.ite_none_right_eq_some, Option.some.injEq, Prod.mk.injEq] at h
      obtain ⟨⟨-, ht⟩, -, rfl, -⟩ := h
      simp [Op.operands, ht], fun q s env op q' h => by
      simp only [Option.ite_none_right_eq_some, Option.some.injEq, Prod.mk.injEq] at h
      obtain ⟨⟨-, ht⟩, -, rfl, -⟩ := h
      simp [Op.targets, ht]⟩, fun t u i h h' h'' => by omega⟩ o .base10 100 (s := fun _ => Sample.n23) (q := fun _ => 0)
  (w := [0, 1, 1, 0]) (w' := [1, 0, 1, 0]) (m := m) (m' := m')

/-- Threads without branches. -/
theorem listed_turns (o : FloatOps F) (L : Limits) (fuel : Nat) {T : Nat → Thread Nat} {t : Nat} {env : Nat → Env} {ops : List Op} (hT : T t = listed env ops) :
    ∀ (l : List Op) (k : Nat) (s : Store) (q : Nat → Nat), q t = k → ops.drop k = l →
    (turns o L fuel T (List.replicate (2 * l.length) t) (.start s q)).map (fun m => m.store) = run o L fuel (fun j => env (k + j)) s l
  | [], k, s, q, hq, _ => by simp [turns, run, Machine.start]
  | op :: l, k, s, q, hq, hd => by
    have hk : ops[k]? = some op := by
      have := List.getElem?_drop (xs := ops) (i := k) (j := 0)
      rw [hd] at this
      simpa using this.symm
    have hd' : ops.drop (k + 1) = l := by
      rw [← List.drop_drop, hd]; rfl
    rw [List.length_cons, show 2 * (l.length + 1) = 2 * l.length + 1 + 1 by omega, List.replicate_succ, List.replicate_succ]
    simp only [turns, run, Nat.add_zero]
    have h1 : turn o L fuel T t (.start s q) =
        (op.step o L (env k) fuel s).map fun s1 => ⟨s, q, putAt (fun _ => none) t (some (op, s1, k + 1))⟩ := by
      unfold turn
      simp [Machine.start, hT, listed, hq, hk]
    rw [h1]
    cases hs : op.step o L (env k) fuel s with
    | none => rfl
    | some s1 =>
      simp only [Option.map_some, Option.bind_some]
      have h2 : turn o L fuel T t (⟨s, q, putAt (fun _ => none) t (some (op, s1, k + 1))⟩ : Machine Nat) =
          some (.start s1 (putAt q t (k + 1))) := by
        unfold turn
        simp only [putAt, if_true, Machine.start, Option.some.injEq, Machine.mk.injEq, true_and]
        constructor
        · funext i
          split
          · rfl
          · rename_i hi; exact (step_frame o L (env k) fuel hs hi).symm
        · funext u; unfold putAt; split <;> simp_all
      rw [h2, Option.bind_some, listed_turns o L fuel hT l (k + 1) s1 (putAt q t (k + 1)) (by simp [putAt]) hd']
      congr 1
      funext j
      congr 1
      omega

/-- Threads that are lists of statements, `P t` in environments `E t`. Every schedule that gives each thread two turns for each of its statements
(one to begin, one to end) leaves in the objects of a thread what its statements compute one after the other without the other threads. -/
theorem C118_sequential {E : Nat → Nat → Env} {P : Nat → List Op} {own uses : Nat → Nat → Prop} (hsub : ∀ t i, own t i → uses t i)
    (hP : ∀ t, ∀ op ∈ P t, (∀ i ∈ op.operands, uses t i) ∧ ∀ i ∈ op.targets, own t i) (hr : ∀ t u i, t ≠ u → own t i → ¬ uses u i)
    (o : FloatOps F) (L : Limits) (fuel : Nat) {s : Store} {w : List Nat} (hw : ∀ t, w.count t = 2 * (P t).length) :
    ((∃ t, run o L fuel (E t) s (P t) = none) → turns o L fuel (fun t => listed (E t) (P t)) w (.start s fun _ => 0) = none) ∧
    ((∀ t, run o L fuel (E t) s (P t) ≠ none) → ∃ m, turns o L fuel (fun t => listed (E t) (P t)) w (.start s fun _ => 0) = some m ∧
      ∀ t s', run o L fuel (E t) s (P t) = some s' → ∀ i, uses t i → m.store i = s' i) := by
  have hobey : ∀ t, ∀ q s env op q', (listed (E t) (P t)).next q s = some (env, op, q') → op ∈ P t := by
    intro t q s env op q' h
    simp only [listed, Option.map_eq_some_iff, Prod.mk.injEq] at h
    obtain ⟨a, h1, -, rfl, -⟩ := h
    exact List.mem_of_getElem? h1
  have hrf : RaceFree (fun t => listed (E t) (P t)) own uses :=
    ⟨fun t => ⟨hsub t, fun _ _ _ _ => rfl, fun q s env op q' h => (hP t op (hobey t q s env op q' h)).1, fun q s env op q' h => (hP t op (hobey t q s env op q' h)).2⟩, hr⟩
  have hal := C118_as_if_alone hrf o L fuel s (fun _ => 0) w
  have hsolo : ∀ t, (turns o L fuel (fun t => listed (E t) (P t)) (List.replicate (w.count t) t) (.start s fun _ => 0)).map (fun m => m.store) =
      run o L fuel (E t) s (P t) := by
    intro t
    rw [hw t]
    have := listed_turns o L fuel (T := fun t => listed (E t) (P t)) (t := t) rfl (P t) 0 s (fun _ => 0) rfl rfl
    simpa using this
  constructor
  · rintro ⟨t, ht⟩
    cases hm : turns o L fuel (fun t => listed (E t) (P t)) w (.start s fun _ => 0) with
    | none => rfl
    | some m =>
      obtain ⟨m', h1, -⟩ := hal.2 m hm t
      have := hsolo t
      rw [h1, ht] at this
      cases this
  · intro hall
    cases hm : turns o L fuel (fun t => listed (E t) (P t)) w (.start s fun _ => 0) with
    | none =>
      obtain ⟨t, ht⟩ := hal.1 hm
      have := hsolo t
      rw [ht] at this
      exact absurd this.symm (hall t)
    | some m =>
      refine ⟨m, rfl, fun t s' hs' i hi => ?_⟩
      obtain ⟨m', h1, -, h2⟩ := hal.2 m hm t
      have := hsolo t
      rw [h1, hs'] at this
      cases this
      exact h2 i hi

/-- Thread 0 doubles x0, thread 1 adds x2 to x1. -/
example (o : FloatOps F) := C118_sequential (E := fun _ _ => releaseEnv)
  (P := fun t => if t = 0 then [.arith .add 0 0] else if t = 1 then [.arith .add 1 2] else [])
  (own := fun t i => t < 2 ∧ i = t) (uses := fun t i => t < 2 ∧ (i = t ∨ t = 1 ∧ i = 2)) (fun _ _ h => ⟨h.1, .inl h.2⟩)
  (fun t op h => by
    split at h
    · simp at h; subst h; simp [Op.operands, Op.targets, *]
    · split at h
      · simp at h; subst h; simp [Op.operands, Op.targets, *]
      · cases h)
  (fun t u i h h' h'' => by omega) o .base10 100 (s := fun _ => Sample.n23) (w := [0, 1, 1, 0]) (fun t => by
    rcases t with _ | _ | t <;> simp)

/-- x0 = 5 and x1 = 1 to base 10. -/
def fiveOne : Store := fun i => if i = 0 then ⟨.pos, [5]⟩ else ⟨.pos, [1]⟩

/-- Without the hypothesis the claim fails: of two threads that both execute `x0 += x1` one addition is lost when the statements overlap. -/
theorem C118_race (o : FloatOps F) :
    let T : Nat → Thread Nat := fun _ => listed (fun _ => releaseEnv) [.arith .add 0 1]
    (turns o .base10 100 T [0, 0, 1, 1] (.start fiveOne fun _ => 0)).map (fun m => m.store 0) = some ⟨.pos, [7]⟩ ∧
    (turns o .base10 100 T [0, 1, 0, 1] (.start fiveOne fun _ => 0)).map (fun m => m.store 0) = some ⟨.pos, [6]⟩ := ⟨rfl, rfl⟩

/-- Two threads that share x2 and x3 for reading: `x0 = x2 + x3` and `x1 = x2 + x2; x1 += x3`. -/
example (o : FloatOps F) :
    let s : Store := fun i => if i = 2 then ⟨.pos, [4, 2]⟩ else ⟨.pos, [9]⟩
    let P : Nat → List Op := fun t => if t = 0 then [.binary .add 0 2 3] else if t = 1 then [.binary .add 1 2 2, .arith .add 1 3] else []
    let own : Nat → Nat → Prop := fun t i => t ≤ 1 ∧ i = t
    let uses : Nat → Nat → Prop := fun t i => t ≤ 1 ∧ (i = t ∨ i = 2 ∨ i = 3)
    (∀ t i, own t i → uses t i) ∧ (∀ t, ∀ op ∈ P t, (∀ i ∈ op.operands, uses t i) ∧ ∀ i ∈ op.targets, own t i) ∧
    (∀ t u i, t ≠ u → own t i → ¬ uses u i) ∧ (∀ t, [0, 1, 1, 0, 1, 1].count t = 2 * (P t).length) ∧
    (turns o .base10 100 (fun t => listed (fun _ => releaseEnv) (P t)) [0, 1, 1, 0, 1, 1] (.start s fun _ => 0)).map (fun m => (m.store 0, m.store 1)) =
      some (⟨.pos, [3, 3]⟩, ⟨.pos, [7, 5]⟩) := by
  refine ⟨fun t i h => ⟨h.1, .inl h.2⟩, fun t op h => ?_, fun t u i hn h h' => ?_, fun t => ?_, rfl⟩
  · by_cases h0 : t = 0
    · subst h0; simp at h; subst h; simp [Op.operands, Op.targets]
    · by_cases h1 : t = 1
      · subst h1; simp at h; rcases h with rfl | rfl <;> simp [Op.operands, Op.targets]
      · simp [h0, h1] at h
  · obtain ⟨a, rfl⟩ := h
    obtain ⟨b, c | c | c⟩ := h' <;> omega
  · by_cases h0 : t = 0
    · subst h0; rfl
    · by_cases h1 : t = 1
      · subst h1; rfl
      · simp [h0, h1, Ne.symm h0, Ne.symm h1]

end BN
