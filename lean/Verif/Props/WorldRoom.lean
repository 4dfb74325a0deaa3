import Verif.Lemmas.WorldRoom
import Mathlib.Data.Nat.Fib.Basic
/-
C158: how many bytes are enough for programs over integers of bounded length, however long they run.
-/
namespace BN
open Bignum

/-- A run of an integer program in which every variable always has at most `D` digits. -/
inductive SmallRun (B K D : Nat) : Vars → List Op → Vars → Prop
  | done {v : Vars} (hv : ∀ i, (v i).natAbs < B ^ D) : SmallRun B K D v [] v
  | step {v v' v'' : Vars} {op : Op} {ops : List Op} (hv : ∀ i, (v i).natAbs < B ^ D) (h : IntStep B K v op v') (t : SmallRun B K D v' ops v'') :
    SmallRun B K D v (op :: ops) v''

theorem SmallRun.start {B K D : Nat} {v v' : Vars} {ops : List Op} (h : SmallRun B K D v ops v') (i : Nat) : (v i).natAbs < B ^ D := by
  cases h with
  | done hv => exact hv i
  | step hv _ _ => exact hv i

theorem SmallRun.append {B K D : Nat} {v v' v'' : Vars} {a b : List Op} (h : SmallRun B K D v a v') (h' : SmallRun B K D v' b v'') :
    SmallRun B K D v (a ++ b) v'' := by
  induction h with
  | done _ => exact h'
  | step hv hs _ ih => exact .step hv hs (ih h')

section
variable (c : Computer) {F : Type} {o : FloatOps F} {L : Limits}

/-- A program with `N` variables of at most `D` digits: if no vector of up to `D` digits is given room for more than `C`, then `N + 7` vectors
of `C` digits and `16 * D` complex numbers are all the memory that the program needs, whatever its length. -/
theorem C158_memory (hL : Custom L) {K : Nat} (hK : 1 ≤ K) (hmul : MulExact o L K) {D C N : Nat} (hD : 1 ≤ D) (hD32 : D ≤ 2 ^ 31)
    (hgrow : ∀ m, m ≤ D → c.grow m ≤ C) (hfit : ∀ m, m ≤ D → c.fit 0 m ≤ C) (hC : 4 * D ≤ C) (hcell : c.digit ≤ 2 * c.cell)
    {ops : List Op} {v v' : Vars} (hr : SmallRun L.base K D v ops v') : (∀ op ∈ ops, ∀ i ∈ op.names, i < N) →
    ∀ {s : Store}, Holds L s v → ∃ n₀, ∀ n ≥ n₀, ∀ w : World, w.store = s → (∀ i, (w.store i).size ≤ w.cap i) → (∀ i, w.cap i ≤ C) →
      c.digit * ((N + 7) * C) + c.cell * (16 * D) ≤ w.free + c.digit * ∑ i ∈ Finset.range N, w.cap i →
      ∃ w', runV c o L false n w ops = some w' ∧ Holds L w'.store v' := by
  induction hr with
  | done hv => exact fun _ s hs => ⟨0, fun n _ w hw _ _ _ => ⟨w, rfl, hw ▸ hs⟩⟩
  | @step v v1 v2 op ops hv hst t ih =>
    intro hN s hs
    obtain ⟨s', ⟨n₁, h1⟩, hs'⟩ := int_step hL hK hmul (env := freely false) (fun _ => rfl) rfl hs hst
    obtain ⟨n₂, h2⟩ := ih (fun p hp => hN p (by simp [hp])) hs'
    refine ⟨max 33 (max n₁ n₂), fun n hn w hw hF hc hb => ?_⟩
    subst hw
    have hsum : ∑ i ∈ Finset.range N, w.cap i ≤ N * C := by
      have := Finset.sum_le_sum (s := Finset.range N) fun i _ => hc i
      simpa using this
    have hroom : w.Roomy c D C := ⟨hc, by
      have e : c.digit * ((N + 7) * C) = c.digit * (N * C) + c.digit * (7 * C) := by ring
      have := Nat.mul_le_mul_left c.digit hsum
      omega⟩
    obtain ⟨w1, e1, e2, e3⟩ := room_step (o := o) (n := n) ⟨hgrow, hC, by omega, hcell⟩ hfit hL hD hs hst hv t.start (by omega) (h1 n (by omega)) hs' hroom
    have spec := stepV_spec (c := c) o L false n hF op
    have e4 : w1.free + c.digit * ∑ i ∈ Finset.range N, w1.cap i = w.free + c.digit * ∑ i ∈ Finset.range N, w.cap i :=
      spec.2.2 w1 N e1 (hN op (by simp))
    obtain ⟨w', e5, e6⟩ := h2 n (by omega) w1 e2 (spec.2.1 w1 e1) e3 (by rw [e4]; exact hb)
    exact ⟨w', by rw [runV, e1]; exact e5, e6⟩

/-- On a common machine, with digits of eight bytes: `32 * D * (N + 15)` bytes, what the numbers hold at the beginning included. -/
theorem C158_usual (hL : Custom L) {K : Nat} (hK : 1 ≤ K) (hmul : MulExact o L K) {D N : Nat} (hD : 1 ≤ D) (hD32 : D ≤ 2 ^ 31)
    {ops : List Op} {v v' : Vars} (hr : SmallRun L.base K D v ops v') (hN : ∀ op ∈ ops, ∀ i ∈ op.names, i < N) {s : Store} (hs : Holds L s v) :
    ∃ n₀, ∀ n ≥ n₀, ∀ cap free, (∀ i, (s i).size ≤ cap i) → (∀ i, cap i ≤ 4 * D) → 32 * D * (N + 15) ≤ free + 8 * ∑ i ∈ Finset.range N, cap i →
      ∃ w', runV (usualMachine 8 16) o L false n ⟨s, cap, free⟩ ops = some w' ∧ Holds L w'.store v' := by
  obtain ⟨n₀, h⟩ := C158_memory (usualMachine 8 16) hL hK hmul hD hD32 (C := 4 * D) (N := N)
    (fun m hm => by simp only [usualMachine, usualPlant]; split <;> omega) (fun m hm => by simp only [usualMachine]; omega) le_rfl
    (by simp [usualMachine, usualPlant]) hr hN hs
  refine ⟨n₀, fun n hn cap free h1 h2 h3 => h n hn ⟨s, cap, free⟩ rfl h1 h2 ?_⟩
  simp only [usualMachine, usualPlant]
  refine le_trans (le_of_eq ?_) h3
  ring

/-! ### A program of any length -/

/-- `n` times `c = a + b; a = std::move(b); b = std::move(c);` -/
def fibTurns : Nat → List Op
  | 0 => []
  | n + 1 => fibTurns n ++ [.binary .add 2 0 1, .move 0 1, .move 1 2]

/-- `a = 0, b = 1` and the loop. -/
def fibProgram (n : Nat) : List Op := .make 0 .pos [] :: .make 1 .pos [1] :: fibTurns n

/-- The three variables. -/
def fibVars (a b x : Nat) : Vars := fun i => if i = 0 then a else if i = 1 then b else if i = 2 then x else 0

theorem fibVars_lt {B a b x : Nat} (ha : a < B) (hb : b < B) (hx : x < B) (i : Nat) : (fibVars a b x i).natAbs < B := by
  unfold fibVars
  split
  · simpa using ha
  · split
    · simpa using hb
    · split
      · simpa using hx
      · simp; omega

theorem fibVars_eq {a b x : Nat} {v : Vars} (h0 : v 0 = a) (h1 : v 1 = b) (h2 : v 2 = x) (h3 : ∀ i, 2 < i → v i = 0) : v = fibVars a b x := by
  funext i
  unfold fibVars
  split
  · next e => rw [e, h0]
  · split
    · next e => rw [e, h1]
    · split
      · next e => rw [e, h2]
      · exact h3 i (by omega)

theorem fibTurns_run {B D : Nat} (K : Nat) : ∀ n, Nat.fib (n + 1) < B ^ D → SmallRun B K D (fibVars 0 1 0) (fibTurns n) (fibVars (Nat.fib n) (Nat.fib (n + 1)) 0)
  | 0, h => .done (fibVars_lt (by omega) h (by omega))
  | n + 1, h => by
    have h1 : Nat.fib (n + 1) < B ^ D := lt_of_le_of_lt (Nat.fib_mono (by omega)) h
    have h0 : Nat.fib n < B ^ D := lt_of_le_of_lt (Nat.fib_mono (by omega)) h1
    have hf : Nat.fib (n + 1 + 1) = Nat.fib n + Nat.fib (n + 1) := Nat.fib_add_two
    have hp : 0 < Nat.fib (n + 1) := Nat.fib_pos.2 (by omega)
    have hz : 0 < B ^ D := by omega
    refine (fibTurns_run K n h1).append ?_
    have e1 : (fibVars (Nat.fib n) (Nat.fib (n + 1)) 0).set 2 (Arith.add.int (fibVars (Nat.fib n) (Nat.fib (n + 1)) 0 0)
        (fibVars (Nat.fib n) (Nat.fib (n + 1)) 0 1)) = fibVars (Nat.fib n) (Nat.fib (n + 1)) (Nat.fib (n + 1 + 1)) := by
      refine fibVars_eq rfl rfl ?_ fun i hi => ?_
      · rw [hf]; simp [Vars.set, Arith.int, fibVars]
      · simp only [Vars.set, fibVars]; split_ifs <;> omega
    have e2 : ∀ a b x : Nat, ((fibVars a b x).set 0 (fibVars a b x 1)).set 1 0 = fibVars b 0 x := fun a b x => by
      refine fibVars_eq rfl rfl rfl fun i hi => ?_
      simp only [Vars.set, fibVars]; split_ifs <;> omega
    have e3 : ∀ a b x : Nat, ((fibVars a b x).set 1 (fibVars a b x 2)).set 2 0 = fibVars a x 0 := fun a b x => by
      refine fibVars_eq rfl rfl rfl fun i hi => ?_
      simp only [Vars.set, fibVars]; split_ifs <;> omega
    refine .step (fibVars_lt h0 h1 hz) (.binary .add 2 0 1 ?_) ?_
    · show ¬ (((Nat.fib n : Nat) : Int) = 0 ∧ ((Nat.fib (n + 1) : Nat) : Int) = 0)
      omega
    rw [e1]
    refine .step (fibVars_lt h0 h1 h) (.move 0 1 (by decide)) ?_
    rw [e2]
    refine .step (fibVars_lt h1 hz h) (.move 1 2 (by decide)) ?_
    rw [e3]
    exact .done (fibVars_lt h1 h hz)

theorem fibTurns_names : ∀ n, ∀ op ∈ fibTurns n, ∀ i ∈ op.names, i < 3
  | 0 => by simp [fibTurns]
  | n + 1 => by
    intro op h
    rw [fibTurns, List.mem_append] at h
    rcases h with h | h
    · exact fibTurns_names n op h
    · simp only [List.mem_cons, List.not_mem_nil, or_false] at h
      rcases h with rfl | rfl | rfl <;> simp [Op.names]

/-- Fibonacci numbers of at most `D` digits in `576 * D` bytes: three numbers without digits at first, and as many additions as it takes. -/
theorem C158_fibonacci (hL : Custom L) {K : Nat} (hK : 1 ≤ K) (hmul : MulExact o L K) {D : Nat} (hD : 1 ≤ D) (hD32 : D ≤ 2 ^ 31) (m : Nat)
    (hm : Nat.fib (m + 1) < L.base ^ D) : ∃ n₀, ∀ n ≥ n₀, ∃ w',
      runV (usualMachine 8 16) o L false n ⟨fun _ => Bignum.default, fun _ => 0, 576 * D⟩ (fibProgram m) = some w' ∧
      WF L (w'.store 0) ∧ (w'.store 0).toInt L = Nat.fib m := by
  have hB := hL.supported.base_ge
  have hz : 1 < L.base ^ D := Nat.one_lt_pow (by omega) (by omega)
  have hrun : SmallRun L.base K D (fibVars 0 0 0) (fibProgram m) (fibVars (Nat.fib m) (Nat.fib (m + 1)) 0) := by
    refine .step (fibVars_lt (by omega) (by omega) (by omega)) (.makePos 0 [] (by simp [InRange])) ?_
    have e1 : (fibVars 0 0 0).set 0 (([] : List Nat).foldl (fun acc d => acc * L.base + d) 0 : Nat) = fibVars 0 0 0 := by
      refine fibVars_eq rfl rfl rfl fun i hi => ?_
      simp only [Vars.set, fibVars]; split_ifs <;> simp
    rw [e1]
    refine .step (fibVars_lt (by omega) (by omega) (by omega)) (.makePos 1 [1] (by simp [InRange]; omega)) ?_
    have e2 : (fibVars 0 0 0).set 1 (([1] : List Nat).foldl (fun acc d => acc * L.base + d) 0 : Nat) = fibVars 0 1 0 := by
      refine fibVars_eq rfl (by simp [Vars.set]) rfl fun i hi => ?_
      simp only [Vars.set, fibVars]; split_ifs <;> omega
    rw [e2]
    exact fibTurns_run K m hm
  have hs0 : Holds L (fun _ => Bignum.default) (fibVars 0 0 0) := fun i => ⟨(wf_default L).1, by
    rw [(wf_default L).2]; simp [fibVars]⟩
  obtain ⟨n₀, h⟩ := C158_usual hL hK hmul hD hD32 (N := 3) hrun (fun op hop => by
    unfold fibProgram at hop
    simp only [List.mem_cons] at hop
    rcases hop with rfl | rfl | hop
    · simp [Op.names]
    · simp [Op.names]
    · exact fibTurns_names m op hop) hs0
  refine ⟨n₀, fun n hn => ?_⟩
  obtain ⟨w', h1, h2⟩ := h n hn (fun _ => 0) (576 * D) (fun _ => le_rfl) (fun _ => Nat.zero_le _) (by simp only [Finset.sum_const_zero]; omega)
  exact ⟨w', h1, (h2 0).1, (h2 0).2⟩

end

example {F : Type} {o : FloatOps F} (M : Ieee o) := C158_memory (usualMachine 8 16) custom_base10 Nat.one_le_two_pow (mulExact_base10 M) (D := 3) (C := 12) (N := 1)
  (by decide) (by decide) (fun m hm => by simp only [usualMachine, usualPlant]; split <;> omega) (fun m hm => by simp only [usualMachine]; omega) (by decide) (by decide)
  (ops := [.make 0 .neg [1, 2], .arith .mul 0 0])
  (.step (fun _ => by decide) (.makeNeg 0 [1, 2] (by sample)) (.step (fun i => by by_cases h : i = 0 <;> simp [Vars.set, h] <;> decide) (.arith .mul 0 0 ⟨by decide,
    lt_of_lt_of_le (by decide : _ < 10 ^ 2) (Nat.pow_le_pow_right (by norm_num) (by norm_num)),
    lt_of_lt_of_le (by decide : _ < 10 ^ 2) (Nat.pow_le_pow_right (by norm_num) (by norm_num))⟩)
    (.done fun i => by by_cases h : i = 0 <;> simp [Vars.set, h] <;> decide)))
  (by simp [Op.names])
  (s := fun _ => Bignum.default) (fun _ => wf_default _)

example {F : Type} {o : FloatOps F} (M : Ieee o) := C158_usual custom_base10 Nat.one_le_two_pow (mulExact_base10 M) (D := 2) (N := 3) (by decide) (by decide)
  (fibTurns_run _ 10 (by decide)) (fibTurns_names 10) (s := fun i => if i = 1 then ⟨.pos, [1]⟩ else Bignum.default) (fun i => by
    by_cases h : i = 1
    · subst h; exact ⟨by sample, by decide⟩
    · simp only [h, if_false]
      refine ⟨(wf_default _).1, (wf_default _).2.trans ?_⟩
      simp [fibVars, h])

theorem fib_pair_le : ∀ n, Nat.fib n ≤ 2 ^ n ∧ Nat.fib (n + 1) ≤ 2 ^ n
  | 0 => by decide
  | n + 1 => by
    obtain ⟨h1, h2⟩ := fib_pair_le n
    have h3 : Nat.fib (n + 1 + 1) = Nat.fib n + Nat.fib (n + 1) := Nat.fib_add_two
    have h4 : 2 ^ (n + 1) = 2 * 2 ^ n := by ring
    omega

/-- The millionth Fibonacci number in 576 MiB. -/
example {F : Type} {o : FloatOps F} (M : Ieee o) :=
  C158_fibonacci custom_base10 Nat.one_le_two_pow (mulExact_base10 M) (D := 2 ^ 20) (by norm_num) (by norm_num) 1000000
    (lt_of_le_of_lt (fib_pair_le 1000000).2 (lt_of_le_of_lt (Nat.pow_le_pow_left (by decide : 2 ≤ 10) _) (Nat.pow_lt_pow_right (by norm_num) (by norm_num))))

end BN
