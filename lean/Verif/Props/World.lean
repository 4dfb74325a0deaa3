import Verif.Lemmas.WorldAmple
import Verif.Props.Simulation
import Verif.Props.History
/-
C157: whole programs on a machine with so many bytes.
-/
namespace BN
open Bignum

section
variable (c : Computer) {F : Type} (o : FloatOps F) (L : Limits) (dbg : Bool) (n : Nat)

/-- The common machine: `resize` doubles as `push_back` does, if that is enough. -/
def usualMachine (digit cell : Nat) : Computer where
  toPlant := usualPlant digit cell
  fit len n := max (2 * len) n
  fit_ge _ _ := le_max_right _ _

/-- Two numbers without a digit to spare, and 100 free bytes. -/
def exampleWorld : World where
  store i := if i = 0 then Sample.n199 else Sample.m23
  cap i := if i = 0 then 3 else 2
  free := 100

theorem exampleWorld_fits : exampleWorld.Fits := fun i => by
  by_cases h : i = 0 <;> simp [exampleWorld, h, Sample.n199, Sample.m23, Bignum.size]

/-- The storage of a number always holds its digits, also after exceptions. -/
theorem C157_capacity : ∀ (ops : List Op) {w w' : World}, (∀ i, (w.store i).size ≤ w.cap i) → runV c o L dbg n w ops = some w' →
    ∀ i, (w'.store i).size ≤ w'.cap i
  | [], w, w', hw, he => by cases he; exact hw
  | op :: ops, w, w', hw, he => by
    unfold runV at he
    have h1 := (stepV_spec (c := c) o L dbg n hw op).2.1
    cases hs : op.stepV c o L dbg n w with
    | none => rw [hs] at he; cases he
    | some w1 =>
      rw [hs] at he
      exact C157_capacity ops (h1 w1 hs) he

example {F : Type} (o : FloatOps F) {w' : World} (h : runV (usualMachine 8 16) o .base10 false 9 exampleWorld [.arith .add 0 1, .move 2 0] = some w') :
    (w'.store 0).size ≤ w'.cap 0 := C157_capacity _ o _ _ _ _ exampleWorld_fits h 0

/-- No byte is lost: what is free and what the numbers hold is together always the same, whatever throws. -/
theorem C157_conserved {N : Nat} : ∀ (ops : List Op) {w w' : World}, (∀ i, (w.store i).size ≤ w.cap i) → (∀ op ∈ ops, ∀ i ∈ op.names, i < N) →
    runV c o L dbg n w ops = some w' →
    w'.free + c.digit * ∑ i ∈ Finset.range N, w'.cap i = w.free + c.digit * ∑ i ∈ Finset.range N, w.cap i
  | [], w, w', _, _, he => by cases he; rfl
  | op :: ops, w, w', hw, hN, he => by
    unfold runV at he
    have h1 := stepV_spec (c := c) o L dbg n hw op
    cases hs : op.stepV c o L dbg n w with
    | none => rw [hs] at he; cases he
    | some w1 =>
      rw [hs] at he
      exact (C157_conserved ops (h1.2.1 w1 hs) (fun p hp => hN p (by simp [hp])) he).trans (h1.2.2 w1 N hs (hN op (by simp)))

example {F : Type} (o : FloatOps F) {w' : World} (h : runV (usualMachine 8 16) o .base10 false 9 exampleWorld [.arith .add 0 1, .move 2 0] = some w') :
    w'.free + 8 * ∑ i ∈ Finset.range 3, w'.cap i = 100 + 8 * (3 + 2 + 2) :=
  C157_conserved _ o _ _ _ _ exampleWorld_fits (by simp [Op.names]) h

/-- Every run on such a machine is a run of Model/Program in which each statement finds an allocator that grants everything or one that
refuses everything. So whatever holds for all allocators holds on every machine. -/
theorem C157_programs : ∀ (ops : List Op) {w : World}, (∀ i, (w.store i).size ≤ w.cap i) → ∃ env : Nat → Env,
    (∀ k, env k = ⟨fun _ => true, dbg⟩ ∨ env k = ⟨fun _ => false, dbg⟩) ∧ (runV c o L dbg n w ops).map World.store = run o L n env w.store ops
  | [], w, _ => ⟨fun _ => ⟨fun _ => true, dbg⟩, fun _ => .inl rfl, rfl⟩
  | op :: ops, w, hw => by
    obtain ⟨⟨E, hE, h1⟩, h2, -⟩ := stepV_spec (c := c) o L dbg n hw op
    unfold runV
    simp only [run]
    cases hs : op.stepV c o L dbg n w with
    | none =>
      rw [hs] at h1
      refine ⟨fun _ => E, fun _ => hE, ?_⟩
      beta_reduce at h1 ⊢
      rw [← h1]
      rfl
    | some w1 =>
      rw [hs] at h1
      obtain ⟨env, he, h3⟩ := C157_programs ops (h2 w1 hs)
      refine ⟨fun k => if k = 0 then E else env (k - 1), fun k => ?_, ?_⟩
      · by_cases hk : k = 0
        · simp only [hk, if_true]; exact hE
        · simp only [hk, if_false]; exact he _
      · simp only [if_true, ← h1]
        simpa using h3

example {F : Type} (o : FloatOps F) := C157_programs (usualMachine 8 16) o .base10 false 9 [.arith .add 0 1, .move 2 0] exampleWorld_fits

/-- For instance: on every machine a program of whole operations leaves canonical numbers. -/
theorem C157_well_formed {L : Limits} (hL : Supported L) {ops : List Op} {w w' : World} (hw : ∀ i, (w.store i).size ≤ w.cap i)
    (hs : ∀ i, WFDigits L.base (w.store i).digits) (hops : ∀ op ∈ ops, op.Whole ∧ op.DigitsBelow L.base)
    (he : runV c o L dbg n w ops = some w') (i : Nat) :
    WFDigits L.base (w'.store i).digits ∧ (Signed (w'.store i).desc → WF L (w'.store i)) := by
  obtain ⟨env, -, h⟩ := C157_programs c o L dbg n ops hw
  rw [he] at h
  exact C59_well_formed o hL n ops env _ _ hs hops h.symm i

example {F : Type} (o : FloatOps F) {w' : World} (h : runV (usualMachine 8 16) o .base10 true 9 exampleWorld [.arith .mul 0 1, .binary .sub 1 1 0] = some w')
    (i : Nat) := C157_well_formed (usualMachine 8 16) o true 9 custom_base10.supported (w := exampleWorld) exampleWorld_fits
    (fun i => by by_cases hi : i = 0 <;> simp only [exampleWorld, hi, if_true, if_false] <;> sample)
    (by simp [Op.Whole, Op.DigitsBelow]) h i

/-- From some amount of memory on a program does what it does with an allocator that grants everything. -/
theorem C157_enough (ops : List Op) (s : Store) (cap : Nat → Nat) : ∃ T, ∀ free, T ≤ free →
    (runV c o L dbg n ⟨s, cap, free⟩ ops).map World.store = run o L n (fun _ => ⟨fun _ => true, dbg⟩) s ops := by
  obtain ⟨T, cap', h⟩ := runV_enough (c := c) o L dbg n ops s cap
  refine ⟨T, fun f hf => ?_⟩
  obtain ⟨f', -, e⟩ := h f hf
  beta_reduce at e
  rw [e, Option.map_map]
  show _ = run o L n (fun _ => freely dbg) s ops
  cases run o L n (fun _ => freely dbg) s ops <;> rfl

/-- Nine plus five with one digit of storage: 16 bytes are needed for the carry, 15 are too few. -/
example {F : Type} (o : FloatOps F) :
    let nines : Nat → World := fun f => ⟨fun i => ⟨.pos, [if i = 0 then 9 else 5]⟩, fun _ => 1, f⟩
    ((runV (usualMachine 8 16) o .base10 false 9 (nines 16) [.arith .add 0 1]).map fun w => (w.store 0, w.cap 0, w.free)) = some (⟨.pos, [4, 1]⟩, 2, 8) ∧
    ((runV (usualMachine 8 16) o .base10 false 9 (nines 15) [.arith .add 0 1]).map fun w => (w.store 0, w.cap 0, w.free)) = some (⟨.posInf, []⟩, 1, 15) := by
  refine ⟨?_, ?_⟩
  · show (some ((Bignum.mk .pos [4, 1]), 2, 8) : Option (Bignum × Nat × Nat)) = _
    rfl
  · rfl

/-- So a program that is meant to compute with integers does, on every machine with enough memory. -/
theorem C157_integers {o : FloatOps F} {L : Limits} (hL : Custom L) {K : Nat} (hK : 1 ≤ K) (hmul : MulExact o L K)
    {ops : List Op} {v v' : Vars} (hr : IntRun L.base K v ops v') {s : Store} (hs : Holds L s v) (cap : Nat → Nat) :
    ∃ n₀, ∀ n ≥ n₀, ∃ T, ∀ free, T ≤ free → ∃ w', runV c o L false n ⟨s, cap, free⟩ ops = some w' ∧ Holds L w'.store v' := by
  obtain ⟨s', ⟨n₀, h⟩, hs'⟩ := C64_programs hL hK hmul hr (fun _ => ⟨fun _ => true, false⟩) (fun _ => ⟨fun _ => rfl, rfl⟩) s hs
  refine ⟨n₀, fun n hn => ?_⟩
  obtain ⟨T, hT⟩ := C157_enough c o L false n ops s cap
  refine ⟨T, fun f hf => ?_⟩
  have := hT f hf
  rw [show run o L n _ s ops = some s' from h n hn] at this
  obtain ⟨w', h1, h2⟩ := Option.map_eq_some_iff.1 this
  exact ⟨w', h1, h2 ▸ hs'⟩

example {F : Type} {o : FloatOps F} (M : Ieee o) := C157_integers (usualMachine 8 16) custom_base10 Nat.one_le_two_pow (mulExact_base10 M)
  (ops := [.make 0 .neg [1, 2], .arith .mul 0 0])
  (.step (.makeNeg 0 [1, 2] (by sample)) (.step (.arith .mul 0 0 ⟨by decide,
    lt_of_lt_of_le (by decide : _ < 10 ^ 2) (Nat.pow_le_pow_right (by norm_num) (by norm_num)),
    lt_of_lt_of_le (by decide : _ < 10 ^ 2) (Nat.pow_le_pow_right (by norm_num) (by norm_num))⟩) (.done _)))
  (s := fun _ => Bignum.default) (fun _ => wf_default _) fun _ => 0

end

end BN
