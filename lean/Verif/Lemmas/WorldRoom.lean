import Verif.Props.World
import Verif.Props.Heap
/-
How much memory is enough for whole programs over numbers of bounded length.
-/
namespace BN
open Bignum

theorem heap_map {α β : Type} (m : HeapM α) (f : α → β) (h : Mem) : ((m >>= fun x => (pure (f x) : HeapM β)) h).2 = (m h).2 := by
  rw [heap_bind]
  rcases m h with ⟨r, h'⟩
  cases r <;> rfl

/-! ### Capacities stay within a bound -/

/-- No capacity above `C`, before and after. -/
def Capped (C : Nat) {β : Type} (m : Mem → β × Mem) : Prop := ∀ h : Mem, (∀ v, h.cap v ≤ C) → ∀ v, (m h).2.cap v ≤ C

namespace Capped
variable {α β : Type} {C : Nat} {c : Plant}

theorem lift (r : Res α) : Capped C (HeapM.lift r) := fun _ h => h
theorem pure (x : α) : Capped C (Pure.pure x : HeapM α) := fun _ h => h

theorem bind {m : HeapM α} {f : α → HeapM β} (hm : Capped C m) (hf : ∀ x, Capped C (f x)) : Capped C (m >>= f) := fun h hc => by
  rw [heap_bind]
  have h1 := hm h hc
  rcases hr : m h with ⟨r, h'⟩
  rw [hr] at h1
  cases r with
  | ok x => exact hf x h' h1
  | error e => exact h1

theorem ite {p : Prop} [d : Decidable p] {a b : HeapM α} (ha : Capped C a) (hb : Capped C b) : Capped C (if p then a else b) := by
  cases d with
  | isTrue _ => exact ha
  | isFalse _ => exact hb

theorem scope {v : Var} {m : HeapM α} (hm : Capped C m) : Capped C (BN.scope c v m) := fun h hc w => by
  simp only [BN.scope, Mem.release, Mem.setCap]
  split
  · exact Nat.zero_le _
  · exact hm h hc w

theorem steal (v w : Var) : Capped C (BN.steal c v w) := fun h hc u => by
  simp only [BN.steal]
  split
  · exact hc w
  · split
    · exact Nat.zero_le _
    · exact hc u

theorem takeFor (v : Var) {n : Nat} (hn : n ≤ C) : Capped C (BN.takeFor c v n) := fun h hc w => by
  unfold BN.takeFor
  split
  · exact hc w
  · split
    · simp only [Mem.setCap]
      split
      · exact hn
      · exact hc w
    · exact hc w

end Capped

section
variable {c : Plant} {C : Nat} (L : Limits) (dbg : Bool) (n : Nat)

theorem kept_subCopyV (a : List Nat) {b : List Nat} (hb : b.length ≤ C) (d : Desc) : Capped C (subCopyV c L dbg n a b d) :=
  .scope (.bind (.takeFor _ hb) fun _ => .bind (.lift _) fun _ => .bind (.steal _ _) fun _ => .pure _)

theorem kept_subMixedV {a b : Bignum} (ha : a.digits.length ≤ C) (hb : b.digits.length ≤ C) : Capped C (subMixedV c L dbg n a b) :=
  .scope (.bind (.lift _) fun g => .bind (.takeFor _ (by split <;> assumption)) fun _ => .bind (.lift _) fun _ => .bind (.steal _ _) fun _ => .pure _)

theorem kept_diffV {x : Bignum} {r : Rhs} (hb : (r.get x).digits.length ≤ C) (d : Desc) :
    Capped C (HeapM.lift (absGe x.digits (r.get x).digits) >>= fun ge =>
      if ge then subInPlaceV L dbg n x r else subCopyV c L dbg n x.digits (r.get x).digits d : HeapM Bignum) :=
  .bind (.lift _) fun _ => .ite (.bind (.lift _) fun _ => .pure _) (kept_subCopyV L dbg n _ hb d)

theorem kept_subTryV {x : Bignum} {r : Rhs} (ha : x.digits.length ≤ C) (hb : (r.get x).digits.length ≤ C) : Capped C (subTryV c L dbg n x r) :=
  .ite (kept_diffV L dbg n hb _) (.ite (kept_subMixedV L dbg n ha hb) (.ite (kept_subMixedV L dbg n ha hb) (kept_diffV L dbg n hb _)))

theorem kept_addTryV_mixed {x : Bignum} {r : Rhs} (hx : Signed x.desc) (hr : Signed (r.get x).desc) (hne : x.desc ≠ (r.get x).desc)
    (hb : (r.get x).digits.length ≤ C) : Capped C (addTryV c L dbg n x r) := by
  unfold addTryV
  simp only
  rcases hx with hx | hx <;> rcases hr with hr | hr
  · exact absurd (hx.trans hr.symm) hne
  · rw [if_neg (by rw [hr]; simp), if_pos ⟨hx, hr⟩]; exact kept_diffV L dbg n hb _
  · rw [if_neg (by rw [hx]; simp), if_neg (by rw [hx]; simp), if_pos ⟨hx, hr⟩]; exact kept_diffV L dbg n hb _
  · exact absurd (hx.trans hr.symm) hne

end

/-! ### One statement -/

section
variable {c : Plant}

theorem suffices_absDiv {T N A : Nat} (sp : Spacious c (fun _ => A) T N A) (L : Limits) (dbg : Bool) (n : Nat) (a b : List Nat) :
    Suffices c (fun _ => A) T (absDivV c L dbg n a b) (absDiv L (upTo N dbg) n a b) := by
  unfold absDivV absDiv
  exact .scope (sp.copy dbg (l := [L.store (L.toSingle 0)]) le_rfl
    (.bind (.loop (fun s => suffices_divBody sp L dbg n le_rfl le_rfl le_rfl le_rfl le_rfl b s) _ _) fun s =>
      .then' (.steal (by decide) le_rfl) (.pure _)))

/-- `C` digits are enough for what numbers of at most `D` digits ask for. -/
structure Roof (c : Plant) (D C : Nat) : Prop where
  grow : ∀ m, m ≤ D → c.grow m ≤ C
  four : 4 * D ≤ C
  words : 2 * D ≤ 2 ^ 32
  cells : c.digit ≤ 2 * c.cell

theorem Roof.le {D C : Nat} (hR : Roof c D C) : D < C := (c.grow_gt D).trans_le (hR.grow D le_rfl)

variable {D C : Nat} (hR : Roof c D C) {F : Type} (o : FloatOps F) {L : Limits} (dbg : Bool) {n : Nat}

theorem total_only {h : Mem} (hS : ∀ v, v ≠ .this → h.cap v = 0) : h.total c = h.free + c.digit * h.cap .this := by
  unfold Mem.total
  rw [hS .result (by decide), hS .bsrch0 (by decide), hS .bsrch1 (by decide), hS .q (by decide)]
  simp

theorem caps_only {h : Mem} (hS : ∀ v, v ≠ .this → h.cap v = 0) (hC : h.cap .this ≤ C) (v : Var) : h.cap v ≤ C := by
  by_cases e : v = .this
  · rw [e]; exact hC
  · rw [hS v e]; exact Nat.zero_le _

theorem clog_le_double {m : Nat} (h1 : 1 ≤ m) : 2 ^ Nat.clog 2 m ≤ 2 * m := by
  rcases Nat.eq_or_lt_of_le h1 with e | e
  · rw [← e]; decide
  · have h3 := Nat.pow_pred_clog_lt_self (b := 2) (by decide) e
    have h4 := Nat.clog_pos (b := 2) (by decide) e
    obtain ⟨j, hj⟩ : ∃ j, Nat.clog 2 m = j + 1 := ⟨_, (Nat.succ_pred_eq_of_pos h4).symm⟩
    rw [hj] at h3 ⊢
    rw [Nat.pow_succ]
    simp only [Nat.pred_succ] at h3
    omega

include hR

/-- An operator on numbers of at most `D` digits, whose storage has at most `C`. -/
theorem room_assign (hL : Custom L) (k : Arith) {x : Bignum} {r : Rhs} (hx : WF L x) (hr : WF L (r.get x)) (sx : x.digits.length ≤ D)
    (sr : (r.get x).digits.length ≤ D) (hmul : k = .mul → 1 ≤ x.digits.length + (r.get x).digits.length ∧ 32 < n)
    (hdiv : k = .div → (r.get x).digits ≠ []) {h : Mem} (hS : ∀ v, v ≠ .this → h.cap v = 0) (hC : h.cap .this ≤ C)
    (hf : c.digit * (6 * C) + c.cell * (16 * D) ≤ h.free) :
    (k.assignV c o L dbg n x r h).1 = k.assign o L (freely dbg) n x r ∧ (k.assignV c o L dbg n x r h).2.cap .this ≤ C := by
  have hlt := hR.le
  have hx' : ¬ (!isComputable x.desc) = true := by rcases hx.1 with h | h <;> rw [h] <;> decide
  have hcap := caps_only hS hC
  have hdig : ∀ m, m ≤ 6 * C → c.digit * m ≤ h.free := fun m hm => le_trans (Nat.mul_le_mul_left _ hm) (by omega)
  have hgr : ∀ m, m ≤ max x.size (r.get x).size → c.grow m ≤ C := fun m hm => hR.grow m (hm.trans (max_le sx sr))
  have hmax : max x.size (r.get x).size ≤ D := max_le sx sr
  have spac : ∀ N, N ≤ D + 1 → Spacious c (fun _ => C) (h.total c) N C := fun N hN => by
    refine ⟨by omega, fun m hm => hR.grow m (by omega), ?_⟩
    have e0 : c.digit * (6 * C) = c.digit * C + c.digit * C + c.digit * C + c.digit * C + c.digit * C + c.digit * C := by ring
    rw [total_only hS]
    omega
  cases k with
  | add =>
    by_cases hd : x.desc = (r.get x).desc
    · refine ⟨C156_sum c o dbg n hL.supported hx.1 hd hx.2.1 hr.2.1 hgr hS (hdig _ (by omega)), ?_⟩
      have sp := spac (max x.size (r.get x).size + 1) (by omega)
      have key := (suffices_absAdd sp L dbg n (v := .this) le_rfl x.digits r.src h rfl hcap).resolve_left
        (roomy_absAdd (env := upTo (max x.size (r.get x).size + 1) dbg) hL.supported hx.2.1 hr.2.1 (fun m hm => decide_eq_true hm) n)
      have keep : ((absAddV c L dbg n .this x.digits r.src >>= fun d => pure (⟨x.desc, d⟩ : Bignum) : HeapM Bignum) h).2.cap .this ≤ C := by
        rw [heap_map]
        exact key.2.2 .this
      simp only [Arith.assignV, if_neg hx', handleV, addTryV]
      rcases hx.1 with e | e
      · rw [if_pos ⟨e, hd ▸ e⟩]; exact keep
      · rw [if_neg (by rw [e]; simp), if_neg (by rw [e]; simp), if_neg (by rw [← hd, e]; simp)]; exact keep
    · refine ⟨C156_sum_opposite c o L dbg n hx.1 hr.1 hd (hdig _ (by omega)), ?_⟩
      simp only [Arith.assignV, if_neg hx', handleV]
      exact kept_addTryV_mixed L dbg n hx.1 hr.1 hd (by omega) h hcap .this
  | sub =>
    refine ⟨C156_difference c o L dbg n (hdig _ (by omega)), ?_⟩
    simp only [Arith.assignV, if_neg hx', handleV]
    exact kept_subTryV L dbg n (by omega) (by omega) h hcap .this
  | mul =>
    obtain ⟨h1, hn⟩ := hmul rfl
    have h2 : x.size + (r.get x).size ≤ 2 ^ 32 := le_trans (Nat.add_le_add sx sr) (by have := hR.words; omega)
    have hcell : c.cell * (8 * (x.size + (r.get x).size)) ≤ h.free := le_trans (Nat.mul_le_mul_left _ (by omega)) (le_trans (Nat.le_add_left _ _) hf)
    refine ⟨C156_product_enough c o L dbg n (by rcases hx.1 with h | h <;> rw [h] <;> decide) h1 h2 hR.cells hn hS hcell, ?_⟩
    have hs : fftTableSize x.digits.length (r.get x).digits.length = 2 ^ Nat.clog 2 (x.size + (r.get x).size) := clog_table h1 h2 rfl
    have hk32 : Nat.clog 2 (x.size + (r.get x).size) ≤ 32 := Nat.clog_le_of_le_pow h2
    have hdb := clog_le_double h1
    have key := mulStrassenV_eq (c := c) o L dbg hk32 hs hn hR.cells h (hS .result (by decide))
    rw [if_pos (le_trans (Nat.mul_le_mul_left _ (by change 2 ^ Nat.clog 2 (x.size + (r.get x).size) ≤ 2 * (x.size + (r.get x).size) at hdb; omega)) hcell)] at key
    simp only [Arith.assignV, if_neg hx', handleV, scope, heap_bind, key]
    cases mulStrassen o L (freely dbg) n x.digits (r.get x).digits with
    | error e =>
      simp only [Mem.release, Mem.setCap]
      split
      · exact Nat.zero_le _
      · exact hC
    | ok d =>
      simp only [steal, Mem.release, Mem.setCap, Pure.pure]
      have := hR.four
      change 2 ^ Nat.clog 2 (x.size + (r.get x).size) ≤ 2 * (x.size + (r.get x).size) at hdb
      have e1 : x.size ≤ D := sx
      have e2 : (r.get x).size ≤ D := sr
      simp
      omega
  | div =>
    have hne := hdiv rfl
    refine ⟨C156_quotient c o dbg n hL hx hr hne (fun m hm => hR.grow m (hm.trans sx)) hS (hdig _ (by omega)), ?_⟩
    have hg : ∀ d, (r.get ⟨d, x.digits⟩).digits = (r.get x).digits := fun d => by cases r <;> rfl
    simp only [Arith.assignV, if_neg hx', hg]
    split
    · exact hC
    · rename_i b0
      split
      · exact hC
      · rename_i b1
        split
        · exact hC
        · rename_i b2
          simp only [not_or] at b2
          have h0 : (r.get x).digits ≠ [0] := fun e => b0 ((isOneDigit_iff _ _).2 e)
          have hx0 : x.digits ≠ [0] := fun e => b2.2 ((isOneDigit_iff _ _).2 e)
          simp only [handleV, heap_bind, HeapM.lift]
          rcases absGt x.digits (r.get x).digits with e | g
          · exact hC
          · cases g
            · have := Capped.takeFor (c := c) (C := C) .this (n := 1) (by omega) h hcap .this
              show ((takeFor c .this 1 >>= fun _ => pure _ : HeapM Bignum) h).2.cap .this ≤ C
              rw [heap_map]
              exact this
            · have sp := spac (x.size + 1) (by omega)
              have key := (suffices_absDiv sp L dbg n x.digits (r.get x).digits h rfl hcap).resolve_left (fit_absDiv hL (env := upTo (x.size + 1) dbg)
                (fun m hm => decide_eq_true hm) ⟨hr.2.1, hr.2.2.resolve_right h0, hne⟩ hx.2.1 (hx.2.2.resolve_right hx0) n)
              have := key.2.2 .this
              show ((absDivV c L dbg n x.digits (r.get x).digits >>= fun d => pure _ : HeapM Bignum) h).2.cap .this ≤ C
              rw [heap_map]
              exact this

/-- `x op y`, which copies `x` first. -/
theorem room_binary (hL : Custom L) (k : Arith) {x y : Bignum} (hx : WF L x) (hy : WF L y) (sx : x.digits.length ≤ D) (sy : y.digits.length ≤ D)
    (hmul : k = .mul → 1 ≤ x.digits.length + y.digits.length ∧ 32 < n) (hdiv : k = .div → y.digits ≠ []) {f : Nat}
    (hf : c.digit * (7 * C) + c.cell * (16 * D) ≤ f) :
    (k.binaryV c o L dbg n x y ⟨f, fun _ => 0⟩).1 = k.binary o L (freely dbg) n x y ∧
    ((∃ b, k.binary o L (freely dbg) n x y = .ok b) → (k.binaryV c o L dbg n x y ⟨f, fun _ => 0⟩).2.cap .this ≤ C) := by
  have hlt := hR.le
  obtain ⟨h', ht, h1, h2, h3⟩ : ∃ h', takeFor c .this x.digits.length ⟨f, fun _ => 0⟩ = (.ok (), h') ∧ (∀ v, v ≠ .this → h'.cap v = 0) ∧
      h'.cap .this ≤ C ∧ c.digit * (6 * C) + c.cell * (16 * D) ≤ h'.free := by
    have e : c.digit * (7 * C) = c.digit * C + c.digit * (6 * C) := by ring
    have e' := Nat.mul_le_mul_left c.digit (show x.digits.length ≤ C by omega)
    unfold takeFor
    split
    · exact ⟨_, rfl, fun _ _ => rfl, Nat.zero_le _, by simp only; omega⟩
    · rw [if_pos (by simp only; omega)]
      refine ⟨_, rfl, fun v hv => by simp [Mem.setCap, hv], ?_, ?_⟩
      · simp only [Mem.setCap, if_true]; omega
      · simp only [Nat.mul_zero, Nat.add_zero]; omega
  obtain ⟨h4, h5⟩ := room_assign hR o dbg hL k (r := .other y) hx hy sx sy hmul hdiv h1 h2 h3
  unfold Arith.binaryV Arith.binary viaCopy
  rw [bcopy_freely, ok_bind, ht]
  simp only
  rcases ha : k.assignV c o L dbg n x (.other y) h' with ⟨out, h''⟩
  rw [ha] at h4 h5
  simp only at h4 h5
  rw [← h4]
  cases out with
  | ok b => exact ⟨rfl, fun _ => h5⟩
  | threw e b => exact ⟨rfl, fun ⟨b, hb⟩ => by cases hb⟩
  | ub u => exact ⟨rfl, fun ⟨b, hb⟩ => by cases hb⟩
  | timeout => exact ⟨rfl, fun ⟨b, hb⟩ => by cases hb⟩

end

section
variable {c : Computer} {D C : Nat} {F : Type} {o : FloatOps F} {L : Limits} {n : Nat}

theorem after_room {w : World} {i : Nat} {m : Out × Mem} {s' : Store} (h : m.1.store w.store i = some s') (hC : m.2.cap .this ≤ C)
    (hw : ∀ i, w.cap i ≤ C) : ∃ w', w.after i m = some w' ∧ w'.store = s' ∧ ∀ j, w'.cap j ≤ C := by
  rcases m with ⟨out, h'⟩
  have caps : ∀ b, ∀ j, (w.put i b h').cap j ≤ C := fun b j => by
    simp only [World.put]
    split
    · exact hC
    · exact hw j
  cases out with
  | ok b => exact ⟨_, rfl, Option.some.inj h, caps b⟩
  | threw e b => exact ⟨_, rfl, Option.some.inj h, caps b⟩
  | ub u => cases h
  | timeout => cases h

theorem fitTo_room {k : Nat} (hk : c.fit 0 k ≤ C) {h : Mem} (hf : c.digit * C ≤ h.free) (hS : ∀ v, h.cap v ≤ C) :
    (fitTo c .result 0 k h).1 = .ok () ∧ ∀ v, (fitTo c .result 0 k h).2.cap v ≤ C := by
  unfold fitTo
  split
  · exact ⟨rfl, hS⟩
  · exact ⟨takeFor_ok ((Nat.mul_le_mul_left _ hk).trans hf) _, Capped.takeFor _ hk h hS⟩

/-- What a machine with the objects of `w` has to offer. -/
structure World.Roomy (c : Computer) (D C : Nat) (w : World) : Prop where
  caps : ∀ i, w.cap i ≤ C
  free : c.digit * (7 * C) + c.cell * (16 * D) ≤ w.free

theorem room_step (hR : Roof c.toPlant D C) (hfit : ∀ m, m ≤ D → c.fit 0 m ≤ C) (hL : Custom L) (hD : 1 ≤ D) {K : Nat} {w : World} {v v' : Vars} {op : Op}
    (hs : Holds L w.store v) (hop : IntStep L.base K v op v') (hv : ∀ i, (v i).natAbs < L.base ^ D) (hv' : ∀ i, (v' i).natAbs < L.base ^ D)
    (hn : 32 < n) {s' : Store} (hst : op.step o L (freely false) n w.store = some s') (hs' : Holds L s' v') (hw : w.Roomy c D C) :
    ∃ w', op.stepV c o L false n w = some w' ∧ w'.store = s' ∧ ∀ i, w'.cap i ≤ C := by
  have len : ∀ i, (w.store i).digits.length ≤ D := fun i => length_le_of_mag hL.supported (hs i).1 hD (by rw [(hs i).2]; exact hv i)
  have len' : ∀ i, (s' i).digits.length ≤ D := fun i => length_le_of_mag hL.supported (hs' i).1 hD (by rw [(hs' i).2]; exact hv' i)
  have hlt := hR.le
  have hf := hw.free
  have h6 : c.digit * (7 * C) = c.digit * C + c.digit * (6 * C) := by ring
  have own : ∀ i v, v ≠ .this → (w.mem i).cap v = 0 := fun i v hv => if_neg hv
  have cap : ∀ i, (w.mem i).cap .this ≤ C := fun i => by simp only [World.mem, if_true]; exact hw.caps i
  have nil0 : ∀ i, (w.store i).digits = [] → v i = 0 := fun i h => by rw [← (hs i).2]; exact toInt_eq_zero.2 (mag_of_nil h)
  have make : ∀ i d l, op = .make i d l → ∃ w', op.stepV c o L false n w = some w' ∧ w'.store = s' ∧ ∀ i, w'.cap i ≤ C := fun i d l e => by
    subst e
    simp only [Op.step] at hst
    simp only [Op.stepV]
    have key : ((makeV c d l (w.mem i)).1 = ofList (freely false) d l) ∧ (makeV c d l (w.mem i)).2.cap .this ≤ C := by
      simp only [makeV, scope, heap_bind, HeapM.lift]
      cases hb : ofList (freely false) d l with
      | error e =>
        refine ⟨rfl, ?_⟩
        simp only [Mem.release, Mem.setCap]
        exact cap i
      | ok b =>
        rw [hb] at hst
        have hbl : b.digits.length ≤ D := by
          have := len' i
          simp only [strong, Out.store, Option.some.injEq] at hst
          rw [← hst] at this
          simpa [Store.set] using this
        obtain ⟨h1, h2⟩ := fitTo_room (hfit _ hbl) (h := w.mem i) (by show c.digit * C ≤ w.free; omega) (caps_only (own i) (cap i))
        simp only
        rcases ht : fitTo c .result 0 b.digits.length (w.mem i) with ⟨t, h'⟩
        rw [ht] at h1 h2
        simp only at h1
        rw [h1]
        refine ⟨rfl, ?_⟩
        simp only [steal, Mem.release, Mem.setCap, Pure.pure]
        exact h2 .result
    exact after_room (m := strongV _ _ _) (by rw [strongV, key.1]; exact hst) key.2 hw.caps
  cases hop with
  | makePos i l hl => exact make i _ l rfl
  | makeNeg i l hl => exact make i _ l rfl
  | copy i j =>
    simp only [Op.step] at hst
    simp only [Op.stepV]
    split
    · rename_i hij
      rw [if_pos hij] at hst
      exact ⟨w, rfl, Option.some.inj hst, hw.caps⟩
    · rename_i hij
      rw [if_neg hij] at hst
      have e' := Nat.mul_le_mul_left c.digit (show (w.store j).digits.length ≤ C by have := len j; omega)
      have h1 := takeFor_ok (c := c.toPlant) (h := w.mem i) (m := (w.store j).digits.length) (by show _ ≤ w.free; omega) .this
      have h2 := Capped.takeFor (c := c.toPlant) (C := C) .this (n := (w.store j).digits.length) (by have := len j; omega) (w.mem i) (caps_only (own i) (cap i)) .this
      rcases ht : takeFor c.toPlant .this (w.store j).digits.length (w.mem i) with ⟨t, h'⟩
      rw [ht] at h1 h2
      simp only at h1 h2
      rw [h1] at ht
      have e : copyAssignV c (w.store i) (w.store j) (w.mem i) = (.ok (w.store j), h') := by unfold copyAssignV; rw [ht]
      rw [e]
      refine after_room ?_ h2 hw.caps
      simp only [copyAssign, copy_freely] at hst
      exact hst
  | move i j hij =>
    simp only [Op.step, if_neg hij] at hst
    simp only [Op.stepV, if_neg hij]
    refine ⟨_, rfl, Option.some.inj hst, fun k => ?_⟩
    simp only [World.move]
    split
    · exact hw.caps j
    · split
      · exact Nat.zero_le _
      · exact hw.caps k
  | abs i => exact ⟨_, rfl, Option.some.inj hst, hw.caps⟩
  | negAbs i => exact ⟨_, rfl, Option.some.inj hst, hw.caps⟩
  | clear i => exact ⟨_, rfl, Option.some.inj hst, hw.caps⟩
  | arith k i j hg =>
    have hr := rhsOf_get w.store i j
    obtain ⟨h1, h2⟩ := room_assign hR o false hL k (x := w.store i) (r := rhsOf w.store i j) (n := n) (hs i).1 (by rw [hr]; exact (hs j).1) (len i)
      (by rw [hr]; exact len j)
      (fun e => by
        subst e
        refine ⟨?_, hn⟩
        rw [hr]
        rcases Nat.eq_zero_or_pos ((w.store i).digits.length + (w.store j).digits.length) with h0 | h0
        · exact absurd ⟨nil0 i (List.length_eq_zero_iff.1 (by omega)), nil0 j (List.length_eq_zero_iff.1 (by omega))⟩ hg.1
        · exact h0)
      (fun e => by
        subst e
        rw [hr]
        exact fun h => hg.1 (nil0 j h))
      (own i) (cap i) (by show _ ≤ w.free; omega)
    refine after_room ?_ h2 hw.caps
    rw [h1]
    exact hst
  | binary k i j l hg =>
    obtain ⟨h1, h2⟩ := room_binary hR o false hL k (x := w.store j) (y := w.store l) (n := n) (hs j).1 (hs l).1 (len j) (len l)
      (fun e => by
        subst e
        refine ⟨?_, hn⟩
        rcases Nat.eq_zero_or_pos ((w.store j).digits.length + (w.store l).digits.length) with h0 | h0
        · exact absurd ⟨nil0 j (List.length_eq_zero_iff.1 (by omega)), nil0 l (List.length_eq_zero_iff.1 (by omega))⟩ hg.1
        · exact h0)
      (fun e => by
        subst e
        exact fun h => hg.1 (nil0 l h))
      hf
    simp only [Op.step] at hst
    simp only [Op.stepV, binaryAssignV]
    rw [h1]
    cases hb : k.binary o L (freely false) n (w.store j) (w.store l) with
    | ok b =>
      rw [hb] at hst h2
      refine ⟨_, rfl, Option.some.inj hst, fun m => ?_⟩
      simp only [World.put]
      split
      · exact h2 ⟨b, rfl⟩
      · exact hw.caps m
    | error e =>
      rw [hb] at hst
      cases e with
      | exn e =>
        refine ⟨_, rfl, ?_, hw.caps⟩
        simp only [strong, Out.store, Store.set_self, Option.some.injEq] at hst
        exact hst
      | ub u => cases hst
      | timeout => cases hst

end

end BN
