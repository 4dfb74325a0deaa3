import Verif.Lemmas.HeapFit
import Verif.Props.Memory
import Verif.Props.Cost
/-
C156: how much memory an operator holds at once, and that it returns it.
-/
namespace BN
open Bignum

/-- The common growth of a vector: one element, then twice the length. -/
def usualPlant (digit cell : Nat) : Plant where
  digit := digit
  cell := cell
  grow n := if n = 0 then 1 else 2 * n
  grow_gt n := by split <;> omega

/-- 10000 free bytes, and a number with room for 4 digits. -/
def exampleMem : Mem := ⟨10000, fun v => if v = .this then 4 else 0⟩

theorem exampleMem_only : exampleMem.Only JustThis := fun _ hv => if_neg hv

section
variable (c : Plant) {F : Type} (o : FloatOps F) (L : Limits) (dbg : Bool) (n : Nat)

/-- C156: whether it returns or throws, an operator leaves nothing behind: all memory is free afterwards except the storage of the number
itself. -/
theorem C156_returned (k : Arith) (x : Bignum) (r : Rhs) {h : Mem} (hS : ∀ v, v ≠ .this → h.cap v = 0) :
    let h' := (k.assignV c o L dbg n x r h).2
    (∀ v, v ≠ .this → h'.cap v = 0) ∧ h'.free + c.digit * h'.cap .this = h.free + c.digit * h.cap .this := by
  have h1 := tidy_assignV (c := c) L dbg n o k x r h hS
  refine ⟨h1.1, ?_⟩
  have h2 := h1.2
  have z : ∀ {g : Mem}, g.Only JustThis → g.total c = g.free + c.digit * g.cap .this := fun {g} hg => by
    unfold Mem.total
    rw [hg .result (by simp [JustThis]), hg .bsrch0 (by simp [JustThis]), hg .bsrch1 (by simp [JustThis]), hg .q (by simp [JustThis])]
    simp
  rwa [z h1.1, z hS] at h2

example {F : Type} (o : FloatOps F) := C156_returned (usualPlant 8 16) o .base10 false 40 .mul Sample.n199 (.other Sample.m23) (h := exampleMem)
  (fun _ hv => if_neg hv)

/-- C156: an operator ends as with unlimited memory, or throws a `std::exception` and leaves an infinity. -/
theorem C156_outcome (k : Arith) (x : Bignum) (r : Rhs) (h : Mem) :
    (k.assignV c o L dbg n x r h).1 = k.assign o L ⟨fun _ => true, dbg⟩ n x r ∨
    ∃ d, (d = .posInf ∨ d = .negInf) ∧ (k.assignV c o L dbg n x r h).1 = .threw .stdException ⟨d, []⟩ := by
  have key : ∀ {this : Bignum} {d : Desc} {m : HeapM Bignum} {q : Res Bignum}, Scarcely m q → (handleV this d m h).1 = handle this d q ∨
      ∃ e, (e = .posInf ∨ e = .negInf) ∧ (handleV this d m h).1 = .threw .stdException ⟨e, []⟩ := fun {this d m q} hm => by
    unfold handleV
    rcases hm h with e | e
    · rw [e]; exact .inl rfl
    · rw [e]
      refine .inr ⟨_, ?_, rfl⟩
      split
      · exact .inl rfl
      · exact .inr rfl
  by_cases hx : (!isComputable x.desc) = true
  · left
    cases k <;> simp only [Arith.assignV, Arith.assign, addAssign, subAssign, mulAssign, divAssign, if_pos hx]
  · cases k with
    | add =>
      simp only [Arith.assignV, Arith.assign, addAssign, if_neg hx]
      exact key (scarcely_addTryV L dbg n x r)
    | sub =>
      simp only [Arith.assignV, Arith.assign, subAssign, if_neg hx]
      exact key (scarcely_subTryV L dbg n x r)
    | mul =>
      simp only [Arith.assignV, Arith.assign, mulAssign, if_neg hx]
      exact key (.scope (.bind (scarcely_mulStrassenV L dbg n o _ _) fun _ => .then' (.steal _ _) (.pure _)))
    | div =>
      simp only [Arith.assignV, Arith.assign, divAssign, if_neg hx]
      split
      · exact .inl rfl
      · split
        · exact .inl rfl
        · split
          · exact .inl rfl
          · exact key (.bind (.lift _) fun _ => .ite (.bind (scarcely_absDivV L dbg n _ _) fun _ => .pure _) (.then' (.takeFor _ _) (.pure _)))

/-- C156: a product of numbers with p and q digits ends as with unlimited memory exactly if 4·2^k - 1 complex numbers fit into the free
memory, where 2^k is the least power of two not below p + q; else it throws and its storage stays as it is. -/
theorem C156_product {x : Bignum} {r : Rhs} (hx : isComputable x.desc = true) {k : Nat} (h1 : 1 ≤ x.size + (r.get x).size)
    (h2 : x.size + (r.get x).size ≤ 2 ^ 32) (hk : k = Nat.clog 2 (x.size + (r.get x).size)) (hc : c.digit ≤ 2 * c.cell) (hn : 32 < n) {h : Mem}
    (hS : ∀ v, v ≠ .this → h.cap v = 0) :
    (c.cell * (4 * 2 ^ k - 1) ≤ h.free → (Arith.mul.assignV c o L dbg n x r h).1 = mulAssign o L ⟨fun _ => true, dbg⟩ n x r) ∧
    (h.free < c.cell * (4 * 2 ^ k - 1) → Arith.mul.assignV c o L dbg n x r h =
      (.threw .stdException ⟨if (r.get x).desc = .pos then .posInf else .negInf, []⟩, h)) := by
  have hs : fftTableSize x.digits.length (r.get x).digits.length = 2 ^ k := clog_table h1 h2 hk
  have hk32 : k ≤ 32 := by rw [hk]; exact Nat.clog_le_of_le_pow h2
  have key := mulStrassenV_eq (c := c) o L dbg hk32 hs hn hc h (hS .result (by decide))
  have hx' : ¬ (!isComputable x.desc) = true := by rw [hx]; decide
  refine ⟨fun hf => ?_, fun hf => ?_⟩
  · rw [if_pos hf] at key
    simp only [Arith.assignV, mulAssign, if_neg hx', handleV, scope, heap_bind, key]
    change handle x _ _ = handle x _ (mulStrassen o L (freely dbg) n x.digits (r.get x).digits >>= _)
    cases mulStrassen o L (freely dbg) n x.digits (r.get x).digits <;> rfl
  · rw [if_neg (by omega)] at key
    simp only [Arith.assignV, if_neg hx', handleV, scope, heap_bind, key, handle, Prod.mk.injEq, true_and]
    have h0 := hS .result (by decide)
    rcases h with ⟨f, g⟩
    simp only at h0
    simp only [Mem.release, h0, Nat.mul_zero, Nat.add_zero, Mem.mk.injEq, true_and]
    funext v
    by_cases e : v = .result
    · rw [e]; simp [Mem.setCap, h0]
    · simp [Mem.setCap, e]

example {F : Type} (o : FloatOps F) := C156_product (usualPlant 8 16) o .base10 false 40 (x := Sample.n199) (r := .other Sample.m23) (by decide) (by decide) (by decide) rfl
  (by decide) (by decide) (h := exampleMem) (fun _ hv => if_neg hv)

/-- C156: hence eight complex numbers for each digit suffice. -/
theorem C156_product_enough {x : Bignum} {r : Rhs} (hx : isComputable x.desc = true) (h1 : 1 ≤ x.size + (r.get x).size)
    (h2 : x.size + (r.get x).size ≤ 2 ^ 32) (hc : c.digit ≤ 2 * c.cell) (hn : 32 < n) {h : Mem} (hS : ∀ v, v ≠ .this → h.cap v = 0)
    (hf : c.cell * (8 * (x.size + (r.get x).size)) ≤ h.free) :
    (Arith.mul.assignV c o L dbg n x r h).1 = mulAssign o L ⟨fun _ => true, dbg⟩ n x r := by
  refine (C156_product c o L dbg n hx h1 h2 rfl hc hn hS).1 (le_trans (Nat.mul_le_mul_left _ ?_) hf)
  have : 2 ^ Nat.clog 2 (x.size + (r.get x).size) ≤ 2 * (x.size + (r.get x).size) := by
    rcases Nat.eq_or_lt_of_le h1 with e | e
    · rw [← e]; decide
    · have h3 := Nat.pow_pred_clog_lt_self (b := 2) (by decide) e
      have h4 := Nat.clog_pos (b := 2) (by decide) e
      obtain ⟨j, hj⟩ : ∃ j, Nat.clog 2 (x.size + (r.get x).size) = j + 1 := ⟨_, (Nat.succ_pred_eq_of_pos h4).symm⟩
      rw [hj] at h3 ⊢
      rw [Nat.pow_succ]
      simp only [Nat.pred_succ] at h3
      omega
  omega

example {F : Type} (o : FloatOps F) := C156_product_enough (usualPlant 8 16) o .base10 false 40 (x := Sample.n199) (r := .other Sample.m23) (by decide)
  (by decide) (by decide) (by decide) (by decide) (h := exampleMem) (fun _ hv => if_neg hv) (by decide)

/-- C156: a difference ends as with unlimited memory if the longer operand fits into the free memory. -/
theorem C156_difference {x : Bignum} {r : Rhs} {h : Mem} (hf : c.digit * max x.size (r.get x).size ≤ h.free) :
    (Arith.sub.assignV c o L dbg n x r h).1 = subAssign L ⟨fun _ => true, dbg⟩ n x r := by
  have key := subTryV_eq (c := c) L dbg n (x := x) (r := r) hf
  by_cases hx : (!isComputable x.desc) = true
  · simp only [Arith.assignV, subAssign, if_pos hx]
  · simp only [Arith.assignV, subAssign, if_neg hx, handleV]
    rw [key]
    rfl

example {F : Type} (o : FloatOps F) := C156_difference (usualPlant 8 16) o .base10 false 40 (x := Sample.n199) (r := .other Sample.n23)
  (h := exampleMem) (by decide)

/-- C156: so does a sum of numbers of opposite signs. -/
theorem C156_sum_opposite {x : Bignum} {r : Rhs} (hx : Signed x.desc) (hr : Signed (r.get x).desc) (hne : x.desc ≠ (r.get x).desc) {h : Mem}
    (hf : c.digit * max x.size (r.get x).size ≤ h.free) :
    (Arith.add.assignV c o L dbg n x r h).1 = addAssign L ⟨fun _ => true, dbg⟩ n x r := by
  have key := addTryV_mixed (c := c) L dbg n hx hr hne hf
  have hx' : ¬ (!isComputable x.desc) = true := by rcases hx with h | h <;> rw [h] <;> decide
  simp only [Arith.assignV, addAssign, if_neg hx', handleV]
  rw [key]
  rfl

example {F : Type} (o : FloatOps F) := C156_sum_opposite (usualPlant 8 16) o .base10 false 40 (x := Sample.n199) (r := .other Sample.m23) (.inl rfl)
  (.inr rfl) (by decide) (h := exampleMem) (by decide)

variable {L}

/-- C156: a sum of numbers of the same sign, if two vectors of the capacity that numbers of its length may get fit into the free memory. -/
theorem C156_sum (hL : Supported L) {x : Bignum} {r : Rhs} (hx : Signed x.desc) (hd : x.desc = (r.get x).desc) (ix : InRange L.base x.digits)
    (ir : InRange L.base (r.get x).digits) {A : Nat} (hA : ∀ m, m ≤ max x.size (r.get x).size → c.grow m ≤ A) {h : Mem}
    (hS : ∀ v, v ≠ .this → h.cap v = 0) (hf : c.digit * (2 * A) ≤ h.free) :
    (Arith.add.assignV c o L dbg n x r h).1 = addAssign L ⟨fun _ => true, dbg⟩ n x r := by
  have hx' : ¬ (!isComputable x.desc) = true := by rcases hx with h | h <;> rw [h] <;> decide
  have e1 := C106_add_storage (env := upTo (max x.size (r.get x).size + 1) dbg) hL ix ir (fun m hm => decide_eq_true hm) n
  let B : Var → Nat := fun v => if v = .this then max (h.cap .this) A else 0
  have hlen := (c.grow_gt (max x.size (r.get x).size)).trans_le (hA _ le_rfl)
  have hT : h.total c = h.free + c.digit * h.cap .this := by
    unfold Mem.total
    rw [hS .result (by decide), hS .bsrch0 (by decide), hS .bsrch1 (by decide), hS .q (by decide)]
    simp
  have sp : Spacious c B (h.total c) (max x.size (r.get x).size + 1) A := by
    refine ⟨hlen, fun m hm => hA m (by omega), ?_⟩
    have e0 : c.digit * (2 * A) = c.digit * A + c.digit * A := by ring
    have e : c.digit * max (h.cap .this) A ≤ c.digit * h.cap .this + c.digit * A := by
      rw [← Nat.mul_add]; exact Nat.mul_le_mul_left _ (by omega)
    rw [hT]
    simp only [B, if_true, reduceCtorEq, if_false, Nat.mul_zero]
    omega
  have key := endsAs_absAdd sp L dbg n (show A ≤ B .this from by simp [B]) x r h rfl (fun v => by
    by_cases e : v = .this
    · subst e; simp [B]
    · rw [hS v e]; exact Nat.zero_le _)
  have e2 := Roomy.bind (roomy_absAdd (env := upTo (max x.size (r.get x).size + 1) dbg) hL ix ir (fun m hm => decide_eq_true hm) n)
    (f := fun d => .ok (⟨x.desc, d⟩ : Bignum)) fun _ _ => .ok _
  replace key := key.resolve_left e2
  refine Eq.trans ?_ e1
  rw [addAssign_signed hx, addTry_same hx hd.symm, ← key]
  simp only [Arith.assignV, if_neg hx', handleV, addTryV]
  rcases hx with e | e
  · rw [if_pos ⟨e, hd ▸ e⟩]
  · rw [if_neg (by rw [e]; simp), if_neg (by rw [e]; simp), if_neg (by rw [← hd, e]; simp)]

example {F : Type} (o : FloatOps F) := C156_sum (usualPlant 8 16) o false 40 (L := .base10) (.inr Sample.base10) (x := Sample.n199)
  (r := .other Sample.n23) (.inl rfl) rfl (by sample) (by sample) (A := 6) (by intro m hm; simp only [Rhs.get, Bignum.size, usualPlant] at *; split <;> simp at hm <;> omega)
  (h := exampleMem) (fun _ hv => if_neg hv) (by decide)

/-- C156: a quotient, if five such vectors fit into the free memory. -/
theorem C156_quotient (hL : Custom L) {x : Bignum} {r : Rhs} (hx : WF L x) (hr : WF L (r.get x)) (hne : (r.get x).digits ≠ []) {A : Nat}
    (hA : ∀ m, m ≤ x.size → c.grow m ≤ A) {h : Mem} (hS : ∀ v, v ≠ .this → h.cap v = 0) (hf : c.digit * (5 * A) ≤ h.free) :
    (Arith.div.assignV c o L dbg n x r h).1 = divAssign L ⟨fun _ => true, dbg⟩ n x r := by
  have hx' : ¬ (!isComputable x.desc) = true := by rcases hx.1 with h | h <;> rw [h] <;> decide
  have e1 := C106_div_storage (env := upTo (x.size + 1) dbg) hL hx hr hne (fun m hm => decide_eq_true hm) n
  have hg : ∀ d, (r.get ⟨d, x.digits⟩).digits = (r.get x).digits := fun d => by cases r <;> rfl
  by_cases hq : isOneDigit (r.get x).digits 0 = true ∨ isOneDigit (r.get x).digits 1 = true ∨ x.digits = [] ∨ isOneDigit x.digits 0 = true
  · simp only [Arith.assignV, divAssign, if_neg hx', hg]
    split
    · rfl
    · split
      · rfl
      · rw [if_pos (by tauto), if_pos (by tauto)]
  simp only [not_or] at hq
  obtain ⟨b0, b1, hxe, b2⟩ := hq
  have h0 : (r.get x).digits ≠ [0] := fun e => b0 ((isOneDigit_iff _ _).2 e)
  have h1 : (r.get x).digits ≠ [1] := fun e => b1 ((isOneDigit_iff _ _).2 e)
  have hx0 : x.digits ≠ [0] := fun e => b2 ((isOneDigit_iff _ _).2 e)
  let B : Var → Nat := fun v => if v = .this then h.cap .this else A
  have hlen := (c.grow_gt x.size).trans_le (hA _ le_rfl)
  have hT : h.total c = h.free + c.digit * h.cap .this := by
    unfold Mem.total
    rw [hS .result (by decide), hS .bsrch0 (by decide), hS .bsrch1 (by decide), hS .q (by decide)]
    simp
  have sp : Spacious c B (h.total c) (x.size + 1) A := by
    refine ⟨hlen, fun m hm => hA m (by omega), ?_⟩
    rw [hT]
    simp only [B, if_true, reduceCtorEq, if_false]
    have e0 : c.digit * (5 * A) = c.digit * A + c.digit * A + c.digit * A + c.digit * A + c.digit * A := by ring
    omega
  have key := endsAs_absDiv sp L dbg n (show A ≤ B .result from le_rfl) le_rfl le_rfl le_rfl le_rfl x.digits (r.get x).digits h rfl (fun v => by
    by_cases e : v = .this
    · subst e; exact le_rfl
    · rw [hS v e]; exact Nat.zero_le _)
  replace key := key.resolve_left (fit_absDiv hL (env := upTo (x.size + 1) dbg) (fun m hm => decide_eq_true hm)
    ⟨hr.2.1, hr.2.2.resolve_right h0, hne⟩ hx.2.1 (hx.2.2.resolve_right hx0) n)
  refine Eq.trans ?_ e1
  rw [divAssign_general hx.1 h0 h1 hxe hx0]
  simp only [Arith.assignV, if_neg hx', hg, if_neg b0, if_neg b1, if_neg (not_or.2 ⟨hxe, b2⟩), handleV, divTry]
  congr 1
  simp only [heap_bind, HeapM.lift]
  rcases absGt x.digits (r.get x).digits with e | g
  · rfl
  · cases g
    · show ((takeFor c .this 1 >>= fun _ => pure _ : HeapM Bignum) h).1 = _
      have := takeFor_ok (c := c) (h := h) (m := 1) (by have := Nat.mul_le_mul_left c.digit (show 1 ≤ 5 * A by omega); omega) .this
      rw [heap_bind]
      rcases htk : takeFor c .this 1 h with ⟨t, h'⟩
      rw [htk] at this
      cases this
      rfl
    · show ((absDivV c L dbg n x.digits (r.get x).digits >>= fun d => pure _ : HeapM Bignum) h).1 = _
      rw [heap_bind]
      rcases htk : absDivV c L dbg n x.digits (r.get x).digits h with ⟨t, h'⟩
      rw [htk] at key
      simp only at key
      rw [ok_bind, if_pos rfl, ← key]
      cases t <;> rfl

example {F : Type} (o : FloatOps F) := C156_quotient (usualPlant 8 16) o false 40 (L := .base10) Sample.base10 (x := Sample.n199)
  (r := .other Sample.m23) (by sample) (by sample) (by simp [Rhs.get]) (A := 6)
  (by intro m hm; simp only [Bignum.size, usualPlant] at *; split <;> simp at hm <;> omega) (h := exampleMem) (fun _ hv => if_neg hv) (by decide)

variable (L)

/-- C156: x op y allocates a copy of x, which it returns as the storage of the result; when it throws, all memory is as before. -/
theorem C156_binary (k : Arith) (x y : Bignum) {h : Mem} (hS : ∀ v, h.cap v = 0) :
    let e := k.binaryV c o L dbg n x y h
    ((∃ b, e.1 = .ok b) ∨ (∃ t, e.1 = .error (.exn t)) → (∀ v, v ≠ .this → e.2.cap v = 0) ∧ e.2.free + c.digit * e.2.cap .this = h.free) ∧
    ((∃ t, e.1 = .error (.exn t)) → e.2 = h) := by
  intro e
  have take : (∃ t h', takeFor c .this x.digits.length h = (t, h') ∧ ((∃ u, t = .error u ∧ h' = h) ∨ t = .ok () ∧ (∀ v, v ≠ .this → h'.cap v = 0) ∧
      h'.free + c.digit * h'.cap .this = h.free)) := by
    unfold takeFor
    split
    · exact ⟨_, _, rfl, .inr ⟨rfl, fun v _ => hS v, by rw [hS]; simp⟩⟩
    · split
      · rename_i hf
        refine ⟨_, _, rfl, .inr ⟨rfl, fun v hv => ?_, ?_⟩⟩
        · simp [Mem.setCap, hv, hS]
        · simp only [Mem.setCap, hS, if_true]; omega
      · exact ⟨_, _, rfl, .inl ⟨_, rfl, rfl⟩⟩
  obtain ⟨t, h', ht, ht'⟩ := take
  rcases ht' with ⟨u, rfl, rfl⟩ | ⟨rfl, h1, h2⟩
  · have he : e = (.error u, h') := by simp only [e, Arith.binaryV, ht]
    rw [he]
    exact ⟨fun _ => ⟨fun v _ => hS v, by rw [hS]; simp⟩, fun _ => rfl⟩
  · have ret := C156_returned c o L dbg n k x (.other y) h1
    rcases ha : k.assignV c o L dbg n x (.other y) h' with ⟨out, h''⟩
    rw [ha] at ret
    obtain ⟨r1, r2⟩ := ret
    simp only at r1 r2
    rw [h2] at r2
    have he : e = match (out, h'') with
        | (.ok b, h'') => (.ok b, h'')
        | (.threw e _, h'') => (.error (.exn e), h''.release c .this)
        | (.ub k, h'') => (.error (.ub k), h'')
        | (.timeout, h'') => (.error .timeout, h'') := by simp only [e, Arith.binaryV, ht, ha]; rfl
    cases out with
    | ok b => rw [he]; exact ⟨fun _ => ⟨r1, r2⟩, fun ⟨_, h⟩ => by cases h⟩
    | threw u b =>
      have hh : h''.release c .this = h := by
        rcases h with ⟨f, g⟩
        simp only [Mem.release, Mem.mk.injEq]
        refine ⟨r2, funext fun v => ?_⟩
        have := hS v
        simp only at this
        by_cases ev : v = .this
        · rw [ev] at this ⊢; simp [Mem.setCap, this]
        · simp [Mem.setCap, ev, r1 v ev, this]
      rw [he]
      simp only [hh]
      exact ⟨fun _ => ⟨fun v _ => hS v, by rw [hS]; simp⟩, fun _ => trivial⟩
    | ub u => rw [he]; exact ⟨fun hh => (by rcases hh with ⟨_, h⟩ | ⟨_, h⟩ <;> cases h), fun ⟨_, h⟩ => by cases h⟩
    | timeout => rw [he]; exact ⟨fun hh => (by rcases hh with ⟨_, h⟩ | ⟨_, h⟩ <;> cases h), fun ⟨_, h⟩ => by cases h⟩

example {F : Type} (o : FloatOps F) := C156_binary (usualPlant 8 16) o .base10 false 40 .mul Sample.n199 Sample.m23 (h := ⟨10000, fun _ => 0⟩) (fun _ => rfl)

/-- C156: x * y ends as with unlimited memory exactly if the copy and 4·2^k - 1 complex numbers fit into the free memory; else it throws. -/
theorem C156_binary_product {x y : Bignum} (hx : isComputable x.desc = true) {k : Nat} (h1 : 1 ≤ x.size + y.size) (h2 : x.size + y.size ≤ 2 ^ 32)
    (hk : k = Nat.clog 2 (x.size + y.size)) (hc : c.digit ≤ 2 * c.cell) (hn : 32 < n) {h : Mem} (hS : ∀ v, h.cap v = 0) :
    (c.digit * x.size + c.cell * (4 * 2 ^ k - 1) ≤ h.free →
      (Arith.mul.binaryV c o L dbg n x y h).1 = Bignum.mul o L ⟨fun _ => true, dbg⟩ n x y) ∧
    (h.free < c.digit * x.size + c.cell * (4 * 2 ^ k - 1) → ∃ t, Arith.mul.binaryV c o L dbg n x y h = (.error (.exn t), h)) := by
  have hsz : x.digits.length = x.size := rfl
  by_cases hf : c.digit * x.size ≤ h.free
  · obtain ⟨h', ht, h3, h4⟩ : ∃ h', takeFor c .this x.size h = (.ok (), h') ∧ (∀ v, v ≠ .this → h'.cap v = 0) ∧ h'.free = h.free - c.digit * x.size := by
      unfold takeFor
      rw [if_pos hf]
      split
      · rename_i h0
        rw [hS] at h0
        exact ⟨_, rfl, fun v _ => hS v, by rw [Nat.le_zero.1 h0]; simp⟩
      · exact ⟨_, rfl, fun v hv => by simp [Mem.setCap, hv, hS], by simp [hS]⟩
    obtain ⟨p1, p2⟩ := C156_product c o L dbg n (r := .other y) hx h1 h2 hk hc hn h3
    refine ⟨fun hb => ?_, fun hb => ?_⟩
    · have e := p1 (by omega)
      rcases ha : Arith.mul.assignV c o L dbg n x (.other y) h' with ⟨out, h''⟩
      rw [ha] at e
      simp only at e
      simp only [Arith.binaryV, hsz, ht, ha, Bignum.mul, viaCopy]
      have hcp : x.copy ⟨fun _ => true, dbg⟩ = .ok x := bcopy_freely dbg x
      rw [hcp, ok_bind, ← e]
      cases out <;> rfl
    · have e := p2 (by omega)
      have hb' := C156_binary c o L dbg n .mul x y hS
      have : (Arith.mul.binaryV c o L dbg n x y h).1 = .error (.exn .stdException) := by simp only [Arith.binaryV, hsz, ht, e]
      exact ⟨_, Prod.ext this (hb'.2 ⟨_, this⟩)⟩
  · have ht : takeFor c .this x.size h = (.error (.exn .badAlloc), h) := by
      unfold takeFor
      rw [if_neg hf, if_neg]
      rw [hS]
      intro h0
      rw [Nat.le_zero.1 h0] at hf
      simp at hf
    exact ⟨fun hb => by omega, fun _ => ⟨.badAlloc, by simp only [Arith.binaryV, hsz, ht]⟩⟩

example {F : Type} (o : FloatOps F) := C156_binary_product (usualPlant 8 16) o .base10 false 40 (x := Sample.n199) (y := Sample.m23) (by decide) (by decide)
  (by decide) rfl (by decide) (by decide) (h := ⟨10000, fun _ => 0⟩) (fun _ => rfl)

end
end BN
