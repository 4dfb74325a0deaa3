import Mathlib.Data.Nat.BitIndices
import Mathlib.Data.Nat.Log
import Verif.Lemmas.Cost
import Verif.Lemmas.Mono
import Verif.Lemmas.Div
/-
The number of steps of a division.
-/
namespace BN
open Bignum

/-- At most `hi` steps, and at least `lo` if the computation returns. -/
def Costs {α : Type} (x : Counted α) (lo hi : Nat) (P : α → Prop) : Prop := x.steps ≤ hi ∧ ∀ a, x.res = .ok a → P a ∧ lo ≤ x.steps

namespace Costs
variable {α β : Type}

theorem bind {x : Counted α} {f : α → Counted β} {l h l' h' : Nat} {P : α → Prop} {Q : β → Prop} (hx : Costs x l h P)
    (hf : ∀ a, P a → Costs (f a) l' h' Q) : Costs (x >>= f) (l + l') (h + h') Q := by
  cases e : x.res with
  | error e' => rw [Counted.bind_error e]; exact ⟨hx.1.trans (Nat.le_add_right _ _), fun a ha => by cases ha⟩
  | ok a =>
    rw [Counted.bind_ok e]
    obtain ⟨h1, h2⟩ := hx.2 a e
    have h3 := hf a h1
    refine ⟨Nat.add_le_add hx.1 h3.1, fun b hb => ?_⟩
    obtain ⟨h4, h5⟩ := h3.2 b hb
    exact ⟨h4, Nat.add_le_add h2 h5⟩

theorem charge {r : Res α} {n h : Nat} {P : α → Prop} (hr : Keeps r P) (hn : n ≤ h) : Costs (charge n r) n h P := ⟨hn, fun a ha => ⟨hr a ha, le_rfl⟩⟩

theorem pure {a : α} {h : Nat} {P : α → Prop} (ha : P a) : Costs (Pure.pure a : Counted α) 0 h P :=
  ⟨Nat.zero_le _, fun b hb => by cases hb; exact ⟨ha, le_rfl⟩⟩

theorem weaken {x : Counted α} {l h l' h' : Nat} {P Q : α → Prop} (hx : Costs x l h P) (hl : l' ≤ l) (hh : h ≤ h') (hPQ : ∀ a, P a → Q a) :
    Costs x l' h' Q := ⟨hx.1.trans hh, fun a ha => ⟨hPQ a (hx.2 a ha).1, hl.trans (hx.2 a ha).2⟩⟩

theorem le {x : Counted α} {l h l' h' : Nat} {P : α → Prop} (hx : Costs x l h P) (hl : l' ≤ l) (hh : h ≤ h') : Costs x l' h' P :=
  hx.weaken hl hh fun _ h => h

theorem of_le {x : Counted α} {h : Nat} {P : α → Prop} (h1 : x.steps ≤ h) (h2 : Keeps x.res P) : Costs x 0 h P :=
  ⟨h1, fun a ha => ⟨h2 a ha, Nat.zero_le _⟩⟩

end Costs

theorem Mono.keeps {α : Type} {f : Nat → Res α} (hf : Mono f) {P : α → Prop} (N : Nat) (h : ∀ m, N ≤ m → Keeps (f m) P) (n : Nat) :
    Keeps (f n) P := by
  intro a ha
  have h1 := hf n (max n N) (by omega) (by rw [ha]; exact fun h => by cases h)
  exact h (max n N) (by omega) a (h1.trans ha)

/-! ### Binary places -/

/-- The number of ones in the binary numeral. -/
def onesOf (m : Nat) : Nat := m.bitIndices.length

/-- The sum of the places of the ones, counted from 1. -/
def placesOf (m : Nat) : Nat := (m.bitIndices.map (· + 1)).sum

theorem bitIndices_top {m : Nat} (hm : m ≠ 0) : m.bitIndices = (m - 2 ^ Nat.log 2 m).bitIndices ++ [Nat.log 2 m] := by
  have h1 := Nat.pow_log_le_self 2 hm
  have h2 := Nat.lt_pow_succ_log_self (b := 2) (by omega) m
  have hs : ((m - 2 ^ Nat.log 2 m).bitIndices ++ [Nat.log 2 m]).SortedLT := by
    rw [List.sortedLT_iff_pairwise, List.pairwise_append]
    refine ⟨Nat.bitIndices_sorted.pairwise, by simp, ?_⟩
    intro a ha b hb
    simp only [List.mem_singleton] at hb
    subst hb
    have h3 := Nat.two_pow_le_of_mem_bitIndices ha
    rw [pow_succ] at h2
    exact (Nat.pow_lt_pow_iff_right (a := 2) (by omega)).1 (by omega)
  have h4 := Nat.bitIndices_sum_map_two_pow hs
  rw [List.map_append, List.sum_append, Nat.sum_map_two_pow_bitIndices] at h4
  simp only [List.map_cons, List.map_nil, List.sum_cons, List.sum_nil, Nat.add_zero] at h4
  rw [Nat.sub_add_cancel h1] at h4
  exact h4

theorem onesOf_top {m : Nat} (hm : m ≠ 0) : onesOf m = onesOf (m - 2 ^ Nat.log 2 m) + 1 := by
  unfold onesOf; rw [bitIndices_top hm]; simp

theorem placesOf_top {m : Nat} (hm : m ≠ 0) : placesOf m = placesOf (m - 2 ^ Nat.log 2 m) + (Nat.log 2 m + 1) := by
  unfold placesOf; rw [bitIndices_top hm]; simp

section
variable (w : Weights)

/-! ### The search -/

theorem costs_absGe {B : Nat} (hB : 2 ≤ B) {a b : List Nat} (ha : InRange B a) (hb : InRange B b) (ha' : NoLeadingZero a) (hb' : NoLeadingZero b)
    {h : Nat} (hh : a.length ≤ h) : Costs (absGeC w a b) 0 (w.digit * h) (fun g => g = decide (natOf B b ≤ natOf B a)) := by
  refine .of_le ((absGe_le w a b).trans (Nat.mul_le_mul_left _ (by omega))) ?_
  rw [res_absGe, absGe_normal (by omega) ha hb ha' hb']
  exact .ok rfl

theorem costs_copy (env : Env) (l : List Nat) {h : Nat} (hl : l.length ≤ h) : Costs (copyC w env l) 0 (w.digit * h) (fun x => x = l) := by
  refine .of_le ?_ ?_
  · exact Nat.mul_le_mul_left _ hl
  · rw [res_copy]; exact keeps_copy env l

theorem costs_shl {L : Limits} (h : Custom L) (env : Env) {l : List Nat} (hl : InRange L.base l) {lo hi : Nat} (h1 : lo ≤ l.length) (h2 : l.length ≤ hi) :
    Costs (shiftLeft1C w L env l) (w.double + w.digit * (lo + 1)) (w.double + w.digit * (hi + 1)) (fun x => x = addRest L.base l l 0) :=
  Costs.weaken (Costs.charge (okOr_shl h env hl).keeps le_rfl) (Nat.add_le_add_left (Nat.mul_le_mul_left _ (by omega)) _)
    (Nat.add_le_add_left (Nat.mul_le_mul_left _ (by omega)) _) fun _ hx => hx

theorem costs_search {L : Limits} (h : Custom L) (env : Env) {n : List Nat} (hn : NZ L.base n) {D : Nat} (hD : 1 ≤ D) (dl : Nat) :
    ∀ (fuel : Nat) (b0 b1 q : List Nat), NZ L.base b0 → NZ L.base b1 → NZ L.base q →
      natOf L.base b0 = D * natOf L.base q → natOf L.base b1 = 2 * natOf L.base b0 →
      natOf L.base b0 ≤ natOf L.base n → dl ≤ b0.length →
      Costs (loopWhileC (fun t => absGeC w n t.bsrch1) (searchBodyC w L env) fuel ⟨b0, b1, q⟩)
        (Nat.log 2 (natOf L.base n / natOf L.base b0) * (w.double + w.digit * (dl + 1)))
        (Nat.log 2 (natOf L.base n / natOf L.base b0) * (w.double + w.digit * (4 * n.length + 2)) + w.digit * n.length)
        (fun t => NZ L.base t.bsrch0 ∧ NZ L.base t.q ∧ natOf L.base t.bsrch0 = D * natOf L.base t.q ∧
          natOf L.base t.bsrch0 = natOf L.base b0 * 2 ^ Nat.log 2 (natOf L.base n / natOf L.base b0) ∧
          natOf L.base t.bsrch0 ≤ natOf L.base n ∧ natOf L.base n < 2 * natOf L.base t.bsrch0)
  | 0, b0, b1, q, _, _, _, _, _, _, _ => ⟨Nat.zero_le _, fun a ha => by cases ha⟩
  | fuel + 1, b0, b1, q, h1, h2, h3, h4, h5, h6, h7 => by
    have hB := h.supported.base_ge
    have hp := h1.pos hB
    rw [loopWhileC]
    by_cases hge : natOf L.base b1 ≤ natOf L.base n
    · obtain ⟨d1, d2⟩ := h2.double hB
      obtain ⟨e1, e2⟩ := h3.double hB
      have hlen1 := length_le_of_natOf_le hB hn.rng h2.nlz hge
      have hq : natOf L.base q ≤ natOf L.base b0 := by rw [h4]; exact Nat.le_mul_of_pos_left _ (by omega)
      have hlenq := length_le_of_natOf_le hB hn.rng h3.nlz (hq.trans h6)
      have hl01 : b0.length ≤ b1.length := length_le_of_natOf_le hB h2.rng h1.nlz (by omega)
      have hlog : Nat.log 2 (natOf L.base n / natOf L.base b0) = Nat.log 2 (natOf L.base n / natOf L.base b1) + 1 := by
        rw [Nat.log_of_one_lt_of_le (by omega), h5, Nat.mul_comm 2, Nat.div_div_eq_div_mul]
        rw [Nat.le_div_iff_mul_le (by omega), ← h5]; exact hge
      have ih := costs_search h env hn hD dl fuel b1 _ _ h2 d1 e1 (by rw [e2, h5, h4]; ring) d2 hge (by omega)
      rw [hlog]
      refine Costs.le (Costs.bind (costs_absGe w hB hn.rng h2.rng hn.nlz h2.nlz le_rfl) (l' := (w.double + w.digit * (dl + 1)) +
        Nat.log 2 (natOf L.base n / natOf L.base b1) * (w.double + w.digit * (dl + 1)))
        (h' := (w.double + w.digit * (3 * n.length + 2)) +
          (Nat.log 2 (natOf L.base n / natOf L.base b1) * (w.double + w.digit * (4 * n.length + 2)) + w.digit * n.length)) fun g hg => ?_)
        (le_of_eq (by ring)) (le_of_eq (by ring))
      · subst hg
        simp only [hge, decide_true, if_true]
        refine .bind (P := fun t => t = ⟨b1, addRest L.base b1 b1 0, addRest L.base q q 0⟩) ?_ ?_
        · unfold searchBodyC
          refine Costs.le (.bind (costs_copy w env b1 hlen1) fun x hx => .bind (costs_shl w h env h2.rng (lo := dl) (by omega) hlen1) fun y hy =>
            .bind (costs_shl ⟨w.digit, w.sub, 0⟩ h env h3.rng (Nat.zero_le _) hlenq) fun z hz => .pure (h := 0) (P := fun t : SearchSt =>
              t = ⟨b1, addRest L.base b1 b1 0, addRest L.base q q 0⟩) (by rw [hx, hy, hz])) ?_ (le_of_eq ?_)
          · omega
          · simp only; ring
        · rintro t rfl
          refine ih.weaken le_rfl le_rfl ?_
          rintro t ⟨g1, g2, g3, g4, g5⟩
          exact ⟨g1, g2, g3, by rw [g4, h5, pow_succ]; ring, g5⟩
    · have hlog : Nat.log 2 (natOf L.base n / natOf L.base b0) = 0 := by
        apply Nat.log_of_lt
        rw [Nat.div_lt_iff_lt_mul (by omega)]; omega
      rw [hlog]
      refine Costs.le (Costs.bind (costs_absGe w hB hn.rng h2.rng hn.nlz h2.nlz le_rfl) (l' := 0) (h' := 0) fun g hg => ?_)
        (le_of_eq (by ring)) (le_of_eq (by ring))
      subst hg
      simp only [hge, decide_false, Bool.false_eq_true, if_false]
      exact .pure ⟨h1, h3, h4, by simp, h6, by simp only; omega⟩

/-! ### The outer loop -/

theorem costs_absSub (L : Limits) (h : Supported L) (env : Env) (fuel : Nat) {a b : List Nat} (ha : InRange L.base a) (hb : InRange L.base b) (hne : a ≠ [])
    (hlen : b.length ≤ a.length) {P : Nat} (hP : a.length ≤ P) :
    Costs (absSubC w L env fuel a (.other b)) w.sub (w.sub + w.digit * (3 * P + 1)) (fun x => x = trim (subRest L.base a b 0)) := by
  refine ⟨(absSub_le' w L env fuel a _).trans (Nat.add_le_add_left (Nat.mul_le_mul_left _ (by omega)) _), fun x hx => ⟨?_, ?_⟩⟩
  · rw [res_absSub] at hx
    exact (mono_absSub L env a (.other b)).keeps (a.length + 1) (fun m hm =>
      (okOr_absSub h env (src := .other b) ha hb hne hlen (by omega)).keeps) fuel x hx
  · unfold absSubC
    rw [Counted.bind_ok (a := ()) rfl]
    exact Nat.le_add_right _ _

theorem costs_absAdd {L : Limits} (h : Supported L) (env : Env) (fuel : Nat) {a b : List Nat} (ha : InRange L.base a) (hb : InRange L.base b)
    {P : Nat} (hP : max a.length b.length ≤ P) :
    Costs (absAddC w L env fuel a (.other b)) 0 (w.digit * (P + 1)) (fun x => x = addFull L.base a b 0) := by
  refine .of_le ((absAdd_le w h env fuel a _).trans (Nat.mul_le_mul_left _ (by simp only [Src.get]; omega))) ?_
  rw [res_absAdd]
  exact (mono_absAdd L env a (.other b)).keeps (max a.length b.length + 1) (fun m hm =>
    (okOr_absAdd h env (src := .other b) ha hb (by simp only [Src.get]; omega)).keeps) fuel

theorem costs_divBody {L : Limits} (h : Custom L) (env : Env) (fuel : Nat) {dv : List Nat} (hdv : NZ L.base dv) {n0 : List Nat} (hn0 : InRange L.base n0)
    {n res : List Nat} (hn : NZ L.base n) (hres : WFDigits L.base res) (hge : natOf L.base dv ≤ natOf L.base n)
    (hinv : natOf L.base n + natOf L.base dv * natOf L.base res = natOf L.base n0) :
    Costs (divBodyC w L env fuel dv ⟨n, res⟩)
      (w.sub + (Nat.log 2 (natOf L.base n / natOf L.base dv) + 1) * (w.double + w.digit * (dv.length + 1)))
      (w.sub + (Nat.log 2 (natOf L.base n / natOf L.base dv) + 1) * w.double +
        w.digit * (8 * n0.length + 4 + Nat.log 2 (natOf L.base n / natOf L.base dv) * (4 * n0.length + 2)))
      (fun s => InRange L.base s.dividend ∧ NoLeadingZero s.dividend ∧ (WFDigits L.base s.res ∧ s.res ≠ []) ∧
        natOf L.base s.dividend = natOf L.base n - natOf L.base dv * 2 ^ Nat.log 2 (natOf L.base n / natOf L.base dv) ∧
        natOf L.base s.res = natOf L.base res + 2 ^ Nat.log 2 (natOf L.base n / natOf L.base dv) ∧
        natOf L.base s.dividend + natOf L.base dv * natOf L.base s.res = natOf L.base n0) := by
  have hB := h.supported.base_ge
  have hp := hdv.pos hB
  obtain ⟨d1, d2⟩ := hdv.double hB
  have hq1 : NZ L.base [1] := ⟨by intro x hx; simp at hx; omega, by simp [NoLeadingZero], by simp⟩
  have hnP : n.length ≤ n0.length := length_le_of_natOf_le hB hn0 hn.nlz (by omega)
  have hdP : dv.length ≤ n0.length := length_le_of_natOf_le hB hn0 hdv.nlz (by omega)
  have hP1 : 1 ≤ n0.length := (List.length_pos_iff.2 hn.ne).trans_le hnP
  have hres0 : natOf L.base res ≤ natOf L.base n0 := by
    have := Nat.le_mul_of_pos_left (natOf L.base res) (show 0 < natOf L.base dv by omega)
    omega
  have hrP : res.length ≤ n0.length := by
    rcases hres.2 with h1 | h1
    · exact length_le_of_natOf_le hB hn0 h1 hres0
    · rw [h1]; simpa using hP1
  generalize hj : Nat.log 2 (natOf L.base n / natOf L.base dv) = j
  have hsearch := costs_search w h env hn hp dv.length fuel dv _ [1] hdv d1 hq1 (by simp) d2 hge le_rfl
  rw [hj] at hsearch
  unfold divBodyC
  refine Costs.le (.bind (costs_copy w env dv hdP) fun b0 hb0 => .bind (costs_copy w env dv hdP) fun b1 hb1 =>
    .bind (costs_copy w env [L.store (L.toSingle 1)] (h := 1) (by simp)) fun q hq =>
    .bind (P := fun b => b = addRest L.base dv dv 0) (l := w.double + w.digit * (dv.length + 1)) (h := w.double + w.digit * (n0.length + 1)) ?_ fun b1' hb1' =>
    .bind (P := fun t => NZ L.base t.bsrch0 ∧ NZ L.base t.q ∧ natOf L.base t.bsrch0 = natOf L.base dv * natOf L.base t.q ∧
          natOf L.base t.bsrch0 = natOf L.base dv * 2 ^ j ∧
          natOf L.base t.bsrch0 ≤ natOf L.base n ∧ natOf L.base n < 2 * natOf L.base t.bsrch0) (l := j * (w.double + w.digit * (dv.length + 1)))
        (h := j * (w.double + w.digit * (4 * n0.length + 2)) + w.digit * n0.length) ?_ fun t ht =>
    .bind (costs_absSub w L h.supported env fuel hn.rng ht.1.rng hn.ne (length_le_of_natOf_le hB hn.rng ht.1.nlz ht.2.2.2.2.1) hnP)
      fun n' hn' => (?_ : Costs _ 0 (w.digit * (n0.length + 1)) _)) (le_of_eq (by ring)) (le_of_eq (by ring))
  · rw [hb1]; exact costs_shl w h env hdv.rng le_rfl hdP
  · rw [hb0, hq, one_store h, hb1']
    refine hsearch.weaken le_rfl (Nat.add_le_add (Nat.mul_le_mul_left _ (Nat.add_le_add_left (Nat.mul_le_mul_left _ (by omega)) _))
      (Nat.mul_le_mul_left _ hnP)) fun _ ht => ht
  · obtain ⟨t0, t1, tq⟩ := t
    obtain ⟨g1, g2, g3, g4, g5, g6⟩ := ht
    simp only at g1 g2 g3 g4 g5 g6 hn' ⊢
    have hlen := length_le_of_natOf_le hB hn.rng g1.nlz g5
    have hsub := subRest_exact hB hn.rng g1.rng hlen g5
    have hqv : natOf L.base tq = 2 ^ j := Nat.eq_of_mul_eq_mul_left (show 0 < natOf L.base dv by omega) (by rw [← g3, g4])
    have hqle : natOf L.base tq ≤ natOf L.base t0 := by rw [g3]; exact Nat.le_mul_of_pos_left _ (by omega)
    have hqP : tq.length ≤ n0.length := length_le_of_natOf_le hB hn0 g2.nlz (by omega)
    have key : ∀ res', (WFDigits L.base res' ∧ res' ≠ []) → natOf L.base res' = natOf L.base res + 2 ^ j →
        InRange L.base n' ∧ NoLeadingZero n' ∧ (WFDigits L.base res' ∧ res' ≠ []) ∧
        natOf L.base n' = natOf L.base n - natOf L.base dv * 2 ^ j ∧ natOf L.base res' = natOf L.base res + 2 ^ j ∧
        natOf L.base n' + natOf L.base dv * natOf L.base res' = natOf L.base n0 := by
      intro res' hw hv
      subst hn'
      refine ⟨trim_inRange (subRest_inRange hB _ _ _ hn.rng g1.rng (by omega)), trim_noLeadingZero _, hw, ?_, hv, ?_⟩ <;>
        rw [natOf_trim, hsub]
      · rw [g4]
      · rw [hv, Nat.mul_add, ← g4]; omega
    split
    · refine Costs.le (.bind (costs_absAdd w h.supported env fuel hres.1 g2.rng (P := n0.length) (by omega)) fun r hr =>
        .pure (h := 0) (key r ?_ ?_)) (by omega) (by omega)
      · rw [hr]; exact ⟨addFull_wf hB hres ⟨g2.rng, .inl g2.nlz⟩, addFull_ne hB hres.1 g2.rng⟩
      · rw [hr, addFull_natOf hB hres.1 g2.rng (by omega), hqv]; omega
    · refine Costs.le (.bind (costs_absAdd w h.supported env fuel g2.rng hres.1 (P := n0.length) (by omega)) fun r hr =>
        .pure (h := 0) (key r ?_ ?_)) (by omega) (by omega)
      · rw [hr]; exact ⟨addFull_wf hB ⟨g2.rng, .inl g2.nlz⟩ hres, addFull_ne hB g2.rng hres.1⟩
      · rw [hr, addFull_natOf hB g2.rng hres.1 (by omega), hqv]; omega

theorem costs_divLoop {L : Limits} (h : Custom L) (env : Env) (bfuel : Nat) {dv : List Nat} (hdv : NZ L.base dv) {n0 : List Nat}
    (hn0 : InRange L.base n0) : ∀ (fuel : Nat) (n res : List Nat), InRange L.base n → NoLeadingZero n → WFDigits L.base res →
      natOf L.base n + natOf L.base dv * natOf L.base res = natOf L.base n0 →
      Costs (loopWhileC (fun s => absGeC w s.dividend dv) (divBodyC w L env bfuel dv) fuel ⟨n, res⟩)
        (onesOf (natOf L.base n / natOf L.base dv) * w.sub +
          placesOf (natOf L.base n / natOf L.base dv) * (w.double + w.digit * (dv.length + 1)))
        (onesOf (natOf L.base n / natOf L.base dv) * (w.sub + w.digit * (5 * n0.length + 2)) +
          placesOf (natOf L.base n / natOf L.base dv) * (w.double + w.digit * (4 * n0.length + 2)) + w.digit * n0.length) (fun _ => True)
  | 0, _, _, _, _, _, _ => ⟨Nat.zero_le _, fun a ha => by cases ha⟩
  | fuel + 1, n, res, h1, h2, h3, h4 => by
    have hB := h.supported.base_ge
    have hp := hdv.pos hB
    have hnP : n.length ≤ n0.length := length_le_of_natOf_le hB hn0 h2 (by omega)
    rw [loopWhileC]
    by_cases hge : natOf L.base dv ≤ natOf L.base n
    · have hnz : NZ L.base n := ⟨h1, h2, by rintro rfl; simp at hge; omega⟩
      have hm : natOf L.base n / natOf L.base dv ≠ 0 := by
        rw [Nat.div_ne_zero_iff]; omega
      have hbody := costs_divBody w h env bfuel hdv hn0 hnz h3 hge h4
      rw [onesOf_top hm, placesOf_top hm]
      generalize hj : Nat.log 2 (natOf L.base n / natOf L.base dv) = j at *
      have hloop : ∀ s : DivSt, (InRange L.base s.dividend ∧ NoLeadingZero s.dividend ∧ (WFDigits L.base s.res ∧ s.res ≠ []) ∧
          natOf L.base s.dividend = natOf L.base n - natOf L.base dv * 2 ^ j ∧ natOf L.base s.res = natOf L.base res + 2 ^ j ∧
          natOf L.base s.dividend + natOf L.base dv * natOf L.base s.res = natOf L.base n0) →
          Costs (loopWhileC (fun s => absGeC w s.dividend dv) (divBodyC w L env bfuel dv) fuel s)
            (onesOf (natOf L.base n / natOf L.base dv - 2 ^ j) * w.sub +
              placesOf (natOf L.base n / natOf L.base dv - 2 ^ j) * (w.double + w.digit * (dv.length + 1)))
            (onesOf (natOf L.base n / natOf L.base dv - 2 ^ j) * (w.sub + w.digit * (5 * n0.length + 2)) +
              placesOf (natOf L.base n / natOf L.base dv - 2 ^ j) * (w.double + w.digit * (4 * n0.length + 2)) + w.digit * n0.length)
            (fun _ => True) := by
        rintro ⟨n', res'⟩ ⟨g1, g2, g3, g4, g5, g6⟩
        simp only at g1 g2 g3 g4 g5 g6
        have ih := costs_divLoop h env bfuel hdv hn0 fuel n' res' g1 g2 g3.1 g6
        rw [g4, Nat.sub_mul_div] at ih
        exact ih
      have hboth := Costs.bind hbody hloop
      refine Costs.le (.bind (P := fun g => g = true) ((costs_absGe w hB h1 hdv.rng h2 hdv.nlz hnP).weaken le_rfl le_rfl (by
        rintro g rfl; simpa using hge)) fun g hg => by rw [if_pos hg]; exact hboth) (le_of_eq (by ring)) (le_of_eq (by ring))
    · have hm : natOf L.base n / natOf L.base dv = 0 := Nat.div_eq_of_lt (by omega)
      rw [hm]
      refine Costs.le (Costs.bind (costs_absGe w hB h1 hdv.rng h2 hdv.nlz hnP) (l' := 0) (h' := 0) fun g hg => ?_)
        (by simp [onesOf, placesOf]) (by simp [onesOf, placesOf])
      subst hg
      simp only [hge, decide_false, Bool.false_eq_true, if_false]
      exact .pure trivial

/-- `abs_val_div` with a normalised divisor, custom bases -/
theorem costs_absDiv {L : Limits} (h : Custom L) (env : Env) (fuel : Nat) {n dv : List Nat} (hdv : NZ L.base dv) (h1 : InRange L.base n)
    (h2 : NoLeadingZero n) :
    Costs (absDivC w L env fuel n dv)
      (onesOf (natOf L.base n / natOf L.base dv) * w.sub +
        placesOf (natOf L.base n / natOf L.base dv) * (w.double + w.digit * (dv.length + 1)))
      (onesOf (natOf L.base n / natOf L.base dv) * (w.sub + w.digit * (5 * n.length + 2)) +
        placesOf (natOf L.base n / natOf L.base dv) * (w.double + w.digit * (4 * n.length + 2)) + w.digit * (n.length + 1)) (fun _ => True) := by
  have hB := h.supported.base_ge
  unfold absDivC
  rw [zero_store h.supported]
  have hw : WFDigits L.base [0] := ⟨by intro x hx; simp at hx; omega, .inr rfl⟩
  have hl := costs_divLoop w h env fuel hdv h1 fuel n [0] h1 h2 hw (by simp)
  have hboth := Costs.bind (costs_copy w env [0] (h := 1) (by simp)) (f := fun res => do
      let s ← loopWhileC (fun s => absGeC w s.dividend dv) (divBodyC w L env fuel dv) fuel ⟨n, res⟩
      Pure.pure s.res) (Q := fun _ => True) fun r hr => by
    rw [hr]
    exact Costs.bind hl fun s _ => .pure (h := 0) trivial
  refine hboth.le ?_ ?_
  · omega
  · exact le_of_eq (by ring)

end
end BN
