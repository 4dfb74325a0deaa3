import Verif.Lemmas.Digit2
import Verif.Lemmas.Compare
/-
Schoolbook multiplication.
-/
namespace BN

/-! ### The loops with counters that do not wrap -/

/-- The inner loop; `j` is the length of the part of `a` already consumed. -/
def natInner (L : Limits) (i bi : Nat) : List Nat → Nat → List Nat → Nat → Res (List Nat × Nat)
  | [], _, ret, remainder => .ok (ret, remainder)
  | aj :: as, j, ret, remainder => do
    let index := i + j
    let r ← Vec.rd ret index
    let (d, rem') ← naiveDigit L r remainder aj bi
    let ret' ← Vec.wr ret index d
    natInner L i bi as (j + 1) ret' rem'

/-- The outer loop. -/
def natOuter (L : Limits) (a : List Nat) : List Nat → Nat → List Nat → Res (List Nat)
  | [], _, ret => .ok ret
  | bi :: bs, i, ret => do
    let (ret, remainder) ← natInner L i bi a 0 ret 0
    let r ← Vec.rd ret (i + a.length)
    let t ← Val.bin .add (L.digit r) ⟨.prim (cU 32), remainder⟩
    let ret ← Vec.wr ret (i + a.length) (L.store t)
    natOuter L a bs (i + 1) ret

/-- The whole multiplication. -/
def natMul (L : Limits) (env : Env) (a b : List Nat) : Res (List Nat) := do
  let totalLen := a.length + b.length
  if totalLen = 0 then .ok []
  else
    let ret ← Vec.resize env [] totalLen 0
    natOuter L a b 0 ret


theorem natInner_eq {L : Limits} {a b : List Nat} {i bi : Nat} (hi : Vec.rd b i = .ok bi) (hlen : i + a.length ≤ 2 ^ 32)
    (ha : a.length < 2 ^ 32) : ∀ (as pre : List Nat), a = pre ++ as → ∀ (fuel : Nat) (ret : List Nat) (rem : Nat), as.length < fuel →
    (do let s ← loopWhile (fun s => .ok (decide (s.j < a.length))) (naiveBody L a b i) fuel ⟨pre.length, ret, rem⟩
        (.ok (s.ret, s.remainder) : Res (List Nat × Nat))) = natInner L i bi as pre.length ret rem
  | [], pre, e, fuel, ret, rem, hf => by
    obtain ⟨n, rfl⟩ : ∃ n, fuel = n + 1 := ⟨fuel - 1, by simp at hf; omega⟩
    have hl : ¬ pre.length < a.length := by rw [e]; simp
    rw [loopWhile]
    simp only [ok_bind, decide_eq_true_eq, if_neg hl, natInner]
  | x :: as, pre, e, fuel, ret, rem, hf => by
    obtain ⟨n, rfl⟩ : ∃ n, fuel = n + 1 := ⟨fuel - 1, by simp at hf; omega⟩
    have hl : pre.length < a.length := by rw [e]; simp
    rw [loopWhile]
    simp only [ok_bind, decide_eq_true_eq, if_pos hl, natInner]
    have hx : Vec.rd a pre.length = .ok x := by rw [rd_eq hl]; simp [e]
    have hb : naiveBody L a b i ⟨pre.length, ret, rem⟩ = (do
        let r ← Vec.rd ret (i + pre.length)
        let (d, rem') ← naiveDigit L r rem x bi
        let ret ← Vec.wr ret (i + pre.length) d
        .ok ⟨pre.length + 1, ret, rem'⟩) := by
      unfold naiveBody
      simp only [hx, hi, ok_bind]
      rw [Nat.mod_eq_of_lt (show i + pre.length < 2 ^ 32 by omega), Nat.mod_eq_of_lt (show pre.length + 1 < 2 ^ 32 by omega)]
    rw [hb]
    cases h1 : Vec.rd ret (i + pre.length) with
    | error f => rfl
    | ok r =>
      simp only [ok_bind]
      cases h2 : naiveDigit L r rem x bi with
      | error f => rfl
      | ok p =>
        simp only [ok_bind]
        cases h3 : Vec.wr ret (i + pre.length) p.1 with
        | error f => rfl
        | ok ret' =>
          simp only [ok_bind]
          have ih := natInner_eq (L := L) hi hlen ha as (pre ++ [x]) (by simp [e]) n ret' p.2 (by simp at hf; omega)
          simpa using ih

theorem natOuter_eq {L : Limits} {a b : List Nat} (ha : a.length < 2 ^ 32) (hb : b.length < 2 ^ 32) (hlen : a.length + b.length ≤ 2 ^ 32 + 1) {fuel : Nat}
    (hfa : a.length < fuel) : ∀ (bs pre : List Nat), b = pre ++ bs → ∀ (n : Nat) (ret : List Nat), bs.length < n →
    (do let s ← loopWhile (fun s => .ok (decide (s.1 < b.length))) (naiveRow L fuel a b) n (pre.length, ret)
        (.ok s.2 : Res (List Nat))) = natOuter L a bs pre.length ret
  | [], pre, e, n, ret, hn => by
    obtain ⟨n, rfl⟩ : ∃ m, n = m + 1 := ⟨n - 1, by simp at hn; omega⟩
    have hl : ¬ pre.length < b.length := by rw [e]; simp
    rw [loopWhile]
    simp only [ok_bind, decide_eq_true_eq, if_neg hl, natOuter]
  | y :: bs, pre, e, n, ret, hn => by
    obtain ⟨n, rfl⟩ : ∃ m, n = m + 1 := ⟨n - 1, by simp at hn; omega⟩
    have hl : pre.length < b.length := by rw [e]; simp
    have hy : Vec.rd b pre.length = .ok y := by rw [rd_eq hl]; simp [e]
    rw [loopWhile]
    simp only [ok_bind, decide_eq_true_eq, if_pos hl, natOuter]
    have h1 := natInner_eq (L := L) hy (by omega) ha a [] rfl fuel ret 0 hfa
    have hr : naiveRow L fuel a b (pre.length, ret) = (do
        let (ret, remainder) ← natInner L pre.length y a 0 ret 0
        let r ← Vec.rd ret (pre.length + a.length)
        let t ← Val.bin .add (L.digit r) ⟨.prim (cU 32), remainder⟩
        let ret ← Vec.wr ret (pre.length + a.length) (L.store t)
        .ok (pre.length + 1, ret)) := by
      unfold naiveRow naiveInner
      simp only [List.length_nil] at h1
      simp only [h1]
      rw [Nat.mod_eq_of_lt (show pre.length + 1 < 2 ^ 32 by omega)]
    rw [hr]
    cases natInner L pre.length y a 0 ret 0 with
    | error f => rfl
    | ok p =>
      simp only [ok_bind]
      cases Vec.rd p.1 (pre.length + a.length) with
      | error f => rfl
      | ok r =>
        simp only [ok_bind]
        cases Val.bin .add (L.digit r) ⟨.prim (cU 32), p.2⟩ with
        | error f => rfl
        | ok t =>
          simp only [ok_bind]
          cases Vec.wr p.1 (pre.length + a.length) (L.store t) with
          | error f => rfl
          | ok ret' =>
            simp only [ok_bind]
            have ih := natOuter_eq (L := L) ha hb hlen hfa bs (pre ++ [y]) (by simp [e]) n ret' (by simp at hn; omega)
            simpa using ih

/-- As long as the counters suffice, they do not matter. -/
theorem mulNaive_eq (L : Limits) (env : Env) {a b : List Nat} (ha : a.length < 2 ^ 32) (hb : b.length < 2 ^ 32)
    (hlen : a.length + b.length ≤ 2 ^ 32 + 1) {fuel : Nat} (hfa : a.length < fuel) (hfb : b.length < fuel) :
    mulNaive L env fuel a b = natMul L env a b := by
  unfold mulNaive natMul
  simp only
  split
  · rfl
  · cases Vec.resize env [] (a.length + b.length) 0 with
    | error f => rfl
    | ok ret => exact natOuter_eq ha hb hlen hfa b [] rfl fuel ret hfb

/-! ### Their values -/

theorem naiveTop_eq {L : Limits} (h : CustomSq L) {r c : Nat} (hs : r + c < L.base) :
    (do let t ← Val.bin .add (L.digit r) ⟨.prim (cU 32), c⟩
        (.ok (L.store t) : Res Nat)) = .ok (r + c) := by
  obtain ⟨w, max, hw, h1, h2, rfl⟩ := h
  have hB : (Limits.custom w max).base = max + 1 := rfl
  rw [hB] at hs
  have e : (max + 1) * (max + 1) = max * max + 2 * max + 1 := by ring
  rw [e] at h2
  have h6 : 1 ≤ max * max := Nat.mul_le_mul h1 h1
  generalize max * max = M at *
  rcases hw with rfl | rfl | rfl | rfl
  · lim; cB .add; lim
    simp only [Except.ok.injEq]; omega
  · lim; cB .add; lim
    simp only [Except.ok.injEq]; omega
  · lim; cB .add; lim
    simp only [Except.ok.injEq]; omega
  · lim; cB .add; lim
    simp only [Except.ok.injEq]; omega

theorem rd_append (P : List Nat) (x : Nat) (Q : List Nat) : Vec.rd (P ++ x :: Q) P.length = .ok x := by
  rw [rd_eq (by simp)]; simp

theorem wr_append (P : List Nat) (x y : Nat) (Q : List Nat) :
    Vec.wr (P ++ x :: Q) P.length y = .ok (P ++ y :: Q) := by
  unfold Vec.wr
  rw [if_pos (by simp)]
  simp

theorem natInner_val {L : Limits} (h : CustomSq L) (i : Nat) {y : Nat} (hy : y < L.base) (Q : List Nat) :
    ∀ (as : List Nat) (j : Nat) (P M : List Nat) (c : Nat), P.length = i + j → M.length = as.length →
      InRange L.base as → InRange L.base M → c < L.base →
      ∃ M' c', natInner L i y as j (P ++ (M ++ Q)) c = .ok (P ++ (M' ++ Q), c') ∧ M'.length = as.length ∧
        InRange L.base M' ∧ c' < L.base ∧
        natOf L.base M' + L.base ^ as.length * c' = natOf L.base M + y * natOf L.base as + c
  | [], j, P, M, c, _, hM, _, _, hc => by
    have : M = [] := by simpa using hM
    subst this
    exact ⟨[], c, rfl, rfl, InRange.nil _, hc, by simp⟩
  | x :: as, j, P, M, c, hP, hM, has, hMr, hc => by
    obtain ⟨m, M, rfl⟩ : ∃ m M0, M = m :: M0 := List.exists_cons_of_ne_nil (by intro h0; simp [h0] at hM)
    rw [natInner]
    simp only [← hP, List.cons_append]
    rw [rd_append, ok_bind, naiveDigit_eq h hMr.head hc has.head hy, ok_bind]
    simp only
    rw [wr_append, ok_bind]
    have hBpos : 0 < L.base := Nat.succ_pos _
    have hc' : (m + c + x * y) / L.base < L.base := by
      apply Nat.div_lt_of_lt_mul
      have hm := hMr.head
      have hx := has.head
      have : x * y ≤ (L.base - 1) * (L.base - 1) := Nat.mul_le_mul (by omega) (by omega)
      have e : L.base * L.base = (L.base - 1) * (L.base - 1) + 2 * (L.base - 1) + 1 := by
        obtain ⟨k, hk⟩ : ∃ k, L.base = k + 1 := ⟨L.base - 1, by omega⟩
        rw [hk]; simp; ring
      omega
    have hlen : (P ++ [(m + c + x * y) % L.base]).length = i + (j + 1) := by simp [hP]; omega
    obtain ⟨M', c', h1, h2, h3, h4, h5⟩ := natInner_val h i hy Q as (j + 1) (P ++ [(m + c + x * y) % L.base]) M
      ((m + c + x * y) / L.base) hlen (by simpa using hM) has.tail hMr.tail hc'
    refine ⟨(m + c + x * y) % L.base :: M', c', ?_, by simp [h2], h3.cons (Nat.mod_lt _ hBpos), h4, ?_⟩
    · rw [← hP] at *
      simpa using h1
    · have hdm := Nat.mod_add_div (m + c + x * y) L.base
      simp only [natOf_cons, List.length_cons, pow_succ]
      have h5' : L.base * (natOf L.base M' + L.base ^ as.length * c') =
          L.base * (natOf L.base M + y * natOf L.base as + (m + c + x * y) / L.base) := by rw [h5]
      rw [Nat.mul_add] at h5'
      calc (m + c + x * y) % L.base + L.base * natOf L.base M' + L.base ^ as.length * L.base * c'
          = (m + c + x * y) % L.base + (L.base * natOf L.base M' + L.base * (L.base ^ as.length * c')) := by ring
        _ = (m + c + x * y) % L.base + L.base * (natOf L.base M + y * natOf L.base as + (m + c + x * y) / L.base) := by
            rw [h5']
        _ = ((m + c + x * y) % L.base + L.base * ((m + c + x * y) / L.base)) + L.base * (natOf L.base M + y * natOf L.base as) := by ring
        _ = _ := by rw [hdm]; ring

theorem natOuter_val {L : Limits} (h : CustomSq L) {a : List Nat} (ha : InRange L.base a) :
    ∀ (bs : List Nat) (i : Nat) (R : List Nat), R.length = i + a.length → InRange L.base bs → InRange L.base R →
      ∃ R', natOuter L a bs i (R ++ List.replicate bs.length 0) = .ok R' ∧
        R'.length = i + a.length + bs.length ∧ InRange L.base R' ∧
        natOf L.base R' = natOf L.base R + L.base ^ i * (natOf L.base a * natOf L.base bs)
  | [], i, R, hR, _, hRr => ⟨R, by simp [natOuter], by simp [hR], hRr, by simp⟩
  | y :: bs, i, R, hR, hb, hRr => by
    have hBpos : 0 < L.base := Nat.succ_pos _
    have hPl : (R.take i).length = i := by simp; omega
    have hMl : (R.drop i).length = a.length := by simp; omega
    obtain ⟨M', c', h1, h2, h3, h4, h5⟩ := natInner_val h i hb.head (List.replicate (bs.length + 1) 0) a 0
      (R.take i) (R.drop i) 0 (by simpa using hPl) hMl ha (hRr.drop i) hBpos
    rw [natOuter]
    have e1 : R ++ List.replicate (y :: bs).length 0 =
        R.take i ++ (R.drop i ++ List.replicate (bs.length + 1) 0) := by
      rw [← List.append_assoc, List.take_append_drop]; simp
    rw [e1, h1, ok_bind]
    simp only
    have e2 : R.take i ++ (M' ++ List.replicate (bs.length + 1) 0) =
        (R.take i ++ M') ++ 0 :: List.replicate bs.length 0 := by simp [List.replicate_succ]
    have e3 : i + a.length = (R.take i ++ M').length := by simp [h2]; omega
    rw [e2, e3, rd_append, ok_bind]
    have htop := naiveTop_eq h (r := 0) (c := c') (by omega)
    rw [Nat.zero_add] at htop
    cases hb' : Val.bin .add (L.digit 0) ⟨.prim (cU 32), (c' : Int)⟩ with
    | error e => rw [hb'] at htop; cases htop
    | ok t =>
      rw [hb', ok_bind] at htop
      have hst : L.store t = c' := by injection htop
      rw [ok_bind, hst, wr_append, ok_bind]
      have e4 : (R.take i ++ M') ++ c' :: List.replicate bs.length 0 =
          (R.take i ++ M' ++ [c']) ++ List.replicate bs.length 0 := by simp
      rw [e4]
      obtain ⟨R', g1, g2, g3, g4⟩ := natOuter_val h ha bs (i + 1) (R.take i ++ M' ++ [c'])
        (by simp [h2]; omega) hb.tail
        (((hRr.take i).append h3).append (InRange.nil _ |>.cons h4))
      refine ⟨R', g1, by rw [g2, List.length_append]; simp [h2]; omega, g3, ?_⟩
      rw [g4, natOf_append, natOf_append, natOf_take_add_drop L.base R i]
      simp only [List.length_append, hPl, h2, natOf_cons, natOf_nil, pow_succ, pow_add, Nat.mul_zero, Nat.add_zero] at *
      have h5' := congrArg (L.base ^ i * ·) h5
      simp only [Nat.mul_add] at h5'
      calc natOf L.base (R.take i) + L.base ^ i * natOf L.base M' + L.base ^ i * L.base ^ a.length * c' +
            L.base ^ i * L.base * (natOf L.base a * natOf L.base bs)
          = natOf L.base (R.take i) + (L.base ^ i * natOf L.base M' + L.base ^ i * (L.base ^ a.length * c')) +
            L.base ^ i * L.base * (natOf L.base a * natOf L.base bs) := by ring
        _ = natOf L.base (R.take i) + (L.base ^ i * natOf L.base (R.drop i) + L.base ^ i * (y * natOf L.base a)) +
            L.base ^ i * L.base * (natOf L.base a * natOf L.base bs) := by rw [h5']
        _ = _ := by ring

end BN
