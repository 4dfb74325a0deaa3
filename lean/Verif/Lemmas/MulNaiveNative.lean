import Verif.Lemmas.MulNaive
import Verif.Lemmas.Conv
/-
Schoolbook multiplication on built-in digit types: the carries are lost.
-/
namespace BN
set_option linter.unusedSimpArgs false

/-- Whether `a[j] * b[i]` is defined: `uint16_t` operands are promoted to `int`. -/
def ProdFits (L : Limits) (x y : Nat) : Prop := L.single = .prim (cU 16) → x * y < 2 ^ 31

theorem naiveDigit_native {L : Limits} (h : Native L) {r x y : Nat} (hr : r < L.base) (hx : x < L.base) (hy : y < L.base)
    (hp : ProdFits L x y) : naiveDigit L r 0 x y = .ok ((r + x * y) % L.base, 0) := by
  have hxz : (x : Int) * y = ((x * y : Nat) : Int) := by push_cast; rfl
  cases h
  · have hxy : x * y ≤ 255 * 255 := by
      apply Nat.mul_le_mul <;> (have h1 := hx; have h2 := hy; lim; omega)
    generalize hP : x * y = P at *
    unfold naiveDigit naiveBase
    lim; cI .add; lim; rw [vbin_int .mul rfl] <;> try (first | cside | (simp only [BinOp.exact, hxz]; omega))
    lim; rw [hxz]; cUu 32 .add; lim; try simp (disch := omega) only [Int.emod_eq_of_lt]
    cUu 32 .add; lim; cI .div; lim; cI .mod; lim
    simp only [Except.ok.injEq, Prod.mk.injEq]
    omega
  · have hxy : x * y < 2 ^ 31 := hp rfl
    generalize hP : x * y = P at *
    unfold naiveDigit naiveBase
    lim; cUu 32 .add; lim; rw [vbin_int .mul rfl] <;> try (first | cside | (simp only [BinOp.exact, hxz]; omega))
    lim; rw [hxz]; cUu 32 .add; lim; try simp (disch := omega) only [Int.emod_eq_of_lt]
    cUu 32 .add; lim; cUu 32 .div; lim; cUu 32 .mod; lim
    simp only [Except.ok.injEq, Prod.mk.injEq]
    omega
  · generalize hP : x * y = P at *
    unfold naiveDigit naiveBase
    lim; cUu 64 .add; lim; cUu 32 .mul; lim; rw [hxz]
    cUu 32 .add; lim; cUu 32 .add; lim; cUu 64 .div; lim; cUu 64 .mod; lim
    simp only [Except.ok.injEq, Prod.mk.injEq]
    omega
  · have hxy : x * y ≤ 255 * 255 := by
      apply Nat.mul_le_mul <;> (have h1 := hx; have h2 := hy; lim; omega)
    generalize hP : x * y = P at *
    unfold naiveDigit naiveBase
    lim; cUu 32 .add; lim; rw [vbin_int .mul rfl] <;> try (first | cside | (simp only [BinOp.exact, hxz]; omega))
    lim; rw [hxz]; cUu 32 .add; lim; try simp (disch := omega) only [Int.emod_eq_of_lt]
    cUu 32 .add; lim; cUu 32 .div; lim; cUu 32 .mod; lim
    simp only [Except.ok.injEq, Prod.mk.injEq]
    omega
  · have hxy : x * y ≤ 255 * 255 := by
      apply Nat.mul_le_mul <;> (have h1 := hx; have h2 := hy; lim; omega)
    generalize hP : x * y = P at *
    unfold naiveDigit naiveBase
    lim; cUu 64 .add; lim; rw [vbin_int .mul rfl] <;> try (first | cside | (simp only [BinOp.exact, hxz]; omega))
    lim; rw [hxz]; cUu 32 .add; lim; try simp (disch := omega) only [Int.emod_eq_of_lt]
    cUu 32 .add; lim; cUu 64 .div; lim; cUu 64 .mod; lim
    simp only [Except.ok.injEq, Prod.mk.injEq]
    omega
  · have hxy : x * y < 2 ^ 31 := hp rfl
    generalize hP : x * y = P at *
    unfold naiveDigit naiveBase
    lim; cUu 64 .add; lim; rw [vbin_int .mul rfl] <;> try (first | cside | (simp only [BinOp.exact, hxz]; omega))
    lim; rw [hxz]; cUu 32 .add; lim; try simp (disch := omega) only [Int.emod_eq_of_lt]
    cUu 32 .add; lim; cUu 64 .div; lim; cUu 64 .mod; lim
    simp only [Except.ok.injEq, Prod.mk.injEq]
    omega

theorem resI_over {z : Int} (h : 2147483648 ≤ z) : cInt.result z = .error (.ub .signedOverflow) := by
  have h1 : ¬ z < 2147483648 := by omega
  simp [CTy.result, CTy.fits, cInt, h1]

theorem native16_base {L : Limits} (h : Native L) (h16 : L.single = .prim (cU 16)) : L.base = 65536 := by
  cases h <;> first | rfl | (exact absurd h16 (by decide))

theorem naiveDigit_16_ub {L : Limits} (h : Native L) (h16 : L.single = .prim (cU 16)) {r x y : Nat} (hx : x < 65536) (hy : y < 65536)
    (hp : 2 ^ 31 ≤ x * y) : naiveDigit L r 0 x y = .error (.ub .signedOverflow) := by
  have hxz : (x : Int) * y = ((x * y : Nat) : Int) := by push_cast; rfl
  have hm : Val.bin .mul (L.digit x) (L.digit y) = .error (.ub .signedOverflow) := by
    have e1 : ((cU 16).promote.common (cU 16).promote) = cInt := by decide
    simp only [Val.bin, Val.raw, Limits.digit, h16, Ty.raw, CVal.bin, e1]
    rw [wrapI (by omega) (by omega), wrapI (by omega) (by omega), resI_over (by rw [hxz]; omega)]
    rfl
  unfold naiveDigit
  rw [hm]
  have hb : ∃ v, naiveBase L = .ok v := by cases h <;> exact ⟨_, by rfl⟩
  obtain ⟨v, hv⟩ := hb
  rw [hv]; rfl

theorem naiveTop_native {L : Limits} (h : Native L) :
    ∃ t, Val.bin .add (L.digit 0) ⟨.prim (cU 32), ((0 : Nat) : Int)⟩ = .ok t ∧ L.store t = 0 := by
  cases h <;> exact ⟨⟨.prim (cU 32), 0⟩, by decide, by decide⟩

/-- One pass of the inner loop: a row is added without carries. -/
def addRow (B y : Nat) : List Nat → List Nat → List Nat
  | m :: M, x :: as => (m + x * y) % B :: addRow B y M as
  | _, _ => []

theorem natInner_native {L : Limits} (h : Native L) (i : Nat) {y : Nat} (hy : y < L.base) (Q : List Nat) :
    ∀ (as : List Nat) (j : Nat) (P M : List Nat), P.length = i + j → M.length = as.length →
      InRange L.base as → InRange L.base M → (∀ x ∈ as, ProdFits L x y) →
      natInner L i y as j (P ++ (M ++ Q)) 0 = .ok (P ++ (addRow L.base y M as ++ Q), 0)
  | [], j, P, M, _, hM, _, _, _ => by
    have : M = [] := by simpa using hM
    subst this
    simp [natInner, addRow]
  | x :: as, j, P, M, hP, hM, has, hMr, hpf => by
    obtain ⟨m, M, rfl⟩ : ∃ m M0, M = m :: M0 := List.exists_cons_of_ne_nil (by intro h0; simp [h0] at hM)
    rw [natInner]
    simp only [← hP, List.cons_append]
    rw [rd_append, ok_bind, naiveDigit_native h hMr.head has.head hy (hpf x (by simp)), ok_bind]
    simp only
    rw [wr_append, ok_bind]
    have hlen : (P ++ [(m + x * y) % L.base]).length = i + (j + 1) := by simp [hP]; omega
    have ih := natInner_native h i hy Q as (j + 1) (P ++ [(m + x * y) % L.base]) M hlen (by simpa using hM)
      has.tail hMr.tail (fun z hz => hpf z (by simp [hz]))
    rw [addRow]
    rw [← hP] at *
    simpa using ih

theorem addRow_length {B y : Nat} : ∀ (M as : List Nat), M.length = as.length → (addRow B y M as).length = as.length
  | [], [], _ => rfl
  | m :: M, x :: as, h => by rw [addRow]; simp [addRow_length M as (by simpa using h)]
  | [], _ :: _, h => by simp at h
  | _ :: _, [], h => by simp at h

theorem addRow_inRange {B y : Nat} (hB : 0 < B) : ∀ (M as : List Nat), M.length = as.length → InRange B (addRow B y M as)
  | [], [], _ => .nil _
  | m :: M, x :: as, h => by
    rw [addRow]; exact (addRow_inRange hB M as (by simpa using h)).cons (Nat.mod_lt _ hB)
  | [], _ :: _, h => by simp at h
  | _ :: _, [], h => by simp at h

theorem addRow_getD {B y : Nat} : ∀ (M as : List Nat), M.length = as.length → ∀ k,
    (addRow B y M as).getD k 0 = (M.getD k 0 + as.getD k 0 * y) % B
  | [], [], _, k => by simp [addRow]
  | m :: M, x :: as, h, 0 => by simp [addRow]
  | m :: M, x :: as, h, k + 1 => by
    rw [addRow]; simp only [List.getD_cons_succ]; exact addRow_getD M as (by simpa using h) k
  | [], _ :: _, h, _ => by simp at h
  | _ :: _, [], h, _ => by simp at h

theorem getD_append_left' (l m : List Nat) {k : Nat} (h : k < l.length) : (l ++ m).getD k 0 = l.getD k 0 := by
  simp [List.getD_eq_getElem?_getD, List.getElem?_append_left h]

theorem getD_append_right' (l m : List Nat) {k : Nat} (h : l.length ≤ k) : (l ++ m).getD k 0 = m.getD (k - l.length) 0 := by
  simp [List.getD_eq_getElem?_getD, List.getElem?_append_right h]

theorem natOuter_native {L : Limits} (h : Native L) {a : List Nat} (ha : InRange L.base a) :
    ∀ (bs : List Nat) (i : Nat) (R : List Nat), R.length = i + a.length → InRange L.base bs → InRange L.base R →
      (∀ x ∈ a, ∀ y ∈ bs, ProdFits L x y) →
      ∃ R', natOuter L a bs i (R ++ List.replicate bs.length 0) = .ok R' ∧
        R'.length = i + a.length + bs.length ∧
        ∀ k, R'.getD k 0 = (R.getD k 0 + if k < i then 0 else colSum bs a (k - i)) % L.base
  | [], i, R, hR, _, hRr, _ => by
    refine ⟨R, by simp [natOuter], by simp [hR], fun k => ?_⟩
    have : R.getD k 0 < L.base := by
      by_cases hk : k < R.length
      · rw [List.getD_eq_getElem _ _ hk]; exact hRr _ (List.getElem_mem hk)
      · rw [List.getD_eq_default _ _ (by omega)]; exact Nat.succ_pos _
    rw [colSum_nil_left]
    split <;> rw [Nat.add_zero, Nat.mod_eq_of_lt this]
  | y :: bs, i, R, hR, hb, hRr, hpf => by
    have hBpos : 0 < L.base := Nat.succ_pos _
    have hPl : (R.take i).length = i := by simp; omega
    have hMl : (R.drop i).length = a.length := by simp; omega
    have h1 := natInner_native h i hb.head (List.replicate (bs.length + 1) 0) a 0
      (R.take i) (R.drop i) (by simpa using hPl) hMl ha (hRr.drop i) (fun x hx => hpf x hx y (by simp))
    have h2 := addRow_length (B := L.base) (y := y) _ _ hMl
    have h3 := addRow_inRange (y := y) hBpos _ _ hMl
    have h6 := addRow_getD (B := L.base) (y := y) _ _ hMl
    generalize addRow L.base y (R.drop i) a = M' at h1 h2 h3 h6
    rw [natOuter]
    have e1 : R ++ List.replicate (y :: bs).length 0 =
        R.take i ++ (R.drop i ++ List.replicate (bs.length + 1) 0) := by
      rw [← List.append_assoc, List.take_append_drop]; simp
    rw [e1, h1, ok_bind]
    simp only
    have e2 : R.take i ++ (M' ++ List.replicate (bs.length + 1) 0) =
        (R.take i ++ M') ++ 0 :: List.replicate bs.length 0 := by simp [List.replicate_succ]
    have e3 : i + a.length = (R.take i ++ M').length := by simp [h2]; omega
    rw [e2, e3, rd_append, ok_bind]
    obtain ⟨t, ht, hst⟩ := naiveTop_native h
    rw [ht, ok_bind, hst, wr_append, ok_bind]
    have e4 : (R.take i ++ M') ++ 0 :: List.replicate bs.length 0 =
        (R.take i ++ M' ++ [0]) ++ List.replicate bs.length 0 := by simp
    rw [e4]
    obtain ⟨R', g1, g2, g3⟩ := natOuter_native h ha bs (i + 1) (R.take i ++ M' ++ [0])
      (by simp [h2]; omega) hb.tail
      (((hRr.take i).append h3).append (InRange.nil _ |>.cons hBpos)) (fun x hx z hz => hpf x hx z (by simp [hz]))
    refine ⟨R', g1, by rw [g2, List.length_append]; simp [h2]; omega, fun k => ?_⟩
    rw [g3 k]
    have hlenP : (R.take i ++ M').length = i + a.length := e3.symm
    by_cases hk1 : k < i
    · rw [if_pos (by omega), if_pos hk1, getD_append_left' _ _ (by omega), getD_append_left' _ _ (by omega)]
      congr 2
      rw [List.getD_eq_getElem _ _ (by omega), List.getD_eq_getElem _ _ (by omega), List.getElem_take]
    · rw [if_neg hk1]
      have hkk : (R.take i ++ M' ++ [0]).getD k 0 = M'.getD (k - i) 0 := by
        by_cases hk2 : k < i + a.length
        · rw [getD_append_left' _ _ (by omega), getD_append_right' _ _ (by omega), hPl]
        · rw [getD_append_right' _ _ (by omega), List.getD_eq_default M' _ (by omega)]
          cases hkl : k - (R.take i ++ M').length <;> simp
      have hdrop : (R.drop i).getD (k - i) 0 = R.getD k 0 := by
        simp [List.getD_eq_getElem?_getD, List.getElem?_drop, show i + (k - i) = k by omega]
      rw [hkk, h6, hdrop, Nat.mod_add_mod, Nat.add_assoc]
      congr 2
      rcases Nat.lt_or_ge k (i + 1) with hk3 | hk3
      · have : k - i = 0 := by omega
        rw [if_pos hk3, this, colSum_cons_zero, Nat.add_zero, Nat.mul_comm]
      · rw [if_neg (by omega), show k - i = (k - (i + 1)) + 1 by omega, colSum_cons_succ, Nat.mul_comm]

/-- The other case for 16-bit digits: some product overflows `int`. -/
theorem natInner_16_ub {L : Limits} (h : Native L) (h16 : L.single = .prim (cU 16)) (i : Nat) {y : Nat} (hy : y < 65536) (Q : List Nat) :
    ∀ (as : List Nat) (j : Nat) (P M : List Nat), P.length = i + j → M.length = as.length →
      InRange 65536 as → InRange 65536 M → (∃ x ∈ as, 2 ^ 31 ≤ x * y) →
      natInner L i y as j (P ++ (M ++ Q)) 0 = .error (.ub .signedOverflow)
  | [], j, P, M, _, _, _, _, hex => by obtain ⟨x, hx, -⟩ := hex; cases hx
  | x :: as, j, P, M, hP, hM, has, hMr, hex => by
    have hB := native16_base h h16
    obtain ⟨m, M, rfl⟩ : ∃ m M0, M = m :: M0 := List.exists_cons_of_ne_nil (by intro h0; simp [h0] at hM)
    rw [natInner]
    simp only [← hP, List.cons_append]
    rw [rd_append, ok_bind]
    by_cases hxy : 2 ^ 31 ≤ x * y
    · rw [naiveDigit_16_ub h h16 has.head hy hxy]; rfl
    · rw [naiveDigit_native h (by rw [hB]; exact hMr.head) (by rw [hB]; exact has.head) (by rw [hB]; exact hy) (fun _ => by omega), ok_bind]
      simp only
      rw [wr_append, ok_bind]
      have hlen : (P ++ [(m + x * y) % L.base]).length = i + (j + 1) := by simp [hP]; omega
      have ih := natInner_16_ub h h16 i hy Q as (j + 1) (P ++ [(m + x * y) % L.base]) M hlen (by simpa using hM)
        has.tail hMr.tail (by
          obtain ⟨z, hz, hzy⟩ := hex
          rcases List.mem_cons.1 hz with rfl | hz
          · exact absurd hzy hxy
          · exact ⟨z, hz, hzy⟩)
      rw [← hP] at *
      simpa using ih

theorem natOuter_16_ub {L : Limits} (h : Native L) (h16 : L.single = .prim (cU 16)) {a : List Nat} (ha : InRange 65536 a) :
    ∀ (bs : List Nat) (i : Nat) (R : List Nat), R.length = i + a.length → InRange 65536 bs → InRange 65536 R →
      (∃ x ∈ a, ∃ y ∈ bs, 2 ^ 31 ≤ x * y) →
      natOuter L a bs i (R ++ List.replicate bs.length 0) = .error (.ub .signedOverflow)
  | [], i, R, _, _, _, hex => by obtain ⟨x, _, y, hy, -⟩ := hex; cases hy
  | y :: bs, i, R, hR, hb, hRr, hex => by
    have hB := native16_base h h16
    have hPl : (R.take i).length = i := by simp; omega
    have hMl : (R.drop i).length = a.length := by simp; omega
    have e1 : R ++ List.replicate (y :: bs).length 0 =
        R.take i ++ (R.drop i ++ List.replicate (bs.length + 1) 0) := by
      rw [← List.append_assoc, List.take_append_drop]; simp
    rw [natOuter, e1]
    by_cases hxy : ∃ x ∈ a, 2 ^ 31 ≤ x * y
    · rw [natInner_16_ub h h16 i hb.head _ a 0 (R.take i) (R.drop i) (by simpa using hPl) hMl ha (hRr.drop i) hxy]
      rfl
    · have h1 := natInner_native h i (by rw [hB]; exact hb.head) (List.replicate (bs.length + 1) 0) a 0
        (R.take i) (R.drop i) (by simpa using hPl) hMl (by rw [hB]; exact ha) (by rw [hB]; exact hRr.drop i)
        (fun x hx _ => by
          by_contra hc
          exact hxy ⟨x, hx, by omega⟩)
      have h2 := addRow_length (B := L.base) (y := y) _ _ hMl
      have h3 := addRow_inRange (B := 65536) (y := y) (by omega) _ _ hMl
      rw [h1, ok_bind]
      simp only
      rw [← hB] at h3
      generalize addRow L.base y (R.drop i) a = M' at h2 h3
      rw [hB] at h3
      have e2 : R.take i ++ (M' ++ List.replicate (bs.length + 1) 0) =
          (R.take i ++ M') ++ 0 :: List.replicate bs.length 0 := by simp [List.replicate_succ]
      have e3 : i + a.length = (R.take i ++ M').length := by simp [h2]; omega
      rw [e2, e3, rd_append, ok_bind]
      obtain ⟨t, ht, hst⟩ := naiveTop_native h
      rw [ht, ok_bind, hst, wr_append, ok_bind]
      have e4 : (R.take i ++ M') ++ 0 :: List.replicate bs.length 0 =
          (R.take i ++ M' ++ [0]) ++ List.replicate bs.length 0 := by simp
      rw [e4]
      refine natOuter_16_ub h h16 ha bs (i + 1) _ (by simp [h2]; omega) hb.tail
        (((hRr.take i).append h3).append (InRange.nil _ |>.cons (by omega))) ?_
      obtain ⟨x, hx, z, hz, hxz⟩ := hex
      rcases List.mem_cons.1 hz with rfl | hz
      · exact absurd ⟨x, hx, hxz⟩ hxy
      · exact ⟨x, hx, z, hz, hxz⟩

end BN
