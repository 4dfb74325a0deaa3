import Verif.Lemmas.Samples
import Verif.Lemmas.Compress
import Verif.Props.Memory
/-
C61: the client program of tests/compress_test.cpp writes back the text it was given.
-/
namespace BN
open Bignum Compress

theorem mono_leave {f : Nat → Out} (h : MonoOut f) : Mono (fun n => leave (f n)) := by
  intro n m hnm hne
  simp only at hne ⊢
  rw [h n m hnm (fun h' => hne (by rw [h']; rfl))]

theorem mono_compress (env : Env) (text : List Nat) : Mono (fun n => compress env n text) := by
  refine .bind (.const _) fun _ => .bind (.const _) fun _ => .bind (.const _) fun _ => .bind (.while _ ?_ _) fun _ =>
    .bind (.const _) fun _ => .bind (.const _) fun _ => .bind (.const _) fun _ => .const _
  intro s
  exact .bind (.const _) fun _ => .bind (.const _) fun _ => .bind (.const _) fun p =>
    .bind (mono_leave (mono_divAssign _ _ _ _)) fun _ => .const _

/-- What `compress` and `decompress` do together once the outcome of `compress` is known. -/
theorem roundTrip_of {F : Type} {o : FloatOps F} (M : Ieee o) {env : Env} (hm : env.Ample) {text c : List Nat} {num : Bignum}
    {b n₀ N : Nat} (hc : ∀ n, n₀ ≤ n → compress env n text = .ok (num, b)) (hw : InRange 65536 num.digits) (hN : 1 ≤ N)
    (hN2 : N + 1 ≤ 2 ^ 25) (hWN : natOf 65536 num.digits < 256 ^ N) (hl : 1 ≤ num.digits.length) (hb1 : 1 ≤ b) (hb : b ≤ 16)
    (hlast : natOf 65536 num.digits < 2 ^ (16 * (num.digits.length - 1) + b)) (hcw : WFDigits 256 c) (hc0 : c ≠ [])
    (hcv : natOf 256 c = natOf 65536 num.digits) : Evaluates (fun n => roundTrip o env n text) (.ok c) := by
  refine ⟨n₀ + N + 16 * num.digits.length + 33, fun n hn => ?_⟩
  obtain ⟨c', h1, h2, h3, h4⟩ := decompress_value M hm hw hN hN2 hWN hl hb1 hb hlast (fuel := n) (by omega) (by omega)
  simp only [roundTrip]
  rw [hc n (by omega), ok_bind]
  simp only
  rw [h1, wf_unique (B := 256) (by omega) h2 hcw h3 hc0 (h4.trans hcv.symm)]

/-- ASCII text, split into a text `t` that does not end in a NUL character and `k` NUL characters: `t` is written
back; if `t` is empty, one NUL character is written. -/
theorem C61_roundtrip_ascii {F : Type} {o : FloatOps F} (M : Ieee o) {env : Env} (hm : env.Ample) (hd : env.debug = false)
    {t : List Nat} {k : Nat} (hs : ∀ c ∈ t, c < 128) (hlast : t.getLast? ≠ some 0) (hlen : t.length + k < 2 ^ 25) :
    Evaluates (fun n => roundTrip o env n (t ++ List.replicate k 0)) (.ok (if t = [] then [0] else t)) := by
  have hcw : WFDigits 256 (if t = [] then [0] else t) ∧ (if t = [] then [0] else t) ≠ [] ∧
      natOf 256 (if t = [] then [0] else t) = natOf 256 t := by
    split
    · rename_i h; subst h
      exact ⟨⟨by intro x hx; rw [List.mem_singleton.1 hx]; omega, .inr rfl⟩, by simp, by simp⟩
    · rename_i h
      exact ⟨⟨fun x hx => by have := hs x hx; omega, .inl hlast⟩, h, rfl⟩
  have hv := natOf_append_zeros 256 t k
  by_cases hne : t ++ List.replicate k 0 = []
  · have ht : t = [] := (List.append_eq_nil_iff.1 hne).1
    have hc : ∀ n, 1 ≤ n → compress env n [] = .ok (⟨.pos, [0]⟩, 1) := by
      intro n hn
      obtain ⟨f, rfl⟩ : ∃ f, n = f + 1 := ⟨n - 1, by omega⟩
      unfold compress
      rw [pushChars_ascii hm _ _ (by simp), ok_bind, (C62_padding_keeps_value (L := L) hm _).1, ok_bind, ofList_two hm, ok_bind,
        loopWhile, cond_eq (d := 0) (ds := []) rfl (by omega), ok_bind]
      simp only [ne_eq, not_true_eq_false, Nat.not_lt_zero, or_self, decide_false, Bool.false_eq_true, if_false, ok_bind]
      rw [lowBit_eq (d := 0) (ds := []) rfl (by omega), ok_bind, packBit_eq (by omega) (by omega) (by omega), ok_bind]
      simp only [pushBack, Vec.pushBack, hm _, if_true, ok_bind]
      simp
    rw [hne]
    refine roundTrip_of M hm (N := 1) hc (by intro x hx; rw [List.mem_singleton.1 hx]; omega) (by omega) (by omega)
      (by simp) (by simp) (by omega) (by omega) (by simp) hcw.1 hcw.2.1 ?_
    rw [hcw.2.2, ht]; simp
  · have hs' : ∀ c ∈ t ++ List.replicate k 0, c < 128 := by
      intro c hc
      rcases List.mem_append.1 hc with h | h
      · exact hs c h
      · rw [List.eq_of_mem_replicate h]; omega
    have hpos : 0 < (t ++ List.replicate k 0).length := List.length_pos_iff.2 hne
    have hV := ascii_lt hne hs'
    have hlen' : (t ++ List.replicate k 0).length = t.length + k := by simp
    obtain ⟨num, h1, h2, h3, h4⟩ := compress_ascii hm hd hne hs' (Nat.le_refl _)
    refine roundTrip_of M hm (N := (t ++ List.replicate k 0).length) (num := num) (n₀ := 2 ^ (8 * ((t ++ List.replicate k 0).length + 1) + 1) + 2)
      (b := 8 * ((t ++ List.replicate k 0).length + 1) % 16 + 1)
      (fun n hn => ?_) h2 hpos (by omega) ?_ (by omega) (by omega) ?_ ?_ hcw.1 hcw.2.1 ?_
    · have hmn := mono_compress env (t ++ List.replicate k 0) _ n hn
      simp only at hmn
      rw [hmn (by rw [h1]; simp), h1]
    · rw [h4]
      exact natOf_lt (fun x hx => by have := hs' x hx; omega)
    · omega
    · rw [h4, h3]
      refine Nat.lt_of_lt_of_le hV (Nat.pow_le_pow_right (by omega) ?_)
      omega
    · rw [hcw.2.2, h4, hv]

example {F : Type} {o : FloatOps F} (M : Ieee o) := C61_roundtrip_ascii M Sample.ample rfl (t := [66, 105, 103]) (k := 2)
  (by sample) (by sample) (by sample)

/-- What holds of the claim: a non-empty ASCII text that does not end in a NUL character comes back unchanged. -/
theorem C61_roundtrip_partial {F : Type} {o : FloatOps F} (M : Ieee o) {env : Env} (hm : env.Ample) (hd : env.debug = false)
    {text : List Nat} (hne : text ≠ []) (hs : ∀ c ∈ text, c < 128) (hlast : text.getLast? ≠ some 0) (hlen : text.length < 2 ^ 25) :
    Evaluates (fun n => roundTrip o env n text) (.ok text) := by
  have := C61_roundtrip_ascii M hm hd hs hlast (k := 0) hlen
  simpa [hne] using this

example : ([72, 105, 33] : List Nat) ≠ [] ∧ (∀ c ∈ [72, 105, 33], c < 128) ∧ [72, 105, 33].getLast? ≠ some 0 := by decide
/-- `compress` on "Hi". -/
example : (compress releaseEnv 40 [72, 105]).map (fun p => (p.1.digits, p.2)) = .ok ([105 * 256 + 72, 0], 9) := by decide +kernel

/-- The outcome `d` is the outcome `r`, or an exception. -/
def Meagre {α : Type} (d r : Res α) : Prop := d = r ∨ ∃ e, d = .error (.exn e)

namespace Meagre
variable {α β : Type}

theorem refl (r : Res α) : Meagre r r := .inl rfl
theorem of {d r : Res α} (h : Scarce d r) : Meagre d r := h.imp_right fun h => ⟨_, h⟩

theorem bind {d r : Res α} {f g : α → Res β} (h : Meagre d r) (hf : ∀ x, Meagre (f x) (g x)) : Meagre (d >>= f) (r >>= g) := by
  rcases h with rfl | ⟨e, rfl⟩
  · cases d with
    | ok x => exact hf x
    | error e => exact .refl _
  · exact .inr ⟨e, rfl⟩

theorem ite {p : Prop} [Decidable p] {a b c d : Res α} (h1 : Meagre a b) (h2 : Meagre c d) : Meagre (if p then a else c) (if p then b else d) := by
  split <;> assumption

theorem loop {σ : Type} (c : σ → Res Bool) {b b' : σ → Res σ} (h : ∀ s, Meagre (b s) (b' s)) :
    ∀ (n : Nat) (s : σ), Meagre (loopWhile c b n s) (loopWhile c b' n s)
  | 0, _ => .refl _
  | n + 1, s => by
    rw [loopWhile, loopWhile]
    exact .bind (.refl _) fun t => .ite (.bind (h s) fun s' => loop c h n s') (.refl _)

end Meagre

section
variable {e e' : Env} (he : e.Le e')
include he

theorem meagre_push (b : Bignum) (d : Nat) : Meagre (b.pushBack e d) (b.pushBack e' d) := .bind (.of (scarce_pushBack he _ _)) fun _ => .refl _

theorem meagre_ofList (d : Desc) (l : List Nat) : Meagre (Bignum.ofList e d l) (Bignum.ofList e' d l) :=
  .ite (.refl _) (.bind (.of (scarce_resize he _ _ _)) fun _ => .refl _)

theorem meagre_div {F : Type} (o : FloatOps F) (n : Nat) (x : Bignum) (r : Rhs) : Meagre (leave (x.divAssign L e n r)) (leave (x.divAssign L e' n r)) := by
  rcases C106_more_memory he o L .div n x r with h | h | h <;> simp only [Arith.assign] at h <;> rw [h]
  · exact .refl _
  · exact .inr ⟨_, rfl⟩
  · exact .inr ⟨_, rfl⟩

theorem meagre_binary {F : Type} (o : FloatOps F) (k : Arith) (n : Nat) (x y : Bignum) :
    Meagre (viaCopy e (k.assign o L e n) x y) (viaCopy e' (k.assign o L e' n) x y) := by
  refine .bind (.of (scarce_copy he x)) fun z => ?_
  rcases C106_more_memory he o L k n z (.other y) with h | h | h <;> rw [h]
  · exact .refl _
  · exact .inr ⟨_, rfl⟩
  · exact .inr ⟨_, rfl⟩

theorem meagre_chars : ∀ (l : List Nat) (b : Bignum), Meagre (pushChars e l b) (pushChars e' l b)
  | [], _ => .refl _
  | _ :: l, b => .bind (meagre_push he b _) fun b' => meagre_chars l b'

theorem meagre_roundTrip {F : Type} (o : FloatOps F) (n : Nat) (text : List Nat) : Meagre (roundTrip o e n text) (roundTrip o e' n text) := by
  refine .bind (.bind (meagre_chars he _ _) fun _ => .bind (meagre_push he _ _) fun _ => .bind (meagre_ofList he _ _) fun dv =>
    .bind (.loop _ (fun s => ?_) _ _) fun _ => .bind (.refl _) fun _ => .bind (.refl _) fun _ => .bind (meagre_push he _ _) fun _ => .refl _) fun p => ?_
  · refine .bind (.refl _) fun _ => .bind (.refl _) fun _ => .bind (.ite (.bind (meagre_push he _ _) fun _ => .refl _) (.refl _)) fun _ =>
      .bind (meagre_div he o _ _ _) fun _ => .refl _
  · refine .bind (meagre_ofList he _ _) fun _ => .bind (meagre_ofList he _ _) fun dv => .bind (.loop _ (fun s => ?_) _ _) fun _ => .refl _
    exact .bind (.refl _) fun _ => .bind (.refl _) fun _ => .bind (meagre_ofList he _ _) fun _ => .bind (meagre_binary he o .mul _ _ _) fun _ =>
      .bind (meagre_binary he o .add _ _ _) fun _ => .ite (.refl _) (.refl _)

end

/-- C61: with any allocator, however little memory it grants, the program writes back such a text or ends with an exception; it never writes
anything else. -/
theorem C61_any_allocator_partial {F : Type} {o : FloatOps F} (M : Ieee o) {env : Env} (hd : env.debug = false)
    {text : List Nat} (hne : text ≠ []) (hs : ∀ c ∈ text, c < 128) (hlast : text.getLast? ≠ some 0) (hlen : text.length < 2 ^ 25) :
    ∃ n₀, ∀ n, n₀ ≤ n → roundTrip o env n text = .ok text ∨ ∃ e, roundTrip o env n text = .error (.exn e) := by
  obtain ⟨n₀, h⟩ := C61_roundtrip_partial M (env := env.full) (fun _ => rfl) hd hne hs hlast hlen
  refine ⟨n₀, fun n hn => ?_⟩
  rcases meagre_roundTrip env.le_full o n text with h1 | h1
  · exact .inl (h1.trans (h n hn))
  · exact .inr h1

example {F : Type} {o : FloatOps F} (M : Ieee o) := C61_any_allocator_partial M (env := ⟨fun n => decide (n ≤ 2), false⟩) rfl (text := [72, 105, 33])
  (by decide) (by decide) (by decide) (by decide)

/-- The claim fails outside ASCII: "é" (the bytes C3 A9 in UTF-8) comes back as C3 A8 FF. -/
theorem C61_refuted {F : Type} {o : FloatOps F} (M : Ieee o) :
    Evaluates (fun n => roundTrip o releaseEnv n [0xC3, 0xA9]) (.ok [0xC3, 0xA8, 0xFF]) := by
  have h1 : compress releaseEnv 40 [0xC3, 0xA9] = .ok (⟨.pos, [43203, 255]⟩, 8) := by decide +kernel
  have hm : releaseEnv.Ample := fun _ => rfl
  refine roundTrip_of M hm (N := 3) (num := ⟨.pos, [43203, 255]⟩) (b := 8) (n₀ := 40) (fun n hn => ?_) ?_ (by omega) (by omega) (by decide) (by decide)
    (by omega) (by omega) (by decide) ⟨?_, .inl (by simp [NoLeadingZero])⟩ (by simp) (by decide)
  · have hmn := mono_compress releaseEnv [0xC3, 0xA9] 40 n hn
    simp only at hmn
    rw [hmn (by rw [h1]; simp), h1]
  · intro x hx; simp at hx; omega
  · intro x hx; simp at hx; omega

/-- The claim fails for the empty text, which comes back as one NUL character. -/
theorem C61_refuted_empty {F : Type} {o : FloatOps F} (M : Ieee o) {env : Env} (hm : env.Ample) (hd : env.debug = false) :
    Evaluates (fun n => roundTrip o env n []) (.ok [0]) :=
  C61_roundtrip_ascii M hm hd (t := []) (k := 0) (by simp) (by simp) (by norm_num)

example {F : Type} {o : FloatOps F} (M : Ieee o) := C61_refuted_empty M Sample.ample rfl

end BN
