import Verif.Props.OwnOrder
import Mathlib.Data.Finset.Card
/-
C149: numbers as keys of `std::unordered_set` and `std::unordered_map`, and the algorithms that look for equal elements.  The container is
client code of `operator==` and of a hash function of the client; it is modelled as in the usual implementations (libstdc++ `hashtable.h`): an
array of buckets, the bucket of a key is its hash code modulo the number of buckets, and a bucket is searched from front to back.  Where hash
codes are stored with the keys (`cached`), keys with other hash codes are passed over without a comparison.
-/
namespace BN
open Bignum

namespace Hash

/-- `_M_find_before_node`: is a key equal to `k` in the bucket? -/
def scan (h : Bignum → Nat) (cached : Bool) (k : Bignum) : List Bignum → Res Bool
  | [] => .ok false
  | x :: xs =>
    if cached ∧ h x ≠ h k then scan h cached k xs
    else do
      if ← k.eq x then .ok true else scan h cached k xs

/-- The bucket without the first key equal to `k`. -/
def dropKey (h : Bignum → Nat) (cached : Bool) (k : Bignum) : List Bignum → Res (List Bignum)
  | [] => .ok []
  | x :: xs =>
    if cached ∧ h x ≠ h k then do
      let r ← dropKey h cached k xs
      .ok (x :: r)
    else do
      if ← k.eq x then .ok xs
      else
        let r ← dropKey h cached k xs
        .ok (x :: r)

/-- The buckets. -/
abbrev Table := List (List Bignum)

/-- Put a key in front of the others in its bucket. -/
def put (h : Bignum → Nat) (t : Table) (k : Bignum) : Table := t.modify (h k % t.length) (k :: ·)

/-- `find(k) != end()`. -/
def find (h : Bignum → Nat) (cached : Bool) (t : Table) (k : Bignum) : Res Bool := scan h cached k (t.getD (h k % t.length) [])

/-- `insert(k)` without growth of the array. -/
def insert (h : Bignum → Nat) (cached : Bool) (t : Table) (k : Bignum) : Res Table := do
  if ← find h cached t k then .ok t else .ok (put h t k)

/-- `erase(k)`. -/
def erase (h : Bignum → Nat) (cached : Bool) (t : Table) (k : Bignum) : Res Table := do
  let b ← dropKey h cached k (t.getD (h k % t.length) [])
  .ok (t.set (h k % t.length) b)

/-- All keys are put into `n` new buckets, one after the other. -/
def rehash (h : Bignum → Nat) (t : Table) (n : Nat) : Table := t.flatten.foldl (put h) (List.replicate n [])

/-- The calls on a container; growth of the array (`rehash` to some number of buckets, at least one) may happen at any time. -/
inductive Op where
  | insert (k : Bignum)
  | erase (k : Bignum)
  | rehash (n : Nat)

def step (h : Bignum → Nat) (cached : Bool) (t : Table) : Op → Res Table
  | .insert k => insert h cached t k
  | .erase k => erase h cached t k
  | .rehash n => .ok (rehash h t (n + 1))

def run (h : Bignum → Nat) (cached : Bool) : Table → List Op → Res Table
  | t, [] => .ok t
  | t, op :: ops => step h cached t op >>= fun t' => run h cached t' ops

/-- The set of keys that the calls stand for. -/
def keys : Finset Bignum → List Op → Finset Bignum
  | s, [] => s
  | s, .insert k :: ops => keys (Insert.insert k s) ops
  | s, .erase k :: ops => keys (s.erase k) ops
  | s, .rehash _ :: ops => keys s ops

/-- Every key is in its bucket, and only once. -/
structure Placed (h : Bignum → Nat) (t : Table) : Prop where
  pos : 0 < t.length
  home : ∀ i (hi : i < t.length), ∀ x ∈ t[i], h x % t.length = i
  nodup : ∀ i (hi : i < t.length), t[i].Nodup

theorem eq_decide (a b : Bignum) : a.eq b = .ok (decide (a = b)) := by
  obtain ⟨r, h1, h2⟩ := C01_eq_structural a b
  rw [h1]
  congr 1
  by_cases h : a = b
  · rw [h2.2 ⟨by rw [h], by rw [h]⟩]; simp [h]
  · rw [decide_eq_false h, ← Bool.not_eq_true, h2]
    rintro ⟨h3, h4⟩
    exact h (by cases a; cases b; simp_all)

theorem scan_eq (h : Bignum → Nat) (cached : Bool) (k : Bignum) : ∀ l, scan h cached k l = .ok (decide (k ∈ l))
  | [] => by simp [scan]
  | x :: xs => by
    rw [scan, scan_eq h cached k xs, eq_decide]
    by_cases hx : k = x
    · subst hx; simp [ok_bind]
    · simp [hx, ok_bind]

theorem dropKey_eq (h : Bignum → Nat) (cached : Bool) (k : Bignum) : ∀ l, dropKey h cached k l = .ok (l.erase k)
  | [] => by simp [dropKey]
  | x :: xs => by
    rw [dropKey, dropKey_eq h cached k xs, eq_decide]
    by_cases hx : k = x
    · subst hx; simp [ok_bind]
    · have : ¬ x = k := fun e => hx e.symm
      simp [hx, ok_bind, this]

theorem mem_flatten_iff {h : Bignum → Nat} {t : Table} (ht : Placed h t) (k : Bignum) :
    k ∈ t.flatten ↔ k ∈ t.getD (h k % t.length) [] := by
  have hi := Nat.mod_lt (h k) ht.pos
  rw [List.getD_eq_getElem _ _ hi, List.mem_flatten]
  constructor
  · rintro ⟨l, hl, hk⟩
    obtain ⟨i, hi', rfl⟩ := List.getElem_of_mem hl
    have := ht.home i hi' k hk
    simpa [this] using hk
  · exact fun hk => ⟨_, List.getElem_mem hi, hk⟩

theorem nodup_flatten {h : Bignum → Nat} {t : Table} (ht : Placed h t) : t.flatten.Nodup := by
  rw [List.nodup_flatten]
  constructor
  · intro l hl
    obtain ⟨i, hi', rfl⟩ := List.getElem_of_mem hl
    exact ht.nodup i hi'
  · rw [List.pairwise_iff_getElem]
    intro i j hi hj hij x hx hy
    have h1 := ht.home i hi x hx
    have h2 := ht.home j hj x hy
    omega

theorem getElem_put (h : Bignum → Nat) (t : Table) (k : Bignum) (i : Nat) (hi : i < (put h t k).length) (hi' : i < t.length) :
    (put h t k)[i] = if h k % t.length = i then k :: t[i] else t[i] :=
  List.getElem_modify _ _ _ _ hi

theorem put_spec {h : Bignum → Nat} {t : Table} (ht : Placed h t) {k : Bignum} (hk : k ∉ t.flatten) :
    Placed h (put h t k) ∧ ∀ x, x ∈ (put h t k).flatten ↔ x = k ∨ x ∈ t.flatten := by
  have hi := Nat.mod_lt (h k) ht.pos
  have hl : (put h t k).length = t.length := by simp [put]
  have hP : Placed h (put h t k) := by
    refine ⟨by rw [hl]; exact ht.pos, fun i hi' x hx => ?_, fun i hi' => ?_⟩
    · have hi' : i < t.length := hl ▸ hi'
      rw [hl]
      rw [getElem_put h t k i _ hi'] at hx
      split at hx
      · rename_i e
        rcases List.mem_cons.1 hx with rfl | hx
        · exact e
        · exact ht.home i hi' x hx
      · exact ht.home i hi' x hx
    · have hi' : i < t.length := hl ▸ hi'
      rw [getElem_put h t k i _ hi']
      split
      · refine List.nodup_cons.2 ⟨fun hm => hk (List.mem_flatten.2 ⟨_, List.getElem_mem hi', hm⟩), ht.nodup i hi'⟩
      · exact ht.nodup i hi'
  refine ⟨hP, fun x => ?_⟩
  rw [mem_flatten_iff hP, mem_flatten_iff ht, hl]
  have hx := Nat.mod_lt (h x) ht.pos
  rw [List.getD_eq_getElem _ _ hx, List.getD_eq_getElem _ _ (by rw [hl]; exact hx)]
  rw [getElem_put h t k _ _ hx]
  split
  · simp
  · rename_i e
    constructor
    · exact .inr
    · rintro (rfl | hm)
      · exact absurd rfl e
      · exact hm

theorem erase_spec {h : Bignum → Nat} {t : Table} (ht : Placed h t) (k : Bignum) :
    Placed h (t.set (h k % t.length) ((t.getD (h k % t.length) []).erase k)) ∧
    ∀ x, x ∈ (t.set (h k % t.length) ((t.getD (h k % t.length) []).erase k)).flatten ↔ x ≠ k ∧ x ∈ t.flatten := by
  have hi := Nat.mod_lt (h k) ht.pos
  rw [List.getD_eq_getElem _ _ hi]
  have hP : Placed h (t.set (h k % t.length) (t[h k % t.length].erase k)) := by
    refine ⟨by simpa using ht.pos, fun i hi' x hx => ?_, fun i hi' => ?_⟩
    · rw [List.length_set] at hi' ⊢
      rw [List.getElem_set] at hx
      split at hx
      · rename_i e
        rw [← e]
        exact ht.home _ hi x (List.mem_of_mem_erase hx)
      · exact ht.home i hi' x hx
    · rw [List.length_set] at hi'
      rw [List.getElem_set]
      split
      · exact (ht.nodup _ hi).erase k
      · exact ht.nodup i hi'
  refine ⟨hP, fun x => ?_⟩
  rw [mem_flatten_iff hP, mem_flatten_iff ht, List.length_set]
  have hx := Nat.mod_lt (h x) ht.pos
  rw [List.getD_eq_getElem _ _ hx, List.getD_eq_getElem _ _ (by rw [List.length_set]; exact hx), List.getElem_set]
  split
  · rename_i e
    simp only [← e]
    exact (ht.nodup _ hi).mem_erase_iff
  · rename_i e
    constructor
    · refine fun hm => ⟨?_, hm⟩
      rintro rfl
      exact e rfl
    · exact fun hm => hm.2

theorem fold_put {h : Bignum → Nat} : ∀ (l : List Bignum) {t : Table}, Placed h t → l.Nodup → (∀ x ∈ l, x ∉ t.flatten) →
    Placed h (l.foldl (put h) t) ∧ ∀ x, x ∈ (l.foldl (put h) t).flatten ↔ x ∈ l ∨ x ∈ t.flatten
  | [], _, ht, _, _ => ⟨ht, by simp⟩
  | k :: l, t, ht, hn, hd => by
    obtain ⟨h1, h2⟩ := put_spec ht (hd k (by simp))
    rw [List.nodup_cons] at hn
    obtain ⟨h3, h4⟩ := fold_put l h1 hn.2 fun x hx hm => by
      rcases (h2 x).1 hm with rfl | hm
      · exact hn.1 hx
      · exact hd x (by simp [hx]) hm
    refine ⟨h3, fun x => ?_⟩
    rw [List.foldl_cons, h4, h2]
    simp only [List.mem_cons]
    tauto

theorem placed_empty (h : Bignum → Nat) (n : Nat) : Placed h (List.replicate (n + 1) []) :=
  ⟨by simp, fun i hi x hx => by simp at hx, fun i hi => by simp⟩

theorem step_spec {h : Bignum → Nat} {cached : Bool} {t : Table} {s : Finset Bignum} (ht : Placed h t) (hs : ∀ x, x ∈ t.flatten ↔ x ∈ s)
    (op : Op) : ∃ t', step h cached t op = .ok t' ∧ Placed h t' ∧ ∀ x, x ∈ t'.flatten ↔ x ∈ keys s [op] := by
  cases op with
  | insert k =>
    simp only [step, insert, find, scan_eq, ok_bind, decide_eq_true_eq, keys]
    split
    · rename_i hk
      rw [← mem_flatten_iff ht] at hk
      refine ⟨t, rfl, ht, fun x => ?_⟩
      rw [Finset.mem_insert, ← hs]
      constructor
      · exact .inr
      · rintro (rfl | h) <;> assumption
    · rename_i hk
      rw [← mem_flatten_iff ht] at hk
      obtain ⟨h1, h2⟩ := put_spec ht hk
      exact ⟨_, rfl, h1, fun x => by rw [h2, Finset.mem_insert, hs]⟩
  | erase k =>
    obtain ⟨h1, h2⟩ := erase_spec ht k
    simp only [step, erase, dropKey_eq, ok_bind, keys]
    exact ⟨_, rfl, h1, fun x => by rw [h2, Finset.mem_erase, hs]⟩
  | rehash n =>
    obtain ⟨h1, h2⟩ := fold_put t.flatten (placed_empty h n) (nodup_flatten ht) (by simp)
    exact ⟨_, rfl, h1, fun x => by simp only [rehash]; rw [h2, keys, keys, ← hs]; simp⟩

theorem run_spec {h : Bignum → Nat} {cached : Bool} : ∀ (ops : List Op) {t : Table} {s : Finset Bignum}, Placed h t → (∀ x, x ∈ t.flatten ↔ x ∈ s) →
    ∃ t', run h cached t ops = .ok t' ∧ Placed h t' ∧ ∀ x, x ∈ t'.flatten ↔ x ∈ keys s ops
  | [], t, s, ht, hs => ⟨t, rfl, ht, hs⟩
  | op :: ops, t, s, ht, hs => by
    obtain ⟨t1, h1, h2, h3⟩ := step_spec (cached := cached) ht hs op
    obtain ⟨t2, h4, h5, h6⟩ := run_spec ops h2 h3
    refine ⟨t2, by rw [run, h1, ok_bind, h4], h5, fun x => ?_⟩
    rw [h6]
    cases op <;> rfl

end Hash

/-- C149: whatever the hash function, the number of buckets and the moments of growth are, after any history of calls an `unordered_set` holds
exactly the keys of the mathematical set, each once, and finds exactly these; also NaN, infinities and numbers with leading zeros. -/
theorem C149_table (h : Bignum → Nat) (cached : Bool) (n : Nat) (ops : List Hash.Op) :
    ∃ t, Hash.run h cached (List.replicate (n + 1) []) ops = .ok t ∧ t.flatten.length = (Hash.keys ∅ ops).card ∧
    (∀ x, x ∈ t.flatten ↔ x ∈ Hash.keys ∅ ops) ∧ ∀ k, Hash.find h cached t k = .ok (decide (k ∈ Hash.keys ∅ ops)) := by
  obtain ⟨t, h1, h2, h3⟩ := Hash.run_spec (cached := cached) ops (Hash.placed_empty h n) (s := ∅) (by simp)
  refine ⟨t, h1, ?_, h3, fun k => ?_⟩
  · rw [← List.toFinset_card_of_nodup (Hash.nodup_flatten h2)]
    congr 1
    ext x
    rw [List.mem_toFinset, h3]
  · rw [Hash.find, Hash.scan_eq]
    congr 1
    rw [decide_eq_decide, ← Hash.mem_flatten_iff h2, h3]

/-- C149: if all keys and the number looked for are finite, without leading zeros and no zeros with a minus sign, then the number is found
exactly if the value is there. -/
theorem C149_values {L : Limits} (h : Bignum → Nat) (cached : Bool) (n : Nat) (ops : List Hash.Op) {k : Bignum} (hk : Proper L k)
    (hks : ∀ x ∈ Hash.keys ∅ ops, Proper L x) :
    ∃ t r, Hash.run h cached (List.replicate (n + 1) []) ops = .ok t ∧ Hash.find h cached t k = .ok r ∧
      (r = true ↔ ∃ x ∈ Hash.keys ∅ ops, x.toInt L = k.toInt L) := by
  obtain ⟨t, h1, -, -, h2⟩ := C149_table h cached n ops
  refine ⟨t, _, h1, h2 k, ?_⟩
  rw [decide_eq_true_eq]
  constructor
  · exact fun hm => ⟨k, hm, rfl⟩
  · rintro ⟨x, hx, e⟩
    rwa [← proper_ext (hks x hx) hk e]

example := C149_values (L := .base10) (fun x => x.digits.sum) true 6 [.insert Sample.n199, .rehash 2, .insert Sample.m23, .erase Sample.n199]
  (k := Sample.m23) Sample.proper23 (by
    simp only [Hash.keys]
    intro x hx
    have : x = Sample.m23 := by
      simp only [Finset.mem_erase, Finset.mem_insert, Finset.notMem_empty, or_false] at hx
      tauto
    exact this ▸ Sample.proper23)

/-- C149: a zero that a division leaves has a digit, so it is another key than `Bignum()`, although the values are equal. -/
theorem C149_zero_wrong (h : Bignum → Nat) (cached : Bool) (n : Nat) :
    ∃ z t, Bignum.div .base10 releaseEnv 9 Sample.n2 Sample.n23 = .ok z ∧ z.toInt .base10 = 0 ∧ Bignum.default.toInt .base10 = 0 ∧
      Hash.run h cached (List.replicate (n + 1) []) [.insert z] = .ok t ∧ Hash.find h cached t Bignum.default = .ok false := by
  obtain ⟨t, h1, -, -, h2⟩ := C149_table h cached n [.insert ⟨.pos, [0]⟩]
  refine ⟨⟨.pos, [0]⟩, t, by decide +kernel, by decide, by decide, h1, ?_⟩
  rw [h2]
  decide

end BN
