import Verif.HashTrie.Map
/-
The shape of the trie, the length of lookups, and what goes wrong with degree one.
-/
set_option autoImplicit false
namespace Rpds
open Spec

namespace HNode
variable {H K V Q : Type} {A : Arch} {o : HashKeys H K Q} {k : Nat}

/-- `Desc n d m e`: the node `n`, at depth `d`, has the node `m` under it (or is it), at depth `e`. -/
inductive Desc : HNode K V → Nat → HNode K V → Nat → Prop where
  | here {n d} : Desc n d n d
  | child {bm arr d c m e} : c ∈ arr → Desc c (d + 1) m e → Desc (.branch bm arr) d m e

mutual
/-- The number of nodes visited by `Node::get` (hash_trie_map/mod.rs:250-272; it follows the branches exactly like `HNode.get`). -/
def visits (A : Arch) (keyHash : UInt64) (degree : Nat) : HNode K V → (depth : Nat) → Nat
  | .branch bm arr, depth =>
    match indexFromHash A keyHash depth degree with
    | .ok (some index) =>
      match SparseArray.slot A bm index with
      | .ok (some i) => visitsAt A keyHash degree arr i (depth + 1) + 1
      | _ => 1
    | _ => 1
  | .leaf _, _ => 1
/-- Nodes visited under `arr[i]`. -/
def visitsAt (A : Arch) (keyHash : UInt64) (degree : Nat) : List (HNode K V) → (i depth : Nat) → Nat
  | [], _, _ => 0
  | c :: _, 0, depth => visits A keyHash degree c depth
  | _ :: cs, i + 1, depth => visitsAt A keyHash degree cs i depth
end

mutual
/-- `Node::get` instrumented: also counts the nodes it is called on. -/
def getCounted (A : Arch) (o : HashKeys H K Q) (key : Q) (keyHash : UInt64) (degree : Nat) :
    HNode K V → (depth : Nat) → Res (Option (HEntry K V) × Nat)
  | .branch bm arr, depth => do
    let index ← unwrap (← indexFromHash A keyHash depth degree)
    match ← SparseArray.slot A bm index with
    | none => pure (none, 1)
    | some i => do
      let (r, n) ← getCountedAt A o key keyHash degree arr i (depth + 1)
      pure (r, n + 1)
  | .leaf b, _ => do
    let r ← b.get o key keyHash
    pure (r, 1)
/-- `arr[i].get(…)`, instrumented. -/
def getCountedAt (A : Arch) (o : HashKeys H K Q) (key : Q) (keyHash : UInt64) (degree : Nat) :
    List (HNode K V) → (i depth : Nat) → Res (Option (HEntry K V) × Nat)
  | [], _, _ => .error .indexOutOfBounds
  | c :: _, 0, depth => getCounted A o key keyHash degree c depth
  | _ :: cs, i + 1, depth => getCountedAt A o key keyHash degree cs i depth
end

theorem getCounted_eq (q : Q) (hash : UInt64) (degree : Nat) (n : HNode K V) : ∀ d,
    getCounted A o q hash degree n d = (n.get A o q hash degree d).map fun r => (r, n.visits A hash degree d) := by
  induction n using HNode.induct with
  | hl b => intro d; simp only [getCounted, get, visits]; cases b.get o q hash <;> rfl
  | hb bm arr ih =>
    intro d
    have hat : ∀ (arr : List (HNode K V)) (_ : ∀ c ∈ arr, ∀ d, getCounted A o q hash degree c d =
        (c.get A o q hash degree d).map fun r => (r, c.visits A hash degree d)) (i d : Nat),
        getCountedAt A o q hash degree arr i d = (getAt A o q hash degree arr i d).map fun r => (r, visitsAt A hash degree arr i d) := by
      intro arr
      induction arr with
      | nil => intro _ i d; simp only [getCountedAt, getAt]; rfl
      | cons c cs ih2 =>
        intro h i d
        cases i with
        | zero => simp only [getCountedAt, getAt, visitsAt]; exact h c (by simp) d
        | succ i => simp only [getCountedAt, getAt, visitsAt]; exact ih2 (fun c hc => h c (by simp [hc])) i d
    simp only [getCounted, get, visits]
    cases h1 : indexFromHash A hash d degree with
    | error e => simp [Except.map]
    | ok oi =>
      cases oi with
      | none => simp [Except.map, unwrap]
      | some i =>
        simp only [Res.ok_bind, unwrap_some]
        cases h2 : SparseArray.slot A bm i with
        | error e => simp [Except.map]
        | ok os =>
          cases os with
          | none => simp [Except.map]
          | some j =>
            simp only [Res.ok_bind]
            rw [hat arr ih]
            cases getAt A o q hash degree arr j (d + 1) <;> simp [Except.map]

theorem visitsAt_le {hash : UInt64} {degree d b : Nat} {arr : List (HNode K V)} (h : ∀ c ∈ arr, c.visits A hash degree d ≤ b) (i : Nat) :
    visitsAt A hash degree arr i d ≤ b := by
  induction arr generalizing i with
  | nil => simp [visitsAt]
  | cons c cs ih =>
    cases i with
    | zero => exact h c (by simp)
    | succ i => exact ih (fun c hc => h c (by simp [hc])) i

/-- A lookup visits at most `⌈64 / k⌉ + 1` nodes. -/
theorem visits_le (c : HConf A k) (hash : UInt64) (n : HNode K V) : ∀ d, n.OK A k true d → d ≤ (63 / k + 1) →
    n.visits A hash (2 ^ k) d ≤ (63 / k + 1) + 1 - d := by
  induction n using HNode.induct with
  | hl b => intro d _ h; simp only [visits]; omega
  | hb bm arr ih =>
    intro d hok hd
    have hd2 : d ≤ 63 / k := by
      rw [ok_branch] at hok
      rw [Nat.le_div_iff_mul_le c.pos]; omega
    have hch := children_ok_succ hok
    have hle : ∀ i, visitsAt A hash (2 ^ k) arr i (d + 1) ≤ (63 / k + 1) + 1 - (d + 1) :=
      visitsAt_le fun ch hc => ih ch hc (d + 1) (hch ch hc) (by omega)
    simp only [visits]
    split
    · split
      · rename_i i _
        have := hle i
        omega
      · omega
    · omega
where
  children_ok_succ {bm d : Nat} {arr : List (HNode K V)} (h : (HNode.branch bm arr).OK A k true d) : ∀ n ∈ arr, n.OK A k true (d + 1) := by
    intro n hn
    rw [ok_branch] at h
    obtain ⟨i, _, hc⟩ := SparseArray.forall₂_mem h.2 hn
    exact hc.ok

/-- Everything about a node below the root. -/
theorem desc_ok {n m : HNode K V} {d e : Nat} (hd : Desc n d m e) (hok : n.OK A k true d) :
    m.OK A k true e ∧ d ≤ e ∧ (d < e → m.entries ≠ [] ∧ m.Compressed) ∧
    (∀ x ∈ m.entries, x ∈ n.entries) ∧
    (∀ j, d ≤ j → j < e → ∀ x ∈ m.entries, ∀ y ∈ m.entries, idx k j x.keyHash = idx k j y.keyHash) := by
  induction hd with
  | here => exact ⟨hok, Nat.le_refl _, fun h => absurd h (by omega), fun _ h => h, fun j h1 h2 => absurd h1 (by omega)⟩
  | @child bm arr d c m e hc hd ih =>
    rw [ok_branch] at hok
    obtain ⟨i, _, hch⟩ := SparseArray.forall₂_mem hok.2 hc
    obtain ⟨h1, h2, h3, h4, h5⟩ := ih hch.ok
    refine ⟨h1, by omega, fun _ => ?_, fun x hx => ?_, fun j hj1 hj2 x hx y hy => ?_⟩
    · rcases Nat.lt_or_ge (d + 1) e with h | h
      · exact h3 h
      · have he : e = d + 1 := by omega
        subst he
        cases hd with
        | here => exact ⟨hch.nonempty, hch.compressed rfl⟩
        | child hx hd' =>
          rw [ok_branch] at *
          have := (desc_ge hd')
          omega
    · simp only [entries_branch, List.mem_flatMap]; exact ⟨c, hc, h4 x hx⟩
    · rcases Nat.lt_or_ge d j with h | h
      · exact h5 j h hj2 x hx y hy
      · have : j = d := by omega
        subst this
        rw [hch.pos x (h4 x hx), hch.pos y (h4 y hy)]
where
  desc_ge {n m : HNode K V} {d e : Nat} (hd : Desc n d m e) : d ≤ e := by
    induction hd with
    | here => exact Nat.le_refl _
    | child _ _ ih => omega

/-- Hashes that agree on all fragments are equal. -/
theorem hash_eq_of_idx (hk : 1 ≤ k) {e : Nat} (he : 64 ≤ e * k) {a b : UInt64} (h : ∀ j, j < e → idx k j a = idx k j b) : a = b := by
  apply UInt64.toNat_inj.1
  apply Nat.eq_of_testBit_eq
  intro i
  have big : ∀ (x : UInt64), 64 ≤ i → x.toNat.testBit i = false := by
    intro x hi
    exact Nat.testBit_lt_two_pow (Nat.lt_of_lt_of_le x.toNat_lt (Nat.pow_le_pow_right (by decide) hi))
  rcases Nat.lt_or_ge i 64 with hi | hi
  · have hj : i / k < e := by rw [Nat.div_lt_iff_lt_mul hk]; omega
    have := h _ hj
    have key : ∀ x : UInt64, (idx k (i / k) x).testBit (i % k) = x.toNat.testBit i := by
      intro x
      have hm : i % k < k := Nat.mod_lt _ hk
      have hdm : i / k * k + i % k = i := Nat.div_add_mod' i k
      simp only [idx, Nat.testBit_and, Nat.testBit_shiftRight, Nat.testBit_two_pow_sub_one, hdm, hm, decide_true, Bool.and_true]
    rw [← key a, ← key b, this]
  · rw [big a hi, big b hi]

/-! ### Degree one -/

/-- With degree one every fragment of every hash is 0 and the depth is never exhausted. -/
theorem indexFromHash_one (h : UInt64) (d : Nat) : indexFromHash A h d 1 = .ok (some 0) := by
  have h1 : isPow2 1 = true := by decide
  have h2 : trailingZeros8 1 = 0 := by decide
  simp only [indexFromHash, h1, Arch.debugAssert_true, h2, Res.ok_bind, Arch.umul, Nat.mul_zero]
  simp [csub]

theorem insert_empty_one (hW : 1 ≤ A.W) (fuel : Nat) (x : HEntry K V) (d : Nat) :
    (newEmptyBranch : HNode K V).insert A o 1 (fuel + 1) x d = .ok (true, .branch 1 [.leaf (.single x)]) := by
  have hset : SparseArray.set A (T := HNode K V) ⟨0, []⟩ 0 (.leaf (.single x)) = .ok ⟨0 ||| 2 ^ 0, [] ++ .leaf (.single x) :: []⟩ :=
    SparseArray.set_new (R := fun _ _ => True) hW (by simp) (by simp [SparseArray.below]) rfl
  simp only [newEmptyBranch, insert, indexFromHash_one, Res.ok_bind, unwrap_some, SparseArray.new, SparseArray.slot_eq hW,
    Nat.zero_testBit, Bool.false_eq_true, if_false, hset]
  rfl

/-- With degree one, inserting a key at a leaf that holds one other key never ends: whatever the fuel, it runs out. -/
theorem insert_one_diverges (lo : o.Lawful) (hW : 1 ≤ A.W) (fuel : Nat) : ∀ (d : Nat) (x e : HEntry K V), o.eqK x.key e.key = false →
    (HNode.leaf (.single x)).insert A o 1 fuel e d = .error .diverge := by
  induction fuel using Nat.strongRecOn with
  | ind fuel ih =>
    intro d x e hne
    have hnb : ∀ kh, (x.matches o.self e.key kh) = false := by
      intro kh
      simp only [HEntry.matches, self_eqKQ, hne, Bool.and_false]
    have step := fun fuel => insert_empty_one (o := o) hW fuel x d
    match fuel, ih with
    | 0, _ => rfl
    | 1, _ => simp [insert, indexFromHash_one, Bucket.containsKey, Bucket.get, hnb]
    | f + 2, ih =>
      have hc : x.clone = x := rfl
      have hbelow : (SparseArray.below 1 0).length = 0 := rfl
      have h2 : (HNode.branch 1 [.leaf (.single x)]).insert A o 1 (f + 1) e d = .error .diverge := by
        rw [insert]
        simp only [indexFromHash_one, Res.ok_bind, unwrap_some, SparseArray.slot_eq hW, Nat.testBit_one_zero, if_true, hbelow]
        rw [vecIndex_ok (a := HNode.leaf (.single x)) (by rfl)]
        simp [ih f (by omega) (d + 1) x e hne]
      rw [insert]
      simp [indexFromHash_one, Bucket.containsKey, Bucket.get, hnb, hc, step, h2]

end HNode

/-- With degree one, a map with one key cannot take a second one. -/
theorem HTMap.insertMut_one_diverges {H K V Q : Type} {A : Arch} {o : HashKeys H K Q} (lo : o.Lawful) (hW : 1 ≤ A.W) (hasher : H)
    (x : HEntry K V) (key : K) (v : V) (hne : o.eqK x.key key = false) :
    ∀ fuel, (HNode.branch 1 [.leaf (.single x)]).insert A o 1 fuel (HEntry.new o hasher key v) 0 = .error .diverge := by
  intro fuel
  cases fuel with
  | zero => rfl
  | succ f =>
    have hbelow : (SparseArray.below 1 0).length = 0 := rfl
    rw [HNode.insert]
    simp only [HNode.indexFromHash_one, Res.ok_bind, unwrap_some, SparseArray.slot_eq hW, Nat.testBit_one_zero, if_true, hbelow]
    rw [vecIndex_ok (a := HNode.leaf (.single x)) (by rfl)]
    simp [HNode.insert_one_diverges lo hW f 1 x (HEntry.new o hasher key v) hne]

end Rpds
