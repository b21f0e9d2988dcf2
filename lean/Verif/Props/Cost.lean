import Verif.Props.Panic
import Verif.RedBlack.Cost
import Verif.HashTrie.Cost
/-
Property C56: how often one operation on a map calls `Ord`, `Hash` and `Eq` of the keys.

`U.fuse`, `U.fuseEq`, `U.fuseHash` are the user code `U` with a fuse: the call after the N-th panics.  That an operation does with the
fuse exactly what it does without, whatever `U` is, says that it makes at most N calls.
-/
set_option autoImplicit false
namespace Rpds.Props
open Spec
variable {H K V Q T S : Type}

/-- C56.  An operation on a red-black tree map compares keys at most `2 * log2 (size + 1)` times, whatever the comparisons answer. -/
theorem C56_rb_map_comparisons (A : Arch) (m : RBMap K V) (hm : RBReachU A S Q m) (U : RBUser T K V Q) (s : T) (op : MapOp K V Q) (n : Nat)
    (hn : 2 * Nat.log2 (m.getSize + 1) ≤ n) : m.stepU A U.fuse (s, n) op = m.stepU A U s op := by
  obtain ⟨l, hl⟩ := rbReachU_loose hm
  refine RBMap.stepU_fuse A U m s n ?_ op
  have := hl.shape.height_le
  rw [hl.list, ← hl.size] at this
  exact Nat.le_trans this hn

/-- The number of pairs whose stored hash is `kh`. -/
def sameHash (m : HTMap H K V) (kh : UInt64) : Nat := m.root.entries.countP fun e => e.keyHash == kh

/-- Bound for the calls of `Eq`: none for operations without a key, or if no pair has the hash of the key; else one for each pair with
this hash; insertions two for each such pair, and one more for each level of the trie. -/
def eqBound (m : HTMap H K V) (U : HTUser T H K V Q) (s : T) : MapOp K V Q → Nat
  | .insert key _ | .insertMut key _ =>
    match (U.hashK s m.hasher key).1 with
    | none => 0
    | some kh => if sameHash m kh = 0 then 0 else 2 * sameHash m kh + (63 / Nat.log2 m.degree + 1)
  | .remove q | .removeMut q | .getMut q _ | .get q | .getKeyValue q | .containsKey q | .index q =>
    match (U.hashQ s m.hasher q).1 with
    | none => 0
    | some kh => sameHash m kh
  | .clone | .size | .isEmpty => 0

theorem eqBound_eq (m : HTMap H K V) (U : HTUser T H K V Q) (s : T) (op : MapOp K V Q) : eqBound m U s op = HTMap.burnOp 1 U s m op := by
  cases op with
  | insert key v => simp only [eqBound, HTMap.burnOp, HTMap.burnAt_one, sameHash]; cases (U.hashK s m.hasher key).1 <;> rfl
  | insertMut key v => simp only [eqBound, HTMap.burnOp, HTMap.burnAt_one, sameHash]; cases (U.hashK s m.hasher key).1 <;> rfl
  | _ => simp only [eqBound, HTMap.burnOp, HTMap.burnAt_one, sameHash] <;> (split <;> simp_all)

theorem burnOp_zero (m : HTMap H K V) (U : HTUser T H K V Q) (s : T) (op : MapOp K V Q) : HTMap.burnOp 0 U s m op = 0 := by
  cases op <;> simp only [HTMap.burnOp, HTMap.burnAt_zero, if_true] <;> (split <;> rfl)

/-- C56.  An operation on a hash trie map calls `Eq` at most as often as `eqBound` says, whatever `Hash` and `Eq` answer. -/
theorem C56_hash_map_eq_calls (A : Arch) (hA : HTMap.StdWord A) (m : HTMap H K V) (hm : HTMap.ReachAny A Q m) (U : HTUser T H K V Q) (s : T)
    (op : MapOp K V Q) (n : Nat) (hn : eqBound m U s op ≤ n) : m.stepU A U.fuseEq (s, n) op = m.stepU A U s op := by
  obtain ⟨k, l, hl⟩ := hm.loose hA
  rw [eqBound_eq] at hn
  exact hl.weaken.stepU_fuse (by omega) (U.fuseEq_fused n) s op hn

/-- C56.  An operation on a hash trie map calls `Hash` at most once. -/
theorem C56_hash_map_hash_once (A : Arch) (hA : HTMap.StdWord A) (m : HTMap H K V) (hm : HTMap.ReachAny A Q m) (U : HTUser T H K V Q) (s : T)
    (op : MapOp K V Q) : m.stepU A U.fuseHash (s, 1) op = m.stepU A U s op := by
  obtain ⟨k, l, hl⟩ := hm.loose hA
  exact hl.weaken.stepU_fuse (by omega) (U.fuseHash_fused 0) s op (by rw [burnOp_zero]; omega)

/-- C56.  When the hashes of the keys differ from each other, an operation calls `Eq` at most once, an insertion of a new key never. -/
theorem C56_hash_map_eq_once (A : Arch) (hA : HTMap.StdWord A) (m : HTMap H K V) (hm : HTMap.ReachAny A Q m)
    (hd : (m.root.entries.map fun e => e.keyHash).Nodup) (U : HTUser T H K V Q) (s : T) (op : MapOp K V Q)
    (hop : ∀ key v, op = .insert key v ∨ op = .insertMut key v →
      ∀ e ∈ m.root.entries, (U.hashK s m.hasher key).1 ≠ some e.keyHash) : m.stepU A U.fuseEq (s, 1) op = m.stepU A U s op := by
  have hle : ∀ kh, sameHash m kh ≤ 1 := fun kh => by
    have h1 := List.nodup_iff_count.1 hd kh
    rw [List.count, List.countP_map] at h1
    exact h1
  have h0 : ∀ key, (∀ e ∈ m.root.entries, (U.hashK s m.hasher key).1 ≠ some e.keyHash) → (match (U.hashK s m.hasher key).1 with
      | none => 0 | some kh => if sameHash m kh = 0 then 0 else 2 * sameHash m kh + (63 / Nat.log2 m.degree + 1)) ≤ 1 := by
    intro key h
    split
    · omega
    · rename_i kh hk
      have : sameHash m kh = 0 := by
        rw [sameHash, List.countP_eq_zero]
        intro e he h2
        exact h e he (by rw [hk]; exact congrArg some (eq_of_beq h2).symm)
      rw [if_pos this]; omega
  refine C56_hash_map_eq_calls A hA m hm U s op 1 ?_
  cases op with
  | insert key v => exact h0 key (hop key v (.inl rfl))
  | insertMut key v => exact h0 key (hop key v (.inr rfl))
  | _ => simp only [eqBound] <;> first | omega | (split <;> first | omega | exact hle _)

/-- The usual order of the numbers. -/
def exCmp : RBUser Unit Nat Nat Nat := RBUser.pure exUsual

/-- Three keys: the bound is 4, looking for a leaf takes 2 comparisons; a fuse of 1 blows. -/
example : ∃ m, RBMap.fromIter exUsual [(1, 10), (2, 20), (3, 30)] = .ok m ∧ RBReachU dbg64 Nat Nat m ∧
    ((fun r1 r2 r3 => (2 * Nat.log2 (m.getSize + 1), r1.1, r2.1, r3.1)) <$> m.stepU dbg64 exCmp.fuse ((), 4) (.get 3) <*>
      m.stepU dbg64 exCmp.fuse ((), 2) (.get 3) <*> m.stepU dbg64 exCmp.fuse ((), 1) (.get 3)) =
      .ok (4, some (.optV (some 30)), some (.optV (some 30)), none) :=
  exRBU _ _ (fun m => (fun r1 r2 r3 => (2 * Nat.log2 (m.getSize + 1), r1.1, r2.1, r3.1)) <$> m.stepU dbg64 exCmp.fuse ((), 4) (.get 3) <*>
      m.stepU dbg64 exCmp.fuse ((), 2) (.get 3) <*> m.stepU dbg64 exCmp.fuse ((), 1) (.get 3)) _ (by decide +kernel)

/-- The numbers, all with the hash 7. -/
def exEq : HTUser Unit Nat Nat Nat Nat := HTUser.pure (exHKeys fun _ => 7)

/-- Insertion of a second key with the same hash: the bound is 2 + 11 for the usual degree; it takes 12 calls of `Eq` (one at each level
below the root, two in the bucket), a fuse of 11 blows.  Looking for a key takes one or two. -/
example : ∃ m, HTMap.fromIter dbg64 (exHKeys fun _ => 7) 0 [(1, 10)] = .ok m ∧ HTMap.ReachAny dbg64 Nat m ∧
    ((fun r1 r2 r3 => (eqBound m exEq () (.insertMut 2 20), r1.1, r2.1, r3.1)) <$> m.stepU dbg64 exEq.fuseEq ((), 12) (.insertMut 2 20) <*>
      m.stepU dbg64 exEq.fuseEq ((), 11) (.insertMut 2 20) <*> m.stepU dbg64 exEq.fuseEq ((), 1) (.get 1)) =
      .ok (13, some .unit, none, some (.optV (some 10))) :=
  exHTAny _ _ (fun m => (fun r1 r2 r3 => (eqBound m exEq () (.insertMut 2 20), r1.1, r2.1, r3.1)) <$>
      m.stepU dbg64 exEq.fuseEq ((), 12) (.insertMut 2 20) <*> m.stepU dbg64 exEq.fuseEq ((), 11) (.insertMut 2 20) <*>
      m.stepU dbg64 exEq.fuseEq ((), 1) (.get 1)) _ (by decide +kernel)

/-- `Hash` is called: a fuse of 0 blows. -/
example : ∃ m, HTMap.fromIter dbg64 (exHKeys fun _ => 7) 0 [(1, 10)] = .ok m ∧ HTMap.ReachAny dbg64 Nat m ∧
    ((fun r1 r2 => (r1.1, r2.1)) <$> m.stepU dbg64 exEq.fuseHash ((), 1) (.get 1) <*> m.stepU dbg64 exEq.fuseHash ((), 0) (.get 1)) =
      .ok (some (.optV (some 10)), none) :=
  exHTAny _ _ (fun m => (fun r1 r2 => (r1.1, r2.1)) <$> m.stepU dbg64 exEq.fuseHash ((), 1) (.get 1) <*>
      m.stepU dbg64 exEq.fuseHash ((), 0) (.get 1)) _ (by decide +kernel)

/-- Keys with different hashes: `Eq` is called once. -/
example : ∃ m, HTMap.fromIter dbg64 (exHKeys UInt64.ofNat) 0 [(1, 10), (2, 20)] = .ok m ∧ HTMap.ReachAny dbg64 Nat m ∧
    ((fun r1 r2 r3 => ((m.root.entries.map fun e => e.keyHash), r1.1, r2.1, r3.1)) <$>
      m.stepU dbg64 (HTUser.pure (exHKeys UInt64.ofNat) : HTUser Unit _ _ _ _).fuseEq ((), 1) (.removeMut 1) <*>
      m.stepU dbg64 (HTUser.pure (exHKeys UInt64.ofNat) : HTUser Unit _ _ _ _).fuseEq ((), 0) (.removeMut 1) <*>
      m.stepU dbg64 (HTUser.pure (exHKeys UInt64.ofNat) : HTUser Unit _ _ _ _).fuseEq ((), 0) (.insertMut 3 30)) =
      .ok ([1, 2], some (.bool true), none, some .unit) :=
  exHTAny _ _ (fun m => (fun r1 r2 r3 => ((m.root.entries.map fun e => e.keyHash), r1.1, r2.1, r3.1)) <$>
      m.stepU dbg64 (HTUser.pure (exHKeys UInt64.ofNat) : HTUser Unit _ _ _ _).fuseEq ((), 1) (.removeMut 1) <*>
      m.stepU dbg64 (HTUser.pure (exHKeys UInt64.ofNat) : HTUser Unit _ _ _ _).fuseEq ((), 0) (.removeMut 1) <*>
      m.stepU dbg64 (HTUser.pure (exHKeys UInt64.ofNat) : HTUser Unit _ _ _ _).fuseEq ((), 0) (.insertMut 3 30)) _ (by decide +kernel)

end Rpds.Props
