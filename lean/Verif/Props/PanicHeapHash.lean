import Verif.Heap.HashTriePanicMap
import Verif.Props.PanicHeap
/-
Property C73 for hash trie maps and sets.
-/
set_option autoImplicit false
namespace Rpds
open Heap HT Spec

/-- An operation on a hash trie set, as `HTMap.stepX`. -/
def HTSet.stepX {S H T Q : Type} (A : Arch) (U : HTUser S H T Unit Q) (s : S) (c : HTSet H T) (op : SetOp T Q) :
    Res (Option (SetRet T) × Effect (HTSet H T)) :=
  (c.map.stepX A U s op.onMap).map fun p => (p.1.map MapRet.onSet, p.2.map fun m => ⟨m⟩)

namespace Props

theorem ht_always (S H K V Q : Type) (Ar : Arch) :
    Always (fun m : HTMap H K V => m.Sound Ar) (fun m (p : HTCall S H K V Q) => m.stepX Ar p.1 p.2.1 p.2.2) := by
  rintro m ⟨U, s, op⟩ hm
  obtain ⟨r, e, h1, h2⟩ := HTMap.stepX_total U hm s op
  refine ⟨r, e, h1, ?_⟩
  cases e with
  | keep => exact .inl rfl
  | fresh t => exact .inr ⟨_, .inl rfl, h2⟩
  | update t => exact .inr ⟨_, .inr rfl, h2⟩

/-- C73 for `HashTrieMap` of any degree 2ᵏ that its constructor accepts (but 1): whatever `Hash`, `Eq`, `Clone` and the `Drop` of
the pairs that are removed or replaced do at each call (each operation comes with code and state of its own), and if the panics are caught, also those of the library, and the maps used again.  Memory is bounded by
the nodes that the maps consist of. -/
theorem C73_hash_map_sound (S : Type) {H : Type} (K V Q : Type) (Ar : Arch) {k : Nat} (c : HConf Ar k) (hW : 2 ^ k ≤ Ar.W % 256) (hasher : H) :
    SoundMemory (htImplX S K V Q Ar hasher (2 ^ k)) userByRef (⟨HNode.newEmptyBranch, 0, 2 ^ k, hasher⟩ : HTMap H K V)
      (fun m (p : HTCall S H K V Q) => m.stepX Ar p.1 p.2.1 p.2.2) (fun m => cells m.root) :=
  sound_of_refines (HTMap.empty_sound c) (ht_always S H K V Q Ar) (fun A => htImplX_refines S K V Q Ar c hW hasher A)
    (fun A => htImplX_lends S K V Q Ar c hW hasher A) fun _ _ _ h => HTSoundIs.weight_le h

/-- The operations of C73 are those of C55 (`HTMap.stepU`) as long as neither the library nor `Drop` panics. -/
theorem C73_hash_map_as_before {S H K V Q : Type} (Ar : Arch) (U : HTUser S H K V Q) (s : S) (m : HTMap H K V) (op : MapOp K V Q)
    (hd : ∀ s x, U.drop s x = (some (), s)) (hs : m.size + 1 < 2 ^ Ar.W) {x : Option (MapRet K V) × Effect (HTMap H K V)} (h : m.stepU Ar U s op = .ok x) :
    m.stepX Ar U s op = .ok x :=
  HTMap.stepX_of_ok hd hs h

/-- `HashTrieSet` on the heap: every operation is one of its map. -/
def htSetImplX (S : Type) {H : Type} (T Q : Type) (Ar : Arch) (hasher : H) (degree : Nat) :
    Impl (HLabel T Unit) (HHTMap H) (HTSetCall S H T Q) (Option (SetRet T)) :=
  (htImplX S T Unit Q Ar hasher degree).adapt (fun p => (p.1, p.2.1, p.2.2.onMap)) (Option.map MapRet.onSet)

theorem htSet_step {S H T Q : Type} {Ar : Arch} (m : HTMap H T Unit) (c : HTSet H T) (p : HTSetCall S H T Q) {r : Option (SetRet T)}
    {f : Effect (HTSet H T)} (hm : m = c.map) (he : c.stepX Ar p.1 p.2.1 p.2.2 = .ok (r, f)) :
    ∃ e, (do let x ← m.stepX Ar p.1 p.2.1 p.2.2.onMap; .ok (x.1.map MapRet.onSet, x.2) : Res _) = .ok (r, e) ∧
      Effect.Rel (fun m c => m = HTSet.map c) e f := by
  subst hm
  unfold HTSet.stepX at he
  cases h : c.map.stepX Ar p.1 p.2.1 p.2.2.onMap with
  | error x => rw [h] at he; cases he
  | ok x =>
    rw [h] at he
    cases he
    obtain ⟨y, e⟩ := x
    refine ⟨e, rfl, ?_⟩
    cases e with
    | keep => exact .keep
    | fresh m' => exact .fresh rfl
    | update m' => exact .update rfl

/-- C73 for `HashTrieSet`. -/
theorem C73_hash_set_sound (S : Type) {H : Type} (T Q : Type) (Ar : Arch) {k : Nat} (c : HConf Ar k) (hW : 2 ^ k ≤ Ar.W % 256) (hasher : H) :
    SoundMemory (htSetImplX S T Q Ar hasher (2 ^ k)) userSetByRef (⟨⟨HNode.newEmptyBranch, 0, 2 ^ k, hasher⟩⟩ : HTSet H T)
      (fun c (p : HTSetCall S H T Q) => c.stepX Ar p.1 p.2.1 p.2.2) (fun c => cells c.map.root) := by
  refine sound_of_refines (P := fun c : HTSet H T => c.map.Sound Ar)
    (R := fun hm c ρ => ∃ m, HTSoundIs Ar hm m ρ ∧ m = HTSet.map c) (HTMap.empty_sound c) ?_ (fun A => ?_) (fun A => ?_) ?_
  · rintro c ⟨U, s, op⟩ hc
    obtain ⟨r, e, h1, h2⟩ := ht_always S H T Unit Q Ar c.map (U, s, op.onMap) hc
    simp only at h1
    refine ⟨r.map MapRet.onSet, e.map fun m => ⟨m⟩, by simp only [HTSet.stepX, h1]; rfl, ?_⟩
    rcases h2 with rfl | ⟨t, rfl | rfl, h2⟩
    · exact .inl rfl
    · exact .inr ⟨_, .inl rfl, h2⟩
    · exact .inr ⟨_, .inr rfl, h2⟩
  · exact (Impl.RefinesIn.adapt (htImplX_refines S T Unit Q Ar c hW hasher A) _ _).trans (S := fun m c => m = HTSet.map c) rfl
      fun m c p r f hm he => htSet_step m c p hm he
  · exact (Impl.Lends.adapt (htImplX_lends S T Unit Q Ar c hW hasher A) _ _).trans (S := fun m c => m = HTSet.map c)
      fun m c p r f hm he => htSet_step m c p hm he
  · rintro x c ρ ⟨m, h, rfl⟩
    exact h.weight_le

/-- Three keys with the same hash in a map of degree 16, and a clone; `Eq` panics while the collision list is taken apart, and two pairs are
lost; then nothing panics in user code, but `remove_mut` finds a collision with no entry left and panics itself; the map is used again, and
there are two more panics in the clone. -/
def exBombHash : List (Cmd (HTCall Nat Nat Nat Nat Nat)) :=
  let U := exHBomb fun _ => 7
  [.new, .run 0 (U, 99, .insertMut 1 10), .run 0 (U, 99, .insertMut 2 20), .run 0 (U, 99, .insertMut 3 30), .run 0 (U, 99, .clone),
    .run 0 (U, 1, .removeMut 1), .run 0 (U, 99, .get 1), .run 0 (U, 99, .get 2), .run 0 (U, 99, .size), .run 0 (U, 99, .removeMut 1),
    .run 0 (U, 99, .insert 4 40), .run 1 (U, 1, .insertMut 4 40), .run 1 (U, 2, .getMut 2 (· + 1)), .run 1 (U, 99, .get 1)]

example : HConf dbg64 4 ∧ 2 ^ 4 ≤ dbg64.W % 256 := ⟨⟨by decide, by decide, by decide⟩, by decide⟩
-- the answers
example : (pureClient (⟨HNode.newEmptyBranch, 0, 16, 0⟩ : HTMap Nat Nat Nat)
    (fun m (p : HTCall Nat Nat Nat Nat Nat) => m.stepX dbg64 p.1 p.2.1 p.2.2) [] exBombHash).map (·.1) =
    .ok [none, some (some .unit), some (some .unit), some (some .unit), some (some .unit), some none, some (some (.optV (some 10))),
      some (some (.optV none)), some (some (.nat 3)), some none, some (some .unit), some none, some none, some (some (.optV (some 10)))] := by
  decide +kernel
-- on the heap the same; when the three maps are dropped nothing is left
example : (outcome (bump _) 4000 (client (htImplX Nat Nat Nat Nat dbg64 0 16) [] exBombHash) []).map (fun x => live x.2.1) = some 63 := by
  decide +kernel
example : (outcome (bump _) 4000 (client (htImplX Nat Nat Nat Nat dbg64 0 16) [] (exBombHash ++ [.discard 0, .discard 1, .discard 2])) []).map
    (fun x => live x.2.1) = some 0 := by
  decide +kernel
-- one thread loses pairs in its map while the other changes and drops its own
set_option synthInstance.maxSize 1000 in
example : (interleaved (htImplX Nat Nat Nat Nat dbg64 0 16) 2000 (exBombHash.take 5)
    [[.run 0 (exHBomb (fun _ => 7), 1, .removeMut 1), .run 0 (exHBomb (fun _ => 7), 9, .get 2)],
      [.run 1 (exHBomb (fun _ => 7), 99, .removeMut 3), .discard 1]]
    (List.replicate 400 [0, 1]).flatten).map (fun x => (x.1, live x.2)) =
    some ([some [some none, some (some (.optV none))], some [some (some (.bool true)), none]], 20) := by
  decide +kernel
-- one thread panics in a lent map while the other makes a new version of it
set_option synthInstance.maxSize 1000 in
example : (interleavedSharing (htImplX Nat Nat Nat Nat dbg64 0 16) 2000 (exBombHash.take 4)
    [[.run 0 (exHBomb (fun _ => 7), 1, .remove 1), .run 0 (exHBomb (fun _ => 7), 9, .get 2)],
      [.run 0 (exHBomb (fun _ => 7), 99, .remove 3), .run 1 (exHBomb (fun _ => 7), 9, .size)]]
    (List.replicate 400 [0, 1]).flatten).map (fun x => (x.1, live x.2)) =
    some ([some [some none, some (some (.optV (some 20)))], some [some (some .unit), some (some (.nat 2))]], 43) := by
  decide +kernel

/-- An `Eq` that says yes only at the first call, and a `Hash` that panics for the key 9. -/
def exLiar : HTUser Nat Nat Nat Nat Nat where
  hashK s _ k := if k = 9 then (none, s) else (some 7, s)
  hashQ s _ k := if k = 9 then (none, s) else (some 7, s)
  eqK s _ _ := (some (s == 0), s + 1)
  eqQ s _ _ := (some (s == 0), s + 1)
  clone s _ := (some (), s)

/-- `Node::insert` is told that the keys 1 and 2 are equal and `Bucket::insert` that they are not: a collision in a leaf that is not at the
maximum depth; the next insertion panics (`unreachable!`), and so does every operation on the key 9. -/
def exLies : List (Cmd (HTCall Nat Nat Nat Nat Nat)) :=
  [.new, .run 0 (exLiar, 0, .insertMut 1 10), .run 0 (exLiar, 0, .insertMut 2 20), .run 0 (exLiar, 0, .size), .run 0 (exLiar, 1, .insert 3 30),
    .run 0 (exLiar, 1, .insertMut 3 30), .run 0 (exLiar, 0, .get 1), .run 0 (exLiar, 0, .get 9), .run 0 (exLiar, 0, .removeMut 9),
    .run 0 (exLiar, 0, .removeMut 2)]

example : (pureClient (⟨HNode.newEmptyBranch, 0, 16, 0⟩ : HTMap Nat Nat Nat)
    (fun m (p : HTCall Nat Nat Nat Nat Nat) => m.stepX dbg64 p.1 p.2.1 p.2.2) [] exLies).map (·.1) =
    .ok [none, some (some .unit), some (some .unit), some (some (.nat 2)), some none, some none, some (some (.optV (some 20))),
      some none, some none, some (some (.bool true))] := by
  decide +kernel
example : (outcome (bump _) 4000 (client (htImplX Nat Nat Nat Nat dbg64 0 16) [] (exLies ++ [.discard 0])) []).map (fun x => live x.2.1) =
    some 0 := by
  decide +kernel

/-- `Drop` panics if the state is 0; the keys 1 to 4 have the same hash, and others one that differs in the last bits that are used. -/
def exDropBomb : HTUser Nat Nat Nat Nat Nat where
  hashK s _ k := (some (if k < 5 then 7 else 7 + 2 ^ 60), s)
  hashQ s _ k := (some (if k < 5 then 7 else 7 + 2 ^ 60), s)
  eqK s a b := (some (a == b), s)
  eqQ s a b := (some (a == b), s)
  clone s _ := (some (), s)
  drop s _ := (if s == 0 then none else some (), s)

/-- The `Drop` of the pair (5, 50), alone in its leaf, panics in `remove_mut`: an empty branch is left, and the number of pairs is wrong. Then a
pair in a collision is replaced and `Drop` panics, so the new pair is lost too.  Of the pairs 2 and 3 one is removed, and the `Drop` of the other
panics: an empty branch below the last bits of the hash, where every operation panics (`expect`); so it does in the clone that shares it. -/
def exDrops : List (Cmd (HTCall Nat Nat Nat Nat Nat)) :=
  let U := exDropBomb
  [.new, .run 0 (U, 1, .insertMut 5 50), .run 0 (U, 0, .removeMut 5), .run 0 (U, 1, .get 5), .run 0 (U, 1, .size), .run 0 (U, 1, .insertMut 5 51),
    .run 0 (U, 0, .insertMut 5 52), .run 0 (U, 1, .get 5),
    .run 0 (U, 1, .insertMut 1 10), .run 0 (U, 1, .insertMut 2 20), .run 0 (U, 1, .insertMut 3 30), .run 0 (U, 0, .insertMut 1 11),
    .run 0 (U, 1, .get 1), .run 0 (U, 1, .removeMut 2), .run 0 (U, 0, .removeMut 3), .run 0 (U, 1, .clone), .run 0 (U, 1, .get 3),
    .run 0 (U, 1, .insertMut 3 31), .run 0 (U, 1, .getMut 3 (· + 1)), .run 1 (U, 1, .remove 3), .run 1 (U, 1, .removeMut 3), .run 1 (U, 1, .get 5),
    .run 1 (U, 1, .size)]

example : (pureClient (⟨HNode.newEmptyBranch, 0, 16, 0⟩ : HTMap Nat Nat Nat)
    (fun m (p : HTCall Nat Nat Nat Nat Nat) => m.stepX dbg64 p.1 p.2.1 p.2.2) [] exDrops).map (·.1) =
    .ok [none, some (some .unit), some none, some (some (.optV none)), some (some (.nat 1)), some (some .unit), some none,
      some (some (.optV (some 52))), some (some .unit), some (some .unit), some (some .unit), some none, some (some (.optV none)),
      some (some (.bool true)), some none, some (some .unit), some none, some none, some none, some none, some none,
      some (some (.optV (some 52))), some (some (.nat 4))] := by
  decide +kernel
-- on the heap the same; when the two maps are dropped nothing is left
example : (outcome (bump _) 4000 (client (htImplX Nat Nat Nat Nat dbg64 0 16) [] exDrops) []).map (fun x => live x.2.1) = some 36 := by
  decide +kernel
example : (outcome (bump _) 4000 (client (htImplX Nat Nat Nat Nat dbg64 0 16) [] (exDrops ++ [.discard 0, .discard 1])) []).map
    (fun x => live x.2.1) = some 0 := by
  decide +kernel

-- the bound on memory is what is in use as long as there are no collisions; with them it counts the pair that `last` points to twice
example : [1, 2, 3, 6, 9, 10].map (fun n =>
    ((pureClient (⟨HNode.newEmptyBranch, 0, 16, 0⟩ : HTMap Nat Nat Nat) (fun m (p : HTCall Nat Nat Nat Nat Nat) => m.stepX dbg64 p.1 p.2.1 p.2.2) []
        (exDrops.take n)).map (fun x => x.2.map (Option.map fun m => cells m.root)),
      (outcome (bump _) 3000 (client (htImplX Nat Nat Nat Nat dbg64 0 16) [] (exDrops.take n)) []).map (fun x => live x.2.1))) =
    [(.ok [some 1], some 1), (.ok [some 3], some 3), (.ok [some 2], some 2), (.ok [some 4], some 4), (.ok [some 20], some 20),
      (.ok [some 27], some 25)] := by
  decide +kernel

end Props
end Rpds
