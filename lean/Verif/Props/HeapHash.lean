import Verif.Props.HeapTrees
import Verif.Props.HashTrie
import Verif.Heap.HashTrieSpec
/-
Persistence, exact reference counts and independence of threads (C42-C44) for hash maps and sets.

Each property is stated twice: against finite maps (and sets), which do not specify the order of iteration, and against the value
model, which answers every operation, including each call of `next` of an iterator.
-/
set_option autoImplicit false
namespace Rpds
namespace Props
open Heap Heap.HT

variable {H : Type}

theorem conf_of_new {K V : Type} {Ar : Arch} {hasher : H} {degree : Nat} {m : HTMap H K V}
    (h : HTMap.newWithDegree Ar hasher degree = .ok m) (h2 : 2 ≤ degree) :
    ∃ k, degree = 2 ^ k ∧ HConf Ar k ∧ 2 ^ k ≤ Ar.W % 256 ∧ m = ⟨HNode.newEmptyBranch, 0, 2 ^ k, hasher⟩ := by
  obtain ⟨k, c, rfl, rfl⟩ := HTMap.newWithDegree_ok h h2
  refine ⟨k, rfl, c, ?_, rfl⟩
  simp only [HTMap.newWithDegree, assertRt] at h
  split at h
  · split at h
    · next hle => simpa using hle
    · cases h
  · cases h

section map
variable (K V Q : Type) (Ar : Arch) (o : HashKeys H K Q) (lo : o.Lawful) (hasher : H) (degree : Nat) (h2 : 2 ≤ degree)
  (m : HTMap H K V) (hm : HTMap.newWithDegree Ar hasher degree = .ok m)
include lo h2 hm

/-- C42 for `HashTrieMap`, over any lawful key equality and hash, with any degree (other than 1) the constructor accepts. -/
theorem C42_hash_map_persistent :
    Persistent (htImpl Ar o hasher degree) ([] : List (K × V)) (Spec.finMapStep o) ∧
    Persistent (htImpl Ar o hasher degree) m (HTMap.stepAll Ar o) := by
  obtain ⟨k, rfl, c, hW, rfl⟩ := conf_of_new hm h2
  exact ⟨persistent_of_refines fun A => htImpl_refines Ar lo c hW hasher A,
    persistent_of_refines fun A => htImpl_refines_model Ar lo c hW hasher A⟩

/-- C43 for `HashTrieMap`. -/
theorem C43_hash_map_counts :
    CountsExact (htImpl Ar o hasher degree) ([] : List (K × V)) (Spec.finMapStep o) ∧
    CountsExact (htImpl Ar o hasher degree) m (HTMap.stepAll Ar o) := by
  obtain ⟨k, rfl, c, hW, rfl⟩ := conf_of_new hm h2
  exact ⟨counts_of_refines fun A => htImpl_refines Ar lo c hW hasher A,
    counts_of_refines fun A => htImpl_refines_model Ar lo c hW hasher A⟩

/-- C44 for `HashTrieMapSync`. -/
theorem C44_hash_map_threads :
    ThreadsIndependent (htImpl Ar o hasher degree) ([] : List (K × V)) (Spec.finMapStep o) ∧
    ThreadsIndependent (htImpl Ar o hasher degree) m (HTMap.stepAll Ar o) := by
  obtain ⟨k, rfl, c, hW, rfl⟩ := conf_of_new hm h2
  exact ⟨threads_of_refines fun A => htImpl_refines Ar lo c hW hasher A,
    threads_of_refines fun A => htImpl_refines_model Ar lo c hW hasher A⟩

end map

section set
variable (T Q : Type) (Ar : Arch) (o : HashKeys H T Q) (lo : o.Lawful) (hasher : H) (degree : Nat) (h2 : 2 ≤ degree)
  (m : HTMap H T Unit) (hm : HTMap.newWithDegree Ar hasher degree = .ok m)
include lo h2 hm

/-- C42 for `HashTrieSet`. -/
theorem C42_hash_set_persistent :
    Persistent (htSetImpl Ar o hasher degree) ([] : List T) (Spec.finSetStep o) ∧
    Persistent (htSetImpl Ar o hasher degree) m (htSetStepAll Ar o) := by
  obtain ⟨k, rfl, c, hW, rfl⟩ := conf_of_new hm h2
  exact ⟨persistent_of_refines fun A => htSetImpl_refines Ar lo c hW hasher A,
    persistent_of_refines fun A => htSetImpl_refines_model Ar lo c hW hasher A⟩

/-- C43 for `HashTrieSet`. -/
theorem C43_hash_set_counts :
    CountsExact (htSetImpl Ar o hasher degree) ([] : List T) (Spec.finSetStep o) ∧
    CountsExact (htSetImpl Ar o hasher degree) m (htSetStepAll Ar o) := by
  obtain ⟨k, rfl, c, hW, rfl⟩ := conf_of_new hm h2
  exact ⟨counts_of_refines fun A => htSetImpl_refines Ar lo c hW hasher A,
    counts_of_refines fun A => htSetImpl_refines_model Ar lo c hW hasher A⟩

/-- C44 for `HashTrieSetSync`. -/
theorem C44_hash_set_threads :
    ThreadsIndependent (htSetImpl Ar o hasher degree) ([] : List T) (Spec.finSetStep o) ∧
    ThreadsIndependent (htSetImpl Ar o hasher degree) m (htSetStepAll Ar o) := by
  obtain ⟨k, rfl, c, hW, rfl⟩ := conf_of_new hm h2
  exact ⟨threads_of_refines fun A => htSetImpl_refines Ar lo c hW hasher A,
    threads_of_refines fun A => htSetImpl_refines_model Ar lo c hW hasher A⟩

end set

/-- Three keys, two of which collide; a new version without one of them; a write to a value through a reference. -/
def exHTCmds : List (Cmd (HTOp (Nat × String) Nat Nat)) :=
  [.new, .run 0 (.base (.insertMut (1, "a") 10)), .run 0 (.base (.insertMut (2, "b") 20)), .run 0 (.base (.insertMut (11, "c") 30)),
    .run 0 (.base (.remove 1)), .run 0 (.base (.getMut 2 (· + 1))), .run 0 (.count fun p => p.2 > 15), .run 1 (.base (.get 1)),
    .run 0 (.base (.get 1))]

-- the hypotheses of C42-C44 hold for these keys, this degree and these commands
example : exKeys.Lawful ∧ 2 ≤ 64 ∧ (HTMap.newWithDegree ⟨.debug, 64⟩ 10 64 : Res (HTMap Nat (Nat × String) Nat)) =
    .ok ⟨HNode.newEmptyBranch, 0, 64, 10⟩ := ⟨exKeys_lawful, by decide, rfl⟩
example : (pureClient [] (Spec.finMapStep exKeys) [] exHTCmds).map (·.1) =
    .ok [none, some (.base .unit), some (.base .unit), some (.base .unit), some (.base .unit), some (.base (.optV (some 20))),
      some (.count 2), some (.base (.optV none)), some (.base (.optV (some 10)))] := by
  decide +kernel
example : (pureClient ⟨HNode.newEmptyBranch, 0, 16, 100⟩ (HTMap.stepAll ⟨.debug, 64⟩ exKeys) [] (exHTCmds ++ [.run 0 (.iter 4)])).map
    (fun x => x.1.getLast?) =
    .ok (some (some (.calls 3 [(some ((1, "a"), 10), 2), (some ((2, "b"), 21), 1), (some ((11, "c"), 30), 0), (none, 0)]))) := by
  decide +kernel
-- on the heap the two versions share the leaf of the key 11 (cell 6, with count 2)
example : (outcome (bump _) 2000 (client (htImpl ⟨.debug, 64⟩ exKeys 100 16) [] exHTCmds) []).map (·.2.1) =
    some [.closed 1 (.branch 2054) [2, 9, 6], .closed 1 (.entry (1, "a") 10) [], .closed 1 (.single 1) [1],
      .closed 1 (.entry (2, "b") 20) [], .closed 1 (.single 2) [3], .closed 1 (.entry (11, "c") 30) [], .closed 2 (.single 11) [5],
      .closed 1 (.branch 2052) [4, 6], .free, .closed 1 (.single 2) [10], .closed 1 (.entry (2, "b") 21) []] := by
  decide +kernel
-- with collisions they share the entry of the key 11 (cell 5), which is in a list in one version and a leaf in the other
set_option synthInstance.maxSize 1000 in
example : (outcome (bump _) 3000 (client (htImpl ⟨.debug, 64⟩ exKeys 10 64) [] exHTCmds) []).map
    (fun x => (x.1.1.getLast?, x.2.1[5]?, x.2.1[15]?, x.2.1[18]?, x.2.1[21]?)) =
    some (some (some (.base (.optV (some 10)))), some (.closed 2 (.entry (11, "c") 30) []),
      some (.closed 1 (.collision true true 2) [19, 16]), some (.closed 1 (.ewh 1) [5]), some (.closed 1 (.single 1) [5])) := by
  decide +kernel
-- two threads, one writes to its map while the other drops its own
set_option synthInstance.maxSize 1000 in
example : (interleaved (htImpl ⟨.debug, 64⟩ exKeys 10 64) 900 (exHTCmds.take 5)
    [[.run 0 (.base (.insertMut (2, "z") 7)), .run 0 (.base (.get 2))], [.discard 1]] (List.replicate 100 [0, 1]).flatten).map
    (fun x => (x.1, x.2[3]?, x.2[5]?, x.2[34]?)) =
    some ([some [some (.base .unit), some (.base (.optV (some 7)))], some [none]],
      some .free, some (.closed 1 (.entry (11, "c") 30) []), some (.closed 1 (.entry (2, "z") 7) [])) := by
  decide +kernel
-- sets
example : (pureClient [] (Spec.finSetStep exKeys) [] [.new, .run 0 (.base (.insertMut (5, "e"))), .run 0 (.base (.insert (3, "c"))),
    .run 1 (.count fun v => v.1 > 4), .run 0 (.base (.contains 3)), .run 1 (.base (.get 3))]).map (·.1) =
    .ok [none, some (.base .unit), some (.base .unit), some (.count 1), some (.base (.bool false)),
      some (.base (.opt (some (3, "c"))))] := by
  decide +kernel

end Props
end Rpds
