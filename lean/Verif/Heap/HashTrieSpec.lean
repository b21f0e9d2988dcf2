import Verif.Heap.HashTrieMap
import Verif.Heap.RedBlackSpec
/-
`HashTrieMap` and `HashTrieSet` on the heap refine finite maps and sets.
-/
set_option autoImplicit false
namespace Rpds
namespace Spec
open Heap.HT
variable {H K V Q : Type}

/-- What a finite map answers.  The order of iteration is not specified, only how many of the pairs satisfy a condition. -/
def finMapStep (o : HashKeys H K Q) (l : List (K × V)) : HTOp K V Q → Res (HTRet K V × Effect (List (K × V)))
  | .base op => .ok (.base (mapStep o.eqK o.eqKQ l op).1, (mapStep o.eqK o.eqKQ l op).2)
  | .iter _ => .error .unreachable
  | .count p => .ok (.count (l.countP p), .keep)

end Spec

namespace Heap
namespace HT
open Spec
variable {H K V Q : Type} {o : HashKeys H K Q} {Ar : Arch} {k : Nat}

theorem countIf_eq {m : HTMap H K V} {l : List (K × V)} (r : m.Rep Ar o k l) (p : K × V → Bool) : countIf p m = .ok (l.countP p) := by
  have h := (r.iter.drives HTMap.pair).iterFold (f := fun n kv => .ok (if p kv then n + 1 else n))
    (g := fun n kv => if p kv then n + 1 else n) (fun _ => True) (fun _ _ _ => trivial) (fun _ _ _ => rfl) 0 trivial
    (fuel := m.size + 1) (by simp [r.size, r.length])
  have h2 : ∀ (xs : List (K × V)) (n : Nat), xs.foldl (fun n kv => if p kv then n + 1 else n) n = n + xs.countP p := by
    intro xs
    induction xs with
    | nil => simp
    | cons x xs ih =>
      intro n
      simp only [List.foldl_cons, ih, List.countP_cons]
      split <;> omega
  unfold countIf
  refine h.trans ?_
  rw [h2, Nat.zero_add, r.perm.countP_eq]

/-- The value model of the map does what a finite map does. -/
theorem htMap_stepAll (lo : o.Lawful) {m : HTMap H K V} {l : List (K × V)} (hr : m.Rep Ar o k l) (op : HTOp K V Q) {x : HTRet K V}
    {f : Effect (List (K × V))} (he : finMapStep o l op = .ok (x, f)) :
    ∃ e, HTMap.stepAll Ar o m op = .ok (x, e) ∧ Effect.Rel (fun m l => m.Rep Ar o k l) e f := by
  cases op with
  | base op =>
    obtain ⟨e, h1, h2⟩ := hr.step lo op
    cases he
    exact ⟨e, by simp [HTMap.stepAll, h1], h2⟩
  | iter n => cases he
  | count p =>
    cases he
    exact ⟨.keep, by simp [HTMap.stepAll, countIf_eq hr], .keep⟩

/-- The heap version of `HashTrieMap` refines a finite map. -/
theorem htImpl_refines (Ar : Arch) {o : HashKeys H K Q} (lo : o.Lawful) {k : Nat} (c : HConf Ar k) (hW : 2 ^ k ≤ Ar.W % 256) (hasher : H)
    (A : Allocator (HLabel K V)) :
    (htImpl Ar o hasher (2 ^ k) : Impl (HLabel K V) _ _ _).Refines A ([] : List (K × V)) (finMapStep o)
      (fun hm l ρ => ∃ m, HTIs Ar o k hm m ρ ∧ m.Rep Ar o k l) :=
  (htImpl_refines_model Ar lo c hW hasher A).trans (HTMap.rep_empty c hasher) fun _ _ op _ _ hr he => htMap_stepAll lo hr op he

/-! ### Sets -/

/-- `HashTrieSet<T, P, H>` is a struct with a `HashTrieMap<T, (), P, H>` as its only field, and each of its operations is one
operation on that map (hash_trie_set/mod.rs:81-87, 145-202, 235-248, 256-260). -/
inductive HTSetOp (T Q : Type) where
  | base (op : SetOp T Q)
  | iter (n : Nat)
  | count (p : T → Bool)

/-- Answers of operations on sets. -/
inductive HTSetRet (T : Type) where
  | base (r : SetRet T)
  | calls (n : Nat) (rs : List (Option T × Nat))
  | count (n : Nat)
  deriving DecidableEq, Repr

/-- The operation on the map. -/
def htSetOp {T Q : Type} : HTSetOp T Q → HTOp T Unit Q
  | .base op => .base (setBaseOp op)
  | .iter n => .iter n
  | .count p => .count fun e => p e.1

/-- The answer of the set, from the answer of the map. -/
def htSetRet {T : Type} : HTRet T Unit → HTSetRet T
  | .base r => .base (setBaseRet r)
  | .calls n rs => .calls n (rs.map fun x => (x.1.map fun e => e.1, x.2))
  | .count n => .count n

/-- `HashTrieSet` for clients. -/
def htSetImpl {T : Type} (Ar : Arch) (o : HashKeys H T Q) (hasher : H) (degree : Nat) :
    Impl (HLabel T Unit) (HHTMap H) (HTSetOp T Q) (HTSetRet T) := (htImpl Ar o hasher degree).adapt htSetOp htSetRet

/-- What a set does, from what the value model of its map does. -/
def htSetStepAll {T : Type} (Ar : Arch) (o : HashKeys H T Q) (m : HTMap H T Unit) (op : HTSetOp T Q) :
    Res (HTSetRet T × Effect (HTMap H T Unit)) := do
  let x ← HTMap.stepAll Ar o m (htSetOp op)
  .ok (htSetRet x.1, x.2)

end HT
end Heap

namespace Spec
open Heap.HT
variable {H T Q : Type}

/-- What a finite set answers. -/
def finSetStep (o : HashKeys H T Q) (l : List T) : HTSetOp T Q → Res (HTSetRet T × Effect (List T))
  | .base op => .ok (.base (setStep o.eqK o.eqKQ l op).1, (setStep o.eqK o.eqKQ l op).2)
  | .iter _ => .error .unreachable
  | .count p => .ok (.count (l.countP p), .keep)

end Spec

namespace Heap
open Spec
variable {H T Q : Type}

/-- The map of a set answers what the set answers. -/
theorem setBase_spec (same : T → T → Bool) (hits : T → Q → Bool) (l : List T) (op : SetOp T Q) :
    setBaseRet (mapStep same hits (unitPairs l) (setBaseOp op)).1 = (setStep same hits l op).1 ∧
      Effect.Rel (fun m s => m = unitPairs s) (mapStep same hits (unitPairs l) (setBaseOp op)).2 (setStep same hits l op).2 := by
  have hlen : (unitPairs l).length = l.length := by simp [unitPairs]
  cases op with
  | insert v => exact ⟨rfl, .fresh (unitPairs_insert ..)⟩
  | insertMut v => exact ⟨rfl, .update (unitPairs_insert ..)⟩
  | remove q => exact ⟨rfl, .fresh (unitPairs_remove ..)⟩
  | removeMut q => exact ⟨by simp [setBaseOp, mapStep, setStep, setBaseRet, unitPairs_get], .update (unitPairs_remove ..)⟩
  | clone => exact ⟨rfl, .fresh rfl⟩
  | get q =>
    refine ⟨?_, .keep⟩
    simp only [setBaseOp, mapStep, setStep, setBaseRet, unitPairs_get]
    cases setGet hits l q <;> rfl
  | contains q => exact ⟨by simp [setBaseOp, mapStep, setStep, setBaseRet, unitPairs_get], .keep⟩
  | size => exact ⟨by simp [setBaseOp, mapStep, setStep, setBaseRet, hlen], .keep⟩
  | isEmpty => exact ⟨by simp [setBaseOp, mapStep, setStep, setBaseRet, unitPairs], .keep⟩

namespace HT

/-- The map of a set does what the set does. -/
theorem finMap_set {o : HashKeys H T Q} (l : List T) (op : HTSetOp T Q) {x : HTSetRet T} {f : Effect (List T)}
    (he : finSetStep o l op = .ok (x, f)) : ∃ y g, finMapStep o (unitPairs l) (htSetOp op) = .ok (y, g) ∧ htSetRet y = x ∧
      Effect.Rel (fun m s => m = unitPairs s) g f := by
  cases op with
  | base op =>
    cases he
    obtain ⟨h1, h2⟩ := setBase_spec o.eqK o.eqKQ l op
    exact ⟨_, _, rfl, by simp [htSetRet, h1], h2⟩
  | iter n => cases he
  | count p =>
    cases he
    refine ⟨_, _, rfl, ?_, .keep⟩
    simp [htSetRet, unitPairs, List.countP_map, Function.comp_def]

/-- The heap version of `HashTrieSet` does what the value model does. -/
theorem htSetImpl_refines_model (Ar : Arch) {o : HashKeys H T Q} (lo : o.Lawful) {k : Nat} (c : HConf Ar k) (hW : 2 ^ k ≤ Ar.W % 256)
    (hasher : H) (A : Allocator (HLabel T Unit)) :
    (htSetImpl Ar o hasher (2 ^ k)).Refines A (⟨HNode.newEmptyBranch, 0, 2 ^ k, hasher⟩ : HTMap H T Unit) (htSetStepAll Ar o)
      (HTIs Ar o k) := (htImpl_refines_model Ar lo c hW hasher A).adapt htSetOp htSetRet

/-- The heap version of `HashTrieSet` refines a finite set. -/
theorem htSetImpl_refines (Ar : Arch) {o : HashKeys H T Q} (lo : o.Lawful) {k : Nat} (c : HConf Ar k) (hW : 2 ^ k ≤ Ar.W % 256)
    (hasher : H) (A : Allocator (HLabel T Unit)) :
    (htSetImpl Ar o hasher (2 ^ k)).Refines A ([] : List T) (finSetStep o)
      (fun hm l ρ => ∃ s, (∃ m, HTIs Ar o k hm m ρ ∧ m.Rep Ar o k s) ∧ s = unitPairs l) := by
  refine ((htImpl_refines Ar lo c hW hasher A).adapt htSetOp htSetRet).trans (S := fun s l => s = unitPairs l) rfl ?_
  rintro _ l op x f rfl he
  obtain ⟨y, g, h1, h2, h3⟩ := finMap_set l op he
  exact ⟨g, by simp [h1, h2], h3⟩

end HT
end Heap
end Rpds
