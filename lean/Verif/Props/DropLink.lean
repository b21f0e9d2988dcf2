import Verif.Drop.Link
import Verif.Props.DropPanic
/-
Properties C73 and C74 speak about the same operations of hash trie maps.
-/
set_option autoImplicit false
namespace Rpds.Props
open Spec
variable {S H K V Q : Type}

/-- With user code that is lawful but for a `Drop` that panics, the operations of C73 on a hash trie map that has the key leave what C74
says they leave. -/
theorem C73_hash_map_drop (A : Arch) (hA : HTMap.StdWord A) (o : HashKeys H K Q) (lo : o.Lawful) (m : HTMap H K V) (hm : HTMap.Reach A o m)
    (U : HTUser S H K V Q) (hU : U.DropPanics o) (s : S) :
    (∀ q v, m.get A o q = .ok (some v) → ∃ m', m.removeMutD A o q = .ok (some m') ∧ m.stepX A U s (.removeMut q) = .ok (none, .update m')) ∧
    (∀ key value v, m.get A o (o.borrow key) = .ok (some v) →
      ∃ m', m.insertMutD A o key value = .ok (some m') ∧ m.stepX A U s (.insertMut key value) = .ok (none, .update m')) := by
  obtain ⟨l, k, r⟩ := hm.rep hA lo
  constructor
  · intro q v hv
    obtain ⟨m', _, _, h1, -⟩ := (C74_ht_map_remove_mut A hA o lo m hm q).2 v hv
    exact ⟨m', h1, by simp only [HTMap.stepX, HTMap.removeMutX_of_D hU s h1, Res.ok_bind]⟩
  · intro key value v hv
    obtain ⟨m', h1, -⟩ := (C74_ht_map_insert_mut A hA o lo m hm key value).2 v hv
    exact ⟨m', h1, by simp only [HTMap.stepX, HTMap.insertMutX_of_D r.conf r.degree r.ok hU s h1, Res.ok_bind]⟩

/-- User code that keeps no state, whose `Drop` panics. -/
def exDropping (o : HashKeys H K Q) : HTUser Unit H K V Q := { HTUser.pure o with drop := fun _ _ => (none, ()) }

example (o : HashKeys H K Q) : (exDropping o : HTUser Unit H K V Q).DropPanics o :=
  ⟨fun _ _ _ => rfl, fun _ _ _ => rfl, fun _ _ _ => rfl, fun _ _ _ => rfl, fun _ _ => rfl⟩

/-- The map of two keys with the same hash, from which the key 0 is removed, and the answers of the operations that follow (with drops that
do not panic). -/
def exAfterDrop (h : Nat → UInt64) : Res (Option (MapRet Nat Nat) × List (Option (MapRet Nat Nat))) := do
  let m ← htBuild dbg64 (exHKeys h) (0, 64, [(0, 0), (1, 1)])
  match ← m.stepX dbg64 (exDropping (exHKeys h)) () (.removeMut 0) with
  | (r, .update m') => do
    let rs ← [.get 0, .get 1, .size, .removeMut 1].mapM fun op => (·.1) <$> m'.stepX dbg64 (HTUser.pure (exHKeys h)) () op
    pure (r, rs)
  | _ => .error .diverge

example : exAfterDrop (fun _ => 5) = .ok (none, [some (.optV none), some (.optV (some 1)), some (.nat 2), none]) := by decide +kernel
example : exAfterDrop (fun k => UInt64.ofNat k <<< 60) = .ok (none, [none, some (.optV (some 1)), some (.nat 2), some (.bool true)]) := by
  decide +kernel

end Rpds.Props
