import Verif.RedBlack.Panic
/-
How often the operations of a red-black tree map compare keys.

Counting is done with user code that panics at the comparison after the N-th: if an operation with such a fuse gives the same result as
without, it has made at most N comparisons.
-/
set_option autoImplicit false
namespace Rpds
open Spec

namespace RBUser
variable {S K V Q : Type}

/-- The same user code with a fuse: after as many comparisons as the second component of the state says, the next one panics. -/
def fuse (U : RBUser S K V Q) : RBUser (S × Nat) K V Q where
  cmpK s a b := match s with | (s, 0) => (none, (s, 0)) | (s, n + 1) => ((U.cmpK s a b).1, ((U.cmpK s a b).2, n))
  cmpQ s q k := match s with | (s, 0) => (none, (s, 0)) | (s, n + 1) => ((U.cmpQ s q k).1, ((U.cmpQ s q k).2, n))
  clone s e := ((U.clone s.1 e).1, ((U.clone s.1 e).2, s.2))

end RBUser

namespace RBTree
variable {S K V Q : Type} {A : Arch} {U : RBUser S K V Q}

theorem getU_fuse (q : Q) (t : RBTree K V) (s : S) (n : Nat) (h : t.height ≤ n) :
    ∃ j, t.getU U.fuse q (s, n) = ((t.getU U q s).1, ((t.getU U q s).2, j)) := by
  induction t generalizing s n with
  | none => exact ⟨n, rfl⟩
  | some e c l r ihl ihr =>
    cases n with
    | zero => simp [height] at h
    | succ n =>
      have hl : l.height ≤ n := by simp only [height] at h; omega
      have hr : r.height ≤ n := by simp only [height] at h; omega
      simp only [getU, RBUser.fuse]
      rcases U.cmpQ s q e.1 with ⟨_ | x, s'⟩
      · exact ⟨n, rfl⟩
      · cases x with
        | lt => exact ihl s' n hl
        | eq => exact ⟨n, rfl⟩
        | gt => exact ihr s' n hr

theorem insU_fuse (k : K) (v : V) (t : RBTree K V) (root : Bool) (s : S) (n : Nat) (h : t.height ≤ n) :
    ∃ j, t.insU U.fuse k v root (s, n) = (t.insU U k v root s).map fun p => (p.1, p.2.1, (p.2.2, j)) := by
  induction t generalizing s n root with
  | none => exact ⟨n, rfl⟩
  | some e c l r ihl ihr =>
    cases n with
    | zero => simp [height] at h
    | succ n =>
      have hl : l.height ≤ n := by simp only [height] at h; omega
      have hr : r.height ≤ n := by simp only [height] at h; omega
      simp only [insU]
      have hf : U.fuse.cmpK (s, n + 1) k e.1 = ((U.cmpK s k e.1).1, ((U.cmpK s k e.1).2, n)) := rfl
      rw [hf]
      rcases U.cmpK s k e.1 with ⟨_ | x, s'⟩
      · exact ⟨n, rfl⟩
      · cases x with
        | lt =>
          obtain ⟨j, hj⟩ := ihl false s' n hl
          refine ⟨j, ?_⟩
          simp only [hj]
          rcases l.insU U k v false s' with _ | ⟨_ | b, l', s''⟩
          · rfl
          · rfl
          · simp only [Except.map, Res.ok_bind]; cases insDone root b ⟨e, c, l', r⟩ <;> rfl
        | eq => refine ⟨n, ?_⟩; simp only; cases insDone root false ⟨(k, v), c, l, r⟩ <;> rfl
        | gt =>
          obtain ⟨j, hj⟩ := ihr false s' n hr
          refine ⟨j, ?_⟩
          simp only [hj]
          rcases r.insU U k v false s' with _ | ⟨_ | b, r', s''⟩
          · rfl
          · rfl
          · simp only [Except.map, Res.ok_bind]; cases insDone root b ⟨e, c, l, r'⟩ <;> rfl

theorem delU_fuse (q : Q) (t : RBTree K V) (root : Bool) (s : S) (n : Nat) (h : t.height ≤ n) :
    ∃ j, t.delU A U.fuse q root (s, n) = (t.delU A U q root s).map fun p => (p.1, p.2.1, (p.2.2, j)) := by
  induction t generalizing s n root with
  | none => exact ⟨n, rfl⟩
  | some e c l r ihl ihr =>
    cases n with
    | zero => simp [height] at h
    | succ n =>
      have hl : l.height ≤ n := by simp only [height] at h; omega
      have hr : r.height ≤ n := by simp only [height] at h; omega
      simp only [delU]
      have hf : U.fuse.cmpQ (s, n + 1) q e.1 = ((U.cmpQ s q e.1).1, ((U.cmpQ s q e.1).2, n)) := rfl
      rw [hf]
      rcases U.cmpQ s q e.1 with ⟨_ | x, s'⟩
      · exact ⟨n, rfl⟩
      · cases x with
        | lt =>
          obtain ⟨j, hj⟩ := ihl false s' n hl
          refine ⟨j, ?_⟩
          simp only [hj]
          rcases l.delU A U q false s' with _ | ⟨_ | b, l', s''⟩
          · rfl
          · rfl
          · simp only [Except.map, Res.ok_bind]; cases delLeft A l.color e c l' r <;> rfl
        | eq => refine ⟨n, ?_⟩; simp only; cases RBNode.removeFuse A ⟨e, c, .none, .none⟩ l r <;> rfl
        | gt =>
          obtain ⟨j, hj⟩ := ihr false s' n hr
          refine ⟨j, ?_⟩
          simp only [hj]
          rcases r.delU A U q false s' with _ | ⟨_ | b, r', s''⟩
          · rfl
          · rfl
          · simp only [Except.map, Res.ok_bind]; cases delRight A r.color e c l r' <;> rfl

theorem getMutU_fuse (q : Q) (f : V → V) (t : RBTree K V) (s : S) (n : Nat) (h : t.height ≤ n) :
    ∃ j, t.getMutU U.fuse q f (s, n) = ((t.getMutU U q f s).1, (t.getMutU U q f s).2.1, ((t.getMutU U q f s).2.2, j)) := by
  induction t generalizing s n with
  | none => exact ⟨n, rfl⟩
  | some e c l r ihl ihr =>
    cases n with
    | zero => simp [height] at h
    | succ n =>
      have hl : l.height ≤ n := by simp only [height] at h; omega
      have hr : r.height ≤ n := by simp only [height] at h; omega
      simp only [getMutU]
      have hf : U.fuse.cmpQ (s, n + 1) q e.1 = ((U.cmpQ s q e.1).1, ((U.cmpQ s q e.1).2, n)) := rfl
      rw [hf]
      rcases U.cmpQ s q e.1 with ⟨_ | x, s'⟩
      · exact ⟨n, rfl⟩
      · cases x with
        | lt => obtain ⟨j, hj⟩ := ihl s' n hl; exact ⟨j, by simp only [hj]⟩
        | eq =>
          have hc : U.fuse.clone (s', n) e = ((U.clone s' e).1, ((U.clone s' e).2, n)) := rfl
          refine ⟨n, ?_⟩
          simp only [hc]
          rcases U.clone s' e with ⟨_ | _, s''⟩ <;> rfl
        | gt => obtain ⟨j, hj⟩ := ihr s' n hr; exact ⟨j, by simp only [hj]⟩


end RBTree

namespace RBMap
variable {S K V Q : Type}

theorem insertMutU_fuse (U : RBUser S K V Q) (m : RBMap K V) (k : K) (v : V) (s : S) (n : Nat) (h : m.root.height ≤ n) :
    m.insertMutU U.fuse k v (s, n) = m.insertMutU U k v s := by
  obtain ⟨j, hj⟩ := RBTree.insU_fuse (U := U) k v m.root true s n h
  simp only [insertMutU, hj]
  rcases m.root.insU U k v true s with _ | ⟨_ | _, _, _⟩ <;> rfl

theorem removeMutU_fuse (A : Arch) (U : RBUser S K V Q) (m : RBMap K V) (q : Q) (s : S) (n : Nat) (h : m.root.height ≤ n) :
    m.removeMutU A U.fuse q (s, n) = m.removeMutU A U q s := by
  obtain ⟨j, hj⟩ := RBTree.delU_fuse (A := A) (U := U) q m.root true s n h
  simp only [removeMutU, hj]
  rcases m.root.delU A U q true s with _ | ⟨_ | (_ | _), _, _⟩ <;> rfl

/-- A fuse that is as long as the tree is high never blows. -/
theorem stepU_fuse (A : Arch) (U : RBUser S K V Q) (m : RBMap K V) (s : S) (n : Nat) (h : m.root.height ≤ n) (op : MapOp K V Q) :
    m.stepU A U.fuse (s, n) op = m.stepU A U s op := by
  have hget : ∀ q, (m.root.getU U.fuse q (s, n)).1 = (m.root.getU U q s).1 := fun q => by
    obtain ⟨j, hj⟩ := RBTree.getU_fuse (U := U) q m.root s n h; rw [hj]
  cases op with
  | insert k v => simp only [stepU, insertMutU_fuse U m.clone k v s n h]
  | insertMut k v => simp only [stepU, insertMutU_fuse U m k v s n h]
  | remove q => simp only [stepU, removeMutU_fuse A U m.clone q s n h]
  | removeMut q => simp only [stepU, removeMutU_fuse A U m q s n h]
  | getMut q f =>
    obtain ⟨j, hj⟩ := RBTree.getMutU_fuse (U := U) q f m.root s n h
    simp only [stepU, hj]
    rcases m.root.getMutU U q f s with ⟨_ | _, _, _⟩ <;> rfl
  | get q => simp only [stepU, hget]
  | getKeyValue q => simp only [stepU, hget]
  | containsKey q => simp only [stepU, hget]
  | index q => simp only [stepU, hget]
  | clone => rfl
  | size => rfl
  | isEmpty => rfl

end RBMap
end Rpds
