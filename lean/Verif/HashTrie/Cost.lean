import Verif.HashTrie.PanicMap
/-
How often the operations of a hash trie map call `Hash` and `Eq`.

Counting is done with user code that panics at the call after the N-th: if an operation with such a fuse gives the same result as
without, it has made at most N calls.
-/
set_option autoImplicit false
namespace Rpds
open Spec

/-- `x` does what `y` does, and burns at most `c` of the fuse `n`. -/
def Burns1 {S α : Type} (x : Res (α × S × Nat)) (y : Res (α × S)) (n c : Nat) : Prop :=
  ∃ j, n ≤ j + c ∧ x = y.map fun p => (p.1, p.2, j)

/-- `x` does what `y` does, and burns at most `c` of the fuse `n`. -/
def Burns {S α N : Type} (x : Res (α × N × S × Nat)) (y : Res (α × N × S)) (n c : Nat) : Prop :=
  ∃ j, n ≤ j + c ∧ x = y.map fun p => (p.1, p.2.1, p.2.2, j)

section
variable {S T : Type} {p : T → S → Option Bool × S} {pf : T → S × Nat → Option Bool × S × Nat} {w : T → Nat}

/-- The predicate with the fuse answers as the one without, and burns at most `w t`. -/
def Fused (p : T → S → Option Bool × S) (pf : T → S × Nat → Option Bool × S × Nat) (w : T → Nat) : Prop :=
  ∀ t s n, w t ≤ n → ∃ j, n ≤ j + w t ∧ pf t (s, n) = ((p t s).1, (p t s).2, j)

theorem listRemoveLoopU_fuse (h : Fused p pf w) (fuel : Nat) : ∀ {r : RList T} {xs : List T} (bn : List T) (s : S) (n : Nat), r.Rep xs →
    (xs.map w).sum ≤ n → Burns (listRemoveLoopU pf fuel r bn (s, n)) (listRemoveLoopU p fuel r bn s) n (xs.map w).sum := by
  induction fuel with
  | zero => intro r xs bn s n _ _; exact ⟨n, by omega, rfl⟩
  | succ fuel ih =>
    intro r xs bn s n hr hn
    cases xs with
    | nil => exact ⟨n, by omega, by simp [listRemoveLoopU, hr.isEmpty, Except.map]⟩
    | cons x xs =>
      simp only [List.map_cons, List.sum_cons] at hn ⊢
      obtain ⟨l', e1, e2⟩ := hr.dropFirstMut_cons
      simp only [listRemoveLoopU, hr.isEmpty, hr.first, List.isEmpty_cons, Bool.not_false, if_true, List.head?_cons, unwrap_some, Res.ok_bind, e1]
      obtain ⟨j, hj, hp⟩ := h x s n (by omega)
      rw [hp]
      rcases p x s with ⟨_ | _ | _, s1⟩
      · exact ⟨j, by omega, rfl⟩
      · obtain ⟨j', hj', h1⟩ := ih (bn ++ [x]) s1 j e2 (by omega)
        exact ⟨j', by omega, h1⟩
      · exact ⟨j, by omega, rfl⟩

theorem listRemoveFirstU_fuse (h : Fused p pf w) {l : RList T} {xs : List T} (s : S) (n : Nat) (hr : l.Rep xs) (hn : (xs.map w).sum ≤ n) :
    Burns (listRemoveFirstU pf l (s, n)) (listRemoveFirstU p l s) n (xs.map w).sum := by
  obtain ⟨j, hj, h1⟩ := listRemoveLoopU_fuse h (l.len + 1) [] s n hr hn
  refine ⟨j, hj, ?_⟩
  simp only [listRemoveFirstU, h1]
  rcases listRemoveLoopU p (l.len + 1) l [] s with _ | ⟨_ | ⟨_, _⟩, _, _⟩ <;> rfl

theorem iterFindU_fuse (h : Fused p pf w) {l : RList T} {xs : List T} (hr : l.Rep xs) (s : S) (n : Nat) (hn : (xs.map w).sum ≤ n) :
    Burns1 (iterFindU ListIter.step pf (l.len + 1) l.iter (s, n)) (iterFindU ListIter.step p (l.len + 1) l.iter s) n (xs.map w).sum := by
  suffices hs : ∀ fuel xs it (s : S) n, ListIter.Rep it xs → (xs.map w).sum ≤ n →
      Burns1 (iterFindU ListIter.step pf fuel it (s, n)) (iterFindU ListIter.step p fuel it s) n (xs.map w).sum from hs _ _ _ _ _ hr.iter hn
  intro fuel
  induction fuel with
  | zero => intro xs it s n _ _; exact ⟨n, by omega, rfl⟩
  | succ fuel ih =>
    intro xs it s n hr hn
    cases xs with
    | nil => obtain ⟨it', e, _⟩ := hr.step_nil; exact ⟨n, by omega, by simp [iterFindU, e, Except.map]⟩
    | cons x xs =>
      simp only [List.map_cons, List.sum_cons] at hn ⊢
      obtain ⟨it', e, e2⟩ := hr.step_cons
      obtain ⟨j, hj, hp⟩ := h x s n (by omega)
      simp only [iterFindU, e, Res.ok_bind, hp]
      rcases p x s with ⟨_ | _ | _, s1⟩
      · exact ⟨j, by omega, rfl⟩
      · obtain ⟨j', hj', h1⟩ := ih xs it' s1 j e2 (by omega)
        exact ⟨j', by omega, h1⟩
      · exact ⟨j, by omega, rfl⟩

end

section
variable {S H K V Q : Type} {A : Arch} {k : Nat} {z : Bool} {eq : S → K → Q → Option Bool × S} {eqf : S × Nat → K → Q → Option Bool × S × Nat}
  {clone : S → K × V → Option Unit × S} {clonef : S × Nat → K × V → Option Unit × S × Nat} {w : HEntry K V → Nat} {key : Q} {kh : UInt64}

/-- `Clone` burns nothing. -/
def FusedClone (clone : S → K × V → Option Unit × S) (clonef : S × Nat → K × V → Option Unit × S × Nat) : Prop :=
  ∀ s n e, clonef (s, n) e = ((clone s e).1, (clone s e).2, n)

namespace Bucket

theorem getU_fuse (h : Fused (fun e => e.matchesU eq key kh) (fun e => e.matchesU eqf key kh) w) {b : Bucket K V} {d : Nat}
    (hok : (HNode.leaf b).OK A k z d) (s : S) (n : Nat) (hn : (b.entries.map w).sum ≤ n) :
    Burns1 (b.getU eqf key kh (s, n)) (b.getU eq key kh s) n (b.entries.map w).sum := by
  cases b with
  | single e =>
    simp only [entries, List.map_cons, List.map_nil, List.sum_cons, List.sum_nil, Nat.add_zero] at hn ⊢
    obtain ⟨j, hj, hp⟩ := h e s n hn
    refine ⟨j, hj, ?_⟩
    simp only [getU]
    simp only at hp
    rw [hp]
    rcases e.matchesU eq key kh s with ⟨_ | _, s1⟩ <;> rfl
  | collision l =>
    rw [HNode.OK] at hok
    exact iterFindU_fuse h hok.2.1 s n hn

theorem getMutU_fuse (h : Fused (fun e => e.matchesU eq key kh) (fun e => e.matchesU eqf key kh) w) (hc : FusedClone clone clonef)
    (f : HEntry K V → HEntry K V) {b : Bucket K V} {d : Nat} (hok : (HNode.leaf b).OK A k z d) (s : S) (n : Nat)
    (hn : (b.entries.map w).sum ≤ n) :
    Burns (b.getMutU eqf clonef key kh f (s, n)) (b.getMutU eq clone key kh f s) n (b.entries.map w).sum := by
  cases b with
  | single e =>
    simp only [entries, List.map_cons, List.map_nil, List.sum_cons, List.sum_nil, Nat.add_zero] at hn ⊢
    obtain ⟨j, hj, hp⟩ := h e s n hn
    refine ⟨j, hj, ?_⟩
    simp only [getMutU]
    simp only at hp
    rw [hp]
    rcases e.matchesU eq key kh s with ⟨_ | _ | _, s1⟩
    · rfl
    · rfl
    · simp only [hc s1 j]
      rcases clone s1 (e.key, e.value) with ⟨_ | _, s2⟩ <;> rfl
  | collision l =>
    rw [HNode.OK] at hok
    obtain ⟨j, hj, h1⟩ := listRemoveFirstU_fuse h s n hok.2.1 hn
    refine ⟨j, hj, ?_⟩
    simp only [getMutU, h1]
    rcases listRemoveFirstU (fun e : HEntry K V => e.matchesU eq key kh) l s with _ | ⟨_ | _ | e, l', s1⟩
    · rfl
    · rfl
    · rfl
    · simp only [Except.map, Res.ok_bind, hc s1 j]
      rcases clone s1 (e.key, e.value) with ⟨_ | _, s2⟩
      · rfl
      · simp only
        cases (l'.pushFrontMut e).firstMutSet f <;> rfl

theorem removeU_fuse (h : Fused (fun e => e.matchesU eq key kh) (fun e => e.matchesU eqf key kh) w) {b : Bucket K V} {d : Nat}
    (hok : (HNode.leaf b).OK A k z d) (s : S) (n : Nat) (hn : (b.entries.map w).sum ≤ n) :
    Burns (b.removeU eqf key kh (s, n)) (b.removeU eq key kh s) n (b.entries.map w).sum := by
  cases b with
  | single e =>
    simp only [entries, List.map_cons, List.map_nil, List.sum_cons, List.sum_nil, Nat.add_zero] at hn ⊢
    obtain ⟨j, hj, hp⟩ := h e s n hn
    refine ⟨j, hj, ?_⟩
    simp only [removeU]
    simp only at hp
    rw [hp]
    rcases e.matchesU eq key kh s with ⟨_ | _ | _, s1⟩ <;> rfl
  | collision l =>
    rw [HNode.OK] at hok
    obtain ⟨j, hj, h1⟩ := listRemoveFirstU_fuse h s n hok.2.1 hn
    refine ⟨j, hj, ?_⟩
    simp only [removeU, h1]
    rcases listRemoveFirstU (fun e : HEntry K V => e.matchesU eq key kh) l s with _ | ⟨_ | e, l', s1⟩
    · rfl
    · rfl
    · simp only [Except.map, Res.ok_bind]
      rcases l'.len with _ | _ | _
      · rfl
      · simp only; cases unwrap l'.first <;> rfl
      · rfl

end Bucket
end

section
variable {S H K V Q : Type} {A : Arch} {k : Nat} {z : Bool} {eq : S → K → K → Option Bool × S} {eqf : S × Nat → K → K → Option Bool × S × Nat}
  {w : HEntry K V → Nat} {entry : HEntry K V}

theorem Bucket.insertU_fuse (h : Fused (fun e => e.matchesU eq entry.key entry.keyHash) (fun e => e.matchesU eqf entry.key entry.keyHash) w)
    {b : Bucket K V} {d : Nat} (hok : (HNode.leaf b).OK A k z d) (s : S) (n : Nat) (hn : (b.entries.map w).sum ≤ n) :
    Burns (b.insertU eqf entry (s, n)) (b.insertU eq entry s) n (b.entries.map w).sum := by
  cases b with
  | single e =>
    simp only [entries, List.map_cons, List.map_nil, List.sum_cons, List.sum_nil, Nat.add_zero] at hn ⊢
    obtain ⟨j, hj, hp⟩ := h e s n hn
    refine ⟨j, hj, ?_⟩
    simp only [insertU]
    simp only at hp
    rw [hp]
    rcases e.matchesU eq entry.key entry.keyHash s with ⟨_ | _ | _, s1⟩ <;> rfl
  | collision l =>
    rw [HNode.OK] at hok
    obtain ⟨j, hj, h1⟩ := listRemoveFirstU_fuse h s n hok.2.1 hn
    refine ⟨j, hj, ?_⟩
    simp only [insertU, h1]
    rcases listRemoveFirstU (fun e : HEntry K V => e.matchesU eq entry.key entry.keyHash) l s with _ | ⟨_ | e, l', s1⟩ <;> rfl

end

namespace HNode
section
variable {S H K V Q : Type} {A : Arch} {k : Nat} {z : Bool} {eq : S → K → Q → Option Bool × S} {eqf : S × Nat → K → Q → Option Bool × S × Nat}
  {clone : S → K × V → Option Unit × S} {clonef : S × Nat → K × V → Option Unit × S × Nat} {w : HEntry K V → Nat} {key : Q} {kh : UInt64}

/-- The weight of the entries of a node. -/
def burn (w : HEntry K V → Nat) (n : HNode K V) : Nat := (n.entries.map w).sum

theorem burn_child (w : HEntry K V → Nat) (bm : Nat) (los his : List (HNode K V)) (a : HNode K V) :
    a.burn w ≤ (HNode.branch bm (los ++ a :: his)).burn w := by
  simp only [burn, entries_branch, List.flatMap_append, List.flatMap_cons, List.map_append, List.sum_append]; omega

theorem getU_fuse (c : HConf A k) (h : Fused (fun e => e.matchesU eq key kh) (fun e => e.matchesU eqf key kh) w) (t : HNode K V) :
    ∀ (d : Nat), d ≤ 64 → t.OK A k z d → ∀ (s : S) (n : Nat), t.burn w ≤ n →
    Burns1 (t.getU A eqf key kh (2 ^ k) d (s, n)) (t.getU A eq key kh (2 ^ k) d s) n (t.burn w) := by
  induction t using HNode.induct with
  | hl b =>
    intro d hd hok s n hn
    simp only [getU]
    exact Bucket.getU_fuse h hok s n (by simpa [burn] using hn)
  | hb bm arr ih =>
    intro d hd hok s n hn
    rw [ok_branch] at hok
    obtain ⟨hd64, hrel⟩ := hok
    have hi := c.idx_lt d kh
    obtain ⟨los, his, hlo, hhi, hcase⟩ := hrel.cases hi
    simp only [getU, indexFromHash_eq c.small hd, hd64, if_true, Res.ok_bind, unwrap_some, SparseArray.slot_eq hi]
    rcases hcase with ⟨hb, e1⟩ | ⟨a, hb, e1, hca⟩
    · simp only at hb
      exact ⟨n, by omega, by simp [hb, Except.map]⟩
    · simp only at hb e1
      subst e1
      have hw := burn_child w bm los his a
      obtain ⟨j, hj, h1⟩ := ih a (by simp) (d + 1) (depth_succ c hd64) hca.ok s n (by omega)
      refine ⟨j, by omega, ?_⟩
      rw [hb]
      simp only [if_true]
      rw [getAtU_eq, getAtU_eq, vecIndex_ok (a := a) (by simp [SparseArray.forall₂_length hlo])]
      exact h1

theorem getMutU_fuse (c : HConf A k) (h : Fused (fun e => e.matchesU eq key kh) (fun e => e.matchesU eqf key kh) w)
    (hc : FusedClone clone clonef) (f : HEntry K V → HEntry K V) (t : HNode K V) :
    ∀ (d : Nat), d ≤ 64 → t.OK A k z d → ∀ (s : S) (n : Nat), t.burn w ≤ n →
    Burns (t.getMutU A eqf clonef key kh (2 ^ k) f d (s, n)) (t.getMutU A eq clone key kh (2 ^ k) f d s) n (t.burn w) := by
  induction t using HNode.induct with
  | hl b =>
    intro d hd hok s n hn
    obtain ⟨j, hj, h1⟩ := Bucket.getMutU_fuse h hc f hok s n (by simpa [burn] using hn)
    refine ⟨j, by simpa [burn] using hj, ?_⟩
    simp only [getMutU, h1]
    rcases b.getMutU eq clone key kh f s with _ | ⟨_, _, _⟩ <;> rfl
  | hb bm arr ih =>
    intro d hd hok s n hn
    rw [ok_branch] at hok
    obtain ⟨hd64, hrel⟩ := hok
    have hi := c.idx_lt d kh
    obtain ⟨los, his, hlo, hhi, hcase⟩ := hrel.cases hi
    simp only [getMutU, indexFromHash_eq c.small hd, hd64, if_true, Res.ok_bind, unwrap_some, SparseArray.slot_eq hi]
    rcases hcase with ⟨hb, e1⟩ | ⟨a, hb, e1, hca⟩
    · simp only at hb
      exact ⟨n, by omega, by simp [hb, Except.map]⟩
    · simp only at hb e1
      subst e1
      have hw := burn_child w bm los his a
      obtain ⟨j, hj, h1⟩ := ih a (by simp) (d + 1) (depth_succ c hd64) hca.ok s n (by omega)
      refine ⟨j, by omega, ?_⟩
      rw [hb]
      simp only [if_true]
      rw [getMutAtU_eq, getMutAtU_eq, vecIndex_ok (a := a) (by simp [SparseArray.forall₂_length hlo])]
      simp only [Res.ok_bind, h1]
      rcases a.getMutU A eq clone key kh (2 ^ k) f (d + 1) s with _ | ⟨x, a', s1⟩
      · rfl
      · simp only [Except.map, Res.ok_bind]
        rw [SparseArray.writeSlot_ok (s := ⟨bm, los ++ a :: his⟩) (b := a') hlo rfl]
        rfl

theorem removeU_fuse (c : HConf A k) (h : Fused (fun e => e.matchesU eq key kh) (fun e => e.matchesU eqf key kh) w) (t : HNode K V) :
    ∀ (d : Nat), d ≤ 64 → t.OK A k z d → ∀ (s : S) (n : Nat), t.burn w ≤ n →
    Burns (t.removeU A eqf key kh (2 ^ k) d (s, n)) (t.removeU A eq key kh (2 ^ k) d s) n (t.burn w) := by
  induction t using HNode.induct with
  | hl b =>
    intro d hd hok s n hn
    obtain ⟨j, hj, h1⟩ := Bucket.removeU_fuse h hok s n (by simpa [burn] using hn)
    refine ⟨j, by simpa [burn] using hj, ?_⟩
    simp only [removeU, h1]
    rcases b.removeU eq key kh s with _ | ⟨_, _ | _, _⟩ <;> rfl
  | hb bm arr ih =>
    intro d hd hok s n hn
    rw [ok_branch] at hok
    obtain ⟨hd64, hrel⟩ := hok
    have hi := c.idx_lt d kh
    obtain ⟨los, his, hlo, hhi, hcase⟩ := hrel.cases hi
    simp only [removeU, indexFromHash_eq c.small hd, hd64, if_true, Res.ok_bind, unwrap_some, SparseArray.slot_eq hi]
    rcases hcase with ⟨hb, e1⟩ | ⟨a, hb, e1, hca⟩
    · simp only at hb
      exact ⟨n, by omega, by simp [hb, Except.map]⟩
    · simp only at hb e1
      subst e1
      have hw := burn_child w bm los his a
      obtain ⟨j, hj, h1⟩ := ih a (by simp) (d + 1) (depth_succ c hd64) hca.ok s n (by omega)
      refine ⟨j, by omega, ?_⟩
      rw [hb]
      simp only [if_true]
      rw [removeAtU_eq, removeAtU_eq, vecIndex_ok (a := a) (by simp [SparseArray.forall₂_length hlo])]
      simp only [Res.ok_bind, h1]
      rcases a.removeU A eq key kh (2 ^ k) (d + 1) s with _ | ⟨x, a', s1⟩
      · rfl
      · simp only [Except.map, Res.ok_bind]
        rw [SparseArray.writeSlot_ok (s := ⟨bm, los ++ a :: his⟩) (b := a') hlo rfl]
        simp only [Res.ok_bind]
        rcases x with _ | x
        · rfl
        · simp only
          cases a'.isEmpty A with
          | error e => rfl
          | ok em =>
            simp only [Res.ok_bind]
            cases x with
            | false => rfl
            | true =>
              cases em with
              | false => simp only; cases compress A (.branch bm (los ++ a' :: his)) <;> rfl
              | true =>
                simp only
                cases SparseArray.remove A ⟨bm, los ++ a' :: his⟩ (idx k d kh) with
                | error e => rfl
                | ok t => simp only [Res.ok_bind]; cases compress A (.branch t.bitmap t.array) <;> rfl

end

section
variable {S H K V Q : Type} {A : Arch} {k : Nat} {z : Bool} {eq : S → K → K → Option Bool × S} {eqf : S × Nat → K → K → Option Bool × S × Nat}
  {w : HEntry K V → Nat} {entry : HEntry K V}

/-- What an insertion may burn in a node with `lv` levels of branches left: nothing if no entry has the hash; else each entry twice, and
one at every level on the way down. -/
def insertCost (w : HEntry K V → Nat) (lv : Nat) (t : HNode K V) : Nat :=
  if t.burn w = 0 then 0 else 2 * t.burn w + (lv - match t with | .branch _ _ => 1 | .leaf _ => 0)

theorem insertU_fuse (c : HConf A k) (hw1 : ∀ e, w e ≤ 1)
    (h : Fused (fun e => e.matchesU eq entry.key entry.keyHash) (fun e => e.matchesU eqf entry.key entry.keyHash) w) (fuel : Nat) :
    ∀ (t : HNode K V) (d lv : Nat), d ≤ 64 → 64 ≤ (d + lv) * k → t.OK A k false d → ∀ (s : S) (n : Nat), t.insertCost w lv ≤ n →
    Burns (t.insertU A eqf (2 ^ k) fuel entry d (s, n)) (t.insertU A eq (2 ^ k) fuel entry d s) n (t.insertCost w lv) := by
  induction fuel with
  | zero => intro t d lv _ _ _ s n _; exact ⟨n, by omega, by cases t <;> rfl⟩
  | succ fuel ih =>
    intro t d lv hd hlv hok s n hn
    cases t with
    | branch bm arr =>
      rw [ok_branch] at hok
      obtain ⟨hd64, hrel⟩ := hok
      have hi := c.idx_lt d entry.keyHash
      obtain ⟨los, his, hlo, hhi, hcase⟩ := hrel.cases hi
      simp only [insertU, indexFromHash_eq c.small hd, hd64, if_true, Res.ok_bind, unwrap_some, SparseArray.slot_eq hi]
      rcases hcase with ⟨hb, e1⟩ | ⟨a, hb, e1, hca⟩
      · simp only at hb
        refine ⟨n, by omega, ?_⟩
        simp only [hb, Bool.false_eq_true, if_false]
        cases SparseArray.set A ⟨bm, arr⟩ (idx k d entry.keyHash) (HNode.leaf (.single entry)) <;> rfl
      · simp only at hb e1
        subst e1
        have hw := burn_child w bm los his a
        obtain ⟨lv, rfl⟩ : ∃ l, lv = l + 1 := by
          cases lv with
          | zero => rw [Nat.add_zero] at hlv; omega
          | succ l => exact ⟨l, rfl⟩
        have hcost : a.insertCost w lv ≤ (HNode.branch bm (los ++ a :: his)).insertCost w (lv + 1) := by
          simp only [insertCost]
          split
          · omega
          · rw [if_neg (by omega)]; cases a <;> (simp only; omega)
        obtain ⟨j, hj, h1⟩ := ih a (d + 1) lv (depth_succ c hd64) (by rw [Nat.add_right_comm]; exact hlv) hca.ok s n (by omega)
        refine ⟨j, by omega, ?_⟩
        rw [hb]
        simp only [if_true]
        rw [vecIndex_ok (a := a) (by simp [SparseArray.forall₂_length hlo])]
        simp only [Res.ok_bind, h1]
        rcases a.insertU A eq (2 ^ k) fuel entry (d + 1) s with _ | ⟨x, a', s1⟩
        · rfl
        · simp only [Except.map, Res.ok_bind]
          rw [SparseArray.writeSlot_ok (s := ⟨bm, los ++ a :: his⟩) (b := a') hlo rfl]
          rfl
    | leaf b =>
      have hsum : (b.entries.map w).sum = (HNode.leaf b).burn w := by simp [burn]
      have hcost : 2 * (HNode.leaf b).burn w ≤ (HNode.leaf b).insertCost w lv := by
        simp only [insertCost]; split <;> omega
      obtain ⟨j, hj, h1⟩ := Bucket.getU_fuse h hok s n (by omega)
      simp only [insertU, indexFromHash_eq c.small hd, Res.ok_bind, h1]
      rcases b.getU eq entry.key entry.keyHash s with _ | ⟨_ | r, s1⟩
      · exact ⟨j, by omega, rfl⟩
      · exact ⟨j, by omega, rfl⟩
      · simp only [Except.map, Res.ok_bind]
        obtain ⟨j2, hj2, h2⟩ := Bucket.insertU_fuse h hok s1 j (by omega)
        by_cases hmax : d * k < 64
        · simp only [hmax, if_true, Option.isNone_some, Bool.not_false]
          cases r with
          | some y =>
            refine ⟨j2, by omega, ?_⟩
            simp only [Option.isSome_some, if_true, h2]
            rcases b.insertU eq entry s1 with _ | ⟨_, _, _⟩ <;> rfl
          | none =>
            simp only [Option.isSome_none, Bool.false_eq_true, if_false]
            cases b with
            | collision l => exact ⟨j, by omega, rfl⟩
            | single x =>
              simp only
              cases fuel with
              | zero => exact ⟨j, by omega, rfl⟩
              | succ fuel =>
                rw [insertU_empty c hd hmax, insertU_empty c hd hmax]
                simp only [Res.ok_bind]
                have hx : x.clone = x := rfl
                rw [hx]
                have hi := c.idx_lt d x.keyHash
                have hok1 : (HNode.branch (0 ||| 2 ^ idx k d x.keyHash) [HNode.leaf (.single x)]).OK A k false d := by
                  rw [ok_branch]
                  refine ⟨hmax, ?_⟩
                  rw [SparseArray.Rel]; simp only
                  rw [SparseArray.bits_or hi]
                  rw [below_zero, above_zero, List.nil_append]
                  refine .cons ⟨by rw [OK]; trivial, by simp [Bucket.entries], by simp, ?_⟩ .nil
                  intro e he
                  simp only [entries_leaf, Bucket.entries, List.mem_singleton] at he
                  rw [he]
                have hwx := hw1 x
                have e1 : (HNode.leaf (.single x)).burn w = w x := by simp [burn, Bucket.entries]
                have e2 : (HNode.branch (0 ||| 2 ^ idx k d x.keyHash) [HNode.leaf (.single x)]).burn w = w x := by
                  simp [burn, Bucket.entries]
                have hlv1 : 1 ≤ lv := by
                  cases lv with
                  | zero => rw [Nat.add_zero] at hlv; omega
                  | succ l => omega
                have hle : (HNode.branch (0 ||| 2 ^ idx k d x.keyHash) [HNode.leaf (.single x)]).insertCost w lv + w x ≤
                    (HNode.leaf (.single x)).insertCost w lv := by
                  simp only [insertCost, e1, e2]
                  split <;> omega
                rw [hsum, e1] at hj
                obtain ⟨j3, hj3, h3⟩ := ih _ d lv hd hlv hok1 s1 j (by omega)
                refine ⟨j3, by omega, ?_⟩
                simp only [h3]
                rcases (HNode.branch (0 ||| 2 ^ idx k d x.keyHash) [HNode.leaf (.single x)]).insertU A eq (2 ^ k) (fuel + 1) entry d s1 with
                  _ | ⟨_ | _, _, _⟩ <;> rfl
        · refine ⟨j2, by omega, ?_⟩
          simp only [hmax, if_false, Option.isNone_none, Bool.not_true, Bool.false_eq_true, h2]
          rcases b.insertU eq entry s1 with _ | ⟨_, _, _⟩ <;> rfl

end
end HNode

namespace HTUser
variable {S H K V Q : Type}

/-- The same user code with a fuse in `Eq`: after as many calls as the second component of the state says, the next one panics. -/
def fuseEq (U : HTUser S H K V Q) : HTUser (S × Nat) H K V Q where
  hashK s h k := ((U.hashK s.1 h k).1, (U.hashK s.1 h k).2, s.2)
  hashQ s h q := ((U.hashQ s.1 h q).1, (U.hashQ s.1 h q).2, s.2)
  eqK s a b := match s with | (s, 0) => (none, (s, 0)) | (s, n + 1) => ((U.eqK s a b).1, (U.eqK s a b).2, n)
  eqQ s a b := match s with | (s, 0) => (none, (s, 0)) | (s, n + 1) => ((U.eqQ s a b).1, (U.eqQ s a b).2, n)
  clone s e := ((U.clone s.1 e).1, (U.clone s.1 e).2, s.2)

/-- The same user code with a fuse in `Hash`. -/
def fuseHash (U : HTUser S H K V Q) : HTUser (S × Nat) H K V Q where
  hashK s h k := match s with | (s, 0) => (none, (s, 0)) | (s, n + 1) => ((U.hashK s h k).1, (U.hashK s h k).2, n)
  hashQ s h q := match s with | (s, 0) => (none, (s, 0)) | (s, n + 1) => ((U.hashQ s h q).1, (U.hashQ s h q).2, n)
  eqK s a b := ((U.eqK s.1 a b).1, (U.eqK s.1 a b).2, s.2)
  eqQ s a b := ((U.eqQ s.1 a b).1, (U.eqQ s.1 a b).2, s.2)
  clone s e := ((U.clone s.1 e).1, (U.clone s.1 e).2, s.2)

/-- `Uf` is `U` with a fuse of which `Hash` leaves `n1`, if there was `n0`, and `Eq` burns `u`. -/
structure FusedUser (U : HTUser S H K V Q) (Uf : HTUser (S × Nat) H K V Q) (u n0 n1 : Nat) : Prop where
  hashK : ∀ s h k, Uf.hashK (s, n0) h k = ((U.hashK s h k).1, (U.hashK s h k).2, n1)
  hashQ : ∀ s h q, Uf.hashQ (s, n0) h q = ((U.hashQ s h q).1, (U.hashQ s h q).2, n1)
  eqK : ∀ s a b n, u ≤ n → ∃ j, n ≤ j + u ∧ Uf.eqK (s, n) a b = ((U.eqK s a b).1, (U.eqK s a b).2, j)
  eqQ : ∀ s a b n, u ≤ n → ∃ j, n ≤ j + u ∧ Uf.eqQ (s, n) a b = ((U.eqQ s a b).1, (U.eqQ s a b).2, j)
  clone : FusedClone U.clone Uf.clone

theorem fuseEq_fused (U : HTUser S H K V Q) (n : Nat) : U.FusedUser U.fuseEq 1 n n where
  hashK _ _ _ := rfl
  hashQ _ _ _ := rfl
  eqK s a b n h := by
    cases n with
    | zero => omega
    | succ n => exact ⟨n, by omega, rfl⟩
  eqQ s a b n h := by
    cases n with
    | zero => omega
    | succ n => exact ⟨n, by omega, rfl⟩
  clone _ _ _ := rfl

theorem fuseHash_fused (U : HTUser S H K V Q) (n : Nat) : U.FusedUser U.fuseHash 0 (n + 1) n where
  hashK _ _ _ := rfl
  hashQ _ _ _ := rfl
  eqK s a b n _ := ⟨n, by omega, rfl⟩
  eqQ s a b n _ := ⟨n, by omega, rfl⟩
  clone _ _ _ := rfl

end HTUser

/-- `eq` is called for an entry only if the hashes are the same. -/
theorem fused_matches {S K V Q : Type} {eq : S → K → Q → Option Bool × S} {eqf : S × Nat → K → Q → Option Bool × S × Nat} {u : Nat}
    (h : ∀ s a b n, u ≤ n → ∃ j, n ≤ j + u ∧ eqf (s, n) a b = ((eq s a b).1, (eq s a b).2, j)) (key : Q) (kh : UInt64) :
    Fused (fun e : HEntry K V => e.matchesU eq key kh) (fun e => e.matchesU eqf key kh) fun e => if e.keyHash == kh then u else 0 := by
  intro e s n hn
  simp only [HEntry.matchesU] at hn ⊢
  split at hn
  · rename_i he; simpa only [he, if_true] using h s e.key key n hn
  · exact ⟨n, by omega, by simp [*]⟩

namespace HTMap
variable {S H K V Q : Type} {A : Arch} {k : Nat} {z : Bool} {m : HTMap H K V} {l : List (K × V)} {U : HTUser S H K V Q}
  {Uf : HTUser (S × Nat) H K V Q} {u n0 n1 : Nat}

/-- The entries with the hash `kh`, each counted as `u`. -/
def burnAt (m : HTMap H K V) (u : Nat) (kh : UInt64) : Nat := m.root.burn fun e => if e.keyHash == kh then u else 0

theorem burnAt_zero (m : HTMap H K V) (kh : UInt64) : m.burnAt 0 kh = 0 := by
  simp only [burnAt, HNode.burn, ite_self]
  induction m.root.entries with
  | nil => rfl
  | cons e es ih => simpa using ih

theorem burnAt_one (m : HTMap H K V) (kh : UInt64) : m.burnAt 1 kh = m.root.entries.countP fun e => e.keyHash == kh := by
  simp only [burnAt, HNode.burn]
  induction m.root.entries with
  | nil => rfl
  | cons e es ih => simp only [List.map_cons, List.sum_cons, List.countP_cons, ih]; omega

theorem Loose.lookupU_fuse (h : m.Loose A k z l) (hF : U.FusedUser Uf u n0 n1) (q : Q) (s : S)
    (hb : ∀ kh, (U.hashQ s m.hasher q).1 = some kh → m.burnAt u kh ≤ n1) : m.lookupU A Uf q (s, n0) = m.lookupU A U q s := by
  simp only [HTMap.lookupU, hF.hashQ]
  rcases hh : U.hashQ s m.hasher q with ⟨_ | kh, s1⟩
  · rfl
  · obtain ⟨j, _, h1⟩ := HNode.getU_fuse h.conf (fused_matches hF.eqQ q kh) m.root 0 (by omega) h.ok s1 n1 (hb kh (by rw [hh]))
    simp only [h.degree, h1]
    rcases m.root.getU A U.eqQ q kh (2 ^ k) 0 s1 with _ | ⟨_, _⟩ <;> rfl

theorem Loose.getMutU_fuse (h : m.Loose A k z l) (hF : U.FusedUser Uf u n0 n1) (q : Q) (f : V → V) (s : S)
    (hb : ∀ kh, (U.hashQ s m.hasher q).1 = some kh → m.burnAt u kh ≤ n1) : m.getMutU A Uf q f (s, n0) = m.getMutU A U q f s := by
  simp only [HTMap.getMutU, hF.hashQ]
  rcases hh : U.hashQ s m.hasher q with ⟨_ | kh, s1⟩
  · rfl
  · obtain ⟨j, _, h1⟩ := HNode.getMutU_fuse h.conf (fused_matches hF.eqQ q kh) hF.clone (fun e => e.valueMut f) m.root 0 (by omega) h.ok s1 n1
      (hb kh (by rw [hh]))
    simp only [h.degree, HNode.clone_eq, h1]
    rcases m.root.getMutU A U.eqQ U.clone q kh (2 ^ k) (fun e => e.valueMut f) 0 s1 with _ | ⟨_, _, _⟩ <;> rfl

theorem Loose.removeMutU_fuse (h : m.Loose A k z l) (hF : U.FusedUser Uf u n0 n1) (q : Q) (s : S)
    (hb : ∀ kh, (U.hashQ s m.hasher q).1 = some kh → m.burnAt u kh ≤ n1) : m.removeMutU A Uf q (s, n0) = m.removeMutU A U q s := by
  simp only [HTMap.removeMutU, hF.hashQ]
  rcases hh : U.hashQ s m.hasher q with ⟨_ | kh, s1⟩
  · rfl
  · obtain ⟨j, _, h1⟩ := HNode.removeU_fuse h.conf (fused_matches hF.eqQ q kh) m.root 0 (by omega) h.ok s1 n1 (hb kh (by rw [hh]))
    simp only [h.degree, HNode.clone_eq, h1]
    rcases m.root.removeU A U.eqQ q kh (2 ^ k) 0 s1 with _ | ⟨_ | _ | _, _, _⟩ <;> rfl

theorem Loose.insertMutU_fuse (h : m.Loose A k false l) (hu : u ≤ 1) (hF : U.FusedUser Uf u n0 n1) (key : K) (v : V) (s : S)
    (hb : ∀ kh, (U.hashK s m.hasher key).1 = some kh →
      (if m.burnAt u kh = 0 then 0 else 2 * m.burnAt u kh + (63 / k + 1)) ≤ n1) :
    m.insertMutU A Uf key v (s, n0) = m.insertMutU A U key v s := by
  simp only [HTMap.insertMutU, hF.hashK]
  rcases hh : U.hashK s m.hasher key with ⟨_ | kh, s1⟩
  · rfl
  · have hb := hb kh (by rw [hh])
    have hlv : 64 ≤ (0 + (63 / k + 1)) * k := by
      have := Nat.div_add_mod 63 k
      have := Nat.mod_lt 63 h.conf.pos
      rw [Nat.zero_add, Nat.add_mul, Nat.one_mul, Nat.mul_comm]; omega
    have hcost : m.root.insertCost (fun e => if e.keyHash == kh then u else 0) (63 / k + 1) ≤ n1 := by
      refine Nat.le_trans ?_ hb
      have e0 : m.root.burn (fun e => if e.keyHash == kh then u else 0) = m.burnAt u kh := rfl
      simp only [HNode.insertCost, e0]
      generalize 63 / k = lv
      split
      · omega
      · omega
    obtain ⟨j, _, h1⟩ := HNode.insertU_fuse (entry := ⟨key, v, kh⟩) h.conf (fun e => by split <;> omega) (fused_matches hF.eqK key kh) insertFuel
      m.root 0 (63 / k + 1) (by omega) hlv h.ok s1 n1 hcost
    simp only [h.degree, HNode.clone_eq, h1]
    rcases m.root.insertU A U.eqK (2 ^ k) insertFuel ⟨key, v, kh⟩ 0 s1 with _ | ⟨_ | _, _, _⟩ <;> rfl

/-- What an operation may burn: nothing if it does not look for a key; else the entries with the hash of the key, for insertions twice
and once more for each level of the trie. -/
def burnOp (u : Nat) (U : HTUser S H K V Q) (s : S) (m : HTMap H K V) : MapOp K V Q → Nat
  | .insert key _ | .insertMut key _ =>
    match (U.hashK s m.hasher key).1 with
    | none => 0
    | some kh => if m.burnAt u kh = 0 then 0 else 2 * m.burnAt u kh + (63 / Nat.log2 m.degree + 1)
  | .remove q | .removeMut q | .getMut q _ | .get q | .getKeyValue q | .containsKey q | .index q =>
    match (U.hashQ s m.hasher q).1 with
    | none => 0
    | some kh => m.burnAt u kh
  | .clone | .size | .isEmpty => 0

theorem Loose.stepU_fuse (h : m.Loose A k false l) (hu : u ≤ 1) (hF : U.FusedUser Uf u n0 n1) (s : S) (op : MapOp K V Q)
    (hb : burnOp u U s m op ≤ n1) : m.stepU A Uf (s, n0) op = m.stepU A U s op := by
  have hlog : Nat.log2 m.degree = k := by rw [h.degree, Nat.log2_two_pow]
  have hK : ∀ key, (match (U.hashK s m.hasher key).1 with
      | none => 0 | some kh => if m.burnAt u kh = 0 then 0 else 2 * m.burnAt u kh + (63 / Nat.log2 m.degree + 1)) ≤ n1 →
      ∀ kh, (U.hashK s m.hasher key).1 = some kh → (if m.burnAt u kh = 0 then 0 else 2 * m.burnAt u kh + (63 / k + 1)) ≤ n1 := by
    intro key hb kh he
    rw [he, hlog] at hb; exact hb
  have hQ : ∀ q, (match (U.hashQ s m.hasher q).1 with | none => 0 | some kh => m.burnAt u kh) ≤ n1 →
      ∀ kh, (U.hashQ s m.hasher q).1 = some kh → m.burnAt u kh ≤ n1 := by
    intro q hb kh he
    rw [he] at hb; exact hb
  cases op with
  | insert key v => simp only [HTMap.stepU, Rep.clone_eq, h.insertMutU_fuse hu hF key v s (hK key hb)]
  | insertMut key v => simp only [HTMap.stepU, h.insertMutU_fuse hu hF key v s (hK key hb)]
  | remove q => simp only [HTMap.stepU, Rep.clone_eq, h.removeMutU_fuse hF q s (hQ q hb)]
  | removeMut q => simp only [HTMap.stepU, h.removeMutU_fuse hF q s (hQ q hb)]
  | getMut q f => simp only [HTMap.stepU, h.getMutU_fuse hF q f s (hQ q hb)]
  | get q => simp only [HTMap.stepU, h.lookupU_fuse hF q s (hQ q hb)]
  | getKeyValue q => simp only [HTMap.stepU, h.lookupU_fuse hF q s (hQ q hb)]
  | containsKey q => simp only [HTMap.stepU, h.lookupU_fuse hF q s (hQ q hb)]
  | index q => simp only [HTMap.stepU, h.lookupU_fuse hF q s (hQ q hb)]
  | clone => rfl
  | size => rfl
  | isEmpty => rfl

end HTMap
end Rpds
