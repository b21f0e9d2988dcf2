import Verif.Heap.SpaceLinear
import Verif.Heap.CostHashTrie
import Verif.HashTrie.Shape
/-
What the operations of `HashTrieMap` and `HashTrieSet` allocate: two cells for each level of the trie, and a multiple of the length of the
longest list of colliding entries in memory.
-/
set_option autoImplicit false
namespace Rpds
namespace Heap
namespace HT

/-- The length of a list of colliding entries. -/
def cx {K V : Type} : HLabel K V → Nat
  | .collision _ _ n => n
  | _ => 0

section
variable {H K V Q : Type} {Ar : Arch} {n : Nat}

theorem allocs_readEntry {p : Addr} : Allocs (Uses (K × V) n 0) (readEntry p) n := by
  unfold readEntry
  alloc_go
theorem allocs_readEwh {p : Addr} : Allocs (Uses _ n 0) (readEwh p : Prog (HLabel K V) _) n := by
  unfold readEwh
  alloc_go
macro_rules | `(tactic| alloc_lem) => `(tactic| ((with_reducible refine allocs_readEntry)))
macro_rules | `(tactic| alloc_lem) => `(tactic| ((with_reducible refine allocs_readEwh)))
theorem allocs_readNode {p : Addr} : Allocs (Uses _ n 0) (readNode p : Prog (HLabel K V) _) n := by
  unfold readNode
  alloc_go
macro_rules | `(tactic| alloc_lem) => `(tactic| ((with_reducible refine allocs_readNode)))

theorem allocs_modEntry {f : V → V} {p : Addr} (h1 : 1 ≤ n) : Allocs (Uses _ n 1) (modEntry f p : Prog (HLabel K V) _) n := by
  refine allocs_modifyPtr (a := 0) h1 ?_
  intro y n' h2
  split
  · exact Allocs.ret' (by omega)
  · exact Allocs.panic
macro_rules | `(tactic| alloc_lem) => `(tactic| ((with_reducible refine allocs_modEntry ?_) <;> ((try simp only [Uses] at *) <;> omega)))

variable {o : HashKeys H K Q}

theorem allocs_hmatches {key : Q} {kh : UInt64} {e : HEnt} : Allocs (Uses Bool n 0) (hmatches o key kh e : Prog (HLabel K V) _) n := by
  unfold hmatches
  alloc_go
theorem allocs_pushEnt {l : HList} {e : HEnt} (h1 : 2 ≤ n) : Allocs (Uses HList n 2) (pushEnt l e : Prog (HLabel K V) _) n := by
  unfold pushEnt
  alloc_go
macro_rules | `(tactic| alloc_lem) => `(tactic| ((with_reducible refine allocs_hmatches)))
macro_rules | `(tactic| alloc_lem) => `(tactic| ((with_reducible refine allocs_pushEnt ?_) <;> ((try simp only [Uses] at *) <;> omega)))

theorem allocs_removeLoop {key : Q} {kh : UInt64} (fuel : Nat) {l : HList} {before : List HEnt} :
    Allocs (fun r n' => r.2.2.length ≤ before.length + fuel ∧ n ≤ n') (removeLoop o key kh fuel l before : Prog (HLabel K V) _) n := by
  induction fuel generalizing l before n with
  | zero => exact Allocs.panic
  | succ fuel ih =>
    unfold removeLoop
    split
    · exact ⟨by simp only; omega, by omega⟩
    · refine Allocs.bind HList.allocs_first ?_
      rintro _ n2 h3
      refine Allocs.bind allocs_lift ?_
      rintro _ n3 h5
      refine Allocs.bind allocs_readEwh ?_
      rintro e n4 h7
      refine Allocs.bind allocs_clone ?_
      rintro _ n5 h9
      refine Allocs.bind HList.allocs_dropFirstMut ?_
      rintro y n6 h11
      refine Allocs.bind allocs_hmatches ?_
      rintro b n7 h13
      simp only [Uses] at *
      split
      · exact ⟨by simp only; omega, by omega⟩
      · refine ih.imp ?_
        rintro _ n8 ⟨h15, h16⟩
        simp only [List.length_append, List.length_singleton] at h15
        exact ⟨by omega, by omega⟩

theorem allocs_pushAll {es : List HEnt} {l : HList} (h1 : 2 * es.length ≤ n) :
    Allocs (Uses HList n (2 * es.length)) (pushAll es l : Prog (HLabel K V) _) n := by
  induction es generalizing l n with
  | nil => exact Allocs.ret' (by omega)
  | cons e es ih =>
    simp only [List.length_cons] at h1 ⊢
    refine Allocs.bind (allocs_pushEnt (by omega)) ?_
    rintro _ n2 h3
    simp only [Uses] at h3
    refine (ih (by omega)).imp ?_
    rintro _ n3 h5
    simp only [Uses] at *
    omega

theorem allocs_removeFirst {key : Q} {kh : UInt64} {l : HList} (h1 : 2 * (l.length + 1) ≤ n) :
    Allocs (Uses _ n (2 * (l.length + 1))) (removeFirst o key kh l : Prog (HLabel K V) _) n := by
  refine Allocs.bind (allocs_removeLoop _) ?_
  rintro r n2 ⟨h3, h4⟩
  simp only [List.length_nil] at h3
  refine Allocs.bind (allocs_pushAll (by rw [List.length_reverse]; omega)) ?_
  rintro _ n3 h6
  simp only [Uses, List.length_reverse] at h6
  exact Allocs.ret' (by omega)

theorem allocs_dropEnt {e : Option HEnt} : Allocs (Uses Unit n 0) (dropEnt e : Prog (HLabel K V) _) n := by
  unfold dropEnt
  alloc_go
macro_rules | `(tactic| alloc_lem) => `(tactic| ((with_reducible refine allocs_removeFirst ?_) <;> ((try simp only [Uses] at *) <;> omega)))
macro_rules | `(tactic| alloc_lem) => `(tactic| ((with_reducible refine allocs_dropEnt)))

theorem allocs_findEnt {key : Q} {kh : UInt64} (fuel : Nat) {p : Option Addr} :
    Allocs (Uses _ n 0) (findEnt o key kh fuel p : Prog (HLabel K V) _) n := by
  induction fuel generalizing p n with
  | zero =>
    cases p with
    | none => exact Allocs.ret' (by omega)
    | some p => exact Allocs.panic
  | succ fuel ih =>
    cases p with
    | none => exact Allocs.ret' (by omega)
    | some p =>
      refine Allocs.bind HList.allocs_readNode ?_
      rintro y n2 h3
      refine Allocs.bind allocs_readEwh ?_
      rintro e n3 h5
      refine Allocs.bind allocs_hmatches ?_
      rintro b n4 h7
      simp only [Uses] at *
      split
      · refine Allocs.bind allocs_readEntry ?_
        rintro _ n5 h9
        simp only [Uses] at *
        exact Allocs.ret' (by omega)
      · refine ih.imp ?_
        rintro _ n5 h9
        simp only [Uses] at *
        omega

theorem allocs_firstMut {f : V → V} {l : HList} (h1 : 3 ≤ n) : Allocs (Uses _ n 3) (firstMut f l : Prog (HLabel K V) _) n := by
  unfold firstMut
  split
  · exact Allocs.ret' (by omega)
  · refine Allocs.bind (Q := Uses _ n 3) ?_ ?_
    · refine allocs_modifyPtr (a := 2) h1 ?_
      intro y n' h2
      split
      · refine Allocs.bind (Q := Uses _ n' 2) ?_ ?_
        · refine allocs_modifyPtr (a := 1) (by omega) ?_
          intro y n2 h4
          split
          · refine Allocs.bind (allocs_modEntry (by omega)) ?_
            rintro _ n3 h6
            simp only [Uses] at h6
            exact Allocs.ret' (by omega)
          · exact Allocs.panic
        · rintro _ n2 h4
          simp only [Uses] at h4
          exact Allocs.ret' (by omega)
      · exact Allocs.panic
    · rintro _ n' h2
      simp only [Uses] at h2
      exact Allocs.ret' (by omega)
macro_rules | `(tactic| alloc_lem) => `(tactic| ((with_reducible refine allocs_findEnt _)))
macro_rules | `(tactic| alloc_lem) => `(tactic| ((with_reducible refine allocs_firstMut ?_) <;> ((try simp only [Uses] at *) <;> omega)))

/-! ### Buckets -/

theorem allocs_bucketGet {key : Q} {kh : UInt64} {m : HHNode} : Allocs (Uses _ n 0) (bucketGet o key kh m : Prog (HLabel K V) _) n := by
  unfold bucketGet
  alloc_go

theorem allocs_bucketGetMut {key : Q} {kh : UInt64} {f : V → V} {m : HHNode} (h1 : 2 * cx (K := K) (V := V) m.label + 7 ≤ n) :
    Allocs (Uses _ n (2 * cx (K := K) (V := V) m.label + 7)) (bucketGetMut o key kh f m : Prog (HLabel K V) _) n := by
  cases m with
  | branch bm ps => exact Allocs.panic
  | single e =>
    simp only [HHNode.label, cx] at h1 ⊢
    unfold bucketGetMut
    alloc_go
  | collision l =>
    simp only [HHNode.label, cx] at h1 ⊢
    unfold bucketGetMut
    alloc_go

theorem allocs_bucketInsert {e : HEnt} {m : HHNode} (h1 : 2 * cx (K := K) (V := V) m.label + 4 ≤ n) :
    Allocs (Uses _ n (2 * cx (K := K) (V := V) m.label + 4)) (bucketInsert o e m : Prog (HLabel K V) _) n := by
  cases m with
  | branch bm ps => exact Allocs.panic
  | single e =>
    simp only [HHNode.label, cx] at h1 ⊢
    unfold bucketInsert
    alloc_go
  | collision l =>
    simp only [HHNode.label, cx] at h1 ⊢
    unfold bucketInsert
    alloc_go

theorem allocs_bucketRemove {key : Q} {kh : UInt64} {m : HHNode} (h1 : 2 * cx (K := K) (V := V) m.label + 2 ≤ n) :
    Allocs (Uses _ n (2 * cx (K := K) (V := V) m.label + 2)) (bucketRemove o key kh m : Prog (HLabel K V) _) n := by
  cases m with
  | branch bm ps => exact Allocs.panic
  | single e =>
    simp only [HHNode.label, cx] at h1 ⊢
    unfold bucketRemove
    alloc_go
  | collision l =>
    simp only [HHNode.label, cx] at h1 ⊢
    unfold bucketRemove
    alloc_go

/-! ### Nodes -/

/-- At most `a` of the `n` cells are used up. -/
def UsesU (α : Type) (n a : Nat) (_ : α) (n' _ : Nat) : Prop := n ≤ n' + a

variable {m : Nat} {α β : Type}

theorem allocsU_liftBind {x : HLabel K V → Nat} {R : β → Nat → Nat → Prop} {r : Res α} {f : α → Prog (HLabel K V) β}
    (hf : ∀ y, r = .ok y → AllocsU x R (f y) n m) : AllocsU x R (Prog.bind (lift r) f) n m := by
  cases r with
  | ok y => exact hf y rfl
  | error e => trivial

theorem allocsU_cloneAll {x : HLabel K V → Nat} {cs : List Addr} : AllocsU x (fun _ n' m' => n' = n ∧ m' = m) (cloneAll cs) n m := by
  induction cs with
  | nil => exact ⟨rfl, rfl⟩
  | cons a cs ih => exact fun _ => ih

theorem allocsU_makeMut {x : HLabel K V → Nat} {p : Addr} (h1 : 1 ≤ n) :
    AllocsU x (fun y n' m' => n ≤ n' + 1 ∧ m' = m ∧ x y.2.1 ≤ m) (makeMut p) n m := by
  rintro (_ | z) hz
  · intro y hy
    refine AllocsU.bind (prog := cloneAll y.2) allocsU_cloneAll ?_
    rintro _ n2 m2 ⟨rfl, rfl⟩
    exact ⟨h1, fun q => ⟨by omega, rfl, hy⟩⟩
  · exact ⟨by omega, rfl, hz z rfl⟩

theorem cx_ofContent {y : Content (HLabel K V)} {nd : HHNode} (h : HHNode.ofContent y = some nd) : cx (K := K) (V := V) nd.label = cx y.1 := by
  unfold HHNode.ofContent at h
  split at h <;> cases h <;> rfl

theorem allocsU_modNode {p : Addr} {f : HHNode → Prog (HLabel K V) (α × HHNode)} {a : Nat} (h1 : a + 1 ≤ n)
    (hf : ∀ nd n', n ≤ n' + 1 → cx (K := K) (V := V) nd.label ≤ m → AllocsU cx (UsesU _ n (a + 1)) (f nd) n' m) :
    AllocsU cx (UsesU (α × Addr) n (a + 1)) (modNode p f) n m := by
  refine AllocsU.bind (allocsU_makeMut (by omega)) ?_
  rintro y n' _ ⟨h2, rfl, h3⟩
  refine AllocsU.bind (Q := UsesU _ n (a + 1)) ?_ ?_
  · dsimp only
    split
    · rename_i nd e
      rw [← cx_ofContent e] at h3
      exact AllocsU.bind (hf nd n' h2 h3) fun z n2 m2 h4 => h4
    · trivial
  · intro z n2 m2 h4
    exact fun _ => h4

/-- Nothing is written. -/
def Same (α : Type) (n m : Nat) (_ : α) (n' m' : Nat) : Prop := n' = n ∧ m' = m

theorem same_readEntry {x : HLabel K V → Nat} {p : Addr} : AllocsU x (Same _ n m) (readEntry p) n m := by
  intro y _
  show AllocsU x _ (match y.1 with | .entry k v => _ | _ => _) n m
  split
  · exact ⟨rfl, rfl⟩
  · trivial
theorem same_readEwh {x : HLabel K V → Nat} {p : Addr} : AllocsU x (Same _ n m) (readEwh p) n m := by
  intro y _
  dsimp only [Prog.bind]
  split
  · exact ⟨rfl, rfl⟩
  · trivial
theorem same_hmatches {x : HLabel K V → Nat} {key : Q} {kh : UInt64} {e : HEnt} :
    AllocsU x (Same _ n m) (hmatches o key kh e) n m := by
  unfold hmatches
  split
  · exact AllocsU.bind same_readEntry fun _ _ _ h => h
  · exact ⟨rfl, rfl⟩
theorem same_findEnt {x : HLabel K V → Nat} {key : Q} {kh : UInt64} (fuel : Nat) {p : Option Addr} :
    AllocsU x (Same _ n m) (findEnt o key kh fuel p) n m := by
  induction fuel generalizing p with
  | zero =>
    cases p with
    | none => exact ⟨rfl, rfl⟩
    | some p => trivial
  | succ fuel ih =>
    cases p with
    | none => exact ⟨rfl, rfl⟩
    | some p =>
      refine AllocsU.bind (Q := Same _ n m) ?_ ?_
      · intro y _
        dsimp only [Prog.bind]
        split
        · exact ⟨rfl, rfl⟩
        · exact ⟨rfl, rfl⟩
        · trivial
      rintro y _ _ ⟨rfl, rfl⟩
      refine AllocsU.bind same_readEwh ?_
      rintro e _ _ ⟨rfl, rfl⟩
      refine AllocsU.bind same_hmatches ?_
      rintro b _ _ ⟨rfl, rfl⟩
      split
      · exact AllocsU.bind same_readEntry fun _ _ _ h => h
      · exact ih
theorem same_bucketGet {x : HLabel K V → Nat} {key : Q} {kh : UInt64} {nd : HHNode} :
    AllocsU x (Same _ n m) (bucketGet o key kh nd) n m := by
  unfold bucketGet
  split
  · trivial
  · refine AllocsU.bind same_hmatches ?_
    rintro b _ _ ⟨rfl, rfl⟩
    split
    · exact AllocsU.bind same_readEntry fun _ _ _ h => h
    · exact ⟨rfl, rfl⟩
  · exact same_findEnt _

variable {k : Nat}

/-- A branch has a slot for a hash only if the hash has bits left at this depth. -/
theorem nodeSlot_depth (c : HConf Ar k) {kh : UInt64} {d bm : Nat} (hd : d ≤ 63 / k + 1) {y : Nat × Option Nat}
    (e : nodeSlot Ar kh d (2 ^ k) bm = .ok y) : d ≤ 63 / k := by
  have h64 : 63 / k ≤ 63 := Nat.div_le_self _ _
  unfold nodeSlot at e
  rw [indexFromHash_eq c.small (by omega)] at e
  split at e
  · rw [Nat.le_div_iff_mul_le c.pos]; omega
  · simp [unwrap] at e

theorem indexFromHash_depth (c : HConf Ar k) {kh : UInt64} {d : Nat} (hd : d ≤ 63 / k + 1) {y : Option Nat}
    (e : indexFromHash Ar kh d (2 ^ k) = .ok y) (hy : (!y.isNone) = true) : d ≤ 63 / k := by
  have h64 : 63 / k ≤ 63 := Nat.div_le_self _ _
  rw [indexFromHash_eq c.small (by omega)] at e
  split at e
  · rw [Nat.le_div_iff_mul_le c.pos]; omega
  · cases e; simp at hy

theorem allocs_hgetStep {key : Q} {kh : UInt64} {degree : Nat} {sub : Addr → Nat → Prog (HLabel K V) (Option (K × V))}
    (hsub : ∀ p d n, Allocs (Uses _ n 0) (sub p d) n) {p : Addr} {depth : Nat} :
    Allocs (Uses _ n 0) (hgetStep o Ar key kh degree sub p depth) n := by
  unfold hgetStep
  refine Allocs.bind allocs_readNode ?_
  rintro nd n2 h2
  simp only [Uses] at h2
  split
  · refine Allocs.bind allocs_lift ?_
    rintro y n3 h3
    simp only [Uses] at h3
    split
    · exact Allocs.ret' (by omega)
    · refine Allocs.bind allocs_lift ?_
      rintro q n4 h4
      simp only [Uses] at h4
      exact (hsub _ _ _).imp fun _ _ h => by simp only [Uses] at *; omega
  · exact allocs_bucketGet.imp fun _ _ h => by simp only [Uses] at *; omega

theorem allocs_hget {key : Q} {kh : UInt64} {degree : Nat} (fuel : Nat) {p : Addr} {depth : Nat} :
    Allocs (Uses _ n 0) (hget o Ar key kh degree fuel p depth : Prog (HLabel K V) _) n := by
  induction fuel generalizing p depth n with
  | zero => exact Allocs.panic
  | succ fuel ih => exact allocs_hgetStep fun p d n => ih

theorem allocsU_hgetMut (c : HConf Ar k) {key : Q} {kh : UInt64} {f : V → V} (fuel : Nat) {nd : HHNode} {d a : Nat}
    (hd : d ≤ 63 / k + 1) (ha : (63 / k + 1 - d) + 2 * m + 7 = a) (h1 : a ≤ n) (h2 : cx (K := K) (V := V) nd.label ≤ m) :
    AllocsU cx (UsesU _ n a) (hgetMut o Ar key kh (2 ^ k) f fuel nd d : Prog (HLabel K V) _) n m := by
  induction fuel generalizing nd d n a with
  | zero => trivial
  | succ fuel ih =>
    unfold hgetMut hgetMutStep
    split
    · refine allocsU_liftBind fun y e => ?_
      have := nodeSlot_depth c hd e
      split
      · simp only [AllocsU, UsesU]; omega
      · refine allocsU_liftBind fun p _ => ?_
        refine AllocsU.bind (allocsU_modNode (a := a - 1) (by omega) ?_) ?_
        · intro nd n' h3 h4
          refine (ih (n := n') (by omega) rfl (by omega) h4).imp fun _ _ _ h5 => ?_
          simp only [UsesU] at *
          omega
        · intro y n2 m2 h3
          refine allocsU_liftBind fun s _ => ?_
          simp only [AllocsU, UsesU] at *
          omega
    · refine ((allocs_bucketGetMut (by omega)).toU m).imp fun _ _ _ h => ?_
      simp only [Uses, UsesU] at *
      omega

/-- Insertion into a branch without subtrees. -/
theorem allocsU_hinsert_empty {degree : Nat} (fuel : Nat) {e : HEnt} {d : Nat} (h1 : 1 ≤ n) :
    AllocsU cx (fun r n' m' => (∃ bm ps, r.2 = .branch bm ps) ∧ n ≤ n' + 1 ∧ m' = m)
      (hinsert o Ar degree fuel e (.branch 0 []) d : Prog (HLabel K V) _) n m := by
  cases fuel with
  | zero => trivial
  | succ fuel =>
    unfold hinsert hinsertStep
    refine allocsU_liftBind fun y _ => ?_
    split
    · refine allocsU_liftBind fun p e => ?_
      simp [vecIndex] at e
    · refine ⟨h1, fun p => ?_⟩
      refine allocsU_liftBind fun s _ => ?_
      exact ⟨⟨_, _, rfl⟩, by omega, by simp [cx]⟩

theorem allocsU_hinsert (c : HConf Ar k) (fuel : Nat) {e : HEnt} {nd : HHNode} {d a : Nat} (hd : d ≤ 63 / k + 1)
    (ha : 2 * (63 / k + 1 - d) + 2 * m + 4 ≤ a ∨ (∃ bm ps, nd = .branch bm ps) ∧ 2 * (63 / k + 1 - d) + 2 * m + 3 ≤ a) (h1 : a ≤ n)
    (h2 : cx (K := K) (V := V) nd.label ≤ m) :
    AllocsU cx (UsesU _ n a) (hinsert o Ar (2 ^ k) fuel e nd d : Prog (HLabel K V) _) n m := by
  induction fuel generalizing e nd d n a with
  | zero => trivial
  | succ fuel ih =>
    unfold hinsert hinsertStep
    split
    · refine allocsU_liftBind fun y e => ?_
      have := nodeSlot_depth c hd e
      split
      · refine allocsU_liftBind fun p _ => ?_
        refine AllocsU.bind (allocsU_modNode (a := a - 1) (by omega) ?_) ?_
        · intro nd n' h3 h4
          refine (ih (n := n') (a := a - 1) (by omega) (.inl (by omega)) (by omega) h4).imp fun _ _ _ h5 => ?_
          simp only [UsesU] at *
          omega
        · intro y n2 m2 h3
          refine allocsU_liftBind fun s _ => ?_
          simp only [AllocsU, UsesU] at *
          omega
      · refine ⟨by omega, fun p => ?_⟩
        refine allocsU_liftBind fun s _ => ?_
        simp only [AllocsU, UsesU] at *
        omega
    · rename_i hb
      have ha : 2 * (63 / k + 1 - d) + 2 * m + 4 ≤ a := by
        rcases ha with ha | ⟨⟨bm, ps, ha⟩, -⟩
        · exact ha
        · exact absurd ha (hb bm ps)
      have leaf : ∀ n' m', n' = n → AllocsU cx (UsesU _ n a) (bucketInsert o e nd : Prog (HLabel K V) _) n' m' := by
        rintro n' m' rfl
        refine ((allocs_bucketInsert (by omega)).toU m').imp fun _ _ _ h => ?_
        simp only [Uses, UsesU] at *
        omega
      refine allocsU_liftBind fun y ey => ?_
      refine AllocsU.bind same_readEntry ?_
      rintro kv _ _ ⟨rfl, rfl⟩
      refine AllocsU.bind same_bucketGet ?_
      rintro g _ _ ⟨rfl, rfl⟩
      split
      · rename_i hy
        have := indexFromHash_depth c hd ey hy
        split
        · exact leaf _ _ rfl
        · split
          · refine AllocsU.bind (Q := Same _ _ _) (fun _ => ⟨rfl, rfl⟩) ?_
            rintro _ _ _ ⟨rfl, rfl⟩
            refine AllocsU.bind (Q := Same _ _ _) ⟨rfl, rfl⟩ ?_
            rintro _ _ _ ⟨rfl, rfl⟩
            refine AllocsU.bind (allocsU_hinsert_empty fuel (by omega)) ?_
            rintro ⟨b, _⟩ n3 _ ⟨⟨bm, ps, rfl⟩, h3, rfl⟩
            refine AllocsU.bind (ih (n := n3) (a := a - 1) hd (.inr ⟨⟨bm, ps, rfl⟩, by omega⟩) (by omega) (Nat.zero_le _)) ?_
            intro w n4 m4 h4
            simp only [AllocsU, UsesU] at *
            omega
          · trivial
      · exact leaf _ _ rfl

theorem allocs_hreplace {dest : HHNode} {src : Addr} (h1 : 1 ≤ n) : Allocs (Uses _ n 1) (hreplace dest src : Prog (HLabel K V) _) n := by
  unfold hreplace
  alloc_go
macro_rules | `(tactic| alloc_lem) => `(tactic| ((with_reducible refine allocs_hreplace ?_) <;> ((try simp only [Uses] at *) <;> omega)))
theorem allocs_hcompress {s : SparseArray Addr} (h1 : 1 ≤ n) : Allocs (Uses _ n 1) (hcompress Ar s : Prog (HLabel K V) _) n := by
  unfold hcompress
  alloc_go
theorem allocs_sparseRemove {s : SparseArray Addr} {i : Nat} : Allocs (Uses _ n 0) (sparseRemove Ar s i : Prog (HLabel K V) _) n := by
  unfold sparseRemove
  alloc_go
macro_rules | `(tactic| alloc_lem) => `(tactic| ((with_reducible refine allocs_hcompress ?_) <;> ((try simp only [Uses] at *) <;> omega)))
macro_rules | `(tactic| alloc_lem) => `(tactic| ((with_reducible refine allocs_sparseRemove)))

theorem allocsU_hremove (c : HConf Ar k) {key : Q} {kh : UInt64} (fuel : Nat) {nd : HHNode} {d a : Nat} (hd : d ≤ 63 / k + 1)
    (ha : 2 * (63 / k + 1 - d) + 2 * m + 2 = a) (h1 : a ≤ n) (h2 : cx (K := K) (V := V) nd.label ≤ m) :
    AllocsU cx (UsesU _ n a) (hremove o Ar key kh (2 ^ k) fuel nd d : Prog (HLabel K V) _) n m := by
  induction fuel generalizing nd d n a with
  | zero => trivial
  | succ fuel ih =>
    unfold hremove hremoveStep
    split
    · refine allocsU_liftBind fun y e => ?_
      have := nodeSlot_depth c hd e
      split
      · simp only [AllocsU, UsesU]; omega
      · refine allocsU_liftBind fun p _ => ?_
        refine AllocsU.bind (allocsU_modNode (a := a - 2) (by omega) ?_) ?_
        · intro nd n' h3 h4
          refine AllocsU.bind (ih (n := n') (by omega) rfl (by omega) h4) ?_
          intro y n2 m2 h5
          refine allocsU_liftBind fun s _ => ?_
          simp only [AllocsU, UsesU] at *
          omega
        · rintro ⟨⟨e, b⟩, q⟩ n2 m2 h3
          refine allocsU_liftBind fun s _ => ?_
          simp only [UsesU] at h3
          dsimp only
          refine AllocsU.imp (Allocs.toU (Q := Uses _ n2 1) ?_ m2) fun _ _ _ h => by simp only [Uses, UsesU] at *; omega
          alloc_go
    · refine ((allocs_bucketRemove (by omega)).toU m).imp fun _ _ _ h => ?_
      simp only [Uses, UsesU] at *
      omega

/-! ### Maps -/

namespace HHTMap
variable {mp : HHTMap H}

theorem allocs_newWithDegree {hasher : H} {degree : Nat} (h1 : 1 ≤ n) :
    Allocs (fun (r : HHTMap H) n' => r.hasher = hasher ∧ n ≤ n' + 1) (newWithDegree Ar hasher degree : Prog (HLabel K V) _) n := by
  unfold newWithDegree
  refine Allocs.bind allocs_lift ?_
  rintro _ n2 h2
  refine Allocs.bind allocs_lift ?_
  rintro _ n3 h3
  simp only [Uses] at *
  refine Allocs.bind (allocs_new (by omega)) ?_
  rintro _ n4 h4
  simp only [Uses] at *
  exact ⟨rfl, by omega⟩

theorem allocs_dropMap : Allocs (Uses _ n 0) (mp.dropMap : Prog (HLabel K V) _) n := allocs_drop

/-- The hasher stays, and at most `a` of the `n` cells are used up. -/
def KeepsH (h : H) (n a : Nat) (r : HHTMap H) (n' _ : Nat) : Prop := r.hasher = h ∧ n ≤ n' + a

theorem allocsU_clone {x : HLabel K V → Nat} :
    AllocsU x (fun r n' m' => r = mp ∧ n' = n ∧ m' = m) (mp.clone : Prog (HLabel K V) _) n m := fun _ => ⟨rfl, rfl, rfl⟩

theorem allocs_getKeyValue {q : Q} : Allocs (Uses _ n 0) (mp.getKeyValue Ar o q : Prog (HLabel K V) _) n := allocs_hget _
theorem allocs_get {q : Q} : Allocs (Uses _ n 0) (mp.get Ar o q : Prog (HLabel K V) _) n :=
  Allocs.bind allocs_getKeyValue fun _ _ h => h

theorem allocsU_insertMut (c : HConf Ar k) (hk : mp.degree = 2 ^ k) {key : K} {v : V} {a : Nat}
    (ha : 2 * (63 / k + 1) + 2 * m + 6 = a) (h1 : a ≤ n) : AllocsU cx (KeepsH mp.hasher n a) (mp.insertMut Ar o key v) n m := by
  refine AllocsU.bind (Q := fun _ n' m' => n' + 1 = n ∧ m' = m) ⟨by omega, fun _ => ⟨by omega, by simp [cx]⟩⟩ ?_
  rintro e n2 _ ⟨h2, rfl⟩
  refine AllocsU.bind (allocsU_modNode (a := a - 2) (by omega) ?_) ?_
  · intro nd n' h3 h4
    rw [hk]
    refine (allocsU_hinsert (a := a - 2) c _ (by omega) (.inl (by omega)) (by omega) h4).imp fun _ _ _ h5 => ?_
    simp only [UsesU] at *
    omega
  · intro y n3 m3 h3
    simp only [UsesU] at h3
    exact ⟨rfl, by omega⟩

theorem allocsU_removeMut (c : HConf Ar k) (hk : mp.degree = 2 ^ k) {key : Q} {a : Nat} (ha : 2 * (63 / k + 1) + 2 * m + 3 = a) (h1 : a ≤ n) :
    AllocsU cx (fun r => KeepsH mp.hasher n a r.2) (mp.removeMut Ar o key : Prog (HLabel K V) _) n m := by
  refine AllocsU.bind (allocsU_modNode (a := a - 1) (by omega) ?_) ?_
  · intro nd n' h3 h4
    rw [hk]
    refine (allocsU_hremove (a := a - 1) c _ (by omega) (by omega) (by omega) h4).imp fun _ _ _ h5 => ?_
    simp only [UsesU] at *
    omega
  · rintro ⟨b, q⟩ n3 m3 h3
    simp only [UsesU] at h3
    dsimp only
    split
    · refine allocsU_liftBind fun s _ => ?_
      exact ⟨rfl, by omega⟩
    · exact ⟨rfl, by omega⟩

theorem allocsU_getMut (c : HConf Ar k) (hk : mp.degree = 2 ^ k) {key : Q} {f : V → V} {a : Nat} (ha : 63 / k + 1 + 2 * m + 8 = a)
    (h1 : a ≤ n) : AllocsU cx (fun r => KeepsH mp.hasher n a r.2) (mp.getMut Ar o key f : Prog (HLabel K V) _) n m := by
  have hz := Nat.zero_le (63 / k)
  refine AllocsU.bind (allocsU_modNode (a := a - 1) (by omega) ?_) ?_
  · intro nd n' h3 h4
    rw [hk]
    refine (allocsU_hgetMut (a := a - 1) c _ (by omega) (by omega) (by omega) h4).imp fun _ _ _ h5 => ?_
    simp only [UsesU] at *
    omega
  · intro y n3 m3 h3
    simp only [UsesU] at h3
    exact ⟨rfl, by omega⟩

theorem allocsU_insert (c : HConf Ar k) (hk : mp.degree = 2 ^ k) {key : K} {v : V} {a : Nat}
    (ha : 2 * (63 / k + 1) + 2 * m + 6 = a) (h1 : a ≤ n) : AllocsU cx (KeepsH mp.hasher n a) (mp.insert Ar o key v) n m := by
  refine AllocsU.bind allocsU_clone ?_
  rintro _ _ _ ⟨rfl, rfl, rfl⟩
  exact allocsU_insertMut c hk ha h1

theorem allocsU_remove (c : HConf Ar k) (hk : mp.degree = 2 ^ k) {key : Q} {a : Nat} (ha : 2 * (63 / k + 1) + 2 * m + 3 = a) (h1 : a ≤ n) :
    AllocsU cx (KeepsH mp.hasher n a) (mp.remove Ar o key : Prog (HLabel K V) _) n m := by
  refine AllocsU.bind allocsU_clone ?_
  rintro _ _ _ ⟨rfl, rfl, rfl⟩
  refine AllocsU.bind (allocsU_removeMut c hk ha h1) ?_
  rintro y n2 m2 ⟨h2, h3⟩
  split
  · exact ⟨h2, h3⟩
  · refine AllocsU.bind allocsU_clone ?_
    rintro _ _ _ ⟨rfl, rfl, rfl⟩
    exact ⟨rfl, h3⟩

end HHTMap

/-- What an operation may allocate on a map of degree `2 ^ k`, if no collision leaf has more than `m` entries. -/
def htAllocs (k m : Nat) : MapOp K V Q → Nat
  | .insert _ _ | .insertMut _ _ => 2 * (63 / k + 1) + 2 * m + 6
  | .remove _ | .removeMut _ => 2 * (63 / k + 1) + 2 * m + 3
  | .getMut _ _ => 63 / k + 1 + 2 * m + 8
  | _ => 0

theorem allocsU_htHStep (c : HConf Ar k) (mp : HHTMap H) (hk : mp.degree = 2 ^ k) (op : MapOp K V Q) :
    AllocsU cx (fun r _ _ => Effect.Keeps (fun h : HHTMap H => h.hasher = mp.hasher) r.2) (htHStep Ar o mp op) (htAllocs k m op) m := by
  have rd : ∀ {β : Type} {p : Prog (HLabel K V) β} {f : β → Prog (HLabel K V) (MapRet K V × Effect (HHTMap H))},
      Allocs (Uses _ 0 0) p 0 → (∀ y n, Allocs (fun r _ => Effect.Keeps (fun h : HHTMap H => h.hasher = mp.hasher) r.2) (f y) n) →
      AllocsU cx (fun r _ _ => Effect.Keeps (fun h : HHTMap H => h.hasher = mp.hasher) r.2) (p.bind f) 0 m :=
    fun hp hf => (Allocs.bind hp fun y n _ => hf y n).toU m
  cases op
  case insert k v => exact AllocsU.bind (HHTMap.allocsU_insert c hk rfl (Nat.le_refl _)) fun _ _ _ h => h.1
  case insertMut k v => exact AllocsU.bind (HHTMap.allocsU_insertMut c hk rfl (Nat.le_refl _)) fun _ _ _ h => h.1
  case remove q => exact AllocsU.bind (HHTMap.allocsU_remove c hk rfl (Nat.le_refl _)) fun _ _ _ h => h.1
  case removeMut q => exact AllocsU.bind (HHTMap.allocsU_removeMut c hk rfl (Nat.le_refl _)) fun _ _ _ h => h.1
  case getMut q f => exact AllocsU.bind (HHTMap.allocsU_getMut c hk rfl (Nat.le_refl _)) fun _ _ _ h => h.1
  case clone => exact AllocsU.bind HHTMap.allocsU_clone fun _ _ _ h => by rw [h.1]; rfl
  case get q => exact rd HHTMap.allocs_get fun _ _ => trivial
  case getKeyValue q => exact rd HHTMap.allocs_getKeyValue fun _ _ => trivial
  case containsKey q => exact rd HHTMap.allocs_get fun _ _ => trivial
  case index q => exact rd HHTMap.allocs_get fun y _ => by cases y <;> trivial
  case size => trivial
  case isEmpty => trivial

theorem allocs_viewEnt {e : HEnt} : Allocs (Uses _ n 0) (viewEnt e : Prog (HLabel K V) _) n := by
  unfold viewEnt
  alloc_go
macro_rules | `(tactic| alloc_lem) => `(tactic| ((with_reducible refine allocs_viewEnt)))
theorem allocs_viewLast {p : Option Addr} : Allocs (Uses _ n 0) (viewLast p : Prog (HLabel K V) _) n := by
  unfold viewLast
  alloc_go
theorem allocs_viewLink (fuel : Nat) {p : Option Addr} : Allocs (Uses _ n 0) (viewLink fuel p : Prog (HLabel K V) _) n := by
  induction fuel generalizing p n with
  | zero =>
    cases p with
    | none => exact Allocs.ret' (by omega)
    | some p => exact Allocs.panic
  | succ fuel ih =>
    cases p with
    | none => exact Allocs.ret' (by omega)
    | some p =>
      refine Allocs.bind HList.allocs_readNode ?_
      rintro y n2 h3
      refine Allocs.bind allocs_readEwh ?_
      rintro e n3 h5
      refine Allocs.bind allocs_viewEnt ?_
      rintro b n4 h7
      refine Allocs.bind ih ?_
      rintro l n5 h9
      simp only [Uses] at *
      exact Allocs.ret' (by omega)
macro_rules | `(tactic| alloc_lem) => `(tactic| ((with_reducible refine allocs_viewLast)))
macro_rules | `(tactic| alloc_lem) => `(tactic| ((with_reducible refine allocs_viewLink _)))
theorem allocs_hview (fuel : Nat) {p : Addr} : Allocs (Uses _ n 0) (hview fuel p : Prog (HLabel K V) _) n := by
  induction fuel generalizing p n with
  | zero => exact Allocs.panic
  | succ fuel ih =>
    unfold hview hviewStep
    refine Allocs.bind allocs_readNode ?_
    rintro nd n2 h2
    simp only [Uses] at h2
    split
    · refine Allocs.bind (allocs_forAll (fun p n => ih) _ _) ?_
      rintro _ n3 h3
      simp only [Uses] at h3
      exact Allocs.ret' (by omega)
    · alloc_go
    · alloc_go

/-- What any operation may allocate. -/
def htAllocsAll (k m : Nat) : HTOp K V Q → Nat
  | .base op => htAllocs k m op
  | _ => 0

theorem allocsU_htHStepAll (c : HConf Ar k) (mp : HHTMap H) (hk : mp.degree = 2 ^ k) (op : HTOp K V Q) :
    AllocsU cx (fun r _ _ => Effect.Keeps (fun h : HHTMap H => h.hasher = mp.hasher) r.2) (htHStepAll Ar o mp op) (htAllocsAll k m op) m := by
  have vw : Allocs (Uses _ 0 0) (mp.view : Prog (HLabel K V) _) 0 := by
    refine Allocs.bind (allocs_hview _) ?_
    rintro _ n h
    simp only [Uses] at h
    exact Allocs.ret' (by omega)
  cases op with
  | base op => exact AllocsU.bind (allocsU_htHStep c mp hk op) fun _ _ _ h => h
  | iter n =>
    refine Allocs.toU (Q := fun (r : HTRet K V × Effect (HHTMap H)) _ => Effect.Keeps (fun h : HHTMap H => h.hasher = mp.hasher) r.2) ?_ m
    refine Allocs.bind vw fun v n _ => ?_
    exact Allocs.bind allocs_lift fun _ _ _ => trivial
  | count p =>
    refine Allocs.toU (Q := fun (r : HTRet K V × Effect (HHTMap H)) _ => Effect.Keeps (fun h : HHTMap H => h.hasher = mp.hasher) r.2) ?_ m
    refine Allocs.bind vw fun v n _ => ?_
    exact Allocs.bind allocs_lift fun _ _ _ => trivial

end

/-! ### The labels in memory -/

section
variable {H K V Q : Type} {Ar : Arch} {o : HashKeys H K Q} {k : Nat}

theorem Sub.cases_top {L : Type} {s t : ATree L} (h : Sub s t) : s = t ∨ ∃ u ∈ t.kids, Sub s u := by
  induction h with
  | refl => exact .inl rfl
  | kid h1 hk ih =>
    rcases ih with rfl | ⟨u, hu, hs⟩
    · exact .inr ⟨_, hk, .refl _⟩
    · exact .inr ⟨u, hu, .kid hs hk⟩

/-- A cell below an element of a list has no list of colliding entries in it. -/
theorem cx_ewh {t s : ATree (HLabel K V)} {x : HEntry K V} (h : ewhIs t x) (hs : Sub s t) : cx s.label = 0 := by
  obtain ⟨te, h1, h2, h3, h4⟩ := h
  rcases Sub.cases_top hs with rfl | ⟨u, hu, hs⟩
  · rw [h1]; rfl
  · rw [h2, List.mem_singleton] at hu
    subst hu
    rcases Sub.cases_top hs with rfl | ⟨w, hw, -⟩
    · rw [h3]; rfl
    · rw [h4] at hw; cases hw

theorem cx_link {th : Option (ATree (HLabel K V))} {hd : Link (HEntry K V)} (h : IsLink .lnode ewhIs th hd) {t s : ATree (HLabel K V)}
    (ht : t ∈ th.toList) (hs : Sub s t) : cx s.label = 0 := by
  induction h generalizing t with
  | none => cases ht
  | @some a tv tn v next hv hn ih =>
    simp only [Option.toList_some, List.mem_singleton] at ht
    subst ht
    rcases Sub.cases_top hs with rfl | ⟨u, hu, hs'⟩
    · rfl
    · rcases List.mem_cons.1 hu with rfl | hu
      · exact cx_ewh hv hs'
      · exact ih hu hs'

theorem optRel_mem {α β : Type} {R : α → β → Prop} {a : Option α} {b : Option β} (h : OptRel R a b) {x : α} (hx : x ∈ a.toList) : ∃ y, R x y := by
  cases h with
  | none => cases hx
  | some h =>
    simp only [Option.toList_some, List.mem_singleton] at hx
    exact ⟨_, hx ▸ h⟩

theorem f2_memL {α β : Type} {R : α → β → Prop} {l : List α} {m : List β} (h : List.Forall₂ R l m) {a : α} (ha : a ∈ l) :
    ∃ b ∈ m, R a b := by
  induction h with
  | nil => cases ha
  | cons h1 h2 ih =>
    rcases List.mem_cons.1 ha with rfl | ha
    · exact ⟨_, List.mem_cons_self, h1⟩
    · obtain ⟨b, hb, h⟩ := ih ha
      exact ⟨b, List.mem_cons_of_mem _ hb, h⟩

/-- A list of colliding entries in memory is one of a leaf. -/
theorem cx_node (n : HNode K V) : ∀ (d : Nat) (t s : ATree (HLabel K V)), IsN n t → Sub s t → cx s.label ≠ 0 →
    ∃ r e, HNode.Desc n d (.leaf (.collision r)) e ∧ cx s.label = r.head.toList.length := by
  induction n using HNode.induct with
  | hb bm arr ih =>
    intro d t s h hs hx
    rw [IsN] at h
    rcases Sub.cases_top hs with rfl | ⟨u, hu, hs⟩
    · rw [h.1] at hx; exact absurd rfl hx
    · obtain ⟨c, hc, hcu⟩ := f2_memL (isNs_iff.1 h.2) hu
      obtain ⟨r, e, h1, h2⟩ := ih c hc (d + 1) u s hcu hs hx
      exact ⟨r, e, .child hc h1, h2⟩
  | hl b =>
    intro d t s h hs hx
    cases b with
    | single x =>
      rw [IsN] at h
      obtain ⟨h1, te, h2, h3, h4⟩ := h
      rcases Sub.cases_top hs with rfl | ⟨u, hu, hs⟩
      · rw [h1] at hx; exact absurd rfl hx
      · rw [h2, List.mem_singleton] at hu
        subst hu
        rcases Sub.cases_top hs with rfl | ⟨w, hw, -⟩
        · rw [h3] at hx; exact absurd rfl hx
        · rw [h4] at hw; cases hw
    | collision r =>
      rw [IsN] at h
      obtain ⟨th, tl, h1, h2, h3, h4, h5⟩ := h
      rcases Sub.cases_top hs with rfl | ⟨u, hu, hs⟩
      · exact ⟨r, d, .here, by rw [h1, h5]; rfl⟩
      · rw [h2] at hu
        rcases List.mem_append.1 hu with hu | hu
        · exact absurd (cx_link h3 hu hs) hx
        · obtain ⟨x, hx'⟩ := optRel_mem h4 hu
          exact absurd (cx_ewh hx' hs) hx

theorem desc_sublist {n m : HNode K V} {d e : Nat} (h : HNode.Desc n d m e) : m.entries.Sublist n.entries := by
  induction h with
  | here => exact .refl _
  | @child bm arr d c m e hc hd ih =>
    refine ih.trans ?_
    rw [HNode.entries_branch]
    exact List.sublist_flatten_of_mem (List.mem_map_of_mem hc)

/-- A list of colliding entries in memory has at most as many entries as the map has keys with some hash. -/
theorem cx_le {hm : HHTMap H} {m : HTMap H K V} {l : List (K × V)} {ρ : List (Item (HLabel K V))} (h : hm.Is m ρ) (hr : m.Rep Ar o k l)
    {t s : ATree (HLabel K V)} (ht : .ptr t ∈ ρ) (hs : Sub s t) (hx : cx s.label ≠ 0) :
    ∃ p ∈ l, cx s.label ≤ l.countP fun q => o.hashK hm.hasher q.1 == o.hashK hm.hasher p.1 := by
  obtain ⟨⟨t', -, rfl, ht'⟩, -, -, hh⟩ := h
  simp only [List.mem_singleton, Item.ptr.injEq] at ht
  subst ht
  obtain ⟨r, e, h1, h2⟩ := cx_node m.root 0 t s ht' hs hx
  obtain ⟨h3, -, -, h4, h5⟩ := HNode.desc_ok h1 hr.ok
  have he : 64 ≤ e * k := h3.1
  have hen : (HNode.leaf (.collision r)).entries = r.head.toList := by rw [HNode.entries_leaf]; rfl
  obtain ⟨x, hx'⟩ : ∃ x, x ∈ r.head.toList := List.exists_mem_of_ne_nil _ fun h0 => by rw [h0] at h2; exact hx h2
  rw [← hen] at hx' h2
  have hxm := h4 x hx'
  have hgood : ∀ y ∈ m.root.entries, o.hashK hm.hasher y.key = y.keyHash := fun y hy => by rw [hh]; exact (hr.good y hy).symm
  refine ⟨HTMap.pair x, hr.perm.mem_iff.1 (List.mem_map_of_mem hxm), ?_⟩
  rw [← hr.perm.countP_eq, List.countP_map, h2]
  refine Nat.le_trans (Nat.le_of_eq ?_) (List.Sublist.countP_le (desc_sublist h1))
  rw [eq_comm, List.countP_eq_length]
  intro y hy
  simp only [Function.comp, HTMap.pair, beq_iff_eq]
  rw [hgood x hxm, hgood y (h4 y hy)]
  exact HNode.hash_eq_of_idx hr.conf.pos he fun j hj => h5 j (Nat.zero_le _) hj y hy x hx'

end
end HT
end Heap
end Rpds
