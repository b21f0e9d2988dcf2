import Verif.Heap.CostLinear
import Verif.Heap.HashTrieSpec
/-
What the operations of `HashTrieMap` and `HashTrieSet` cost: a constant, and a multiple of the length of the lists of colliding entries
they look at.
-/
set_option autoImplicit false
namespace Rpds
namespace Heap
namespace HT

/-- What may be spent in addition when a cell is looked at: only a leaf with `n` colliding entries gives something. -/
def hx {K V : Type} : HLabel K V → Nat
  | .collision _ _ n => 14 * (n + 2)
  | _ => 0

section
variable {H K V Q : Type} {Ar : Arch} {n c : Nat}

theorem cost_readEntry {p : Addr} (h1 : 1 ≤ n) : Cost hx (Spends (K × V) n c 1 0) (readEntry p) n c := by
  unfold readEntry
  cost_go
theorem cost_readEwh {p : Addr} (h1 : 1 ≤ n) : Cost hx (Spends _ n c 1 0) (readEwh p : Prog (HLabel K V) _) n c := by
  unfold readEwh
  cost_go

macro_rules | `(tactic| cost_lem) => `(tactic| ((with_reducible refine cost_readEntry ?_) <;> omega))
macro_rules | `(tactic| cost_lem) => `(tactic| ((with_reducible refine cost_readEwh ?_) <;> omega))

/-- A node that was read has the label of its cell. -/
theorem label_ofContent {y : Content (HLabel K V)} {m : HHNode} (h : HHNode.ofContent y = some m) : hx (K := K) (V := V) m.label = hx y.1 := by
  unfold HHNode.ofContent at h
  split at h <;> cases h <;> rfl

theorem cost_readNode {p : Addr} (h1 : 1 ≤ n) :
    Cost hx (fun m n' c' => n + hx (K := K) (V := V) m.label ≤ n' + 1 ∧ c + hx (K := K) (V := V) m.label ≤ c')
      (readNode p : Prog (HLabel K V) _) n c := by
  refine Cost.bind (cost_read h1) ?_
  rintro y n' c' ⟨h2, h3⟩
  split
  · rename_i m e
    rw [← label_ofContent e] at h2 h3
    exact ⟨h2, by omega⟩
  · exact Cost.panic

theorem cost_modNode {α : Type} {p : Addr} {f : HHNode → Prog (HLabel K V) (α × HHNode)} {a b : Nat} (h1 : a + 5 ≤ n)
    (hf : ∀ m n' c', n + hx (K := K) (V := V) m.label ≤ n' + 4 → c + hx (K := K) (V := V) m.label ≤ c' →
      Cost hx (Spends _ n c (a + 4) b) (f m) n' c') : Cost hx (Spends (α × Addr) n c (a + 5) b) (modNode p f) n c := by
  refine cost_modifyPtr h1 ?_
  intro y n' c' h2 h3
  split
  · rename_i m e
    rw [← label_ofContent e] at h2 h3
    refine Cost.bind (hf m n' c' h2 h3) ?_
    rintro z n2 c2 ⟨h4, h5⟩
    exact Cost.ret' (by omega) (by omega)
  · exact Cost.panic

theorem cost_modEntry {f : V → V} {p : Addr} (h1 : 5 ≤ n) : Cost hx (Spends _ n c 5 0) (modEntry f p : Prog (HLabel K V) _) n c := by
  refine cost_modifyPtr (a := 0) (b := 0) h1 ?_
  intro y n' c' h2 h3
  split
  · exact Cost.ret' (by omega) (by omega)
  · exact Cost.panic
macro_rules | `(tactic| cost_lem) => `(tactic| ((with_reducible refine cost_modEntry ?_) <;> omega))

variable {o : HashKeys H K Q}

theorem cost_hmatches {key : Q} {kh : UInt64} {e : HEnt} (h1 : 1 ≤ n) :
    Cost hx (Spends Bool n c 1 0) (hmatches o key kh e : Prog (HLabel K V) _) n c := by
  unfold hmatches
  cost_go
theorem cost_pushEnt {l : HList} {e : HEnt} (h1 : 3 ≤ n) (h2 : 1 ≤ c) :
    Cost hx (Spends HList n c 3 1) (pushEnt l e : Prog (HLabel K V) _) n c := by
  unfold pushEnt
  cost_go
macro_rules | `(tactic| cost_lem) => `(tactic| ((with_reducible refine cost_hmatches ?_) <;> omega))
macro_rules | `(tactic| cost_lem) => `(tactic| ((with_reducible refine cost_pushEnt ?_ ?_) <;> omega))

theorem cost_removeLoop {key : Q} {kh : UInt64} (fuel : Nat) {l : HList} {before : List HEnt} (h1 : 6 * fuel ≤ n) (h2 : 2 * fuel ≤ c) :
    Cost hx (fun r n' c' => r.2.2.length ≤ before.length + fuel ∧ n ≤ n' + 6 * fuel ∧ c ≤ c' + 2 * fuel)
      (removeLoop o key kh fuel l before : Prog (HLabel K V) _) n c := by
  induction fuel generalizing l before n c with
  | zero => exact Cost.panic
  | succ fuel ih =>
    unfold removeLoop
    split
    · exact ⟨by simp only; omega, by omega, by omega⟩
    · refine Cost.bind (HList.cost_first (by omega)) ?_
      rintro _ n2 c2 ⟨h3, h4⟩
      refine Cost.bind cost_lift ?_
      rintro _ n3 c3 ⟨h5, h6⟩
      refine Cost.bind (cost_readEwh (by omega)) ?_
      rintro e n4 c4 ⟨h7, h8⟩
      refine Cost.bind (cost_clone (by omega)) ?_
      rintro _ n5 c5 ⟨h9, h10⟩
      refine Cost.bind (HList.cost_dropFirstMut (by omega) (by omega)) ?_
      rintro y n6 c6 ⟨h11, h12⟩
      refine Cost.bind (cost_hmatches (by omega)) ?_
      rintro b n7 c7 ⟨h13, h14⟩
      split
      · exact ⟨by simp only; omega, by omega, by omega⟩
      · refine (ih (by omega) (by omega)).imp ?_
        rintro _ n8 c8 ⟨h15, h16, h17⟩
        simp only [List.length_append, List.length_singleton] at h15
        exact ⟨by omega, by omega, by omega⟩

theorem cost_pushAll {es : List HEnt} {l : HList} (h1 : 3 * es.length ≤ n) (h2 : es.length ≤ c) :
    Cost hx (Spends HList n c (3 * es.length) es.length) (pushAll es l : Prog (HLabel K V) _) n c := by
  induction es generalizing l n c with
  | nil => exact Cost.ret' (by omega) (by omega)
  | cons e es ih =>
    simp only [List.length_cons] at h1 h2 ⊢
    refine Cost.bind (cost_pushEnt (by omega) (by omega)) ?_
    rintro _ n2 c2 ⟨h3, h4⟩
    refine (ih (by omega) (by omega)).imp ?_
    rintro _ n3 c3 ⟨h5, h6⟩
    exact ⟨by omega, by omega⟩

theorem cost_removeFirst {key : Q} {kh : UInt64} {l : HList} (h1 : 9 * (l.length + 1) ≤ n) (h2 : 3 * (l.length + 1) ≤ c) :
    Cost hx (Spends _ n c (9 * (l.length + 1)) (3 * (l.length + 1))) (removeFirst o key kh l : Prog (HLabel K V) _) n c := by
  refine Cost.bind (cost_removeLoop _ (by omega) (by omega)) ?_
  rintro r n2 c2 ⟨h3, h4, h5⟩
  simp only [List.length_nil] at h3
  refine Cost.bind (cost_pushAll (by rw [List.length_reverse]; omega) (by rw [List.length_reverse]; omega)) ?_
  rintro _ n3 c3 ⟨h6, h7⟩
  rw [List.length_reverse] at h6 h7
  exact Cost.ret' (by omega) (by omega)

theorem cost_dropEnt {e : Option HEnt} (h1 : 1 ≤ n) : Cost hx (Spends Unit n c 1 0) (dropEnt e : Prog (HLabel K V) _) n c := by
  unfold dropEnt
  cost_go
macro_rules | `(tactic| cost_lem) => `(tactic| ((with_reducible refine cost_removeFirst ?_ ?_) <;> omega))
macro_rules | `(tactic| cost_lem) => `(tactic| ((with_reducible refine cost_dropEnt ?_) <;> omega))
macro_rules | `(tactic| cost_lem) => `(tactic| ((with_reducible refine HList.cost_dropList ?_) <;> omega))

theorem cost_findEnt {key : Q} {kh : UInt64} (fuel : Nat) {p : Option Addr} (h1 : 4 * fuel ≤ n) :
    Cost hx (Spends _ n c (4 * fuel) 0) (findEnt o key kh fuel p : Prog (HLabel K V) _) n c := by
  induction fuel generalizing p n c with
  | zero =>
    cases p with
    | none => exact Cost.ret' (by omega) (by omega)
    | some p => exact Cost.panic
  | succ fuel ih =>
    cases p with
    | none => exact Cost.ret' (by omega) (by omega)
    | some p =>
      refine Cost.bind (HList.cost_readNode (by omega)) ?_
      rintro y n2 c2 ⟨h3, h4⟩
      refine Cost.bind (cost_readEwh (by omega)) ?_
      rintro e n3 c3 ⟨h5, h6⟩
      refine Cost.bind (cost_hmatches (by omega)) ?_
      rintro b n4 c4 ⟨h7, h8⟩
      split
      · refine Cost.bind (cost_readEntry (by omega)) ?_
        rintro _ n5 c5 ⟨h9, h10⟩
        exact Cost.ret' (by omega) (by omega)
      · refine (ih (by omega)).imp ?_
        rintro _ n5 c5 ⟨h9, h10⟩
        exact ⟨by omega, by omega⟩

theorem cost_firstMut {f : V → V} {l : HList} (h1 : 15 ≤ n) : Cost hx (Spends _ n c 15 0) (firstMut f l : Prog (HLabel K V) _) n c := by
  unfold firstMut
  split
  · exact Cost.ret' (by omega) (by omega)
  · refine Cost.bind (Q := Spends _ n c 15 0) ?_ ?_
    · refine cost_modifyPtr (a := 10) (b := 0) h1 ?_
      intro y n' c' h2 h3
      split
      · refine Cost.bind (Q := Spends _ n' c' 10 0) ?_ ?_
        · refine cost_modifyPtr (a := 5) (b := 0) (by omega) ?_
          intro y n2 c2 h4 h5
          split
          · refine Cost.bind (cost_modEntry (by omega)) ?_
            rintro _ n3 c3 ⟨h6, h7⟩
            exact Cost.ret' (by omega) (by omega)
          · exact Cost.panic
        · rintro _ n2 c2 ⟨h4, h5⟩
          exact Cost.ret' (by omega) (by omega)
      · exact Cost.panic
    · rintro _ n' c' ⟨h2, h3⟩
      exact Cost.ret' (by omega) (by omega)
macro_rules | `(tactic| cost_lem) => `(tactic| ((with_reducible refine cost_findEnt _ ?_) <;> omega))
macro_rules | `(tactic| cost_lem) => `(tactic| ((with_reducible refine cost_firstMut ?_) <;> omega))

/-! ### Buckets -/

theorem cost_bucketGet {key : Q} {kh : UInt64} {m : HHNode} {n' c' : Nat} (h1 : 2 ≤ n) (h2 : n + hx (K := K) (V := V) m.label ≤ n')
    (h3 : c ≤ c') : Cost hx (Spends _ n c 2 0) (bucketGet o key kh m : Prog (HLabel K V) _) n' c' := by
  cases m with
  | branch bm ps => exact Cost.panic
  | single e =>
    simp only [HHNode.label, hx] at h2
    unfold bucketGet
    cost_go
  | collision l =>
    simp only [HHNode.label, hx] at h2
    refine (cost_findEnt (n := n') (c := c') l.length (by omega)).imp ?_
    rintro _ n2 c2 ⟨h4, h5⟩
    exact ⟨by omega, by omega⟩

theorem cost_bucketGetMut {key : Q} {kh : UInt64} {f : V → V} {m : HHNode} {n' c' : Nat} (h1 : 6 ≤ n)
    (h2 : n + hx (K := K) (V := V) m.label ≤ n') (h3 : c + hx (K := K) (V := V) m.label ≤ c') :
    Cost hx (Spends _ n c 6 0) (bucketGetMut o key kh f m : Prog (HLabel K V) _) n' c' := by
  cases m with
  | branch bm ps => exact Cost.panic
  | single e =>
    simp only [HHNode.label, hx] at h2 h3
    unfold bucketGetMut
    cost_go
  | collision l =>
    simp only [HHNode.label, hx] at h2 h3
    unfold bucketGetMut
    cost_go

/-- The third hypothesis covers a call of `bucketGet` before. -/
theorem cost_bucketInsert {e : HEnt} {m : HHNode} {n' c' : Nat} (h1 : 9 ≤ n) (h4 : 3 ≤ c)
    (h2 : ∀ l, m = .collision l → n + 10 * (l.length + 2) ≤ n' ∧ c + 10 * (l.length + 2) ≤ c') (h3 : n ≤ n' ∧ c ≤ c') :
    Cost hx (Spends _ n c 9 3) (bucketInsert o e m : Prog (HLabel K V) _) n' c' := by
  cases m with
  | branch bm ps => exact Cost.panic
  | single e =>
    unfold bucketInsert
    cost_go
  | collision l =>
    replace h2 := h2 l rfl
    unfold bucketInsert
    cost_go

theorem cost_bucketRemove {key : Q} {kh : UInt64} {m : HHNode} {n' c' : Nat} (h1 : 2 ≤ n)
    (h2 : n + hx (K := K) (V := V) m.label ≤ n') (h3 : c + hx (K := K) (V := V) m.label ≤ c') :
    Cost hx (Spends _ n c 2 0) (bucketRemove o key kh m : Prog (HLabel K V) _) n' c' := by
  cases m with
  | branch bm ps => exact Cost.panic
  | single e =>
    simp only [HHNode.label, hx] at h2 h3
    unfold bucketRemove
    cost_go
  | collision l =>
    simp only [HHNode.label, hx] at h2 h3
    unfold bucketRemove
    cost_go

/-! ### Nodes -/

set_option hygiene false in
macro_rules | `(tactic| cost_lem) => `(tactic| ((with_reducible apply hsub) <;> omega))

theorem cost_hgetStep {key : Q} {kh : UInt64} {degree a : Nat} {sub : Addr → Nat → Prog (HLabel K V) (Option (K × V))}
    (hsub : ∀ p d n' c', a ≤ n' → Cost hx (Spends _ n' c' a 0) (sub p d) n' c') {p : Addr} {depth : Nat} (h0 : 2 ≤ a) (h1 : a + 1 ≤ n) :
    Cost hx (Spends _ n c (a + 1) 0) (hgetStep o Ar key kh degree sub p depth) n c := by
  unfold hgetStep
  refine Cost.bind (cost_readNode (by omega)) ?_
  rintro m n2 c2 ⟨h2, h3⟩
  split
  · simp only [HHNode.label, hx] at h2 h3
    cost_go
  · refine (cost_bucketGet (n := n - 1) (c := c) (by omega) (by omega) (by omega)).imp ?_
    rintro _ n3 c3 ⟨h4, h5⟩
    exact ⟨by omega, by omega⟩

theorem cost_hget {key : Q} {kh : UInt64} {degree : Nat} (fuel : Nat) {p : Addr} {depth : Nat} (h1 : fuel + 2 ≤ n) :
    Cost hx (Spends _ n c (fuel + 2) 0) (hget o Ar key kh degree fuel p depth : Prog (HLabel K V) _) n c := by
  induction fuel generalizing p depth n c with
  | zero => exact Cost.panic
  | succ fuel ih =>
    have := cost_hgetStep (o := o) (Ar := Ar) (key := key) (kh := kh) (degree := degree) (p := p) (depth := depth) (a := fuel + 2) (n := n)
      (c := c) (fun p d n' c' h => ih (p := p) (depth := d) (n := n') (c := c') h) (by omega) (by omega)
    rwa [show fuel + 2 + 1 = fuel + 1 + 2 by omega] at this

theorem cost_hgetMut {key : Q} {kh : UInt64} {degree : Nat} {f : V → V} (fuel : Nat) {m : HHNode} {depth : Nat} {n' c' : Nat}
    (h1 : 5 * fuel + 6 ≤ n) (h2 : n + hx (K := K) (V := V) m.label ≤ n') (h3 : c + hx (K := K) (V := V) m.label ≤ c') :
    Cost hx (Spends _ n c (5 * fuel + 6) 0) (hgetMut o Ar key kh degree f fuel m depth : Prog (HLabel K V) _) n' c' := by
  induction fuel generalizing m depth n c n' c' with
  | zero => exact Cost.panic
  | succ fuel ih =>
    unfold hgetMut hgetMutStep
    split
    · simp only [HHNode.label, hx] at h2 h3
      refine Cost.bind cost_lift ?_
      rintro y n2 c2 ⟨h4, h5⟩
      split
      · exact Cost.ret' (by omega) (by omega)
      · refine Cost.bind cost_lift ?_
        rintro p n3 c3 ⟨h6, h7⟩
        refine Cost.bind (cost_modNode (a := 5 * fuel + 6) (b := 0) (by omega) ?_) ?_
        · intro m n4 c4 h8 h9
          refine (ih (n := n3 - 4) (c := c3) (by omega) (by omega) (by omega)).imp ?_
          rintro _ n5 c5 ⟨h10, h11⟩
          exact ⟨by omega, by omega⟩
        · rintro _ n4 c4 ⟨h8, h9⟩
          refine Cost.bind cost_lift ?_
          rintro _ n5 c5 ⟨h10, h11⟩
          exact Cost.ret' (by omega) (by omega)
    · refine (cost_bucketGetMut (n := n) (c := c) (by omega) h2 h3).imp ?_
      rintro _ n2 c2 ⟨h4, h5⟩
      exact ⟨by omega, by omega⟩

/-- Insertion into a branch without subtrees. -/
theorem cost_hinsert_empty {degree : Nat} (fuel : Nat) {e : HEnt} {depth : Nat} (h1 : 1 ≤ n) :
    Cost hx (fun r n' c' => hx (K := K) (V := V) r.2.label = 0 ∧ n ≤ n' + 1 ∧ c ≤ c')
      (hinsert o Ar degree fuel e (.branch 0 []) depth : Prog (HLabel K V) _) n c := by
  cases fuel with
  | zero => exact Cost.panic
  | succ fuel =>
    unfold hinsert hinsertStep
    refine Cost.bind cost_lift ?_
    rintro y n2 c2 ⟨h2, h3⟩
    split
    · exact Cost.panic
    · refine Cost.bind (cost_new (by omega)) ?_
      rintro p n3 c3 ⟨h4, h5⟩
      refine Cost.bind cost_lift ?_
      rintro s n4 c4 ⟨h6, h7⟩
      exact ⟨rfl, by omega, by omega⟩

theorem cost_hinsert {degree : Nat} (fuel : Nat) {e : HEnt} {m : HHNode} {depth : Nat} {n' c' : Nat}
    (h1 : 5 * fuel + 12 ≤ n) (h1' : fuel + 3 ≤ c) (h2 : n + hx (K := K) (V := V) m.label ≤ n')
    (h3 : c + hx (K := K) (V := V) m.label ≤ c') :
    Cost hx (Spends _ n c (5 * fuel + 12) (fuel + 3)) (hinsert o Ar degree fuel e m depth : Prog (HLabel K V) _) n' c' := by
  induction fuel generalizing e m depth n c n' c' with
  | zero => exact Cost.panic
  | succ fuel ih =>
    unfold hinsert hinsertStep
    split
    · simp only [HHNode.label, hx] at h2 h3
      refine Cost.bind cost_lift ?_
      rintro y n2 c2 ⟨h4, h5⟩
      split
      · refine Cost.bind cost_lift ?_
        rintro p n3 c3 ⟨h6, h7⟩
        refine Cost.bind (cost_modNode (a := 5 * fuel + 12) (b := fuel + 3) (by omega) ?_) ?_
        · intro m n4 c4 h8 h9
          refine (ih (n := n3 - 4) (c := c3) (by omega) (by omega) (by omega) (by omega)).imp ?_
          rintro _ n5 c5 ⟨h10, h11⟩
          exact ⟨by omega, by omega⟩
        · rintro _ n4 c4 ⟨h8, h9⟩
          refine Cost.bind cost_lift ?_
          rintro _ n5 c5 ⟨h10, h11⟩
          exact Cost.ret' (by omega) (by omega)
      · refine Cost.bind (cost_new (by omega)) ?_
        rintro p n3 c3 ⟨h6, h7⟩
        refine Cost.bind cost_lift ?_
        rintro s n4 c4 ⟨h8, h9⟩
        exact Cost.ret' (by omega) (by omega)
    · refine Cost.bind cost_lift ?_
      rintro y n2 c2 ⟨h4, h5⟩
      refine Cost.bind (cost_readEntry (by omega)) ?_
      rintro kv n3 c3 ⟨h6, h7⟩
      have hb : ∀ n4 c4, n ≤ n4 + 3 → c ≤ c4 → (∀ l, m = .collision l → n + 10 * (l.length + 2) ≤ n4 + 3 ∧ c + 10 * (l.length + 2) ≤ c4) →
          Cost hx (Spends _ n c (5 * (fuel + 1) + 12) (fuel + 1 + 3)) (bucketInsert o e m : Prog (HLabel K V) _) n4 c4 := by
        intro n4 c4 h8 h9 h10
        refine (cost_bucketInsert (n := n - 3) (c := c) (by omega) (by omega) ?_ (by omega)).imp ?_
        · intro l e
          have := h10 l e
          omega
        · rintro _ n5 c5 ⟨h11, h12⟩
          exact ⟨by omega, by omega⟩
      refine Cost.bind (Q := fun _ n4 c4 => n ≤ n4 + 3 ∧ c ≤ c4 ∧
        (∀ l, m = .collision l → n + 10 * (l.length + 2) ≤ n4 + 3 ∧ c + 10 * (l.length + 2) ≤ c4)) ?_ ?_
      · cases m with
        | branch bm ps => exact Cost.panic
        | single e =>
          simp only [HHNode.label, hx] at h2 h3
          refine (cost_bucketGet (n := n3) (c := c3) (by omega) (by simp only [HHNode.label, hx]; omega) (by omega)).imp ?_
          rintro _ n4 c4 ⟨h8, h9⟩
          exact ⟨by omega, by omega, fun l e => by cases e⟩
        | collision l =>
          simp only [HHNode.label, hx] at h2 h3
          refine (cost_findEnt (n := n3) (c := c3) l.length (by omega)).imp ?_
          rintro _ n4 c4 ⟨h8, h9⟩
          refine ⟨by omega, by omega, fun l' e => ?_⟩
          cases e
          omega
      · rintro g n4 c4 ⟨h8, h9, h10⟩
        split
        · split
          · exact hb n4 c4 h8 h9 h10
          · split
            · simp only [HHNode.label, hx] at h2 h3
              refine Cost.bind (cost_clone (by omega)) ?_
              rintro _ n5 c5 ⟨h11, h12⟩
              refine Cost.bind (cost_drop (by omega)) ?_
              rintro _ n6 c6 ⟨h13, h14⟩
              refine Cost.bind (cost_hinsert_empty fuel (by omega)) ?_
              rintro z n7 c7 ⟨h15, h16, h17⟩
              refine Cost.bind (ih (n := n7) (c := c7) (by omega) (by omega) (by omega) (by omega)) ?_
              rintro w n8 c8 ⟨h18, h19⟩
              exact Cost.ret' (by omega) (by omega)
            · exact Cost.panic
        · exact hb n4 c4 h8 h9 h10

theorem cost_hreplace {dest : HHNode} {src : Addr} (h1 : 6 ≤ n) :
    Cost hx (Spends _ n c 6 0) (hreplace dest src : Prog (HLabel K V) _) n c := by
  unfold hreplace
  cost_go
macro_rules | `(tactic| cost_lem) => `(tactic| ((with_reducible refine cost_hreplace ?_) <;> omega))
theorem cost_hcompress {s : SparseArray Addr} (h1 : 7 ≤ n) :
    Cost hx (Spends _ n c 7 0) (hcompress Ar s : Prog (HLabel K V) _) n c := by
  unfold hcompress
  split
  · refine Cost.bind cost_lift ?_
    rintro p n2 c2 ⟨h2, h3⟩
    refine Cost.bind (cost_readNode (by omega)) ?_
    rintro m n3 c3 ⟨h4, h5⟩
    cost_go
  · exact Cost.ret' (by omega) (by omega)
theorem cost_sparseRemove {s : SparseArray Addr} {i : Nat} (h1 : 1 ≤ n) :
    Cost hx (Spends _ n c 1 0) (sparseRemove Ar s i : Prog (HLabel K V) _) n c := by
  unfold sparseRemove
  cost_go
macro_rules | `(tactic| cost_lem) => `(tactic| ((with_reducible refine cost_hcompress ?_) <;> omega))
macro_rules | `(tactic| cost_lem) => `(tactic| ((with_reducible refine cost_sparseRemove ?_) <;> omega))

theorem cost_hremove {key : Q} {kh : UInt64} {degree : Nat} (fuel : Nat) {m : HHNode} {depth : Nat} {n' c' : Nat}
    (h1 : 13 * fuel + 2 ≤ n) (h2 : n + hx (K := K) (V := V) m.label ≤ n') (h3 : c + hx (K := K) (V := V) m.label ≤ c') :
    Cost hx (Spends _ n c (13 * fuel + 2) 0) (hremove o Ar key kh degree fuel m depth : Prog (HLabel K V) _) n' c' := by
  induction fuel generalizing m depth n c n' c' with
  | zero => exact Cost.panic
  | succ fuel ih =>
    unfold hremove hremoveStep
    split
    · simp only [HHNode.label, hx] at h2 h3
      refine Cost.bind cost_lift ?_
      rintro y n2 c2 ⟨h4, h5⟩
      split
      · exact Cost.ret' (by omega) (by omega)
      · refine Cost.bind cost_lift ?_
        rintro p n3 c3 ⟨h6, h7⟩
        refine Cost.bind (cost_modNode (a := 13 * fuel + 2) (b := 0) (by omega) ?_) ?_
        · intro m n4 c4 h8 h9
          refine Cost.bind (ih (n := n3 - 4) (c := c3) (by omega) (by omega) (by omega)) ?_
          rintro _ n5 c5 ⟨h10, h11⟩
          refine Cost.bind cost_lift ?_
          rintro _ n6 c6 ⟨h12, h13⟩
          exact Cost.ret' (by omega) (by omega)
        · rintro ⟨⟨e, b⟩, q⟩ n4 c4 ⟨h8, h9⟩
          refine Cost.bind cost_lift ?_
          rintro _ n5 c5 ⟨h10, h11⟩
          dsimp only
          cost_go
    · refine (cost_bucketRemove (n := n) (c := c) (by omega) h2 h3).imp ?_
      rintro _ n2 c2 ⟨h4, h5⟩
      exact ⟨by omega, by omega⟩

/-! ### Maps -/

namespace HHTMap
variable {m : HHTMap H}

theorem cost_newWithDegree {hasher : H} {degree : Nat} (h1 : 1 ≤ n) :
    Cost hx (Spends _ n c 1 0) (newWithDegree Ar hasher degree : Prog (HLabel K V) _) n c := by
  unfold newWithDegree
  cost_go
theorem cost_clone (h2 : 1 ≤ c) : Cost hx (Spends _ n c 0 1) (m.clone : Prog (HLabel K V) _) n c := by
  unfold HHTMap.clone
  cost_go
theorem cost_dropMap (h1 : 1 ≤ n) : Cost hx (Spends _ n c 1 0) (m.dropMap : Prog (HLabel K V) _) n c := cost_drop h1

theorem cost_getKeyValue {k : Q} (h1 : 68 ≤ n) : Cost hx (Spends _ n c 68 0) (m.getKeyValue Ar o k : Prog (HLabel K V) _) n c :=
  cost_hget 66 h1
theorem cost_get {k : Q} (h1 : 68 ≤ n) : Cost hx (Spends _ n c 68 0) (m.get Ar o k : Prog (HLabel K V) _) n c := by
  refine Cost.bind (cost_getKeyValue h1) ?_
  rintro _ n2 c2 ⟨h2, h3⟩
  exact Cost.ret' (by omega) (by omega)

theorem cost_insertMut {k : K} {v : V} (h1 : 668 ≤ n) (h2 : 133 ≤ c) : Cost hx (Spends _ n c 668 133) (m.insertMut Ar o k v) n c := by
  refine Cost.bind (cost_new (by omega)) ?_
  rintro e n2 c2 ⟨h3, h4⟩
  refine Cost.bind (cost_modNode (a := 662) (b := 133) (by omega) ?_) ?_
  · intro y n3 c3 h5 h6
    refine (cost_hinsert (n := n2 - 4) (c := c2) HTMap.insertFuel (by unfold HTMap.insertFuel; omega) (by unfold HTMap.insertFuel; omega)
      (by omega) (by omega)).imp ?_
    rintro _ n4 c4 ⟨h7, h8⟩
    unfold HTMap.insertFuel at h7 h8
    exact ⟨by omega, by omega⟩
  · rintro _ n3 c3 ⟨h5, h6⟩
    exact Cost.ret' (by omega) (by omega)
theorem cost_insert {k : K} {v : V} (h1 : 668 ≤ n) (h2 : 134 ≤ c) : Cost hx (Spends _ n c 668 134) (m.insert Ar o k v) n c := by
  refine Cost.bind (cost_clone (by omega)) ?_
  rintro _ n2 c2 ⟨h3, h4⟩
  refine (cost_insertMut (by omega) (by omega)).imp ?_
  rintro _ n3 c3 ⟨h5, h6⟩
  exact ⟨by omega, by omega⟩

theorem cost_removeMut {k : Q} (h1 : 865 ≤ n) : Cost hx (Spends _ n c 865 0) (m.removeMut Ar o k : Prog (HLabel K V) _) n c := by
  refine Cost.bind (cost_modNode (a := 860) (b := 0) (by omega) ?_) ?_
  · intro y n3 c3 h5 h6
    refine (cost_hremove (n := n - 4) (c := c) trieFuel (by unfold trieFuel; omega) (by omega) (by omega)).imp ?_
    rintro _ n4 c4 ⟨h7, h8⟩
    unfold trieFuel at h7
    exact ⟨by omega, by omega⟩
  · rintro ⟨b, q⟩ n3 c3 ⟨h5, h6⟩
    dsimp only
    split
    · refine Cost.bind cost_lift ?_
      rintro _ n4 c4 ⟨h7, h8⟩
      exact Cost.ret' (by omega) (by omega)
    · exact Cost.ret' (by omega) (by omega)
theorem cost_remove {k : Q} (h1 : 866 ≤ n) (h2 : 2 ≤ c) : Cost hx (Spends _ n c 866 2) (m.remove Ar o k : Prog (HLabel K V) _) n c := by
  refine Cost.bind (cost_clone (by omega)) ?_
  rintro _ n2 c2 ⟨h3, h4⟩
  refine Cost.bind (cost_removeMut (by omega)) ?_
  rintro y n3 c3 ⟨h5, h6⟩
  split
  · exact Cost.ret' (by omega) (by omega)
  · refine Cost.bind (cost_clone (by omega)) ?_
    rintro _ n4 c4 ⟨h7, h8⟩
    refine Cost.bind (cost_dropMap (by omega)) ?_
    rintro _ n5 c5 ⟨h9, h10⟩
    exact Cost.ret' (by omega) (by omega)

theorem cost_getMut {k : Q} {f : V → V} (h1 : 341 ≤ n) :
    Cost hx (Spends _ n c 341 0) (m.getMut Ar o k f : Prog (HLabel K V) _) n c := by
  refine Cost.bind (cost_modNode (a := 336) (b := 0) (by omega) ?_) ?_
  · intro y n3 c3 h5 h6
    refine (cost_hgetMut (n := n - 4) (c := c) trieFuel (by unfold trieFuel; omega) (by omega) (by omega)).imp ?_
    rintro _ n4 c4 ⟨h7, h8⟩
    unfold trieFuel at h7
    exact ⟨by omega, by omega⟩
  · rintro ⟨b, q⟩ n3 c3 ⟨h5, h6⟩
    exact Cost.ret' (by omega) (by omega)

end HHTMap

/-- What an operation all maps have may cost: touches of cells and copies of pointers. -/
def htCost : MapOp K V Q → Nat × Nat
  | .insert _ _ => (668, 134)
  | .insertMut _ _ => (668, 133)
  | .remove _ => (866, 2)
  | .removeMut _ => (865, 0)
  | .getMut _ _ => (341, 0)
  | .clone => (0, 1)
  | .get _ => (68, 0)
  | .getKeyValue _ => (68, 0)
  | .containsKey _ => (68, 0)
  | .index _ => (68, 0)
  | .size => (0, 0)
  | .isEmpty => (0, 0)

/-- What an operation may cost; iterators have no limit here. -/
def htCostAll : HTOp K V Q → Option (Nat × Nat)
  | .base op => some (htCost op)
  | .iter _ => none
  | .count _ => none

theorem cost_htHStep (m : HHTMap H) (op : MapOp K V Q) :
    Cost hx (fun _ _ _ => True) (htHStep Ar o m op) (htCost op).1 (htCost op).2 := by
  cases op
  case insert k v =>
    refine Cost.bind (HHTMap.cost_insert (Nat.le_refl _) (Nat.le_refl _)) ?_
    intros; trivial
  case insertMut k v =>
    refine Cost.bind (HHTMap.cost_insertMut (Nat.le_refl _) (Nat.le_refl _)) ?_
    intros; trivial
  case remove q =>
    refine Cost.bind (HHTMap.cost_remove (Nat.le_refl _) (Nat.le_refl _)) ?_
    intros; trivial
  case removeMut q =>
    refine Cost.bind (HHTMap.cost_removeMut (Nat.le_refl _)) ?_
    intros; trivial
  case getMut q f =>
    refine Cost.bind (HHTMap.cost_getMut (Nat.le_refl _)) ?_
    intros; trivial
  case clone =>
    refine Cost.bind (HHTMap.cost_clone (Nat.le_refl _)) ?_
    intros; trivial
  case get q =>
    refine Cost.bind (HHTMap.cost_get (Nat.le_refl _)) ?_
    intros; trivial
  case getKeyValue q =>
    refine Cost.bind (HHTMap.cost_getKeyValue (Nat.le_refl _)) ?_
    intros; trivial
  case containsKey q =>
    refine Cost.bind (HHTMap.cost_get (Nat.le_refl _)) ?_
    intros; trivial
  case index q =>
    refine Cost.bind (HHTMap.cost_get (Nat.le_refl _)) ?_
    intros; split <;> trivial
  case size => trivial
  case isEmpty => trivial

theorem cost_htHStepAll (m : HHTMap H) (op : HTOp K V Q) (l : Nat × Nat) (e : htCostAll op = some l) :
    Cost hx (fun _ _ _ => True) (htHStepAll Ar o m op) l.1 l.2 := by
  cases op <;> simp only [htCostAll, Option.some.injEq, reduceCtorEq] at e <;> subst e
  case base op =>
    refine Cost.bind (cost_htHStep m op) ?_
    intros; trivial

end
end HT
end Heap
end Rpds
