import Verif.Heap.Cost
import Verif.Heap.RedBlackSpec
/-
What the operations of `RedBlackTreeMap` and `RedBlackTreeSet` cost: a constant for each level of the tree.
-/
set_option autoImplicit false
namespace Rpds
namespace Heap

section
variable {K V Q : Type} {Ar : Arch} {x : RLabel K V → Nat} {n c : Nat} {o : OrdKeys K Q}

theorem cost_newNode {m : HRBNode} (h1 : 1 ≤ n) : Cost x (Spends _ n c 1 0) (newNode m) n c := cost_new h1
theorem cost_closeNode {q : Addr} {m : HRBNode} (h1 : 1 ≤ n) : Cost x (Spends _ n c 1 0) (closeNode q m) n c := cost_close h1
theorem cost_openNode {p : Addr} (h1 : 4 ≤ n) : Cost x (Spends _ n c 4 0) (openNode p) n c := by
  unfold openNode
  cost_go
theorem cost_readNode {p : Addr} (h1 : 1 ≤ n) : Cost x (Spends _ n c 1 0) (readNode p) n c := by
  unfold readNode
  cost_go
theorem cost_readEntry {p : Addr} (h1 : 1 ≤ n) : Cost x (Spends _ n c 1 0) (readEntry p) n c := by
  unfold readEntry
  cost_go

macro_rules | `(tactic| cost_lem) => `(tactic| ((with_reducible refine cost_newNode ?_) <;> omega))
macro_rules | `(tactic| cost_lem) => `(tactic| ((with_reducible refine cost_closeNode ?_) <;> omega))
macro_rules | `(tactic| cost_lem) => `(tactic| ((with_reducible refine cost_openNode ?_) <;> omega))
macro_rules | `(tactic| cost_lem) => `(tactic| ((with_reducible refine cost_readNode ?_) <;> omega))
macro_rules | `(tactic| cost_lem) => `(tactic| ((with_reducible refine cost_readEntry ?_) <;> omega))

theorem cost_colorOf {p : Option Addr} (h1 : 1 ≤ n) : Cost x (Spends _ n c 1 0) (colorOf p) n c := by
  unfold colorOf
  cost_go
macro_rules | `(tactic| cost_lem) => `(tactic| ((with_reducible refine cost_colorOf ?_) <;> omega))

theorem cost_leftColorOf {p : Option Addr} (h1 : 2 ≤ n) : Cost x (Spends _ n c 2 0) (leftColorOf p) n c := by
  unfold leftColorOf
  cost_go
theorem cost_rightColorOf {p : Option Addr} (h1 : 2 ≤ n) : Cost x (Spends _ n c 2 0) (rightColorOf p) n c := by
  unfold rightColorOf
  cost_go
theorem cost_hbalance1 {m : HRBNode} (h1 : 10 ≤ n) : Cost x (Spends _ n c 10 0) (hbalance1 m) n c := by
  unfold hbalance1
  cost_go
theorem cost_hbalance2 {m : HRBNode} (h1 : 10 ≤ n) : Cost x (Spends _ n c 10 0) (hbalance2 m) n c := by
  unfold hbalance2
  cost_go
theorem cost_hbalance3 {m : HRBNode} (h1 : 10 ≤ n) : Cost x (Spends _ n c 10 0) (hbalance3 m) n c := by
  unfold hbalance3
  cost_go
theorem cost_hbalance4 {m : HRBNode} (h1 : 10 ≤ n) : Cost x (Spends _ n c 10 0) (hbalance4 m) n c := by
  unfold hbalance4
  cost_go
theorem cost_hbalanceIn {m : HRBNode} {k : Nat} (h1 : 10 ≤ n) : Cost x (Spends _ n c 10 0) (hbalanceIn m k) n c := by
  unfold hbalanceIn
  split
  · exact cost_hbalance1 h1
  · exact cost_hbalance2 h1
  · exact cost_hbalance3 h1
  · exact cost_hbalance4 h1
  · exact Cost.ret' (by omega) (by omega)
macro_rules | `(tactic| cost_lem) => `(tactic| ((with_reducible refine cost_leftColorOf ?_) <;> omega))
macro_rules | `(tactic| cost_lem) => `(tactic| ((with_reducible refine cost_rightColorOf ?_) <;> omega))
macro_rules | `(tactic| cost_lem) => `(tactic| ((with_reducible refine cost_hbalanceIn ?_) <;> omega))

theorem cost_hbalance {m : HRBNode} (h1 : 20 ≤ n) : Cost x (Spends _ n c 20 0) (hbalance m) n c := by
  unfold hbalance
  cost_go
macro_rules | `(tactic| cost_lem) => `(tactic| ((with_reducible refine cost_hbalance ?_) <;> omega))

theorem cost_hinsDone {b b' : Bool} {m : HRBNode} (h1 : 20 ≤ n) : Cost x (Spends _ n c 20 0) (hinsDone b b' m) n c := by
  unfold hinsDone
  cost_go
macro_rules | `(tactic| cost_lem) => `(tactic| ((with_reducible refine cost_hinsDone ?_) <;> omega))

set_option hygiene false in
macro_rules | `(tactic| cost_lem) => `(tactic| ((with_reducible apply hsub) <;> omega))

theorem cost_hinsStep {k : K} {v : V} {a : Nat} {sub : Option Addr → Bool → Prog (RLabel K V) (Bool × Option Addr)}
    (hsub : ∀ p b n' c', a ≤ n' → Cost x (Spends _ n' c' a 0) (sub p b) n' c') {p : Option Addr} {b : Bool} (h1 : a + 28 ≤ n) :
    Cost x (Spends _ n c (a + 28) 0) (hinsStep o k v sub p b) n c := by
  unfold hinsStep
  cost_go

theorem cost_hins {k : K} {v : V} (fuel : Nat) {p : Option Addr} {b : Bool} (h1 : 28 * fuel + 28 ≤ n) :
    Cost x (Spends _ n c (28 * fuel + 28) 0) (hins o k v fuel p b) n c := by
  induction fuel generalizing p b n c with
  | zero => exact cost_hinsStep (a := 0) (fun _ _ _ _ _ => Cost.panic) (by omega)
  | succ fuel ih => exact cost_hinsStep (a := 28 * fuel + 28) (fun _ _ _ _ h => ih h) (by omega)

theorem cost_hsetColor {d : Color} {p : Option Addr} (h1 : 5 ≤ n) : Cost x (Spends _ n c 5 0) (hsetColor d p) n c := by
  unfold hsetColor
  cost_go
macro_rules | `(tactic| cost_lem) => `(tactic| ((with_reducible refine cost_hsetColor ?_) <;> omega))

theorem cost_hremoveBalance {m : HRBNode} (h1 : 22 ≤ n) : Cost x (Spends _ n c 22 0) (hremoveBalance Ar m) n c := by
  unfold hremoveBalance
  cost_go
macro_rules | `(tactic| cost_lem) => `(tactic| ((with_reducible refine cost_hremoveBalance ?_) <;> omega))

theorem cost_hremoveBalanceLeft3 {m : HRBNode} (h1 : 37 ≤ n) : Cost x (Spends _ n c 37 0) (hremoveBalanceLeft3 Ar m) n c := by
  unfold hremoveBalanceLeft3
  cost_go
theorem cost_hremoveBalanceRight3 {m : HRBNode} (h1 : 37 ≤ n) : Cost x (Spends _ n c 37 0) (hremoveBalanceRight3 Ar m) n c := by
  unfold hremoveBalanceRight3
  cost_go
macro_rules | `(tactic| cost_lem) => `(tactic| ((with_reducible refine cost_hremoveBalanceLeft3 ?_) <;> omega))
macro_rules | `(tactic| cost_lem) => `(tactic| ((with_reducible refine cost_hremoveBalanceRight3 ?_) <;> omega))

theorem cost_hremoveBalanceLeft {m : HRBNode} (h1 : 41 ≤ n) : Cost x (Spends _ n c 41 0) (hremoveBalanceLeft Ar m) n c := by
  unfold hremoveBalanceLeft hremoveBalanceLeftIn
  cost_go
theorem cost_hremoveBalanceRight {m : HRBNode} (h1 : 41 ≤ n) : Cost x (Spends _ n c 41 0) (hremoveBalanceRight Ar m) n c := by
  unfold hremoveBalanceRight hremoveBalanceRightIn
  cost_go
theorem cost_hreplace {m : HRBNode} {p : Addr} (h1 : 6 ≤ n) : Cost x (Spends _ n c 6 0) (hreplace m p) n c := by
  unfold hreplace
  cost_go
macro_rules | `(tactic| cost_lem) => `(tactic| ((with_reducible refine cost_hremoveBalanceLeft ?_) <;> omega))
macro_rules | `(tactic| cost_lem) => `(tactic| ((with_reducible refine cost_hremoveBalanceRight ?_) <;> omega))
macro_rules | `(tactic| cost_lem) => `(tactic| ((with_reducible refine cost_hreplace ?_) <;> omega))

section fuse
variable {a : Nat} {sub : HRBNode → Option Addr → Option Addr → Prog (RLabel K V) (Bool × HRBNode)}

theorem cost_hfuseBR (hsub : ∀ m p q n' c', a ≤ n' → Cost x (Spends _ n' c' a 0) (sub m p q) n' c') {m : HRBNode} {p q : Addr}
    (h1 : a + 5 ≤ n) : Cost x (Spends _ n c (a + 5) 0) (hfuseBR sub m p q) n c := by
  unfold hfuseBR
  cost_go
theorem cost_hfuseRB (hsub : ∀ m p q n' c', a ≤ n' → Cost x (Spends _ n' c' a 0) (sub m p q) n' c') {m : HRBNode} {p q : Addr}
    (h1 : a + 5 ≤ n) : Cost x (Spends _ n c (a + 5) 0) (hfuseRB sub m p q) n c := by
  unfold hfuseRB
  cost_go
theorem cost_hfuseSame {d : Color} (hsub : ∀ m p q n' c', a ≤ n' → Cost x (Spends _ n' c' a 0) (sub m p q) n' c') {m : HRBNode}
    {p q : Addr} (h1 : a + 52 ≤ n) : Cost x (Spends _ n c (a + 52) 0) (hfuseSame Ar d sub m p q) n c := by
  unfold hfuseSame hfuseRed hfuseSwap dropUnless
  cost_go
macro_rules | `(tactic| cost_lem) => `(tactic| ((with_reducible refine cost_hfuseBR (by assumption) ?_) <;> omega))
macro_rules | `(tactic| cost_lem) => `(tactic| ((with_reducible refine cost_hfuseRB (by assumption) ?_) <;> omega))
macro_rules | `(tactic| cost_lem) => `(tactic| ((with_reducible refine cost_hfuseSame (by assumption) ?_) <;> omega))

theorem cost_hremoveFuseStep (hsub : ∀ m p q n' c', a ≤ n' → Cost x (Spends _ n' c' a 0) (sub m p q) n' c') {m : HRBNode}
    {p q : Option Addr} (h1 : a + 54 ≤ n) : Cost x (Spends _ n c (a + 54) 0) (hremoveFuseStep Ar sub m p q) n c := by
  unfold hremoveFuseStep
  cost_go

end fuse

theorem cost_hremoveFuse (fuel : Nat) {m : HRBNode} {p q : Option Addr} (h1 : 54 * fuel + 54 ≤ n) :
    Cost x (Spends _ n c (54 * fuel + 54) 0) (hremoveFuse Ar fuel m p q : Prog (RLabel K V) _) n c := by
  induction fuel generalizing m p q n c with
  | zero => exact cost_hremoveFuseStep (a := 0) (fun _ _ _ _ _ _ => Cost.panic) (by omega)
  | succ fuel ih => exact cost_hremoveFuseStep (a := 54 * fuel + 54) (fun _ _ _ _ _ h => ih h) (by omega)
macro_rules | `(tactic| cost_lem) => `(tactic| ((with_reducible refine cost_hremoveFuse _ ?_) <;> omega))

theorem cost_hdelLeft {a : Nat} {sub : Option Addr → Prog (RLabel K V) (Bool × Option Addr)}
    (hsub : ∀ p n' c', a ≤ n' → Cost x (Spends _ n' c' a 0) (sub p) n' c') {m : HRBNode} (h1 : a + 42 ≤ n) :
    Cost x (Spends _ n c (a + 42) 0) (hdelLeft Ar sub m) n c := by
  unfold hdelLeft
  cost_go
theorem cost_hdelRight {a : Nat} {sub : Option Addr → Prog (RLabel K V) (Bool × Option Addr)}
    (hsub : ∀ p n' c', a ≤ n' → Cost x (Spends _ n' c' a 0) (sub p) n' c') {m : HRBNode} (h1 : a + 42 ≤ n) :
    Cost x (Spends _ n c (a + 42) 0) (hdelRight Ar sub m) n c := by
  unfold hdelRight
  cost_go
theorem cost_hdelDone {b b' : Bool} {q : Addr} {m : HRBNode} (h1 : 2 ≤ n) : Cost x (Spends _ n c 2 0) (hdelDone b b' q m) n c := by
  unfold hdelDone
  cost_go
macro_rules | `(tactic| cost_lem) => `(tactic| ((with_reducible refine cost_hdelDone ?_) <;> omega))
set_option hygiene false in
macro_rules | `(tactic| cost_lem) => `(tactic| ((with_reducible refine cost_hdelLeft (fun p n' c' h => hsub p false n' c' h) ?_) <;> omega))
set_option hygiene false in
macro_rules | `(tactic| cost_lem) => `(tactic| ((with_reducible refine cost_hdelRight (fun p n' c' h => hsub p false n' c' h) ?_) <;> omega))

theorem cost_hdelStep {k : Q} {a fuel : Nat} {sub : Option Addr → Bool → Prog (RLabel K V) (Bool × Option Addr)}
    (hsub : ∀ p b n' c', a ≤ n' → Cost x (Spends _ n' c' a 0) (sub p b) n' c') {p : Option Addr} {b : Bool} {d : Nat}
    (hd : a + 49 ≤ d ∧ 54 * fuel + 61 ≤ d) (h1 : d ≤ n) : Cost x (Spends _ n c d 0) (hdelStep Ar o k fuel sub p b) n c := by
  unfold hdelStep
  cost_go

theorem cost_hdel {k : Q} (fuel : Nat) {p : Option Addr} {b : Bool} (h1 : 54 * fuel + 61 ≤ n) :
    Cost x (Spends _ n c (54 * fuel + 61) 0) (hdel Ar o k fuel p b) n c := by
  induction fuel generalizing p b n c with
  | zero => exact cost_hdelStep (a := 0) (fun _ _ _ _ _ => Cost.panic) (by omega) (by omega)
  | succ fuel ih => exact cost_hdelStep (a := 54 * fuel + 61) (fun _ _ _ _ h => ih h) (by omega) (by omega)

section get
variable {a : Nat} {sub : Option Addr → Prog (RLabel K V) (Option (K × V))} {p : Option Addr}

theorem cost_hgetStep (hsub : ∀ p n' c', a ≤ n' → Cost x (Spends _ n' c' a 0) (sub p) n' c') {k : Q} (h1 : a + 2 ≤ n) :
    Cost x (Spends _ n c (a + 2) 0) (hgetStep o k sub p) n c := by
  unfold hgetStep
  cost_go
theorem cost_hfirstStep (hsub : ∀ p n' c', a ≤ n' → Cost x (Spends _ n' c' a 0) (sub p) n' c') (h1 : a + 2 ≤ n) :
    Cost x (Spends _ n c (a + 2) 0) (hfirstStep sub p) n c := by
  unfold hfirstStep
  cost_go
theorem cost_hlastStep (hsub : ∀ p n' c', a ≤ n' → Cost x (Spends _ n' c' a 0) (sub p) n' c') (h1 : a + 2 ≤ n) :
    Cost x (Spends _ n c (a + 2) 0) (hlastStep sub p) n c := by
  unfold hlastStep
  cost_go

end get

theorem cost_hget {k : Q} (fuel : Nat) {p : Option Addr} (h1 : 2 * fuel + 2 ≤ n) :
    Cost x (Spends _ n c (2 * fuel + 2) 0) (hget o k fuel p) n c := by
  induction fuel generalizing p n c with
  | zero => exact cost_hgetStep (a := 0) (fun _ _ _ _ => Cost.panic) (by omega)
  | succ fuel ih => exact cost_hgetStep (a := 2 * fuel + 2) (fun _ _ _ h => ih h) (by omega)
theorem cost_hfirst (fuel : Nat) {p : Option Addr} (h1 : 2 * fuel + 2 ≤ n) :
    Cost x (Spends _ n c (2 * fuel + 2) 0) (hfirst fuel p) n c := by
  induction fuel generalizing p n c with
  | zero => exact cost_hfirstStep (a := 0) (fun _ _ _ _ => Cost.panic) (by omega)
  | succ fuel ih => exact cost_hfirstStep (a := 2 * fuel + 2) (fun _ _ _ h => ih h) (by omega)
theorem cost_hlast (fuel : Nat) {p : Option Addr} (h1 : 2 * fuel + 2 ≤ n) :
    Cost x (Spends _ n c (2 * fuel + 2) 0) (hlast fuel p) n c := by
  induction fuel generalizing p n c with
  | zero => exact cost_hlastStep (a := 0) (fun _ _ _ _ => Cost.panic) (by omega)
  | succ fuel ih => exact cost_hlastStep (a := 2 * fuel + 2) (fun _ _ _ h => ih h) (by omega)

theorem cost_modifyEntry {f : V → V} {y : Content (RLabel K V)} {n' c' : Nat} (h1 : n ≤ n' + 4) (h2 : c ≤ c') :
    Cost x (Spends _ n c 4 0) (modifyEntry f y) n' c' := by
  unfold modifyEntry
  cost_go
macro_rules | `(tactic| cost_lem) => `(tactic| ((with_reducible refine cost_modifyPtr (a := 0) (b := 0) ?_ (fun _ _ _ _ _ => cost_modifyEntry ?_ ?_)) <;> omega))

theorem cost_hgetMutStep {k : Q} {f : V → V} {a : Nat} {sub : Option Addr → Prog (RLabel K V) (Option V × Option Addr)}
    (hsub : ∀ p n' c', a ≤ n' → Cost x (Spends _ n' c' a 0) (sub p) n' c') {p : Option Addr} (h1 : a + 11 ≤ n) :
    Cost x (Spends _ n c (a + 11) 0) (hgetMutStep o k f sub p) n c := by
  unfold hgetMutStep
  cost_go

theorem cost_hgetMut {k : Q} {f : V → V} (fuel : Nat) {p : Option Addr} (h1 : 11 * fuel + 11 ≤ n) :
    Cost x (Spends _ n c (11 * fuel + 11) 0) (hgetMut o k f fuel p) n c := by
  induction fuel generalizing p n c with
  | zero => exact cost_hgetMutStep (a := 0) (fun _ _ _ _ => Cost.panic) (by omega)
  | succ fuel ih => exact cost_hgetMutStep (a := 11 * fuel + 11) (fun _ _ _ h => ih h) (by omega)

macro_rules | `(tactic| cost_lem) => `(tactic| ((with_reducible refine cost_hins _ ?_) <;> omega))
macro_rules | `(tactic| cost_lem) => `(tactic| ((with_reducible refine cost_hdel _ ?_) <;> omega))
macro_rules | `(tactic| cost_lem) => `(tactic| ((with_reducible refine cost_hget _ ?_) <;> omega))
macro_rules | `(tactic| cost_lem) => `(tactic| ((with_reducible refine cost_hfirst _ ?_) <;> omega))
macro_rules | `(tactic| cost_lem) => `(tactic| ((with_reducible refine cost_hlast _ ?_) <;> omega))
macro_rules | `(tactic| cost_lem) => `(tactic| ((with_reducible refine cost_hgetMut _ ?_) <;> omega))

namespace HRBMap
variable {m : HRBMap}

theorem cost_clone (h2 : 1 ≤ c) : Cost x (Spends HRBMap n c 0 1) m.clone n c := by
  unfold HRBMap.clone
  cost_go
theorem cost_dropMap (h1 : 1 ≤ n) : Cost x (Spends Unit n c 1 0) m.dropMap n c := by
  unfold HRBMap.dropMap
  cost_go
theorem cost_getKeyValue {k : Q} (h1 : 8 * Nat.log2 (m.size + 1) + 2 ≤ n) :
    Cost x (Spends _ n c (8 * Nat.log2 (m.size + 1) + 2) 0) (m.getKeyValue o k) n c := by
  unfold HRBMap.getKeyValue HRBMap.fuel
  cost_go
theorem cost_get {k : Q} (h1 : 8 * Nat.log2 (m.size + 1) + 2 ≤ n) :
    Cost x (Spends _ n c (8 * Nat.log2 (m.size + 1) + 2) 0) (m.get o k) n c := by
  unfold HRBMap.get HRBMap.fuel
  cost_go
theorem cost_first (h1 : 8 * Nat.log2 (m.size + 1) + 2 ≤ n) :
    Cost x (Spends _ n c (8 * Nat.log2 (m.size + 1) + 2) 0) m.first n c := by
  unfold HRBMap.first HRBMap.fuel
  cost_go
theorem cost_last (h1 : 8 * Nat.log2 (m.size + 1) + 2 ≤ n) :
    Cost x (Spends _ n c (8 * Nat.log2 (m.size + 1) + 2) 0) m.last n c := by
  unfold HRBMap.last HRBMap.fuel
  cost_go
theorem cost_insertMut {k : K} {v : V} (h1 : 112 * Nat.log2 (m.size + 1) + 28 ≤ n) :
    Cost x (Spends _ n c (112 * Nat.log2 (m.size + 1) + 28) 0) (m.insertMut o k v) n c := by
  unfold HRBMap.insertMut HRBMap.fuel
  cost_go
theorem cost_removeMut {k : Q} (h1 : 216 * Nat.log2 (m.size + 1) + 61 ≤ n) :
    Cost x (Spends _ n c (216 * Nat.log2 (m.size + 1) + 61) 0) (m.removeMut Ar o k) n c := by
  unfold HRBMap.removeMut HRBMap.fuel
  cost_go
theorem cost_getMut {k : Q} {f : V → V} (h1 : 44 * Nat.log2 (m.size + 1) + 11 ≤ n) :
    Cost x (Spends _ n c (44 * Nat.log2 (m.size + 1) + 11) 0) (m.getMut o k f) n c := by
  unfold HRBMap.getMut HRBMap.fuel
  cost_go

/-- A clone has the size of the map. -/
theorem cost_clone_size (h2 : 1 ≤ c) :
    Cost x (fun r n' c' => r.size = m.size ∧ n ≤ n' ∧ c ≤ c' + 1) (m.clone : Prog (RLabel K V) _) n c := by
  unfold HRBMap.clone
  refine Cost.bind (cost_cloneOpt h2) ?_
  rintro _ n' c' ⟨h3, h4⟩
  exact ⟨rfl, by omega, by omega⟩

theorem cost_insert {k : K} {v : V} (h1 : 112 * Nat.log2 (m.size + 1) + 28 ≤ n) (h2 : 1 ≤ c) :
    Cost x (Spends _ n c (112 * Nat.log2 (m.size + 1) + 28) 1) (m.insert o k v) n c := by
  unfold HRBMap.insert
  refine Cost.bind (cost_clone_size h2) ?_
  rintro r n' c' ⟨h3, h4, h5⟩
  refine (cost_insertMut (by rw [h3]; omega)).imp ?_
  rintro _ n2 c2 ⟨h6, h7⟩
  rw [h3] at h6
  exact ⟨by omega, by omega⟩
theorem cost_remove {k : Q} (h1 : 216 * Nat.log2 (m.size + 1) + 62 ≤ n) (h2 : 2 ≤ c) :
    Cost x (Spends _ n c (216 * Nat.log2 (m.size + 1) + 62) 2) (m.remove Ar o k) n c := by
  unfold HRBMap.remove
  refine Cost.bind (cost_clone_size (by omega)) ?_
  rintro r n' c' ⟨h3, h4, h5⟩
  refine Cost.bind (cost_removeMut (by rw [h3]; omega)) ?_
  rintro y n2 c2 ⟨h6, h7⟩
  rw [h3] at h6
  split
  · exact Cost.ret' (by omega) (by omega)
  · refine Cost.bind (cost_clone (by omega)) ?_
    rintro _ n3 c3 ⟨h8, h9⟩
    refine Cost.bind (cost_dropMap (by omega)) ?_
    rintro _ n4 c4 ⟨h10, h11⟩
    exact Cost.ret' (by omega) (by omega)

end HRBMap

/-- What an operation all maps have may cost: touches of cells and copies of pointers. -/
def rbCost (m : HRBMap) : MapOp K V Q → Nat × Nat
  | .insert _ _ => (112 * Nat.log2 (m.size + 1) + 28, 1)
  | .insertMut _ _ => (112 * Nat.log2 (m.size + 1) + 28, 0)
  | .remove _ => (216 * Nat.log2 (m.size + 1) + 62, 2)
  | .removeMut _ => (216 * Nat.log2 (m.size + 1) + 61, 0)
  | .getMut _ _ => (44 * Nat.log2 (m.size + 1) + 11, 0)
  | .clone => (0, 1)
  | .get _ => (8 * Nat.log2 (m.size + 1) + 2, 0)
  | .getKeyValue _ => (8 * Nat.log2 (m.size + 1) + 2, 0)
  | .containsKey _ => (8 * Nat.log2 (m.size + 1) + 2, 0)
  | .index _ => (8 * Nat.log2 (m.size + 1) + 2, 0)
  | .size => (0, 0)
  | .isEmpty => (0, 0)

/-- What an operation may cost; iterators have no limit here. -/
def rbCostAll (m : HRBMap) : RBOp K V Q → Option (Nat × Nat)
  | .base op => some (rbCost m op)
  | .first => some (8 * Nat.log2 (m.size + 1) + 2, 0)
  | .last => some (8 * Nat.log2 (m.size + 1) + 2, 0)
  | .iter _ => none
  | .range _ _ _ => none

theorem cost_rbHStep (m : HRBMap) (op : MapOp K V Q) :
    Cost x (fun _ _ _ => True) (rbHStep Ar o m op) (rbCost m op).1 (rbCost m op).2 := by
  cases op
  case insert k v =>
    refine Cost.bind (HRBMap.cost_insert (Nat.le_refl _) (Nat.le_refl _)) ?_
    intros; trivial
  case insertMut k v =>
    refine Cost.bind (HRBMap.cost_insertMut (Nat.le_refl _)) ?_
    intros; trivial
  case remove q =>
    refine Cost.bind (HRBMap.cost_remove (Nat.le_refl _) (Nat.le_refl _)) ?_
    intros; trivial
  case removeMut q =>
    refine Cost.bind (HRBMap.cost_removeMut (Nat.le_refl _)) ?_
    intros; trivial
  case getMut q f =>
    refine Cost.bind (HRBMap.cost_getMut (Nat.le_refl _)) ?_
    intros; trivial
  case clone =>
    refine Cost.bind (HRBMap.cost_clone (Nat.le_refl _)) ?_
    intros; trivial
  case get q =>
    refine Cost.bind (HRBMap.cost_get (Nat.le_refl _)) ?_
    intros; trivial
  case getKeyValue q =>
    refine Cost.bind (HRBMap.cost_getKeyValue (Nat.le_refl _)) ?_
    intros; trivial
  case containsKey q =>
    refine Cost.bind (HRBMap.cost_get (Nat.le_refl _)) ?_
    intros; trivial
  case index q =>
    refine Cost.bind (HRBMap.cost_get (Nat.le_refl _)) ?_
    intros; split <;> trivial
  case size => trivial
  case isEmpty => trivial

theorem cost_rbHStepAll (m : HRBMap) (op : RBOp K V Q) (l : Nat × Nat) (e : rbCostAll m op = some l) :
    Cost x (fun _ _ _ => True) (rbHStepAll Ar o m op) l.1 l.2 := by
  cases op <;> simp only [rbCostAll, Option.some.injEq, reduceCtorEq] at e <;> subst e
  case base op =>
    refine Cost.bind (cost_rbHStep m op) ?_
    intros; trivial
  case first =>
    refine Cost.bind (HRBMap.cost_first (Nat.le_refl _)) ?_
    intros; trivial
  case last =>
    refine Cost.bind (HRBMap.cost_last (Nat.le_refl _)) ?_
    intros; trivial

end
end Heap
end Rpds
