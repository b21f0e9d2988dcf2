import Verif.Heap.Space
import Verif.Heap.CostRedBlack
/-
What the operations of `RedBlackTreeMap` and `RedBlackTreeSet` allocate: a few cells for each level of the tree.
-/
set_option autoImplicit false
namespace Rpds
namespace Heap

section
variable {K V Q : Type} {Ar : Arch} {n : Nat} {o : OrdKeys K Q}

theorem allocs_newNode {m : HRBNode} (h1 : 1 ≤ n) : Allocs (L := RLabel K V) (Uses _ n 1) (newNode m) n := allocs_new h1
theorem allocs_closeNode {q : Addr} {m : HRBNode} : Allocs (L := RLabel K V) (Uses _ n 0) (closeNode q m) n := allocs_close
macro_rules | `(tactic| alloc_lem) => `(tactic| ((with_reducible refine allocs_newNode ?_) <;> ((try simp only [Uses] at *) <;> omega)))
macro_rules | `(tactic| alloc_lem) => `(tactic| ((with_reducible refine allocs_closeNode)))

theorem allocs_openNode {p : Addr} (h1 : 1 ≤ n) : Allocs (L := RLabel K V) (Uses _ n 1) (openNode p) n := by
  unfold openNode
  alloc_go
macro_rules | `(tactic| alloc_lem) => `(tactic| ((with_reducible refine allocs_openNode ?_) <;> ((try simp only [Uses] at *) <;> omega)))

theorem allocs_readNode {p : Addr} : Allocs (L := RLabel K V) (Uses _ n 0) (readNode p) n := by
  unfold readNode
  alloc_go
macro_rules | `(tactic| alloc_lem) => `(tactic| ((with_reducible refine allocs_readNode)))

theorem allocs_readEntry {p : Addr} : Allocs (L := RLabel K V) (Uses _ n 0) (readEntry p) n := by
  unfold readEntry
  alloc_go
macro_rules | `(tactic| alloc_lem) => `(tactic| ((with_reducible refine allocs_readEntry)))

theorem allocs_colorOf {p : Option Addr} : Allocs (L := RLabel K V) (Uses _ n 0) (colorOf p) n := by
  unfold colorOf
  alloc_go
macro_rules | `(tactic| alloc_lem) => `(tactic| ((with_reducible refine allocs_colorOf)))

theorem allocs_leftColorOf {p : Option Addr} : Allocs (L := RLabel K V) (Uses _ n 0) (leftColorOf p) n := by
  unfold leftColorOf
  alloc_go
macro_rules | `(tactic| alloc_lem) => `(tactic| ((with_reducible refine allocs_leftColorOf)))

theorem allocs_rightColorOf {p : Option Addr} : Allocs (L := RLabel K V) (Uses _ n 0) (rightColorOf p) n := by
  unfold rightColorOf
  alloc_go
macro_rules | `(tactic| alloc_lem) => `(tactic| ((with_reducible refine allocs_rightColorOf)))

theorem allocs_hbalance1 {m : HRBNode} (h1 : 2 ≤ n) : Allocs (L := RLabel K V) (Uses _ n 2) (hbalance1 m) n := by
  unfold hbalance1
  alloc_go
macro_rules | `(tactic| alloc_lem) => `(tactic| ((with_reducible refine allocs_hbalance1 ?_) <;> ((try simp only [Uses] at *) <;> omega)))

theorem allocs_hbalance2 {m : HRBNode} (h1 : 2 ≤ n) : Allocs (L := RLabel K V) (Uses _ n 2) (hbalance2 m) n := by
  unfold hbalance2
  alloc_go
macro_rules | `(tactic| alloc_lem) => `(tactic| ((with_reducible refine allocs_hbalance2 ?_) <;> ((try simp only [Uses] at *) <;> omega)))

theorem allocs_hbalance3 {m : HRBNode} (h1 : 2 ≤ n) : Allocs (L := RLabel K V) (Uses _ n 2) (hbalance3 m) n := by
  unfold hbalance3
  alloc_go
macro_rules | `(tactic| alloc_lem) => `(tactic| ((with_reducible refine allocs_hbalance3 ?_) <;> ((try simp only [Uses] at *) <;> omega)))

theorem allocs_hbalance4 {m : HRBNode} (h1 : 2 ≤ n) : Allocs (L := RLabel K V) (Uses _ n 2) (hbalance4 m) n := by
  unfold hbalance4
  alloc_go
macro_rules | `(tactic| alloc_lem) => `(tactic| ((with_reducible refine allocs_hbalance4 ?_) <;> ((try simp only [Uses] at *) <;> omega)))

theorem allocs_hbalanceIn {m : HRBNode} {k : Nat} (h1 : 2 ≤ n) : Allocs (L := RLabel K V) (Uses _ n 2) (hbalanceIn m k) n := by
  unfold hbalanceIn
  split
  · exact allocs_hbalance1 h1
  · exact allocs_hbalance2 h1
  · exact allocs_hbalance3 h1
  · exact allocs_hbalance4 h1
  · exact Allocs.ret' (by omega)
macro_rules | `(tactic| alloc_lem) => `(tactic| ((with_reducible refine allocs_hbalanceIn ?_) <;> ((try simp only [Uses] at *) <;> omega)))

theorem allocs_hbalance {m : HRBNode} (h1 : 2 ≤ n) : Allocs (L := RLabel K V) (Uses _ n 2) (hbalance m) n := by
  unfold hbalance
  alloc_go
macro_rules | `(tactic| alloc_lem) => `(tactic| ((with_reducible refine allocs_hbalance ?_) <;> ((try simp only [Uses] at *) <;> omega)))

theorem allocs_hinsDone {b b' : Bool} {m : HRBNode} (h1 : 2 ≤ n) : Allocs (L := RLabel K V) (Uses _ n 2) (hinsDone b b' m) n := by
  unfold hinsDone
  alloc_go
macro_rules | `(tactic| alloc_lem) => `(tactic| ((with_reducible refine allocs_hinsDone ?_) <;> ((try simp only [Uses] at *) <;> omega)))

theorem allocs_hinsDone_false {b : Bool} {m : HRBNode} : Allocs (L := RLabel K V) (Uses _ n 0) (hinsDone b false m) n := by
  unfold hinsDone
  rw [if_neg (by simp)]
  alloc_go
macro_rules | `(tactic| alloc_lem) => `(tactic| ((with_reducible refine allocs_hinsDone_false)))

set_option hygiene false in
macro_rules | `(tactic| alloc_lem) => `(tactic| ((with_reducible apply hsub) <;> ((try simp only [Uses] at *) <;> omega)))

theorem allocs_hinsStep {k : K} {v : V} {a : Nat} {sub : Option Addr → Bool → Prog (RLabel K V) (Bool × Option Addr)}
    (hsub : ∀ p b n', a ≤ n' → Allocs (Uses _ n' a) (sub p b) n') {p : Option Addr} {b : Bool} (h1 : a + 3 ≤ n) :
    Allocs (Uses _ n (a + 3)) (hinsStep o k v sub p b) n := by
  unfold hinsStep
  alloc_go

theorem allocs_hins {k : K} {v : V} (fuel : Nat) {p : Option Addr} {b : Bool} (h1 : 3 * fuel + 3 ≤ n) :
    Allocs (Uses _ n (3 * fuel + 3)) (hins o k v fuel p b) n := by
  induction fuel generalizing p b n with
  | zero => exact allocs_hinsStep (a := 0) (fun _ _ _ _ => Allocs.panic) (by omega)
  | succ fuel ih => exact allocs_hinsStep (a := 3 * fuel + 3) (fun _ _ _ h => ih h) (by omega)

theorem allocs_hsetColor {d : Color} {p : Option Addr} (h1 : 1 ≤ n) : Allocs (L := RLabel K V) (Uses _ n 1) (hsetColor d p) n := by
  unfold hsetColor
  alloc_go
macro_rules | `(tactic| alloc_lem) => `(tactic| ((with_reducible refine allocs_hsetColor ?_) <;> ((try simp only [Uses] at *) <;> omega)))

theorem allocs_hremoveBalance {m : HRBNode} (h1 : 2 ≤ n) : Allocs (L := RLabel K V) (Uses _ n 2) (hremoveBalance Ar m) n := by
  unfold hremoveBalance
  alloc_go
macro_rules | `(tactic| alloc_lem) => `(tactic| ((with_reducible refine allocs_hremoveBalance ?_) <;> ((try simp only [Uses] at *) <;> omega)))

theorem allocs_hremoveBalanceLeft3 {m : HRBNode} (h1 : 5 ≤ n) : Allocs (L := RLabel K V) (Uses _ n 5) (hremoveBalanceLeft3 Ar m) n := by
  unfold hremoveBalanceLeft3
  alloc_go
macro_rules | `(tactic| alloc_lem) => `(tactic| ((with_reducible refine allocs_hremoveBalanceLeft3 ?_) <;> ((try simp only [Uses] at *) <;> omega)))

theorem allocs_hremoveBalanceRight3 {m : HRBNode} (h1 : 5 ≤ n) : Allocs (L := RLabel K V) (Uses _ n 5) (hremoveBalanceRight3 Ar m) n := by
  unfold hremoveBalanceRight3
  alloc_go
macro_rules | `(tactic| alloc_lem) => `(tactic| ((with_reducible refine allocs_hremoveBalanceRight3 ?_) <;> ((try simp only [Uses] at *) <;> omega)))

theorem allocs_hremoveBalanceLeft {m : HRBNode} (h1 : 5 ≤ n) : Allocs (L := RLabel K V) (Uses _ n 5) (hremoveBalanceLeft Ar m) n := by
  unfold hremoveBalanceLeft hremoveBalanceLeftIn
  alloc_go
macro_rules | `(tactic| alloc_lem) => `(tactic| ((with_reducible refine allocs_hremoveBalanceLeft ?_) <;> ((try simp only [Uses] at *) <;> omega)))

theorem allocs_hremoveBalanceRight {m : HRBNode} (h1 : 5 ≤ n) : Allocs (L := RLabel K V) (Uses _ n 5) (hremoveBalanceRight Ar m) n := by
  unfold hremoveBalanceRight hremoveBalanceRightIn
  alloc_go
macro_rules | `(tactic| alloc_lem) => `(tactic| ((with_reducible refine allocs_hremoveBalanceRight ?_) <;> ((try simp only [Uses] at *) <;> omega)))

theorem allocs_hreplace {m : HRBNode} {p : Addr} (h1 : 1 ≤ n) : Allocs (L := RLabel K V) (Uses _ n 1) (hreplace m p) n := by
  unfold hreplace
  alloc_go
macro_rules | `(tactic| alloc_lem) => `(tactic| ((with_reducible refine allocs_hreplace ?_) <;> ((try simp only [Uses] at *) <;> omega)))

section fuse
variable {a : Nat} {sub : HRBNode → Option Addr → Option Addr → Prog (RLabel K V) (Bool × HRBNode)}

theorem allocs_hfuseBR (hsub : ∀ m p q n', a ≤ n' → Allocs (Uses _ n' a) (sub m p q) n') {m : HRBNode} {p q : Addr} (h1 : a + 1 ≤ n) : Allocs (L := RLabel K V) (Uses _ n (a + 1)) (hfuseBR sub m p q) n := by
  unfold hfuseBR
  alloc_go

theorem allocs_hfuseRB (hsub : ∀ m p q n', a ≤ n' → Allocs (Uses _ n' a) (sub m p q) n') {m : HRBNode} {p q : Addr} (h1 : a + 1 ≤ n) : Allocs (L := RLabel K V) (Uses _ n (a + 1)) (hfuseRB sub m p q) n := by
  unfold hfuseRB
  alloc_go

theorem allocs_hfuseSame {d : Color} (hsub : ∀ m p q n', a ≤ n' → Allocs (Uses _ n' a) (sub m p q) n') {m : HRBNode} {p q : Addr} (h1 : a + 7 ≤ n) : Allocs (L := RLabel K V) (Uses _ n (a + 7)) (hfuseSame Ar d sub m p q) n := by
  unfold hfuseSame hfuseRed hfuseSwap dropUnless
  alloc_go
macro_rules | `(tactic| alloc_lem) => `(tactic| ((with_reducible refine allocs_hfuseBR (by assumption) ?_) <;> ((try simp only [Uses] at *) <;> omega)))
macro_rules | `(tactic| alloc_lem) => `(tactic| ((with_reducible refine allocs_hfuseRB (by assumption) ?_) <;> ((try simp only [Uses] at *) <;> omega)))
macro_rules | `(tactic| alloc_lem) => `(tactic| ((with_reducible refine allocs_hfuseSame (by assumption) ?_) <;> ((try simp only [Uses] at *) <;> omega)))

theorem allocs_hremoveFuseStep (hsub : ∀ m p q n', a ≤ n' → Allocs (Uses _ n' a) (sub m p q) n') {m : HRBNode} {p q : Option Addr} (h1 : a + 7 ≤ n) : Allocs (L := RLabel K V) (Uses _ n (a + 7)) (hremoveFuseStep Ar sub m p q) n := by
  unfold hremoveFuseStep
  alloc_go

end fuse

theorem allocs_hremoveFuse (fuel : Nat) {m : HRBNode} {p q : Option Addr} (h1 : 7 * fuel + 7 ≤ n) :
    Allocs (Uses _ n (7 * fuel + 7)) (hremoveFuse Ar fuel m p q : Prog (RLabel K V) _) n := by
  induction fuel generalizing m p q n with
  | zero => exact allocs_hremoveFuseStep (a := 0) (fun _ _ _ _ _ => Allocs.panic) (by omega)
  | succ fuel ih => exact allocs_hremoveFuseStep (a := 7 * fuel + 7) (fun _ _ _ _ h => ih h) (by omega)
macro_rules | `(tactic| alloc_lem) => `(tactic| ((with_reducible refine allocs_hremoveFuse _ ?_) <;> ((try simp only [Uses] at *) <;> omega)))

theorem allocs_hdelLeft {a : Nat} {sub : Option Addr → Prog (RLabel K V) (Bool × Option Addr)} (hsub : ∀ p n', a ≤ n' → Allocs (Uses _ n' a) (sub p) n') {m : HRBNode} (h1 : a + 5 ≤ n) : Allocs (L := RLabel K V) (Uses _ n (a + 5)) (hdelLeft Ar sub m) n := by
  unfold hdelLeft
  alloc_go

theorem allocs_hdelRight {a : Nat} {sub : Option Addr → Prog (RLabel K V) (Bool × Option Addr)} (hsub : ∀ p n', a ≤ n' → Allocs (Uses _ n' a) (sub p) n') {m : HRBNode} (h1 : a + 5 ≤ n) : Allocs (L := RLabel K V) (Uses _ n (a + 5)) (hdelRight Ar sub m) n := by
  unfold hdelRight
  alloc_go

theorem allocs_hdelDone {b b' : Bool} {q : Addr} {m : HRBNode} : Allocs (L := RLabel K V) (Uses _ n 0) (hdelDone b b' q m) n := by
  unfold hdelDone
  alloc_go
macro_rules | `(tactic| alloc_lem) => `(tactic| ((with_reducible refine allocs_hdelDone)))

set_option hygiene false in
macro_rules | `(tactic| alloc_lem) => `(tactic| ((with_reducible refine allocs_hdelLeft (fun p n' h => hsub p false n' h) ?_) <;> ((try simp only [Uses] at *) <;> omega)))
set_option hygiene false in
macro_rules | `(tactic| alloc_lem) => `(tactic| ((with_reducible refine allocs_hdelRight (fun p n' h => hsub p false n' h) ?_) <;> ((try simp only [Uses] at *) <;> omega)))

theorem allocs_hdelStep {k : Q} {a fuel : Nat} {sub : Option Addr → Bool → Prog (RLabel K V) (Bool × Option Addr)}
    (hsub : ∀ p b n', a ≤ n' → Allocs (Uses _ n' a) (sub p b) n') {p : Option Addr} {b : Bool} {d : Nat}
    (hd : a + 6 ≤ d ∧ 7 * fuel + 8 ≤ d) (h1 : d ≤ n) : Allocs (Uses _ n d) (hdelStep Ar o k fuel sub p b) n := by
  unfold hdelStep
  alloc_go

theorem allocs_hdel {k : Q} (fuel : Nat) {p : Option Addr} {b : Bool} (h1 : 7 * fuel + 8 ≤ n) :
    Allocs (Uses _ n (7 * fuel + 8)) (hdel (V := V) Ar o k fuel p b) n := by
  induction fuel generalizing p b n with
  | zero => exact allocs_hdelStep (a := 0) (fun _ _ _ _ => Allocs.panic) (by omega) (by omega)
  | succ fuel ih => exact allocs_hdelStep (a := 7 * fuel + 8) (fun _ _ _ h => ih h) (by omega) (by omega)

section get
variable {sub : Option Addr → Prog (RLabel K V) (Option (K × V))} {p : Option Addr}

theorem allocs_hgetStep (hsub : ∀ p n', 0 ≤ n' → Allocs (Uses _ n' 0) (sub p) n') {k : Q} : Allocs (L := RLabel K V) (Uses _ n 0) (hgetStep o k sub p) n := by
  unfold hgetStep
  alloc_go

theorem allocs_hfirstStep (hsub : ∀ p n', 0 ≤ n' → Allocs (Uses _ n' 0) (sub p) n') : Allocs (L := RLabel K V) (Uses _ n 0) (hfirstStep sub p) n := by
  unfold hfirstStep
  alloc_go

theorem allocs_hlastStep (hsub : ∀ p n', 0 ≤ n' → Allocs (Uses _ n' 0) (sub p) n') : Allocs (L := RLabel K V) (Uses _ n 0) (hlastStep sub p) n := by
  unfold hlastStep
  alloc_go

end get

theorem allocs_hget {k : Q} (fuel : Nat) {p : Option Addr} : Allocs (L := RLabel K V) (Uses _ n 0) (hget o k fuel p) n := by
  induction fuel generalizing p n with
  | zero => exact allocs_hgetStep fun _ _ _ => Allocs.panic
  | succ fuel ih => exact allocs_hgetStep fun _ _ _ => ih

theorem allocs_hfirst (fuel : Nat) {p : Option Addr} : Allocs (L := RLabel K V) (Uses _ n 0) (hfirst fuel p) n := by
  induction fuel generalizing p n with
  | zero => exact allocs_hfirstStep fun _ _ _ => Allocs.panic
  | succ fuel ih => exact allocs_hfirstStep fun _ _ _ => ih

theorem allocs_hlast (fuel : Nat) {p : Option Addr} : Allocs (L := RLabel K V) (Uses _ n 0) (hlast fuel p) n := by
  induction fuel generalizing p n with
  | zero => exact allocs_hlastStep fun _ _ _ => Allocs.panic
  | succ fuel ih => exact allocs_hlastStep fun _ _ _ => ih

theorem allocs_modifyEntry {f : V → V} {y : Content (RLabel K V)} {n' : Nat} (h1 : n ≤ n' + 1) :
    Allocs (Uses _ n 1) (modifyEntry f y) n' := by
  unfold modifyEntry
  alloc_go
macro_rules | `(tactic| alloc_lem) => `(tactic| ((with_reducible refine allocs_modifyPtr (a := 0) ?_ (fun _ _ _ => allocs_modifyEntry ?_)) <;> ((try simp only [Uses] at *) <;> omega)))

theorem allocs_hgetMutStep {k : Q} {f : V → V} {a : Nat} {sub : Option Addr → Prog (RLabel K V) (Option V × Option Addr)}
    (hsub : ∀ p n', a ≤ n' → Allocs (Uses _ n' a) (sub p) n') {p : Option Addr} {d : Nat} (hd : a + 1 ≤ d ∧ 2 ≤ d) (h1 : d ≤ n) :
    Allocs (Uses _ n d) (hgetMutStep o k f sub p) n := by
  unfold hgetMutStep
  alloc_go

theorem allocs_hgetMut {k : Q} {f : V → V} (fuel : Nat) {p : Option Addr} (h1 : fuel + 2 ≤ n) :
    Allocs (Uses _ n (fuel + 2)) (hgetMut o k f fuel p) n := by
  induction fuel generalizing p n with
  | zero => exact allocs_hgetMutStep (a := 0) (fun _ _ _ => Allocs.panic) (by omega) (by omega)
  | succ fuel ih => exact allocs_hgetMutStep (a := fuel + 2) (fun _ _ h => ih h) (by omega) (by omega)

theorem allocs_hviewStep {sub : Option Addr → Prog (RLabel K V) (RBTree K V)} (hsub : ∀ p n', 0 ≤ n' → Allocs (Uses _ n' 0) (sub p) n')
    {p : Option Addr} : Allocs (Uses _ n 0) (hviewStep sub p) n := by
  unfold hviewStep
  alloc_go

theorem allocs_hview (fuel : Nat) {p : Option Addr} : Allocs (L := RLabel K V) (Uses _ n 0) (hview fuel p) n := by
  induction fuel generalizing p n with
  | zero => exact allocs_hviewStep fun _ _ _ => Allocs.panic
  | succ fuel ih => exact allocs_hviewStep fun _ _ _ => ih

macro_rules | `(tactic| alloc_lem) => `(tactic| ((with_reducible refine allocs_hins _ ?_) <;> ((try simp only [Uses] at *) <;> omega)))
macro_rules | `(tactic| alloc_lem) => `(tactic| ((with_reducible refine allocs_hdel _ ?_) <;> ((try simp only [Uses] at *) <;> omega)))
macro_rules | `(tactic| alloc_lem) => `(tactic| ((with_reducible refine allocs_hget _)))
macro_rules | `(tactic| alloc_lem) => `(tactic| ((with_reducible refine allocs_hfirst _)))
macro_rules | `(tactic| alloc_lem) => `(tactic| ((with_reducible refine allocs_hlast _)))
macro_rules | `(tactic| alloc_lem) => `(tactic| ((with_reducible refine allocs_hgetMut _ ?_) <;> ((try simp only [Uses] at *) <;> omega)))
macro_rules | `(tactic| alloc_lem) => `(tactic| ((with_reducible refine allocs_hview _)))

namespace HRBMap
variable {m : HRBMap}

/-- A clone has the size of the map. -/
theorem allocs_clone : Allocs (fun r n' => r.size = m.size ∧ n ≤ n') (m.clone : Prog (RLabel K V) _) n := by
  unfold HRBMap.clone
  refine Allocs.bind allocs_cloneOpt ?_
  intro _ n' h3
  simp only [Uses] at h3
  exact ⟨rfl, by omega⟩
theorem allocs_dropMap : Allocs (L := RLabel K V) (Uses Unit n 0) m.dropMap n := by
  unfold HRBMap.dropMap
  alloc_go
theorem allocs_getKeyValue {k : Q} : Allocs (L := RLabel K V) (Uses _ n 0) (m.getKeyValue o k) n := by
  unfold HRBMap.getKeyValue
  alloc_go
theorem allocs_get {k : Q} : Allocs (L := RLabel K V) (Uses _ n 0) (m.get o k) n := by
  unfold HRBMap.get
  alloc_go
theorem allocs_first : Allocs (L := RLabel K V) (Uses _ n 0) m.first n := by
  unfold HRBMap.first
  alloc_go
theorem allocs_last : Allocs (L := RLabel K V) (Uses _ n 0) m.last n := by
  unfold HRBMap.last
  alloc_go
theorem allocs_view : Allocs (L := RLabel K V) (Uses _ n 0) m.view n := by
  unfold HRBMap.view
  alloc_go
theorem allocs_insertMut {k : K} {v : V} (h1 : 12 * Nat.log2 (m.size + 1) + 3 ≤ n) :
    Allocs (Uses _ n (12 * Nat.log2 (m.size + 1) + 3)) (m.insertMut o k v) n := by
  unfold HRBMap.insertMut HRBMap.fuel
  alloc_go
theorem allocs_removeMut {k : Q} (h1 : 28 * Nat.log2 (m.size + 1) + 8 ≤ n) :
    Allocs (L := RLabel K V) (Uses _ n (28 * Nat.log2 (m.size + 1) + 8)) (m.removeMut Ar o k) n := by
  unfold HRBMap.removeMut HRBMap.fuel
  alloc_go
theorem allocs_getMut {k : Q} {f : V → V} (h1 : 4 * Nat.log2 (m.size + 1) + 2 ≤ n) :
    Allocs (Uses _ n (4 * Nat.log2 (m.size + 1) + 2)) (m.getMut o k f) n := by
  unfold HRBMap.getMut HRBMap.fuel
  alloc_go
theorem allocs_insert {k : K} {v : V} (h1 : 12 * Nat.log2 (m.size + 1) + 3 ≤ n) :
    Allocs (Uses _ n (12 * Nat.log2 (m.size + 1) + 3)) (m.insert o k v) n := by
  unfold HRBMap.insert
  refine Allocs.bind allocs_clone ?_
  rintro r n' ⟨h3, h4⟩
  refine (allocs_insertMut (by rw [h3]; omega)).imp ?_
  intro _ n2 h6
  rw [h3] at h6
  simp only [Uses] at *
  omega
theorem allocs_remove {k : Q} (h1 : 28 * Nat.log2 (m.size + 1) + 8 ≤ n) :
    Allocs (L := RLabel K V) (Uses _ n (28 * Nat.log2 (m.size + 1) + 8)) (m.remove Ar o k) n := by
  unfold HRBMap.remove
  refine Allocs.bind allocs_clone ?_
  rintro r n' ⟨h3, h4⟩
  refine Allocs.bind (allocs_removeMut (by rw [h3]; omega)) ?_
  intro y n2 h6
  rw [h3] at h6
  simp only [Uses] at h6
  split
  · exact Allocs.ret' (by omega)
  · refine Allocs.bind allocs_clone ?_
    rintro _ n3 ⟨-, h8⟩
    refine Allocs.bind allocs_dropMap ?_
    intro _ n4 h10
    simp only [Uses] at h10
    exact Allocs.ret' (by omega)

end HRBMap

/-- What an operation all maps have allocates, by the size of the map. -/
def rbAllocs (size : Nat) : MapOp K V Q → Nat
  | .insert _ _ | .insertMut _ _ => 12 * Nat.log2 (size + 1) + 3
  | .remove _ | .removeMut _ => 28 * Nat.log2 (size + 1) + 8
  | .getMut _ _ => 4 * Nat.log2 (size + 1) + 2
  | _ => 0

/-- What an operation allocates, by the size of the map. -/
def rbAllocsAll (size : Nat) : RBOp K V Q → Nat
  | .base op => rbAllocs size op
  | _ => 0

theorem allocs_rbHStep (m : HRBMap) (op : MapOp K V Q) : Allocs (fun _ _ => True) (rbHStep Ar o m op) (rbAllocs m.size op) := by
  cases op
  case insert k v =>
    refine Allocs.bind (HRBMap.allocs_insert (Nat.le_refl _)) ?_
    intros; trivial
  case insertMut k v =>
    refine Allocs.bind (HRBMap.allocs_insertMut (Nat.le_refl _)) ?_
    intros; trivial
  case remove q =>
    refine Allocs.bind (HRBMap.allocs_remove (Nat.le_refl _)) ?_
    intros; trivial
  case removeMut q =>
    refine Allocs.bind (HRBMap.allocs_removeMut (Nat.le_refl _)) ?_
    intros; trivial
  case getMut q f =>
    refine Allocs.bind (HRBMap.allocs_getMut (Nat.le_refl _)) ?_
    intros; trivial
  case clone =>
    refine Allocs.bind HRBMap.allocs_clone ?_
    intros; trivial
  case get q =>
    refine Allocs.bind HRBMap.allocs_get ?_
    intros; trivial
  case getKeyValue q =>
    refine Allocs.bind HRBMap.allocs_getKeyValue ?_
    intros; trivial
  case containsKey q =>
    refine Allocs.bind HRBMap.allocs_get ?_
    intros; trivial
  case index q =>
    refine Allocs.bind HRBMap.allocs_get ?_
    intros; split <;> trivial
  case size => trivial
  case isEmpty => trivial

theorem allocs_rbHStepAll (m : HRBMap) (op : RBOp K V Q) :
    Allocs (fun _ _ => True) (rbHStepAll Ar o m op) (rbAllocsAll m.size op) := by
  cases op
  case base op =>
    refine Allocs.bind (allocs_rbHStep m op) ?_
    intros; trivial
  case first =>
    refine Allocs.bind HRBMap.allocs_first ?_
    intros; trivial
  case last =>
    refine Allocs.bind HRBMap.allocs_last ?_
    intros; trivial
  case iter cs =>
    refine Allocs.bind HRBMap.allocs_view ?_
    rintro v _ -
    refine Allocs.bind allocs_lift ?_
    intros; trivial
  case range s e cs =>
    refine Allocs.bind HRBMap.allocs_view ?_
    rintro v _ -
    split
    · refine Allocs.bind allocs_lift ?_
      intros; trivial
    · trivial

end
end Heap
end Rpds
