import Verif.Heap.InPlace
import Verif.Heap.RedBlackSpec
import Verif.Heap.CostVector
import Verif.Heap.HashTrieSpec
/-
The `_mut` operations of the trees work in place: `Solo` for the programs of `Vector`, `RedBlackTreeMap` and `HashTrieMap`.
-/
set_option autoImplicit false
namespace Rpds
namespace Heap

/-- `prog` neither copies nor allocates. -/
abbrev Solo0 {L α : Type} (E : L → Bool) (prog : Prog L α) : Prop := Solo E (fun _ => True) 0 prog

theorem Solo.weak {L α : Type} {E : L → Bool} {P : α → Prop} {c : Nat} {prog : Prog L α} (h : Solo E P c prog) :
    Solo E (fun _ => True) c prog := h.imp fun _ _ => trivial

theorem Solo0.modifyPtr {L α : Type} {E : L → Bool} {c : Nat} {p : Addr} {f : Content L → Prog L (α × Content L)}
    (h : ∀ x, E x.1 = false → Solo E (fun _ => True) c (f x)) : Solo E (fun _ => True) c (modifyPtr p f) :=
  solo_modifyPtr (R := fun _ => True) h

syntax "solo_lem" : tactic
macro_rules | `(tactic| solo_lem) => `(tactic| fail)
macro "solo_step" : tactic => `(tactic| first
  | exact solo_ret trivial
  | exact solo_panic
  | exact solo_lift.weak
  | exact solo_read.weak
  | exact solo_close
  | exact solo_drop
  | exact solo_dropOpt
  | solo_lem
  | with_reducible refine Solo.bind0 (P := fun _ => True) ?_ fun _ _ => ?_
  | dsimp only
  | split)
macro "solo_go" : tactic => `(tactic| repeat' solo_step)

/-! ### Red-black trees -/

section rb
variable {K V Q : Type} {Ar : Arch} {E : RLabel K V → Bool} {o : OrdKeys K Q}

theorem solo_newNode {m : HRBNode} : Solo E (fun _ => True) 1 (newNode m) := solo_new
theorem solo_closeNode {q : Addr} {m : HRBNode} : Solo0 E (closeNode q m) := solo_close
theorem solo_openNode {p : Addr} : Solo0 E (openNode p) := by
  unfold openNode
  refine solo_makeMut.bind0 fun _ _ => ?_
  solo_go
theorem solo_readNode {p : Addr} : Solo0 E (readNode p) := by
  unfold readNode
  solo_go
theorem solo_readEntry {p : Addr} : Solo0 E (readEntry p) := by
  unfold readEntry
  solo_go
macro_rules | `(tactic| solo_lem) => `(tactic| exact solo_closeNode)
macro_rules | `(tactic| solo_lem) => `(tactic| exact solo_openNode)
macro_rules | `(tactic| solo_lem) => `(tactic| exact solo_readNode)
macro_rules | `(tactic| solo_lem) => `(tactic| exact solo_readEntry)

theorem solo_colorOf {p : Option Addr} : Solo0 E (colorOf p) := by
  unfold colorOf
  solo_go
macro_rules | `(tactic| solo_lem) => `(tactic| exact solo_colorOf)
theorem solo_leftColorOf {p : Option Addr} : Solo0 E (leftColorOf p) := by
  unfold leftColorOf
  solo_go
theorem solo_rightColorOf {p : Option Addr} : Solo0 E (rightColorOf p) := by
  unfold rightColorOf
  solo_go
theorem solo_hbalance1 {m : HRBNode} : Solo0 E (hbalance1 m) := by
  unfold hbalance1
  solo_go
theorem solo_hbalance2 {m : HRBNode} : Solo0 E (hbalance2 m) := by
  unfold hbalance2
  solo_go
theorem solo_hbalance3 {m : HRBNode} : Solo0 E (hbalance3 m) := by
  unfold hbalance3
  solo_go
theorem solo_hbalance4 {m : HRBNode} : Solo0 E (hbalance4 m) := by
  unfold hbalance4
  solo_go
theorem solo_hbalanceIn {m : HRBNode} {k : Nat} : Solo0 E (hbalanceIn m k) := by
  unfold hbalanceIn
  split
  · exact solo_hbalance1
  · exact solo_hbalance2
  · exact solo_hbalance3
  · exact solo_hbalance4
  · exact solo_ret trivial
macro_rules | `(tactic| solo_lem) => `(tactic| exact solo_leftColorOf)
macro_rules | `(tactic| solo_lem) => `(tactic| exact solo_rightColorOf)
macro_rules | `(tactic| solo_lem) => `(tactic| exact solo_hbalanceIn)
theorem solo_hbalance {m : HRBNode} : Solo0 E (hbalance m) := by
  unfold hbalance
  solo_go
macro_rules | `(tactic| solo_lem) => `(tactic| exact solo_hbalance)
theorem solo_hinsDone {b b' : Bool} {m : HRBNode} : Solo0 E (hinsDone b b' m) := by
  unfold hinsDone
  solo_go
macro_rules | `(tactic| solo_lem) => `(tactic| exact solo_hinsDone)

theorem solo_hinsStep {k : K} {v : V} {sub : Option Addr → Bool → Prog (RLabel K V) (Bool × Option Addr)}
    (hsub : ∀ p b, Solo E (fun _ => True) 2 (sub p b)) {p : Option Addr} {b : Bool} :
    Solo E (fun _ => True) 2 (hinsStep o k v sub p b) := by
  unfold hinsStep
  split
  · exact (solo_new.bind fun _ _ => solo_newNode.bind (d := 0) fun _ _ => solo_ret trivial).le (by omega)
  · refine solo_openNode.bind0 fun _ _ => solo_readEntry.bind0 fun _ _ => ?_
    refine Solo.bind (c := 2) (d := 0) (P := fun _ => True) ?_ fun _ _ => solo_closeNode.bind0 fun _ _ => solo_ret trivial
    split
    · exact (hsub _ _).bind (d := 0) fun _ _ => solo_hinsDone
    · exact (solo_new.bind (d := 0) fun _ _ => solo_drop.bind0 fun _ _ => solo_hinsDone).le (by omega)
    · exact (hsub _ _).bind (d := 0) fun _ _ => solo_hinsDone

theorem solo_hins {k : K} {v : V} (fuel : Nat) {p : Option Addr} {b : Bool} : Solo E (fun _ => True) 2 (hins o k v fuel p b) := by
  induction fuel generalizing p b with
  | zero => exact solo_hinsStep fun _ _ => solo_panic
  | succ fuel ih => exact solo_hinsStep fun _ _ => ih

theorem solo_hsetColor {d : Color} {p : Option Addr} : Solo0 E (hsetColor d p) := by
  unfold hsetColor
  solo_go
macro_rules | `(tactic| solo_lem) => `(tactic| exact solo_hsetColor)
theorem solo_hremoveBalance {m : HRBNode} : Solo0 E (hremoveBalance Ar m) := by
  unfold hremoveBalance
  solo_go
macro_rules | `(tactic| solo_lem) => `(tactic| exact solo_hremoveBalance)
theorem solo_hremoveBalanceLeft3 {m : HRBNode} : Solo0 E (hremoveBalanceLeft3 Ar m) := by
  unfold hremoveBalanceLeft3
  solo_go
theorem solo_hremoveBalanceRight3 {m : HRBNode} : Solo0 E (hremoveBalanceRight3 Ar m) := by
  unfold hremoveBalanceRight3
  solo_go
macro_rules | `(tactic| solo_lem) => `(tactic| exact solo_hremoveBalanceLeft3)
macro_rules | `(tactic| solo_lem) => `(tactic| exact solo_hremoveBalanceRight3)
theorem solo_hremoveBalanceLeft {m : HRBNode} : Solo0 E (hremoveBalanceLeft Ar m) := by
  unfold hremoveBalanceLeft hremoveBalanceLeftIn
  solo_go
theorem solo_hremoveBalanceRight {m : HRBNode} : Solo0 E (hremoveBalanceRight Ar m) := by
  unfold hremoveBalanceRight hremoveBalanceRightIn
  solo_go
theorem solo_hreplace {m : HRBNode} {p : Addr} : Solo0 E (hreplace m p) := by
  unfold hreplace
  solo_go
macro_rules | `(tactic| solo_lem) => `(tactic| exact solo_hremoveBalanceLeft)
macro_rules | `(tactic| solo_lem) => `(tactic| exact solo_hremoveBalanceRight)
macro_rules | `(tactic| solo_lem) => `(tactic| exact solo_hreplace)

set_option hygiene false in
macro_rules | `(tactic| solo_lem) => `(tactic| with_reducible apply hsub)

theorem solo_hfuseBR {sub : HRBNode → Option Addr → Option Addr → Prog (RLabel K V) (Bool × HRBNode)} (hsub : ∀ m l r, Solo0 E (sub m l r))
    {m : HRBNode} {l r : Addr} : Solo0 E (hfuseBR sub m l r) := by
  unfold hfuseBR
  solo_go
theorem solo_hfuseRB {sub : HRBNode → Option Addr → Option Addr → Prog (RLabel K V) (Bool × HRBNode)} (hsub : ∀ m l r, Solo0 E (sub m l r))
    {m : HRBNode} {l r : Addr} : Solo0 E (hfuseRB sub m l r) := by
  unfold hfuseRB
  solo_go
theorem solo_hfuseSame {c : Color} {sub : HRBNode → Option Addr → Option Addr → Prog (RLabel K V) (Bool × HRBNode)}
    (hsub : ∀ m l r, Solo0 E (sub m l r)) {m : HRBNode} {l r : Addr} : Solo0 E (hfuseSame Ar c sub m l r) := by
  unfold hfuseSame hfuseRed hfuseSwap dropUnless
  solo_go

theorem solo_hremoveFuseStep {sub : HRBNode → Option Addr → Option Addr → Prog (RLabel K V) (Bool × HRBNode)}
    (hsub : ∀ m l r, Solo0 E (sub m l r)) {m : HRBNode} {l r : Option Addr} : Solo0 E (hremoveFuseStep Ar sub m l r) := by
  unfold hremoveFuseStep
  split
  · solo_go
  · solo_go
  · solo_go
  · refine solo_readNode.bind0 fun _ _ => solo_readNode.bind0 fun _ _ => ?_
    split
    · exact solo_hfuseBR hsub
    · exact solo_hfuseRB hsub
    · exact solo_hfuseSame hsub
    · exact solo_hfuseSame hsub

theorem solo_hremoveFuse (fuel : Nat) {m : HRBNode} {l r : Option Addr} : Solo0 E (hremoveFuse Ar fuel m l r) := by
  induction fuel generalizing m l r with
  | zero => exact solo_hremoveFuseStep fun _ _ _ => solo_panic
  | succ fuel ih => exact solo_hremoveFuseStep fun _ _ _ => ih
macro_rules | `(tactic| solo_lem) => `(tactic| exact solo_hremoveFuse _)

theorem solo_hdelLeft {sub : Option Addr → Prog (RLabel K V) (Bool × Option Addr)} (hsub : ∀ p, Solo0 E (sub p)) {m : HRBNode} :
    Solo0 E (hdelLeft Ar sub m) := by
  unfold hdelLeft
  solo_go
theorem solo_hdelRight {sub : Option Addr → Prog (RLabel K V) (Bool × Option Addr)} (hsub : ∀ p, Solo0 E (sub p)) {m : HRBNode} :
    Solo0 E (hdelRight Ar sub m) := by
  unfold hdelRight
  solo_go
theorem solo_hdelDone {b b' : Bool} {q : Addr} {m : HRBNode} : Solo0 E (hdelDone b b' q m) := by
  unfold hdelDone
  solo_go
macro_rules | `(tactic| solo_lem) => `(tactic| exact solo_hdelDone)

theorem solo_hdelStep {key : Q} {fuel : Nat} {sub : Option Addr → Bool → Prog (RLabel K V) (Bool × Option Addr)}
    (hsub : ∀ p b, Solo0 E (sub p b)) {p : Option Addr} {b : Bool} : Solo0 E (hdelStep Ar o key fuel sub p b) := by
  unfold hdelStep
  split
  · exact solo_ret trivial
  · refine solo_openNode.bind0 fun _ _ => solo_readEntry.bind0 fun _ _ => ?_
    split
    · refine (solo_hdelLeft fun _ => hsub _ _).bind0 fun _ _ => ?_
      solo_go
    · solo_go
    · refine (solo_hdelRight fun _ => hsub _ _).bind0 fun _ _ => ?_
      solo_go

theorem solo_hdel {key : Q} (fuel : Nat) {p : Option Addr} {b : Bool} : Solo0 E (hdel Ar o key fuel p b) := by
  induction fuel generalizing p b with
  | zero => exact solo_hdelStep fun _ _ => solo_panic
  | succ fuel ih => exact solo_hdelStep fun _ _ => ih

theorem solo_hget {key : Q} (fuel : Nat) {p : Option Addr} : Solo0 E (hget (V := V) o key fuel p) := by
  induction fuel generalizing p with
  | zero => unfold hget hgetStep; solo_go
  | succ fuel ih =>
    have hsub : ∀ p, Solo0 E (hget (V := V) o key fuel p) := fun _ => ih
    unfold hget hgetStep; solo_go

theorem solo_hfirst (fuel : Nat) {p : Option Addr} : Solo0 E (hfirst (K := K) (V := V) fuel p) := by
  induction fuel generalizing p with
  | zero => unfold hfirst hfirstStep; solo_go
  | succ fuel ih =>
    have hsub : ∀ p, Solo0 E (hfirst (K := K) (V := V) fuel p) := fun _ => ih
    unfold hfirst hfirstStep; solo_go

theorem solo_hlast (fuel : Nat) {p : Option Addr} : Solo0 E (hlast (K := K) (V := V) fuel p) := by
  induction fuel generalizing p with
  | zero => unfold hlast hlastStep; solo_go
  | succ fuel ih =>
    have hsub : ∀ p, Solo0 E (hlast (K := K) (V := V) fuel p) := fun _ => ih
    unfold hlast hlastStep; solo_go

theorem solo_hview (fuel : Nat) {p : Option Addr} : Solo0 E (hview (K := K) (V := V) fuel p) := by
  induction fuel generalizing p with
  | zero => unfold hview hviewStep; solo_go
  | succ fuel ih =>
    have hsub : ∀ p, Solo0 E (hview (K := K) (V := V) fuel p) := fun _ => ih
    unfold hview hviewStep; solo_go

theorem solo_modifyEntry {f : V → V} {x : Content (RLabel K V)} : Solo0 E (modifyEntry f x) := by
  unfold modifyEntry
  solo_go

theorem solo_hgetMutStep {key : Q} {f : V → V} {sub : Option Addr → Prog (RLabel K V) (Option V × Option Addr)}
    (hsub : ∀ p, Solo0 E (sub p)) {p : Option Addr} : Solo0 E (hgetMutStep o key f sub p) := by
  unfold hgetMutStep
  split
  · solo_go
  · refine solo_openNode.bind0 fun _ _ => solo_readEntry.bind0 fun _ _ => ?_
    refine Solo.bind0 (P := fun _ => True) ?_ fun _ _ => solo_closeNode.bind0 fun _ _ => solo_ret trivial
    split
    · solo_go
    · exact (Solo0.modifyPtr fun _ _ => solo_modifyEntry).bind0 fun _ _ => solo_ret trivial
    · solo_go

theorem solo_hgetMut {key : Q} {f : V → V} (fuel : Nat) {p : Option Addr} : Solo0 E (hgetMut (K := K) o key f fuel p) := by
  induction fuel generalizing p with
  | zero => exact solo_hgetMutStep fun _ => solo_panic
  | succ fuel ih => exact solo_hgetMutStep fun _ => ih

macro_rules | `(tactic| solo_lem) => `(tactic| exact solo_hdel _)
macro_rules | `(tactic| solo_lem) => `(tactic| exact solo_hget _)
macro_rules | `(tactic| solo_lem) => `(tactic| exact solo_hfirst _)
macro_rules | `(tactic| solo_lem) => `(tactic| exact solo_hlast _)
macro_rules | `(tactic| solo_lem) => `(tactic| exact solo_hview _)
macro_rules | `(tactic| solo_lem) => `(tactic| exact solo_hgetMut _)

/-- The operations on maps that do not make a new map. -/
def mapInPlace {K V Q : Type} : MapOp K V Q → Bool
  | .insert _ _ | .remove _ | .clone => false
  | _ => true

/-- The operations of `RedBlackTreeMap` that do not make a new map. -/
def rbInPlace : RBOp K V Q → Bool
  | .base op => mapInPlace op
  | _ => true

/-- How many cells an operation on a red-black tree allocates: an entry and a node. -/
def rbCells : RBOp K V Q → Nat
  | .base (.insertMut _ _) => 2
  | _ => 0

theorem solo_rbHStepAll {m : HRBMap} {op : RBOp K V Q} (ok : rbInPlace op = true) :
    Solo E (fun _ => True) (rbCells op) (rbHStepAll Ar o m op) := by
  cases op with
  | base op =>
    cases op with
    | insert k v => cases ok
    | remove q => cases ok
    | clone => cases ok
    | insertMut k v =>
      unfold rbHStepAll rbHStep HRBMap.insertMut
      exact Solo.bind (P := fun _ => True) (c := 2) (d := 0)
        (Solo.bind (P := fun _ => True) (c := 2) (d := 0)
          ((solo_hins _).bind (d := 0) fun _ _ => solo_ret trivial) fun _ _ => solo_ret trivial) fun _ _ => solo_ret trivial
    | removeMut q => unfold rbHStepAll rbHStep HRBMap.removeMut; solo_go
    | getMut q f => unfold rbHStepAll rbHStep HRBMap.getMut; solo_go
    | get q => unfold rbHStepAll rbHStep HRBMap.get; solo_go
    | getKeyValue q => unfold rbHStepAll rbHStep HRBMap.getKeyValue; solo_go
    | containsKey q => unfold rbHStepAll rbHStep HRBMap.get; solo_go
    | index q => unfold rbHStepAll rbHStep HRBMap.get; solo_go
    | size => unfold rbHStepAll rbHStep; solo_go
    | isEmpty => unfold rbHStepAll rbHStep; solo_go
  | first => unfold rbHStepAll HRBMap.first; solo_go
  | last => unfold rbHStepAll HRBMap.last; solo_go
  | iter cs => unfold rbHStepAll HRBMap.view; solo_go
  | range s e cs => unfold rbHStepAll HRBMap.view; solo_go

end rb

/-! ### Vectors -/

section vec
variable {T : Type} {Ar : Arch} {E : VLabel T → Bool} {bits index : Nat}

theorem solo_readVal {p : Addr} : Solo0 E (HNode.readVal p) := by
  unfold HNode.readVal
  solo_go
macro_rules | `(tactic| solo_lem) => `(tactic| exact solo_readVal)

theorem solo_vecGet (h : Nat) {p : Addr} : Solo0 E (HNode.get Ar bits index h p) := by
  induction h generalizing p with
  | zero => unfold HNode.get HNode.getStep; solo_go
  | succ h ih =>
    have hsub : ∀ p, Solo0 E (HNode.get Ar bits index h p) := fun _ => ih
    unfold HNode.get HNode.getStep; solo_go

theorem solo_vecAssocStep {v : T} {h a : Nat} {sub : Content (VLabel T) → Prog (VLabel T) (Unit × Content (VLabel T))}
    (hs : ∀ y, Solo E (fun _ => True) a (sub y)) {y : Content (VLabel T)} :
    Solo E (fun _ => True) (a + 1) (HNode.assocStep Ar bits v index h sub y) := by
  unfold HNode.assocStep
  refine solo_lift.bind0 fun _ _ => ?_
  split
  · refine solo_lift.bind0 fun _ _ => ?_
    rw [Nat.add_comm]
    refine solo_new.bind fun _ _ => Solo.le (c := 0) ?_ (by omega)
    solo_go
  · refine solo_lift.bind0 fun _ _ => ?_
    split
    · exact ((Solo0.modifyPtr fun _ _ => hs _).bind (d := 0) fun _ _ => solo_ret trivial).le (by omega)
    · exact ((hs _).bind fun _ _ => solo_new.bind (d := 0) fun _ _ => solo_ret trivial).le (by omega)
  · exact solo_panic

theorem solo_vecAssoc {v : T} (h : Nat) {y : Content (VLabel T)} : Solo E (fun _ => True) (h + 1) (HNode.assoc Ar bits v index h y) := by
  induction h generalizing y with
  | zero => exact solo_vecAssocStep (a := 0) fun _ => solo_panic
  | succ h ih => exact solo_vecAssocStep (a := h + 1) fun _ => ih

theorem solo_vecDropLast (h : Nat) {y : Content (VLabel T)} : Solo0 E (HNode.dropLast h y) := by
  induction h generalizing y with
  | zero =>
    unfold HNode.dropLast HNode.dropLastStep
    split
    · solo_go
    · split
      · solo_go
      · refine (Solo0.modifyPtr (c := 0) fun _ _ => solo_panic).bind0 fun _ _ => ?_
        solo_go
      · solo_go
  | succ h ih =>
    unfold HNode.dropLast HNode.dropLastStep
    split
    · solo_go
    · split
      · solo_go
      · refine (Solo0.modifyPtr fun _ _ => ih).bind0 fun _ _ => ?_
        solo_go
      · solo_go

theorem solo_vecModifyVal {f : T → T} {y : Content (VLabel T)} : Solo0 E (HNode.modifyVal f y) := by
  unfold HNode.modifyVal
  solo_go

theorem solo_vecModifyStep {f : T → T} {h : Nat} {sub : Content (VLabel T) → Prog (VLabel T) (Unit × Content (VLabel T))}
    (hs : ∀ y, Solo0 E (sub y)) {y : Content (VLabel T)} : Solo0 E (HNode.modifyStep Ar bits f index h sub y) := by
  unfold HNode.modifyStep
  refine solo_lift.bind0 fun _ _ => ?_
  split
  · refine solo_lift.bind0 fun _ _ => ?_
    exact (Solo0.modifyPtr fun _ _ => hs _).bind0 fun _ _ => solo_ret trivial
  · refine solo_lift.bind0 fun _ _ => solo_lift.bind0 fun _ _ => ?_
    exact (Solo0.modifyPtr fun _ _ => solo_vecModifyVal).bind0 fun _ _ => solo_ret trivial
  · exact solo_panic

theorem solo_vecModify {f : T → T} (h : Nat) {y : Content (VLabel T)} : Solo0 E (HNode.modify Ar bits f index h y) := by
  induction h generalizing y with
  | zero => exact solo_vecModifyStep fun _ => solo_panic
  | succ h ih => exact solo_vecModifyStep fun _ => ih

theorem solo_vecView (h : Nat) {p : Addr} : Solo0 E (HNode.view (T := T) h p) := by
  induction h generalizing p with
  | zero =>
    unfold HNode.view HNode.viewStep
    refine solo_read.bind0 fun _ _ => ?_
    split
    · exact (solo_forAll (fun _ => solo_readVal) _).bind0 fun _ _ => solo_ret trivial
    · exact (solo_forAll (fun _ => solo_panic) _).bind0 fun _ _ => solo_ret trivial
    · exact solo_panic
  | succ h ih =>
    unfold HNode.view HNode.viewStep
    refine solo_read.bind0 fun _ _ => ?_
    split
    · exact (solo_forAll (fun _ => solo_readVal) _).bind0 fun _ _ => solo_ret trivial
    · exact (solo_forAll (fun _ => ih) _).bind0 fun _ _ => solo_ret trivial
    · exact solo_panic
macro_rules | `(tactic| solo_lem) => `(tactic| exact solo_vecGet _)
macro_rules | `(tactic| solo_lem) => `(tactic| exact solo_vecView _)

open HVector (levels height_le levels_mono)
variable {v : HVector}

theorem solo_hvecGet : Solo0 E (v.get Ar index) := by
  unfold HVector.get
  solo_go
macro_rules | `(tactic| solo_lem) => `(tactic| exact solo_hvecGet)
theorem solo_hvecLast : Solo0 E (v.last Ar) := by
  unfold HVector.last
  solo_go
theorem solo_hvecIter {cs : List Spec.End} : Solo0 E (v.iter Ar cs) := by
  unfold HVector.iter
  solo_go
macro_rules | `(tactic| solo_lem) => `(tactic| exact solo_hvecLast)
macro_rules | `(tactic| solo_lem) => `(tactic| exact solo_hvecIter)

theorem solo_hvecAssoc {x : T} (hW : 1 < Ar.W) {n : Nat} (hn : v.length ≤ n + 1) :
    Solo E (fun w => w.bits = v.bits ∧ w.length ≤ v.length + (if index < v.length then 0 else 1)) (levels v.bits n + 1)
      (v.assoc Ar index x) := by
  unfold HVector.assoc
  refine solo_lift.bind0 fun _ _ => solo_lift.bind0 fun h hh => ?_
  have hl : h ≤ levels v.bits n := Nat.le_trans (height_le (v := v.shape) hW hh) (levels_mono (by
    show v.length - 1 ≤ n; omega))
  refine Solo.bind (P := fun _ => True) (d := 0) ((Solo0.modifyPtr fun _ _ => solo_vecAssoc h).le (by omega)) fun _ _ => ?_
  by_cases hi : index ≥ v.length
  · rw [if_pos hi, if_neg (show ¬ index < v.length by omega)]
    exact solo_lift.bind0 fun l hl => solo_ret ⟨rfl, HVector.uadd_le hl⟩
  · rw [if_neg hi]
    exact solo_ret ⟨rfl, Nat.le_add_right _ _⟩

theorem solo_hvecPushBackMut {x : T} (hW : 1 < Ar.W) :
    Solo E (fun w => w.bits = v.bits ∧ w.length ≤ v.length + 1) (levels v.bits v.length + 2) (v.pushBackMut Ar x) := by
  unfold HVector.pushBackMut
  refine solo_lift.bind0 fun full _ => ?_
  split
  · refine solo_cloneNewDrop fun q => solo_lift.bind0 fun l hl => ?_
    have hl' : l ≤ v.length + 1 := HVector.uadd_le hl
    refine (solo_hvecAssoc (v := { v with root := q, length := l }) hW (n := v.length) hl').imp fun w hw => ⟨hw.1, ?_⟩
    have := hw.2
    dsimp only at this
    split at this <;> omega
  · refine ((solo_hvecAssoc hW (n := v.length) (by omega)).imp fun w hw => ⟨hw.1, ?_⟩).le (by omega)
    have := hw.2
    split at this <;> omega

theorem solo_hvecSetMut {x : T} (hW : 1 < Ar.W) :
    Solo E (fun _ => True) (levels v.bits v.length + 1) (v.setMut Ar index x) := by
  unfold HVector.setMut
  split
  · exact solo_ret trivial
  · exact (solo_hvecAssoc hW (n := v.length) (by omega)).bind (d := 0) fun _ _ => solo_ret trivial

theorem solo_hvecDropLastMut : Solo0 E (v.dropLastMut Ar : Prog (VLabel T) _) := by
  unfold HVector.dropLastMut
  split
  · refine solo_lift.bind0 fun h _ => ?_
    refine Solo.bind0 (P := fun _ => True) (Solo0.modifyPtr (c := 0) fun _ _ => ?_) fun _ _ => ?_
    · unfold HVector.dropCompress
      refine (solo_vecDropLast _).bind0 fun _ _ => ?_
      solo_go
    · solo_go
  · exact solo_ret trivial

theorem solo_hvecModify {f : T → T} : Solo0 E (v.modify Ar index f) := by
  unfold HVector.modify
  split
  · exact solo_ret trivial
  · refine solo_lift.bind0 fun h _ => ?_
    exact (Solo0.modifyPtr fun _ _ => solo_vecModify _).bind0 fun _ _ => solo_ret trivial

theorem solo_hvecExtend (hW : 1 < Ar.W) {ys : List T} {a : Nat} (ha : levels v.bits (v.length + ys.length) + 2 ≤ a) :
    Solo E (fun _ => True) (ys.length * a) (v.extend Ar ys) := by
  induction ys generalizing v with
  | nil => exact solo_ret trivial
  | cons y ys ih =>
    have hm : levels v.bits v.length ≤ levels v.bits (v.length + (ys.length + 1)) := levels_mono (by omega)
    simp only [List.length_cons] at ha
    unfold HVector.extend
    rw [List.length_cons, Nat.succ_mul, Nat.add_comm]
    refine ((solo_hvecPushBackMut hW).le (by omega)).bind fun w hw => ih ?_
    have : levels w.bits (w.length + ys.length) ≤ levels v.bits (v.length + (ys.length + 1)) := by
      rw [hw.1]; exact levels_mono (by have := hw.2; omega)
    omega

/-- The operations of `Vector` that do not make a new vector. -/
def vecInPlace : RVector.Op T → Bool
  | .pushBack _ | .set _ _ | .dropLast | .clone => false
  | _ => true

/-- How many cells an operation on a vector allocates at most. -/
def vecCells (v : HVector) : RVector.Op T → Nat
  | .pushBackMut _ => levels v.bits v.length + 2
  | .setMut _ _ => levels v.bits v.length + 1
  | .extend xs => xs.length * (levels v.bits (v.length + xs.length) + 2)
  | _ => 0

theorem solo_vecHStep (hW : 1 < Ar.W) {op : RVector.Op T} (ok : vecInPlace op = true) :
    Solo E (fun _ => True) (vecCells v op) (vecHStep Ar v op) := by
  cases op with
  | pushBack x => cases ok
  | set i x => cases ok
  | dropLast => cases ok
  | clone => cases ok
  | pushBackMut x => exact (solo_hvecPushBackMut hW).bind (d := 0) fun _ _ => solo_ret trivial
  | setMut i x => exact (solo_hvecSetMut hW).bind (d := 0) fun _ _ => solo_ret trivial
  | dropLastMut => exact solo_hvecDropLastMut.bind0 fun _ _ => solo_ret trivial
  | getMut i f =>
    refine solo_hvecModify.bind0 fun _ _ => ?_
    solo_go
  | indexMut i x =>
    refine solo_hvecModify.bind0 fun _ _ => ?_
    solo_go
  | extend xs => exact (solo_hvecExtend hW (Nat.le_refl _)).bind (d := 0) fun _ _ => solo_ret trivial
  | get i => unfold vecHStep; solo_go
  | index i => unfold vecHStep; solo_go
  | first => unfold vecHStep; solo_go
  | last => unfold vecHStep; solo_go
  | len => unfold vecHStep; solo_go
  | isEmpty => unfold vecHStep; solo_go
  | iter cs => unfold vecHStep; solo_go

end vec

/-! ### Hash tries -/

namespace HT
section ht
variable {H K V Q : Type} {Ar : Arch} {o : HashKeys H K Q}

/-- The cells that only exist when entries collide: a leaf with a list, and what is in the list. -/
def colliding : HLabel K V → Bool
  | .ewh _ | .lnode | .collision _ _ _ => true
  | _ => false

/-- The node is not a leaf with a list. -/
def plain : HHNode → Prop
  | .collision _ => False
  | _ => True

theorem plain_ofContent {c : Content (HLabel K V)} {n : HHNode} (h : HHNode.ofContent c = some n) (hc : colliding c.1 = false) : plain n := by
  unfold HHNode.ofContent at h
  split at h <;> first | (cases h; trivial) | (cases h; done) | (cases h; cases hc)

theorem solo_htReadNode {p : Addr} : Solo colliding plain 0 (readNode (K := K) (V := V) p) := by
  unfold readNode
  refine solo_read.bind0 fun c hc => ?_
  split
  · next n hn => exact solo_ret (plain_ofContent hn hc)
  · exact solo_panic

theorem solo_htReadEntry {p : Addr} : Solo0 colliding (readEntry (K := K) (V := V) p) := by
  unfold readEntry
  solo_go
macro_rules | `(tactic| solo_lem) => `(tactic| exact solo_htReadEntry)

theorem solo_modNode {α : Type} {P : α → Prop} {c : Nat} {p : Addr} {f : HHNode → Prog (HLabel K V) (α × HHNode)}
    (h : ∀ n, plain n → Solo colliding (fun x => P x.1) c (f n)) : Solo colliding (fun x => P x.1) c (modNode p f) := by
  unfold modNode
  refine solo_modifyPtr (R := P) fun x hx => ?_
  split
  · next n hn => exact (h n (plain_ofContent hn hx)).bind (d := 0) fun y hy => solo_ret hy
  · exact solo_panic

theorem solo_modEntry {f : V → V} {p : Addr} : Solo0 colliding (modEntry (K := K) f p) := by
  unfold modEntry
  refine Solo0.modifyPtr (c := 0) fun x hx => ?_
  solo_go
macro_rules | `(tactic| solo_lem) => `(tactic| exact solo_modEntry)

theorem solo_hmatches {key : Q} {h : UInt64} {e : HEnt} : Solo0 colliding (hmatches (V := V) o key h e) := by
  unfold hmatches
  solo_go
macro_rules | `(tactic| solo_lem) => `(tactic| exact solo_hmatches)

theorem solo_bucketGet {key : Q} {h : UInt64} {n : HHNode} (hn : plain n) : Solo0 colliding (bucketGet (V := V) o key h n) := by
  cases n with
  | collision l => cases hn
  | branch bm ps => exact solo_panic
  | single e =>
    unfold bucketGet
    solo_go

theorem solo_bucketGetMut {key : Q} {h : UInt64} {f : V → V} {n : HHNode} (hn : plain n) :
    Solo0 colliding (bucketGetMut o key h f n) := by
  cases n with
  | collision l => cases hn
  | branch bm ps => exact solo_panic
  | single e =>
    unfold bucketGetMut
    solo_go

theorem solo_bucketInsert {entry : HEnt} {n : HHNode} (hn : plain n) :
    Solo colliding (fun x => plain x.2) 0 (bucketInsert (V := V) o entry n) := by
  cases n with
  | collision l => cases hn
  | branch bm ps => exact solo_panic
  | single e =>
    unfold bucketInsert
    refine solo_htReadEntry.bind0 fun _ _ => solo_hmatches.bind0 fun _ _ => ?_
    split
    · exact solo_drop.bind0 fun _ _ => solo_ret trivial
    · exact fun m => .inr ⟨rfl, by simp [Act.cells], by simp [Act.tests], fun _ _ _ => .inl rfl⟩

theorem solo_bucketRemove {key : Q} {h : UInt64} {n : HHNode} (hn : plain n) :
    Solo colliding (fun x => plain x.2) 0 (bucketRemove (V := V) o key h n) := by
  cases n with
  | collision l => cases hn
  | branch bm ps => exact solo_panic
  | single e =>
    unfold bucketRemove
    refine solo_hmatches.bind0 fun _ _ => ?_
    split
    · exact solo_drop.bind0 fun _ _ => solo_ret trivial
    · exact solo_ret trivial

theorem solo_htGet {key : Q} {h : UInt64} {degree : Nat} (fuel : Nat) {p : Addr} {d : Nat} :
    Solo0 colliding (hget (V := V) o Ar key h degree fuel p d) := by
  induction fuel generalizing p d with
  | zero => exact solo_panic
  | succ fuel ih =>
    unfold hget hgetStep
    refine solo_htReadNode.bind0 fun n hn => ?_
    split
    · refine solo_lift.bind0 fun _ _ => ?_
      split
      · exact solo_ret trivial
      · exact solo_lift.bind0 fun _ _ => ih
    · exact solo_bucketGet hn

theorem solo_htGetMut {key : Q} {h : UInt64} {degree : Nat} {f : V → V} (fuel : Nat) {n : HHNode} (hn : plain n) {d : Nat} :
    Solo0 colliding (hgetMut (V := V) o Ar key h degree f fuel n d) := by
  induction fuel generalizing n d with
  | zero => exact solo_panic
  | succ fuel ih =>
    unfold hgetMut hgetMutStep
    split
    · refine solo_lift.bind0 fun _ _ => ?_
      split
      · exact solo_ret trivial
      · refine solo_lift.bind0 fun _ _ => ?_
        refine (solo_modNode (P := fun _ => True) fun n hn => ih hn).bind0 fun _ _ => ?_
        solo_go
    · exact solo_bucketGetMut hn

/-- Inserting into an empty branch. -/
theorem solo_htInsertEmpty {degree fuel : Nat} {e : HEnt} {d : Nat} :
    Solo colliding (fun x => ∃ bm ps, x.2 = .branch bm ps) 1 (hinsert (V := V) o Ar degree fuel e (.branch 0 []) d) := by
  cases fuel with
  | zero => exact solo_panic
  | succ fuel =>
    unfold hinsert hinsertStep
    refine solo_lift.bind0 fun x hx => ?_
    have : x.2 = none := by
      simp only [nodeSlot, SparseArray.slot, SparseArray.mapIndex] at hx
      obtain ⟨_, _, hx⟩ := res_bind_ok hx
      obtain ⟨_, _, hx⟩ := res_bind_ok hx
      obtain ⟨s, hs, hx⟩ := res_bind_ok hx
      obtain ⟨_, _, hs⟩ := res_bind_ok hs
      obtain ⟨_, _, hs⟩ := res_bind_ok hs
      rw [if_pos (Nat.zero_and _)] at hs
      cases hs
      cases hx
      rfl
    rw [this]
    exact solo_new.bind (d := 0) fun _ _ => solo_lift.bind0 fun _ _ => solo_ret ⟨_, _, rfl⟩

/-- How many cells `Node::insert` allocates at most: one for each leaf that it splits, and the last one. -/
def insertCells (fuel : Nat) : HHNode → Nat
  | .branch _ _ => (fuel + 1) / 2
  | _ => fuel / 2 + 1

theorem insertCells_le (fuel : Nat) (n : HHNode) : insertCells fuel n ≤ fuel / 2 + 1 := by
  unfold insertCells
  split <;> omega

theorem solo_htInsert {degree : Nat} (fuel : Nat) {e : HEnt} {n : HHNode} (hn : plain n) {d : Nat} :
    Solo colliding (fun x => plain x.2) (insertCells fuel n) (hinsert (V := V) o Ar degree fuel e n d) := by
  induction fuel generalizing e n d with
  | zero => exact solo_panic
  | succ fuel ih =>
    unfold hinsert hinsertStep
    split
    · refine solo_lift.bind0 fun _ _ => ?_
      split
      · refine solo_lift.bind0 fun _ _ => ?_
        refine Solo.bind (P := fun _ => True) (c := (fuel + 1 + 1) / 2) (d := 0)
          (solo_modNode (P := fun _ => True) fun n hn => (ih hn).weak.le ?_) fun _ _ => ?_
        · have := insertCells_le fuel n; omega
        exact solo_lift.bind0 fun _ _ => solo_ret trivial
      · refine (solo_new.bind (d := 0) fun _ _ => solo_lift.bind0 fun _ _ => solo_ret trivial).le ?_
        show 1 + 0 ≤ (fuel + 1 + 1) / 2
        omega
    · refine solo_lift.bind0 fun _ _ => solo_htReadEntry.bind0 fun _ _ => (solo_bucketGet hn).bind0 fun _ _ => ?_
      split
      · split
        · exact (solo_bucketInsert hn).le (by omega)
        · split
          · refine (solo_cloneDrop (solo_htInsertEmpty.bind (d := (fuel + 1) / 2) fun z hz => ?_)).le (d := insertCells (fuel + 1) (.single _)) ?_
            · obtain ⟨bm, ps, hz⟩ := hz
              rw [hz]
              exact (ih (n := .branch bm ps) trivial).bind (d := 0) fun _ hw => solo_ret hw
            · show 1 + (fuel + 1) / 2 ≤ (fuel + 1) / 2 + 1
              omega
          · exact solo_panic
      · exact (solo_bucketInsert hn).le (by omega)

theorem solo_htReplace {n : HHNode} {p : Addr} : Solo colliding plain 0 (hreplace (K := K) (V := V) n p) := by
  unfold hreplace
  refine solo_makeMut.bind0 fun x hx => ?_
  split
  · next n hn => exact solo_close.bind0 fun _ _ => solo_drop.bind0 fun _ _ => solo_ret (plain_ofContent hn hx)
  · exact solo_panic

theorem solo_hcompress {s : SparseArray Addr} : Solo colliding plain 0 (hcompress (K := K) (V := V) Ar s) := by
  unfold hcompress
  split
  · refine solo_lift.bind0 fun _ _ => solo_htReadNode.bind0 fun _ _ => ?_
    split
    · split
      · exact solo_htReplace
      · exact solo_ret trivial
    · exact solo_ret trivial
  · exact solo_ret trivial

theorem solo_sparseRemove {s : SparseArray Addr} {i : Nat} : Solo0 colliding (sparseRemove (K := K) (V := V) Ar s i) := by
  unfold sparseRemove
  solo_go

theorem solo_htRemove {key : Q} {h : UInt64} {degree : Nat} (fuel : Nat) {n : HHNode} (hn : plain n) {d : Nat} :
    Solo colliding (fun x => plain x.2) 0 (hremove (V := V) o Ar key h degree fuel n d) := by
  induction fuel generalizing n d with
  | zero => exact solo_panic
  | succ fuel ih =>
    unfold hremove hremoveStep
    split
    · refine solo_lift.bind0 fun _ _ => ?_
      split
      · exact solo_ret trivial
      · refine solo_lift.bind0 fun _ _ => ?_
        refine (solo_modNode (P := fun _ => True) fun n hn =>
          (ih hn).bind0 fun _ _ => solo_lift.bind0 fun _ _ => solo_ret trivial).bind0 fun _ _ => ?_
        refine solo_lift.bind0 fun _ _ => ?_
        split
        · exact solo_ret trivial
        · exact solo_hcompress.bind0 fun _ hn => solo_ret hn
        · exact solo_sparseRemove.bind0 fun _ _ => solo_hcompress.bind0 fun _ hn => solo_ret hn
    · exact solo_bucketRemove hn

theorem solo_htView (fuel : Nat) {p : Addr} : Solo0 colliding (hview (K := K) (V := V) fuel p) := by
  induction fuel generalizing p with
  | zero => exact solo_panic
  | succ fuel ih =>
    unfold hview hviewStep
    refine solo_htReadNode.bind0 fun n hn => ?_
    split
    · exact (solo_forAll (fun _ => ih) _).bind0 fun _ _ => solo_ret trivial
    · unfold viewEnt
      solo_go
    · cases hn
macro_rules | `(tactic| solo_lem) => `(tactic| exact solo_htView _)

/-- The operations of `HashTrieMap` that do not make a new map. -/
def htInPlace : HTOp K V Q → Bool
  | .base op => mapInPlace op
  | _ => true

/-- How many cells an operation on a hash trie allocates at most. -/
def htCells : HTOp K V Q → Nat
  | .base (.insertMut _ _) => 67
  | _ => 0

variable {m : HHTMap H}

theorem solo_hhtGet {q : Q} : Solo0 colliding (m.get (V := V) Ar o q) := by
  unfold HHTMap.get HHTMap.getKeyValue
  exact (solo_htGet _).bind0 fun _ _ => solo_ret trivial
macro_rules | `(tactic| solo_lem) => `(tactic| exact solo_hhtGet)

theorem solo_htHStepAll {op : HTOp K V Q} (ok : htInPlace op = true) :
    Solo colliding (fun _ => True) (htCells op) (htHStepAll Ar o m op) := by
  cases op with
  | base op =>
    cases op with
    | insert k v => cases ok
    | remove q => cases ok
    | clone => cases ok
    | insertMut k v =>
      unfold htHStepAll htHStep HHTMap.insertMut
      refine Solo.bind (P := fun _ => True) (d := 0) (Solo.bind (P := fun _ => True) (d := 0) ?_ fun _ _ => solo_ret trivial)
        fun _ _ => solo_ret trivial
      refine (solo_new.bind fun _ _ => (solo_modNode (P := fun _ => True) fun n hn =>
        ((solo_htInsert _ hn).weak.le (insertCells_le _ _))).bind (d := 0) fun _ _ => solo_ret trivial).le ?_
      show _ ≤ 67
      simp [HTMap.insertFuel]
    | removeMut q =>
      unfold htHStepAll htHStep HHTMap.removeMut
      refine Solo.bind0 (P := fun _ => True) (Solo.bind0 (P := fun _ => True) ?_ fun _ _ => solo_ret trivial)
        fun _ _ => solo_ret trivial
      refine (solo_modNode (P := fun _ => True) fun n hn => (solo_htRemove _ hn).weak).bind0 fun _ _ => ?_
      solo_go
    | getMut q f =>
      unfold htHStepAll htHStep HHTMap.getMut
      refine Solo.bind0 (P := fun _ => True) (Solo.bind0 (P := fun _ => True) ?_ fun _ _ => solo_ret trivial)
        fun _ _ => solo_ret trivial
      exact (solo_modNode (P := fun _ => True) fun n hn => solo_htGetMut _ hn).bind0 fun _ _ => solo_ret trivial
    | get q => unfold htHStepAll htHStep; solo_go
    | getKeyValue q =>
      unfold htHStepAll htHStep HHTMap.getKeyValue
      refine Solo.bind0 (P := fun _ => True) ((solo_htGet _).bind0 fun _ _ => solo_ret trivial) fun _ _ => solo_ret trivial
    | containsKey q => unfold htHStepAll htHStep; solo_go
    | index q => unfold htHStepAll htHStep; solo_go
    | size => unfold htHStepAll htHStep; solo_go
    | isEmpty => unfold htHStepAll htHStep; solo_go
  | iter n => unfold htHStepAll HHTMap.view; solo_go
  | count p => unfold htHStepAll HHTMap.view; solo_go

end ht
end HT

end Heap
end Rpds
