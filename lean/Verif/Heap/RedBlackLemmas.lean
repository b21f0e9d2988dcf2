import Verif.Heap.RedBlack
/-
The heap versions of the functions of `RedBlackTreeMap` do what the functions of `Verif/RedBlack/Model.lean` do, whatever else is in
the memory and whatever other threads do.
-/
set_option autoImplicit false
set_option linter.unusedSectionVars false
namespace Rpds
namespace Heap
variable {K V Q : Type}

/-- An entry cell. -/
def entIs (t : ATree (RLabel K V)) (e : K × V) : Prop := t.label = .entry e.1 e.2 ∧ t.kids = []

/-- The cell of a node. -/
def treeOf (a : Addr) (te : ATree (RLabel K V)) (c : Color) (tl tr : Option (ATree (RLabel K V))) : ATree (RLabel K V) :=
  .node a (.node c tl.isSome tr.isSome) (te :: (tl.toList ++ tr.toList))

/-- A tree in memory represents a tree of the value model. -/
inductive IsT : Option (ATree (RLabel K V)) → RBTree K V → Prop where
  | none : IsT none .none
  | some {a : Addr} {te : ATree (RLabel K V)} {tl tr : Option (ATree (RLabel K V))} {e : K × V} {c : Color} {l r : RBTree K V}
      (he : entIs te e) (hl : IsT tl l) (hr : IsT tr r) : IsT (some (treeOf a te c tl tr)) (.some e c l r)

theorem nest_entry {D : Option Nat} {te : ATree (RLabel K V)} {e : K × V} (h : entIs te e) {H : List Addr} : Within D (nest H te) := by
  obtain ⟨a, l, ts⟩ := te
  obtain rfl : ts = [] := h.2
  intro d _
  simp [nest, nest.go]

/-- Freeing a tree nests at most as deep as the tree is high. -/
theorem IsT.nest {ot : Option (ATree (RLabel K V))} {v : RBTree K V} (h : IsT ot v) {H : List Addr} :
    nest.go H ot.toList ≤ v.height + 1 ∧ ∀ t, ot = Option.some t → Heap.nest H t ≤ v.height := by
  induction h with
  | none => exact ⟨by simp [nest.go], fun t e => nomatch e⟩
  | @some a te tl tr e c l r he hl hr ihl ihr =>
    have key : Heap.nest H (treeOf a te c tl tr) ≤ (RBTree.some e c l r).height := by
      simp only [treeOf, Heap.nest, RBTree.height]
      split
      · omega
      · simp only [nest.go]
        have h1 : Heap.nest H te ≤ 0 := nest_entry (D := Option.some 0) he 0 rfl
        have := nest_go_append (n := 1 + max l.height r.height) (Nat.le_trans ihl.1 (by omega)) (Nat.le_trans ihr.1 (by omega))
        omega
    refine ⟨?_, fun t e => by cases e; exact key⟩
    simp only [Option.toList_some, nest.go]
    omega

/-- Freeing a node without children. -/
theorem IsT.nest_bare {t : ATree (RLabel K V)} {n : RBNode K V} (h : IsT (Option.some t) n.ptr) (h1 : n.left = .none) (h2 : n.right = .none)
    {D : Option Nat} [Roomy D] {H : List Addr} : Within D (Heap.nest H t) := by
  refine within_roomy (Nat.le_trans (h.nest.2 t rfl) ?_)
  simp [RBNode.ptr, h1, h2, RBTree.height]

/-- The fields of a node. -/
def fields (te : ATree (RLabel K V)) (c : Color) (tl tr : Option (ATree (RLabel K V))) : HRBNode :=
  ⟨te.addr, c, tl.map ATree.addr, tr.map ATree.addr⟩

/-- The items of the fields of a node. -/
def fieldItems (te : ATree (RLabel K V)) (tl tr : Option (ATree (RLabel K V))) : List (Item (RLabel K V)) :=
  .ptr te :: (optPtr tl ++ optPtr tr)

/-- A node held by value represents a node of the value model. -/
def HRBNode.Is (hn : HRBNode) (n : RBNode K V) (ρ : List (Item (RLabel K V))) : Prop :=
  ∃ te tl tr, hn = fields te n.color tl tr ∧ ρ = fieldItems te tl tr ∧ entIs te n.entry ∧ IsT tl n.left ∧ IsT tr n.right

variable {A : Allocator (RLabel K V)} {D : Option Nat} [Roomy D] {te tl' : ATree (RLabel K V)} {tl tr : Option (ATree (RLabel K V))} {c : Color}
  {F ρ σ : List (Item (RLabel K V))}

theorem fields_label : (fields te c tl tr).label = (RLabel.node c tl.isSome tr.isSome : RLabel K V) := by
  simp [fields, HRBNode.label]

theorem fields_ptrs : (fields te c tl tr).ptrs = (te :: (tl.toList ++ tr.toList)).map ATree.addr := by
  cases tl <;> cases tr <;> rfl

theorem fieldItems_eq : fieldItems te tl tr = (te :: (tl.toList ++ tr.toList)).map .ptr := by
  simp [fieldItems, optPtr]

theorem ofContent_tree (a : Addr) :
    HRBNode.ofContent ((treeOf a te c tl tr).label, (treeOf a te c tl tr).kids.map ATree.addr) = some (fields te c tl tr) := by
  cases tl <;> cases tr <;> rfl

section rules
variable {β : Type} {R : β → List (Item (RLabel K V)) → Prop}

theorem Safe.openNode {f : Addr × HRBNode → Prog (RLabel K V) β} {a : Addr} (hp : σ.Perm (.ptr (treeOf a te c tl tr) :: F))
    (h : ∀ q, Safe A D R (f (q, fields te c tl tr)) (.opn q :: fieldItems te tl tr ++ F)) :
    Safe A D R ((openNode (treeOf a te c tl tr).addr).bind f) σ := by
  refine Safe.bindFrame (F := F) (Q := fun r τ => r.2 = fields te c tl tr ∧ τ = .opn r.1 :: fieldItems te tl tr)
    (Safe.bind (safe_makeMut (treeOf a te c tl tr) (within_roomy (by omega))) ?_) hp ?_
  · rintro ⟨q, x⟩ τ ⟨rfl, rfl⟩
    rw [ofContent_tree]
    exact Safe.ret ⟨rfl, by rw [fieldItems_eq]; rfl⟩
  · rintro ⟨q, x⟩ τ ⟨rfl, rfl⟩
    exact h q

theorem Safe.closeNode {f : Unit → Prog (RLabel K V) β} {q : Addr} (te : ATree (RLabel K V)) (c : Color)
    (tl tr : Option (ATree (RLabel K V))) (F : List (Item (RLabel K V)))
    (hp : σ.Perm (.opn q :: fieldItems te tl tr ++ F))
    (h : Safe A D R (f ()) (.ptr (treeOf q te c tl tr) :: F)) :
    Safe A D R ((closeNode q (fields te c tl tr)).bind f) σ := by
  refine Safe.bindFrame (F := F) (Q := fun _ τ => τ = [.ptr (treeOf q te c tl tr)]) ?_ hp ?_
  · rw [Heap.closeNode, fields_label, fields_ptrs, fieldItems_eq]
    exact safe_close q _ _
  · rintro _ _ rfl
    exact h

theorem safe_readNode {s t : ATree (RLabel K V)} {a : Addr} (e : s = treeOf a te c tl tr) (hs : Sub s t) (ht : .ptr t ∈ ρ) :
    Safe A D (fun r σ => r = fields te c tl tr ∧ σ = ρ) (readNode s.addr) ρ := by
  refine Safe.bind (safe_read hs ht) ?_
  rintro _ _ ⟨rfl, rfl⟩
  rw [e, ofContent_tree]
  exact Safe.ret ⟨rfl, rfl⟩

theorem safe_readEntry {s t : ATree (RLabel K V)} {e : K × V} (he : entIs s e) (hs : Sub s t) (ht : .ptr t ∈ ρ) :
    Safe A D (fun r σ => r = e ∧ σ = ρ) (readEntry s.addr) ρ := by
  refine Safe.bind (safe_read hs ht) ?_
  rintro _ _ ⟨rfl, rfl⟩
  rw [he.1]
  exact Safe.ret ⟨rfl, rfl⟩

theorem Safe.readEntry {f : K × V → Prog (RLabel K V) β} {e : K × V} (he : entIs te e) (hm : .ptr te ∈ ρ)
    (h : Safe A D R (f e) ρ) : Safe A D R ((readEntry te.addr).bind f) ρ := by
  refine Safe.bind (safe_readEntry he (.refl _) hm) ?_
  rintro _ _ ⟨rfl, rfl⟩
  exact h

theorem mem_kids_left {s : ATree (RLabel K V)} {a : Addr} (h : tl = some s) : s ∈ (treeOf a te c tl tr).kids := by
  subst h; simp [treeOf, ATree.kids]

theorem mem_kids_right {s : ATree (RLabel K V)} {a : Addr} (h : tr = some s) : s ∈ (treeOf a te c tl tr).kids := by
  subst h; simp [treeOf, ATree.kids]

theorem mem_kids_entry {a : Addr} : te ∈ (treeOf a te c tl tr).kids := by simp [treeOf, ATree.kids]

theorem safe_colorOf {t : Option (ATree (RLabel K V))} {v : RBTree K V} (ht : IsT t v)
    (hin : ∀ s, t = some s → ∃ u, Sub s u ∧ .ptr u ∈ ρ) :
    Safe A D (fun r σ => r = v.color ∧ σ = ρ) (colorOf (t.map ATree.addr)) ρ := by
  cases ht with
  | none => exact Safe.ret ⟨rfl, rfl⟩
  | some he hl hr =>
    obtain ⟨u, h1, h2⟩ := hin _ rfl
    refine Safe.bind (safe_readNode rfl h1 h2) ?_
    rintro _ _ ⟨rfl, rfl⟩
    exact Safe.ret ⟨rfl, rfl⟩

theorem safe_leftColorOf {t : Option (ATree (RLabel K V))} {v : RBTree K V} (ht : IsT t v)
    (hin : ∀ s, t = some s → .ptr s ∈ ρ) :
    Safe A D (fun r σ => r = v.leftColor ∧ σ = ρ) (leftColorOf (t.map ATree.addr)) ρ := by
  cases ht with
  | none => exact Safe.ret ⟨rfl, rfl⟩
  | some he hl hr =>
    refine Safe.bind (safe_readNode rfl (.refl _) (hin _ rfl)) ?_
    rintro _ _ ⟨rfl, rfl⟩
    exact safe_colorOf hl fun s e => ⟨_, .of_kid (mem_kids_left e), hin _ rfl⟩

theorem safe_rightColorOf {t : Option (ATree (RLabel K V))} {v : RBTree K V} (ht : IsT t v)
    (hin : ∀ s, t = some s → .ptr s ∈ ρ) :
    Safe A D (fun r σ => r = v.rightColor ∧ σ = ρ) (rightColorOf (t.map ATree.addr)) ρ := by
  cases ht with
  | none => exact Safe.ret ⟨rfl, rfl⟩
  | some he hl hr =>
    refine Safe.bind (safe_readNode rfl (.refl _) (hin _ rfl)) ?_
    rintro _ _ ⟨rfl, rfl⟩
    exact safe_colorOf hr fun s e => ⟨_, .of_kid (mem_kids_right e), hin _ rfl⟩

theorem Safe.colorOf {f : Option Color → Prog (RLabel K V) β} {t : Option (ATree (RLabel K V))} {v : RBTree K V} (ht : IsT t v)
    (hin : ∀ s, t = some s → .ptr s ∈ ρ) (h : Safe A D R (f v.color) ρ) :
    Safe A D R ((colorOf (t.map ATree.addr)).bind f) ρ := by
  refine Safe.bind (safe_colorOf ht fun s e => ⟨s, .refl s, hin s e⟩) ?_
  rintro _ _ ⟨rfl, rfl⟩
  exact h

theorem Safe.leftColorOf {f : Option Color → Prog (RLabel K V) β} {t : Option (ATree (RLabel K V))} {v : RBTree K V} (ht : IsT t v)
    (hin : ∀ s, t = some s → .ptr s ∈ ρ) (h : Safe A D R (f v.leftColor) ρ) :
    Safe A D R ((leftColorOf (t.map ATree.addr)).bind f) ρ := by
  refine Safe.bind (safe_leftColorOf ht hin) ?_
  rintro _ _ ⟨rfl, rfl⟩
  exact h

theorem Safe.rightColorOf {f : Option Color → Prog (RLabel K V) β} {t : Option (ATree (RLabel K V))} {v : RBTree K V} (ht : IsT t v)
    (hin : ∀ s, t = some s → .ptr s ∈ ρ) (h : Safe A D R (f v.rightColor) ρ) :
    Safe A D R ((rightColorOf (t.map ATree.addr)).bind f) ρ := by
  refine Safe.bind (safe_rightColorOf ht hin) ?_
  rintro _ _ ⟨rfl, rfl⟩
  exact h

theorem Safe.drop {f : Unit → Prog (RLabel K V) β} {t : ATree (RLabel K V)} (hp : σ.Perm (.ptr t :: F))
    (hn : Within D (nest (reach F) t)) (h : Safe A D R (f ()) F) : Safe A D R ((Heap.drop t.addr).bind f) σ :=
  Safe.bind (Safe.perm (safe_drop hn) hp) (by rintro _ _ rfl; exact h)

end rules

/-- Proves that lists of items are permutations of each other. -/
macro "items_tac" : tactic => `(tactic| ((try simp only [fieldItems, optPtr_none, optPtr_some]); perm_tac))

theorem ptr_mem_left {s : ATree (RLabel K V)} (h : tl = some s) : .ptr s ∈ fieldItems te tl tr := by
  subst h; simp [fieldItems]

theorem ptr_mem_right {s : ATree (RLabel K V)} (h : tr = some s) : .ptr s ∈ fieldItems te tl tr := by
  subst h; simp [fieldItems]

theorem ptr_mem_entry : .ptr te ∈ fieldItems te tl tr := by simp [fieldItems]

/-! ### `balance` -/

theorem safe_hbalance1 {hn : HRBNode} {n n' : RBNode K V} (h : hn.Is n ρ) (he : n.balance1 = .ok n') :
    Safe A D (fun r σ => r.Is n' σ) (hbalance1 hn) ρ := by
  obtain ⟨te, tl, tr, rfl, rfl, h1, h2, h3⟩ := h
  obtain ⟨e, c, l, r⟩ := n
  simp only at h1 h2 h3
  cases h2 with
  | none => cases he
  | @some a te' tll tlr e' c' l' r' he' hl' hr' =>
    cases hl' with
    | none => cases he
    | @some a2 te2 tll2 tlr2 e2 c2 l2 r2 he2 hl2 hr2 =>
      cases he
      refine Safe.liftBind rfl ?_
      refine Safe.openNode (F := .ptr te :: optPtr tr) (by items_tac) fun q => ?_
      refine Safe.liftBind rfl ?_
      refine Safe.openNode (F := .opn q :: .ptr te' :: (optPtr tlr ++ .ptr te :: optPtr tr)) (by items_tac) fun q2 => ?_
      refine Safe.closeNode te2 .black tll2 tlr2 _ (.refl _) ?_
      refine Safe.closeNode te .black tlr tr [.ptr (treeOf q2 te2 .black tll2 tlr2), .ptr te'] (by items_tac) ?_
      exact Safe.perm (Safe.ret ⟨te', some (treeOf q2 te2 .black tll2 tlr2), some (treeOf q te .black tlr tr), rfl, rfl,
        he', .some he2 hl2 hr2, .some h1 hr' h3⟩) (by items_tac)

theorem safe_hbalance2 {hn : HRBNode} {n n' : RBNode K V} (h : hn.Is n ρ) (he : n.balance2 = .ok n') :
    Safe A D (fun r σ => r.Is n' σ) (hbalance2 hn) ρ := by
  obtain ⟨te, tl, tr, rfl, rfl, h1, h2, h3⟩ := h
  obtain ⟨e, c, l, r⟩ := n
  simp only at h1 h2 h3
  cases h2 with
  | none => cases he
  | @some a te' tll tlr e' c' l' r' he' hl' hr' =>
    cases hr' with
    | none => cases he
    | @some a2 te2 tll2 tlr2 e2 c2 l2 r2 he2 hl2 hr2 =>
      cases he
      refine Safe.liftBind rfl ?_
      refine Safe.openNode (F := .ptr te :: optPtr tr) (by items_tac) fun q => ?_
      refine Safe.liftBind rfl ?_
      refine Safe.openNode (F := .opn q :: .ptr te' :: (optPtr tll ++ .ptr te :: optPtr tr)) (by items_tac) fun q2 => ?_
      refine Safe.closeNode te .black tlr2 tr (.opn q :: .ptr te' :: .ptr te2 :: (optPtr tll ++ optPtr tll2)) (by items_tac) ?_
      refine Safe.closeNode te' .black tll tll2 [.ptr (treeOf q2 te .black tlr2 tr), .ptr te2] (by items_tac) ?_
      exact Safe.perm (Safe.ret ⟨te2, some (treeOf q te' .black tll tll2), some (treeOf q2 te .black tlr2 tr), rfl, rfl,
        he2, .some he' hl' hl2, .some h1 hr2 h3⟩) (by items_tac)

theorem safe_hbalance3 {hn : HRBNode} {n n' : RBNode K V} (h : hn.Is n ρ) (he : n.balance3 = .ok n') :
    Safe A D (fun r σ => r.Is n' σ) (hbalance3 hn) ρ := by
  obtain ⟨te, tl, tr, rfl, rfl, h1, h2, h3⟩ := h
  obtain ⟨e, c, l, r⟩ := n
  simp only at h1 h2 h3
  cases h3 with
  | none => cases he
  | @some a te' trl trr e' c' l' r' he' hl' hr' =>
    cases hl' with
    | none => cases he
    | @some a2 te2 trl2 trr2 e2 c2 l2 r2 he2 hl2 hr2 =>
      cases he
      refine Safe.liftBind rfl ?_
      refine Safe.openNode (F := .ptr te :: optPtr tl) (by items_tac) fun q => ?_
      refine Safe.liftBind rfl ?_
      refine Safe.openNode (F := .opn q :: .ptr te' :: (optPtr trr ++ .ptr te :: optPtr tl)) (by items_tac) fun q2 => ?_
      refine Safe.closeNode te .black tl trl2 (.opn q :: .ptr te' :: .ptr te2 :: (optPtr trr ++ optPtr trr2)) (by items_tac) ?_
      refine Safe.closeNode te' .black trr2 trr [.ptr (treeOf q2 te .black tl trl2), .ptr te2] (by items_tac) ?_
      exact Safe.perm (Safe.ret ⟨te2, some (treeOf q2 te .black tl trl2), some (treeOf q te' .black trr2 trr), rfl, rfl,
        he2, .some h1 h2 hl2, .some he' hr2 hr'⟩) (by items_tac)

theorem safe_hbalance4 {hn : HRBNode} {n n' : RBNode K V} (h : hn.Is n ρ) (he : n.balance4 = .ok n') :
    Safe A D (fun r σ => r.Is n' σ) (hbalance4 hn) ρ := by
  obtain ⟨te, tl, tr, rfl, rfl, h1, h2, h3⟩ := h
  obtain ⟨e, c, l, r⟩ := n
  simp only at h1 h2 h3
  cases h3 with
  | none => cases he
  | @some a te' trl trr e' c' l' r' he' hl' hr' =>
    cases hr' with
    | none => cases he
    | @some a2 te2 trl2 trr2 e2 c2 l2 r2 he2 hl2 hr2 =>
      cases he
      refine Safe.liftBind rfl ?_
      refine Safe.openNode (F := .ptr te :: optPtr tl) (by items_tac) fun q => ?_
      refine Safe.liftBind rfl ?_
      refine Safe.openNode (F := .opn q :: .ptr te' :: (optPtr trl ++ .ptr te :: optPtr tl)) (by items_tac) fun q2 => ?_
      refine Safe.closeNode te2 .black trl2 trr2 _ (.refl _) ?_
      refine Safe.closeNode te .black tl trl [.ptr (treeOf q2 te2 .black trl2 trr2), .ptr te'] (by items_tac) ?_
      exact Safe.perm (Safe.ret ⟨te', some (treeOf q te .black tl trl), some (treeOf q2 te2 .black trl2 trr2), rfl, rfl,
        he', .some h1 h2 hl', .some he2 hl2 hr2⟩) (by items_tac)

theorem balance_case (n : RBNode K V) (hc : n.color = .black) :
    n.balance = match balanceCase n.left.color n.left.leftColor n.left.rightColor n.right.color n.right.leftColor n.right.rightColor with
      | 1 => n.balance1
      | 2 => n.balance2
      | 3 => n.balance3
      | 4 => n.balance4
      | _ => .ok n := by
  unfold RBNode.balance
  simp only [hc, RBNode.leftColor, RBNode.rightColor]
  generalize n.left.color = a1, n.left.leftColor = a2, n.left.rightColor = a3, n.right.color = a4, n.right.leftColor = a5,
    n.right.rightColor = a6
  rcases a4 with _ | _ | _ <;> rcases a5 with _ | _ | _ <;> rcases a6 with _ | _ | _ <;>
    rcases a1 with _ | _ | _ <;> first | rfl | (rcases a2 with _ | _ | _ <;> first | rfl | (rcases a3 with _ | _ | _ <;> rfl))

theorem safe_hbalance {hn : HRBNode} {n n' : RBNode K V} (h : hn.Is n ρ) (he : n.balance = .ok n') :
    Safe A D (fun r σ => r.Is n' σ) (hbalance hn) ρ := by
  have hh := h
  obtain ⟨te, tl, tr, rfl, rfl, h1, h2, h3⟩ := h
  unfold hbalance
  cases hc : n.color with
  | red =>
    simp only [fields]
    simp only [RBNode.balance, hc] at he
    cases he
    rw [← hc]
    exact Safe.ret hh
  | black =>
    simp only [fields]
    refine Safe.colorOf h2 (fun s => ptr_mem_left) ?_
    refine Safe.leftColorOf h2 (fun s => ptr_mem_left) ?_
    refine Safe.rightColorOf h2 (fun s => ptr_mem_left) ?_
    refine Safe.colorOf h3 (fun s => ptr_mem_right) ?_
    refine Safe.leftColorOf h3 (fun s => ptr_mem_right) ?_
    refine Safe.rightColorOf h3 (fun s => ptr_mem_right) ?_
    rw [balance_case n hc] at he
    rw [← hc]
    revert he
    generalize balanceCase n.left.color n.left.leftColor n.left.rightColor n.right.color n.right.leftColor n.right.rightColor = k
    intro he
    match k, he with
    | 0, he => cases he; exact Safe.ret hh
    | 1, he => exact safe_hbalance1 hh he
    | 2, he => exact safe_hbalance2 hh he
    | 3, he => exact safe_hbalance3 hh he
    | 4, he => exact safe_hbalance4 hh he
    | k + 5, he => cases he; exact Safe.ret hh

/-! ### Lookups -/

theorem safe_hget (o : OrdKeys K Q) (key : Q) {t : Option (ATree (RLabel K V))} {v : RBTree K V} (ht : IsT t v)
    (hin : ∀ s, t = some s → ∃ u, Sub s u ∧ .ptr u ∈ ρ) {fuel : Nat} (hf : v.height ≤ fuel) :
    Safe A D (fun r σ => r = v.get o key ∧ σ = ρ) (hget o key fuel (t.map ATree.addr)) ρ := by
  induction ht generalizing fuel with
  | none => cases fuel <;> exact Safe.ret ⟨rfl, rfl⟩
  | @some a te tl tr e c l r he hl hr ihl ihr =>
    simp only [RBTree.height] at hf
    obtain ⟨fuel, rfl⟩ : ∃ n, fuel = n + 1 := ⟨fuel - 1, by omega⟩
    obtain ⟨u, h1, h2⟩ := hin _ rfl
    refine Safe.bind (safe_readNode rfl h1 h2) ?_
    rintro _ _ ⟨rfl, rfl⟩
    refine Safe.bind (safe_readEntry he (.kid h1 mem_kids_entry) h2) ?_
    rintro _ _ ⟨rfl, rfl⟩
    simp only [RBTree.get]
    cases o.cmpQ key (o.borrow _) with
    | lt => exact ihl (fun s hs => ⟨u, .kid h1 (mem_kids_left hs), h2⟩) (by omega)
    | eq => exact Safe.ret ⟨rfl, rfl⟩
    | gt => exact ihr (fun s hs => ⟨u, .kid h1 (mem_kids_right hs), h2⟩) (by omega)

theorem safe_hfirst {t : Option (ATree (RLabel K V))} {v : RBTree K V} (ht : IsT t v)
    (hin : ∀ s, t = some s → ∃ u, Sub s u ∧ .ptr u ∈ ρ) {fuel : Nat} (hf : v.height ≤ fuel) :
    Safe A D (fun r σ => r = v.first ∧ σ = ρ) (hfirst fuel (t.map ATree.addr)) ρ := by
  induction ht generalizing fuel with
  | none => cases fuel <;> exact Safe.ret ⟨rfl, rfl⟩
  | @some a te tl tr e c l r he hl hr ihl ihr =>
    simp only [RBTree.height] at hf
    obtain ⟨fuel, rfl⟩ : ∃ n, fuel = n + 1 := ⟨fuel - 1, by omega⟩
    obtain ⟨u, h1, h2⟩ := hin _ rfl
    refine Safe.bind (safe_readNode rfl h1 h2) ?_
    rintro _ _ ⟨rfl, rfl⟩
    have ih := ihl (fuel := fuel) (fun s hs => ⟨u, .kid h1 (mem_kids_left hs), h2⟩) (by omega)
    cases hl with
    | none =>
      refine Safe.bind (safe_readEntry he (.kid h1 mem_kids_entry) h2) ?_
      rintro _ _ ⟨rfl, rfl⟩
      exact Safe.ret ⟨rfl, rfl⟩
    | some _ _ _ => exact ih

theorem safe_hlast {t : Option (ATree (RLabel K V))} {v : RBTree K V} (ht : IsT t v)
    (hin : ∀ s, t = some s → ∃ u, Sub s u ∧ .ptr u ∈ ρ) {fuel : Nat} (hf : v.height ≤ fuel) :
    Safe A D (fun r σ => r = v.last ∧ σ = ρ) (hlast fuel (t.map ATree.addr)) ρ := by
  induction ht generalizing fuel with
  | none => cases fuel <;> exact Safe.ret ⟨rfl, rfl⟩
  | @some a te tl tr e c l r he hl hr ihl ihr =>
    simp only [RBTree.height] at hf
    obtain ⟨fuel, rfl⟩ : ∃ n, fuel = n + 1 := ⟨fuel - 1, by omega⟩
    obtain ⟨u, h1, h2⟩ := hin _ rfl
    refine Safe.bind (safe_readNode rfl h1 h2) ?_
    rintro _ _ ⟨rfl, rfl⟩
    have ih := ihr (fuel := fuel) (fun s hs => ⟨u, .kid h1 (mem_kids_right hs), h2⟩) (by omega)
    cases hr with
    | none =>
      refine Safe.bind (safe_readEntry he (.kid h1 mem_kids_entry) h2) ?_
      rintro _ _ ⟨rfl, rfl⟩
      exact Safe.ret ⟨rfl, rfl⟩
    | some _ _ _ => exact ih

theorem safe_hview {t : Option (ATree (RLabel K V))} {v : RBTree K V} (ht : IsT t v)
    (hin : ∀ s, t = some s → ∃ u, Sub s u ∧ .ptr u ∈ ρ) {fuel : Nat} (hf : v.count ≤ fuel) :
    Safe A D (fun r σ => r = v ∧ σ = ρ) (hview fuel (t.map ATree.addr)) ρ := by
  induction ht generalizing fuel with
  | none => cases fuel <;> exact Safe.ret ⟨rfl, rfl⟩
  | @some a te tl tr e c l r he hl hr ihl ihr =>
    simp only [RBTree.count] at hf
    obtain ⟨fuel, rfl⟩ : ∃ n, fuel = n + 1 := ⟨fuel - 1, by omega⟩
    obtain ⟨u, h1, h2⟩ := hin _ rfl
    refine Safe.bind (safe_readNode rfl h1 h2) ?_
    rintro _ _ ⟨rfl, rfl⟩
    refine Safe.bind (safe_readEntry he (.kid h1 mem_kids_entry) h2) ?_
    rintro _ _ ⟨rfl, rfl⟩
    refine Safe.bind (ihl (fun s hs => ⟨u, .kid h1 (mem_kids_left hs), h2⟩) (by omega)) ?_
    rintro _ _ ⟨rfl, rfl⟩
    refine Safe.bind (ihr (fun s hs => ⟨u, .kid h1 (mem_kids_right hs), h2⟩) (by omega)) ?_
    rintro _ _ ⟨rfl, rfl⟩
    exact Safe.ret ⟨rfl, rfl⟩

/-! ### Insertion -/

/-- A pointer to a tree represents a tree of the value model. -/
def TreeIs (p : Option Addr) (v : RBTree K V) (ρ : List (Item (RLabel K V))) : Prop :=
  ∃ t : Option (ATree (RLabel K V)), p = t.map ATree.addr ∧ ρ = optPtr t ∧ IsT t v

theorem Safe.closeIs {β : Type} {R : β → List (Item (RLabel K V)) → Prop} {f : Unit → Prog (RLabel K V) β} {hn : HRBNode}
    {n : RBNode K V} (h : hn.Is n ρ) {q : Addr} (F : List (Item (RLabel K V))) (hp : σ.Perm (.opn q :: ρ ++ F))
    (hk : ∀ t : ATree (RLabel K V), t.addr = q → IsT (some t) n.ptr → Safe A D R (f ()) (.ptr t :: F)) :
    Safe A D R ((Heap.closeNode q hn).bind f) σ := by
  obtain ⟨te, tl, tr, rfl, rfl, h1, h2, h3⟩ := h
  exact Safe.closeNode te n.color tl tr F hp (hk _ rfl (.some h1 h2 h3))

theorem HRBNode.Is.setColor {hn : HRBNode} {n : RBNode K V} (h : hn.Is n ρ) (c : Color) :
    HRBNode.Is { hn with color := c } { n with color := c } ρ := by
  obtain ⟨te, tl, tr, rfl, rfl, h1, h2, h3⟩ := h
  exact ⟨te, tl, tr, rfl, rfl, h1, h2, h3⟩

theorem safe_hinsDone {hn : HRBNode} {n : RBNode K V} (h : hn.Is n ρ) {is_root b b' : Bool} {v : RBTree K V}
    (he : RBTree.insDone is_root b n = .ok (b', v)) :
    Safe A D (fun r σ => r.1 = b' ∧ ∃ n' : RBNode K V, v = n'.ptr ∧ r.2.Is n' σ) (hinsDone is_root b hn) ρ := by
  unfold RBTree.insDone at he
  unfold hinsDone
  have key : ∀ (m : RBNode K V) (hm : HRBNode) (τ : List (Item (RLabel K V))), hm.Is m τ →
      v = (if is_root then { m with color := .black } else m).ptr → b' = b →
      Safe A D (fun r σ => r.1 = b' ∧ ∃ n' : RBNode K V, v = n'.ptr ∧ r.2.Is n' σ)
        (.ret (b, if is_root then { hm with color := .black } else hm)) τ := by
    rintro m hm τ hi rfl rfl
    refine Safe.ret ⟨rfl, _, rfl, ?_⟩
    cases is_root
    · exact hi
    · exact hi.setColor .black
  cases b with
  | false => cases he; exact key n hn ρ h rfl rfl
  | true =>
    simp only [if_true] at he ⊢
    cases hb : n.balance with
    | error e => rw [hb] at he; cases he
    | ok n' =>
      rw [hb] at he
      cases he
      exact Safe.bind (safe_hbalance h hb) fun r σ hr => key n' r σ hr rfl rfl

theorem safe_hins (o : OrdKeys K Q) (k : K) (v : V) {t : Option (ATree (RLabel K V))} {s s' : RBTree K V} (ht : IsT t s) {b is_root : Bool}
    (he : RBTree.ins o k v s is_root = .ok (b, s')) {fuel : Nat} (hf : s.height ≤ fuel) :
    Safe A D (fun r σ => r.1 = b ∧ TreeIs r.2 s' σ) (hins o k v fuel (t.map ATree.addr) is_root) (optPtr t) := by
  induction ht generalizing fuel b is_root s' with
  | none =>
    simp only [RBTree.ins] at he
    cases he
    have : Safe A D (fun r σ => r.1 = true ∧ TreeIs r.2 (if is_root then RBNode.newBlack (k, v) else RBNode.newRed (k, v)).ptr σ)
        (hinsStep o k v (fun _ _ => .panic) none is_root) [] := by
      refine Safe.bind (safe_new (RLabel.entry k v) []) ?_
      rintro e _ rfl
      refine Safe.bind (safe_new (RLabel.node (if is_root then .black else .red) false false) [.node e (.entry k v) []]) ?_
      rintro p _ rfl
      refine Safe.ret ⟨rfl, some (treeOf p (.node e (.entry k v) []) (if is_root then .black else .red) none none), rfl, rfl, ?_⟩
      cases is_root <;> exact .some ⟨rfl, rfl⟩ .none .none
    cases fuel <;> exact this
  | @some a te tl tr e c l r he1 hl hr ihl ihr =>
    simp only [RBTree.height] at hf
    obtain ⟨fuel, rfl⟩ : ∃ n, fuel = n + 1 := ⟨fuel - 1, by omega⟩
    refine Safe.openNode (F := []) (.refl _) fun q => ?_
    refine Safe.readEntry he1 (by simp [fieldItems]) ?_
    have fin : ∀ (z : Bool × HRBNode) (τ : List (Item (RLabel K V))), (∃ τ', τ = τ' ++ [.opn q] ∧
          (z.1 = b ∧ ∃ n' : RBNode K V, s' = n'.ptr ∧ z.2.Is n' τ')) →
        Safe A D (fun r σ => r.1 = b ∧ TreeIs r.2 s' σ)
          (Prog.bind (closeNode q z.2) fun _ => .ret (z.1, some q)) τ := by
      rintro ⟨z1, z2⟩ _ ⟨τ, rfl, rfl, n', rfl, hn⟩
      refine Safe.closeIs hn [] (by perm_tac) fun t e1 e2 => Safe.ret ⟨rfl, some t, by rw [← e1]; rfl, rfl, e2⟩
    simp only [RBTree.ins] at he
    cases hc : o.cmpK k e.1 with
    | lt =>
      simp only [hc] at he
      cases hi : RBTree.ins o k v l false with
      | error x => rw [hi] at he; cases he
      | ok x =>
        obtain ⟨b2, l'⟩ := x
        rw [hi] at he
        refine Safe.bind (Q := fun z τ => ∃ τ', τ = τ' ++ [.opn q] ∧ (z.1 = b ∧ ∃ n' : RBNode K V, s' = n'.ptr ∧ z.2.Is n' τ')) ?_ fin
        refine Safe.bindFrame (F := [.ptr te] ++ optPtr tr ++ [.opn q]) (ihl hi (by omega)) (by items_tac) ?_
        rintro ⟨b3, p⟩ _ ⟨rfl, t', rfl, rfl, ht'⟩
        refine Safe.perm ((safe_hinsDone (hn := fields te c t' tr) (ρ := fieldItems te t' tr) (n := ⟨e, c, l', r⟩) ⟨te, t', tr, rfl, rfl, he1, ht', hr⟩
          he).frame [.opn q]) (by items_tac)
    | eq =>
      simp only [hc] at he
      refine Safe.bind (Q := fun z τ => ∃ τ', τ = τ' ++ [.opn q] ∧ (z.1 = b ∧ ∃ n' : RBNode K V, s' = n'.ptr ∧ z.2.Is n' τ')) ?_ fin
      refine Safe.bindFrame (F := .opn q :: fieldItems te tl tr) (safe_new (RLabel.entry k v) []) (by items_tac) ?_
      rintro e' _ rfl
      refine Safe.drop (F := fieldItems (.node e' (.entry k v) []) tl tr ++ [.opn q]) (by items_tac) (nest_entry he1) ?_
      exact (safe_hinsDone (n := ⟨(k, v), c, l, r⟩) ⟨.node e' (.entry k v) [], tl, tr, rfl, rfl, ⟨rfl, rfl⟩, hl, hr⟩ he).frame [.opn q]
    | gt =>
      simp only [hc] at he
      cases hi : RBTree.ins o k v r false with
      | error x => rw [hi] at he; cases he
      | ok x =>
        obtain ⟨b2, r'⟩ := x
        rw [hi] at he
        refine Safe.bind (Q := fun z τ => ∃ τ', τ = τ' ++ [.opn q] ∧ (z.1 = b ∧ ∃ n' : RBNode K V, s' = n'.ptr ∧ z.2.Is n' τ')) ?_ fin
        refine Safe.bindFrame (F := [.ptr te] ++ optPtr tl ++ [.opn q]) (ihr hi (by omega)) (by items_tac) ?_
        rintro ⟨b3, p⟩ _ ⟨rfl, t', rfl, rfl, ht'⟩
        refine Safe.perm ((safe_hinsDone (hn := fields te c tl t') (ρ := fieldItems te tl t') (n := ⟨e, c, l, r'⟩) ⟨te, tl, t', rfl, rfl, he1, hl, ht'⟩
          he).frame [.opn q]) (by items_tac)

/-! ### `get_mut` -/

theorem safe_hgetMut (o : OrdKeys K Q) (key : Q) (f : V → V) {t : Option (ATree (RLabel K V))} {s : RBTree K V} (ht : IsT t s)
    {fuel : Nat} (hf : s.height ≤ fuel) :
    Safe A D (fun r σ => r.1 = (s.getMut o key f).1 ∧ TreeIs r.2 (s.getMut o key f).2 σ)
      (hgetMut o key f fuel (t.map ATree.addr)) (optPtr t) := by
  induction ht generalizing fuel with
  | none => cases fuel <;> exact Safe.ret ⟨rfl, none, rfl, rfl, .none⟩
  | @some a te tl tr e c l r he1 hl hr ihl ihr =>
    simp only [RBTree.height] at hf
    obtain ⟨fuel, rfl⟩ : ∃ n, fuel = n + 1 := ⟨fuel - 1, by omega⟩
    refine Safe.openNode (F := []) (.refl _) fun q => ?_
    refine Safe.readEntry he1 (by simp [fieldItems]) ?_
    simp only [RBTree.getMut]
    cases hc : o.cmpQ key (o.borrow e.1) with
    | lt =>
      simp only
      refine Safe.bind (Q := fun (z : Option V × HRBNode) τ => z.1 = (l.getMut o key f).1 ∧ ∃ t', z.2 = fields te c t' tr ∧
        IsT t' (l.getMut o key f).2 ∧ τ = .opn q :: fieldItems te t' tr) ?_ ?_
      · refine Safe.bindFrame (F := .opn q :: .ptr te :: optPtr tr) (ihl (fuel := fuel) (by omega)) (by items_tac) ?_
        rintro ⟨x, p⟩ _ ⟨rfl, t', rfl, rfl, ht'⟩
        exact Safe.perm (Safe.ret ⟨rfl, t', rfl, ht', rfl⟩) (by items_tac)
      · rintro ⟨x, z⟩ _ ⟨rfl, t', rfl, h2, rfl⟩
        refine Safe.closeNode te c t' tr [] (by items_tac) ?_
        exact Safe.ret ⟨rfl, some _, rfl, rfl, .some he1 h2 hr⟩
    | eq =>
      simp only
      refine Safe.bind (Q := fun (z : Option V × HRBNode) τ => z.1 = some e.2 ∧ ∃ te', z.2 = fields te' c tl tr ∧
        entIs te' (e.1, f e.2) ∧ τ = .opn q :: fieldItems te' tl tr) ?_ ?_
      · refine Safe.bindFrame (F := .opn q :: (optPtr tl ++ optPtr tr)) (safe_modifyPtr (within_roomy (by omega)) te (f := modifyEntry f)
          (P := fun x l ts => x = e.2 ∧ l = .entry e.1 (f e.2) ∧ ts = []) ?_) (by items_tac) ?_
        · simp only [modifyEntry, he1.1, he1.2]
          exact Safe.ret ⟨[], rfl, rfl, rfl, rfl, rfl⟩
        · rintro ⟨x, p⟩ _ ⟨l', ts, rfl, rfl, rfl, rfl⟩
          exact Safe.perm (Safe.ret ⟨rfl, .node p (.entry e.1 (f e.2)) [], rfl, ⟨rfl, rfl⟩, rfl⟩) (by items_tac)
      · rintro ⟨x, z⟩ _ ⟨rfl, te', rfl, h2, rfl⟩
        refine Safe.closeNode te' c tl tr [] (by items_tac) ?_
        exact Safe.ret ⟨rfl, some _, rfl, rfl, .some h2 hl hr⟩
    | gt =>
      simp only
      refine Safe.bind (Q := fun (z : Option V × HRBNode) τ => z.1 = (r.getMut o key f).1 ∧ ∃ t', z.2 = fields te c tl t' ∧
        IsT t' (r.getMut o key f).2 ∧ τ = .opn q :: fieldItems te tl t') ?_ ?_
      · refine Safe.bindFrame (F := .opn q :: .ptr te :: optPtr tl) (ihr (fuel := fuel) (by omega)) (by items_tac) ?_
        rintro ⟨x, p⟩ _ ⟨rfl, t', rfl, rfl, ht'⟩
        exact Safe.perm (Safe.ret ⟨rfl, t', rfl, ht', rfl⟩) (by items_tac)
      · rintro ⟨x, z⟩ _ ⟨rfl, t', rfl, h2, rfl⟩
        refine Safe.closeNode te c tl t' [] (by items_tac) ?_
        exact Safe.ret ⟨rfl, some _, rfl, rfl, .some he1 hl h2⟩

/-! ### Removal -/

section
variable {Ar : Arch}

theorem safe_hsetColor {t : Option (ATree (RLabel K V))} {s s' : RBTree K V} (ht : IsT t s) {c : Color} (he : s.setColor c = .ok s') :
    Safe A D (fun r σ => TreeIs r s' σ) (hsetColor c (t.map ATree.addr)) (optPtr t) := by
  cases ht with
  | none => cases he
  | @some a te tl tr e c' l r he1 hl hr =>
    cases he
    refine Safe.liftBind rfl ?_
    refine Safe.openNode (F := []) (.refl _) fun q => ?_
    refine Safe.closeNode te c tl tr [] (.refl _) ?_
    exact Safe.ret ⟨some _, rfl, rfl, .some he1 hl hr⟩

theorem safe_hremoveBalance {hn : HRBNode} {n n' : RBNode K V} (h : hn.Is n ρ) (he : n.removeBalance Ar = .ok n') :
    Safe A D (fun r σ => r.Is n' σ) (hremoveBalance Ar hn) ρ := by
  have hh := h
  obtain ⟨te, tl, tr, rfl, rfl, h1, h2, h3⟩ := h
  refine Safe.colorOf h2 (fun s => ptr_mem_left) ?_
  refine Safe.colorOf h3 (fun s => ptr_mem_right) ?_
  unfold RBNode.removeBalance at he
  split
  · next hc =>
    simp only [RBNode.leftColor, RBNode.rightColor, hc.1, hc.2] at he
    cases hl : n.left.setColor .black with
    | error x => rw [hl] at he; cases he
    | ok l' =>
      cases hr : n.right.setColor .black with
      | error x => rw [hl, hr] at he; cases he
      | ok r' =>
        rw [hl, hr] at he
        cases he
        refine Safe.bindFrame (F := .ptr te :: optPtr tr) (safe_hsetColor h2 hl) (by items_tac) ?_
        rintro _ _ ⟨tl', rfl, rfl, h4⟩
        refine Safe.bindFrame (F := .ptr te :: optPtr tl') (safe_hsetColor h3 hr) (by items_tac) ?_
        rintro _ _ ⟨tr', rfl, rfl, h5⟩
        exact Safe.perm (Safe.ret ⟨te, tl', tr', rfl, rfl, h1, h4, h5⟩) (by items_tac)
  · next hc =>
    have he2 : (Ar.debugAssert (n.color == .black) >>= fun _ => n.balance) = .ok n' := by
      revert he
      simp only [RBNode.leftColor, RBNode.rightColor]
      revert hc
      generalize n.left.color = x, n.right.color = y
      rcases x with _ | _ | _ <;> rcases y with _ | _ | _ <;> intro hc he <;> first | exact he | exact absurd ⟨rfl, rfl⟩ hc
    cases hd : Ar.debugAssert (n.color == .black) with
    | error x => rw [hd] at he2; cases he2
    | ok x =>
      rw [hd] at he2
      exact Safe.liftBind hd (safe_hbalance hh he2)

theorem safe_hremoveBalanceLeft3 {hn : HRBNode} {n n' : RBNode K V} (h : hn.Is n ρ) (he : n.removeBalanceLeft3 Ar = .ok n') :
    Safe A D (fun r σ => r.Is n' σ) (hremoveBalanceLeft3 Ar hn) ρ := by
  obtain ⟨te, tl, tr, rfl, rfl, h1, h2, h3⟩ := h
  obtain ⟨e, c, l, r⟩ := n
  simp only at h1 h2 h3
  cases h3 with
  | none => cases he
  | @some a te' trl trr e' c' l' r' he' hl' hr' =>
    cases hl' with
    | none => cases he
    | @some a2 te2 trl2 trr2 e2 c2 l2 r2 he2 hl2 hr2 =>
      simp only [RBNode.removeBalanceLeft3, RBTree.node?, unwrap, Res.ok_bind] at he
      cases hs : r'.setColor .red with
      | error x => rw [hs] at he; cases he
      | ok r'' =>
        rw [hs] at he
        simp only [Res.ok_bind] at he
        cases hb : RBNode.removeBalance Ar ⟨e', .black, r2, r''⟩ with
        | error x => rw [hb] at he; cases he
        | ok nr =>
          rw [hb] at he
          cases he
          refine Safe.liftBind rfl ?_
          refine Safe.openNode (F := .ptr te :: optPtr tl) (by items_tac) fun q => ?_
          refine Safe.liftBind rfl ?_
          refine Safe.openNode (F := .opn q :: .ptr te' :: (optPtr trr ++ .ptr te :: optPtr tl)) (by items_tac) fun q2 => ?_
          refine Safe.bindFrame (F := .opn q2 :: .opn q :: .ptr te' :: .ptr te2 :: .ptr te :: (optPtr trl2 ++ optPtr trr2 ++ optPtr tl))
            (safe_hsetColor hr' hs) (by items_tac) ?_
          rintro _ _ ⟨tr', rfl, rfl, h5⟩
          refine Safe.bindFrame (F := .opn q2 :: .opn q :: .ptr te2 :: .ptr te :: (optPtr trl2 ++ optPtr tl))
            (safe_hremoveBalance (hn := fields te' .black trr2 tr') ⟨te', trr2, tr', rfl, rfl, he', hr2, h5⟩ hb) (by items_tac) ?_
          rintro hnr τ hnr'
          refine Safe.closeNode te c2 tl trl2 (.opn q :: .ptr te2 :: τ) (by items_tac) ?_
          refine Safe.closeIs hnr' [.ptr (treeOf q2 te c2 tl trl2), .ptr te2] (by items_tac) fun t e1 e2 => ?_
          refine Safe.perm (Safe.ret ⟨te2, some (treeOf q2 te c2 tl trl2), some t, by rw [← e1]; rfl, rfl, he2, .some h1 h2 hl2, e2⟩)
            (by items_tac)

theorem safe_hremoveBalanceRight3 {hn : HRBNode} {n n' : RBNode K V} (h : hn.Is n ρ) (he : n.removeBalanceRight3 Ar = .ok n') :
    Safe A D (fun r σ => r.Is n' σ) (hremoveBalanceRight3 Ar hn) ρ := by
  obtain ⟨te, tl, tr, rfl, rfl, h1, h2, h3⟩ := h
  obtain ⟨e, c, l, r⟩ := n
  simp only at h1 h2 h3
  cases h2 with
  | none => cases he
  | @some a te' tll tlr e' c' l' r' he' hl' hr' =>
    cases hr' with
    | none => cases he
    | @some a2 te2 tll2 tlr2 e2 c2 l2 r2 he2 hl2 hr2 =>
      simp only [RBNode.removeBalanceRight3, RBTree.node?, unwrap, Res.ok_bind] at he
      cases hs : l'.setColor .red with
      | error x => rw [hs] at he; cases he
      | ok l'' =>
        rw [hs] at he
        simp only [Res.ok_bind] at he
        cases hb : RBNode.removeBalance Ar ⟨e', .black, l'', l2⟩ with
        | error x => rw [hb] at he; cases he
        | ok nl =>
          rw [hb] at he
          cases he
          refine Safe.liftBind rfl ?_
          refine Safe.openNode (F := .ptr te :: optPtr tr) (by items_tac) fun q => ?_
          refine Safe.liftBind rfl ?_
          refine Safe.openNode (F := .opn q :: .ptr te' :: (optPtr tll ++ .ptr te :: optPtr tr)) (by items_tac) fun q2 => ?_
          refine Safe.bindFrame (F := .opn q2 :: .opn q :: .ptr te' :: .ptr te2 :: .ptr te :: (optPtr tll2 ++ optPtr tlr2 ++ optPtr tr))
            (safe_hsetColor hl' hs) (by items_tac) ?_
          rintro _ _ ⟨tl', rfl, rfl, h5⟩
          refine Safe.bindFrame (F := .opn q2 :: .opn q :: .ptr te2 :: .ptr te :: (optPtr tlr2 ++ optPtr tr))
            (safe_hremoveBalance (hn := fields te' .black tl' tll2) ⟨te', tl', tll2, rfl, rfl, he', h5, hl2⟩ hb) (by items_tac) ?_
          rintro hnl τ hnl'
          refine Safe.closeNode te c2 tlr2 tr (.opn q :: .ptr te2 :: τ) (by items_tac) ?_
          refine Safe.closeIs hnl' [.ptr (treeOf q2 te c2 tlr2 tr), .ptr te2] (by items_tac) fun t e1 e2 => ?_
          refine Safe.perm (Safe.ret ⟨te2, some t, some (treeOf q2 te c2 tlr2 tr), by rw [← e1]; rfl, rfl, he2, e2, .some h1 hr2 h3⟩)
            (by items_tac)

theorem removeBalanceLeft_case (n : RBNode K V) :
    n.removeBalanceLeft Ar = match leftCase n.left.color n.right.color n.right.leftColor with
      | 1 => n.left.setColor .black >>= fun l => .ok { n with color := .red, left := l }
      | 2 => n.right.setColor .red >>= fun r => RBNode.removeBalance Ar { n with color := .black, right := r }
      | 3 => n.removeBalanceLeft3 Ar
      | _ => .error .unreachable := by
  unfold RBNode.removeBalanceLeft
  simp only [RBNode.leftColor, RBNode.rightColor]
  generalize n.left.color = a1, n.right.color = a2, n.right.leftColor = a3
  rcases a1 with _ | _ | _ <;> rcases a2 with _ | _ | _ <;> rcases a3 with _ | _ | _ <;> rfl

theorem removeBalanceRight_case (n : RBNode K V) :
    n.removeBalanceRight Ar = match rightCase n.left.color n.left.rightColor n.right.color with
      | 1 => n.right.setColor .black >>= fun r => .ok { n with color := .red, right := r }
      | 2 => n.left.setColor .red >>= fun l => RBNode.removeBalance Ar { n with color := .black, left := l }
      | 3 => n.removeBalanceRight3 Ar
      | _ => .error .unreachable := by
  unfold RBNode.removeBalanceRight
  simp only [RBNode.leftColor, RBNode.rightColor]
  generalize n.left.color = a1, n.left.rightColor = a2, n.right.color = a3
  rcases a1 with _ | _ | _ <;> rcases a2 with _ | _ | _ <;> rcases a3 with _ | _ | _ <;> rfl

theorem safe_hremoveBalanceLeft {hn : HRBNode} {n n' : RBNode K V} (h : hn.Is n ρ) (he : n.removeBalanceLeft Ar = .ok n') :
    Safe A D (fun r σ => r.Is n' σ) (hremoveBalanceLeft Ar hn) ρ := by
  have hh := h
  obtain ⟨te, tl, tr, rfl, rfl, h1, h2, h3⟩ := h
  refine Safe.colorOf h2 (fun s => ptr_mem_left) ?_
  refine Safe.colorOf h3 (fun s => ptr_mem_right) ?_
  refine Safe.leftColorOf h3 (fun s => ptr_mem_right) ?_
  rw [removeBalanceLeft_case] at he
  revert he
  generalize leftCase n.left.color n.right.color n.right.leftColor = k
  intro he
  match k, he with
  | 0, he => cases he
  | 1, he =>
    obtain ⟨l', e1, e2⟩ := res_bind_ok he
    cases e2
    refine Safe.bindFrame (F := .ptr te :: optPtr tr) (safe_hsetColor h2 e1) (by items_tac) ?_
    rintro _ _ ⟨tl', rfl, rfl, h4⟩
    exact Safe.perm (Safe.ret ⟨te, tl', tr, rfl, rfl, h1, h4, h3⟩) (by items_tac)
  | 2, he =>
    obtain ⟨r', e1, e2⟩ := res_bind_ok he
    refine Safe.bindFrame (F := .ptr te :: optPtr tl) (safe_hsetColor h3 e1) (by items_tac) ?_
    rintro _ _ ⟨tr', rfl, rfl, h4⟩
    exact Safe.perm (safe_hremoveBalance (hn := fields te .black tl tr') (n := { n with color := .black, right := r' }) ⟨te, tl, tr', rfl, rfl, h1, h2, h4⟩ e2) (by items_tac)
  | 3, he => exact safe_hremoveBalanceLeft3 hh he
  | k + 4, he => cases he

theorem safe_hremoveBalanceRight {hn : HRBNode} {n n' : RBNode K V} (h : hn.Is n ρ) (he : n.removeBalanceRight Ar = .ok n') :
    Safe A D (fun r σ => r.Is n' σ) (hremoveBalanceRight Ar hn) ρ := by
  have hh := h
  obtain ⟨te, tl, tr, rfl, rfl, h1, h2, h3⟩ := h
  refine Safe.colorOf h3 (fun s => ptr_mem_right) ?_
  refine Safe.colorOf h2 (fun s => ptr_mem_left) ?_
  refine Safe.rightColorOf h2 (fun s => ptr_mem_left) ?_
  rw [removeBalanceRight_case] at he
  revert he
  generalize rightCase n.left.color n.left.rightColor n.right.color = k
  intro he
  match k, he with
  | 0, he => cases he
  | 1, he =>
    obtain ⟨r', e1, e2⟩ := res_bind_ok he
    cases e2
    refine Safe.bindFrame (F := .ptr te :: optPtr tl) (safe_hsetColor h3 e1) (by items_tac) ?_
    rintro _ _ ⟨tr', rfl, rfl, h4⟩
    exact Safe.perm (Safe.ret ⟨te, tl, tr', rfl, rfl, h1, h2, h4⟩) (by items_tac)
  | 2, he =>
    obtain ⟨l', e1, e2⟩ := res_bind_ok he
    refine Safe.bindFrame (F := .ptr te :: optPtr tr) (safe_hsetColor h2 e1) (by items_tac) ?_
    rintro _ _ ⟨tl', rfl, rfl, h4⟩
    exact Safe.perm (safe_hremoveBalance (hn := fields te .black tl' tr) (n := { n with color := .black, left := l' }) ⟨te, tl', tr, rfl, rfl, h1, h4, h3⟩ e2) (by items_tac)
  | 3, he => exact safe_hremoveBalanceRight3 hh he
  | k + 4, he => cases he

theorem safe_hreplace {hn : HRBNode} {n : RBNode K V} (h : hn.Is n ρ) (hb : n.left = .none ∧ n.right = .none) {a : Addr} {e : K × V} {l r : RBTree K V} (he : entIs te e)
    (hl : IsT tl l) (hr : IsT tr r) :
    Safe A D (fun x σ => x.Is ⟨e, c, l, r⟩ σ) (hreplace hn (treeOf a te c tl tr).addr) (ρ ++ [.ptr (treeOf a te c tl tr)]) := by
  refine Safe.openNode (F := ρ) (by perm_tac) fun q => ?_
  refine Safe.closeIs h (fieldItems te tl tr) (by items_tac) ?_
  rintro t rfl ht
  refine Safe.drop (.refl _) (ht.nest_bare hb.1 hb.2) ?_
  exact Safe.ret ⟨te, tl, tr, rfl, rfl, he, hl, hr⟩

/-- What `remove_fuse` has to do for subtrees whose heights add up to less than `k`. -/
def FuseOK (Ar : Arch) (A : Allocator (RLabel K V)) (D : Option Nat) (k : Nat)
    (sub : HRBNode → Option Addr → Option Addr → Prog (RLabel K V) (Bool × HRBNode)) : Prop :=
  ∀ (hn : HRBNode) (n : RBNode K V) (ρ : List (Item (RLabel K V))) (tl tr : Option (ATree (RLabel K V))) (l r : RBTree K V) (b : Bool)
    (n' : RBNode K V), hn.Is n ρ → n.left = .none ∧ n.right = .none → IsT tl l → IsT tr r → RBNode.removeFuse Ar n l r = .ok (b, n') → l.height + r.height < k →
    Safe A D (fun x σ => x.1 = b ∧ x.2.Is n' σ) (sub hn (tl.map ATree.addr) (tr.map ATree.addr)) (ρ ++ optPtr tl ++ optPtr tr)

/-- The end of the arms `(R, R)` and `(B, B)`. -/
def fuseEnd (Ar : Arch) (c : Color) (fused : Bool) (node l r : RBNode K V) : Res (RBNode K V) :=
  if node.color == .red && fused then .ok (RBNode.fuseRed node l r)
  else
    match c with
    | .red => .ok (RBNode.fuseSwap fused node l r)
    | .black => RBNode.removeBalanceLeft Ar { RBNode.fuseSwap fused node l r with color := .red }

/-- `remove_fuse` on nothing leaves the node as it is. -/
theorem removeFuse_unfused {n m : RBNode K V} {l r : RBTree K V} (h : RBNode.removeFuse Ar n l r = .ok (false, m)) : m = n := by
  rw [RBNode.removeFuse.eq_def] at h
  cases l with
  | none =>
    cases r with
    | none => cases h; rfl
    | some re rc rl rr => cases h
  | some le lc ll lr =>
    cases r with
    | none => cases h
    | some re rc rl rr =>
      cases lc <;> cases rc
      all_goals
        obtain ⟨⟨b', x⟩, h1, h2⟩ := res_bind_ok h
        simp only at h2
        first
        | cases h2
        | (split at h2
           · cases h2
           · first
             | cases h2
             | (obtain ⟨y, h3, h4⟩ := res_bind_ok h2; cases h4))

theorem safe_dropUnless {fused : Bool} {t : ATree (RLabel K V)} (hn : fused = false → Within D (nest (reach F) t)) (h : σ.Perm ((if fused then [] else [.ptr t]) ++ F)) :
    Safe A D (fun _ τ => τ = F) (dropUnless fused t.addr) σ := by
  cases fused
  · exact Safe.perm (safe_drop (hn rfl)) h
  · exact Safe.perm (Safe.ret rfl) h

theorem safe_hfuseSame {sub : HRBNode → Option Addr → Option Addr → Prog (RLabel K V) (Bool × HRBNode)} {k : Nat}
    (hsub : FuseOK Ar A D k sub) {hn : HRBNode} {n : RBNode K V} (h : hn.Is n ρ)
    (hb : n.left = .none ∧ n.right = .none) {c : Color} {al ar : Addr} {tel ter : ATree (RLabel K V)} {cl cr : Color} {tll tlr trl trr : Option (ATree (RLabel K V))}
    {el er : K × V} {ll lr rl rr : RBTree K V} (hel : entIs tel el) (hll : IsT tll ll) (hlr : IsT tlr lr) (her : entIs ter er)
    (hrl : IsT trl rl) (hrr : IsT trr rr) (hk : lr.height + rl.height < k) {b : Bool} {m n' : RBNode K V}
    (h1 : RBNode.removeFuse Ar n lr rl = .ok (b, m))
    (h2 : fuseEnd Ar c b m ⟨el, cl, ll, .none⟩ ⟨er, cr, .none, rr⟩ = .ok n') :
    Safe A D (fun x σ => x.1 = true ∧ x.2.Is n' σ)
      (hfuseSame Ar c sub hn (treeOf al tel cl tll tlr).addr (treeOf ar ter cr trl trr).addr)
      (ρ ++ [.ptr (treeOf al tel cl tll tlr)] ++ [.ptr (treeOf ar ter cr trl trr)]) := by
  refine Safe.openNode (F := ρ ++ [.ptr (treeOf al tel cl tll tlr)]) (by perm_tac) fun qr => ?_
  refine Safe.openNode (F := .opn qr :: (fieldItems ter trl trr ++ ρ)) (by items_tac) fun ql => ?_
  refine Safe.bindFrame (F := .opn ql :: .opn qr :: .ptr tel :: .ptr ter :: (optPtr tll ++ optPtr trr))
    (hsub hn n ρ tlr trl lr rl b m h hb hlr hrl h1 hk) (by items_tac) ?_
  rintro ⟨b', hm⟩ τ ⟨rfl, hi⟩
  have hcol : hm.color = m.color := by obtain ⟨_, _, _, rfl, -⟩ := hi; rfl
  simp only [hcol]
  unfold fuseEnd at h2
  split
  · next hc =>
    rw [if_pos hc] at h2
    cases h2
    obtain ⟨te, tl, tr, rfl, rfl, h3, h4, h5⟩ := hi
    refine Safe.bind (Q := fun x σ => x.Is (RBNode.fuseRed m ⟨el, cl, ll, .none⟩ ⟨er, cr, .none, rr⟩) σ) ?_ fun r σ hr => Safe.ret ⟨rfl, hr⟩
    refine Safe.closeNode tel cl tll tl (.opn qr :: .ptr te :: .ptr ter :: (optPtr tr ++ optPtr trr)) (by items_tac) ?_
    refine Safe.closeNode ter cr tr trr [.ptr (treeOf ql tel cl tll tl), .ptr te] (by items_tac) ?_
    exact Safe.perm (Safe.ret ⟨te, some (treeOf ql tel cl tll tl), some (treeOf qr ter cr tr trr), rfl, rfl, h3, .some hel hll h4,
      .some her h5 hrr⟩) (by items_tac)
  · next hc =>
    rw [if_neg hc] at h2
    refine Safe.bind (Q := fun x σ => ∃ (t : ATree (RLabel K V)) (σ' : List (Item (RLabel K V))), t.addr = ql ∧
      (b' = false → ∀ H, Within D (nest H t)) ∧ σ = (if b' then [] else [.ptr t]) ++ σ' ∧ x.Is (RBNode.fuseSwap b' m ⟨el, cl, ll, .none⟩ ⟨er, cr, .none, rr⟩) σ') ?_ ?_
    · refine Safe.closeIs hi (.opn qr :: .ptr tel :: .ptr ter :: (optPtr tll ++ optPtr trr)) (by items_tac) fun t e1 e2 => ?_
      cases b' with
      | false =>
        refine Safe.closeNode ter cr none trr (.ptr t :: .ptr tel :: optPtr tll) (by items_tac) ?_
        exact Safe.perm (Safe.ret ⟨t, _, e1, fun _ _ => by
          cases removeFuse_unfused h1
          exact e2.nest_bare hb.1 hb.2, rfl, tel, tll, some (treeOf qr ter cr none trr), rfl, rfl, hel, hll,
          .some her .none hrr⟩) (by simp only [Bool.false_eq_true, if_false]; items_tac)
      | true =>
        simp only [← e1]
        refine Safe.closeNode ter cr (some t) trr (.ptr tel :: optPtr tll) (by items_tac) ?_
        exact Safe.perm (Safe.ret ⟨t, _, rfl, fun e => (nomatch e), rfl, tel, tll, some (treeOf qr ter cr (some t) trr), rfl, rfl, hel, hll,
          .some her e2 hrr⟩) (by simp only [if_true]; items_tac)
    · rintro x _ ⟨t, σ', rfl, hw, rfl, hx⟩
      cases c with
      | red =>
        cases h2
        refine Safe.bind (safe_dropUnless (fun e => hw e _) (.refl _)) ?_
        rintro _ _ rfl
        exact Safe.ret ⟨rfl, hx⟩
      | black =>
        refine Safe.bindFrame (F := if b' then [] else [.ptr t]) (safe_hremoveBalanceLeft (hx.setColor .red) h2) (by perm_tac) ?_
        rintro y σ'' hy
        refine Safe.bind (safe_dropUnless (F := σ'') (fun e => hw e _) (by perm_tac)) ?_
        rintro _ _ rfl
        exact Safe.ret ⟨rfl, hy⟩

theorem safe_hremoveFuseStep {sub : HRBNode → Option Addr → Option Addr → Prog (RLabel K V) (Bool × HRBNode)} {k : Nat}
    (hsub : FuseOK Ar A D k sub) : FuseOK Ar A D (k + 1) (hremoveFuseStep Ar sub) := by
  intro hn n ρ tl tr l r b n' h hb hl hr he hk
  rw [RBNode.removeFuse.eq_def] at he
  cases hl with
  | none =>
    cases hr with
    | none =>
      cases he
      exact Safe.perm (Safe.ret ⟨rfl, h⟩) (by items_tac)
    | @some a te tl tr e c l r he1 hl hr =>
      cases he
      refine Safe.bind (Safe.perm (safe_hreplace h hb he1 hl hr) (by items_tac)) ?_
      intro x σ hx
      exact Safe.ret ⟨rfl, hx⟩
  | @some al tel tll tlr el cl ll lr hel hll hlr =>
    cases hr with
    | none =>
      cases he
      refine Safe.bind (Safe.perm (safe_hreplace h hb hel hll hlr) (by items_tac)) ?_
      intro x σ hx
      exact Safe.ret ⟨rfl, hx⟩
    | @some ar ter trl trr er cr rl rr her hrl hrr =>
      simp only [RBTree.height] at hk
      refine Safe.bind (safe_readNode (a := al) (te := tel) (c := cl) (tl := tll) (tr := tlr) rfl (.refl _) (by simp)) ?_
      rintro _ _ ⟨rfl, rfl⟩
      refine Safe.bind (safe_readNode (a := ar) (te := ter) (c := cr) (tl := trl) (tr := trr) rfl (.refl _) (by simp)) ?_
      rintro _ _ ⟨rfl, rfl⟩
      cases cl with
      | black =>
        cases cr with
        | red =>
          obtain ⟨⟨b', m⟩, h1, h2⟩ := res_bind_ok he
          cases h2
          refine Safe.openNode (F := ρ ++ [.ptr (treeOf al tel .black tll tlr)]) (by items_tac) fun q => ?_
          refine Safe.bindFrame (F := .opn q :: .ptr ter :: optPtr trr)
            (hsub hn n ρ (some (treeOf al tel .black tll tlr)) trl _ rl b' m h hb (.some hel hll hlr) hrl h1 (by simp only [RBTree.height]; omega))
            (by items_tac) ?_
          rintro ⟨_, hm⟩ τ ⟨rfl, hi⟩
          refine Safe.closeIs hi (.ptr ter :: optPtr trr) (by items_tac) fun t e1 e2 => ?_
          refine Safe.perm (Safe.ret ⟨rfl, ter, some t, trr, by rw [← e1]; rfl, rfl, her, e2, hrr⟩) (by items_tac)
        | black =>
          obtain ⟨⟨b', m⟩, h1, h2⟩ := res_bind_ok he
          have : b = true ∧ fuseEnd Ar .black b' m ⟨el, .black, ll, .none⟩ ⟨er, .black, .none, rr⟩ = .ok n' := by
            unfold fuseEnd
            simp only at h2
            split at h2
            · next hc => rw [if_pos hc]; cases h2; exact ⟨rfl, rfl⟩
            · next hc =>
              rw [if_neg hc]
              obtain ⟨m', h3, h4⟩ := res_bind_ok h2
              cases h4
              exact ⟨rfl, h3⟩
          obtain ⟨rfl, h3⟩ := this
          exact safe_hfuseSame hsub h hb hel hll hlr her hrl hrr (by omega) h1 h3
      | red =>
        cases cr with
        | red =>
          obtain ⟨⟨b', m⟩, h1, h2⟩ := res_bind_ok he
          have : b = true ∧ fuseEnd Ar .red b' m ⟨el, .red, ll, .none⟩ ⟨er, .red, .none, rr⟩ = .ok n' := by
            unfold fuseEnd
            simp only at h2
            split at h2
            · next hc => rw [if_pos hc]; cases h2; exact ⟨rfl, rfl⟩
            · next hc =>
              rw [if_neg hc]
              cases h2
              exact ⟨rfl, rfl⟩
          obtain ⟨rfl, h3⟩ := this
          exact safe_hfuseSame hsub h hb hel hll hlr her hrl hrr (by omega) h1 h3
        | black =>
          obtain ⟨⟨b', m⟩, h1, h2⟩ := res_bind_ok he
          cases h2
          refine Safe.openNode (F := ρ ++ [.ptr (treeOf ar ter .black trl trr)]) (by items_tac) fun q => ?_
          refine Safe.bindFrame (F := .opn q :: .ptr tel :: optPtr tll)
            (hsub hn n ρ tlr (some (treeOf ar ter .black trl trr)) lr _ b' m h hb hlr (.some her hrl hrr) h1 (by simp only [RBTree.height]; omega))
            (by items_tac) ?_
          rintro ⟨_, hm⟩ τ ⟨rfl, hi⟩
          refine Safe.closeIs hi (.ptr tel :: optPtr tll) (by items_tac) fun t e1 e2 => ?_
          refine Safe.perm (Safe.ret ⟨rfl, tel, tll, some t, by rw [← e1]; rfl, rfl, hel, hll, e2⟩) (by items_tac)

theorem safe_hremoveFuse (fuel : Nat) : FuseOK Ar A D (fuel + 1) (hremoveFuse Ar fuel) := by
  induction fuel with
  | zero => exact safe_hremoveFuseStep (fun _ _ _ _ _ _ _ _ _ _ _ _ _ _ h => absurd h (by omega))
  | succ fuel ih => exact safe_hremoveFuseStep ih

theorem safe_hdelDone {hn : HRBNode} {n : RBNode K V} (h : hn.Is n ρ) (is_root b : Bool)
    (hb : b = true → n.left = .none ∧ n.right = .none) {q : Addr} (hp : σ.Perm (.opn q :: ρ)) :
    Safe A D (fun r σ => TreeIs r (RBTree.delDone is_root b n) σ) (hdelDone is_root b q hn) σ := by
  have h' : HRBNode.Is (if is_root then { hn with color := .black } else hn) (if is_root then { n with color := .black } else n) ρ := by
    cases is_root
    · exact h
    · exact h.setColor .black
  refine Safe.closeIs h' [] (by simpa using hp) fun t e1 e2 => ?_
  cases b with
  | false => exact Safe.ret ⟨some t, by rw [← e1]; rfl, rfl, e2⟩
  | true =>
    subst e1
    refine Safe.drop (F := []) (.refl _) ?_ ?_
    · cases is_root
      · exact e2.nest_bare (hb rfl).1 (hb rfl).2
      · exact IsT.nest_bare (n := { n with color := .black }) e2 (hb rfl).1 (hb rfl).2
    exact Safe.ret ⟨none, rfl, rfl, .none⟩

theorem safe_hdel (o : OrdKeys K Q) (key : Q) {t : Option (ATree (RLabel K V))} {s s' : RBTree K V} (ht : IsT t s) {b is_root : Bool}
    (he : RBTree.del Ar o key s is_root = .ok (b, s')) {fuel : Nat} (hf : 2 * s.height ≤ fuel) :
    Safe A D (fun r σ => r.1 = b ∧ TreeIs r.2 s' σ) (hdel Ar o key fuel (t.map ATree.addr) is_root) (optPtr t) := by
  induction ht generalizing fuel b is_root s' with
  | none =>
    simp only [RBTree.del] at he
    cases he
    cases fuel <;> exact Safe.ret ⟨rfl, none, rfl, rfl, .none⟩
  | @some a te tl tr e c l r he1 hl hr ihl ihr =>
    simp only [RBTree.height] at hf
    obtain ⟨fuel, rfl⟩ : ∃ n, fuel = n + 1 := ⟨fuel - 1, by omega⟩
    refine Safe.openNode (F := []) (.refl _) fun q => ?_
    refine Safe.readEntry he1 (by simp [fieldItems]) ?_
    simp only [RBTree.del] at he
    cases hc : o.cmpQ key (o.borrow e.1) with
    | lt =>
      simp only [hc] at he
      obtain ⟨⟨b', l'⟩, h1, h2⟩ := res_bind_ok he
      obtain ⟨n', h3, h4⟩ := res_bind_ok h2
      cases h4
      refine Safe.bind (Q := fun y τ => ∃ τ', τ = .opn q :: τ' ∧ y.1 = b' ∧ y.2.Is n' τ') ?_ ?_
      · refine Safe.colorOf hl (fun s e => by subst e; simp [fieldItems]) ?_
        refine Safe.bindFrame (F := .opn q :: .ptr te :: optPtr tr) (ihl h1 (by omega)) (by items_tac) ?_
        rintro ⟨_, p⟩ _ ⟨rfl, t', rfl, rfl, ht'⟩
        unfold RBTree.delLeft at h3
        simp only
        split
        · next hc =>
          rw [if_pos hc] at h3
          refine Safe.bindFrame (F := [.opn q]) (safe_hremoveBalanceLeft (hn := fields te .red t' tr) (n := ⟨e, .red, l', r⟩)
            ⟨te, t', tr, rfl, rfl, he1, ht', hr⟩ h3) (by items_tac) ?_
          intro x τ hx
          exact Safe.perm (Safe.ret ⟨τ, rfl, rfl, hx⟩) (by perm_tac)
        · next hc =>
          rw [if_neg hc] at h3
          cases h3
          exact Safe.perm (Safe.ret ⟨_, rfl, rfl, te, t', tr, rfl, rfl, he1, ht', hr⟩) (by items_tac)
      · rintro ⟨b2, hn⟩ _ ⟨τ, rfl, rfl, hi⟩
        refine Safe.bind (safe_hdelDone hi is_root false (fun e => nomatch e) (.refl _)) ?_
        intro p τ' hp
        exact Safe.ret ⟨rfl, hp⟩
    | eq =>
      simp only [hc] at he
      obtain ⟨⟨fused, n'⟩, h1, h2⟩ := res_bind_ok he
      cases h2
      refine Safe.bindFrame (F := [.opn q]) (safe_hremoveFuse (fuel + 1) (fields te c none none) ⟨e, c, .none, .none⟩
        (fieldItems te none none) tl tr l r fused n' ⟨te, none, none, rfl, rfl, he1, .none, .none⟩ ⟨rfl, rfl⟩ hl hr h1 (by omega)) (by items_tac) ?_
      rintro ⟨b2, hn⟩ τ ⟨rfl, hi⟩
      refine Safe.bind (safe_hdelDone hi is_root _ (fun e => by
        cases b2 with
        | true => cases e
        | false => cases removeFuse_unfused h1; exact ⟨rfl, rfl⟩) (by perm_tac)) ?_
      intro p τ' hp
      exact Safe.ret ⟨rfl, hp⟩
    | gt =>
      simp only [hc] at he
      obtain ⟨⟨b', r'⟩, h1, h2⟩ := res_bind_ok he
      obtain ⟨n', h3, h4⟩ := res_bind_ok h2
      cases h4
      refine Safe.bind (Q := fun y τ => ∃ τ', τ = .opn q :: τ' ∧ y.1 = b' ∧ y.2.Is n' τ') ?_ ?_
      · refine Safe.colorOf hr (fun s e => by subst e; simp [fieldItems]) ?_
        refine Safe.bindFrame (F := .opn q :: .ptr te :: optPtr tl) (ihr h1 (by omega)) (by items_tac) ?_
        rintro ⟨_, p⟩ _ ⟨rfl, t', rfl, rfl, ht'⟩
        unfold RBTree.delRight at h3
        simp only
        split
        · next hc =>
          rw [if_pos hc] at h3
          refine Safe.bindFrame (F := [.opn q]) (safe_hremoveBalanceRight (hn := fields te .red tl t') (n := ⟨e, .red, l, r'⟩)
            ⟨te, tl, t', rfl, rfl, he1, hl, ht'⟩ h3) (by items_tac) ?_
          intro x τ hx
          exact Safe.perm (Safe.ret ⟨τ, rfl, rfl, hx⟩) (by perm_tac)
        · next hc =>
          rw [if_neg hc] at h3
          cases h3
          exact Safe.perm (Safe.ret ⟨_, rfl, rfl, te, tl, t', rfl, rfl, he1, hl, ht'⟩) (by items_tac)
      · rintro ⟨b2, hn⟩ _ ⟨τ, rfl, rfl, hi⟩
        refine Safe.bind (safe_hdelDone hi is_root false (fun e => nomatch e) (.refl _)) ?_
        intro p τ' hp
        exact Safe.ret ⟨rfl, hp⟩

end

end Heap
end Rpds
