import Verif.Heap.RedBlackMap
import Verif.RedBlack.Panic
/-
`RedBlackTreeMap` on the reference counted heap with user code that may panic, change its answers from call to call, or do anything else
(`RBUser`): the functions of `Verif/RedBlack/Panic.lean` with every pointer operation spelled out, or those of `Verif/Heap/RedBlack.lean` with
every call of user code written as such.  Line numbers are those of /repo/src/map/red_black_tree_map/mod.rs.

A panic unwinds: the borrows made by `make_mut` end, with the fields of the nodes as they are, and what local variables own is dropped (the new
map of `insert` and `remove`).  As in the value model `make_mut` of an entry always asks `Clone`, where the code asks it only if the entry is
shared; user code that does not panic then, and does not change its state, is the other case.
-/
set_option autoImplicit false
namespace Rpds
namespace Heap

section model
variable {S K V Q : Type} (Ar : Arch) (U : RBUser S K V Q)

/-- `Node::get` (169-179) with the read of the entry; `sub` is the recursive call. -/
def hgetUStep (key : Q) (sub : Option Addr → S → Prog (RLabel K V) (Option (Option (K × V)) × S)) :
    Option Addr → S → Prog (RLabel K V) (Option (Option (K × V)) × S)
  | none, s => .ret (some none, s)
  | some p, s =>
    Prog.bind (readNode p) fun node =>
    Prog.bind (readEntry node.entry) fun e =>
    match U.cmpQ s key e.1 with
    | (none, s) => .ret (none, s)
    | (some .lt, s) => sub node.left s
    | (some .eq, s) => .ret (some (some e), s)
    | (some .gt, s) => sub node.right s

/-- `Node::get` (169-179). -/
def hgetU (key : Q) : (fuel : Nat) → Option Addr → S → Prog (RLabel K V) (Option (Option (K × V)) × S)
  | 0 => hgetUStep U key fun _ _ => .panic
  | fuel + 1 => hgetUStep U key (hgetU key fuel)

/-- What `ins` does after the call for a child (384-390, 398-404): nothing if it panicked. -/
def hinsUDone (is_root : Bool) (is_new_key : Option Bool) (node : HRBNode) (s : S) : Prog (RLabel K V) (Option Bool × HRBNode × S) :=
  match is_new_key with
  | none => .ret (none, node, s)
  | some b => Prog.bind (hinsDone is_root b node) fun w => .ret (some w.1, w.2, s)

/-- `ins` inside `Node::insert` (373-427); `sub` is the recursive call. -/
def hinsUStep (k : K) (v : V) (sub : Option Addr → Bool → S → Prog (RLabel K V) (Option Bool × Option Addr × S)) :
    Option Addr → Bool → S → Prog (RLabel K V) (Option Bool × Option Addr × S)
  | none, is_root, s =>
    Prog.bind (new (.entry k v) []) fun e =>
    Prog.bind (newNode ⟨e, if is_root then .black else .red, none, none⟩) fun p => .ret (some true, some p, s)
  | some p, is_root, s =>
    Prog.bind (openNode p) fun x =>
    let node := x.2
    Prog.bind (readEntry node.entry) fun e =>
    Prog.bind (match U.cmpK s k e.1 with
      | (none, s) => .ret (none, node, s)
      | (some .lt, s) => Prog.bind (sub node.left false s) fun y => hinsUDone is_root y.1 { node with left := y.2.1 } y.2.2
      | (some .eq, s) =>
        Prog.bind (new (.entry k v) []) fun e' =>
        Prog.bind (drop node.entry) fun _ => hinsUDone is_root (some false) { node with entry := e' } s
      | (some .gt, s) => Prog.bind (sub node.right false s) fun y => hinsUDone is_root y.1 { node with right := y.2.1 } y.2.2) fun z =>
    Prog.bind (closeNode x.1 z.2.1) fun _ => .ret (z.1, some x.1, z.2.2)

/-- `ins` inside `Node::insert` (373-427). -/
def hinsU (k : K) (v : V) : (fuel : Nat) → Option Addr → Bool → S → Prog (RLabel K V) (Option Bool × Option Addr × S)
  | 0 => hinsUStep U k v fun _ _ _ => .panic
  | fuel + 1 => hinsUStep U k v (hinsU k v fuel)

/-- The end of `del_left` and `del` after the call for the left child (683-689, 738-751); if that panicked only the borrow ends. -/
def hdelLeftUDone (is_root : Bool) (q : Addr) (original_left_color : Option Color) (node : HRBNode) (y : Option Bool × Option Addr × S) :
    Prog (RLabel K V) (Option Bool × Option Addr × S) :=
  match y.1 with
  | none => Prog.bind (closeNode q { node with left := y.2.1 }) fun _ => .ret (none, some q, y.2.2)
  | some removed =>
    let node := { node with left := y.2.1 }
    let node := { node with color := .red }
    Prog.bind (if original_left_color = some .black then hremoveBalanceLeft Ar node else .ret node) fun node =>
    Prog.bind (hdelDone is_root false q node) fun p => .ret (some removed, p, y.2.2)

/-- The end of `del_right` and `del` after the call for the right child (701-708, 738-751). -/
def hdelRightUDone (is_root : Bool) (q : Addr) (original_right_color : Option Color) (node : HRBNode) (y : Option Bool × Option Addr × S) :
    Prog (RLabel K V) (Option Bool × Option Addr × S) :=
  match y.1 with
  | none => Prog.bind (closeNode q { node with right := y.2.1 }) fun _ => .ret (none, some q, y.2.2)
  | some removed =>
    let node := { node with right := y.2.1 }
    let node := { node with color := .red }
    Prog.bind (if original_right_color = some .black then hremoveBalanceRight Ar node else .ret node) fun node =>
    Prog.bind (hdelDone is_root false q node) fun p => .ret (some removed, p, y.2.2)

/-- `del` inside `Node::remove` (711-752); `sub` is the recursive call. -/
def hdelUStep (key : Q) (fuel : Nat) (sub : Option Addr → Bool → S → Prog (RLabel K V) (Option Bool × Option Addr × S)) :
    Option Addr → Bool → S → Prog (RLabel K V) (Option Bool × Option Addr × S)
  | none, _, s => .ret (some false, none, s)
  | some p, is_root, s =>
    Prog.bind (openNode p) fun x =>
    let node := x.2
    Prog.bind (readEntry node.entry) fun e =>
    match U.cmpQ s key e.1 with
    | (none, s) => Prog.bind (closeNode x.1 node) fun _ => .ret (none, some x.1, s)
    | (some .lt, s) =>
      Prog.bind (colorOf node.left) fun original_left_color =>
      Prog.bind (sub node.left false s) fun y => hdelLeftUDone Ar is_root x.1 original_left_color node y
    | (some .eq, s) =>
      let left := node.left
      let right := node.right
      Prog.bind (hremoveFuse Ar fuel { node with left := none, right := none } left right) fun y =>
      Prog.bind (hdelDone is_root (!y.1) x.1 y.2) fun p => .ret (some true, p, s)
    | (some .gt, s) =>
      Prog.bind (colorOf node.right) fun original_right_color =>
      Prog.bind (sub node.right false s) fun y => hdelRightUDone Ar is_root x.1 original_right_color node y

/-- `del` inside `Node::remove` (711-752). -/
def hdelU (key : Q) : (fuel : Nat) → Option Addr → Bool → S → Prog (RLabel K V) (Option Bool × Option Addr × S)
  | 0 => hdelUStep Ar U key 0 fun _ _ _ => .panic
  | fuel + 1 => hdelUStep Ar U key (fuel + 1) (hdelU key fuel)

/-- `Node::get_mut` (764-778) behind `make_mut`, followed by a write of `f old` through the reference; `sub` is the recursive call. -/
def hgetMutUStep (key : Q) (f : V → V) (sub : Option Addr → S → Prog (RLabel K V) (Option (Option V) × Option Addr × S)) :
    Option Addr → S → Prog (RLabel K V) (Option (Option V) × Option Addr × S)
  | none, s => .ret (some none, none, s)
  | some p, s =>
    Prog.bind (openNode p) fun x =>
    let node := x.2
    Prog.bind (readEntry node.entry) fun e =>
    Prog.bind (match U.cmpQ s key e.1 with
      | (none, s) => .ret (none, node, s)
      | (some .lt, s) => Prog.bind (sub node.left s) fun y => .ret (y.1, { node with left := y.2.1 }, y.2.2)
      | (some .eq, s) =>
        match U.clone s e with
        | (none, s) => .ret (none, node, s)
        | (some _, s) => Prog.bind (modifyPtr node.entry (modifyEntry f)) fun y => .ret (some (some y.1), { node with entry := y.2 }, s)
      | (some .gt, s) => Prog.bind (sub node.right s) fun y => .ret (y.1, { node with right := y.2.1 }, y.2.2)) fun z =>
    Prog.bind (closeNode x.1 z.2.1) fun _ => .ret (z.1, some x.1, z.2.2)

/-- `Node::get_mut` (764-778). -/
def hgetMutU (key : Q) (f : V → V) : (fuel : Nat) → Option Addr → S → Prog (RLabel K V) (Option (Option V) × Option Addr × S)
  | 0 => hgetMutUStep U key f fun _ _ => .panic
  | fuel + 1 => hgetMutUStep U key f (hgetMutU key f fuel)

namespace HRBMap

/-- `RedBlackTreeMap::insert_mut` (848-854). -/
def insertMutU (m : HRBMap) (key : K) (value : V) (s : S) : Prog (RLabel K V) (Option Unit × HRBMap) :=
  Prog.bind (hinsU U key value m.fuel m.root true s) fun x =>
    match x.1 with
    | none => .ret (none, { m with root := x.2.1 })
    | some b => .ret (some (), ⟨x.2.1, if b then m.size + 1 else m.size⟩)

/-- `RedBlackTreeMap::remove_mut` (872-887). -/
def removeMutU (m : HRBMap) (key : Q) (s : S) : Prog (RLabel K V) (Option Bool × HRBMap) :=
  Prog.bind (hdelU Ar U key m.fuel m.root true s) fun x =>
    match x.1 with
    | none => .ret (none, { m with root := x.2.1 })
    | some true => Prog.bind (lift (csub m.size 1)) fun size => .ret (some true, ⟨x.2.1, size⟩)
    | some false => .ret (some false, { m with root := x.2.1 })

end HRBMap

/-- The operations all maps have (the same as in `RBMap.stepU`). -/
def rbHStepU (s : S) (m : HRBMap) : MapOp K V Q → Prog (RLabel K V) (Option (MapRet K V) × Effect HRBMap)
  | .insert k v =>
    Prog.bind m.clone fun new_map =>
    Prog.bind (new_map.insertMutU U k v s) fun x =>
      match x.1 with
      | none => Prog.bind x.2.dropMap fun _ => .ret (none, .keep)
      | some _ => .ret (some .unit, .fresh x.2)
  | .insertMut k v =>
    Prog.bind (m.insertMutU U k v s) fun x =>
      match x.1 with
      | none => .ret (none, .update x.2)
      | some _ => .ret (some .unit, .update x.2)
  | .remove q =>
    Prog.bind m.clone fun new_map =>
    Prog.bind (new_map.removeMutU Ar U q s) fun x =>
      match x.1 with
      | none => Prog.bind x.2.dropMap fun _ => .ret (none, .keep)
      | some true => .ret (some .unit, .fresh x.2)
      | some false =>
        Prog.bind m.clone fun m' =>
        Prog.bind x.2.dropMap fun _ => .ret (some .unit, .fresh m')
  | .removeMut q =>
    Prog.bind (m.removeMutU Ar U q s) fun x =>
      match x.1 with
      | none => .ret (none, .update x.2)
      | some b => .ret (some (.bool b), .update x.2)
  | .getMut q f =>
    Prog.bind (hgetMutU U q f m.fuel m.root s) fun x => .ret (x.1.map .optV, .update { m with root := x.2.1 })
  | .clone => Prog.bind m.clone fun m' => .ret (some .unit, .fresh m')
  | .get q => Prog.bind (hgetU U q m.fuel m.root s) fun x => .ret (x.1.map fun x => .optV (x.map (·.2)), .keep)
  | .getKeyValue q => Prog.bind (hgetU U q m.fuel m.root s) fun x => .ret (x.1.map fun x => .optKV x, .keep)
  | .containsKey q => Prog.bind (hgetU U q m.fuel m.root s) fun x => .ret (x.1.map fun x => .bool x.isSome, .keep)
  | .index q =>
    Prog.bind (hgetU U q m.fuel m.root s) fun x =>
      .ret (x.1.map fun x => match x with | none => .panicked | some e => .optV (some e.2), .keep)
  | .size => .ret (some (.nat m.size), .keep)
  | .isEmpty => .ret (some (.bool (m.size == 0)), .keep)

/-- `RedBlackTreeMap` for clients that bring their own user code to each operation, and catch panics. -/
def rbImplU (S K V Q : Type) (Ar : Arch) : Impl (RLabel K V) HRBMap (RBUser S K V Q × S × MapOp K V Q) (Option (MapRet K V)) where
  ptrs m := m.root.toList
  new := HRBMap.new
  step m p := rbHStepU Ar p.1 p.2.1 m p.2.2
  drop m := m.dropMap

end model

section
variable {S K V Q : Type} {A : Allocator (RLabel K V)} {D : Option Nat} [Roomy D] {Ar : Arch} {U : RBUser S K V Q}

theorem safe_hgetU (key : Q) {ρ : List (Item (RLabel K V))} {t : Option (ATree (RLabel K V))} {v : RBTree K V} (ht : IsT t v)
    (hin : ∀ s, t = some s → ∃ u, Sub s u ∧ .ptr u ∈ ρ) {fuel : Nat} (hf : v.height ≤ fuel) (st : S) :
    Safe A D (fun r σ => r = v.getU U key st ∧ σ = ρ) (hgetU U key fuel (t.map ATree.addr) st) ρ := by
  induction ht generalizing fuel st with
  | none => cases fuel <;> exact Safe.ret ⟨rfl, rfl⟩
  | @some a te tl tr e c l r he hl hr ihl ihr =>
    simp only [RBTree.height] at hf
    obtain ⟨fuel, rfl⟩ : ∃ n, fuel = n + 1 := ⟨fuel - 1, by omega⟩
    obtain ⟨u, h1, h2⟩ := hin _ rfl
    refine Safe.bind (safe_readNode rfl h1 h2) ?_
    rintro _ _ ⟨rfl, rfl⟩
    refine Safe.bind (safe_readEntry he (.kid h1 mem_kids_entry) h2) ?_
    rintro _ _ ⟨rfl, rfl⟩
    simp only [RBTree.getU]
    rcases U.cmpQ st key _ with ⟨_ | x, st'⟩
    · exact Safe.ret ⟨rfl, rfl⟩
    cases x with
    | lt => exact ihl (fun s hs => ⟨u, .kid h1 (mem_kids_left hs), h2⟩) (by omega) st'
    | eq => exact Safe.ret ⟨rfl, rfl⟩
    | gt => exact ihr (fun s hs => ⟨u, .kid h1 (mem_kids_right hs), h2⟩) (by omega) st'

theorem safe_hinsU (k : K) (v : V) {t : Option (ATree (RLabel K V))} {s s' : RBTree K V} (ht : IsT t s) {b : Option Bool} {is_root : Bool}
    {st st' : S} (he : RBTree.insU U k v s is_root st = .ok (b, s', st')) {fuel : Nat} (hf : s.height ≤ fuel) :
    Safe A D (fun r σ => r.1 = b ∧ TreeIs r.2.1 s' σ ∧ r.2.2 = st') (hinsU U k v fuel (t.map ATree.addr) is_root st) (optPtr t) := by
  induction ht generalizing fuel b is_root s' st st' with
  | none =>
    simp only [RBTree.insU] at he
    cases he
    have : Safe A D (fun r σ => r.1 = some true ∧
        TreeIs r.2.1 (if is_root then RBNode.newBlack (k, v) else RBNode.newRed (k, v)).ptr σ ∧ r.2.2 = st)
        (hinsUStep U k v (fun _ _ _ => .panic) none is_root st) [] := by
      refine Safe.bind (safe_new (RLabel.entry k v) []) ?_
      rintro e _ rfl
      refine Safe.bind (safe_new (RLabel.node (if is_root then .black else .red) false false) [.node e (.entry k v) []]) ?_
      rintro p _ rfl
      refine Safe.ret ⟨rfl, ⟨some (treeOf p (.node e (.entry k v) []) (if is_root then .black else .red) none none), rfl, rfl, ?_⟩, rfl⟩
      cases is_root <;> exact .some ⟨rfl, rfl⟩ .none .none
    cases fuel <;> exact this
  | @some a te tl tr e c l r he1 hl hr ihl ihr =>
    simp only [RBTree.height] at hf
    obtain ⟨fuel, rfl⟩ : ∃ n, fuel = n + 1 := ⟨fuel - 1, by omega⟩
    refine Safe.openNode (F := []) (.refl _) fun q => ?_
    refine Safe.readEntry he1 (by simp [fieldItems]) ?_
    have fin : ∀ (z : Option Bool × HRBNode × S) (τ : List (Item (RLabel K V))), (∃ τ', τ = τ' ++ [.opn q] ∧
          (z.1 = b ∧ z.2.2 = st' ∧ ∃ n' : RBNode K V, s' = n'.ptr ∧ z.2.1.Is n' τ')) →
        Safe A D (fun r σ => r.1 = b ∧ TreeIs r.2.1 s' σ ∧ r.2.2 = st')
          (Prog.bind (closeNode q z.2.1) fun _ => .ret (z.1, some q, z.2.2)) τ := by
      rintro ⟨z1, z2, z3⟩ _ ⟨τ, rfl, rfl, rfl, n', rfl, hn⟩
      refine Safe.closeIs hn [] (by perm_tac) fun t e1 e2 => Safe.ret ⟨rfl, ⟨some t, by rw [← e1]; rfl, rfl, e2⟩, rfl⟩
    refine Safe.bind (Q := fun z τ => ∃ τ', τ = τ' ++ [.opn q] ∧ (z.1 = b ∧ z.2.2 = st' ∧ ∃ n' : RBNode K V, s' = n'.ptr ∧ z.2.1.Is n' τ')) ?_ fin
    have done : ∀ {b2 : Bool} {n : RBNode K V} {hn : HRBNode} {ρ : List (Item (RLabel K V))} {st2 : S}, hn.Is n ρ →
        (RBTree.insDone is_root b2 n >>= fun (x : Bool × RBTree K V) => Except.ok (some x.1, x.2, st2)) = .ok (b, s', st') →
        Safe A D (fun z τ => ∃ τ', τ = τ' ++ [.opn q] ∧ (z.1 = b ∧ z.2.2 = st' ∧ ∃ n' : RBNode K V, s' = n'.ptr ∧ z.2.1.Is n' τ'))
          (hinsUDone is_root (some b2) hn st2) (ρ ++ [.opn q]) := by
      intro b2 n hn ρ st2 h1 h2
      obtain ⟨⟨b3, t3⟩, h3, h4⟩ := res_bind_ok h2
      cases h4
      refine Safe.bindFrame (F := [.opn q]) (safe_hinsDone h1 h3) (.refl _) ?_
      rintro ⟨z1, z2⟩ τ ⟨rfl, hz⟩
      exact Safe.ret ⟨τ, rfl, rfl, rfl, hz⟩
    simp only [RBTree.insU] at he
    simp only
    rcases hc : U.cmpK st k e.1 with ⟨_ | x, st2⟩
    · simp only [hc] at he
      cases he
      exact Safe.perm (Safe.ret ⟨_, rfl, rfl, rfl, ⟨e, c, l, r⟩, rfl, te, tl, tr, rfl, rfl, he1, hl, hr⟩) (by items_tac)
    cases x with
    | lt =>
      simp only [hc] at he
      obtain ⟨⟨b2, l', st3⟩, hi, he⟩ := res_bind_ok he
      refine Safe.bindFrame (F := [.ptr te] ++ optPtr tr ++ [.opn q]) (ihl hi (by omega)) (by items_tac) ?_
      rintro ⟨b3, p, st4⟩ _ ⟨rfl, ⟨t', rfl, rfl, ht'⟩, rfl⟩
      simp only
      cases b3 with
      | none =>
        cases he
        exact Safe.perm (Safe.ret ⟨fieldItems te t' tr, rfl, rfl, rfl, ⟨e, c, l', r⟩, rfl, te, t', tr, rfl, rfl, he1, ht', hr⟩) (by items_tac)
      | some b3 =>
        exact Safe.perm (done (n := ⟨e, c, l', r⟩) (hn := fields te c t' tr) (ρ := fieldItems te t' tr) ⟨te, t', tr, rfl, rfl, he1, ht', hr⟩ he)
          (by items_tac)
    | eq =>
      simp only [hc] at he
      refine Safe.bindFrame (F := .opn q :: fieldItems te tl tr) (safe_new (RLabel.entry k v) []) (by items_tac) ?_
      rintro e' _ rfl
      refine Safe.drop (F := fieldItems (.node e' (.entry k v) []) tl tr ++ [.opn q]) (by items_tac) (nest_entry he1) ?_
      exact done (n := ⟨(k, v), c, l, r⟩) ⟨.node e' (.entry k v) [], tl, tr, rfl, rfl, ⟨rfl, rfl⟩, hl, hr⟩ he
    | gt =>
      simp only [hc] at he
      obtain ⟨⟨b2, r', st3⟩, hi, he⟩ := res_bind_ok he
      refine Safe.bindFrame (F := [.ptr te] ++ optPtr tl ++ [.opn q]) (ihr hi (by omega)) (by items_tac) ?_
      rintro ⟨b3, p, st4⟩ _ ⟨rfl, ⟨t', rfl, rfl, ht'⟩, rfl⟩
      simp only
      cases b3 with
      | none =>
        cases he
        exact Safe.perm (Safe.ret ⟨fieldItems te tl t', rfl, rfl, rfl, ⟨e, c, l, r'⟩, rfl, te, tl, t', rfl, rfl, he1, hl, ht'⟩) (by items_tac)
      | some b3 =>
        exact Safe.perm (done (n := ⟨e, c, l, r'⟩) (hn := fields te c tl t') (ρ := fieldItems te tl t') ⟨te, tl, t', rfl, rfl, he1, hl, ht'⟩ he)
          (by items_tac)

theorem safe_hgetMutU (key : Q) (f : V → V) {t : Option (ATree (RLabel K V))} {s : RBTree K V} (ht : IsT t s)
    {fuel : Nat} (hf : s.height ≤ fuel) (st : S) :
    Safe A D (fun r σ => r.1 = (s.getMutU U key f st).1 ∧ TreeIs r.2.1 (s.getMutU U key f st).2.1 σ ∧ r.2.2 = (s.getMutU U key f st).2.2)
      (hgetMutU U key f fuel (t.map ATree.addr) st) (optPtr t) := by
  induction ht generalizing fuel st with
  | none => cases fuel <;> exact Safe.ret ⟨rfl, ⟨none, rfl, rfl, .none⟩, rfl⟩
  | @some a te tl tr e c l r he1 hl hr ihl ihr =>
    simp only [RBTree.height] at hf
    obtain ⟨fuel, rfl⟩ : ∃ n, fuel = n + 1 := ⟨fuel - 1, by omega⟩
    refine Safe.openNode (F := []) (.refl _) fun q => ?_
    refine Safe.readEntry he1 (by simp [fieldItems]) ?_
    have fin : ∀ {x : Option (Option V)} {s' : RBTree K V} {st' : S} (z : Option (Option V) × HRBNode × S) (τ : List (Item (RLabel K V))),
        (z.1 = x ∧ z.2.2 = st' ∧ ∃ te' t1 t2 e' l' r', z.2.1 = fields te' c t1 t2 ∧ entIs te' e' ∧ IsT t1 l' ∧ IsT t2 r' ∧ s' = .some e' c l' r' ∧
          τ = .opn q :: fieldItems te' t1 t2) →
        Safe A D (fun r σ => r.1 = x ∧ TreeIs r.2.1 s' σ ∧ r.2.2 = st')
          (Prog.bind (closeNode q z.2.1) fun _ => .ret (z.1, some q, z.2.2)) τ := by
      rintro x s' st' ⟨z1, z2, z3⟩ _ ⟨rfl, rfl, te', t1, t2, e', l', r', rfl, h1, h2, h3, rfl, rfl⟩
      refine Safe.closeNode te' c t1 t2 [] (by items_tac) ?_
      exact Safe.ret ⟨rfl, ⟨some _, rfl, rfl, .some h1 h2 h3⟩, rfl⟩
    refine Safe.bind (Q := fun z τ => z.1 = (RBTree.getMutU U key f (.some e c l r) st).1 ∧ z.2.2 = (RBTree.getMutU U key f (.some e c l r) st).2.2 ∧
      ∃ te' t1 t2 e' l' r', z.2.1 = fields te' c t1 t2 ∧ entIs te' e' ∧ IsT t1 l' ∧ IsT t2 r' ∧
        (RBTree.getMutU U key f (.some e c l r) st).2.1 = .some e' c l' r' ∧ τ = .opn q :: fieldItems te' t1 t2) ?_ fin
    simp only [RBTree.getMutU]
    rcases hc : U.cmpQ st key e.1 with ⟨_ | x, st2⟩
    · exact Safe.perm (Safe.ret ⟨rfl, rfl, te, tl, tr, e, l, r, rfl, he1, hl, hr, rfl, rfl⟩) (by items_tac)
    cases x with
    | lt =>
      simp only
      refine Safe.bindFrame (F := .opn q :: .ptr te :: optPtr tr) (ihl (fuel := fuel) (by omega) st2) (by items_tac) ?_
      rintro ⟨x, p, st3⟩ _ ⟨rfl, ⟨t', rfl, rfl, ht'⟩, rfl⟩
      exact Safe.perm (Safe.ret ⟨rfl, rfl, te, t', tr, e, _, r, rfl, he1, ht', hr, rfl, rfl⟩) (by items_tac)
    | eq =>
      simp only
      rcases hcl : U.clone st2 e with ⟨_ | _, st3⟩
      · exact Safe.perm (Safe.ret ⟨rfl, rfl, te, tl, tr, e, l, r, rfl, he1, hl, hr, rfl, rfl⟩) (by items_tac)
      · simp only
        refine Safe.bindFrame (F := .opn q :: (optPtr tl ++ optPtr tr)) (safe_modifyPtr (within_roomy (by omega)) te (f := modifyEntry f)
          (P := fun x l ts => x = e.2 ∧ l = .entry e.1 (f e.2) ∧ ts = []) ?_) (by items_tac) ?_
        · simp only [modifyEntry, he1.1, he1.2]
          exact Safe.ret ⟨[], rfl, rfl, rfl, rfl, rfl⟩
        · rintro ⟨x, p⟩ _ ⟨l', ts, rfl, rfl, rfl, rfl⟩
          exact Safe.perm (Safe.ret ⟨rfl, rfl, .node p (.entry e.1 (f e.2)) [], tl, tr, (e.1, f e.2), l, r, rfl, ⟨rfl, rfl⟩, hl, hr, rfl, rfl⟩)
            (by items_tac)
    | gt =>
      simp only
      refine Safe.bindFrame (F := .opn q :: .ptr te :: optPtr tl) (ihr (fuel := fuel) (by omega) st2) (by items_tac) ?_
      rintro ⟨x, p, st3⟩ _ ⟨rfl, ⟨t', rfl, rfl, ht'⟩, rfl⟩
      exact Safe.perm (Safe.ret ⟨rfl, rfl, te, tl, t', e, l, _, rfl, he1, hl, ht', rfl, rfl⟩) (by items_tac)

theorem safe_hdelU (key : Q) {t : Option (ATree (RLabel K V))} {s s' : RBTree K V} (ht : IsT t s) {b : Option Bool} {is_root : Bool} {st st' : S}
    (he : RBTree.delU Ar U key s is_root st = .ok (b, s', st')) {fuel : Nat} (hf : 2 * s.height ≤ fuel) :
    Safe A D (fun r σ => r.1 = b ∧ TreeIs r.2.1 s' σ ∧ r.2.2 = st') (hdelU Ar U key fuel (t.map ATree.addr) is_root st) (optPtr t) := by
  induction ht generalizing fuel b is_root s' st st' with
  | none =>
    simp only [RBTree.delU] at he
    cases he
    cases fuel <;> exact Safe.ret ⟨rfl, ⟨none, rfl, rfl, .none⟩, rfl⟩
  | @some a te tl tr e c l r he1 hl hr ihl ihr =>
    simp only [RBTree.height] at hf
    obtain ⟨fuel, rfl⟩ : ∃ n, fuel = n + 1 := ⟨fuel - 1, by omega⟩
    refine Safe.openNode (F := []) (.refl _) fun q => ?_
    refine Safe.readEntry he1 (by simp [fieldItems]) ?_
    simp only [RBTree.delU] at he
    rcases hc : U.cmpQ st key e.1 with ⟨_ | x, st2⟩
    · simp only [hc] at he
      cases he
      refine Safe.closeNode te c tl tr [] (by items_tac) ?_
      exact Safe.ret ⟨rfl, ⟨some _, rfl, rfl, .some he1 hl hr⟩, rfl⟩
    cases x with
    | lt =>
      simp only [hc] at he
      obtain ⟨⟨b', l', st3⟩, h1, he⟩ := res_bind_ok he
      refine Safe.colorOf hl (fun s e => by subst e; simp [fieldItems]) ?_
      refine Safe.bindFrame (F := .opn q :: .ptr te :: optPtr tr) (ihl h1 (by omega)) (by items_tac) ?_
      rintro ⟨b2, p, st4⟩ _ ⟨rfl, ⟨t', rfl, rfl, ht'⟩, rfl⟩
      simp only
      cases b2 with
      | none =>
        cases he
        refine Safe.closeNode te c t' tr [] (by items_tac) ?_
        exact Safe.ret ⟨rfl, ⟨some _, rfl, rfl, .some he1 ht' hr⟩, rfl⟩
      | some b2 =>
        obtain ⟨n', h3, h4⟩ := res_bind_ok he
        cases h4
        refine Safe.bind (Q := fun y τ => ∃ τ', τ = τ' ++ [.opn q] ∧ HRBNode.Is y n' τ') ?_ ?_
        · unfold RBTree.delLeft at h3
          simp only
          split
          · next hc =>
            rw [if_pos hc] at h3
            exact (Safe.perm (Safe.frame (safe_hremoveBalanceLeft (hn := fields te .red t' tr) (n := ⟨e, .red, l', r⟩)
              ⟨te, t', tr, rfl, rfl, he1, ht', hr⟩ h3) [.opn q]) (by items_tac)).imp fun x _ ⟨τ, e, hx⟩ => ⟨τ, e, hx⟩
          · next hc =>
            rw [if_neg hc] at h3
            cases h3
            exact Safe.perm (Safe.ret ⟨_, rfl, te, t', tr, rfl, rfl, he1, ht', hr⟩) (by items_tac)
        · rintro hn _ ⟨τ, rfl, hi⟩
          refine Safe.bind (safe_hdelDone hi is_root false (fun e => nomatch e) (by perm_tac)) ?_
          intro p τ' hp
          exact Safe.ret ⟨rfl, hp, rfl⟩
    | eq =>
      simp only [hc] at he
      obtain ⟨⟨fused, n'⟩, h1, h2⟩ := res_bind_ok he
      cases h2
      refine Safe.bindFrame (F := [.opn q]) (safe_hremoveFuse (fuel + 1) (fields te c none none) ⟨e, c, .none, .none⟩
        (fieldItems te none none) tl tr l r fused n' ⟨te, none, none, rfl, rfl, he1, .none, .none⟩ ⟨rfl, rfl⟩ hl hr h1 (by omega)) (by items_tac) ?_
      rintro ⟨b2, hn⟩ τ ⟨rfl, hi⟩
      refine Safe.bind (safe_hdelDone hi is_root _ (fun e => by
        cases b2 with
        | true => cases e
        | false => cases removeFuse_unfused h1; exact ⟨rfl, rfl⟩) (by perm_tac)) ?_
      intro p τ' hp
      exact Safe.ret ⟨rfl, hp, rfl⟩
    | gt =>
      simp only [hc] at he
      obtain ⟨⟨b', r', st3⟩, h1, he⟩ := res_bind_ok he
      refine Safe.colorOf hr (fun s e => by subst e; simp [fieldItems]) ?_
      refine Safe.bindFrame (F := .opn q :: .ptr te :: optPtr tl) (ihr h1 (by omega)) (by items_tac) ?_
      rintro ⟨b2, p, st4⟩ _ ⟨rfl, ⟨t', rfl, rfl, ht'⟩, rfl⟩
      simp only
      cases b2 with
      | none =>
        cases he
        refine Safe.closeNode te c tl t' [] (by items_tac) ?_
        exact Safe.ret ⟨rfl, ⟨some _, rfl, rfl, .some he1 hl ht'⟩, rfl⟩
      | some b2 =>
        obtain ⟨n', h3, h4⟩ := res_bind_ok he
        cases h4
        refine Safe.bind (Q := fun y τ => ∃ τ', τ = τ' ++ [.opn q] ∧ HRBNode.Is y n' τ') ?_ ?_
        · unfold RBTree.delRight at h3
          simp only
          split
          · next hc =>
            rw [if_pos hc] at h3
            exact (Safe.perm (Safe.frame (safe_hremoveBalanceRight (hn := fields te .red tl t') (n := ⟨e, .red, l, r'⟩)
              ⟨te, tl, t', rfl, rfl, he1, hl, ht'⟩ h3) [.opn q]) (by items_tac)).imp fun x _ ⟨τ, e, hx⟩ => ⟨τ, e, hx⟩
          · next hc =>
            rw [if_neg hc] at h3
            cases h3
            exact Safe.perm (Safe.ret ⟨_, rfl, te, tl, t', rfl, rfl, he1, hl, ht'⟩) (by items_tac)
        · rintro hn _ ⟨τ, rfl, hi⟩
          refine Safe.bind (safe_hdelDone hi is_root false (fun e => nomatch e) (by perm_tac)) ?_
          intro p τ' hp
          exact Safe.ret ⟨rfl, hp, rfl⟩

end
end Heap
end Rpds
