import Verif.Props.Space
import Verif.Props.Footprint
import Verif.Props.Shared
import Verif.Props.Nest
import Verif.Props.InPlace
import Verif.Props.IterCost
/-
Wrong programs that the heap properties reject.  Each is `List` (some `RedBlackTreeMap` or `Vector`) with one function written in a way that
looks plausible; the theorems say which of the properties C42-C45, C57-C60, C63, C66 and C70 the result does not have.
-/
set_option autoImplicit false
namespace Rpds
namespace Props
namespace Rejects
open Heap

/-- The program faults within `n` steps. -/
def faults {L α : Type} (n : Nat) (prog : Prog L α) : Bool :=
  match runAlone (bump L) n (.start prog) [] with
  | .ok _ => false
  | .error _ => true

theorem not_runs {L α : Type} {n : Nat} {prog : Prog L α} (hf : faults n prog = true) {r : α} {h : Mem L} {d : Nat} :
    ¬ Runs (bump L) prog [] r h d := by
  rintro ⟨m, e⟩
  have h1 : runAlone (bump L) (m + n) (.start prog) [] = .ok ({ pending := [], deepest := d, prog := .ret r }, h) := by
    rw [runAlone_add, e]; exact runAlone_done _ _ _ _
  rw [Nat.add_comm, runAlone_add] at h1
  unfold faults at hf
  cases e2 : runAlone (bump L) n (.start prog) [] with
  | ok x => simp [e2] at hf
  | error x => rw [e2] at h1; cases h1

theorem runs_of_outcome {L α : Type} {A : Allocator L} {n : Nat} {prog : Prog L α} {h : Mem L} {x : α × Mem L × Nat}
    (e : outcome A n prog h = some x) : Runs A prog h x.1 x.2.1 x.2.2 := by
  unfold outcome at e
  split at e
  · rename_i th h' e1
    obtain ⟨p, d, prog'⟩ := th
    refine ⟨n, ?_⟩
    rw [e1]
    simp only [Thread.result] at e
    split at e
    · cases e
      simp_all
    · cases e
  · cases e

/-- `List` with some operations replaced. -/
def listWith (f : HList → RList.Op Nat → Option (Prog (LinLabel Nat) (RList.Ret Nat × Effect HList))) :
    Impl (LinLabel Nat) HList (RList.Op Nat) (RList.Ret Nat) :=
  { listImpl Nat with step := fun l op => (f l op).getD (listHStep l op) }

/-- The plain lists. -/
abbrev spec (xs : List Nat) (op : RList.Op Nat) : Res (RList.Ret Nat × Effect (List Nat)) := .ok (Spec.listStep xs op)

/-- A client whose run on the heap faults, or ends with other answers, refutes C42. -/
theorem not_persistent {impl : Impl (LinLabel Nat) HList (RList.Op Nat) (RList.Ret Nat)} (n : Nat) (cmds : List (Cmd (RList.Op Nat)))
    {x : List (Option (RList.Ret Nat)) × List (Option (List Nat))} (hp : pureClient [] spec [] cmds = .ok x)
    (hb : faults n (client impl [] cmds) = true ∨
      (outcome (bump _) n (client impl [] cmds) []).any (fun y => decide (y.1.1 ≠ x.1)) = true) : ¬ Persistent impl [] spec := by
  intro h
  obtain ⟨hs, m, d, e, -⟩ := h (bump _) cmds x.1 x.2 hp
  rcases hb with hb | hb
  · exact not_runs hb e
  · cases e1 : outcome (bump _) n (client impl [] cmds) [] with
    | none => simp [e1] at hb
    | some y =>
      simp only [e1, Option.any_some, decide_eq_true_eq] at hb
      exact hb (by rw [((runs_of_outcome e1).unique e).1])

/-- `Clone` that copies the pointers and forgets to count them. -/
def cloneUncounted := listWith fun l op => match op with
  | .clone => some (pure (.unit, .fresh l))
  | _ => none

-- after the original is dropped the copy reads freed memory
theorem cloneUncounted_not_persistent : ¬ Persistent cloneUncounted [] spec :=
  not_persistent 20 [.new, .run 0 (.pushFrontMut 1), .run 0 .clone, .discard 0, .run 1 .first] rfl (.inl (by decide +kernel))

/-- A persistent `reverse` that reverses in place. -/
def reverseSteals := listWith fun l op => match op with
  | .reverse => some (do
    let l' ← l.reverseMut
    pure (.unit, .fresh l'))
  | _ => none

-- the old version has changed
theorem reverseSteals_not_persistent : ¬ Persistent reverseSteals [] spec :=
  not_persistent 60 [.new, .run 0 (.pushFrontMut 1), .run 0 (.pushFrontMut 2), .run 0 .reverse, .run 0 (.iter 2)] rfl
    (by decide +kernel)

/-- `drop_first_mut` that counts the next node twice. -/
def nextCountedTwice := listWith fun l op => match op with
  | .dropFirstMut => some (do
    let x ← l.dropFirstMut
    cloneOpt x.2.head
    pure (.bool x.1, .update x.2))
  | _ => none

theorem not_counts {impl : Impl (LinLabel Nat) HList (RList.Op Nat) (RList.Ret Nat)} (n : Nat) (cmds : List (Cmd (RList.Op Nat)))
    {x : List (Option (RList.Ret Nat)) × List (Option (List Nat))} (hp : pureClient [] spec [] cmds = .ok x)
    (hx : ∀ s ∈ x.2, s = none)
    (hb : (outcome (bump _) n (client impl [] cmds) []).any (fun y => y.2.1.any fun c => c.used) = true) :
    ¬ CountsExact impl [] spec := by
  intro h
  obtain ⟨hs, m, d, e, -, e2, -⟩ := h (bump _) cmds x.1 x.2 hp
  cases e1 : outcome (bump _) n (client impl [] cmds) [] with
  | none => simp [e1] at hb
  | some y =>
    obtain ⟨-, e3, -⟩ := (runs_of_outcome e1).unique e
    simp only [e1, Option.any_some, e3, List.any_eq_true] at hb
    obtain ⟨c, hc, hu⟩ := hb
    obtain ⟨a, ha, rfl⟩ := List.mem_iff_getElem.mp hc
    have := e2 hx a
    rw [Heap.get, List.getElem?_eq_getElem ha] at this
    simp at this
    rw [this] at hu
    simp [Cell.used] at hu

-- a node stays in memory when all lists are gone
theorem nextCountedTwice_not_exact : ¬ CountsExact nextCountedTwice [] spec :=
  not_counts 60 [.new, .run 0 (.pushFrontMut 1), .run 0 (.pushFrontMut 2), .run 0 .dropFirstMut, .discard 0] rfl (by decide)
    (by decide +kernel)

/-- Commands for two threads that make a schedule fault refute C44. -/
theorem not_threads {impl : Impl (LinLabel Nat) HList (RList.Op Nat) (RList.Ret Nat)} (n : Nat) (setup : List (Cmd (RList.Op Nat)))
    (c₀ c₁ : List (Cmd (RList.Op Nat))) (sched : List Nat)
    {x y₀ y₁ : List (Option (RList.Ret Nat)) × List (Option (List Nat))} (hp : pureClient [] spec [] setup = .ok x)
    (h₀ : pureClient [] spec (handlesOf id 0 x.2) c₀ = .ok y₀) (h₁ : pureClient [] spec (handlesOf id 1 x.2) c₁ = .ok y₁)
    (ho : (outcome (bump _) n (client impl [] setup) []).isSome = true)
    (hb : interleaved impl n setup [c₀, c₁] sched = none) : ¬ ThreadsIndependent impl [] spec := by
  intro h
  obtain ⟨hs, m, d, e, e2⟩ := h (bump _) setup x.1 x.2 hp
  obtain ⟨-, e3, -⟩ := e2 id [c₀, c₁] [y₀.1, y₁.1] [y₀.2, y₁.2] rfl rfl (by
    intro i cmds rs ss' g1 g2 g3
    match i with
    | 0 => cases g1; cases g2; cases g3; exact h₀
    | 1 => cases g1; cases g2; cases g3; exact h₁
    | i + 2 => simp at g1)
  obtain ⟨ths', h', e4, -⟩ := e3 sched
  obtain ⟨z, hz⟩ := Option.isSome_iff_exists.mp ho
  obtain ⟨g1, g2, g3⟩ := (runs_of_outcome hz).unique e
  simp only [interleaved, hz, g1, g2, e4] at hb
  cases hb

/-- `drop_first_mut` that, when the first node is shared, releases it before it takes hold of the next one. -/
def releasesEarly := listWith fun l op => match op, l.head with
  | .dropFirstMut, some h => some (do
    match ← tryTake h with
    | some (_, value :: next) => do
      drop value
      let last ← (if l.length == 1 then do dropOpt l.last; pure none else pure l.last)
      pure (.bool true, .update { head := next.head?, last, length := l.length - 1 })
    | some _ => .panic
    | none => do
      let (_, next) ← HList.readNode h
      drop h
      cloneOpt next
      let last ← (if l.length == 1 then do dropOpt l.last; pure none else pure l.last)
      pure (.bool true, .update { head := next, last, length := l.length - 1 }))
  | _, _ => none

-- alone it does the right thing
example : (outcome (bump _) 90 (client releasesEarly [] [.new, .run 0 (.pushFrontMut 1), .run 0 (.pushFrontMut 2), .run 0 .clone,
    .run 0 .dropFirstMut, .run 0 (.iter 2), .run 1 (.iter 2), .run 1 .dropFirstMut, .run 1 .dropFirstMut, .discard 1, .discard 0]) []).map
    (fun x => (x.1.1.drop 4, x.2.1)) =
    some ([some (.bool true), some (.calls 1 [(some 1, 0), (none, 0)]), some (.calls 2 [(some 2, 1), (some 1, 0)]), some (.bool true),
      some (.bool true), none, none], [.free, .free, .free, .free]) := by
  decide +kernel

-- but another thread can be the last owner of the first node at the wrong moment
theorem releasesEarly_not_independent : ¬ ThreadsIndependent releasesEarly [] spec :=
  not_threads 60 [.new, .run 0 (.pushFrontMut 1), .run 0 (.pushFrontMut 2), .run 0 .clone] [.run 0 .dropFirstMut]
    [.run 1 .dropFirstMut, .discard 1] (List.replicate 4 0 ++ List.replicate 20 1 ++ [0]) rfl rfl rfl (by decide +kernel) (by decide +kernel)

/-- Commands for two threads that share the first list and make a schedule fault refute C59. -/
theorem not_share {impl : Impl (LinLabel Nat) HList (RList.Op Nat) (RList.Ret Nat)} {byRef : RList.Op Nat → Bool} (n : Nat)
    (setup : List (Cmd (RList.Op Nat))) (c₀ c₁ : List (Cmd (RList.Op Nat))) (sched : List Nat)
    {x y₀ y₁ : List (Option (RList.Ret Nat)) × List (Option (List Nat))} (hp : pureClient [] spec [] setup = .ok x) (hl : 0 < x.2.length)
    (r₀ : Respects (· == 0) byRef c₀) (r₁ : Respects (· == 0) byRef c₁)
    (h₀ : pureClient [] spec (lentTo (· == 0) (fun _ => 2) 0 x.2) c₀ = .ok y₀)
    (h₁ : pureClient [] spec (lentTo (· == 0) (fun _ => 2) 1 x.2) c₁ = .ok y₁)
    (ho : (outcome (bump _) n (client impl [] setup) []).isSome = true)
    (hb : interleavedSharing impl n setup [c₀, c₁] sched = none) : ¬ ThreadsShare impl byRef [] spec := by
  intro h
  obtain ⟨hs, m, d, e, e2⟩ := h (bump _) setup x.1 x.2 hp
  obtain ⟨e3, -⟩ := e2 (· == 0) (fun _ => 2) [c₀, c₁] [y₀.1, y₁.1] [y₀.2, y₁.2] (by
      intro j hj
      simp only [beq_iff_eq] at hj
      omega) (by
      intro c hc
      simp only [List.mem_cons, List.not_mem_nil, or_false] at hc
      rcases hc with rfl | rfl
      · exact r₀
      · exact r₁) rfl rfl (by
    intro i cmds rs ss' g1 g2 g3
    match i with
    | 0 => cases g1; cases g2; cases g3; exact h₀
    | 1 => cases g1; cases g2; cases g3; exact h₁
    | i + 2 => simp at g1)
  obtain ⟨ths', h', e4, -⟩ := e3 sched
  obtain ⟨z, hz⟩ := Option.isSome_iff_exists.mp ho
  obtain ⟨g1, g2, g3⟩ := (runs_of_outcome hz).unique e
  simp only [interleavedSharing, hz, g1, g2, e4] at hb
  cases hb

/-- `first` that borrows the first node mutably when it can. -/
def firstByMut := listWith fun l op => match op, l.head with
  | .first, some h => some (do
    match ← tryOpen h with
    | some (lab, value :: next) => do
      close h lab (value :: next)
      let v ← readValOpt (some value)
      pure (.opt v, .keep)
    | _ => listHStep l .first)
  | _, _ => none

-- alone and with threads that have handles of their own this does no harm
example : (interleaved firstByMut 60 [.new, .run 0 (.pushFrontMut 1), .run 0 .clone] [[.run 0 .first, .discard 0], [.run 1 .first]]
    (List.replicate 12 [0, 1]).flatten).map (·.1) = some [some [some (.opt (some 1)), none], some [some (.opt (some 1))]] := by
  decide +kernel

-- but it does when two threads have the list through `&`
theorem firstByMut_not_shared : ¬ ThreadsShare firstByMut listByRef [] spec :=
  not_share 60 [.new, .run 0 (.pushFrontMut 1)] [.run 0 .first] [.run 0 .first] [0, 1, 0, 1] rfl (by decide)
    (by simp [Respects, listByRef]) (by simp [Respects, listByRef]) rfl rfl (by decide +kernel) (by decide +kernel)

-- `List` itself does not have the property if `reverse_mut` is allowed through `&`
theorem reverseMut_not_shared : ¬ ThreadsShare (listImpl Nat) (fun op => listByRef op || op matches .reverseMut) [] spec :=
  not_share 60 [.new, .run 0 (.pushFrontMut 1), .run 0 (.pushFrontMut 2)] [.run 0 .reverseMut] [.run 0 .reverseMut]
    (List.replicate 12 [0, 1]).flatten rfl (by decide)
    (by simp [Respects]) (by simp [Respects]) rfl rfl (by decide +kernel) (by decide +kernel)

/-- `push_front` that copies all nodes. -/
def pushCopies := listWith fun l op => match op with
  | .pushFront v => some (do
    let l₁ ← l.reverse .node
    let l₂ ← l₁.reverse .node
    HList.dropList l₁
    let l₃ ← l₂.pushFrontMut .node (.val v)
    pure (.unit, .fresh l₃))
  | _ => none

/-- The cost of the operations in `C58_list_sharing`. -/
def listGrowth (_ : List (Option (List Nat))) (xs : List Nat) (op : RList.Op Nat) : Nat :=
  match op with
  | .pushFront _ | .pushFrontMut _ => 2
  | .reverse | .reverseMut => xs.length
  | _ => 0

example : Shares (listImpl Nat) [] spec 0 listGrowth := by
  exact (congrArg (Shares (listImpl Nat) [] spec 0) (funext fun _ => funext fun xs => funext fun op => by cases op <;> rfl)).mp
    (C58_list_sharing Nat)

theorem not_shares {impl : Impl (LinLabel Nat) HList (RList.Op Nat) (RList.Ret Nat)} (n : Nat) (cmds more : List (Cmd (RList.Op Nat)))
    {x x' : List (Option (RList.Ret Nat)) × List (Option (List Nat))} (hp : pureClient [] spec [] cmds = .ok x)
    (hp' : pureClient [] spec x.2 more = .ok x')
    (hb : (match outcome (bump _) n (client impl [] cmds) [] with
      | some y =>
        match outcome (bump _) n (client impl y.1.2 more) y.2.1 with
        | some z => decide (y.1.1 = x.1) && decide (z.1.1 = x'.1) && decide (live y.2.1 + grown [] spec 0 listGrowth x.2 more < live z.2.1)
        | none => false
      | none => false) = true) : ¬ Shares impl [] spec 0 listGrowth := by
  intro h
  split at hb
  · rename_i y e1
    split at hb
    · rename_i z e2
      simp only [Bool.and_eq_true, decide_eq_true_eq] at hb
      obtain ⟨⟨h1, h2⟩, h3⟩ := hb
      have r1 := runs_of_outcome e1
      have r2 := runs_of_outcome e2
      have := h (bump _) cmds more x.1 x'.1 x.2 x'.2 y.1.2 z.1.2 _ _ _ _ hp hp' (by rw [← h1]; exact r1) (by rw [← h2]; exact r2)
      omega
    · cases hb
  · cases hb

theorem pushCopies_not_sharing : ¬ Shares pushCopies [] spec 0 listGrowth :=
  not_shares 150 [.new, .run 0 (.pushFrontMut 1), .run 0 (.pushFrontMut 2), .run 0 (.pushFrontMut 3)] [.run 0 (.pushFront 4)] rfl rfl
    (by decide +kernel)

/-- `last` that walks through the list. -/
def lastWalks := listWith fun l op => match op with
  | .last => some (do
    let xs ← viewLink l.length l.head
    pure (.opt xs.toList.getLast?, .keep))
  | _ => none

/-- The limits in `C57_list_cost`. -/
def listLimit (l : HList) (op : RList.Op Nat) : Option (Nat × Nat) :=
  some (match op with
    | .pushFront _ => (3, 3)
    | .pushFrontMut _ => (3, 1)
    | .dropFirst => (3, 3)
    | .dropFirstMut => (3, 1)
    | .reverse => (3 * l.length, 2 * l.length)
    | .reverseMut => (5 * l.length + 2, 1)
    | .clone => (0, 2)
    | .first => (2, 0)
    | .last => (1, 0)
    | .len => (0, 0)
    | .isEmpty => (0, 0)
    | .iter _ => (2 * l.length, 0))

example : Affordable (listImpl Nat) [] spec HList.length List.length noExtra (0, 0) listLimit (fun l => (2 * l.length + 1, 0)) := by
  exact (congrArg (Affordable (listImpl Nat) [] spec HList.length List.length noExtra (0, 0) · (fun l => (2 * l.length + 1, 0)))
    (funext fun xs => funext fun op => by cases op <;> rfl)).mp (C57_list_cost Nat)

theorem lastWalks_not_affordable :
    ¬ Affordable lastWalks [] spec HList.length List.length noExtra (0, 0) listLimit (fun l => (2 * l.length + 1, 0)) := fun h =>
  not_persistent 40 [.new, .run 0 (.pushFrontMut 1), .run 0 (.pushFrontMut 2), .run 0 .last] rfl (.inl (by decide +kernel)) h.1

theorem pushCopies_not_affordable :
    ¬ Affordable pushCopies [] spec HList.length List.length noExtra (0, 0) listLimit (fun l => (2 * l.length + 1, 0)) := fun h =>
  not_persistent 40 [.new, .run 0 (.pushFrontMut 1), .run 0 (.pushFront 2)] rfl (.inl (by decide +kernel)) h.1

/-- Without `Drop for List`: releasing the first node releases the others one inside the other. -/
def dropsNested : Impl (LinLabel Nat) HList (RList.Op Nat) (RList.Ret Nat) :=
  { listImpl Nat with drop := fun l => do
      dropOpt l.head
      dropOpt l.last }

-- the conclusion of `C45_list_drop_flat_partial` fails for it
theorem dropsNested_not_flat : ¬ ∀ (cmds : List (Cmd (RList.Op Nat))) (x : List (Option (RList.Ret Nat)) × List (Option HList))
    (h : Mem (LinLabel Nat)) (d : Nat), Runs (bump _) (client dropsNested [] cmds) [] x h d → d ≤ 1 := by
  intro h
  have e : (outcome (bump _) 60 (client dropsNested [] [.new, .run 0 (.pushFrontMut 1), .run 0 (.pushFrontMut 2), .run 0 (.pushFrontMut 3),
      .discard 0]) []).any (fun y => decide (1 < y.2.2)) = true := by decide +kernel
  cases e1 : outcome (bump _) 60 (client dropsNested [] [.new, .run 0 (.pushFrontMut 1), .run 0 (.pushFrontMut 2), .run 0 (.pushFrontMut 3),
      .discard 0]) [] with
  | none => simp [e1] at e
  | some y =>
    simp only [e1, Option.any_some, decide_eq_true_eq] at e
    have := h _ _ _ _ (runs_of_outcome e1)
    omega

theorem not_shallow {L H Op Ret σ : Type} {impl : Impl L H Op Ret} {new : σ} {step : σ → Op → Res (Ret × Effect σ)} {lim : σ → Nat}
    (n m : Nat) (cmds : List (Cmd Op)) (h3 : 3 ≤ n) (h0 : lim new ≤ n) (hok : (pureClient new step [] cmds).toBool = true)
    (hs : stayCheck (fun s => decide (lim s ≤ n)) new step [] cmds = true)
    (hb : (outcome (bump _) m (client impl [] cmds) []).any (fun y => decide (n < y.2.2)) = true) : ¬ DropsShallow impl new step lim := by
  intro h
  obtain ⟨x, h', d, ⟨k, e⟩, hd⟩ := h.alone (bump _) n h3 h0 cmds hok hs
  cases e1 : outcome (bump _) m (client impl [] cmds) [] with
  | none => simp [e1] at hb
  | some y =>
    simp only [e1, Option.any_some, decide_eq_true_eq] at hb
    obtain ⟨j, e2⟩ := runs_of_outcome e1
    have h4 : runAlone (bump L) (k + j) (.start (client impl [] cmds)) [] = .ok ({ pending := [], deepest := d, prog := .ret x }, h') := by
      rw [runAlone_add, e]; exact runAlone_done _ _ _ _
    have h5 : runAlone (bump L) (j + k) (.start (client impl [] cmds)) [] = .ok ({ pending := [], deepest := y.2.2, prog := .ret y.1 }, y.2.1) := by
      rw [runAlone_add, e2]; exact runAlone_done _ _ _ _
    rw [Nat.add_comm, h5] at h4
    have : y.2.2 = d := congrArg Thread.deepest (Prod.mk.inj (Except.ok.inj h4)).1
    omega

-- a logarithmic bound as for the trees
theorem dropsNested_not_shallow : ¬ DropsShallow dropsNested [] spec (fun xs => Nat.log2 (xs.length + 1) + 1) :=
  not_shallow 4 200 (.new :: (List.range 8).map (fun i => .run 0 (.pushFrontMut i)) ++ [.discard 0]) (by decide) (by decide) rfl
    (by decide +kernel) (by decide +kernel)

/-- `Node::insert` of a search tree that does not balance; it has all the other properties of a search tree. -/
def plainIns : (fuel : Nat) → Option Addr → Nat → Nat → Prog (RLabel Nat Nat) (Bool × Option Addr)
  | 0, _, _, _ => .panic
  | _ + 1, none, k, v =>
    Prog.bind (new (.entry k v) []) fun e =>
    Prog.bind (newNode ⟨e, .black, none, none⟩) fun p => .ret (true, some p)
  | fuel + 1, some p, k, v =>
    Prog.bind (openNode p) fun x =>
    Prog.bind (readEntry x.2.entry) fun e =>
    Prog.bind (match compare k e.1 with
      | .lt => Prog.bind (plainIns fuel x.2.left k v) fun y => .ret (y.1, { x.2 with left := y.2 })
      | .eq =>
        Prog.bind (new (.entry k v) []) fun e' =>
        Prog.bind (drop x.2.entry) fun _ => .ret (false, { x.2 with entry := e' })
      | .gt => Prog.bind (plainIns fuel x.2.right k v) fun y => .ret (y.1, { x.2 with right := y.2 })) fun z =>
    Prog.bind (closeNode x.1 z.2) fun _ => .ret (z.1, some x.1)

/-- The usual order of the numbers. -/
def natOrd : OrdKeys Nat Nat := ⟨fun a b => compare a b, fun a b => compare a b, fun a b => a == b, id⟩

/-- `RedBlackTreeMap` with that `insert_mut`. -/
def unbalanced : Impl (RLabel Nat Nat) HRBMap (RBOp Nat Nat Nat) (RBRet Nat Nat) :=
  { rbImpl ⟨.debug, 64⟩ natOrd with step := fun m op =>
      match op with
      | .base (.insertMut k v) =>
        Prog.bind (plainIns (m.size + 1) m.root k v) fun x => .ret (.base .unit, .update ⟨x.2, if x.1 then m.size + 1 else m.size⟩)
      | _ => rbHStepAll ⟨.debug, 64⟩ natOrd m op }

-- it answers right, but keys that come in order make a tree as deep as it is large
example : (outcome (bump _) 3000 (client unbalanced [] (.new :: (List.range 8).map (fun i => .run 0 (.base (.insertMut i i))) ++
    [.run 0 (.base (.get 5)), .discard 0])) []).any (fun x => decide (x.1.1[9]? = some (some (.base (.optV (some 5)))))) = true := by
  decide +kernel

theorem unbalanced_not_shallow :
    ¬ DropsShallow unbalanced [] (Spec.ordMapStep 64 natOrd) (fun l => 2 * Nat.log2 (l.length + 1)) :=
  not_shallow 6 3000 (.new :: (List.range 8).map (fun i => .run 0 (.base (.insertMut i i))) ++ [.discard 0]) (by decide) (by decide)
    (by decide +kernel) (by decide +kernel) (by decide +kernel)

theorem not_inPlace {L H Op Ret σ : Type} {impl : Impl L H Op Ret} {init : σ} {step : σ → Op → Res (Ret × Effect σ)} {E : L → Bool}
    {new : Nat} {allow : H → Op → Option Nat} (n : Nat) (cmds : List (Cmd Op)) {x : List (Option Ret) × List (Option σ)}
    (hall : ∀ i op, .run i op ∈ cmds → ∀ h, (allow h op).isSome) (hp : pureClient init step [] cmds = .ok x)
    (hb : faults n (soloClient impl E new (fun h op => (allow h op).getD 0) [] cmds) = true) : ¬ WorksInPlace impl init step E new allow := by
  intro h
  obtain ⟨hs, m, d, -, e⟩ := h (bump _) cmds x.1 x.2 hall hp
  exact not_runs hb e

/-- What the operations of `List` may allocate in `C66_list_in_place`. -/
def listAllow (l : HList) (op : RList.Op Nat) : Option Nat :=
  match op with
  | .pushFront _ | .dropFirst | .clone => none
  | .pushFrontMut _ => some 2
  | .reverse => some l.length
  | _ => some 0

example : WorksInPlace (listImpl Nat) [] spec noLabel 0 listAllow := by
  exact (congrArg (WorksInPlace (listImpl Nat) [] spec noLabel 0) (funext fun l => funext fun op => by cases op <;> rfl)).mp
    (C66_list_in_place Nat)

/-- `reverse_mut` as `*self = self.reverse()`. -/
def reverseCopies := listWith fun l op => match op with
  | .reverseMut => some (do
    let r ← l.reverse .node
    HList.dropList l
    pure (.unit, .update r))
  | _ => none

theorem reverseCopies_not_inPlace : ¬ WorksInPlace reverseCopies [] spec noLabel 0 listAllow :=
  not_inPlace 60 [.new, .run 0 (.pushFrontMut 1), .run 0 (.pushFrontMut 2), .run 0 .reverseMut]
    (by rintro i op h l; simp at h; rcases h with ⟨-, rfl⟩ | ⟨-, rfl⟩ | ⟨-, rfl⟩ <;> rfl) rfl (by decide +kernel)

-- a pointer too many makes the node look shared
theorem nextCountedTwice_not_inPlace : ¬ WorksInPlace nextCountedTwice [] spec noLabel 0 listAllow :=
  not_inPlace 60 [.new, .run 0 (.pushFrontMut 1), .run 0 (.pushFrontMut 2), .run 0 .dropFirstMut, .run 0 .reverseMut]
    (by rintro i op h l; simp at h; rcases h with ⟨-, rfl⟩ | ⟨-, rfl⟩ | ⟨-, rfl⟩ | ⟨-, rfl⟩ <;> rfl) rfl (by decide +kernel)

/-- `RedBlackTreeMap` whose `insert_mut` keeps the old map until it is done, as if to restore it after a panic. -/
def insertKeepsOld : Impl (RLabel Nat Nat) HRBMap (RBOp Nat Nat Nat) (RBRet Nat Nat) :=
  { rbImpl ⟨.debug, 64⟩ natOrd with step := fun m op =>
      match op with
      | .base (.insertMut k v) =>
        Prog.bind m.clone fun old => Prog.bind (m.insertMut natOrd k v) fun m' => Prog.bind (dropOpt old.root) fun _ =>
          .ret (.base .unit, .update m')
      | _ => rbHStepAll ⟨.debug, 64⟩ natOrd m op }

/-- What the operations of `RedBlackTreeMap` may allocate in `C66_rb_map_in_place`. -/
def rbAllow (_ : HRBMap) (op : RBOp Nat Nat Nat) : Option Nat :=
  match op with
  | .base (.insert _ _) | .base (.remove _) | .base .clone => none
  | .base (.insertMut _ _) => some 2
  | _ => some 0

-- it answers right, but copies a path each time
example : (outcome (bump _) 3000 (client insertKeepsOld [] (.new :: (List.range 8).map (fun i => .run 0 (.base (.insertMut i i))) ++
    [.run 0 (.base (.get 5)), .discard 0])) []).any (fun x => decide (x.1.1[9]? = some (some (.base (.optV (some 5)))))) = true := by
  decide +kernel

theorem insertKeepsOld_not_inPlace : ¬ WorksInPlace insertKeepsOld [] (Spec.ordMapStep 64 natOrd) noLabel 0 rbAllow :=
  not_inPlace 200 [.new, .run 0 (.base (.insertMut 1 1)), .run 0 (.base (.insertMut 2 2))]
    (by rintro i op h l; simp at h; rcases h with ⟨-, rfl⟩ | ⟨-, rfl⟩ <;> rfl) (x := ([none, some (.base .unit), some (.base .unit)], [some [(2, 2), (1, 1)]]))
    (by decide +kernel) (by decide +kernel)

/-- `Vector` whose `push_back_mut` is `*self = self.push_back(v)`. -/
def pushPersists : Impl (VLabel Nat) HVector (RVector.Op Nat) (RVector.Ret Nat) :=
  { vecImpl ⟨.debug, 64⟩ Nat 2 with step := fun v op =>
      match op with
      | .pushBackMut x =>
        Prog.bind (v.pushBack ⟨.debug, 64⟩ x) fun v' => Prog.bind (drop v.root) fun _ => .ret (.unit, .update v')
      | _ => vecHStep ⟨.debug, 64⟩ v op }

/-- What the operations of `Vector` may allocate in `C66_vector_in_place`. -/
def vecAllow (v : HVector) (op : RVector.Op Nat) : Option Nat :=
  match op with
  | .pushBack _ | .set _ _ | .dropLast | .clone => none
  | .pushBackMut _ => some (Nat.log2 v.length / v.bits + 2)
  | .setMut _ _ => some (Nat.log2 v.length / v.bits + 1)
  | .extend xs => some (xs.length * (Nat.log2 (v.length + xs.length) / v.bits + 2))
  | _ => some 0

theorem pushPersists_not_inPlace : ¬ WorksInPlace pushPersists (vecCap ⟨.debug, 64⟩ 2, []) Spec.vecStep noLabel 1 vecAllow :=
  not_inPlace 60 [.new, .run 0 (.pushBackMut 1)]
    (by rintro i op h l; simp at h; rcases h with ⟨-, rfl⟩; rfl) (x := ([none, some .unit], [some (vecCap ⟨.debug, 64⟩ 2, [1])]))
    (by decide +kernel) (by decide +kernel)

theorem not_memory {L H Op Ret σ : Type} {impl : Impl L H Op Ret} {new : σ} {step : σ → Op → Res (Ret × Effect σ)} {size : σ → Nat} (n : Nat)
    (cmds : List (Cmd Op)) {x : List (Option Ret) × List (Option σ)} (hp : pureClient new step [] cmds = .ok x)
    (hb : (match outcome (bump _) n (client impl [] cmds) [] with
      | some y => decide (sumOver size x.2 < live y.2.1)
      | none => false) = true) : ¬ MemoryFollows impl new step size := by
  intro h
  split at hb
  · rename_i y e1
    obtain ⟨hs, m, d, r, hle, -⟩ := h (bump _) cmds x.1 x.2 hp
    obtain ⟨-, e2, -⟩ := r.unique (runs_of_outcome e1)
    simp only [decide_eq_true_eq] at hb
    rw [e2] at hle
    omega
  · cases hb

theorem nextCountedTwice_not_followed : ¬ MemoryFollows nextCountedTwice [] spec (fun xs => 2 * xs.length + min xs.length 1) :=
  not_memory 150 [.new, .run 0 (.pushFrontMut 1), .run 0 (.pushFrontMut 2), .run 0 (.pushFrontMut 3), .run 0 .clone, .run 0 .dropFirstMut, .discard 1,
    .discard 0] (x := ([none, some .unit, some .unit, some .unit, some .unit, some (.bool true), none, none], [none, none])) (by rfl) (by decide +kernel)

/-- `Vector` whose `drop_last_mut` only makes the length smaller. -/
def dropForgets : Impl (VLabel Nat) HVector (RVector.Op Nat) (RVector.Ret Nat) :=
  { vecImpl ⟨.debug, 64⟩ Nat 1 with step := fun v op =>
      match op with
      | .dropLastMut => .ret (if v.length > 0 then (.bool true, .update { v with length := v.length - 1 }) else (.bool false, .update v))
      | _ => vecHStep ⟨.debug, 64⟩ v op }

theorem dropForgets_not_followed : ¬ MemoryFollows dropForgets (vecCap ⟨.debug, 64⟩ 1, []) Spec.vecStep
    (fun s => s.2.length + s.2.length / (2 ^ 1 - 1) + Nat.log2 s.2.length / 1 + 1) :=
  not_memory 100 [.new, .run 0 (.pushBackMut 1), .run 0 (.pushBackMut 2), .run 0 .dropLastMut, .run 0 .dropLastMut]
    (x := ([none, some .unit, some .unit, some (.bool true), some (.bool true)], [some (vecCap ⟨.debug, 64⟩ 1, [])])) (by decide +kernel) (by decide +kernel)

/-- An iterator over a list that keeps its position and finds it anew at each call. -/
def listItersByIndex : IterImpl (LinLabel Nat) HList Unit (HList × Nat) (Option Nat × Nat) where
  start l _ := pure (l, 0)
  next it back :=
    if back then .panic
    else do
      let xs ← viewLink it.1.length it.1.head
      pure ((xs.toList[it.2]?, it.1.length - (it.2 + 1)), (it.1, it.2 + 1))

theorem listItersByIndex_not_cheap : ¬ IteratorsCost (listImpl Nat) listItersByIndex (fun _ => 0) (fun _ => 0) 2 listByRef []
    (fun xs op => .ok (Spec.listStep xs op)) (fun xs _ => .ok xs) fwNext := by
  rintro ⟨h, -⟩
  have hc : (outcome (bump _) 60 (client (listImpl Nat) [] [.new, .run 0 (.pushFrontMut 1), .run 0 (.pushFrontMut 2)]) []).any (fun y =>
      match y.1.2 with
      | [some l] =>
        (outcome (bump _) 60 (listItersByIndex.session l () [false]) y.2.1).any fun z => decide (2 < (z.1.2.map Prod.snd).sum)
      | _ => false) = true := by decide +kernel
  obtain ⟨hs, m, d, e, hh⟩ := h (bump _) [.new, .run 0 (.pushFrontMut 1), .run 0 (.pushFrontMut 2)] [none, some .unit, some .unit] [some [2, 1]] rfl
  cases e1 : outcome (bump _) 60 (client (listImpl Nat) [] [.new, .run 0 (.pushFrontMut 1), .run 0 (.pushFrontMut 2)]) [] with
  | none => simp [e1] at hc
  | some y =>
    obtain ⟨er, em, -⟩ := (runs_of_outcome e1).unique e
    simp only [e1, Option.any_some, er, em] at hc
    split at hc
    · rename_i l
      obtain ⟨k, yks, m', d', e2, -, -, -, hb⟩ := hh 0 l [2, 1] () [2, 1] [false] [(some 2, 1)] (by simp) rfl rfl rfl
      cases e3 : outcome (bump _) 60 (listItersByIndex.session l () [false]) m with
      | none => rw [e3] at hc; simp at hc
      | some z =>
        obtain ⟨ez, -⟩ := (runs_of_outcome e3).unique e2
        simp only [e3, Option.any_some, ez, decide_eq_true_eq] at hc
        have := hb [] (yks.map Prod.snd) [] (by simp)
        have hl : (yks.map Prod.snd).length = 1 := by
          obtain ⟨k', yks', m'', d'', e4, -, e5, -⟩ := hh 0 l [2, 1] () [2, 1] [false] [(some 2, 1)] (by simp) rfl rfl rfl
          have := congrArg List.length e5
          obtain ⟨e6, -⟩ := e2.unique e4
          cases e6
          simpa using this
        dsimp only at this; omega
    · cases hc

end Rejects
end Props
end Rpds
