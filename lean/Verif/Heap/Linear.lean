import Verif.Heap.ListLemmas
import Verif.Heap.Client
import Verif.Stack.Lemmas
import Verif.Queue.Lemmas
/-
`List`, `Stack` and `Queue` as heap data structures with all of their operations, for clients.
-/
set_option autoImplicit false
namespace Rpds
namespace Heap

/-- Cells of a `List<T>`: elements and nodes. -/
inductive LinLabel (T : Type) where
  | val (v : T)
  | node
  deriving DecidableEq, Repr

/-- An element cell. -/
def linDec {T : Type} (t : ATree (LinLabel T)) (v : T) : Prop := t.label = .val v ∧ t.kids = []

section
variable {T : Type}

/-- Reads an element. -/
def readVal (p : Addr) : Prog (LinLabel T) T := do
  match ← read p with
  | (.val v, _) => pure v
  | _ => .panic

/-- Reads an optional element. -/
def readValOpt : Option Addr → Prog (LinLabel T) (Option T)
  | none => pure none
  | some p => do
    let v ← readVal p
    pure (some v)

/-- Reads a chain of nodes with their elements (all the reads an iterator over it can make). -/
def viewLink : (fuel : Nat) → Option Addr → Prog (LinLabel T) (Link T)
  | _, none => pure .none
  | 0, some _ => .panic
  | fuel + 1, some p => do
    let (value, next) ← HList.readNode p
    let v ← readVal value
    let rest ← viewLink fuel next
    pure (.some v rest)

/-- An iterator over a list, `n` calls of `next` (list/mod.rs:424-460).  The nodes are read up front: while the iterator
exists the list is borrowed, so the order of the reads does not matter. -/
def listIter (l : HList) (n : Nat) : Prog (LinLabel T) (RList.Ret T) := do
  let head ← viewLink l.length l.head
  match fwCalls ListIter.step ListIter.sizeHint n ⟨head, l.length⟩ with
  | .ok cs => pure (.calls l.length cs)
  | .error _ => .panic

/-- All operations of `List` (the same as in `RList.step`). -/
def listHStep (l : HList) : RList.Op T → Prog (LinLabel T) (RList.Ret T × Effect HList)
  | .pushFront v => do
    let l' ← l.pushFront .node (.val v)
    pure (.unit, .fresh l')
  | .pushFrontMut v => do
    let l' ← l.pushFrontMut .node (.val v)
    pure (.unit, .update l')
  | .dropFirst => do
    match ← l.dropFirst with
    | some l' => pure (.bool true, .fresh l')
    | none => pure (.bool false, .keep)
  | .dropFirstMut => do
    let (b, l') ← l.dropFirstMut
    pure (.bool b, .update l')
  | .reverse => do
    let l' ← l.reverse .node
    pure (.unit, .fresh l')
  | .reverseMut => do
    let l' ← l.reverseMut
    pure (.unit, .update l')
  | .clone => do
    let l' ← l.clone
    pure (.unit, .fresh l')
  | .first => do
    let p ← l.first
    let v ← readValOpt p
    pure (.opt v, .keep)
  | .last => do
    let v ← readValOpt l.last
    pure (.opt v, .keep)
  | .len => pure (.nat l.length, .keep)
  | .isEmpty => pure (.bool (l.length == 0), .keep)
  | .iter n => do
    let r ← listIter l n
    pure (r, .keep)

/-- `List` for clients. -/
def listImpl (T : Type) : Impl (LinLabel T) HList (RList.Op T) (RList.Ret T) where
  ptrs := HList.ptrs
  new := pure HList.new
  step := listHStep
  drop := HList.dropList

/-- A list on the heap stands for a sequence. -/
def ListIs (l : HList) (xs : List T) (ρ : List (Item (LinLabel T))) : Prop :=
  ∃ r : RList T, l.Is .node linDec r ρ ∧ r.Rep xs

variable {A : Allocator (LinLabel T)} {D : Option Nat}

theorem linElemOK (hD : Within D 1) : HList.ElemOK D (linDec (T := T)) := by
  rintro ⟨a, l, ts⟩ v ⟨-, h⟩
  simp only [ATree.kids] at h
  subst h
  simpa [nest, nest.go] using hD

theorem safe_readVal {s t : ATree (LinLabel T)} {v : T} (h : linDec s v) (hs : Sub s t) {ρ : List (Item (LinLabel T))}
    (ht : .ptr t ∈ ρ) : Safe A D (fun r σ => r = v ∧ σ = ρ) (readVal s.addr) ρ := by
  refine Safe.bind (safe_read hs ht) ?_
  rintro c σ ⟨rfl, rfl⟩
  rw [h.1]
  exact Safe.ret ⟨rfl, rfl⟩

theorem safe_viewLink {t : ATree (LinLabel T)} {ρ : List (Item (LinLabel T))} (ht : .ptr t ∈ ρ)
    (tn : Option (ATree (LinLabel T))) (next : Link T) (hn : IsLink .node linDec tn next)
    (hs : ∀ s, tn = some s → Sub s t) (fuel : Nat) (hf : next.toList.length ≤ fuel) :
    Safe A D (fun r σ => r = next ∧ σ = ρ) (viewLink fuel (tn.map ATree.addr)) ρ := by
  induction hn generalizing fuel with
  | none => cases fuel <;> exact Safe.ret ⟨rfl, rfl⟩
  | @some a tv tn v next hv hn ih =>
    cases fuel with
    | zero => simp [Link.toList] at hf
    | succ fuel =>
      have hsub := hs _ rfl
      refine Safe.bind (HList.safe_readNode (s := .node a .node (tv :: tn.toList)) rfl hsub ht) ?_
      rintro c σ ⟨rfl, rfl⟩
      simp only
      refine Safe.bind (safe_readVal hv (.kid hsub (by simp [ATree.kids])) ht) ?_
      rintro c σ ⟨rfl, rfl⟩
      refine Safe.bind (ih ?_ fuel (by simp [Link.toList] at hf; omega)) ?_
      · rintro s rfl
        exact .kid hsub (by simp [ATree.kids])
      rintro c σ ⟨rfl, rfl⟩
      exact Safe.ret ⟨rfl, rfl⟩

/-- A view of a whole list. -/
theorem HList.Is.view {l : HList} {r : RList T} {ρ : List (Item (LinLabel T))} (h : l.Is .node linDec r ρ)
    (hl : r.head.toList.length = r.length) (F : List (Item (LinLabel T))) :
    Safe A D (fun x σ => x = r.head ∧ σ = ρ ++ F) (viewLink l.length l.head) (ρ ++ F) := by
  obtain ⟨th, tl, rfl, rfl, h1, h2⟩ := h
  cases th with
  | none =>
    generalize r.head = hd at *
    cases h1
    cases r.length <;> exact Safe.ret ⟨rfl, rfl⟩
  | some t => exact safe_viewLink (t := t) (by simp) (some t) _ h1 (by rintro s e; cases e; exact .refl t) _ (by simp only; omega)

theorem HList.Is.readFirst {l : HList} {r : RList T} {ρ : List (Item (LinLabel T))} (h : l.Is .node linDec r ρ)
    (F : List (Item (LinLabel T))) :
    Safe A D (fun x σ => x = r.first ∧ σ = ρ ++ F) (l.first.bind fun p => readValOpt p) (ρ ++ F) := by
  obtain ⟨th, tl, rfl, rfl, h1, h2⟩ := h
  obtain ⟨hd, la, len⟩ := r
  simp only at h1
  cases h1 with
  | none => exact Safe.ret ⟨rfl, rfl⟩
  | @some a tv tn v next hv hn =>
    refine Safe.bind (Q := fun x σ => x = some tv.addr ∧ σ = optPtr (some (.node a .node (tv :: tn.toList))) ++ optPtr tl ++ F)
      ?_ ?_
    · refine Safe.bind (HList.safe_readNode (s := .node a .node (tv :: tn.toList)) rfl (.refl _) (by simp)) ?_
      rintro c σ ⟨rfl, rfl⟩
      exact Safe.ret ⟨rfl, rfl⟩
    · rintro x _ ⟨rfl, rfl⟩
      refine Safe.bind (safe_readVal hv (t := .node a .node (tv :: tn.toList)) (Sub.of_kid (by simp [ATree.kids]))
        (by simp)) ?_
      rintro c σ ⟨rfl, rfl⟩
      exact Safe.ret ⟨rfl, rfl⟩

theorem HList.Is.readLast {l : HList} {r : RList T} {ρ : List (Item (LinLabel T))} (h : l.Is .node linDec r ρ)
    (F : List (Item (LinLabel T))) :
    Safe A D (fun x σ => x = r.last ∧ σ = ρ ++ F) (readValOpt l.last) (ρ ++ F) := by
  obtain ⟨th, tl, rfl, rfl, h1, h2⟩ := h
  obtain ⟨hd, la, len⟩ := r
  simp only at h2
  cases h2 with
  | none => exact Safe.ret ⟨rfl, rfl⟩
  | @some tv v hv =>
    refine Safe.bind (safe_readVal hv (.refl tv) (by simp)) ?_
    rintro c σ ⟨rfl, rfl⟩
    exact Safe.ret ⟨rfl, rfl⟩

/-- One operation on a list, with a limit on the nesting of destructors. -/
theorem safe_listHStep (hD : Within D 1) {l : HList} {xs : List T} {ρ : List (Item (LinLabel T))} (h : ListIs l xs ρ)
    (op : RList.Op T) :
    Safe A D (fun x τ => x.1 = (Spec.listStep xs op).1 ∧ EffOwn ListIs l xs x.2 (Spec.listStep xs op).2 τ)
      (listHStep l op) ρ := by
  have hE : HList.ElemOK D (linDec (T := T)) := linElemOK hD
  obtain ⟨r, hi, hr⟩ := h
  have hl : r.head.toList.length = r.length := by rw [hr.head, hr.length]
  have hval : ∀ v : T, ∀ a, linDec (.node a (.val v) []) v := fun v a => ⟨rfl, rfl⟩
  have keep : ListIs l xs ρ := ⟨r, hi, hr⟩
  cases op with
  | pushFront v =>
    refine Safe.bind (HList.safe_pushFront hE hi (hval v)) ?_
    rintro l' _ ⟨τ, rfl, h'⟩
    exact Safe.ret ⟨rfl, .fresh ⟨_, h', hr.pushFront v⟩ keep⟩
  | pushFrontMut v =>
    refine Safe.bind (HList.safe_pushFrontMut hE hi (hval v)) ?_
    intro l' _ h'
    exact Safe.ret ⟨rfl, .update ⟨_, h', hr.pushFrontMut v⟩⟩
  | dropFirst =>
    cases xs with
    | nil =>
      refine Safe.bind (HList.safe_dropFirst hE hi hl (o := none) (by simp [RList.dropFirst, hr.clone.dropFirstMut_nil])) ?_
      rintro x _ ⟨τ, rfl, rfl, rfl⟩
      exact Safe.ret ⟨rfl, .keep keep⟩
    | cons x xs =>
      obtain ⟨r', h1, h2⟩ := hr.clone.dropFirstMut_cons
      refine Safe.bind (HList.safe_dropFirst hE hi hl (o := some r') (by simp [RList.dropFirst, h1])) ?_
      rintro _ _ ⟨τ, rfl, l', rfl, h'⟩
      exact Safe.ret ⟨rfl, .fresh ⟨r', h', h2⟩ keep⟩
  | dropFirstMut =>
    cases xs with
    | nil =>
      refine Safe.bind (HList.safe_dropFirstMut hE hi hr.dropFirstMut_nil) ?_
      rintro ⟨b, l'⟩ τ ⟨rfl, h'⟩
      exact Safe.ret ⟨rfl, .update ⟨r, h', hr⟩⟩
    | cons x xs =>
      obtain ⟨r', h1, h2⟩ := hr.dropFirstMut_cons
      refine Safe.bind (HList.safe_dropFirstMut hE hi h1) ?_
      rintro ⟨b, l'⟩ τ ⟨rfl, h'⟩
      exact Safe.ret ⟨rfl, .update ⟨r', h', h2⟩⟩
  | reverse =>
    obtain ⟨r', h1, h2⟩ := HList.safe_reverse (A := A) hE hi hl
    obtain ⟨r'', h3, h4⟩ := hr.reverse
    rw [h1] at h3
    cases h3
    refine Safe.bind h2 ?_
    rintro l' _ ⟨τ, rfl, h'⟩
    exact Safe.ret ⟨rfl, .fresh ⟨_, h', h4⟩ keep⟩
  | reverseMut =>
    refine Safe.bind (HList.safe_reverseMut hE hi hl) ?_
    intro l' _ h'
    exact Safe.ret ⟨rfl, .update ⟨_, h', hr.reverseMut⟩⟩
  | clone =>
    refine Safe.bind (HList.safe_clone hi) ?_
    rintro l' _ ⟨τ, rfl, h'⟩
    exact Safe.ret ⟨rfl, .fresh ⟨_, h', hr.clone⟩ keep⟩
  | first =>
    have := hi.readFirst (A := A) (D := D) []
    simp only [List.append_nil] at this
    have h2 := this.bind (R := fun x τ => x.1 = (Spec.listStep xs .first).1 ∧
      EffOwn ListIs l xs x.2 (Spec.listStep xs .first).2 τ) (f := fun v => .ret (.opt v, .keep)) (by
        rintro x _ ⟨rfl, rfl⟩
        refine Safe.ret ⟨?_, .keep keep⟩
        simp [Spec.listStep, hr.first])
    rw [Prog.bind_assoc] at h2
    exact h2
  | last =>
    have := hi.readLast (A := A) (D := D) []
    simp only [List.append_nil] at this
    refine Safe.bind this ?_
    rintro x _ ⟨rfl, rfl⟩
    refine Safe.ret ⟨?_, .keep keep⟩
    simp [Spec.listStep, hr.last]
  | len =>
    obtain ⟨th, tl, rfl, rfl, h1, h2⟩ := hi
    exact Safe.ret ⟨by simp [Spec.listStep, hr.length], .keep keep⟩
  | isEmpty =>
    obtain ⟨th, tl, rfl, rfl, h1, h2⟩ := hi
    refine Safe.ret ⟨?_, .keep keep⟩
    have := hr.isEmpty
    simpa [Spec.listStep, RList.isEmpty, RList.len] using this
  | iter n =>
    have := hi.view (A := A) (D := D) hl []
    simp only [List.append_nil] at this
    refine Safe.bind (Q := fun x σ => x = .calls xs.length (Spec.fwRun xs n) ∧ σ = ρ) (Safe.bind this ?_) ?_
    · rintro x _ ⟨rfl, rfl⟩
      have e : l.length = r.length := by obtain ⟨th, tl, rfl, -⟩ := hi; rfl
      have := hr.iter.calls n
      simp only [RList.iter, ListIter.new, RList.len] at this
      simp only [e, this]
      exact Safe.ret ⟨by rw [hr.length], rfl⟩
    · rintro x _ ⟨rfl, rfl⟩
      exact Safe.ret ⟨rfl, .keep keep⟩

theorem listIs_drop (hD : Within D 1) {l : HList} {xs : List T} {ρ : List (Item (LinLabel T))} (h : ListIs l xs ρ)
    (hd : D = none ∨ xs = []) : Safe A D (fun _ τ => τ = []) l.dropList ρ := by
  obtain ⟨r, hi, hr⟩ := h
  exact HList.safe_dropList (linElemOK hD) hi (by rw [hr.head, hr.length])
    (hd.imp id fun h => by rw [hr.length, h]; rfl)

theorem listImpl_refines :
    (listImpl T).Refines A ([] : List T) (fun xs op => .ok (Spec.listStep xs op)) ListIs where
  new := Safe.ret ⟨RList.new, HList.is_new _ _, RList.rep_new⟩
  step := by
    rintro l xs ρ op r e h he
    simp only [Except.ok.injEq] at he
    have := safe_listHStep (A := A) (within_none 1) h op
    rw [he] at this
    exact this
  drop l xs ρ h := listIs_drop (within_none 1) h (.inl rfl)
  ptrs l xs ρ h := by
    obtain ⟨r, hi, -⟩ := h
    exact hi.ptrs

/-! ### Stack -/

/-- `Stack` is a `List` (stack/mod.rs:69-75). -/
def stackHStep (s : HList) : Stack.Op T → Prog (LinLabel T) (RList.Ret T × Effect HList)
  | .push v => listHStep s (.pushFront v)
  | .pushMut v => listHStep s (.pushFrontMut v)
  | .pop => listHStep s .dropFirst
  | .popMut => listHStep s .dropFirstMut
  | .clone => listHStep s .clone
  | .peek => listHStep s .first
  | .size => listHStep s .len
  | .isEmpty => listHStep s .isEmpty
  | .iter n => listHStep s (.iter n)

/-- `Stack` for clients. -/
def stackImpl (T : Type) : Impl (LinLabel T) HList (Stack.Op T) (RList.Ret T) where
  ptrs := HList.ptrs
  new := pure HList.new
  step := stackHStep
  drop := HList.dropList

theorem safe_stackHStep (hD : Within D 1) {l : HList} {xs : List T} {ρ : List (Item (LinLabel T))} (h : ListIs l xs ρ)
    (op : Stack.Op T) :
    Safe A D (fun x τ => x.1 = (Spec.stackStep xs op).1 ∧ EffOwn ListIs l xs x.2 (Spec.stackStep xs op).2 τ)
      (stackHStep l op) ρ := by
  cases op with
  | push v => exact safe_listHStep hD h (.pushFront v)
  | pushMut v => exact safe_listHStep hD h (.pushFrontMut v)
  | pop => exact safe_listHStep hD h .dropFirst
  | popMut => exact safe_listHStep hD h .dropFirstMut
  | clone => exact safe_listHStep hD h .clone
  | peek => exact safe_listHStep hD h .first
  | size => exact safe_listHStep hD h .len
  | isEmpty => exact safe_listHStep hD h .isEmpty
  | iter n => exact safe_listHStep hD h (.iter n)

theorem stackImpl_refines :
    (stackImpl T).Refines A ([] : List T) (fun xs op => .ok (Spec.stackStep xs op)) ListIs where
  new := Safe.ret ⟨RList.new, HList.is_new _ _, RList.rep_new⟩
  step := by
    rintro l xs ρ op r e h he
    simp only [Except.ok.injEq] at he
    have := safe_stackHStep (A := A) (within_none 1) h op
    rw [he] at this
    exact this
  drop l xs ρ h := listIs_drop (within_none 1) h (.inl rfl)
  ptrs l xs ρ h := by
    obtain ⟨r, hi, -⟩ := h
    exact hi.ptrs

/-! ### Queue -/

/-- `struct Queue` (queue/mod.rs:97-103). -/
structure HQueue where
  in_list : HList
  out_list : HList
  deriving DecidableEq, Repr

namespace HQueue

/-- `Queue::new_with_ptr_kind` (queue/mod.rs:126-128). -/
def new : HQueue := { in_list := .new, out_list := .new }

/-- `Clone for Queue` (queue/mod.rs:251-253). -/
def clone (q : HQueue) : Prog (LinLabel T) HQueue := do
  let in_list ← q.in_list.clone
  let out_list ← q.out_list.clone
  pure { in_list, out_list }

/-- Dropping a queue: its fields in turn. -/
def dropQueue (q : HQueue) : Prog (LinLabel T) Unit := do
  q.in_list.dropList
  q.out_list.dropList

/-- `Queue::peek` (queue/mod.rs:131-133). -/
def peek (q : HQueue) : Prog (LinLabel T) (Option Addr) :=
  if !(q.out_list.length == 0) then q.out_list.first else pure q.in_list.last

/-- `Queue::dequeue_mut` (queue/mod.rs:142-155). -/
def dequeueMut (q : HQueue) : Prog (LinLabel T) (Bool × HQueue) :=
  if !(q.out_list.length == 0) then do
    let (_, out_list) ← q.out_list.dropFirstMut
    pure (true, { q with out_list })
  else if !(q.in_list.length == 0) then do
    let in_list := q.out_list
    let out_list := q.in_list
    let out_list ← out_list.reverseMut
    let (_, out_list) ← out_list.dropFirstMut
    pure (true, { in_list, out_list })
  else pure (false, q)

/-- `Queue::dequeue` (queue/mod.rs:136-140). -/
def dequeue (q : HQueue) : Prog (LinLabel T) (Option HQueue) := do
  let new_queue ← q.clone
  let (b, new_queue) ← new_queue.dequeueMut
  if b then pure (some new_queue) else do
    dropQueue new_queue
    pure none

/-- `Queue::enqueue_mut` (queue/mod.rs:166-168). -/
def enqueueMut (q : HQueue) (v : T) : Prog (LinLabel T) HQueue := do
  let in_list ← q.in_list.pushFrontMut .node (.val v)
  pure { q with in_list }

/-- `Queue::enqueue` (queue/mod.rs:158-164). -/
def enqueue (q : HQueue) (v : T) : Prog (LinLabel T) HQueue := do
  let new_queue ← q.clone
  new_queue.enqueueMut v

/-- `Queue::iter` (queue/mod.rs:182-188), `n` calls of `next`; all nodes are read up front; iterating
never uses `last`. -/
def iter (q : HQueue) (n : Nat) : Prog (LinLabel T) (RList.Ret T) := do
  let out ← viewLink q.out_list.length q.out_list.head
  let inn ← viewLink q.in_list.length q.in_list.head
  let it : QueueIter T := { a := some ⟨out, q.out_list.length⟩, b := .new ⟨inn, inn.toList.getLast?, q.in_list.length⟩ }
  match fwCalls QueueIter.step QueueIter.sizeHint n it with
  | .ok cs => pure (.calls it.sizeHint cs)
  | .error _ => .panic

end HQueue

/-- All operations of `Queue`. -/
def queueHStep (q : HQueue) : Queue.Op T → Prog (LinLabel T) (RList.Ret T × Effect HQueue)
  | .enqueue v => do
    let q' ← q.enqueue v
    pure (.unit, .fresh q')
  | .enqueueMut v => do
    let q' ← q.enqueueMut v
    pure (.unit, .update q')
  | .dequeue => do
    match ← q.dequeue with
    | some q' => pure (.bool true, .fresh q')
    | none => pure (.bool false, .keep)
  | .dequeueMut => do
    let (b, q') ← q.dequeueMut
    pure (.bool b, .update q')
  | .clone => do
    let q' ← q.clone
    pure (.unit, .fresh q')
  | .peek => do
    let p ← q.peek
    let v ← readValOpt p
    pure (.opt v, .keep)
  | .len => pure (.nat (q.in_list.length + q.out_list.length), .keep)
  | .isEmpty => pure (.bool (q.in_list.length + q.out_list.length == 0), .keep)
  | .iter n => do
    let r ← q.iter n
    pure (r, .keep)

/-- `Queue` for clients. -/
def queueImpl (T : Type) : Impl (LinLabel T) HQueue (Queue.Op T) (RList.Ret T) where
  ptrs q := q.in_list.ptrs ++ q.out_list.ptrs
  new := pure HQueue.new
  step := queueHStep
  drop := HQueue.dropQueue

/-- A queue on the heap stands for a queue of the value model. -/
def HQueue.Is (q : HQueue) (r : Queue T) (ρ : List (Item (LinLabel T))) : Prop :=
  ∃ ρ₁ ρ₂, ρ = ρ₁ ++ ρ₂ ∧ q.in_list.Is .node linDec r.in_list ρ₁ ∧ q.out_list.Is .node linDec r.out_list ρ₂ ∧
    r.in_list.head.toList.length = r.in_list.length ∧ r.out_list.head.toList.length = r.out_list.length

/-- A queue on the heap stands for a sequence. -/
def QueueIs (q : HQueue) (xs : List T) (ρ : List (Item (LinLabel T))) : Prop :=
  ∃ r : Queue T, q.Is r ρ ∧ r.Rep xs

theorem HList.Is.length {l : HList} {r : RList T} {ρ : List (Item (LinLabel T))} (h : l.Is .node linDec r ρ) :
    l.length = r.length := by obtain ⟨th, tl, rfl, -⟩ := h; rfl

theorem safe_queueClone {q : HQueue} {r : Queue T} {ρ : List (Item (LinLabel T))} (h : q.Is r ρ) :
    Safe A D (fun q' σ => ∃ τ, σ = τ ++ ρ ∧ q'.Is r.clone τ) q.clone ρ := by
  obtain ⟨ρ₁, ρ₂, rfl, h1, h2, h3, h4⟩ := h
  refine Safe.bindFrame (F := ρ₂) (HList.safe_clone h1) (.refl _) ?_
  rintro l1 _ ⟨τ₁, rfl, h1'⟩
  refine Safe.bindFrame (F := τ₁ ++ ρ₁) (HList.safe_clone h2) (by perm_tac) ?_
  rintro l2 _ ⟨τ₂, rfl, h2'⟩
  refine ⟨_, ?_, τ₁ ++ τ₂, rfl, τ₁, τ₂, rfl, h1', h2', h3, h4⟩
  perm_tac

theorem length_reverseMut {r : RList T} (hl : r.head.toList.length = r.length) :
    r.reverseMut.head.toList.length = r.reverseMut.length := by
  simp [RList.reverseMut, RList.reverseLoop_toList, Link.toList, hl]

theorem safe_dequeueMut (hD : Within D 1) {q : HQueue} {r : Queue T} {ρ : List (Item (LinLabel T))} (h : q.Is r ρ)
    {b : Bool} {r' : Queue T} (he : r.dequeueMut = .ok (b, r')) :
    Safe A D (fun x σ => x.1 = b ∧ x.2.Is r' σ ∧ (b = false → r'.out_list.length = 0 ∧ r'.in_list.length = 0))
      q.dequeueMut ρ := by
  have hE : HList.ElemOK D (linDec (T := T)) := linElemOK hD
  obtain ⟨ρ₁, ρ₂, rfl, h1, h2, h3, h4⟩ := h
  obtain ⟨ql, qo⟩ := q
  obtain ⟨rl, ro⟩ := r
  simp only at h1 h2 h3 h4
  have e1 := h1.length
  have e2 := h2.length
  unfold Queue.dequeueMut at he
  unfold HQueue.dequeueMut
  simp only [RList.isEmpty, RList.len] at he
  simp only [e1, e2]
  by_cases ho : ro.length = 0
  · simp only [ho, beq_self_eq_true, Bool.not_true, Bool.false_eq_true, if_false] at he ⊢
    by_cases hi : rl.length = 0
    · simp only [hi, beq_self_eq_true, Bool.not_true, Bool.false_eq_true, if_false, Res.pure_eq, Except.ok.injEq,
        Prod.mk.injEq] at he ⊢
      obtain ⟨rfl, rfl⟩ := he
      exact Safe.ret ⟨rfl, ⟨ρ₁, ρ₂, rfl, h1, h2, h3, h4⟩, fun _ => ⟨ho, hi⟩⟩
    · have hb : (rl.length == 0) = false := by simpa using hi
      simp only [hb, Bool.not_false, if_true] at he ⊢
      cases hd : rl.reverseMut.dropFirstMut with
      | error e => simp [hd] at he
      | ok y =>
        obtain ⟨b', l'⟩ := y
        simp only [hd, Res.ok_bind, Res.pure_eq, Except.ok.injEq, Prod.mk.injEq] at he
        obtain ⟨rfl, rfl⟩ := he
        refine Safe.bindFrame (F := ρ₂) (HList.safe_reverseMut hE h1 h3) (.refl _) ?_
        intro l1 τ h1'
        refine Safe.bindFrame (F := ρ₂) (HList.safe_dropFirstMut hE h1' hd) (.refl _) ?_
        rintro ⟨b2, l2⟩ τ ⟨rfl, h2'⟩
        refine ⟨_, List.perm_append_comm, rfl, ⟨ρ₂, τ, rfl, h2, h2', h4, ?_⟩, by simp⟩
        exact (HList.length_dropFirstMut (length_reverseMut h3) hd).1
  · have hb : (ro.length == 0) = false := by simpa using ho
    simp only [hb, Bool.not_false, if_true] at he ⊢
    cases hd : ro.dropFirstMut with
    | error e => simp [hd] at he
    | ok y =>
      obtain ⟨b', l'⟩ := y
      simp only [hd, Res.ok_bind, Res.pure_eq, Except.ok.injEq, Prod.mk.injEq] at he
      obtain ⟨rfl, rfl⟩ := he
      refine Safe.bindFrame (F := ρ₁) (HList.safe_dropFirstMut hE h2 hd) List.perm_append_comm ?_
      rintro ⟨b2, l2⟩ τ ⟨rfl, h2'⟩
      refine ⟨_, List.perm_append_comm, rfl, ⟨ρ₁, τ, rfl, h1, h2', h3, ?_⟩, by simp⟩
      exact (HList.length_dropFirstMut h4 hd).1

theorem safe_dropQueue (hD : Within D 1) {q : HQueue} {r : Queue T} {ρ : List (Item (LinLabel T))} (h : q.Is r ρ)
    (hd : D = none ∨ (r.out_list.length = 0 ∧ r.in_list.length = 0)) : Safe A D (fun _ τ => τ = []) q.dropQueue ρ := by
  obtain ⟨ρ₁, ρ₂, rfl, h1, h2, h3, h4⟩ := h
  refine Safe.bindFrame (F := ρ₂) (HList.safe_dropList (linElemOK hD) h1 h3 (hd.imp id (·.2))) (.refl _) ?_
  rintro _ _ rfl
  exact HList.safe_dropList (linElemOK hD) h2 h4 (hd.imp id (·.1))

/-- One operation on a queue, with a limit on the nesting of destructors. -/
theorem safe_queueHStep (hD : Within D 1) {q : HQueue} {xs : List T} {ρ : List (Item (LinLabel T))} (h : QueueIs q xs ρ)
    (op : Queue.Op T) :
    Safe A D (fun x τ => x.1 = (Spec.queueStep xs op).1 ∧ EffOwn QueueIs q xs x.2 (Spec.queueStep xs op).2 τ)
      (queueHStep q op) ρ := by
  have hE : HList.ElemOK D (linDec (T := T)) := linElemOK hD
  have hval : ∀ v : T, ∀ a, linDec (.node a (.val v) []) v := fun v a => ⟨rfl, rfl⟩
  obtain ⟨r, hi, hr⟩ := h
  have keep : QueueIs q xs ρ := ⟨r, hi, hr⟩
  have enq : ∀ {q : HQueue} {r : Queue T} {ρ : List (Item (LinLabel T))} (v : T), q.Is r ρ →
      Safe A D (fun q' σ => q'.Is (r.enqueueMut v) σ) (q.enqueueMut v) ρ := by
    rintro q r ρ v ⟨ρ₁, ρ₂, rfl, h1, h2, h3, h4⟩
    refine Safe.bindFrame (F := ρ₂) (HList.safe_pushFrontMut hE h1 (hval v)) (.refl _) ?_
    intro l' τ h'
    refine Safe.ret ⟨τ, ρ₂, rfl, h', h2, ?_, h4⟩
    simp [Queue.enqueueMut, RList.pushFrontMut, RList.pushFrontPtrMut, Link.toList, h3]
  cases op with
  | enqueue v =>
    refine Safe.bind (Q := fun q' σ => ∃ τ, σ = τ ++ ρ ∧ q'.Is (r.enqueue v) τ) (Safe.bind (safe_queueClone hi) ?_) ?_
    · rintro q' _ ⟨τ, rfl, h'⟩
      exact (enq v h').frame ρ
    · rintro q' _ ⟨τ, rfl, h'⟩
      exact Safe.ret ⟨rfl, .fresh ⟨_, h', hr.clone.enqueueMut v⟩ keep⟩
  | enqueueMut v =>
    refine Safe.bind (enq v hi) ?_
    intro q' τ h'
    exact Safe.ret ⟨rfl, .update ⟨_, h', hr.enqueueMut v⟩⟩
  | dequeue =>
    have main : ∀ b r', r.clone.dequeueMut = .ok (b, r') →
        Safe A D (fun x σ => ∃ τ, σ = τ ++ ρ ∧ if b then ∃ q', x = some q' ∧ q'.Is r' τ else x = none ∧ τ = [])
          q.dequeue ρ := by
      intro b r' he
      refine Safe.bind (safe_queueClone hi) ?_
      rintro q' _ ⟨τ, rfl, h'⟩
      refine Safe.bindFrame (F := ρ) (safe_dequeueMut hD h' he) (.refl _) ?_
      rintro ⟨b', q''⟩ τ ⟨rfl, h'', h3⟩
      cases b' with
      | true => exact Safe.ret ⟨τ, rfl, q'', rfl, h''⟩
      | false =>
        refine Safe.bindFrame (F := ρ) (safe_dropQueue hD h'' (.inr (h3 rfl))) (.refl _) ?_
        rintro _ _ rfl
        exact Safe.ret ⟨[], rfl, rfl, rfl⟩
    cases xs with
    | nil =>
      refine Safe.bind (main _ _ hr.clone.dequeueMut_nil) ?_
      rintro x _ ⟨τ, rfl, rfl, rfl⟩
      exact Safe.ret ⟨rfl, .keep keep⟩
    | cons x xs =>
      obtain ⟨r', h1, h2⟩ := hr.clone.dequeueMut_cons
      refine Safe.bind (main _ _ h1) ?_
      rintro _ _ ⟨τ, rfl, q', rfl, h'⟩
      exact Safe.ret ⟨rfl, .fresh ⟨r', h', h2⟩ keep⟩
  | dequeueMut =>
    cases xs with
    | nil =>
      refine Safe.bind (safe_dequeueMut hD hi hr.dequeueMut_nil) ?_
      rintro ⟨b, q'⟩ τ ⟨rfl, h', -⟩
      exact Safe.ret ⟨rfl, .update ⟨r, h', hr⟩⟩
    | cons x xs =>
      obtain ⟨r', h1, h2⟩ := hr.dequeueMut_cons
      refine Safe.bind (safe_dequeueMut hD hi h1) ?_
      rintro ⟨b, q'⟩ τ ⟨rfl, h', -⟩
      exact Safe.ret ⟨rfl, .update ⟨r', h', h2⟩⟩
  | clone =>
    refine Safe.bind (safe_queueClone hi) ?_
    rintro q' _ ⟨τ, rfl, h'⟩
    exact Safe.ret ⟨rfl, .fresh ⟨_, h', hr.clone⟩ keep⟩
  | peek =>
    have hp : Safe A D (fun x σ => x = xs.head? ∧ σ = ρ) (q.peek.bind fun p => readValOpt p) ρ := by
      rw [← hr.peek]
      obtain ⟨ρ₁, ρ₂, rfl, h1, h2, h3, h4⟩ := hi
      unfold Queue.peek HQueue.peek
      simp only [RList.isEmpty, RList.len, h2.length]
      by_cases hb : r.out_list.length = 0
      · simp only [hb, beq_self_eq_true, Bool.not_true, Bool.false_eq_true, if_false]
        exact h1.readLast ρ₂
      · have hb' : (r.out_list.length == 0) = false := by simpa using hb
        simp only [hb', Bool.not_false, if_true]
        have h := Safe.bind (A := A) (D := D) (R := fun x σ => x = r.out_list.first ∧ σ = ρ₁ ++ ρ₂) (f := .ret)
          (Safe.perm (h2.readFirst ρ₁) List.perm_append_comm) (by
            rintro x _ ⟨rfl, rfl⟩
            exact ⟨_, List.perm_append_comm, rfl, rfl⟩)
        rw [Prog.bind_ret] at h
        exact h
    have h2 := hp.bind (R := fun x τ => x.1 = (Spec.queueStep xs .peek).1 ∧
      EffOwn QueueIs q xs x.2 (Spec.queueStep xs .peek).2 τ) (f := fun v => .ret (.opt v, .keep)) (by
        rintro x _ ⟨rfl, rfl⟩
        exact Safe.ret ⟨rfl, .keep keep⟩)
    rw [Prog.bind_assoc] at h2
    exact h2
  | len =>
    refine Safe.ret ⟨?_, .keep keep⟩
    obtain ⟨ρ₁, ρ₂, rfl, h1, h2, h3, h4⟩ := hi
    have := hr.len
    simp only [Queue.len, RList.len] at this
    simp [Spec.queueStep, h1.length, h2.length, this]
  | isEmpty =>
    refine Safe.ret ⟨?_, .keep keep⟩
    obtain ⟨ρ₁, ρ₂, rfl, h1, h2, h3, h4⟩ := hi
    have := hr.isEmpty
    simp only [Queue.isEmpty, Queue.len, RList.len] at this
    simp [Spec.queueStep, h1.length, h2.length, ← this]
  | iter n =>
    refine Safe.bind (Q := fun x σ => x = .calls xs.length (Spec.fwRun xs n) ∧ σ = ρ) ?_ ?_
    · obtain ⟨ρ₁, ρ₂, rfl, h1, h2, h3, h4⟩ := hi
      refine Safe.bind ((h2.view h4 ρ₁).perm List.perm_append_comm) ?_
      rintro x _ ⟨rfl, rfl⟩
      refine Safe.bind ((h1.view h3 ρ₂).perm List.perm_append_comm) ?_
      rintro x _ ⟨rfl, rfl⟩
      have hit : (QueueIter.mk (some ⟨r.out_list.head, q.out_list.length⟩)
          (.new ⟨r.in_list.head, r.in_list.head.toList.getLast?, q.in_list.length⟩)).Rep xs := by
        obtain ⟨os, is, ho, hi, rfl⟩ := hr
        rw [h1.length, h2.length]
        exact .front ho.iter (.uninit { hi with last := by simp [hi.head] })
      simp only [hit.calls n, hit.sizeHint]
      exact Safe.ret ⟨rfl, rfl⟩
    · rintro x _ ⟨rfl, rfl⟩
      exact Safe.ret ⟨rfl, .keep keep⟩

theorem queueImpl_refines :
    (queueImpl T).Refines A ([] : List T) (fun xs op => .ok (Spec.queueStep xs op)) QueueIs where
  new := Safe.ret ⟨Queue.new, ⟨[], [], rfl, HList.is_new _ _, HList.is_new _ _, rfl, rfl⟩, Queue.rep_new⟩
  step := by
    rintro l xs ρ op r e h he
    simp only [Except.ok.injEq] at he
    have := safe_queueHStep (A := A) (within_none 1) h op
    rw [he] at this
    exact this
  drop q xs ρ h := by
    obtain ⟨r, hi, -⟩ := h
    exact safe_dropQueue (within_none 1) hi (.inl rfl)
  ptrs q xs ρ h := by
    obtain ⟨r, ⟨ρ₁, ρ₂, rfl, h1, h2, -⟩, -⟩ := h
    obtain ⟨ts₁, rfl, e1⟩ := h1.ptrs
    obtain ⟨ts₂, rfl, e2⟩ := h2.ptrs
    exact ⟨ts₁ ++ ts₂, by simp, by simp [queueImpl, e1, e2]⟩

end
end Heap
end Rpds
