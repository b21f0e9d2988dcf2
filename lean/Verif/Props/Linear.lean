import Verif.Stack.Lemmas
import Verif.Queue.Cost
import Verif.Spec.Order
/-
Properties C01–C07: `List`, `Stack`, `Queue`.
-/
set_option autoImplicit false
namespace Rpds.Props
variable {T : Type}

/-- What a program sees when it iterates a list to the end. -/
def listItems (l : RList T) : Res (List T) := drain ListIter.step (l.len + 1) l.iter

/-- What a program sees when it iterates a queue to the end. -/
def queueItems (q : Queue T) : Res (List T) := drain QueueIter.step (q.len + 1) q.iter

theorem rep_items {l : RList T} {xs : List T} (h : l.Rep xs) : listItems l = .ok xs :=
  h.iter.drives.drain (by simp [h.len])

theorem rep_qitems {l : Queue T} {xs : List T} (h : l.Rep xs) : queueItems l = .ok xs :=
  h.iter.drives.drain (by simp [h.len])

/-! ### C01 -/

/-- C01.  Every history of operations over any number of versions, started from an empty list and lists
collected from any items, runs without panic and gives the same answers (of `first`, `last`, `len`, `is_empty`,
iterations with size hints, success flags) as the same history on plain sequences. -/
theorem C01_list_refines_sequence (inits : List (List T)) (h : List (Nat × RList.Op T)) :
    ∃ answers versions seqs,
      runHistory RList.step (RList.new :: inits.map RList.fromIter) h = .ok (answers, versions) ∧
      runHistory (fun a op => .ok (Spec.listStep a op)) ([] :: inits) h = .ok (answers, seqs) ∧
      List.Forall₂ (fun v xs => listItems v = .ok xs) versions seqs := by
  have h0 : List.Forall₂ RList.Rep (RList.new :: inits.map RList.fromIter) ([] :: inits) := by
    refine .cons RList.rep_new ?_
    induction inits with
    | nil => exact .nil
    | cons x xs ih => exact .cons (RList.rep_fromIter x) ih
  obtain ⟨rs, vs, ws, h1, h2, h3⟩ := runHistory_sim (R := RList.Rep) (fun _ _ op hr => hr.step op) h _ _ h0
  refine ⟨rs, vs, ws, h1, h2, ?_⟩
  clear h1 h2 h0
  induction h3 with
  | nil => exact .nil
  | cons hr _ ih => exact .cons (rep_items hr) ih

/-- C01, per version: whatever was done to obtain a list, its observers agree with the items it iterates over. -/
theorem C01_list_observers_agree (l : RList T) (hl : RList.Reach l) :
    ∃ xs, listItems l = .ok xs ∧ l.first = xs.head? ∧ l.getLast = xs.getLast? ∧ l.len = xs.length ∧
      l.isEmpty = xs.isEmpty ∧ (l.dropFirst = .ok none ↔ xs = []) ∧ (l.dropFirstMut = .ok (false, l) ↔ xs = []) := by
  obtain ⟨xs, h⟩ := hl.rep
  refine ⟨xs, rep_items h, h.first, h.getLast, h.len, h.isEmpty, ?_, ?_⟩
  · cases xs with
    | nil => simp [RList.dropFirst, h.clone.dropFirstMut_nil]
    | cons x xs => obtain ⟨l', h1, _⟩ := h.clone.dropFirstMut_cons; simp [RList.dropFirst, h1]
  · cases xs with
    | nil => simp [h.dropFirstMut_nil]
    | cons x xs => obtain ⟨l', h1, _⟩ := h.dropFirstMut_cons; simp [h1]

/-- A concrete history: two versions diverge, one is reversed in place, the other dropped to empty. -/
example : (runHistory RList.step [RList.new (T := Nat)]
    [(0, .pushFront 1), (1, .pushFront 2), (2, .pushFrontMut 3), (2, .reverseMut), (1, .dropFirst), (3, .dropFirst),
     (2, .iter 4), (2, .last), (1, .len), (3, .isEmpty)]).map Prod.fst =
    .ok [some .unit, some .unit, some .unit, some .unit, some (.bool true), some (.bool false),
      some (.calls 3 [(some 1, 2), (some 2, 1), (some 3, 0), (none, 0)]), some (.opt (some 3)), some (.nat 1),
      some (.bool true)] := by decide

example : RList.Reach ((RList.new (T := Nat)).pushFront 1) := .fresh (op := .pushFront 1) (.init .new) rfl

/-! ### C02 -/

/-- C02.  `reverse` and `reverse_mut` give the same items, which are the original ones backwards; reversing twice gives
back the original items; `first` and `last` are swapped, `len` is kept. -/
theorem C02_list_reverse (l : RList T) (hl : RList.Reach l) :
    ∃ xs r rr, listItems l = .ok xs ∧ l.reverse = .ok r ∧ listItems r = .ok xs.reverse ∧
      listItems l.reverseMut = .ok xs.reverse ∧ r.reverse = .ok rr ∧ listItems rr = .ok xs ∧
      listItems l.reverseMut.reverseMut = .ok xs ∧
      r.first = l.getLast ∧ r.getLast = l.first ∧ r.len = l.len ∧
      l.reverseMut.first = l.getLast ∧ l.reverseMut.getLast = l.first ∧ l.reverseMut.len = l.len := by
  obtain ⟨xs, h⟩ := hl.rep
  obtain ⟨r, h1, h2⟩ := h.reverse
  obtain ⟨rr, h3, h4⟩ := h2.reverse
  have h5 := h.reverseMut
  have h6 := h5.reverseMut
  rw [List.reverse_reverse] at h4 h6
  exact ⟨xs, r, rr, rep_items h, h1, rep_items h2, rep_items h5, h3, rep_items h4, rep_items h6,
    by simp [h2.first, h.getLast], by simp [h2.getLast, h.first], by simp [h2.len, h.len],
    by simp [h5.first, h.getLast], by simp [h5.getLast, h.first], by simp [h5.len, h.len]⟩

example : (RList.fromIter [1, 2, 3]).reverse = .ok (RList.fromIter [3, 2, 1]) ∧
    (RList.fromIter [1, 2, 3]).reverseMut = RList.fromIter [3, 2, 1] ∧ RList.Reach (RList.fromIter [1, 2, 3]) :=
  ⟨by decide, by decide, .init (.fromIter _)⟩

/-! ### C03 -/

/-- C03.  Any number of `next` calls on a list iterator: the answers are the items front to back and then `None` forever,
and the size hint before the first and after every call is the exact number of items left; nothing underflows. -/
theorem C03_list_iter_exact (l : RList T) (hl : RList.Reach l) (n : Nat) :
    ∃ xs, listItems l = .ok xs ∧ l.iter.sizeHint = xs.length ∧
      fwCalls ListIter.step ListIter.sizeHint n l.iter =
        .ok ((List.range n).map fun i => (xs[i]?, xs.length - (i + 1))) := by
  obtain ⟨xs, h⟩ := hl.rep
  refine ⟨xs, rep_items h, h.iter.length, ?_⟩
  rw [h.iter.calls, Spec.fwRun_eq]

example : fwCalls ListIter.step ListIter.sizeHint 3 (RList.fromIter [7, 8]).iter =
    .ok [(some 7, 1), (some 8, 0), (none, 0)] := by decide

/-! ### C04 -/

/-- C04.  Every history of stack operations over any number of versions, started from an empty stack and stacks
collected from any items, gives the answers of a plain LIFO stack and does not panic. -/
theorem C04_stack_lifo (inits : List (List T)) (h : List (Nat × Stack.Op T)) :
    ∃ answers versions seqs,
      runHistory Stack.step (Stack.new :: inits.map Stack.fromIter) h = .ok (answers, versions) ∧
      runHistory (fun a op => .ok (Spec.stackStep a op)) ([] :: inits) h = .ok (answers, seqs) := by
  have h0 : List.Forall₂ Stack.Rep (Stack.new :: inits.map Stack.fromIter) ([] :: inits) := by
    refine .cons Stack.rep_new ?_
    induction inits with
    | nil => exact .nil
    | cons x xs ih => exact .cons (Stack.rep_fromIter x) ih
  obtain ⟨rs, vs, ws, h1, h2, _⟩ := runHistory_sim (R := Stack.Rep) (fun _ _ op hr => hr.step op) h _ _ h0
  exact ⟨rs, vs, ws, h1, h2⟩

example : (runHistory Stack.step [Stack.new (T := Nat)]
    [(0, .push 1), (1, .push 2), (2, .popMut), (2, .peek), (0, .pop), (0, .popMut), (1, .iter 2)]).map Prod.fst =
    .ok [some .unit, some .unit, some (.bool true), some (.opt (some 1)), some (.bool false), some (.bool false),
      some (.calls 1 [(some 1, 0), (none, 0)])] := by decide

/-! ### C05 -/

/-- C05.  Every history of queue operations over any number of versions, started from an empty queue and queues
collected from any items, gives the answers of a plain FIFO queue and does not panic. -/
theorem C05_queue_fifo (inits : List (List T)) (h : List (Nat × Queue.Op T)) :
    ∃ answers versions seqs,
      runHistory Queue.step (Queue.new :: inits.map Queue.fromIter) h = .ok (answers, versions) ∧
      runHistory (fun a op => .ok (Spec.queueStep a op)) ([] :: inits) h = .ok (answers, seqs) ∧
      List.Forall₂ (fun v xs => queueItems v = .ok xs) versions seqs := by
  have h0 : List.Forall₂ Queue.Rep (Queue.new :: inits.map Queue.fromIter) ([] :: inits) := by
    refine .cons Queue.rep_new ?_
    induction inits with
    | nil => exact .nil
    | cons x xs ih => exact .cons (Queue.rep_fromIter x) ih
  obtain ⟨rs, vs, ws, h1, h2, h3⟩ := runHistory_sim (R := Queue.Rep) (fun _ _ op hr => hr.step op) h _ _ h0
  refine ⟨rs, vs, ws, h1, h2, ?_⟩
  clear h1 h2 h0
  induction h3 with
  | nil => exact .nil
  | cons hr _ ih => exact .cons (rep_qitems hr) ih

example : (runHistory Queue.step [Queue.new (T := Nat)]
    [(0, .enqueueMut 1), (0, .enqueueMut 2), (0, .dequeue), (1, .enqueue 3), (2, .iter 3), (2, .peek), (0, .len),
     (1, .dequeueMut), (1, .dequeueMut), (1, .isEmpty)]).map Prod.fst =
    .ok [some .unit, some .unit, some (.bool true), some .unit, some (.calls 2 [(some 2, 1), (some 3, 0), (none, 0)]),
      some (.opt (some 2)), some (.nat 2), some (.bool true), some (.bool false), some (.bool true)] := by decide

/-! ### C06 -/

/-- C06.  Two queues that iterate over the same items are `==`, `cmp` to `Equal`, `partial_cmp` to `Equal`, feed any hasher
identically, print the same and report the same length and head, however they were obtained. -/
theorem C06_queue_observers_ignore_split (a b : Queue T) (ha : Queue.Reach a) (hb : Queue.Reach b)
    (h : queueItems a = queueItems b) (eqT : T → T → Bool) (cmpT : T → T → Ordering) (hord : Spec.LawfulOrd cmpT eqT)
    {S : Type} (hashUsize : S → Nat → S) (hashT : S → T → S) (st : S) (fmt : T → String) :
    a.eq eqT b = .ok true ∧ a.cmp cmpT b = .ok .eq ∧
      a.partialCmp (fun x y => some (cmpT x y)) b = .ok (some .eq) ∧
      a.hash hashUsize hashT st = b.hash hashUsize hashT st ∧ a.display fmt = b.display fmt ∧
      a.len = b.len ∧ a.peek = b.peek := by
  obtain ⟨xs, hx⟩ := ha.rep
  obtain ⟨ys, hy⟩ := hb.rep
  rw [rep_qitems hx, rep_qitems hy] at h
  cases h
  have e : Spec.seqEq eqT xs xs = true := (Spec.seqEq_equiv hord.equiv).refl xs
  have c : Spec.lexCmp cmpT xs xs = .eq := (Spec.lexCmp_eq_iff xs xs hord.eq_iff).2 e
  refine ⟨by rw [hx.eq hy, e], by rw [hx.cmp hy, c], by rw [hx.partialCmp hy, Spec.lexPartialCmp_total, c],
    by rw [hx.hash, hy.hash], by rw [hx.display, hy.display], by rw [hx.len, hy.len], by rw [hx.peek, hy.peek]⟩

/-- C06, size hints: also across the switch to the lazily reversed part. -/
theorem C06_queue_iter_exact (q : Queue T) (hq : Queue.Reach q) (n : Nat) :
    ∃ xs, queueItems q = .ok xs ∧ q.iter.sizeHint = xs.length ∧
      fwCalls QueueIter.step QueueIter.sizeHint n q.iter =
        .ok ((List.range n).map fun i => (xs[i]?, xs.length - (i + 1))) := by
  obtain ⟨xs, h⟩ := hq.rep
  refine ⟨xs, rep_qitems h, h.iter.sizeHint, ?_⟩
  rw [h.iter.calls, Spec.fwRun_eq]

/-- Two different splits of the same contents. -/
example : let a := Queue.fromIter [1, 2, 3]
    let b := (Queue.fromIter [1]).enqueueMut 2 |>.enqueueMut 3
    a ≠ b ∧ queueItems a = queueItems b ∧ Queue.Reach a ∧ Queue.Reach b :=
  ⟨by decide, by decide, .init (.fromIter _),
    .update (op := .enqueueMut 3) (.update (op := .enqueueMut 2) (.init (.fromIter _)) rfl) rfl⟩

/-! ### C07 -/

/-- C07.  In every history of `enqueue_mut`/`dequeue_mut` on one queue that starts empty, the total number of
nodes turned around by reversals is at most the number of enqueues. -/
theorem C07_queue_amortized (ops : List (Queue.MutOp T)) :
    ∃ q cost, Queue.runMut Queue.new ops = .ok (q, cost) ∧ cost ≤ Queue.enqueues ops := by
  obtain ⟨q, c, h1, h2⟩ := Queue.runMut_cost Queue.rep_new ops
  exact ⟨q, c, h1, by simpa [Queue.new, RList.new] using h2⟩

/-- C07, converse: a queue of `n` items that were only enqueued pays `n` in a `dequeue`, and pays it again on every
`dequeue` of that same version. -/
theorem C07_queue_reused_version_pays_again (xs : List T) :
    ∃ b q, (Queue.queueMacro xs).dequeueMutC = .ok (b, q, xs.length) := by
  have h := Queue.rep_queueMacro xs
  obtain ⟨b, q', c, h1, _, _, h4⟩ := Queue.dequeueMutC_cost h
  have h5 : ∀ (ys : List T) (q : Queue T), (ys.foldl (fun q e => q.enqueueMut e) q).out_list = q.out_list := by
    intro ys
    induction ys with
    | nil => intro q; rfl
    | cons y ys ih => intro q; exact ih _
  have h6 : (Queue.queueMacro xs).out_list.length = 0 := by
    have : (Queue.queueMacro xs).out_list = RList.new := h5 xs Queue.new
    rw [this]; rfl
  have h7 := h.len
  simp only [Queue.len, RList.len, h6, Nat.add_zero] at h7
  rw [h4 h6, h7] at h1
  exact ⟨b, q', h1⟩

example : (Queue.runMut (T := Nat) Queue.new [.enqueue 1, .enqueue 2, .dequeue, .enqueue 3, .dequeue, .dequeue]).map
    Prod.snd = .ok 3 := by decide

end Rpds.Props
