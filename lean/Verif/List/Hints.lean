import Verif.Queue.Lemmas
import Verif.Stack.Lemmas
/-
Collecting and deserializing once more, with the memory that `Vec::with_capacity` and `Vec::push` ask for: `List::from_iter`
(/repo/src/list/mod.rs:384-400) and `List::deserialize` (509-531) reserve room for as many items as they are told to expect.
`List/Model.lean` leaves the reservation out.
-/
set_option autoImplicit false
namespace Rpds

/-- Why a request for memory fails: `capacity overflow` is a panic, running out of memory ends the process. -/
inductive AllocFail where
  | capacityOverflow
  | outOfMemory
  deriving DecidableEq, Repr

/-- The machine: `usize::BITS`, and the largest request in bytes that the allocator grants. -/
structure Memory where
  W : Nat
  avail : Nat
  deriving DecidableEq, Repr

namespace Memory

/-- `isize::MAX`, the limit of the size of an allocation. -/
def isizeMax (M : Memory) : Nat := 2 ^ (M.W - 1) - 1

/-- std's request for room for `n` elements of `size` bytes: nothing is allocated for 0 bytes, more than `isize::MAX` bytes is a
`capacity overflow`, and the allocator may refuse. -/
def request (M : Memory) (size n : Nat) : Except AllocFail Unit :=
  if n * size = 0 then .ok ()
  else if n * size > M.isizeMax then .error .capacityOverflow
  else if n * size > M.avail then .error .outOfMemory
  else .ok ()

/-- The most bytes that one request can get. -/
def limit (M : Memory) : Nat := min M.isizeMax M.avail

end Memory

/-- std's `Vec`: the elements, and for how many there is room. -/
structure RawVec (T : Type) where
  items : List T
  cap : Nat
  deriving DecidableEq, Repr

namespace RawVec
variable {T : Type} (M : Memory) (size : Nat)

/-- `Vec::new`. -/
def new : RawVec T := ⟨[], 0⟩

/-- `Vec::with_capacity`. -/
def withCapacity (n : Nat) : Except AllocFail (RawVec T) := do
  M.request size n
  pure ⟨[], n⟩

/-- std's `MIN_NON_ZERO_CAP`. -/
def minCap : Nat := if size = 1 then 8 else if size ≤ 1024 then 4 else 1

/-- `Vec::push`: a full vector is moved to twice the room (std's `grow_amortized`).  A `Vec` of elements of size 0 is never full. -/
def push (v : RawVec T) (x : T) : Except AllocFail (RawVec T) :=
  if size ≠ 0 ∧ v.items.length = v.cap then do
    let cap := max (max (2 * v.cap) (v.items.length + 1)) (minCap size)
    M.request size cap
    pure ⟨v.items ++ [x], cap⟩
  else pure { v with items := v.items ++ [x] }

/-- `for e in iter { vec.push(e) }`. -/
def pushAll (v : RawVec T) : List T → Except AllocFail (RawVec T)
  | [] => pure v
  | x :: xs => do
    let v ← v.push M size x
    v.pushAll xs

end RawVec

namespace RList
variable {T E : Type} (M : Memory) (size : Nat)

/-- `for e in vec.into_iter().rev() { list.push_front_mut(e) }` (list/mod.rs:393-397, 524-528). -/
def ofVec (vec : RawVec T) : RList T := vec.items.reverse.foldl (fun list e => list.pushFrontMut e) new

/-- `FromIterator for List` (list/mod.rs:384-400) on an iterator with `size_hint()` = `(lo, hi)` that yields `items`. -/
def fromIterHinted (lo : Nat) (hi : Option Nat) (items : List T) : Except AllocFail (RList T) := do
  let vec ← RawVec.withCapacity M size (hi.getD lo)
  let vec ← vec.pushAll M size items
  pure (ofVec vec)

/-- The loop of `visit_seq` (list/mod.rs:520-522). -/
def visitLoopHinted : List (Except E T) → RawVec T → Except AllocFail (Except E (RawVec T))
  | [], vec => pure (.ok vec)
  | .error e :: _, _ => pure (.error e)
  | .ok v :: seq, vec => do
    let vec ← vec.push M size v
    visitLoopHinted seq vec

/-- `Deserialize for List` (list/mod.rs:509-531), `hint` is `seq.size_hint()`. -/
def deserializeHinted (hint : Option Nat) (seq : List (Except E T)) : Except AllocFail (Except E (RList T)) := do
  let vec ← match hint with
    | some capacity => RawVec.withCapacity M size capacity
    | none => pure RawVec.new
  match ← visitLoopHinted M size seq vec with
  | .ok vec => pure (.ok (ofVec vec))
  | .error e => pure (.error e)

end RList

namespace Stack
variable {T E : Type} (M : Memory) (size : Nat)

/-- `FromIterator for Stack` (stack/mod.rs:264-266). -/
def fromIterHinted (lo : Nat) (hi : Option Nat) (items : List T) : Except AllocFail (Stack T) := do
  let list ← RList.fromIterHinted M size lo hi items
  pure { list }

/-- `Deserialize for Stack` (stack/mod.rs:290-292). -/
def deserializeHinted (hint : Option Nat) (seq : List (Except E T)) : Except AllocFail (Except E (Stack T)) := do
  match ← RList.deserializeHinted M size hint seq with
  | .ok list => pure (.ok { list })
  | .error e => pure (.error e)

end Stack

namespace Queue
variable {T E : Type} (M : Memory) (size : Nat)

/-- `FromIterator for Queue` (queue/mod.rs:293-295). -/
def fromIterHinted (lo : Nat) (hi : Option Nat) (items : List T) : Except AllocFail (Queue T) := do
  let out_list ← RList.fromIterHinted M size lo hi items
  pure { out_list, in_list := RList.new }

/-- `Deserialize for Queue` (queue/mod.rs:387-390). -/
def deserializeHinted (hint : Option Nat) (seq : List (Except E T)) : Except AllocFail (Except E (Queue T)) := do
  match ← RList.deserializeHinted M size hint seq with
  | .ok list => pure (.ok { out_list := list, in_list := RList.new })
  | .error e => pure (.error e)

end Queue

/-- serde's `iterator_len_hint`, the length `collect_seq` and `collect_map` announce to the serializer: the size hint if it is
exact. -/
def lenHint (lo : Nat) (hi : Option Nat) : Option Nat := if hi = some lo then some lo else none

/-! ### Lemmas -/

theorem Memory.request_ok {M : Memory} {size n : Nat} : M.request size n = .ok () ↔ n * size ≤ M.limit := by
  simp only [request, limit]
  split
  · simp; omega
  · split
    · simp; omega
    · split
      · simp; omega
      · simp; omega

theorem Memory.request_error {M : Memory} {size n : Nat} (h : M.limit < n * size) : ∃ e, M.request size n = .error e := by
  cases hr : M.request size n with
  | error e => exact ⟨e, rfl⟩
  | ok u => have := Memory.request_ok.1 hr; omega

namespace RawVec
variable {T : Type} {M : Memory} {size : Nat}

theorem minCap_le : minCap size ≤ 8 := by
  unfold minCap; split; · omega
  split <;> omega

/-- Room for `n` elements: it is there already, or it can be had by doubling. -/
def Room (M : Memory) (size n : Nat) (v : RawVec T) : Prop :=
  (size = 0 ∨ v.items.length ≤ v.cap) ∧ (n ≤ v.cap ∨ max 8 (2 * n) * size ≤ M.limit)

theorem push_ok {n : Nat} {v : RawVec T} (hv : v.Room M size n) (hn : v.items.length < n) (x : T) :
    ∃ w, v.push M size x = .ok w ∧ w.items = v.items ++ [x] ∧ w.Room M size n := by
  obtain ⟨hv, h⟩ := hv
  unfold push
  split
  · next hc =>
    have hm := minCap_le (size := size)
    have hle : max (max (2 * v.cap) (v.items.length + 1)) (minCap size) ≤ max 8 (2 * n) := by omega
    have h2 : max 8 (2 * n) * size ≤ M.limit := by
      rcases h with h | h
      · omega
      · exact h
    have hr : M.request size (max (max (2 * v.cap) (v.items.length + 1)) (minCap size)) = .ok () :=
      Memory.request_ok.2 (Nat.le_trans (Nat.mul_le_mul_right _ hle) h2)
    simp only [hr, Except.bind, bind, pure, Except.pure]
    refine ⟨_, rfl, rfl, .inr ?_, .inr h2⟩
    simp only [List.length_append, List.length_singleton]; omega
  · next hc =>
    refine ⟨_, rfl, rfl, ?_, h⟩
    by_cases hz : size = 0
    · exact .inl hz
    · refine .inr ?_
      simp only [not_and, ne_eq] at hc
      have := hc hz
      rcases hv with hv | hv
      · exact absurd hv hz
      · simp only [List.length_append, List.length_singleton]; omega

theorem pushAll_ok (xs : List T) (v : RawVec T) (hv : v.Room M size (v.items.length + xs.length)) :
    ∃ w, v.pushAll M size xs = .ok w ∧ w.items = v.items ++ xs := by
  induction xs generalizing v with
  | nil => exact ⟨v, rfl, by simp⟩
  | cons x xs ih =>
    obtain ⟨w, h1, h2, h3⟩ := push_ok hv (by simp) x
    obtain ⟨w', h4, h5⟩ := ih w (by
      rw [h2, List.length_append, Nat.add_assoc]
      simpa [Nat.add_comm 1] using h3)
    exact ⟨w', by simp only [pushAll, h1]; exact h4, by rw [h5, h2]; simp⟩

end RawVec

namespace RList
variable {T E : Type} {M : Memory} {size : Nat}

theorem fromIter_eq_ofVec (v : RawVec T) : fromIter v.items = ofVec v := by
  simp only [fromIter, ofVec, foldl_snoc, List.nil_append]

theorem visitLoopHinted_ok (seq : List (Except E T)) (v : RawVec T) (hv : v.Room M size (v.items.length + seq.length)) :
    ∃ r, visitLoopHinted M size seq v = .ok r ∧ r.map RawVec.items = (Spec.collectExcept seq).map (v.items ++ ·) := by
  induction seq generalizing v with
  | nil => exact ⟨_, rfl, by simp [Spec.collectExcept, Except.map]⟩
  | cons x seq ih =>
    cases x with
    | error e => exact ⟨_, rfl, by simp [Spec.collectExcept, Except.map]⟩
    | ok x =>
      obtain ⟨w, h1, h2, h3⟩ := RawVec.push_ok hv (by simp) x
      obtain ⟨r, h4, h5⟩ := ih w (by
        rw [h2, List.length_append, Nat.add_assoc]
        simpa [Nat.add_comm 1] using h3)
      refine ⟨r, by simp only [visitLoopHinted, h1]; exact h4, ?_⟩
      rw [h5, h2, Spec.collectExcept]
      cases Spec.collectExcept seq <;> simp [Except.map]

/-- Enough memory for collecting `n` items when `hint` are announced. -/
def Roomy (M : Memory) (size hint n : Nat) : Prop := hint * size ≤ M.limit ∧ (n ≤ hint ∨ max 8 (2 * n) * size ≤ M.limit)

theorem fromIterHinted_ok {lo : Nat} {hi : Option Nat} {xs : List T} (h : Roomy M size (hi.getD lo) xs.length) :
    fromIterHinted M size lo hi xs = .ok (fromIter xs) := by
  obtain ⟨w, h1, h2⟩ := RawVec.pushAll_ok (M := M) (size := size) xs (⟨[], hi.getD lo⟩ : RawVec T) ⟨.inr (by simp), by simpa using h.2⟩
  simp only [List.nil_append] at h2
  simp only [fromIterHinted, RawVec.withCapacity, Memory.request_ok.2 h.1]
  simp only [bind, Except.bind, pure, Except.pure, h1]
  rw [← fromIter_eq_ofVec, h2]

theorem fromIterHinted_error {lo : Nat} {hi : Option Nat} {xs : List T} {e : AllocFail} (h : M.request size (hi.getD lo) = .error e) :
    fromIterHinted M size lo hi xs = .error e := by
  simp only [fromIterHinted, RawVec.withCapacity, h]
  rfl

theorem deserialize_eq (seq : List (Except E T)) : deserialize seq = (Spec.collectExcept seq).map fromIter := by
  simp only [deserialize, visitLoop_eq]
  cases Spec.collectExcept seq with
  | error e => rfl
  | ok xs =>
    simp only [Except.map, fromIter, foldl_snoc, List.nil_append]
    rfl

theorem deserializeHinted_ok {hint : Option Nat} {seq : List (Except E T)} (h : Roomy M size (hint.getD 0) seq.length) :
    deserializeHinted M size hint seq = .ok (deserialize seq) := by
  obtain ⟨r, h1, h2⟩ := visitLoopHinted_ok (M := M) (size := size) seq (⟨[], hint.getD 0⟩ : RawVec T) ⟨.inr (by simp), by simpa using h.2⟩
  rw [deserialize_eq]
  have key : r.map ofVec = (Spec.collectExcept seq).map fromIter := by
    clear h1
    generalize Spec.collectExcept seq = c at h2 ⊢
    cases r <;> cases c <;> simp_all [Except.map]
    rw [← h2, fromIter_eq_ofVec]
  cases hint with
  | none =>
    simp only [deserializeHinted, RawVec.new, bind, Except.bind, pure, Except.pure]
    simp only [Option.getD_none] at h1
    rw [h1]; simp only
    rw [← key]; cases r <;> rfl
  | some c =>
    simp only [deserializeHinted, RawVec.withCapacity, Memory.request_ok.2 h.1, Option.getD_some, bind, Except.bind, pure, Except.pure]
    have h0 := Memory.request_ok.2 h.1
    simp only [Option.getD_some] at h1 h0
    simp only [h0, h1]
    rw [← key]; cases r <;> rfl

theorem deserializeHinted_error {hint : Nat} {seq : List (Except E T)} {e : AllocFail} (h : M.request size hint = .error e) :
    deserializeHinted M size (some hint) seq = .error e := by
  simp only [deserializeHinted, RawVec.withCapacity, h]
  rfl

end RList
end Rpds
