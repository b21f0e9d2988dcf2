import Verif.Spec.History
/-
Specifications on plain lists: double-ended iteration, lexicographic comparison.
-/
set_option autoImplicit false
namespace Rpds.Spec

/-- One call on a double-ended iterator. -/
inductive End where
  | front
  | back
  deriving DecidableEq, Repr

/-- What a double-ended iteration over the remaining items `l` answers, and what remains. -/
def deStep {α : Type} (l : List α) : End → Option α × List α
  | .front => (l.head?, l.tail)
  | .back => (l.getLast?, l.dropLast)

/-- Answers of a sequence of calls; after each call also the number of remaining items (the exact size hint). -/
def deRun {α : Type} : List α → List End → List (Option α × Nat)
  | _, [] => []
  | l, c :: cs => ((deStep l c).1, (deStep l c).2.length) :: deRun (deStep l c).2 cs

/-- Lexicographic comparison of sequences; a proper prefix is smaller. -/
def lexCmp {α β : Type} (cmp : α → β → Ordering) : List α → List β → Ordering
  | [], [] => .eq
  | [], _ :: _ => .lt
  | _ :: _, [] => .gt
  | a :: as, b :: bs => match cmp a b with
    | .eq => lexCmp cmp as bs
    | o => o

/-- Lexicographic comparison for a partial order on the elements: the first pair that does not compare `Equal` decides,
also when it is incomparable. -/
def lexPartialCmp {α β : Type} (cmp : α → β → Option Ordering) : List α → List β → Option Ordering
  | [], [] => some .eq
  | [], _ :: _ => some .lt
  | _ :: _, [] => some .gt
  | a :: as, b :: bs => match cmp a b with
    | some .eq => lexPartialCmp cmp as bs
    | o => o

/-- Answers of `n` calls of `next` on an iterator with remaining items `l`, each with the number of items
then remaining. -/
def fwRun {α : Type} : List α → Nat → List (Option α × Nat)
  | _, 0 => []
  | l, n + 1 => (l.head?, l.tail.length) :: fwRun l.tail n

/-- Elementwise equality of sequences. -/
def seqEq {α β : Type} (eq : α → β → Bool) : List α → List β → Bool
  | [], [] => true
  | a :: as, b :: bs => eq a b && seqEq eq as bs
  | _, _ => false

/-- The strings with `sep` between neighbours. -/
def joinWith (sep : String) : List String → String
  | [] => ""
  | [a] => a
  | a :: b :: l => a ++ sep ++ joinWith sep (b :: l)

/-- `open_ ++ a₁ ++ ", " ++ a₂ ++ … ++ close_`. -/
def bracketed (open_ close_ : String) (items : List String) : String :=
  open_ ++ joinWith ", " items ++ close_

/-- What the input of a deserialization amounts to: all values, or the first error. -/
def collectExcept {E T : Type} : List (Except E T) → Except E (List T)
  | [] => .ok []
  | .error e :: _ => .error e
  | .ok v :: s => match collectExcept s with
    | .ok l => .ok (v :: l)
    | .error e => .error e

theorem fwRun_eq {α : Type} (l : List α) (n : Nat) :
    fwRun l n = (List.range n).map fun i => (l[i]?, l.length - (i + 1)) := by
  induction n generalizing l with
  | zero => rfl
  | succ n ih =>
    rw [fwRun, ih, List.range_succ_eq_map, List.map_cons, List.map_map]
    congr 1
    · cases l <;> simp
    · apply List.map_congr_left
      intro i _
      cases l <;> simp

theorem seqEq_length {α β : Type} {eq : α → β → Bool} {as : List α} {bs : List β} (h : seqEq eq as bs = true) :
    as.length = bs.length := by
  induction as generalizing bs with
  | nil => cases bs <;> simp_all [seqEq]
  | cons a as ih =>
    cases bs with
    | nil => simp [seqEq] at h
    | cons b bs => simp only [seqEq, Bool.and_eq_true] at h; simp [ih h.2]

end Rpds.Spec
