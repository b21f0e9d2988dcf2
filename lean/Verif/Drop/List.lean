/-
`Drop for List` (list/mod.rs:404-421) when the `Drop` of elements may panic.  The list is the only owner of its nodes and values, except
that the last value is also held by the `last` field, so it is dropped with that field, after `Drop::drop` has returned or unwound.

`nodeDrop` is the drop glue of an `Option<SharedPointer<Node>>`: it drops the value of the node, then the next node, from inside the
drop of the first.  The first component counts how deep these calls nest.  Glue of this kind runs only when the loop is unwound: the
variable `head`, which holds the rest of the list, is dropped like any other local variable.  A panic while unwinding aborts.
-/
set_option autoImplicit false
namespace Rpds

/-- How the drop of a list ends. -/
inductive DropEnd where
  | done
  | panicked
  | aborted
  deriving DecidableEq, Repr

variable {T : Type} (bomb : T → Bool)

/-- Dropping a chain of nodes while unwinding: the nesting, and whether an element panicked (which aborts). -/
def nodeDrop : List T → Nat × Bool
  | [] => (0, false)
  | [_] => (1, false)
  | x :: y :: ys =>
    if bomb x then (1, true)
    else
      let (d, a) := nodeDrop (y :: ys)
      (d + 1, a)

/-- `List::drop` (list/mod.rs:408-420), then the drop of the field `last`: the deepest nesting of node drops, and how it ends. -/
def listDrop : List T → Nat × DropEnd
  | [] => (0, .done)
  | [x] => (1, if bomb x then .panicked else .done)
  | x :: y :: ys =>
    if bomb x then
      let (d, a) := nodeDrop bomb (y :: ys)
      (max 1 d, if a || bomb ((y :: ys).getLast (by simp)) then .aborted else .panicked)
    else listDrop (y :: ys)

variable {bomb}

theorem nodeDrop_calm (xs : List T) (h : ∀ x ∈ xs, bomb x = false) : nodeDrop bomb xs = (xs.length, false) := by
  induction xs with
  | nil => rfl
  | cons x xs ih =>
    cases xs with
    | nil => rfl
    | cons y ys => simp [nodeDrop, h x (by simp), ih (fun z hz => h z (by simp [hz]))]

theorem nodeDrop_bomb (xs : List T) (h : ∃ x ∈ xs, bomb x = true) (hne : xs ≠ []) :
    (nodeDrop bomb xs).2 = true ∨ bomb (xs.getLast hne) = true := by
  induction xs with
  | nil => simp at h
  | cons x xs ih =>
    cases xs with
    | nil => right; simpa using h
    | cons y ys =>
      simp only [nodeDrop]
      split
      · left; rfl
      · next hx =>
        obtain ⟨z, hz, hb⟩ := h
        rcases List.mem_cons.1 hz with rfl | hz
        · exact absurd hb hx
        · rcases ih ⟨z, hz, hb⟩ (by simp) with h1 | h1
          · left; exact h1
          · right; simpa using h1

theorem nodeDrop_le (xs : List T) : (nodeDrop bomb xs).1 ≤ xs.length := by
  induction xs with
  | nil => simp [nodeDrop]
  | cons x xs ih =>
    cases xs with
    | nil => simp [nodeDrop]
    | cons y ys =>
      simp only [nodeDrop]
      split
      · simp
      · simp at ih ⊢; omega

theorem listDrop_calm (xs : List T) (h : ∀ x ∈ xs, bomb x = false) : listDrop bomb xs = (min 1 xs.length, .done) := by
  induction xs with
  | nil => rfl
  | cons x xs ih =>
    cases xs with
    | nil => simp [listDrop, h x (by simp)]
    | cons y ys =>
      rw [listDrop, if_neg (by simp [h x (by simp)]), ih (fun z hz => h z (by simp [hz]))]
      simp only [List.length_cons, Prod.mk.injEq, and_true]; omega

theorem listDrop_pre (pre rest : List T) (h : ∀ x ∈ pre, bomb x = false) (hne : rest ≠ []) :
    listDrop bomb (pre ++ rest) = listDrop bomb rest := by
  induction pre with
  | nil => rfl
  | cons x pre ih =>
    have ih := ih (fun z hz => h z (by simp [hz]))
    cases hp : pre ++ rest with
    | nil => simp at hp; exact absurd hp.2 hne
    | cons y ys => rw [List.cons_append, hp, listDrop, if_neg (by simp [h x (by simp)]), ← hp, ih]

theorem listDrop_one (pre post : List T) (x : T) (h : ∀ y ∈ pre ++ post, bomb y = false) (hx : bomb x = true) :
    listDrop bomb (pre ++ x :: post) = (max 1 post.length, .panicked) := by
  rw [listDrop_pre _ _ (fun y hy => h y (by simp [hy])) (by simp)]
  cases post with
  | nil => simp [listDrop, hx]
  | cons y ys =>
    rw [listDrop, if_pos hx, nodeDrop_calm _ (fun z hz => h z (List.mem_append_right _ hz))]
    have := h ((y :: ys).getLast (by simp)) (List.mem_append_right _ (List.getLast_mem _))
    simp [this]

theorem nodeDrop_two (mid rest : List T) (y : T) (h : ∀ z ∈ mid, bomb z = false) (hy : bomb y = true) :
    nodeDrop bomb (mid ++ y :: rest) = (mid.length + 1, !rest.isEmpty) := by
  induction mid with
  | nil => cases rest <;> simp [nodeDrop, hy]
  | cons x mid ih =>
    have ih := ih (fun z hz => h z (by simp [hz]))
    cases hm : mid ++ y :: rest with
    | nil => simp at hm
    | cons z zs => rw [List.cons_append, hm, nodeDrop, if_neg (by simp [h x (by simp)]), ← hm, ih]; simp

theorem listDrop_two (pre mid rest : List T) (x y : T) (h : ∀ z ∈ pre ++ mid, bomb z = false) (hx : bomb x = true) (hy : bomb y = true) :
    listDrop bomb (pre ++ x :: (mid ++ y :: rest)) = (mid.length + 1, .aborted) := by
  rw [listDrop_pre _ _ (fun z hz => h z (by simp [hz])) (by simp)]
  have hn := nodeDrop_two mid rest y (fun z hz => h z (by simp [hz])) hy
  have hl : rest = [] → ∀ hne, bomb ((mid ++ y :: rest).getLast hne) = true := by
    rintro rfl hne
    simpa using hy
  cases hp : mid ++ y :: rest with
  | nil => simp at hp
  | cons z zs =>
    rw [hp] at hn
    rw [listDrop, if_pos hx, hn]
    have : (!rest.isEmpty || bomb ((z :: zs).getLast (by simp))) = true := by
      cases rest with
      | nil => have := hl rfl (by simp); simp only [hp] at this; simp [this]
      | cons w ws => simp
    simp [this]

end Rpds
