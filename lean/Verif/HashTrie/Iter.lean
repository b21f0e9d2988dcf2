import Verif.HashTrie.Update
/-
Iteration over the trie.
-/
set_option autoImplicit false
namespace Rpds

section
variable {K V : Type} {A : Arch} {k : Nat} {z : Bool}

/-- The entries a stack element has yet to produce. -/
def HStackElem.entries : HStackElem K V → List (HEntry K V)
  | .branch rest => rest.flatMap HNode.entries
  | .leafCollision it => it.next.toList
  | .leafSingle e => e.toList

/-- Stack elements over well-formed nodes. -/
def HStackElem.OK (A : Arch) (k : Nat) : HStackElem K V → Prop
  | .branch rest => ∀ n ∈ rest, ∃ z d, n.OK A k z d
  | .leafCollision it => it.Rep it.next.toList
  | .leafSingle _ => True

theorem HNode.children_ok {bm d : Nat} {arr : List (HNode K V)} (h : (HNode.branch bm arr).OK A k z d) :
    ∀ n ∈ arr, ∃ z d, n.OK A k z d := by
  intro n hn
  rw [HNode.ok_branch] at h
  obtain ⟨i, _, hc⟩ := SparseArray.forall₂_mem h.2 hn
  exact ⟨_, _, hc.ok⟩

theorem HStackElem.new_ok {n : HNode K V} {d : Nat} (h : n.OK A k z d) : (HStackElem.new n).OK A k ∧ (HStackElem.new n).entries = n.entries := by
  cases n with
  | branch bm arr => exact ⟨HNode.children_ok h, by simp [HStackElem.new, entries]⟩
  | leaf b =>
    cases b with
    | single e => simp [HStackElem.new, entries, OK, Bucket.entries]
    | collision l =>
      rw [HNode.OK] at h
      exact ⟨h.2.1.iter, by simp [HStackElem.new, entries, Bucket.entries, RList.iter, ListIter.new]⟩

theorem HStackElem.new_weight (n : HNode K V) : (HStackElem.new n).weight < n.weight := by
  cases n with
  | branch bm arr => simp [HStackElem.new, weight, HNode.weight]
  | leaf b => cases b <;> simp [HStackElem.new, weight, HNode.weight, RList.iter, ListIter.new, RList.len]

/-- The iterator has exactly the entries `es` left, in this order. -/
structure HIter.Rep (A : Arch) (k : Nat) (it : HIter K V) (es : List (HEntry K V)) : Prop where
  ok : ∀ e ∈ it.stack, e.OK A k
  entries : it.stack.flatMap HStackElem.entries = es
  size : it.size = es.length

/-- One step of a stack element. -/
theorem HStackElem.next_ok {e : HStackElem K V} (h : e.OK A k) :
    (∃ e', e.next = .ok (none, e') ∧ e.entries = []) ∨
    (∃ x e', e.next = .ok (some (.inl x), e') ∧ e.entries = x :: e'.entries ∧ e'.OK A k) ∨
    (∃ n e', e.next = .ok (some (.inr n), e') ∧ e.entries = n.entries ++ e'.entries ∧ e'.OK A k ∧ n.OK A k ∧ n.weight + e'.weight < e.weight) := by
  cases e with
  | branch rest =>
    cases rest with
    | nil => exact .inl ⟨_, rfl, rfl⟩
    | cons n rest =>
      obtain ⟨z, d, hn⟩ := h n (by simp)
      have hr : (HStackElem.branch rest).OK A k := fun m hm => h m (by simp [hm])
      have hw := HStackElem.new_weight n
      obtain ⟨h1, h2⟩ := HStackElem.new_ok hn
      cases n with
      | branch bm arr =>
        refine .inr (.inr ⟨HStackElem.new (.branch bm arr), .branch rest, rfl, ?_, hr, h1, ?_⟩)
        · rw [h2]; simp [entries]
        · simp only [weight, HNode.weights] at hw ⊢; omega
      | leaf b =>
        cases b with
        | single x => exact .inr (.inl ⟨x, .branch rest, rfl, by simp [entries, Bucket.entries], hr⟩)
        | collision l =>
          refine .inr (.inr ⟨HStackElem.new (.leaf (.collision l)), .branch rest, rfl, ?_, hr, h1, ?_⟩)
          · rw [h2]; simp [entries]
          · simp only [weight, HNode.weights] at hw ⊢; omega
  | leafCollision it =>
    simp only [OK] at h
    cases hl : it.next.toList with
    | nil =>
      rw [hl] at h
      obtain ⟨it', h1, _⟩ := h.step_nil
      exact .inl ⟨.leafCollision it', by simp [next, h1], hl⟩
    | cons x xs =>
      rw [hl] at h
      obtain ⟨it', h1, h2⟩ := h.step_cons
      have h3 : it'.next.toList = xs := h2.1
      exact .inr (.inl ⟨x, .leafCollision it', by simp [next, h1], by simp [entries, hl, h3], by simpa [OK, h3] using h2⟩)
  | leafSingle x =>
    cases x with
    | none => exact .inl ⟨_, rfl, rfl⟩
    | some x => exact .inr (.inl ⟨x, .leafSingle none, rfl, by simp [entries], trivial⟩)

theorem HStackElem.weight_pos (e : HStackElem K V) : 0 < e.weight := by cases e <;> simp [weight]

theorem HIter.loop_ok (fuel : Nat) : ∀ (it : HIter K V) (es : List (HEntry K V)), it.Rep A k es →
    (it.stack.map HStackElem.weight).sum < fuel → ∃ it', HIter.loop fuel it = .ok (es.head?, it') ∧ it'.Rep A k es.tail := by
  induction fuel with
  | zero => intro it es _ h; omega
  | succ fuel ih =>
    intro it es h hf
    obtain ⟨stack, size⟩ := it
    obtain ⟨hok, hes, hsz⟩ := h
    simp only at hok hes hsz hf
    cases stack with
    | nil =>
      simp only [List.flatMap_nil] at hes
      subst hes
      exact ⟨_, rfl, ⟨hok, rfl, hsz⟩⟩
    | cons top below =>
      simp only [List.flatMap_cons, List.map_cons, List.sum_cons] at hes hf
      have hb : ∀ e ∈ below, e.OK A k := fun e he => hok e (by simp [he])
      have hw := top.weight_pos
      rcases HStackElem.next_ok (hok top (by simp)) with ⟨e', h1, h2⟩ | ⟨x, e', h1, h2, h3⟩ | ⟨n, e', h1, h2, h3, h4, h5⟩
      · rw [h2] at hes
        obtain ⟨it', g1, g2⟩ := ih ⟨below, size⟩ es ⟨hb, by simpa using hes, hsz⟩ (by simp only; omega)
        exact ⟨it', by simp [HIter.loop, h1, g1], g2⟩
      · subst hes
        rw [h2] at hsz ⊢
        refine ⟨⟨e' :: below, size - 1⟩, ?_, ⟨?_, by simp, ?_⟩⟩
        · simp only [HIter.loop, h1, Res.ok_bind]
          rw [csub_ok (by rw [hsz]; simp)]
          simp
        · intro e he
          rcases List.mem_cons.1 he with rfl | he
          · exact h3
          · exact hb e he
        · simp only [hsz, List.cons_append, List.length_cons, List.tail_cons]; omega
      · have hb' : ∀ e ∈ n :: e' :: below, e.OK A k := by
          intro e he
          rcases List.mem_cons.1 he with rfl | he
          · exact h4
          · rcases List.mem_cons.1 he with rfl | he
            · exact h3
            · exact hb e he
        obtain ⟨it', g1, g2⟩ := ih ⟨n :: e' :: below, size⟩ es ⟨hb', by simpa [h2] using hes, hsz⟩ (by
            simp only [List.map_cons, List.sum_cons]; omega)
        exact ⟨it', by simp [HIter.loop, h1, g1], g2⟩

theorem HIter.Rep.next {it : HIter K V} {es : List (HEntry K V)} (h : it.Rep A k es) :
    ∃ it', it.next = .ok (es.head?, it') ∧ it'.Rep A k es.tail :=
  HIter.loop_ok _ it es h (by omega)

/-- Iterating and mapping. -/
theorem HIter.Rep.mapNext {β : Type} (f : HEntry K V → β) {it : HIter K V} {bs : List β}
    (h : ∃ es, it.Rep A k es ∧ es.map f = bs) :
    ∃ it', it.mapNext f = .ok (bs.head?, it') ∧ ∃ es, it'.Rep A k es ∧ es.map f = bs.tail := by
  obtain ⟨es, h1, rfl⟩ := h
  obtain ⟨it', h2, h3⟩ := h1.next
  exact ⟨it', by simp [HIter.mapNext, h2], es.tail, h3, by simp⟩

theorem HIter.Rep.drives {β : Type} (f : HEntry K V → β) {it : HIter K V} {es : List (HEntry K V)} (h : it.Rep A k es) :
    Drives (HIter.mapNext f) it (es.map f) := by
  refine drives_of_rel (R := fun it bs => ∃ es, it.Rep A k es ∧ es.map f = bs) ?_ ?_ it _ ⟨es, h, rfl⟩
  · intro s hs; exact HIter.Rep.mapNext f hs
  · intro s a l hs; exact HIter.Rep.mapNext f hs

theorem HIter.Rep.calls {β : Type} (f : HEntry K V → β) {it : HIter K V} {es : List (HEntry K V)} (h : it.Rep A k es) (n : Nat) :
    fwCalls (HIter.mapNext f) HIter.sizeHint n it = .ok (Spec.fwRun (es.map f) n) := by
  refine fwCalls_eq (R := fun it bs => ∃ es, it.Rep A k es ∧ es.map f = bs) ?_ ?_ ?_ n it _ ⟨es, h, rfl⟩
  · intro s hs; exact HIter.Rep.mapNext f hs
  · intro s a l hs; exact HIter.Rep.mapNext f hs
  · rintro s l ⟨es, h, rfl⟩; simp [HIter.sizeHint, h.size]

theorem HIter.rep_new {H : Type} {m : HTMap H K V} {d : Nat} (hok : m.root.OK A k z d) (hs : m.size = m.root.entries.length) :
    (HIter.new m).Rep A k m.root.entries := by
  obtain ⟨h1, h2⟩ := HStackElem.new_ok hok
  by_cases h0 : m.size > 0
  · refine ⟨?_, ?_, hs⟩
    · simp [HIter.new, h0, h1]
    · simp [HIter.new, h0, h2]
  · have : m.root.entries = [] := List.length_eq_zero_iff.1 (by omega)
    refine ⟨?_, ?_, hs⟩
    · simp [HIter.new, h0]
    · simp [HIter.new, h0, this]

end
end Rpds
