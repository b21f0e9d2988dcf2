import Verif.Heap.IterRedBlack
/-
Iterators of `HashTrieMap` and `HashTrieSet` on the heap, which read the nodes when they are asked for items.  The lines are those of
map/hash_trie_map/mod.rs.
-/
set_option autoImplicit false
namespace Rpds

/-! ### How many steps a call of `next` takes -/

section
variable {K V : Type} {A : Arch} {k : Nat}
open Heap.HT (Shallow)

/-- The nodes left in a stack element are not empty, and not higher than `n`. -/
def HStackElem.Low (n : Nat) : HStackElem K V → Prop
  | .branch rest => ∀ c ∈ rest, Shallow n c ∧ c.entries ≠ []
  | .leafCollision _ => True
  | .leafSingle _ => True

/-- The nodes in the stack get higher by one at each level. -/
def HIter.Levels : Nat → List (HStackElem K V) → Prop
  | _, [] => True
  | n, e :: s => e.Low n ∧ HIter.Levels (n + 1) s

/-- What is left after an entry. -/
theorem HIter.Rep.item {top e' : HStackElem K V} {below : List (HStackElem K V)} {size : Nat} {es : List (HEntry K V)} {x : HEntry K V}
    (hr : (⟨top :: below, size⟩ : HIter K V).Rep A k es) (h2 : top.entries = x :: e'.entries) (h3 : e'.OK A k) :
    (⟨e' :: below, size - 1⟩ : HIter K V).Rep A k es.tail ∧ 1 ≤ size ∧ es.head? = some x := by
  obtain ⟨h4, h5, h6⟩ := hr
  simp only [List.flatMap_cons, h2] at h5 h6
  subst h5
  refine ⟨⟨?_, by simp, by simp at h6 ⊢; omega⟩, by simp at h6; omega, rfl⟩
  intro e he
  rcases List.mem_cons.1 he with rfl | he
  · exact h3
  · exact h4 e (by simp [he])

/-- What is left after pushing an element. -/
theorem HIter.Rep.push {top d e' : HStackElem K V} {below : List (HStackElem K V)} {size : Nat} {es : List (HEntry K V)}
    (hr : (⟨top :: below, size⟩ : HIter K V).Rep A k es) (h2 : top.entries = d.entries ++ e'.entries) (h3 : e'.OK A k) (h4 : d.OK A k) :
    (⟨d :: e' :: below, size⟩ : HIter K V).Rep A k es := by
  refine ⟨?_, by simpa [h2] using hr.entries, hr.size⟩
  intro e he
  rcases List.mem_cons.1 he with rfl | he
  · exact h4
  · rcases List.mem_cons.1 he with rfl | he
    · exact h3
    · exact hr.ok e (by simp [he])

theorem HStackElem.new_low {n : HNode K V} {z : Bool} {d h : Nat} (hn : n.OK A k z d) (hs : Shallow (h + 1) n) : (HStackElem.new n).Low h := by
  cases n with
  | branch bm arr =>
    intro c hc
    rw [HNode.ok_branch] at hn
    obtain ⟨i, _, h1⟩ := SparseArray.forall₂_mem hn.2 hc
    exact ⟨hs c hc, h1.nonempty⟩
  | leaf b => cases b <;> exact trivial

/-- One step of a stack element with entries left: an entry, or an element to push with entries left. -/
theorem HStackElem.next_low {e : HStackElem K V} {n : Nat} (h : e.OK A k) (hl : e.Low n) (he : e.entries ≠ []) :
    (∃ x e', e.next = .ok (some (.inl x), e') ∧ e.entries = x :: e'.entries ∧ e'.OK A k ∧ e'.Low n) ∨
    (∃ n' d e', n = n' + 1 ∧ e.next = .ok (some (.inr d), e') ∧ e.entries = d.entries ++ e'.entries ∧ e'.OK A k ∧ d.OK A k ∧ e'.Low n ∧
      d.Low n' ∧ d.entries ≠ []) := by
  cases e with
  | branch rest =>
    cases rest with
    | nil => exact absurd rfl he
    | cons c rest =>
      obtain ⟨z, d, hn⟩ := h c (by simp)
      have hr : (HStackElem.branch rest).OK A k := fun m hm => h m (by simp [hm])
      have hr' : (HStackElem.branch rest).Low n := fun m hm => hl m (by simp [hm])
      obtain ⟨h1, h2⟩ := HStackElem.new_ok hn
      obtain ⟨h3, h4⟩ := hl c (by simp)
      cases n with
      | zero => exact absurd h3 (by simp [Shallow])
      | succ n =>
        have h5 := HStackElem.new_low hn h3
        cases c with
        | branch bm arr =>
          exact .inr ⟨n, HStackElem.new (.branch bm arr), .branch rest, rfl, rfl, by rw [h2]; simp [entries], hr, h1, hr', h5, by rw [h2]; exact h4⟩
        | leaf b =>
          cases b with
          | single x => exact .inl ⟨x, .branch rest, rfl, by simp [entries, Bucket.entries], hr, hr'⟩
          | collision l =>
            exact .inr ⟨n, HStackElem.new (.leaf (.collision l)), .branch rest, rfl, rfl, by rw [h2]; simp [entries], hr, h1, hr', h5, by
              rw [h2]; exact h4⟩
  | leafCollision it =>
    rcases HStackElem.next_ok h with ⟨e', h1, h2⟩ | ⟨x, e', h1, h2, h3⟩ | ⟨d, e', h1, -⟩
    · exact absurd h2 he
    · refine .inl ⟨x, e', h1, h2, h3, ?_⟩
      simp only [next] at h1
      obtain ⟨⟨_ | y, it'⟩, -, h1⟩ := Heap.res_bind_ok h1 <;> cases h1
      exact trivial
    · simp only [next] at h1
      obtain ⟨⟨_ | y, it'⟩, -, h1⟩ := Heap.res_bind_ok h1 <;> cases h1
  | leafSingle x =>
    cases x with
    | none => exact absurd rfl he
    | some x => exact .inl ⟨x, .leafSingle none, rfl, by simp [entries], trivial, trivial⟩

theorem HStackElem.next_done {e : HStackElem K V} {n : Nat} (h : e.OK A k) (hl : e.Low n) (he : e.entries = []) :
    ∃ e', e.next = .ok (none, e') := by
  cases e with
  | branch rest =>
    cases rest with
    | nil => exact ⟨_, rfl⟩
    | cons c rest =>
      simp only [entries, List.flatMap_cons, List.append_eq_nil_iff] at he
      exact absurd he.1 (hl c (by simp)).2
  | leafCollision it =>
    rcases HStackElem.next_ok h with ⟨e', h1, -⟩ | ⟨x, e', h1, h2, -⟩ | ⟨d, e', h1, -⟩
    · exact ⟨e', h1⟩
    · rw [he] at h2; cases h2
    · simp only [next] at h1
      obtain ⟨⟨_ | y, it'⟩, -, h1⟩ := Heap.res_bind_ok h1 <;> cases h1
  | leafSingle x =>
    cases x with
    | none => exact ⟨_, rfl⟩
    | some x => cases he

/-- An element with entries left: going down to the next one takes at most one step per level. -/
theorem HIter.loop_down (n : Nat) : ∀ (top : HStackElem K V) (below : List (HStackElem K V)) (size : Nat) (es : List (HEntry K V)),
    (⟨top :: below, size⟩ : HIter K V).Rep A k es → HIter.Levels n (top :: below) → top.entries ≠ [] → ∀ fuel, n + 1 ≤ fuel →
    ∃ it' m, HIter.loop fuel ⟨top :: below, size⟩ = .ok (es.head?, it') ∧ it'.Rep A k es.tail ∧ HIter.Levels m it'.stack ∧
      m + it'.stack.length = n + below.length + 1 := by
  induction n with
  | zero =>
    intro top below size es hr hl ht fuel hf
    obtain ⟨fuel, rfl⟩ : ∃ f, fuel = f + 1 := ⟨fuel - 1, by omega⟩
    rcases HStackElem.next_low (hr.ok top (by simp)) hl.1 ht with ⟨x, e', h1, h2, h3, h4⟩ | ⟨n', _, _, h1, _⟩
    · obtain ⟨hr1, hr2⟩ := hr.item h2 h3
      exact ⟨⟨e' :: below, size - 1⟩, 0, by simp [HIter.loop, h1, csub_ok hr2.1, hr2.2], hr1, ⟨h4, hl.2⟩, by simp⟩
    · omega
  | succ n ih =>
    intro top below size es hr hl ht fuel hf
    obtain ⟨fuel, rfl⟩ : ∃ f, fuel = f + 1 := ⟨fuel - 1, by omega⟩
    rcases HStackElem.next_low (hr.ok top (by simp)) hl.1 ht with ⟨x, e', h1, h2, h3, h4⟩ | ⟨n', d, e', hn, h1, h2, h3, h4, h5, h6, h7⟩
    · obtain ⟨hr1, hr2⟩ := hr.item h2 h3
      exact ⟨⟨e' :: below, size - 1⟩, n + 1, by simp [HIter.loop, h1, csub_ok hr2.1, hr2.2], hr1, ⟨h4, hl.2⟩, by simp; omega⟩
    · obtain rfl : n = n' := by omega
      obtain ⟨it', m, g1, g2, g3, g4⟩ := ih d (e' :: below) size es (hr.push h2 h3 h4) ⟨h6, h5, hl.2⟩ h7 fuel (by omega)
      exact ⟨it', m, by simp [HIter.loop, h1, g1], g2, g3, by simp at g4 ⊢; omega⟩

/-- A call of `next` takes at most two steps for each level of the trie. -/
theorem HIter.loop_quick : ∀ (stack : List (HStackElem K V)) (n size : Nat) (es : List (HEntry K V)),
    (⟨stack, size⟩ : HIter K V).Rep A k es → HIter.Levels n stack → ∀ fuel, 2 * stack.length + n + 1 ≤ fuel →
    ∃ it' m, HIter.loop fuel ⟨stack, size⟩ = .ok (es.head?, it') ∧ it'.Rep A k es.tail ∧ HIter.Levels m it'.stack ∧
      m + it'.stack.length = n + stack.length := by
  intro stack
  induction stack with
  | nil =>
    intro n size es hr hl fuel hf
    obtain ⟨fuel, rfl⟩ : ∃ f, fuel = f + 1 := ⟨fuel - 1, by omega⟩
    have : es = [] := by simpa using hr.entries.symm
    subst this
    exact ⟨⟨[], size⟩, n, rfl, hr, trivial, rfl⟩
  | cons top below ih =>
    intro n size es hr hl fuel hf
    by_cases ht : top.entries = []
    · obtain ⟨fuel, rfl⟩ : ∃ f, fuel = f + 1 := ⟨fuel - 1, by omega⟩
      obtain ⟨e', h1⟩ := HStackElem.next_done (hr.ok top (by simp)) hl.1 ht
      obtain ⟨it', m, g1, g2, g3, g4⟩ := ih (n + 1) size es ⟨fun e he => hr.ok e (by simp [he]), by simpa [ht] using hr.entries, hr.size⟩
        hl.2 fuel (by simp at hf; omega)
      exact ⟨it', m, by simp [HIter.loop, h1, g1], g2, g3, by simp; omega⟩
    · obtain ⟨it', m, g1, g2, g3, g4⟩ := HIter.loop_down n top below size es hr hl ht fuel (by omega)
      exact ⟨it', m, g1, g2, g3, by simp; omega⟩

end

namespace Heap
namespace HT
open Spec

/-- `enum IterStackElement` (1051-1058). -/
inductive HHElem where
  | branch (rest : List Addr)
  | leafCollision (it : HListIter)
  | leafSingle (e : Option Addr)
  deriving DecidableEq, Repr

/-- `struct IterPtr` (1042-1048).  The top of the stack is the head of the list. -/
structure HHIter where
  stack : List HHElem
  size : Nat
  deriving DecidableEq, Repr

namespace HHElem
variable {K V : Type}

/-- `IterStackElement::new` (1066-1076). -/
def new (p : Addr) : Prog (HLabel K V) HHElem :=
  Prog.bind (readNode p) fun n =>
    match n with
    | .branch _ ps => .ret (.branch ps)
    | .collision l => .ret (.leafCollision (.new l))
    | .single e => .ret (.leafSingle (some e.ptr))

/-- `IterStackElement::next` (1081-1092): an entry, or an element to push, or nothing; and the element afterwards. -/
def next : HHElem → Prog (HLabel K V) (Option (Addr ⊕ HHElem) × HHElem)
  | .branch [] => .ret (none, .branch [])
  | .branch (p :: rest) =>
    Prog.bind (readNode p) fun n =>
      match n with
      | .branch _ _ => Prog.bind (new p) fun e => .ret (some (.inr e), .branch rest)
      | .collision _ => Prog.bind (new p) fun e => .ret (some (.inr e), .branch rest)
      | .single e => .ret (some (.inl e.ptr), .branch rest)
  | .leafCollision it =>
    Prog.bind it.step fun x =>
      match x.1 with
      | none => .ret (none, .leafCollision x.2)
      | some p => Prog.bind (readEwh p) fun e => .ret (some (.inl e.ptr), .leafCollision x.2)
  | .leafSingle e => .ret (e.map .inl, .leafSingle none)

end HHElem

namespace HHIter
variable {H K V : Type}

/-- `IterPtr::new` (1100-1108). -/
def new (m : HHTMap H) : Prog (HLabel K V) HHIter :=
  if m.size > 0 then Prog.bind (HHElem.new m.root) fun e => .ret ⟨[e], m.size⟩ else .ret ⟨[], m.size⟩

/-- The `while let` loop of `IterPtr::next` (1119-1132). -/
def loop : (fuel : Nat) → HHIter → Prog (HLabel K V) (Option Addr × HHIter)
  | 0, _ => .panic
  | fuel + 1, it =>
    match it.stack with
    | [] => .ret (none, it)
    | top :: below =>
      Prog.bind top.next fun x =>
        match x.1 with
        | some (.inl e) => Prog.bind (lift (csub it.size 1)) fun size => .ret (some e, ⟨x.2 :: below, size⟩)
        | some (.inr elem) => loop fuel ⟨elem :: x.2 :: below, it.size⟩
        | none => loop fuel ⟨below, it.size⟩

/-- `Iterator::next for IterPtr` (1118-1134).  The loop runs at most twice for each level of the trie (proved: `HIter.loop_quick`). -/
def next (it : HHIter) : Prog (HLabel K V) (Option Addr × HHIter) := loop (2 * trieFuel + 1) it

end HHIter

/-- Reads the entry behind an optional pointer. -/
def htReadOpt {K V : Type} : Option Addr → Prog (HLabel K V) (Option (K × V))
  | none => .ret none
  | some p => Prog.bind (readEntry p) fun e => .ret (some e)

/-- The iterators of `HashTrieMap` (875-877), the entries behind the pointers, and `size_hint` (1137-1139). -/
def htIters (H K V : Type) : IterImpl (HLabel K V) (HHTMap H) Unit HHIter (Option (K × V) × Nat) where
  start m _ := HHIter.new m
  next it back :=
    if back then .panic
    else
      Prog.bind it.next fun x =>
      Prog.bind (htReadOpt x.1) fun e => .ret ((e, x.2.size), x.2)

section
variable {H K V Q : Type} {Ar : Arch} {A : Allocator (HLabel K V)} {D : Option Nat} {β : List (Item (HLabel K V))}

/-- A node that can be reached. -/
def NodeAt (β : List (Item (HLabel K V))) (p : Addr) (n : HNode K V) : Prop := ∃ s, s.addr = p ∧ IsN n s ∧ Seen β s

/-- An entry that can be reached. -/
def EntAt (β : List (Item (HLabel K V))) (p : Addr) (e : HEntry K V) : Prop := ∃ s, s.addr = p ∧ entIs s e ∧ Seen β s

/-- An iterator over a list of entries. -/
def LItIs (β : List (Item (HLabel K V))) (hit : HListIter) (it : ListIter (HEntry K V)) : Prop :=
  ∃ tn, IsLink .lnode ewhIs tn it.next ∧ hit.next = tn.map ATree.addr ∧ hit.length = it.length ∧ ∀ s, tn = some s → Seen β s

/-- A stack element. -/
inductive HHElem.Is (β : List (Item (HLabel K V))) : HHElem → HStackElem K V → Prop where
  | branch {ps : List Addr} {ns : List (HNode K V)} (h : List.Forall₂ (NodeAt β) ps ns) : HHElem.Is β (.branch ps) (.branch ns)
  | leafCollision {hit : HListIter} {it : ListIter (HEntry K V)} (h : LItIs β hit it) : HHElem.Is β (.leafCollision hit) (.leafCollision it)
  | leafSingle {p : Option Addr} {e : Option (HEntry K V)} (h : OptRel (EntAt β) p e) : HHElem.Is β (.leafSingle p) (.leafSingle e)

/-- What is read of a node. -/
inductive NodeRead (β : List (Item (HLabel K V))) : HHNode → HNode K V → Prop where
  | branch {bm : Nat} {ps : List Addr} {ns : List (HNode K V)} (h : List.Forall₂ (NodeAt β) ps ns) :
      NodeRead β (.branch bm ps) (.branch bm ns)
  | single {e : HEnt} {x : HEntry K V} (h : EntAt β e.ptr x) : NodeRead β (.single e) (.leaf (.single x))
  | collision {l : HList} {r : RList (HEntry K V)} (h : LItIs β (.new l) r.iter) : NodeRead β (.collision l) (.leaf (.collision r))

theorem NodeAt.read {p : Addr} {n : HNode K V} (h : NodeAt β p n) (ρ : List (Item (HLabel K V))) :
    SafeB A D β (fun r σ => σ = ρ ∧ NodeRead β r n) (readNode p) ρ := by
  obtain ⟨s, rfl, h1, h2⟩ := h
  obtain ⟨hn, h3, h4⟩ := h1.opened
  refine SafeB.bind (h2.read ρ) ?_
  rintro _ _ ⟨rfl, rfl⟩
  rw [h3]
  refine SafeB.ret ⟨rfl, ?_⟩
  have hk : ∀ u, .ptr u ∈ s.kids.map Item.ptr → Seen β u := fun u hu => h2.kid (by simpa using hu)
  generalize s.kids.map Item.ptr = τ at h4 hk
  cases h4 with
  | @branch bm arr ts h =>
    refine .branch ?_
    clear h3 h1
    induction h with
    | nil => exact .nil
    | cons g1 _ ih => exact .cons ⟨_, rfl, g1, hk _ (by simp)⟩ (ih fun u hu => hk u (by simp at hu ⊢; exact .inr hu))
  | @single e x te h =>
    exact .single ⟨te, h.2.1.symm, h.2.2, hk te (by simp)⟩
  | @collision l r ρ h =>
    obtain ⟨⟨th, tl, rfl, rfl, g1, g2⟩, g3⟩ := h
    refine .collision ⟨th, g1, rfl, rfl, ?_⟩
    rintro u rfl
    exact hk u (by simp [optPtr])

theorem NodeAt.elem {p : Addr} {n : HNode K V} (h : NodeAt β p n) (ρ : List (Item (HLabel K V))) :
    SafeB A D β (fun r σ => σ = ρ ∧ r.Is β (HStackElem.new n)) (HHElem.new p) ρ := by
  refine SafeB.bind (h.read ρ) ?_
  rintro hn _ ⟨rfl, h1⟩
  cases h1 with
  | branch h1 => exact SafeB.ret ⟨rfl, .branch h1⟩
  | single h1 => exact SafeB.ret ⟨rfl, .leafSingle (.some h1)⟩
  | collision h1 => exact SafeB.ret ⟨rfl, .leafCollision h1⟩

theorem EntAt.readOpt {p : Option Addr} {e : Option (HEntry K V)} (h : OptRel (EntAt β) p e) (ρ : List (Item (HLabel K V))) :
    SafeB A D β (fun r σ => r = e.map (fun x => (x.key, x.value)) ∧ σ = ρ) (htReadOpt p) ρ := by
  cases h with
  | none => exact SafeB.ret ⟨rfl, rfl⟩
  | some h =>
    obtain ⟨s, rfl, h1, h2⟩ := h
    rename_i x
    refine SafeB.bind (Q := fun r σ => r = (x.key, x.value) ∧ σ = ρ) (SafeB.bind (h2.read ρ) ?_) ?_
    · rintro _ _ ⟨rfl, rfl⟩
      rw [h1.1]
      exact SafeB.ret ⟨rfl, rfl⟩
    · rintro _ _ ⟨rfl, rfl⟩
      exact SafeB.ret ⟨rfl, rfl⟩

/-- An element with a hash that can be reached. -/
def EwhAt (β : List (Item (HLabel K V))) (p : Addr) (e : HEntry K V) : Prop := ∃ s, s.addr = p ∧ ewhIs s e ∧ Seen β s

theorem EwhAt.read {p : Addr} {e : HEntry K V} (h : EwhAt β p e) (ρ : List (Item (HLabel K V))) :
    SafeB A D β (fun r σ => σ = ρ ∧ EntAt β r.ptr e) (readEwh p) ρ := by
  obtain ⟨s, rfl, ⟨te, h1, h2, h3⟩, h4⟩ := h
  refine SafeB.bind (h4.read ρ) ?_
  rintro _ _ ⟨rfl, rfl⟩
  rw [h1, h2]
  exact SafeB.ret ⟨rfl, te, rfl, h3, h4.kid (by rw [h2]; simp)⟩

theorem LItIs.step {hit : HListIter} {it it' : ListIter (HEntry K V)} {x : Option (HEntry K V)} (h : LItIs β hit it)
    (he : it.step = .ok (x, it')) (ρ : List (Item (HLabel K V))) :
    SafeB A D β (fun r σ => σ = ρ ∧ OptRel (EwhAt β) r.1 x ∧ LItIs β r.2 it') hit.step ρ := by
  obtain ⟨nx, len⟩ := it
  obtain ⟨tn, h1, h2, h3, h4⟩ := h
  simp only at h1 h3
  unfold HListIter.step
  rw [h2]
  cases h1 with
  | none =>
    cases he
    exact SafeB.ret ⟨rfl, .none, none, .none, h2, h3, by simp⟩
  | @some a tv tn v next hv hn =>
    simp only [ListIter.step] at he
    obtain ⟨n, e1, he⟩ := res_bind_ok he
    cases he
    obtain ⟨t, g1, g2⟩ := h4 _ rfl
    refine SafeB.bind (HList.safeB_readNode rfl g1 g2 ρ) ?_
    rintro _ _ ⟨rfl, rfl⟩
    rw [h3, e1]
    refine SafeB.ret ⟨rfl, .some ⟨tv, rfl, hv, t, .kid g1 (by simp [ATree.kids]), g2⟩, tn, hn, rfl, rfl, ?_⟩
    rintro s rfl
    exact ⟨t, .kid g1 (by simp [ATree.kids]), g2⟩

/-- The answer of a stack element. -/
inductive StepIs (β : List (Item (HLabel K V))) : Option (Addr ⊕ HHElem) → Option (HEntry K V ⊕ HStackElem K V) → Prop where
  | none : StepIs β none none
  | inl {p : Addr} {e : HEntry K V} (h : EntAt β p e) : StepIs β (some (.inl p)) (some (.inl e))
  | inr {d : HHElem} {e : HStackElem K V} (h : d.Is β e) : StepIs β (some (.inr d)) (some (.inr e))

theorem HHElem.Is.next {he : HHElem} {e e' : HStackElem K V} {x : Option (HEntry K V ⊕ HStackElem K V)} (h : he.Is β e)
    (hx : e.next = .ok (x, e')) (ρ : List (Item (HLabel K V))) :
    SafeB A D β (fun r σ => σ = ρ ∧ StepIs β r.1 x ∧ r.2.Is β e') he.next ρ := by
  cases h with
  | branch h =>
    cases h with
    | nil => cases hx; exact SafeB.ret ⟨rfl, .none, .branch .nil⟩
    | @cons p n ps ns h1 h2 =>
      refine SafeB.bind (h1.read ρ) ?_
      rintro hn σ ⟨hσ, h3⟩
      subst σ
      cases h3 with
      | branch h3 =>
        cases hx
        refine SafeB.bind (h1.elem ρ) ?_
        rintro d σ ⟨hσ, h4⟩
        subst σ
        exact SafeB.ret ⟨rfl, .inr h4, .branch h2⟩
      | single h3 =>
        cases hx
        exact SafeB.ret ⟨rfl, .inl h3, .branch h2⟩
      | collision h3 =>
        cases hx
        refine SafeB.bind (h1.elem ρ) ?_
        rintro d σ ⟨hσ, h4⟩
        subst σ
        exact SafeB.ret ⟨rfl, .inr h4, .branch h2⟩
  | leafCollision h =>
    simp only [HStackElem.next] at hx
    obtain ⟨⟨y, it'⟩, h1, hx⟩ := res_bind_ok hx
    cases hx
    refine SafeB.bind (h.step h1 ρ) ?_
    rintro ⟨p, hit'⟩ σ ⟨hσ, h2, h3⟩
    subst σ
    cases h2 with
    | none => exact SafeB.ret ⟨rfl, .none, .leafCollision h3⟩
    | some h2 =>
      refine SafeB.bind (h2.read ρ) ?_
      rintro d σ ⟨hσ, h4⟩
      subst σ
      exact SafeB.ret ⟨rfl, .inl h4, .leafCollision h3⟩
  | leafSingle h =>
    cases hx
    cases h with
    | none => exact SafeB.ret ⟨rfl, .none, .leafSingle .none⟩
    | some h => exact SafeB.ret ⟨rfl, .inl h, .leafSingle .none⟩

/-- An iterator on the heap and one of the value model. -/
def HHIter.Is (β : List (Item (HLabel K V))) (hit : HHIter) (it : HIter K V) : Prop :=
  List.Forall₂ (HHElem.Is β) hit.stack it.stack ∧ hit.size = it.size

theorem HHIter.Is.loop (fuel : Nat) : ∀ {hit : HHIter} {it it' : HIter K V} {x : Option (HEntry K V)}, hit.Is β it →
    it.loop fuel = .ok (x, it') → ∀ ρ : List (Item (HLabel K V)),
    SafeB A D β (fun r σ => σ = ρ ∧ OptRel (EntAt β) r.1 x ∧ r.2.Is β it') (hit.loop fuel) ρ := by
  induction fuel with
  | zero => intro hit it it' x _ he; cases he
  | succ fuel ih =>
    rintro ⟨hs, n⟩ ⟨s, n'⟩ it' x ⟨h, hn⟩ he ρ
    simp only at h hn
    subst hn
    cases h with
    | nil => cases he; exact SafeB.ret ⟨rfl, .none, .nil, rfl⟩
    | @cons ht t hb b h1 h2 =>
      simp only [HIter.loop] at he
      obtain ⟨⟨r, t'⟩, e1, he⟩ := res_bind_ok he
      refine SafeB.bind (h1.next e1 ρ) ?_
      rintro ⟨y, ht'⟩ σ ⟨hσ, h3, h4⟩
      subst σ
      cases h3 with
      | none => exact ih (hit := ⟨hb, n⟩) (it := ⟨b, n⟩) ⟨h2, rfl⟩ he ρ
      | inl h3 =>
        obtain ⟨m, e2, he⟩ := res_bind_ok he
        cases he
        exact safeB_lift e2 (SafeB.ret ⟨rfl, .some h3, .cons h4 h2, rfl⟩)
      | inr h3 => exact ih (hit := ⟨_ :: _ :: hb, n⟩) (it := ⟨_ :: _ :: b, n⟩) ⟨.cons h3 (.cons h4 h2), rfl⟩ he ρ

/-- The iterator on the heap has `xs` left. -/
def HTItIs (Ar : Arch) (k : Nat) (β : List (Item (HLabel K V))) (hit : HHIter) (xs : List (K × V)) : Prop :=
  ∃ (it : HIter K V) (es : List (HEntry K V)) (n : Nat), hit.Is β it ∧ it.Rep Ar k es ∧ HIter.Levels n it.stack ∧ n + it.stack.length ≤ trieFuel ∧
    xs = es.map fun x => (x.key, x.value)

/-- The items of a map in the order of iteration. -/
def _root_.Rpds.HTMap.items (m : HTMap H K V) : List (K × V) := m.root.entries.map fun x => (x.key, x.value)

theorem htIters_iterates {o : HashKeys H K Q} {k : Nat} :
    (htIters H K V).Iterates A (HTIs Ar o k) (fun m _ => .ok m.items) fwNext (HTItIs Ar k) where
  start := by
    rintro hm m β _ xs ⟨⟨⟨t, h1, rfl, h2⟩, h3, -, -⟩, l, hl⟩ he
    cases he
    have hr := HIter.rep_new hl.ok (by rw [hl.size, hl.length])
    have hf : Shallow trieFuel m.root := shallow_of_ok hl.conf.pos m.root 0 trieFuel hl.ok (by decide) (by decide)
    have hlo : (HStackElem.new m.root).Low (trieFuel - 1) := HStackElem.new_low hl.ok hf
    show SafeB A none _ _ (HHIter.new hm) []
    unfold HHIter.new
    rw [h3]
    unfold HIter.new at hr
    split
    · next h0 =>
      rw [if_pos h0] at hr
      have hat : NodeAt [.ptr t] hm.root m.root := ⟨t, h1.symm, h2, .root (by simp)⟩
      refine SafeB.bind (hat.elem []) ?_
      rintro d σ ⟨hσ, h4⟩
      subst σ
      exact SafeB.ret ⟨rfl, _, _, trieFuel - 1, ⟨.cons h4 .nil, rfl⟩, hr, ⟨hlo, trivial⟩, by simp [trieFuel], rfl⟩
    · next h0 =>
      rw [if_neg h0] at hr
      exact SafeB.ret ⟨rfl, _, _, 0, ⟨.nil, rfl⟩, hr, trivial, by simp, rfl⟩
  next := by
    rintro β hit xs back y ys ⟨⟨stack, size⟩, es, n, h1, h2, h3, h4, rfl⟩ he
    cases back with
    | true => cases he
    | false =>
      simp only [fwNext, Bool.false_eq_true, if_false, Except.ok.injEq, Prod.mk.injEq] at he
      obtain ⟨rfl, rfl⟩ := he
      simp only at h3 h4
      obtain ⟨it', m, g1, g2, g3, g4⟩ := HIter.loop_quick stack n size es h2 h3 (2 * trieFuel + 1) (by omega)
      refine SafeB.bind (HHIter.Is.loop _ h1 g1 []) ?_
      rintro ⟨p, hit'⟩ σ ⟨hσ, h5, h6⟩
      subst σ
      refine SafeB.bind (EntAt.readOpt h5 []) ?_
      rintro _ _ ⟨rfl, rfl⟩
      refine SafeB.ret ⟨rfl, ?_, it', es.tail, m, h6, g2, g3, by omega, by simp⟩
      have := h6.2.trans g2.size
      simp only at this
      simp [this]

end

section
variable {H T Q : Type}

/-- The iterators of `HashTrieSet` (hash_trie_set/mod.rs: the keys of the map). -/
def htSetIters (H T : Type) : IterImpl (HLabel T Unit) (HHTMap H) Unit HHIter (Option T × Nat) := (htIters H T Unit).adapt setItem

theorem htSetIters_iterates {Ar : Arch} {A : Allocator (HLabel T Unit)} {o : HashKeys H T Q} {k : Nat} :
    (htSetIters H T).Iterates A (HTIs Ar o k) (fun m _ => .ok (m.items.map Prod.fst)) fwNext
      (fun β it xs => ∃ ys, HTItIs Ar k β it ys ∧ ys.map Prod.fst = xs) := by
  have := (htIters_iterates (Ar := Ar) (A := A) (o := o) (k := k)).adapt setItem (S := fun m m' => m = m')
    (S' := fun ys xs => ys.map Prod.fst = xs) (seq' := fun m (_ : Unit) => .ok (m.items.map Prod.fst)) (inext' := fwNext) ?_ ?_
  · refine ⟨?_, this.next⟩
    intro h s β which xs hR he
    exact this.start h s β which xs ⟨s, hR, rfl⟩ he
  · rintro m _ _ x' rfl he
    cases he
    exact ⟨_, rfl, rfl⟩
  · rintro back ys _ y' z' rfl he
    cases back with
    | true => cases he
    | false =>
      simp only [fwNext, Bool.false_eq_true, if_false, Except.ok.injEq, Prod.mk.injEq] at he
      obtain ⟨rfl, rfl⟩ := he
      exact ⟨_, _, rfl, by simp [setItem], by simp⟩

end
end HT
end Heap
end Rpds
