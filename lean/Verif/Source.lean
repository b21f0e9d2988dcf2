import Verif.Vector.Lemmas
import Verif.Queue.Lemmas
import Verif.Stack.Lemmas
import Verif.HashTrie.Set
import Verif.RedBlack.Set
/-
Collecting, extending and deserializing once more, with the source of the items as code that is called: an iterator of the program, or the
`SeqAccess`/`MapAccess` of a deserializer.  It has a state of its own, may never end, may fail, may panic, and may have more items after it
said that it ended.  `from_iter`, `extend` and `visit_seq`/`visit_map` of the models take the list of items instead.
-/
set_option autoImplicit false
namespace Rpds

/-- How a source can fail: `next_element()` answers with an error, or user code panics. -/
inductive Failure (E : Type) where
  | error (e : E)
  | panic
  deriving DecidableEq, Repr

/-- The answer to one call of `next()`, `next_element()` or `next_entry()`: an item, or no item, with a failure or without. -/
inductive Pull (E α : Type) where
  | item (a : α)
  | stop (failure : Option (Failure E))
  deriving DecidableEq, Repr

/-- Where a loop over a source stands: going on, or left, with what the loop has built and the state of the source. -/
inductive Looped (E β σ : Type) where
  | running
  | left (failure : Option (Failure E)) (acc : β) (s : σ)
  deriving DecidableEq, Repr

/-- `for a in iter { body }`, and `while let Some(a) = seq.next_element()? { body }`, for at most `fuel` calls of the source. -/
def forLoop {E α β σ : Type} (next : σ → Pull E α × σ) (body : β → α → Res β) : (fuel : Nat) → β → σ → Res (Looped E β σ)
  | 0, _, _ => .ok .running
  | fuel + 1, b, s =>
    match next s with
    | (.stop k, s) => .ok (.left k b s)
    | (.item a, s) => do
      let b ← body b a
      forLoop next body fuel b s

/-- What building a collection from a source comes to: it goes on, or there is a collection or a failure. -/
inductive Built (E β σ : Type) where
  | running
  | over (r : Except (Failure E) β) (s : σ)

/-- The end of `from_iter` and of `visit_seq`/`visit_map`: `f` makes the collection of what the loop has built; after a failure this is
dropped. -/
def Looped.finish {E β γ σ : Type} (f : β → γ) : Looped E β σ → Built E γ σ
  | .running => .running
  | .left none b s => .over (.ok (f b)) s
  | .left (some e) _ s => .over (.error e) s

section builders
variable {E σ T : Type}

/-- `List::from_iter` (list/mod.rs:384-400) and `visit_seq` (510-531): the items are collected in a `Vec` first. -/
def RList.fromSource (next : σ → Pull E T × σ) (fuel : Nat) (s : σ) : Res (Built E (RList T) σ) := do
  let r ← forLoop next (fun (vec : List T) e => pure (vec ++ [e])) fuel [] s
  pure (r.finish fun vec => vec.reverse.foldl (fun list e => list.pushFrontMut e) RList.new)

/-- `Stack::from_iter` (stack/mod.rs:264-266) and `Deserialize for Stack` (290-292). -/
def Stack.fromSource (next : σ → Pull E T × σ) (fuel : Nat) (s : σ) : Res (Built E (Stack T) σ) := do
  match ← RList.fromSource next fuel s with
  | .running => pure .running
  | .over (.ok list) s => pure (.over (.ok { list }) s)
  | .over (.error e) s => pure (.over (.error e) s)

/-- `Queue::from_iter` (queue/mod.rs:293-295) and `Deserialize for Queue` (387-390). -/
def Queue.fromSource (next : σ → Pull E T × σ) (fuel : Nat) (s : σ) : Res (Built E (Queue T) σ) := do
  match ← RList.fromSource next fuel s with
  | .running => pure .running
  | .over (.ok list) s => pure (.over (.ok { out_list := list, in_list := RList.new }) s)
  | .over (.error e) s => pure (.over (.error e) s)

/-- `Extend for Vector` (vector/mod.rs:642-646): what it leaves behind in place, also when the source panics. -/
def RVector.extendFrom (A : Arch) (next : σ → Pull E T × σ) (fuel : Nat) (v : RVector T) (s : σ) : Res (Looped E (RVector T) σ) :=
  forLoop next (fun v e => v.pushBackMut A e) fuel v s

/-- `FromIterator for Vector` (vector/mod.rs:631-635) and `visit_seq` (897-908). -/
def RVector.fromSource (A : Arch) (next : σ → Pull E T × σ) (fuel : Nat) (s : σ) : Res (Built E (RVector T) σ) := do
  let vector ← RVector.new
  let r ← vector.extendFrom A next fuel s
  pure (r.finish id)

end builders

section builders
variable {E σ H K V Q T : Type}

/-- `FromIterator for HashTrieMap` (hash_trie_map/mod.rs:1026-1034) and `visit_map` (1204-1215). -/
def HTMap.fromSource (A : Arch) (o : HashKeys H K Q) (hasher : H) (next : σ → Pull E (K × V) × σ) (fuel : Nat) (s : σ) :
    Res (Built E (HTMap H K V) σ) := do
  let m ← HTMap.new A hasher
  let r ← forLoop next (fun (m : HTMap H K V) e => m.insertMut A o e.1 e.2) fuel m s
  pure (r.finish id)

/-- `FromIterator for HashTrieSet` (hash_trie_set/mod.rs:336-344) and `visit_seq` (401-412). -/
def HTSet.fromSource (A : Arch) (o : HashKeys H T Q) (hasher : H) (next : σ → Pull E T × σ) (fuel : Nat) (s : σ) :
    Res (Built E (HTSet H T) σ) := do
  let m ← HTSet.new A hasher
  let r ← forLoop next (fun (m : HTSet H T) e => m.insertMut A o e) fuel m s
  pure (r.finish id)

/-- `FromIterator for RedBlackTreeMap` (red_black_tree_map/mod.rs:1123-1131) and `visit_map` (1541-1552). -/
def RBMap.fromSource (o : OrdKeys K Q) (next : σ → Pull E (K × V) × σ) (fuel : Nat) (s : σ) : Res (Built E (RBMap K V) σ) := do
  let r ← forLoop next (fun (m : RBMap K V) e => m.insertMut o e.1 e.2) fuel RBMap.new s
  pure (r.finish id)

/-- `FromIterator for RedBlackTreeSet` (red_black_tree_set/mod.rs:395-403) and `visit_seq` (455-466). -/
def RBSet.fromSource (o : OrdKeys T Q) (next : σ → Pull E T × σ) (fuel : Nat) (s : σ) : Res (Built E (RBSet T) σ) := do
  let r ← forLoop next (fun (m : RBSet T) e => m.insertMut o e) fuel RBSet.new s
  pure (r.finish id)

end builders

/-! ### `get_mut` of vectors with `Clone` as user code -/

section
variable {S T : Type}

/-- `SharedPointer::make_mut` of the pointer to an element: `Clone` is called if the element is shared, and may panic (`none`) or give
something else than the element. -/
def makeMutElem (clone : S → T → Option T × S) (shared : Bool) (x : T) (s : S) : Option T × S :=
  if shared then clone s x else (some x, s)

mutual
/-- `Node::get_mut` (vector/mod.rs:222-239) and a write of `f old` through the reference: `none` if `Clone` panicked, what is left
behind, and the state of the user code. -/
def VNode.modifyU (A : Arch) (bits : Nat) (clone : S → T → Option T × S) (shared : Bool) (f : T → T) (index : Nat) (s : S) :
    VNode T → (height : Nat) → Res (Option Unit × VNode T × S)
  | .branch a, height => do
    let b ← vecBucket A bits index height
    let (r, a', s) ← VNode.modifyAtU A bits clone shared f index s a b height
    pure (r, .branch a', s)
  | .leaf a, height => do
    let b ← vecBucket A bits index height
    A.debugAssert (height == 0)
    let x ← vecIndex a b
    match makeMutElem clone shared x s with
    | (none, s) => pure (none, .leaf a, s)
    | (some y, s) => do
      let a' ← vecSet a b (f y)
      pure (some (), .leaf a', s)
/-- `make_mut(&mut a[b]).get_mut(index, height - 1, bucket)` (vector/mod.rs:232). -/
def VNode.modifyAtU (A : Arch) (bits : Nat) (clone : S → T → Option T × S) (shared : Bool) (f : T → T) (index : Nat) (s : S) :
    List (VNode T) → Nat → (height : Nat) → Res (Option Unit × List (VNode T) × S)
  | [], _, _ => .error .indexOutOfBounds
  | c :: cs, 0, height => do
    let h ← A.usub height 1
    let (r, c', s) ← VNode.modifyU A bits clone shared f index s c h
    pure (r, c' :: cs, s)
  | c :: cs, b + 1, height => do
    let (r, cs', s) ← VNode.modifyAtU A bits clone shared f index s cs b height
    pure (r, c :: cs', s)
end

/-- `Vector::get_mut` (vector/mod.rs:495-507) and a write of `f old` through the reference: `none` if `Clone` panicked, else whether there
is such an element; the vector afterwards; the state of the user code. -/
def RVector.modifyU (A : Arch) (clone : S → T → Option T × S) (shared : Bool) (v : RVector T) (index : Nat) (f : T → T) (s : S) :
    Res (Option Bool × RVector T × S) :=
  if index ≥ v.length then pure (some false, v, s)
  else do
    let height ← v.height A
    let (r, root, s) ← v.root.modifyU A v.bits clone shared f index s height
    pure (r.map fun _ => true, { v with root }, s)

end

/-! ### Lemmas -/

section
variable {E α β σ : Type}

/-- Called in the state `s`, the source gives the items `xs` one after the other, and then none, in the state `s'`; it has been called
`xs.length + 1` times. -/
inductive Feeds (next : σ → Pull E α × σ) : σ → List α → Option (Failure E) → σ → Prop where
  | stop {s s' : σ} {k : Option (Failure E)} : next s = (.stop k, s') → Feeds next s [] k s'
  | item {s s₁ s' : σ} {a : α} {xs : List α} {k : Option (Failure E)} :
    next s = (.item a, s₁) → Feeds next s₁ xs k s' → Feeds next s (a :: xs) k s'

theorem Feeds.unique {next : σ → Pull E α × σ} {s s' s'' : σ} {xs ys : List α} {k k' : Option (Failure E)} (h : Feeds next s xs k s')
    (h' : Feeds next s ys k' s'') : xs = ys ∧ k = k' ∧ s' = s'' := by
  induction h generalizing ys with
  | stop e => cases h' with
    | stop e' => rw [e] at e'; cases e'; exact ⟨rfl, rfl, rfl⟩
    | item e' _ => rw [e] at e'; cases e'
  | item e _ ih => cases h' with
    | stop e' => rw [e] at e'; cases e'
    | item e' h' =>
      rw [e] at e'; cases e'
      obtain ⟨rfl, rfl, rfl⟩ := ih h'
      exact ⟨rfl, rfl, rfl⟩

/-- The loop of a source that stops is a loop over its items. -/
theorem Feeds.forLoop {next : σ → Pull E α × σ} {s s' : σ} {xs : List α} {k : Option (Failure E)} (h : Feeds next s xs k s')
    (body : β → α → Res β) (fuel : Nat) (hf : xs.length < fuel) (b : β) :
    forLoop next body fuel b s = (xs.foldlM body b).map fun b => .left k b s' := by
  induction h generalizing fuel b with
  | stop e =>
    obtain ⟨n, rfl⟩ : ∃ n, fuel = n + 1 := ⟨fuel - 1, by omega⟩
    simp [Rpds.forLoop, e, Except.map, pure, Except.pure]
  | item e _ ih =>
    obtain ⟨n, rfl⟩ : ∃ n, fuel = n + 1 := ⟨fuel - 1, by omega⟩
    simp only [List.length_cons] at hf
    simp only [Rpds.forLoop, e, List.foldlM_cons]
    cases body b _ with
    | error e => rfl
    | ok b' => exact ih n (by omega) b'

/-- A loop goes on as long as the source has not stopped, if the body does not panic. -/
theorem forLoop_running (next : σ → Pull E α × σ) (I : Nat → β → Prop) (body : β → α → Res β)
    (hb : ∀ n b a, I (n + 1) b → ∃ b', body b a = .ok b' ∧ I n b') (fuel : Nat) (b : β) (hI : I fuel b) (s : σ)
    (h : ∀ xs k s', Feeds next s xs k s' → fuel ≤ xs.length) : forLoop next body fuel b s = .ok .running := by
  induction fuel generalizing b s with
  | zero => rfl
  | succ n ih =>
    rcases hn : next s with ⟨⟨a⟩ | k, s₁⟩
    · obtain ⟨b', e, hI'⟩ := hb n b a hI
      simp only [forLoop, hn, e, Res.ok_bind]
      exact ih b' hI' s₁ fun xs k s' hs => by have := h _ _ _ (.item hn hs); simp only [List.length_cons] at this; omega
    · have := h _ _ _ (.stop hn)
      simp at this

end

/-! `get_mut` is `get`, `Clone`, and `modify`. -/

section
variable {S T : Type} {A : Arch} {bits : Nat} {clone : S → T → Option T × S} {shared : Bool} {f : T → T} {index : Nat} {s : S}

mutual
theorem VNode.modifyU_eq : (n : VNode T) → (height : Nat) → (x : T) → n.get A bits index height = .ok x →
    n.modifyU A bits clone shared f index s height =
      match makeMutElem clone shared x s with
      | (none, s) => .ok (none, n, s)
      | (some y, s) => (n.modify A bits (fun _ => f y) index height).map fun n => (some (), n, s)
  | .branch a, height, x, hx => by
    simp only [VNode.get, VNode.modifyU, VNode.modify] at hx ⊢
    cases hb : vecBucket A bits index height with
    | error e => rw [hb] at hx; cases hx
    | ok b =>
      simp only [hb, Res.ok_bind] at hx ⊢
      rw [VNode.modifyAtU_eq a b height x hx]
      rcases makeMutElem clone shared x s with ⟨_ | y, s'⟩
      · rfl
      · simp only
        cases VNode.modifyAt A bits (fun _ => f y) index a b height <;> rfl
  | .leaf a, height, x, hx => by
    simp only [VNode.get, VNode.modifyU, VNode.modify] at hx ⊢
    cases hb : vecBucket A bits index height with
    | error e => rw [hb] at hx; cases hx
    | ok b =>
      simp only [hb, Res.ok_bind] at hx ⊢
      cases hd : A.debugAssert (height == 0) with
      | error e => rw [hd] at hx; cases hx
      | ok u =>
        simp only [hd, Res.ok_bind] at hx ⊢
        rw [hx]
        simp only [Res.ok_bind]
        rcases makeMutElem clone shared x s with ⟨_ | y, s'⟩
        · rfl
        · simp only
          cases vecSet a b (f y) <;> rfl
theorem VNode.modifyAtU_eq : (a : List (VNode T)) → (b height : Nat) → (x : T) → VNode.getAt A bits index a b height = .ok x →
    VNode.modifyAtU A bits clone shared f index s a b height =
      match makeMutElem clone shared x s with
      | (none, s) => .ok (none, a, s)
      | (some y, s) => (VNode.modifyAt A bits (fun _ => f y) index a b height).map fun a => (some (), a, s)
  | [], _, _, _, hx => by simp [VNode.getAt] at hx
  | c :: cs, 0, height, x, hx => by
    simp only [VNode.getAt, VNode.modifyAtU, VNode.modifyAt] at hx ⊢
    cases hh : A.usub height 1 with
    | error e => rw [hh] at hx; cases hx
    | ok h =>
      simp only [hh, Res.ok_bind] at hx ⊢
      rw [VNode.modifyU_eq c h x hx]
      rcases makeMutElem clone shared x s with ⟨_ | y, s'⟩
      · rfl
      · simp only
        cases VNode.modify A bits (fun _ => f y) index c h <;> rfl
  | c :: cs, b + 1, height, x, hx => by
    simp only [VNode.getAt, VNode.modifyAtU, VNode.modifyAt] at hx ⊢
    rw [VNode.modifyAtU_eq cs b height x hx]
    rcases makeMutElem clone shared x s with ⟨_ | y, s'⟩
    · rfl
    · simp only
      cases VNode.modifyAt A bits (fun _ => f y) index cs b height <;> rfl
end

theorem RVector.modifyU_eq {v : RVector T} {x : T} (hx : v.get A index = .ok (some x)) :
    v.modifyU A clone shared index f s =
      match makeMutElem clone shared x s with
      | (none, s) => .ok (none, v, s)
      | (some y, s) => (v.modify A index fun _ => f y).map fun w => (some true, w.getD v, s) := by
  unfold RVector.get at hx
  unfold RVector.modifyU RVector.modify
  split at hx
  · cases hx
  · next hi =>
    rw [if_neg hi]
    cases hh : v.height A with
    | error e => rw [hh] at hx; cases hx
    | ok h =>
      simp only [hh, Res.ok_bind] at hx ⊢
      cases hr : v.root.get A v.bits index h with
      | error e => rw [hr] at hx; cases hx
      | ok y =>
        rw [hr] at hx
        simp only [Res.ok_bind, pure, Except.pure, Except.ok.injEq, Option.some.injEq] at hx
        subst hx
        rw [VNode.modifyU_eq _ _ _ hr]
        rcases makeMutElem clone shared y s with ⟨_ | z, s'⟩
        · rfl
        · simp only [if_neg hi]
          cases VNode.modify A v.bits (fun _ => f z) index v.root h <;> rfl

end
end Rpds
