import Verif.HashTrie.PanicLemmas
/-
Hash trie maps whose user code panics or lies, when also the panics of the library itself unwind.

In `Verif/HashTrie/Panic.lean` user code may panic, and a panic of the library (`unreachable!`, `debug_assert!`, an overflow of `size`)
is an error of the whole execution.  If `Eq` lies, or has lost entries by panicking before, these happen: a collision can be left with
no entry (`Bucket::remove`, line 620) or with one (`Node::is_empty`, line 449), can be above the maximum depth (`Node::insert`, line 337),
and there may be more entries, or fewer, than `size` says.  Here they unwind like the panics of user code: the answer is `none`, the node is what is
left behind.  (Line numbers of /repo/src/map/hash_trie_map/mod.rs.)

Also `Drop` may panic: that of the pair that an operation removes or replaces, as in `Verif/Drop/HashTrie.lean`.  It can leave an empty
branch at the maximum depth, on which later operations panic (`expect`, lines 264, 288, 303 and 396).  As with `Clone`, it is asked each
time; the pair is dropped only if no other map has it, and otherwise the call is the one with a `Drop` that does nothing.  (A panic in a
drop during unwinding aborts the process.)

With that no operation fails on a map made by operations, whatever `Hash`, `Eq`, `Clone` and `Drop` do.
-/
set_option autoImplicit false
namespace Rpds
open Spec

/-- The drop of what `list_remove_first` has removed. -/
def dropRemoved {S K V : Type} (drop : S → K × V → Option Unit × S) (s : S) : Option (HEntry K V) → Option Unit × S
  | none => (some (), s)
  | some e => drop s (e.key, e.value)

/-- `Bucket::insert` (558-588): as `insertU`, and the drop of the replaced entry may panic.  If it is the only one, the new entry is already
in its place (563); in a collision the new one is not yet there (581). -/
def Bucket.insertX {S K V : Type} (eq : S → K → K → Option Bool × S) (drop : S → K × V → Option Unit × S) (entry : HEntry K V) (s : S) :
    Bucket K V → Res (Option Bool × Bucket K V × S)
  | .single existing =>
    match existing.matchesU eq entry.key entry.keyHash s with
    | (none, s) => .ok (none, .single existing, s)
    | (some true, s) =>
      match drop s (existing.key, existing.value) with
      | (none, s) => .ok (none, .single entry, s)
      | (some _, s) => .ok (some false, .single entry, s)
    | (some false, s) => .ok (some true, .collision ((RList.new.pushFrontMut existing.clone).pushFrontMut entry), s)
  | .collision entries => do
    match ← listRemoveFirstU (fun e => e.matchesU eq entry.key entry.keyHash) entries s with
    | (none, entries, s) => .ok (none, .collision entries, s)
    | (some removed, entries, s) =>
      match dropRemoved drop s removed with
      | (none, s) => .ok (none, .collision entries, s)
      | (some _, s) => .ok (some !removed.isSome, .collision (entries.pushFrontMut entry), s)

/-- `Bucket::remove` (593-640): as `removeU`, and `unreachable!` (620) unwinds.  The drop of the removed entry may panic, when the leaf has
become an empty branch (436) or the list has lost the entry (618). -/
def Bucket.removeX {S K V Q : Type} (eq : S → K → Q → Option Bool × S) (drop : S → K × V → Option Unit × S) (key : Q) (keyHash : UInt64) (s : S) :
    Bucket K V → Res (Option Bool × Option (Bucket K V) × S)
  | .single e =>
    match e.matchesU eq key keyHash s with
    | (none, s) => .ok (none, some (.single e), s)
    | (some true, s) =>
      match drop s (e.key, e.value) with
      | (none, s) => .ok (none, none, s)
      | (some _, s) => .ok (some true, none, s)
    | (some false, s) => .ok (some false, some (.single e), s)
  | .collision entries => do
    match ← listRemoveFirstU (fun e => e.matchesU eq key keyHash) entries s with
    | (none, entries, s) => .ok (none, some (.collision entries), s)
    | (some removed, entries, s) =>
      match dropRemoved drop s removed with
      | (none, s) => .ok (none, some (.collision entries), s)
      | (some _, s) =>
        match entries.len with
        | 0 => .ok (none, some (.collision entries), s)
        | 1 => do
          let e ← unwrap entries.first
          .ok (some removed.isSome, some (.single e.clone), s)
        | _ => .ok (some removed.isSome, some (.collision entries), s)

namespace HNode
variable {S H K V Q : Type} (A : Arch)

mutual
/-- `Node::get` (250-272): as `getU`, and `expect` (264) unwinds. -/
def getX (eq : S → K → Q → Option Bool × S) (key : Q) (keyHash : UInt64) (degree : Nat) : HNode K V → (depth : Nat) → S →
    Res (Option (Option (HEntry K V)) × S)
  | .branch bm arr, depth, s => do
    match ← indexFromHash A keyHash depth degree with
    | none => .ok (none, s)
    | some index => do
      match ← SparseArray.slot A bm index with
      | none => .ok (some none, s)
      | some i => getAtX eq key keyHash degree arr i (depth + 1) s
  | .leaf b, _, s => b.getU eq key keyHash s
/-- The recursive call on `arr[i]`. -/
def getAtX (eq : S → K → Q → Option Bool × S) (key : Q) (keyHash : UInt64) (degree : Nat) : List (HNode K V) → (i depth : Nat) → S →
    Res (Option (Option (HEntry K V)) × S)
  | [], _, _, _ => .error .indexOutOfBounds
  | c :: _, 0, depth, s => getX eq key keyHash degree c depth s
  | _ :: cs, i + 1, depth, s => getAtX eq key keyHash degree cs i depth s
end

mutual
/-- `Node::get_mut` (274-296) and a write through the reference: as `getMutU`, and `expect` (288) unwinds. -/
def getMutX (eq : S → K → Q → Option Bool × S) (clone : S → K × V → Option Unit × S) (key : Q) (keyHash : UInt64) (degree : Nat)
    (f : HEntry K V → HEntry K V) : HNode K V → (depth : Nat) → S → Res (Option (Option (HEntry K V)) × HNode K V × S)
  | .branch bm arr, depth, s => do
    match ← indexFromHash A keyHash depth degree with
    | none => .ok (none, .branch bm arr, s)
    | some index => do
      match ← SparseArray.slot A bm index with
      | none => .ok (some none, .branch bm arr, s)
      | some i => do
        let (r, subtree, s) ← getMutAtX eq clone key keyHash degree f arr i (depth + 1) s
        let t ← SparseArray.writeSlot ⟨bm, arr⟩ i subtree
        .ok (r, .branch t.bitmap t.array, s)
  | .leaf b, _, s => do
    let (r, b, s) ← b.getMutU eq clone key keyHash f s
    .ok (r, .leaf b, s)
/-- The recursive call on `arr[i]`. -/
def getMutAtX (eq : S → K → Q → Option Bool × S) (clone : S → K × V → Option Unit × S) (key : Q) (keyHash : UInt64) (degree : Nat)
    (f : HEntry K V → HEntry K V) : List (HNode K V) → (i depth : Nat) → S → Res (Option (Option (HEntry K V)) × HNode K V × S)
  | [], _, _, _ => .error .indexOutOfBounds
  | c :: _, 0, depth, s => getMutX eq clone key keyHash degree f c depth s
  | _ :: cs, i + 1, depth, s => getMutAtX eq clone key keyHash degree f cs i depth s
end

/-- `Node::insert` (299-355): as `insertU`, and `expect` (303) and `unreachable!` (337) unwind. -/
def insertX (eq : S → K → K → Option Bool × S) (drop : S → K × V → Option Unit × S) (degree : Nat) : (fuel : Nat) → HEntry K V → HNode K V → (depth : Nat) → S →
    Res (Option Bool × HNode K V × S)
  | 0, _, _, _, _ => .error .diverge
  | fuel + 1, entry, .branch bm arr, depth, s => do
    match ← indexFromHash A entry.keyHash depth degree with
    | none => .ok (none, .branch bm arr, s)
    | some index => do
      match ← SparseArray.slot A bm index with
      | some i => do
        let subtree ← vecIndex arr i
        let (isNew, subtree, s) ← insertX eq drop degree fuel entry subtree (depth + 1) s
        let t ← SparseArray.writeSlot ⟨bm, arr⟩ i subtree
        .ok (isNew, .branch t.bitmap t.array, s)
      | none => do
        let t ← SparseArray.set A ⟨bm, arr⟩ index (.leaf (.single entry))
        .ok (some true, .branch t.bitmap t.array, s)
  | fuel + 1, entry, .leaf b, depth, s => do
    let maximum_depth := (← indexFromHash A entry.keyHash depth degree).isNone
    match ← b.getU eq entry.key entry.keyHash s with
    | (none, s) => .ok (none, .leaf b, s)
    | (some r, s) =>
      if !maximum_depth then
        if r.isSome then do
          let (isNew, b, s) ← b.insertX eq drop entry s
          .ok (isNew, .leaf b, s)
        else
          match b with
          | .collision l => .ok (none, .leaf (.collision l), s)
          | .single e => do
            match ← insertX eq drop degree fuel e.clone newEmptyBranch depth s with
            | (none, n, s) => .ok (none, n, s)
            | (some _, n, s) =>
              match ← insertX eq drop degree fuel entry n depth s with
              | (none, n, s) => .ok (none, n, s)
              | (some _, n, s) => .ok (some true, n, s)
      else do
        let (isNew, b, s) ← b.insertX eq drop entry s
        .ok (isNew, .leaf b, s)

mutual
/-- `Node::remove` (388-442): as `removeU`, and `expect` (396) and the `debug_assert!` of `Node::is_empty` (449) unwind. -/
def removeX (eq : S → K → Q → Option Bool × S) (drop : S → K × V → Option Unit × S) (key : Q) (keyHash : UInt64) (degree : Nat) : HNode K V → (depth : Nat) → S →
    Res (Option Bool × HNode K V × S)
  | .branch bm arr, depth, s => do
    match ← indexFromHash A keyHash depth degree with
    | none => .ok (none, .branch bm arr, s)
    | some index => do
      match ← SparseArray.slot A bm index with
      | none => .ok (some false, .branch bm arr, s)
      | some i => do
        let (r, subtree, s) ← removeAtX eq drop key keyHash degree arr i (depth + 1) s
        let subtrees ← SparseArray.writeSlot ⟨bm, arr⟩ i subtree
        match r with
        | none => .ok (none, .branch subtrees.bitmap subtrees.array, s)
        | some removed =>
          match subtree.isEmpty A, removed with
          | .error _, _ => .ok (none, .branch subtrees.bitmap subtrees.array, s)
          | .ok _, false => .ok (some removed, .branch subtrees.bitmap subtrees.array, s)
          | .ok false, true => do
            let n ← compress A (.branch subtrees.bitmap subtrees.array)
            .ok (some removed, n, s)
          | .ok true, true => do
            let subtrees ← subtrees.remove A index
            let n ← compress A (.branch subtrees.bitmap subtrees.array)
            .ok (some removed, n, s)
  | .leaf b, _, s => do
    match ← b.removeX eq drop key keyHash s with
    | (r, none, s) => .ok (r, newEmptyBranch, s)
    | (r, some b, s) => .ok (r, .leaf b, s)
/-- The recursive call on `arr[i]`. -/
def removeAtX (eq : S → K → Q → Option Bool × S) (drop : S → K × V → Option Unit × S) (key : Q) (keyHash : UInt64) (degree : Nat) : List (HNode K V) → (i depth : Nat) → S →
    Res (Option Bool × HNode K V × S)
  | [], _, _, _ => .error .indexOutOfBounds
  | c :: _, 0, depth, s => removeX eq drop key keyHash degree c depth s
  | _ :: cs, i + 1, depth, s => removeAtX eq drop key keyHash degree cs i depth s
end

end HNode

namespace HTMap
variable {S H K V Q : Type} (A : Arch)

/-- `HashTrieMap::insert_mut` (794-801); `size += 1` may overflow. -/
def insertMutX (U : HTUser S H K V Q) (m : HTMap H K V) (key : K) (value : V) (s : S) : Res (Option Unit × HTMap H K V) :=
  match U.hashK s m.hasher key with
  | (none, _) => .ok (none, m)
  | (some kh, s) => do
    match ← m.root.clone.insertX A U.eqK U.drop m.degree insertFuel ⟨key, value, kh⟩ 0 s with
    | (none, root, _) => .ok (none, { m with root })
    | (some false, root, _) => .ok (some (), { m with root })
    | (some true, root, _) =>
      match A.uadd m.size 1 with
      | .error _ => .ok (none, { m with root })
      | .ok size => .ok (some (), { m with root, size })

/-- `HashTrieMap::remove_mut` (819-835); `size -= 1` may overflow. -/
def removeMutX (U : HTUser S H K V Q) (m : HTMap H K V) (key : Q) (s : S) : Res (Option Bool × HTMap H K V) :=
  match U.hashQ s m.hasher key with
  | (none, _) => .ok (none, m)
  | (some kh, s) => do
    match ← m.root.clone.removeX A U.eqQ U.drop key kh m.degree 0 s with
    | (none, root, _) => .ok (none, { m with root })
    | (some false, root, _) => .ok (some false, { m with root })
    | (some true, root, _) =>
      match A.usub m.size 1 with
      | .error _ => .ok (none, { m with root })
      | .ok size => .ok (some true, { m with root, size })

/-- `HashTrieMap::get_mut` (900-911) and a write through the reference. -/
def getMutX (U : HTUser S H K V Q) (m : HTMap H K V) (key : Q) (f : V → V) (s : S) : Res (Option (Option V) × HTMap H K V) :=
  match U.hashQ s m.hasher key with
  | (none, _) => .ok (none, m)
  | (some kh, s) => do
    let (r, root, _) ← m.root.clone.getMutX A U.eqQ U.clone key kh m.degree (fun e => e.valueMut f) 0 s
    .ok (r.map fun x => x.map fun e => e.value, { m with root })

/-- `self.root.get(key, hash(key), 0, self.degree)`. -/
def lookupX (U : HTUser S H K V Q) (m : HTMap H K V) (key : Q) (s : S) : Res (Option (Option (HEntry K V))) :=
  match U.hashQ s m.hasher key with
  | (none, _) => .ok none
  | (some kh, s) => do
    let (r, _) ← m.root.getX A U.eqQ key kh m.degree 0 s
    .ok r

/-- An operation on a map, as `stepU`. -/
def stepX (U : HTUser S H K V Q) (s : S) (m : HTMap H K V) : MapOp K V Q → Res (Option (MapRet K V) × Effect (HTMap H K V))
  | .insert k v => do
    match ← m.clone.insertMutX A U k v s with
    | (none, _) => .ok (none, .keep)
    | (some _, m') => .ok (some .unit, .fresh m')
  | .insertMut k v => do
    match ← m.insertMutX A U k v s with
    | (none, m') => .ok (none, .update m')
    | (some _, m') => .ok (some .unit, .update m')
  | .remove q => do
    match ← m.clone.removeMutX A U q s with
    | (none, _) => .ok (none, .keep)
    | (some b, m') => .ok (some .unit, .fresh (if b then m' else m.clone))
  | .removeMut q => do
    match ← m.removeMutX A U q s with
    | (none, m') => .ok (none, .update m')
    | (some b, m') => .ok (some (.bool b), .update m')
  | .getMut q f => do
    match ← m.getMutX A U q f s with
    | (none, m') => .ok (none, .update m')
    | (some x, m') => .ok (some (.optV x), .update m')
  | .clone => .ok (some .unit, .fresh m.clone)
  | .get q => do
    let r ← m.lookupX A U q s
    .ok (r.map fun x => .optV (x.map fun e => e.value), .keep)
  | .getKeyValue q => do
    let r ← m.lookupX A U q s
    .ok (r.map fun x => .optKV (x.map fun e => (e.key, e.value)), .keep)
  | .containsKey q => do
    let r ← m.lookupX A U q s
    .ok (r.map fun x => .bool x.isSome, .keep)
  | .index q => do
    let r ← m.lookupX A U q s
    .ok (r.map fun x => match x with | none => .panicked | some e => .optV (some e.value), .keep)
  | .size => .ok (some (.nat m.getSize), .keep)
  | .isEmpty => .ok (some (.bool m.isEmpty), .keep)

end HTMap

/-! ### No operation fails -/

/-- The length field counts the nodes. -/
def RList.Counted {T : Type} (l : RList T) : Prop := l.head.toList.length = l.length

section lists
variable {S T : Type} {p : T → S → Option Bool × S}

theorem counted_push {l : RList T} (h : l.Counted) (x : T) : (l.pushFrontMut x).Counted := by
  simp only [RList.Counted, RList.pushFrontMut, RList.pushFrontPtrMut, Link.toList, List.length_cons] at h ⊢
  rw [h]

theorem counted_pushAll (xs : List T) : ∀ {l : RList T}, l.Counted → (xs.foldl (fun l e => l.pushFrontMut e) l).Counted := by
  induction xs with
  | nil => intro l h; exact h
  | cons x xs ih => intro l h; exact ih (counted_push h x)

theorem listRemoveLoopU_total (fuel : Nat) : ∀ (l : RList T) (before : List T) (s : S), l.Counted → l.length < fuel →
    ∃ r l' s', listRemoveLoopU p fuel l before s = .ok (r, l', s') ∧ l'.Counted := by
  induction fuel with
  | zero => intro l before s _ h; omega
  | succ fuel ih =>
    rintro ⟨hd, la, len⟩ before s h hf
    simp only [RList.Counted] at h hf
    subst h
    cases hd with
    | none => exact ⟨some (none, before), ⟨.none, la, 0⟩, s, by simp [listRemoveLoopU, RList.isEmpty, RList.len, Link.toList], rfl⟩
    | some x next =>
      have hc : (⟨next, if next.toList.length == 0 then none else la, next.toList.length⟩ : RList T).Counted := rfl
      simp only [listRemoveLoopU, RList.isEmpty, RList.len, RList.first, unwrap_some, Res.ok_bind, RList.dropFirstMut, Link.toList,
        List.length_cons, csub_ok (show 1 ≤ next.toList.length + 1 by omega), Nat.add_sub_cancel]
      have : ((next.toList.length + 1 == 0)) = false := by simp
      simp only [this, Bool.not_false, if_true]
      rcases hp : p x s with ⟨_ | _ | _, s1⟩
      · exact ⟨_, _, _, rfl, hc⟩
      · exact ih _ _ _ hc (by simp only [Link.toList, List.length_cons] at hf; simp only; omega)
      · exact ⟨_, _, _, rfl, hc⟩

theorem listRemoveFirstU_total (l : RList T) (s : S) (h : l.Counted) : ∃ r l' s', listRemoveFirstU p l s = .ok (r, l', s') ∧ l'.Counted := by
  obtain ⟨r, l', s', h1, h2⟩ := listRemoveLoopU_total (p := p) (l.len + 1) l [] s h (by simp [RList.len])
  cases r with
  | none => exact ⟨none, l', s', by simp only [listRemoveFirstU, h1, Res.ok_bind], h2⟩
  | some x =>
    exact ⟨some x.1, x.2.reverse.foldl (fun l e => l.pushFrontMut e) l', s', by simp only [listRemoveFirstU, h1, Res.ok_bind], counted_pushAll _ h2⟩

theorem iterFindU_total (l : RList T) (s : S) (h : l.Counted) :
    ∃ r s', iterFindU ListIter.step p (l.len + 1) l.iter s = .ok (r, s') := by
  have key : ∀ (hd : Link T) (s : S), ∃ r s', iterFindU ListIter.step p (hd.toList.length + 1) ⟨hd, hd.toList.length⟩ s = .ok (r, s') := by
    intro hd
    induction hd with
    | none => intro s; exact ⟨some none, s, by simp [iterFindU, ListIter.step, Link.toList]⟩
    | some x next ih =>
      intro s
      simp only [Link.toList, List.length_cons]
      rw [iterFindU]
      simp only [ListIter.step, csub_ok (show 1 ≤ next.toList.length + 1 by omega), Res.ok_bind, Nat.add_sub_cancel]
      rcases hp : p x s with ⟨_ | _ | _, s1⟩
      · exact ⟨_, _, rfl⟩
      · exact ih s1
      · exact ⟨_, _, rfl⟩
  have := key l.head s
  rw [h] at this
  exact this

end lists

namespace HNode
variable {S H K V Q : Type} {A : Arch} {k : Nat}

mutual
/-- A node at depth `d` that operations accept: a branch at maximum depth is empty, and the lists count their entries. -/
def Sound (A : Arch) (k : Nat) : HNode K V → Nat → Prop
  | .branch bm arr, d => (d * k < 64 ∨ arr = []) ∧ Sounds A k arr (SparseArray.bits A bm) d
  | .leaf (.single _), _ => True
  | .leaf (.collision l), _ => l.Counted
/-- As many children as there are positions. -/
def Sounds (A : Arch) (k : Nat) : List (HNode K V) → List Nat → Nat → Prop
  | [], [], _ => True
  | c :: cs, _ :: is, d => Sound A k c (d + 1) ∧ Sounds A k cs is d
  | _, _, _ => False
end

theorem sounds_iff {d : Nat} (cs : List (HNode K V)) (is : List Nat) :
    Sounds A k cs is d ↔ List.Forall₂ (fun _ c => c.Sound A k (d + 1)) is cs := by
  induction cs generalizing is with
  | nil =>
    cases is with
    | nil => simp [Sounds]
    | cons i is => simp only [Sounds, false_iff]; intro h; cases h
  | cons c cs ih =>
    cases is with
    | nil => simp only [Sounds, false_iff]; intro h; cases h
    | cons i is =>
      simp only [Sounds, ih]
      constructor
      · rintro ⟨h1, h2⟩; exact .cons h1 h2
      · intro h; cases h with
        | cons h1 h2 => exact ⟨h1, h2⟩

theorem sound_branch {d bm : Nat} {arr : List (HNode K V)} :
    (HNode.branch bm arr).Sound A k d ↔ (d * k < 64 ∨ arr = []) ∧ SparseArray.Rel A (fun _ c => c.Sound A k (d + 1)) ⟨bm, arr⟩ := by
  rw [Sound, sounds_iff]; rfl

theorem sound_empty {d : Nat} : (newEmptyBranch : HNode K V).Sound A k d := by
  rw [newEmptyBranch, sound_branch]
  exact ⟨.inr rfl, SparseArray.rel_new⟩

theorem OK.sound {z : Bool} (n : HNode K V) : ∀ {d : Nat}, n.OK A k z d → n.Sound A k d := by
  induction n using HNode.induct with
  | hl b =>
    intro d h
    cases b with
    | single e => trivial
    | collision l => rw [OK] at h; rw [Sound]; exact h.2.1.length.symm
  | hb bm arr ih =>
    intro d h
    rw [ok_branch] at h
    rw [sound_branch]
    refine ⟨.inl h.1, ?_⟩
    have h2 := h.2
    simp only [SparseArray.Rel] at h2 ⊢
    generalize SparseArray.bits A bm = is at h2
    clear h
    induction h2 with
    | nil => exact .nil
    | cons h1 _ ih2 => exact .cons (ih _ (by simp) h1.ok) (ih2 fun c hc => ih c (by simp [hc]))

section buckets
variable {eq : S → K → Q → Option Bool × S} {clone : S → K × V → Option Unit × S} {d : Nat}

theorem bucketGetU_total (key : Q) (kh : UInt64) (b : Bucket K V) (s : S) (h : (HNode.leaf b).Sound A k d) :
    ∃ r s', b.getU eq key kh s = .ok (r, s') := by
  cases b with
  | single e =>
    simp only [Bucket.getU]
    rcases e.matchesU eq key kh s with ⟨_ | _, s1⟩ <;> exact ⟨_, _, rfl⟩
  | collision l => rw [Sound] at h; exact iterFindU_total l s h

theorem bucketGetMutU_total (key : Q) (kh : UInt64) (f : HEntry K V → HEntry K V) (b : Bucket K V) (s : S) (h : (HNode.leaf b).Sound A k d) :
    ∃ r b' s', b.getMutU eq clone key kh f s = .ok (r, b', s') ∧ (HNode.leaf b').Sound A k d := by
  cases b with
  | single e =>
    simp only [Bucket.getMutU]
    rcases e.matchesU eq key kh s with ⟨_ | _ | _, s1⟩
    · exact ⟨_, _, _, rfl, h⟩
    · exact ⟨_, _, _, rfl, h⟩
    · simp only
      rcases clone s1 (e.key, e.value) with ⟨_ | _, s2⟩
      · exact ⟨_, _, _, rfl, h⟩
      · exact ⟨_, .single (f e), _, rfl, by rw [Sound]; trivial⟩
  | collision l =>
    rw [Sound] at h
    obtain ⟨r, l', s', h1, h2⟩ := listRemoveFirstU_total (p := fun e : HEntry K V => e.matchesU eq key kh) l s h
    simp only [Bucket.getMutU, h1, Res.ok_bind]
    rcases r with _ | _ | e
    · exact ⟨_, .collision l', _, rfl, by rw [Sound]; exact h2⟩
    · exact ⟨_, .collision l', _, rfl, by rw [Sound]; exact h2⟩
    · simp only
      have h3 := counted_push h2 e
      rcases clone s' (e.key, e.value) with ⟨_ | _, s2⟩
      · exact ⟨_, .collision (l'.pushFrontMut e), _, rfl, by rw [Sound]; exact h3⟩
      · exact ⟨_, .collision _, _, rfl, by rw [Sound]; exact h3⟩

theorem bucketInsertX_total {eq : S → K → K → Option Bool × S} {drop : S → K × V → Option Unit × S} (e : HEntry K V) (b : Bucket K V) (s : S)
    (h : (HNode.leaf b).Sound A k d) : ∃ r b' s', b.insertX eq drop e s = .ok (r, b', s') ∧ (HNode.leaf b').Sound A k d := by
  cases b with
  | single x =>
    simp only [Bucket.insertX]
    rcases x.matchesU eq e.key e.keyHash s with ⟨_ | _ | _, s1⟩
    · exact ⟨_, _, _, rfl, h⟩
    · exact ⟨_, .collision _, _, rfl, by rw [Sound]; exact counted_push (counted_push (l := RList.new) rfl _) _⟩
    · simp only
      rcases drop s1 (x.key, x.value) with ⟨_ | _, s2⟩
      · exact ⟨_, .single e, _, rfl, by rw [Sound]; trivial⟩
      · exact ⟨_, .single e, _, rfl, by rw [Sound]; trivial⟩
  | collision l =>
    rw [Sound] at h
    obtain ⟨r, l', s', h1, h2⟩ := listRemoveFirstU_total (p := fun x : HEntry K V => x.matchesU eq e.key e.keyHash) l s h
    simp only [Bucket.insertX, h1, Res.ok_bind]
    rcases r with _ | r
    · exact ⟨_, .collision l', _, rfl, by rw [Sound]; exact h2⟩
    · simp only
      rcases dropRemoved drop s' r with ⟨_ | _, s2⟩
      · exact ⟨_, .collision l', _, rfl, by rw [Sound]; exact h2⟩
      · exact ⟨_, .collision _, _, rfl, by rw [Sound]; exact counted_push h2 e⟩

theorem bucketRemoveX_total {drop : S → K × V → Option Unit × S} (key : Q) (kh : UInt64) (b : Bucket K V) (s : S)
    (h : (HNode.leaf b).Sound A k d) :
    ∃ r ob s', b.removeX eq drop key kh s = .ok (r, ob, s') ∧ (ob = none ∨ ∃ b', ob = some b' ∧ (HNode.leaf b').Sound A k d) := by
  cases b with
  | single x =>
    simp only [Bucket.removeX]
    rcases x.matchesU eq key kh s with ⟨_ | _ | _, s1⟩
    · exact ⟨_, _, _, rfl, .inr ⟨_, rfl, h⟩⟩
    · exact ⟨_, _, _, rfl, .inr ⟨_, rfl, h⟩⟩
    · simp only
      rcases drop s1 (x.key, x.value) with ⟨_ | _, s2⟩ <;> exact ⟨_, _, _, rfl, .inl rfl⟩
  | collision l =>
    rw [Sound] at h
    obtain ⟨r, l', s', h1, h2⟩ := listRemoveFirstU_total (p := fun x : HEntry K V => x.matchesU eq key kh) l s h
    have hs : (HNode.leaf (.collision l')).Sound A k d := by rw [Sound]; exact h2
    simp only [Bucket.removeX, h1, Res.ok_bind]
    rcases r with _ | r
    · exact ⟨_, _, _, rfl, .inr ⟨_, rfl, hs⟩⟩
    · simp only
      rcases dropRemoved drop s' r with ⟨_ | _, s2⟩
      · exact ⟨_, _, _, rfl, .inr ⟨_, rfl, hs⟩⟩
      · simp only [RList.len]
        match hl : l'.length with
        | 0 => exact ⟨_, _, _, rfl, .inr ⟨_, rfl, hs⟩⟩
        | 1 =>
          obtain ⟨hd, la, len⟩ := l'
          simp only [RList.Counted] at h2 hl
          cases hd with
          | none => simp only [Link.toList, List.length_nil] at h2; omega
          | some x next =>
            exact ⟨some r.isSome, some (.single x.clone), s2, by simp [RList.first], .inr ⟨_, rfl, by rw [Sound]; trivial⟩⟩
        | n + 2 => exact ⟨_, _, _, rfl, .inr ⟨_, rfl, hs⟩⟩

end buckets

section nodes
variable {eq : S → K → Q → Option Bool × S} {clone : S → K × V → Option Unit × S}

theorem getAtX_eq (key : Q) (kh : UInt64) (deg : Nat) (arr : List (HNode K V)) (i d : Nat) (s : S) :
    getAtX A eq key kh deg arr i d s = (vecIndex arr i >>= fun c => getX A eq key kh deg c d s) := by
  induction arr generalizing i with
  | nil => simp [getAtX, vecIndex]
  | cons c arr ih => cases i <;> simp [getAtX, ih, vecIndex]

theorem getMutAtX_eq (key : Q) (kh : UInt64) (deg : Nat) (f : HEntry K V → HEntry K V) (arr : List (HNode K V)) (i d : Nat) (s : S) :
    getMutAtX A eq clone key kh deg f arr i d s = (vecIndex arr i >>= fun c => getMutX A eq clone key kh deg f c d s) := by
  induction arr generalizing i with
  | nil => simp [getMutAtX, vecIndex]
  | cons c arr ih => cases i <;> simp [getMutAtX, ih, vecIndex]

theorem getX_total (c : HConf A k) (key : Q) (kh : UInt64) (n : HNode K V) : ∀ (d : Nat) (s : S), d ≤ 64 → n.Sound A k d →
    ∃ r s', n.getX A eq key kh (2 ^ k) d s = .ok (r, s') := by
  induction n using HNode.induct with
  | hl b => intro d s _ h; rw [getX]; exact bucketGetU_total key kh b s h
  | hb bm arr ih =>
    intro d s hd h
    rw [sound_branch] at h
    have hi := c.idx_lt d kh
    by_cases hlt : d * k < 64
    · simp only [getX, indexFromHash_eq c.small hd, hlt, if_true, Res.ok_bind, SparseArray.slot_eq hi]
      obtain ⟨los, his, hlo, hhi, ⟨hb, e1⟩ | ⟨a, hb, e1, hca⟩⟩ := h.2.cases hi
      · simp only at hb e1
        rw [hb]; exact ⟨_, _, rfl⟩
      · simp only at hb e1
        subst e1
        rw [hb]
        simp only [if_true]
        rw [getAtX_eq, vecIndex_ok (a := a) (by simp [SparseArray.forall₂_length hlo])]
        exact ih a (by simp) (d + 1) s (depth_succ c hlt) hca
    · simp only [getX, indexFromHash_eq c.small hd, hlt, if_false, Res.ok_bind]
      exact ⟨_, _, rfl⟩

theorem getMutX_total (c : HConf A k) (key : Q) (kh : UInt64) (f : HEntry K V → HEntry K V) (n : HNode K V) : ∀ (d : Nat) (s : S), d ≤ 64 →
    n.Sound A k d → ∃ r n' s', n.getMutX A eq clone key kh (2 ^ k) f d s = .ok (r, n', s') ∧ n'.Sound A k d := by
  induction n using HNode.induct with
  | hl b =>
    intro d s _ h
    obtain ⟨r, b', s', h1, h2⟩ := bucketGetMutU_total (eq := eq) (clone := clone) key kh f b s h
    exact ⟨r, .leaf b', s', by rw [getMutX, h1]; rfl, h2⟩
  | hb bm arr ih =>
    intro d s hd h
    have h' := h
    rw [sound_branch] at h
    have hi := c.idx_lt d kh
    by_cases hlt : d * k < 64
    · simp only [getMutX, indexFromHash_eq c.small hd, hlt, if_true, Res.ok_bind, SparseArray.slot_eq hi]
      obtain ⟨los, his, hlo, hhi, ⟨hb, e1⟩ | ⟨a, hb, e1, hca⟩⟩ := h.2.cases hi
      · simp only at hb e1
        rw [hb]; exact ⟨_, _, _, rfl, h'⟩
      · simp only at hb e1
        subst e1
        rw [hb]
        simp only [if_true]
        obtain ⟨r, a', s', e2, e3⟩ := ih a (by simp) (d + 1) s (depth_succ c hlt) hca
        rw [getMutAtX_eq, vecIndex_ok (a := a) (by simp [SparseArray.forall₂_length hlo])]
        simp only [Res.ok_bind, e2]
        rw [SparseArray.writeSlot_ok (s := ⟨bm, los ++ a :: his⟩) (b := a') hlo rfl]
        exact ⟨_, _, _, rfl, sound_branch.2 ⟨.inl hlt, SparseArray.Rel.put_back hi hb hlo hhi e3⟩⟩
    · simp only [getMutX, indexFromHash_eq c.small hd, hlt, if_false, Res.ok_bind]
      exact ⟨_, _, _, rfl, h'⟩

theorem insertX_total {eq : S → K → K → Option Bool × S} {drop : S → K × V → Option Unit × S} (c : HConf A k) (fuel : Nat) :
    ∀ (e : HEntry K V) (n : HNode K V) (d : Nat) (s : S), d ≤ 64 → n.Sound A k d → need n d ≤ fuel →
    ∃ r n' s', n.insertX A eq drop (2 ^ k) fuel e d s = .ok (r, n', s') ∧ n'.Sound A k d ∧
      (∀ bm arr, n = .branch bm arr → ∃ bm' arr', n' = .branch bm' arr') := by
  induction fuel with
  | zero => intro e n d s _ _ hf; simp only [need] at hf; split at hf <;> omega
  | succ fuel ih =>
    intro e n d s hd hok hf
    cases n with
    | branch bm arr =>
      have hok' := hok
      rw [sound_branch] at hok
      have hi := c.idx_lt d e.keyHash
      by_cases hlt : d * k < 64
      · simp only [insertX, indexFromHash_eq c.small hd, hlt, if_true, Res.ok_bind, SparseArray.slot_eq hi]
        obtain ⟨los, his, hlo, hhi, ⟨hb, e1⟩ | ⟨a, hb, e1, hca⟩⟩ := hok.2.cases hi
        · simp only at hb e1
          subst e1
          rw [hb]
          simp only [Bool.false_eq_true, if_false]
          rw [SparseArray.set_new (b := HNode.leaf (.single e)) hi hb hlo rfl]
          refine ⟨_, _, _, rfl, sound_branch.2 ⟨.inl hlt, ?_⟩, fun _ _ _ => ⟨_, _, rfl⟩⟩
          rw [SparseArray.Rel]; simp only
          rw [SparseArray.bits_or hi]
          exact SparseArray.forall₂_append hlo (.cons (by rw [Sound]; trivial) hhi)
        · simp only at hb e1
          subst e1
          obtain ⟨r, a', s', e2, e3, -⟩ := ih e a (d + 1) s (depth_succ c hlt) hca
            (by simp only [need] at hf ⊢; have := depth_succ c hlt; split <;> omega)
          rw [hb]
          simp only [if_true]
          rw [vecIndex_ok (a := a) (by simp [SparseArray.forall₂_length hlo])]
          simp only [Res.ok_bind, e2]
          rw [SparseArray.writeSlot_ok (s := ⟨bm, los ++ a :: his⟩) (b := a') hlo rfl]
          exact ⟨_, _, _, rfl, sound_branch.2 ⟨.inl hlt, SparseArray.Rel.put_back hi hb hlo hhi e3⟩, fun _ _ _ => ⟨_, _, rfl⟩⟩
      · simp only [insertX, indexFromHash_eq c.small hd, hlt, if_false, Res.ok_bind]
        exact ⟨_, _, _, rfl, hok', fun _ _ _ => ⟨_, _, rfl⟩⟩
    | leaf b =>
      have hnb : ∀ n' : HNode K V, ∀ bm arr, HNode.leaf b = .branch bm arr → ∃ bm' arr', n' = .branch bm' arr' := by
        intro _ _ _ h; cases h
      obtain ⟨r, s1, e1⟩ := bucketGetU_total (eq := eq) e.key e.keyHash b s hok
      have ins : ∀ s, ∃ r n' s', (do let x ← b.insertX eq drop e s; (.ok (x.1, .leaf x.2.1, x.2.2) : Res (Option Bool × HNode K V × S))) =
          .ok (r, n', s') ∧ n'.Sound A k d ∧ (∀ bm arr, HNode.leaf b = .branch bm arr → ∃ bm' arr', n' = .branch bm' arr') := by
        intro s
        obtain ⟨r, b', s', h1, h2⟩ := bucketInsertX_total (eq := eq) (drop := drop) e b s hok
        exact ⟨r, .leaf b', s', by rw [h1]; rfl, h2, hnb _⟩
      simp only [insertX, indexFromHash_eq c.small hd, Res.ok_bind, e1]
      rcases r with _ | r
      · exact ⟨_, _, _, rfl, hok, hnb _⟩
      · simp only
        by_cases hlt : d * k < 64
        · simp only [hlt, if_true, Option.isNone_some, Bool.not_false]
          cases r.isSome with
          | true => exact ins s1
          | false =>
            simp only [Bool.false_eq_true, if_false]
            cases b with
            | collision l => exact ⟨_, _, _, rfl, hok, hnb _⟩
            | single x =>
              simp only
              obtain ⟨r1, n1, s2, g1, g2, g3⟩ := ih x.clone newEmptyBranch d s1 hd sound_empty
                (by simp only [need, newEmptyBranch] at hf ⊢; omega)
              obtain ⟨bm1, arr1, rfl⟩ := g3 _ _ rfl
              simp only [g1, Res.ok_bind]
              rcases r1 with _ | r1
              · exact ⟨_, _, _, rfl, g2, hnb _⟩
              · obtain ⟨r2, n2, s3, k1, k2, -⟩ := ih e (.branch bm1 arr1) d s2 hd g2 (by simp only [need] at hf ⊢; omega)
                simp only [k1, Res.ok_bind]
                rcases r2 with _ | r2
                · exact ⟨_, _, _, rfl, k2, hnb _⟩
                · exact ⟨_, _, _, rfl, k2, hnb _⟩
        · simp only [hlt, if_false, Option.isNone_none, Bool.not_true, Bool.false_eq_true]
          exact ins s1

theorem removeAtX_eq {drop : S → K × V → Option Unit × S} (key : Q) (kh : UInt64) (deg : Nat) (arr : List (HNode K V)) (i d : Nat) (s : S) :
    removeAtX A eq drop key kh deg arr i d s = (vecIndex arr i >>= fun c => removeX A eq drop key kh deg c d s) := by
  induction arr generalizing i with
  | nil => simp [removeAtX, vecIndex]
  | cons c arr ih => cases i <;> simp [removeAtX, ih, vecIndex]

theorem compress_total {bm d : Nat} {arr : List (HNode K V)} (h : (HNode.branch bm arr).Sound A k d) :
    ∃ n', compress A (.branch bm arr) = .ok n' ∧ n'.Sound A k d := by
  have h' := h
  rw [sound_branch] at h
  have hs := h.2.size
  simp only [compress, hs]
  match arr, h, h', hs with
  | [], h, h', hs => exact ⟨_, rfl, h'⟩
  | [ch], h, h', hs =>
    simp only [List.length_cons, List.length_nil, SparseArray.first, List.head?_cons, unwrap_some, Res.ok_bind]
    cases ch with
    | branch bm' arr' => exact ⟨_, rfl, h'⟩
    | leaf b =>
      cases b with
      | single e => exact ⟨.leaf (.single e), by simp [SparseArray.pop], by rw [Sound]; trivial⟩
      | collision l => exact ⟨_, rfl, h'⟩
  | c1 :: c2 :: rest, h, h', hs => exact ⟨_, rfl, h'⟩

theorem removeX_total {drop : S → K × V → Option Unit × S} (c : HConf A k) (key : Q) (kh : UInt64) (n : HNode K V) :
    ∀ (d : Nat) (s : S), d ≤ 64 → n.Sound A k d → ∃ r n' s', n.removeX A eq drop key kh (2 ^ k) d s = .ok (r, n', s') ∧ n'.Sound A k d := by
  induction n using HNode.induct with
  | hl b =>
    intro d s _ h
    obtain ⟨r, ob, s', h1, h2⟩ := bucketRemoveX_total (eq := eq) (drop := drop) key kh b s h
    rw [removeX, h1]
    rcases h2 with rfl | ⟨b', rfl, h2⟩
    · exact ⟨_, _, _, rfl, sound_empty⟩
    · exact ⟨_, _, _, rfl, h2⟩
  | hb bm arr ih =>
    intro d s hd h
    have h' := h
    rw [sound_branch] at h
    have hi := c.idx_lt d kh
    by_cases hlt : d * k < 64
    · simp only [removeX, indexFromHash_eq c.small hd, hlt, if_true, Res.ok_bind, SparseArray.slot_eq hi]
      obtain ⟨los, his, hlo, hhi, ⟨hb, e1⟩ | ⟨a, hb, e1, hca⟩⟩ := h.2.cases hi
      · simp only at hb e1
        rw [hb]; exact ⟨_, _, _, rfl, h'⟩
      · simp only at hb e1
        subst e1
        rw [hb]
        simp only [if_true]
        obtain ⟨r, a', s', e2, e3⟩ := ih a (by simp) (d + 1) s (depth_succ c hlt) hca
        rw [removeAtX_eq, vecIndex_ok (a := a) (by simp [SparseArray.forall₂_length hlo])]
        simp only [Res.ok_bind, e2]
        rw [SparseArray.writeSlot_ok (s := ⟨bm, los ++ a :: his⟩) (b := a') hlo rfl]
        simp only [Res.ok_bind]
        have hp : (HNode.branch bm (los ++ a' :: his)).Sound A k d :=
          sound_branch.2 ⟨.inl hlt, SparseArray.Rel.put_back hi hb hlo hhi e3⟩
        rcases r with _ | _ | _
        · exact ⟨_, _, _, rfl, hp⟩
        · simp only
          rcases a'.isEmpty A with _ | b
          · exact ⟨_, _, _, rfl, hp⟩
          · exact ⟨_, _, _, rfl, hp⟩
        · simp only
          rcases a'.isEmpty A with _ | _ | _
          · exact ⟨_, _, _, rfl, hp⟩
          · obtain ⟨n', g1, g2⟩ := compress_total hp
            exact ⟨some true, n', s', by simp only [g1, Res.ok_bind], g2⟩
          · simp only
            rw [SparseArray.remove_old (s := ⟨bm, los ++ a' :: his⟩) (a := a') hi hb hlo rfl]
            have hs : (HNode.branch (bm ^^^ 2 ^ idx k d kh) (los ++ his)).Sound A k d := by
              refine sound_branch.2 ⟨.inl hlt, ?_⟩
              rw [SparseArray.Rel]; simp only
              rw [SparseArray.bits_xor hi hb]
              exact SparseArray.forall₂_append hlo hhi
            obtain ⟨n', g1, g2⟩ := compress_total hs
            exact ⟨some true, n', s', by simp only [Res.ok_bind, g1], g2⟩
    · simp only [removeX, indexFromHash_eq c.small hd, hlt, if_false, Res.ok_bind]
      exact ⟨_, _, _, rfl, h'⟩

end nodes
end HNode

namespace HTMap
variable {S H K V Q : Type} {A : Arch}

/-- A map that operations accept. -/
def Sound (A : Arch) (m : HTMap H K V) : Prop := ∃ k, HConf A k ∧ m.degree = 2 ^ k ∧ m.root.Sound A k 0

theorem insertMutX_total (U : HTUser S H K V Q) {m : HTMap H K V} (h : m.Sound A) (key : K) (value : V) (s : S) :
    ∃ r m', m.insertMutX A U key value s = .ok (r, m') ∧ m'.Sound A := by
  obtain ⟨k, c, hk, hr⟩ := h
  simp only [insertMutX]
  rcases U.hashK s m.hasher key with ⟨_ | kh, s1⟩
  · exact ⟨_, _, rfl, k, c, hk, hr⟩
  · obtain ⟨r, n', s', h1, h2, -⟩ := HNode.insertX_total (eq := U.eqK) (drop := U.drop) c insertFuel ⟨key, value, kh⟩ m.root 0 s1 (by omega) hr
      (by simp only [HNode.need, insertFuel]; split <;> omega)
    rw [← hk] at h1
    simp only [HNode.clone_eq, h1, Res.ok_bind]
    rcases r with _ | _ | _
    · exact ⟨_, _, rfl, k, c, hk, h2⟩
    · exact ⟨_, _, rfl, k, c, hk, h2⟩
    · rcases A.uadd m.size 1 with _ | _
      · exact ⟨_, _, rfl, k, c, hk, h2⟩
      · exact ⟨_, _, rfl, k, c, hk, h2⟩

theorem removeMutX_total (U : HTUser S H K V Q) {m : HTMap H K V} (h : m.Sound A) (key : Q) (s : S) :
    ∃ r m', m.removeMutX A U key s = .ok (r, m') ∧ m'.Sound A := by
  obtain ⟨k, c, hk, hr⟩ := h
  simp only [removeMutX]
  rcases U.hashQ s m.hasher key with ⟨_ | kh, s1⟩
  · exact ⟨_, _, rfl, k, c, hk, hr⟩
  · obtain ⟨r, n', s', h1, h3⟩ := HNode.removeX_total (eq := U.eqQ) (drop := U.drop) c key kh m.root 0 s1 (by omega) hr
    rw [← hk] at h1
    simp only [HNode.clone_eq, h1, Res.ok_bind]
    rcases r with _ | _ | _
    · exact ⟨_, _, rfl, k, c, hk, h3⟩
    · exact ⟨_, _, rfl, k, c, hk, h3⟩
    · rcases A.usub m.size 1 with _ | _
      · exact ⟨_, _, rfl, k, c, hk, h3⟩
      · exact ⟨_, _, rfl, k, c, hk, h3⟩

theorem getMutX_total (U : HTUser S H K V Q) {m : HTMap H K V} (h : m.Sound A) (key : Q) (f : V → V) (s : S) :
    ∃ r m', m.getMutX A U key f s = .ok (r, m') ∧ m'.Sound A := by
  obtain ⟨k, c, hk, hr⟩ := h
  simp only [getMutX]
  rcases U.hashQ s m.hasher key with ⟨_ | kh, s1⟩
  · exact ⟨_, _, rfl, k, c, hk, hr⟩
  · obtain ⟨r, n', s', h1, h2⟩ := HNode.getMutX_total (eq := U.eqQ) (clone := U.clone) c key kh (fun e => e.valueMut f) m.root 0 s1 (by omega) hr
    rw [← hk] at h1
    simp only [HNode.clone_eq, h1, Res.ok_bind]
    exact ⟨_, _, rfl, k, c, hk, h2⟩

theorem lookupX_total (U : HTUser S H K V Q) {m : HTMap H K V} (h : m.Sound A) (key : Q) (s : S) : ∃ r, m.lookupX A U key s = .ok r := by
  obtain ⟨k, c, hk, hr⟩ := h
  simp only [lookupX]
  rcases U.hashQ s m.hasher key with ⟨_ | kh, s1⟩
  · exact ⟨_, rfl⟩
  · obtain ⟨r, s', h1⟩ := HNode.getX_total (eq := U.eqQ) c key kh m.root 0 s1 (by omega) hr
    rw [← hk] at h1
    simp only [h1, Res.ok_bind]
    exact ⟨_, rfl⟩

/-- The maps that an operation may leave or make. -/
def Keeps (P : HTMap H K V → Prop) : Effect (HTMap H K V) → Prop
  | .keep => True
  | .update m => P m
  | .fresh m => P m

theorem stepX_total (U : HTUser S H K V Q) {m : HTMap H K V} (h : m.Sound A) (s : S) (op : MapOp K V Q) :
    ∃ r e, m.stepX A U s op = .ok (r, e) ∧ Keeps (Sound A) e := by
  have look : ∀ (q : Q) (g : Option (HEntry K V) → MapRet K V), ∃ r e, (do
      let r ← m.lookupX A U q s
      (.ok (r.map g, .keep) : Res (Option (MapRet K V) × Effect (HTMap H K V)))) = .ok (r, e) ∧ Keeps (Sound A) e := by
    intro q g
    obtain ⟨r, h1⟩ := lookupX_total U h q s
    exact ⟨r.map g, .keep, by rw [h1]; rfl, trivial⟩
  cases op with
  | insert k v =>
    obtain ⟨r, m', h1, h2⟩ := insertMutX_total U (m := m.clone) h k v s
    simp only [stepX, h1, Res.ok_bind]
    rcases r with _ | _
    · exact ⟨_, _, rfl, trivial⟩
    · exact ⟨_, _, rfl, h2⟩
  | insertMut k v =>
    obtain ⟨r, m', h1, h2⟩ := insertMutX_total U h k v s
    simp only [stepX, h1, Res.ok_bind]
    rcases r with _ | _
    · exact ⟨_, _, rfl, h2⟩
    · exact ⟨_, _, rfl, h2⟩
  | remove q =>
    obtain ⟨r, m', h1, h2⟩ := removeMutX_total U (m := m.clone) h q s
    simp only [stepX, h1, Res.ok_bind]
    rcases r with _ | _ | _
    · exact ⟨_, _, rfl, trivial⟩
    · exact ⟨_, _, rfl, h⟩
    · exact ⟨_, _, rfl, h2⟩
  | removeMut q =>
    obtain ⟨r, m', h1, h2⟩ := removeMutX_total U h q s
    simp only [stepX, h1, Res.ok_bind]
    rcases r with _ | _
    · exact ⟨_, _, rfl, h2⟩
    · exact ⟨_, _, rfl, h2⟩
  | getMut q f =>
    obtain ⟨r, m', h1, h2⟩ := getMutX_total U h q f s
    simp only [stepX, h1, Res.ok_bind]
    rcases r with _ | _
    · exact ⟨_, _, rfl, h2⟩
    · exact ⟨_, _, rfl, h2⟩
  | clone => exact ⟨_, _, rfl, h⟩
  | get q => exact look q _
  | getKeyValue q => exact look q _
  | containsKey q => exact look q _
  | index q => exact look q _
  | size => exact ⟨_, _, rfl, trivial⟩
  | isEmpty => exact ⟨_, _, rfl, trivial⟩

theorem empty_sound {hasher : H} {k : Nat} (c : HConf A k) : (⟨.newEmptyBranch, 0, 2 ^ k, hasher⟩ : HTMap H K V).Sound A :=
  ⟨k, c, rfl, HNode.sound_empty⟩

end HTMap

/-! ### The same as before as long as the library does not panic -/

section agree
variable {S H K V Q : Type} {A : Arch}

variable {drop : S → K × V → Option Unit × S}

theorem dropRemoved_quiet (hd : ∀ s x, drop s x = (some (), s)) (s : S) (x : Option (HEntry K V)) : dropRemoved drop s x = (some (), s) := by
  cases x with
  | none => rfl
  | some e => exact hd _ _

theorem Bucket.insertX_quiet {eq : S → K → K → Option Bool × S} (hd : ∀ s x, drop s x = (some (), s)) (e : HEntry K V) (s : S) (b : Bucket K V) :
    b.insertX eq drop e s = b.insertU eq e s := by
  cases b <;> simp only [Bucket.insertX, Bucket.insertU, hd, dropRemoved_quiet hd] <;> rfl

theorem Bucket.removeX_of_ok (hd : ∀ s x, drop s x = (some (), s)) {eq : S → K → Q → Option Bool × S} {key : Q} {kh : UInt64} {s : S} {b : Bucket K V}
    {x : Option Bool × Option (Bucket K V) × S} (h : b.removeU eq key kh s = .ok x) : b.removeX eq drop key kh s = .ok x := by
  cases b with
  | single e => simp only [Bucket.removeX, hd]; exact h
  | collision l =>
    simp only [Bucket.removeU] at h
    simp only [Bucket.removeX]
    cases hl : listRemoveFirstU (fun e => e.matchesU eq key kh) l s with
    | error e => rw [hl] at h; cases h
    | ok y =>
      obtain ⟨r, l', s'⟩ := y
      simp only [hl, Res.ok_bind] at h ⊢
      cases r with
      | none => exact h
      | some r =>
        simp only [dropRemoved_quiet hd] at h ⊢
        match hn : l'.len with
        | 0 => rw [hn] at h; cases h
        | 1 => rw [hn] at h; exact h
        | n + 2 => rw [hn] at h; exact h

theorem HNode.removeX_of_ok (hd : ∀ s x, drop s x = (some (), s)) {eq : S → K → Q → Option Bool × S} {key : Q} {kh : UInt64} {deg : Nat} (n : HNode K V) : ∀ {d : Nat} {s : S}
    {x : Option Bool × HNode K V × S}, n.removeU A eq key kh deg d s = .ok x → n.removeX A eq drop key kh deg d s = .ok x := by
  induction n using HNode.induct with
  | hl b =>
    intro d s x h
    rw [removeU] at h
    cases hb : b.removeU eq key kh s with
    | error e => rw [hb] at h; cases h
    | ok y =>
      rw [hb] at h
      rw [removeX, Bucket.removeX_of_ok hd hb]
      exact h
  | hb bm arr ih =>
    intro d s x h
    rw [removeU] at h
    rw [removeX]
    cases h1 : indexFromHash A kh d deg with
    | error e => rw [h1] at h; cases h
    | ok oi =>
      cases oi with
      | none => rw [h1] at h; cases h
      | some i =>
        simp only [h1, Res.ok_bind, unwrap_some] at h ⊢
        cases h2 : SparseArray.slot A bm i with
        | error e => rw [h2] at h; cases h
        | ok oj =>
          simp only [h2, Res.ok_bind] at h ⊢
          cases oj with
          | none => exact h
          | some j =>
            simp only [removeAtU_eq, removeAtX_eq] at h ⊢
            cases h3 : vecIndex arr j with
            | error e => rw [h3] at h; cases h
            | ok c =>
              simp only [h3, Res.ok_bind] at h ⊢
              cases h4 : c.removeU A eq key kh deg (d + 1) s with
              | error e => rw [h4] at h; cases h
              | ok y =>
                obtain ⟨r, c', s'⟩ := y
                rw [ih c (vecIndex_mem h3) h4]
                simp only [h4, Res.ok_bind] at h ⊢
                cases h5 : SparseArray.writeSlot ⟨bm, arr⟩ j c' with
                | error e => rw [h5] at h; cases h
                | ok t =>
                  simp only [h5, Res.ok_bind] at h ⊢
                  cases r with
                  | none => exact h
                  | some r =>
                    simp only at h ⊢
                    cases h6 : c'.isEmpty A with
                    | error e => rw [h6] at h; cases h
                    | ok b =>
                      simp only [h6, Res.ok_bind] at h ⊢
                      cases b <;> cases r <;> exact h

theorem HNode.insertX_of_ok (hd : ∀ s x, drop s x = (some (), s)) {eq : S → K → K → Option Bool × S} {deg : Nat} (fuel : Nat) : ∀ {e : HEntry K V} {n : HNode K V} {d : Nat} {s : S}
    {x : Option Bool × HNode K V × S}, n.insertU A eq deg fuel e d s = .ok x → n.insertX A eq drop deg fuel e d s = .ok x := by
  induction fuel with
  | zero => intro e n d s x h; cases n <;> cases h
  | succ fuel ih =>
    intro e n d s x h
    cases n with
    | branch bm arr =>
      rw [insertU] at h
      rw [insertX]
      cases h1 : indexFromHash A e.keyHash d deg with
      | error e => rw [h1] at h; cases h
      | ok oi =>
        cases oi with
        | none => rw [h1] at h; cases h
        | some i =>
          simp only [h1, Res.ok_bind, unwrap_some] at h ⊢
          cases h2 : SparseArray.slot A bm i with
          | error e => rw [h2] at h; cases h
          | ok oj =>
            simp only [h2, Res.ok_bind] at h ⊢
            cases oj with
            | none => exact h
            | some j =>
              simp only at h ⊢
              cases h3 : vecIndex arr j with
              | error e => rw [h3] at h; cases h
              | ok c =>
                simp only [h3, Res.ok_bind] at h ⊢
                cases h4 : c.insertU A eq deg fuel e (d + 1) s with
                | error e => rw [h4] at h; cases h
                | ok y =>
                  rw [ih h4]
                  rw [h4] at h
                  exact h
    | leaf b =>
      rw [insertU] at h
      rw [insertX]
      cases h1 : indexFromHash A e.keyHash d deg with
      | error e => rw [h1] at h; cases h
      | ok oi =>
        simp only [h1, Res.ok_bind] at h ⊢
        cases h2 : b.getU eq e.key e.keyHash s with
        | error e => rw [h2] at h; cases h
        | ok y =>
          obtain ⟨r, s'⟩ := y
          simp only [h2, Res.ok_bind] at h ⊢
          cases r with
          | none => exact h
          | some r =>
            simp only at h ⊢
            simp only [Bucket.insertX_quiet hd]
            cases hm : oi.isNone with
            | true => rw [hm] at h; exact h
            | false =>
              simp only [hm, Bool.not_false, if_true] at h ⊢
              cases hr : r.isSome with
              | true => rw [hr] at h; exact h
              | false =>
                simp only [hr, Bool.false_eq_true, if_false] at h ⊢
                cases b with
                | collision l => cases h
                | single y =>
                  simp only at h ⊢
                  cases h3 : (newEmptyBranch : HNode K V).insertU A eq deg fuel y.clone d s' with
                  | error e => rw [h3] at h; cases h
                  | ok z =>
                    rw [ih h3]
                    obtain ⟨r1, n1, s1⟩ := z
                    simp only [h3, Res.ok_bind] at h ⊢
                    cases r1 with
                    | none => exact h
                    | some _ =>
                      simp only at h ⊢
                      cases h4 : n1.insertU A eq deg fuel e d s1 with
                      | error e => rw [h4] at h; cases h
                      | ok z =>
                        rw [ih h4]
                        rw [h4] at h
                        exact h

theorem HNode.getX_of_ok {eq : S → K → Q → Option Bool × S} {key : Q} {kh : UInt64} {deg : Nat} (n : HNode K V) : ∀ {d : Nat} {s : S}
    {x : Option (Option (HEntry K V)) × S}, n.getU A eq key kh deg d s = .ok x → n.getX A eq key kh deg d s = .ok x := by
  induction n using HNode.induct with
  | hl b => intro d s x h; rw [getU] at h; rw [getX]; exact h
  | hb bm arr ih =>
    intro d s x h
    rw [getU] at h
    rw [getX]
    cases h1 : indexFromHash A kh d deg with
    | error e => rw [h1] at h; cases h
    | ok oi =>
      cases oi with
      | none => rw [h1] at h; cases h
      | some i =>
        simp only [h1, Res.ok_bind, unwrap_some] at h ⊢
        cases h2 : SparseArray.slot A bm i with
        | error e => rw [h2] at h; cases h
        | ok oj =>
          simp only [h2, Res.ok_bind] at h ⊢
          cases oj with
          | none => exact h
          | some j =>
            simp only [getAtU_eq, getAtX_eq] at h ⊢
            cases h3 : vecIndex arr j with
            | error e => rw [h3] at h; cases h
            | ok c =>
              simp only [h3, Res.ok_bind] at h ⊢
              exact ih c (vecIndex_mem h3) h

theorem HNode.getMutX_of_ok {eq : S → K → Q → Option Bool × S} {clone : S → K × V → Option Unit × S} {key : Q} {kh : UInt64} {deg : Nat}
    {f : HEntry K V → HEntry K V} (n : HNode K V) : ∀ {d : Nat} {s : S} {x : Option (Option (HEntry K V)) × HNode K V × S},
    n.getMutU A eq clone key kh deg f d s = .ok x → n.getMutX A eq clone key kh deg f d s = .ok x := by
  induction n using HNode.induct with
  | hl b => intro d s x h; rw [getMutU] at h; rw [getMutX]; exact h
  | hb bm arr ih =>
    intro d s x h
    rw [getMutU] at h
    rw [getMutX]
    cases h1 : indexFromHash A kh d deg with
    | error e => rw [h1] at h; cases h
    | ok oi =>
      cases oi with
      | none => rw [h1] at h; cases h
      | some i =>
        simp only [h1, Res.ok_bind, unwrap_some] at h ⊢
        cases h2 : SparseArray.slot A bm i with
        | error e => rw [h2] at h; cases h
        | ok oj =>
          simp only [h2, Res.ok_bind] at h ⊢
          cases oj with
          | none => exact h
          | some j =>
            simp only [getMutAtU_eq, getMutAtX_eq] at h ⊢
            cases h3 : vecIndex arr j with
            | error e => rw [h3] at h; cases h
            | ok c =>
              simp only [h3, Res.ok_bind] at h ⊢
              cases h4 : c.getMutU A eq clone key kh deg f (d + 1) s with
              | error e => rw [h4] at h; cases h
              | ok y =>
                rw [ih c (vecIndex_mem h3) h4]
                rw [h4] at h
                exact h

theorem HTMap.lookupX_of_ok {U : HTUser S H K V Q} {m : HTMap H K V} {key : Q} {s : S} {x : Option (Option (HEntry K V))}
    (h : m.lookupU A U key s = .ok x) : m.lookupX A U key s = .ok x := by
  simp only [lookupU] at h
  simp only [lookupX]
  rcases hu : U.hashQ s m.hasher key with ⟨_ | kh, s1⟩ <;> rw [hu] at h
  · exact h
  · simp only at h ⊢
    cases h1 : m.root.getU A U.eqQ key kh m.degree 0 s1 with
    | error e => rw [h1] at h; cases h
    | ok y => rw [HNode.getX_of_ok _ h1]; rw [h1] at h; exact h

theorem HTMap.getMutX_of_ok {U : HTUser S H K V Q} {m : HTMap H K V} {key : Q} {f : V → V} {s : S} {x : Option (Option V) × HTMap H K V}
    (h : m.getMutU A U key f s = .ok x) : m.getMutX A U key f s = .ok x := by
  simp only [getMutU] at h
  simp only [getMutX]
  rcases hu : U.hashQ s m.hasher key with ⟨_ | kh, s1⟩ <;> rw [hu] at h
  · exact h
  · simp only at h ⊢
    cases h1 : m.root.clone.getMutU A U.eqQ U.clone key kh m.degree (fun e => e.valueMut f) 0 s1 with
    | error e => rw [h1] at h; cases h
    | ok y => rw [HNode.getMutX_of_ok _ h1]; rw [h1] at h; exact h

theorem HTMap.insertMutX_of_ok {U : HTUser S H K V Q} {m : HTMap H K V} {key : K} {value : V} {s : S} {x : Option Unit × HTMap H K V}
    (hd : ∀ s x, U.drop s x = (some (), s)) (hs : m.size + 1 < 2 ^ A.W) (h : m.insertMutU A U key value s = .ok x) : m.insertMutX A U key value s = .ok x := by
  simp only [insertMutU] at h
  simp only [insertMutX]
  rcases hu : U.hashK s m.hasher key with ⟨_ | kh, s1⟩ <;> rw [hu] at h
  · exact h
  · simp only at h ⊢
    cases h1 : m.root.clone.insertU A U.eqK m.degree insertFuel ⟨key, value, kh⟩ 0 s1 with
    | error e => rw [h1] at h; cases h
    | ok y =>
      rw [HNode.insertX_of_ok hd _ h1]
      obtain ⟨r, n, s2⟩ := y
      simp only [h1, Res.ok_bind] at h ⊢
      rcases r with _ | _ | _
      · exact h
      · exact h
      · rw [show A.uadd m.size 1 = .ok (m.size + 1) by simp [Arch.uadd, hs]]
        exact h

theorem HTMap.removeMutX_of_ok {U : HTUser S H K V Q} {m : HTMap H K V} {key : Q} {s : S} {x : Option Bool × HTMap H K V}
    (hd : ∀ s x, U.drop s x = (some (), s)) (h : m.removeMutU A U key s = .ok x) : m.removeMutX A U key s = .ok x := by
  simp only [removeMutU] at h
  simp only [removeMutX]
  rcases hu : U.hashQ s m.hasher key with ⟨_ | kh, s1⟩ <;> rw [hu] at h
  · exact h
  · simp only at h ⊢
    cases h1 : m.root.clone.removeU A U.eqQ key kh m.degree 0 s1 with
    | error e => rw [h1] at h; cases h
    | ok y =>
      rw [HNode.removeX_of_ok hd _ h1]
      obtain ⟨r, n, s2⟩ := y
      simp only [h1, Res.ok_bind] at h ⊢
      rcases r with _ | _ | _
      · exact h
      · exact h
      · simp only at h ⊢
        by_cases hs : 1 ≤ m.size
        · rw [csub_ok hs] at h
          rw [show A.usub m.size 1 = .ok (m.size - 1) by simp [Arch.usub, hs]]
          exact h
        · simp only [csub, hs, if_false] at h
          cases h

/-- An operation that does not fail in `stepU` does the same here. -/
theorem HTMap.stepX_of_ok {U : HTUser S H K V Q} {m : HTMap H K V} {s : S} {op : MapOp K V Q}
    {x : Option (MapRet K V) × Effect (HTMap H K V)} (hd : ∀ s x, U.drop s x = (some (), s)) (hs : m.size + 1 < 2 ^ A.W)
    (h : m.stepU A U s op = .ok x) : m.stepX A U s op = .ok x := by
  have look : ∀ (q : Q) {g : Option (Option (HEntry K V)) → Option (MapRet K V) × Effect (HTMap H K V)} {x},
      (m.lookupU A U q s >>= fun r => .ok (g r)) = .ok x → (m.lookupX A U q s >>= fun r => .ok (g r)) = .ok x := by
    intro q g x h
    cases h1 : m.lookupU A U q s with
    | error e => rw [h1] at h; cases h
    | ok y => rw [lookupX_of_ok h1]; rw [h1] at h; exact h
  cases op with
  | insert k v =>
    simp only [stepU] at h
    simp only [stepX]
    cases h1 : m.clone.insertMutU A U k v s with
    | error e => rw [h1] at h; cases h
    | ok y => rw [insertMutX_of_ok (m := m.clone) hd hs h1]; rw [h1] at h; exact h
  | insertMut k v =>
    simp only [stepU] at h
    simp only [stepX]
    cases h1 : m.insertMutU A U k v s with
    | error e => rw [h1] at h; cases h
    | ok y => rw [insertMutX_of_ok hd hs h1]; rw [h1] at h; exact h
  | remove q =>
    simp only [stepU] at h
    simp only [stepX]
    cases h1 : m.clone.removeMutU A U q s with
    | error e => rw [h1] at h; cases h
    | ok y => rw [removeMutX_of_ok hd h1]; rw [h1] at h; exact h
  | removeMut q =>
    simp only [stepU] at h
    simp only [stepX]
    cases h1 : m.removeMutU A U q s with
    | error e => rw [h1] at h; cases h
    | ok y => rw [removeMutX_of_ok hd h1]; rw [h1] at h; exact h
  | getMut q f =>
    simp only [stepU] at h
    simp only [stepX]
    cases h1 : m.getMutU A U q f s with
    | error e => rw [h1] at h; cases h
    | ok y => rw [getMutX_of_ok h1]; rw [h1] at h; exact h
  | get q => exact look q h
  | getKeyValue q => exact look q h
  | containsKey q => exact look q h
  | index q => exact look q h
  | clone => exact h
  | size => exact h
  | isEmpty => exact h

end agree
end Rpds
