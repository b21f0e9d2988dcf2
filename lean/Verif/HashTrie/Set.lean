import Verif.HashTrie.Map
import Verif.Spec.Set
/-
Model of `rpds::HashTrieSet` (/repo/src/set/hash_trie_set/mod.rs) and its refinement of finite sets.
-/
set_option autoImplicit false
namespace Rpds
open Spec

/-- `struct HashTrieSet` (hash_trie_set/mod.rs:93-100). -/
structure HTSet (H T : Type) where
  map : HTMap H T Unit

namespace HTSet
section model
variable {H H' T Q Q' : Type} (A : Arch) (o : HashKeys H T Q)

/-- `new_with_hasher_with_ptr_kind`, `new`, `new_sync`, `default` (hash_trie_set/mod.rs:145-147, 109-113, 126-130, 268-270). -/
def new (hasher : H) : Res (HTSet H T) := do
  let map ← HTMap.new A hasher
  pure { map }

/-- `new_with_hasher_and_degree_and_ptr_kind`, `new_with_degree`, `new_with_degree_sync` (hash_trie_set/mod.rs:150-157, 116-118,
133-135). -/
def newWithDegree (hasher : H) (degree : Nat) : Res (HTSet H T) := do
  let map ← HTMap.newWithDegree A hasher degree
  pure { map }

/-- `insert` (hash_trie_set/mod.rs:160-162). -/
def insert (s : HTSet H T) (v : T) : Res (HTSet H T) := do
  let map ← s.map.insert A o v ()
  pure { map }

/-- `insert_mut` (hash_trie_set/mod.rs:164-166). -/
def insertMut (s : HTSet H T) (v : T) : Res (HTSet H T) := do
  let map ← s.map.insertMut A o v ()
  pure { map }

/-- `remove` (hash_trie_set/mod.rs:169-175). -/
def remove (s : HTSet H T) (v : Q) : Res (HTSet H T) := do
  let map ← s.map.remove A o v
  pure { map }

/-- `remove_mut` (hash_trie_set/mod.rs:177-183). -/
def removeMut (s : HTSet H T) (v : Q) : Res (Bool × HTSet H T) := do
  let (b, map) ← s.map.removeMut A o v
  pure (b, { map })

/-- `get` (hash_trie_set/mod.rs:186-192). -/
def get (s : HTSet H T) (v : Q) : Res (Option T) := do
  let r ← s.map.getKeyValue A o v
  pure (r.map fun kv => kv.1)

/-- `contains` (hash_trie_set/mod.rs:195-201). -/
def contains (s : HTSet H T) (v : Q) : Res Bool := s.map.containsKey A o v

/-- `size` (hash_trie_set/mod.rs:235-237). -/
def size (s : HTSet H T) : Nat := s.map.getSize

/-- `is_empty` (hash_trie_set/mod.rs:241-243). -/
def isEmpty (s : HTSet H T) : Bool := s.size == 0

/-- `iter` (hash_trie_set/mod.rs:246-248). -/
def iter (s : HTSet H T) : HIter T Unit := s.map.iter

/-- `Iterator::next` of the iterator (hash_trie_set/mod.rs:12): the keys of the map. -/
def iterNext : HIter T Unit → Res (Option T × HIter T Unit) := HTMap.keysNext

/-- `is_disjoint` (hash_trie_set/mod.rs:204-206); the other set may have another hasher type. -/
def isDisjoint (o' : HashKeys H' T Q') (s : HTSet H T) (other : HTSet H' T) : Res Bool :=
  iterAll iterNext (fun v => do
    let b ← other.contains A o'.self v
    pure (!b)) (s.map.size + 1) s.iter

/-- `is_subset` (hash_trie_set/mod.rs:220-226); `samePtr` is the answer of `ptr_eq`. -/
def isSubset (o' : HashKeys H' T Q') (samePtr : Bool) (s : HTSet H T) (other : HTSet H' T) : Res Bool :=
  if samePtr then pure true
  else if s.size ≤ other.size then iterAll iterNext (fun v => other.contains A o'.self v) (s.map.size + 1) s.iter
  else pure false

/-- `is_superset` (hash_trie_set/mod.rs:229-231). -/
def isSuperset (samePtr : Bool) (s : HTSet H T) (other : HTSet H' T) : Res Bool := other.isSubset A o samePtr s

/-- `clone` (hash_trie_set/mod.rs:257-259). -/
def clone (s : HTSet H T) : HTSet H T := { map := s.map.clone }

/-- `PartialEq` (hash_trie_set/mod.rs:280-282); `()` values are always equal. -/
def eq (samePtr : Bool) (a b : HTSet H T) : Res Bool := a.map.eq A o (fun _ _ => true) samePtr b.map

/-- `Display` (hash_trie_set/mod.rs:299-313). -/
def display (fmt : T → String) (s : HTSet H T) : Res String := do
  let out ← iterDisplay iterNext fmt (s.map.size + 1) s.iter true "{"
  pure (out ++ "}")

/-- The loop of `from_iter` (hash_trie_set/mod.rs:339-341) and of `ht_set!` (27-38, 54-65). -/
def insertAll (s : HTSet H T) : List T → Res (HTSet H T)
  | [] => pure s
  | v :: vs => do
    let s ← s.insertMut A o v
    s.insertAll vs

/-- `FromIterator` (hash_trie_set/mod.rs:336-344), `ht_set!`, `ht_set_sync!` (27-38, 54-65). -/
def fromIter (hasher : H) (vs : List T) : Res (HTSet H T) := do
  let s ← new A hasher
  s.insertAll A o vs

/-- `Serialize` (hash_trie_set/mod.rs:361-363): `collect_seq` emits the items of the iterator. -/
def serialize (s : HTSet H T) : Res (List T) := drain iterNext (s.map.size + 1) s.iter

/-- The loop of `visit_seq` (hash_trie_set/mod.rs:407-409); the input is the sequence of results of `next_element()`. -/
def visitLoop {E : Type} (s : HTSet H T) : List (Except E T) → Res (Except E (HTSet H T))
  | [] => pure (.ok s)
  | .error e :: _ => pure (.error e)
  | .ok v :: input => do
    let s ← s.insertMut A o v
    s.visitLoop input

/-- `Deserialize` (hash_trie_set/mod.rs:372-380, 401-412). -/
def deserialize {E : Type} (hasher : H) (input : List (Except E T)) : Res (Except E (HTSet H T)) := do
  let s ← new A hasher
  s.visitLoop A o input

/-- Runs one operation on one version. -/
def step (s : HTSet H T) : SetOp T Q → Res (SetRet T × Effect (HTSet H T))
  | .insert v => do
    let s' ← s.insert A o v
    pure (.unit, .fresh s')
  | .insertMut v => do
    let s' ← s.insertMut A o v
    pure (.unit, .update s')
  | .remove q => do
    let s' ← s.remove A o q
    pure (.unit, .fresh s')
  | .removeMut q => do
    let (b, s') ← s.removeMut A o q
    pure (.bool b, .update s')
  | .clone => pure (.unit, .fresh s.clone)
  | .get q => do
    let r ← s.get A o q
    pure (.opt r, .keep)
  | .contains q => do
    let b ← s.contains A o q
    pure (.bool b, .keep)
  | .size => pure (.nat s.size, .keep)
  | .isEmpty => pure (.bool s.isEmpty, .keep)

end model

variable {H H' T Q Q' : Type} {A : Arch} {o : HashKeys H T Q} {o' : HashKeys H' T Q'} {k k' : Nat}

/-- The set `s` represents the finite set `l`. -/
def Rep (A : Arch) (o : HashKeys H T Q) (k : Nat) (s : HTSet H T) (l : List T) : Prop := s.map.Rep A o k (unitPairs l)

variable {s : HTSet H T} {l : List T} {s' : HTSet H' T} {l' : List T}

theorem Rep.distinct (r : s.Rep A o k l) : l.Pairwise fun a b => o.eqK a b = false := unitPairs_distinct.1 (HTMap.Rep.distinct r)

theorem Rep.size_eq (r : s.Rep A o k l) : s.map.size = l.length := by
  have := HTMap.Rep.size r
  simpa [unitPairs] using this

/-- The elements in iteration order. -/
def items (s : HTSet H T) : List T := s.map.root.entries.map fun e => e.key

theorem Rep.items_perm (r : s.Rep A o k l) : s.items.Perm l := by
  have := (HTMap.Rep.perm r).map (·.1)
  simpa [items, unitPairs, Function.comp_def, HTMap.pair] using this

theorem Rep.drives (r : s.Rep A o k l) : Drives iterNext s.iter s.items := (HTMap.Rep.iter r).drives fun e => e.key

theorem Rep.items_length (r : s.Rep A o k l) : s.items.length = s.map.size := by rw [r.items_perm.length_eq, r.size_eq]

theorem Rep.contains (r : s.Rep A o k l) (lo : o.Lawful) (q : Q) : s.contains A o q = .ok (setGet o.eqKQ l q).isSome := by
  rw [HTSet.contains, HTMap.Rep.containsKey r lo, unitPairs_get]; simp

theorem Rep.insertMut (r : s.Rep A o k l) (lo : o.Lawful) (v : T) :
    ∃ s₂, s.insertMut A o v = .ok s₂ ∧ s₂.Rep A o k (setInsert o.eqK l v) ∧ s₂.map.hasher = s.map.hasher := by
  obtain ⟨m, h1, h2, h3, _⟩ := HTMap.Rep.insertMut r lo v ()
  rw [unitPairs_insert] at h2
  exact ⟨⟨m⟩, by simp [HTSet.insertMut, h1], h2, h3⟩

theorem Rep.insert (r : s.Rep A o k l) (lo : o.Lawful) (v : T) :
    ∃ s₂, s.insert A o v = .ok s₂ ∧ s₂.Rep A o k (setInsert o.eqK l v) ∧ s₂.map.hasher = s.map.hasher := by
  obtain ⟨m, h1, h2, h3⟩ := HTMap.Rep.insert r lo v ()
  rw [unitPairs_insert] at h2
  exact ⟨⟨m⟩, by simp [HTSet.insert, h1], h2, h3⟩

theorem Rep.removeMut (r : s.Rep A o k l) (lo : o.Lawful) (q : Q) :
    ∃ s₂, s.removeMut A o q = .ok ((setGet o.eqKQ l q).isSome, s₂) ∧ s₂.Rep A o k (setRemove o.eqKQ l q) ∧
      (setGet o.eqKQ l q = none → s₂ = s) := by
  obtain ⟨m, h1, h2, _, h4⟩ := HTMap.Rep.removeMut r lo q
  rw [unitPairs_remove] at h2
  rw [unitPairs_get] at h1 h4
  refine ⟨⟨m⟩, by simp [HTSet.removeMut, h1], h2, fun h => ?_⟩
  rw [h4 (by simp [h])]

theorem Rep.remove (r : s.Rep A o k l) (lo : o.Lawful) (q : Q) :
    ∃ s₂, s.remove A o q = .ok s₂ ∧ s₂.Rep A o k (setRemove o.eqKQ l q) ∧ (setGet o.eqKQ l q = none → s₂ = s) := by
  obtain ⟨m, h1, h2, _, h4⟩ := HTMap.Rep.remove r lo q
  rw [unitPairs_remove] at h2
  rw [unitPairs_get] at h4
  refine ⟨⟨m⟩, by simp [HTSet.remove, h1], h2, fun h => ?_⟩
  rw [h4 (by simp [h])]

theorem Rep.get (r : s.Rep A o k l) (lo : o.Lawful) (q : Q) : s.get A o q = .ok (setGet o.eqKQ l q) := by
  rw [HTSet.get, HTMap.Rep.getKeyValue r lo, unitPairs_get]
  cases setGet o.eqKQ l q <;> rfl

theorem Rep.step (r : s.Rep A o k l) (lo : o.Lawful) (op : SetOp T Q) :
    ∃ e, s.step A o op = .ok ((setStep o.eqK o.eqKQ l op).1, e) ∧
      Effect.Rel (fun s l => s.Rep A o k l) e (setStep o.eqK o.eqKQ l op).2 := by
  cases op with
  | insert v =>
    obtain ⟨s₂, h1, h2, _⟩ := r.insert lo v
    exact ⟨.fresh s₂, by simp [HTSet.step, h1, setStep], .fresh h2⟩
  | insertMut v =>
    obtain ⟨s₂, h1, h2, _⟩ := r.insertMut lo v
    exact ⟨.update s₂, by simp [HTSet.step, h1, setStep], .update h2⟩
  | remove q =>
    obtain ⟨s₂, h1, h2, _⟩ := r.remove lo q
    exact ⟨.fresh s₂, by simp [HTSet.step, h1, setStep], .fresh h2⟩
  | removeMut q =>
    obtain ⟨s₂, h1, h2, _⟩ := r.removeMut lo q
    exact ⟨.update s₂, by simp [HTSet.step, h1, setStep], .update h2⟩
  | clone => exact ⟨.fresh s, by simp [HTSet.step, setStep, HTSet.clone, HTMap.clone], .fresh r⟩
  | get q => exact ⟨.keep, by simp [HTSet.step, r.get lo, setStep], .keep⟩
  | contains q => exact ⟨.keep, by simp [HTSet.step, r.contains lo, setStep], .keep⟩
  | size => exact ⟨.keep, by simp [HTSet.step, HTSet.size, HTMap.getSize, r.size_eq, setStep], .keep⟩
  | isEmpty =>
    exact ⟨.keep, by cases l <;> simp [HTSet.step, HTSet.isEmpty, HTSet.size, HTMap.getSize, r.size_eq, setStep], .keep⟩

theorem Rep.isDisjoint (r : s.Rep A o k l) (r' : s'.Rep A o' k' l') (lo : o.Lawful) (lo' : o'.Lawful) (he : o'.eqK = o.eqK) :
    ∃ b, s.isDisjoint A o' s' = .ok b ∧ (b = true ↔ Disjoint o.eqK l l') := by
  refine ⟨_, r.drives.iterAll (q := fun v => !(setGet o.eqK l' v).isSome) ?_ (by rw [r.items_length]; omega), ?_⟩
  · intro v _
    rw [Rep.contains (o := o'.self) (HTMap.Rep.self r') lo'.self]
    rw [show o'.self.eqKQ = o.eqK from he]
    rfl
  · rw [disjoint_iff lo.equivK, List.all_eq_true]
    simp only [Bool.not_eq_true', ← Bool.not_eq_true, setGet_isSome]
    exact forall_congr' fun x => by rw [r.items_perm.mem_iff]

theorem Rep.isSubset (r : s.Rep A o k l) (r' : s'.Rep A o' k' l') (lo : o.Lawful) (lo' : o'.Lawful) (he : o'.eqK = o.eqK) :
    ∃ b, s.isSubset A o' false s' = .ok b ∧ (b = true ↔ Subset o.eqK l l') := by
  have hd' : l'.Pairwise fun a b => o.eqK a b = false := by have := r'.distinct; rw [he] at this; exact this
  simp only [HTSet.isSubset, HTSet.size, HTMap.getSize, r.size_eq, r'.size_eq, Bool.false_eq_true, if_false]
  by_cases hl : l.length ≤ l'.length
  · refine ⟨_, by
      rw [if_pos hl]
      exact r.drives.iterAll (q := fun v => (setGet o.eqK l' v).isSome) (by
        intro v _
        rw [Rep.contains (o := o'.self) (HTMap.Rep.self r') lo'.self]
        rw [show o'.self.eqKQ = o.eqK from he]) (by rw [r.items_length, r.size_eq]; omega), ?_⟩
    rw [subset_iff lo.equivK, List.all_eq_true]
    simp only [setGet_isSome]
    exact forall_congr' fun x => by rw [r.items_perm.mem_iff]
  · refine ⟨false, by simp [hl], ?_⟩
    simp only [Bool.false_eq_true, false_iff]
    intro h
    exact hl (h.length_le lo.equivK r.distinct hd')

theorem Rep.eq {s₂ : HTSet H T} {l₂ : List T} (r : s.Rep A o k l) (r' : s₂.Rep A o k' l₂) (lo : o.Lawful) :
    ∃ b, s.eq A o false s₂ = .ok b ∧ (b = true ↔ SameElems o.eqK l l₂) := by
  obtain ⟨b, h1, h2⟩ := HTMap.Rep.eq r r' lo (fun _ _ => true)
  exact ⟨b, h1, by rw [h2, mapEq_unit]⟩

theorem new_rep (hA : HTMap.StdWord A) (hasher : H) : ∃ k, ∃ s : HTSet H T, new A hasher = .ok s ∧ s.Rep A o k [] := by
  obtain ⟨k, m, h1, h2, _⟩ := HTMap.new_rep (K := T) (V := Unit) (o := o) hA hasher
  exact ⟨k, ⟨m⟩, by simp [new, h1], h2⟩

theorem newWithDegree_rep {hasher : H} {d : Nat} (h : newWithDegree A hasher d = .ok s) (h2 : 2 ≤ d) : ∃ k, s.Rep A o k [] := by
  simp only [newWithDegree] at h
  cases hm : HTMap.newWithDegree (K := T) (V := Unit) A hasher d with
  | error e => rw [hm] at h; simp at h
  | ok m =>
    rw [hm] at h
    cases h
    exact HTMap.newWithDegree_rep hm h2

theorem Rep.insertAll (r : s.Rep A o k l) (lo : o.Lawful) (vs : List T) :
    ∃ s₂, s.insertAll A o vs = .ok s₂ ∧ s₂.Rep A o k (vs.foldl (setInsert o.eqK) l) := by
  induction vs generalizing s l with
  | nil => exact ⟨s, rfl, r⟩
  | cons v vs ih =>
    obtain ⟨s1, h1, h2, _⟩ := r.insertMut lo v
    obtain ⟨s2, g1, g2⟩ := ih h2
    exact ⟨s2, by simp [HTSet.insertAll, h1, g1], g2⟩

theorem fromIter_rep (hA : HTMap.StdWord A) (lo : o.Lawful) (hasher : H) (vs : List T) :
    ∃ k, ∃ s : HTSet H T, fromIter A o hasher vs = .ok s ∧ s.Rep A o k (vs.foldl (setInsert o.eqK) []) := by
  obtain ⟨k, s, h1, h2⟩ := new_rep (T := T) (o := o) hA hasher
  obtain ⟨s', g1, g2⟩ := h2.insertAll lo vs
  exact ⟨k, s', by simp [fromIter, h1, g1], g2⟩

theorem Rep.visitLoop {E : Type} (r : s.Rep A o k l) (lo : o.Lawful) (input : List (Except E T)) :
    match collectExcept input with
    | .ok vs => ∃ s₂, s.visitLoop A o input = .ok (.ok s₂) ∧ s.insertAll A o vs = .ok s₂
    | .error e => s.visitLoop A o input = .ok (.error e) := by
  induction input generalizing s l with
  | nil => exact ⟨s, rfl, rfl⟩
  | cons x input ih =>
    cases x with
    | error e => simp [HTSet.visitLoop, collectExcept]
    | ok v =>
      obtain ⟨s1, h1, h2, _⟩ := r.insertMut lo v
      have := ih h2
      simp only [collectExcept]
      cases hm : collectExcept input with
      | error e =>
        rw [hm] at this
        simp only at this
        simp [HTSet.visitLoop, h1, this]
      | ok vs =>
        rw [hm] at this
        obtain ⟨s', g1, g2⟩ := this
        exact ⟨s', by simp [HTSet.visitLoop, h1, g1], by simp [HTSet.insertAll, h1, g2]⟩

theorem Rep.serialize (r : s.Rep A o k l) : s.serialize = .ok s.items :=
  r.drives.drain (by rw [r.items_length]; omega)

theorem Rep.display (r : s.Rep A o k l) (fmt : T → String) : s.display fmt = .ok (bracketed "{" "}" (s.items.map fmt)) := by
  simp only [HTSet.display]
  rw [r.drives.iterDisplay _ (by rw [r.items_length]; omega)]
  rfl

/-! ### Reachable sets -/

/-- The ways of creating a set without another set. -/
inductive Init (A : Arch) (o : HashKeys H T Q) : HTSet H T → Prop where
  | newWithDegree {hasher : H} {degree : Nat} {s : HTSet H T} : 2 ≤ degree → newWithDegree A hasher degree = .ok s → Init A o s
  | new {hasher : H} {s : HTSet H T} : new A hasher = .ok s → Init A o s
  | fromIter {hasher : H} {vs : List T} {s : HTSet H T} : fromIter A o hasher vs = .ok s → Init A o s
  | deserialize {E : Type} {hasher : H} {input : List (Except E T)} {s : HTSet H T} :
      deserialize A o hasher input = .ok (.ok s) → Init A o s

/-- All sets a program can obtain. -/
abbrev Reach (A : Arch) (o : HashKeys H T Q) (s : HTSet H T) : Prop := Reachable (Init A o) (HTSet.step A o) s

theorem Init.rep (hA : HTMap.StdWord A) (lo : o.Lawful) (h : Init A o s) : ∃ l k, s.Rep A o k l := by
  cases h with
  | newWithDegree h2 h => exact ⟨_, newWithDegree_rep h h2⟩
  | @new hasher _ h =>
    obtain ⟨k, s', h1, h2⟩ := new_rep (T := T) (o := o) hA hasher
    rw [h] at h1; cases h1; exact ⟨_, k, h2⟩
  | @fromIter hasher vs _ h =>
    obtain ⟨k, s', h1, h2⟩ := fromIter_rep (o := o) hA lo hasher vs
    rw [h] at h1; cases h1; exact ⟨_, k, h2⟩
  | @deserialize E hasher input _ h =>
    obtain ⟨k, s', h1, h2⟩ := new_rep (T := T) (o := o) hA hasher
    have h3 := h2.visitLoop lo input
    simp only [HTSet.deserialize, h1, Res.ok_bind] at h
    split at h3
    · obtain ⟨s'', g1, g2⟩ := h3
      rw [g1] at h; cases h
      rename_i vs _
      obtain ⟨s3, e1, e2⟩ := h2.insertAll lo vs
      rw [e1] at g2; cases g2
      exact ⟨_, k, e2⟩
    · rw [h3] at h; cases h

theorem Reach.rep (hA : HTMap.StdWord A) (lo : o.Lawful) (h : Reach A o s) : ∃ l k, s.Rep A o k l :=
  Reachable.rep (R := fun s l => ∃ k, s.Rep A o k l) (fun _ h => h.rep hA lo) (fun _ _ op ⟨k, h⟩ => by
    obtain ⟨e, h1, h2⟩ := h.step lo op
    exact ⟨e, h1, h2.imp fun _ _ h => ⟨k, h⟩⟩) h

end HTSet
end Rpds
