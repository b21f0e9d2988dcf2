import Verif.Basic
/-
The auto traits `Send` and `Sync` of the types of the library.

A type is given by what it holds.  `Option`, `Vec`, `SmallVec`, `PhantomData`, `iter::Once` and `iter::Map` with a function pointer have exactly
the traits of what they hold, and are left out; so are slices, and `slice::Iter` is a reference to the items.
-/
set_option autoImplicit false
namespace Rpds
namespace Traits

inductive Trait where
  | send
  | sync
  deriving DecidableEq, Repr

/-- Types.  All pointers are of the same kind, as in every type of the library. -/
inductive Ty where
  /-- Integers, booleans, `()`, `Color`, `RangeFull` and function pointers. -/
  | plain
  /-- A type of the user, and which traits it has. -/
  | user (send sync : Bool)
  /-- `&'a T` -/
  | ref (t : Ty)
  /-- `SharedPointer<T, P>` -/
  | ptr (t : Ty)
  /-- `list::Node<T, P>` (list/mod.rs:117-124) -/
  | listNode (t : Ty)
  /-- `List<T, P>` (list/mod.rs:107-115) -/
  | list (t : Ty)
  /-- `list::IterPtr<'a, T, P>` (list/mod.rs:423-430) -/
  | listIter (t : Ty)
  /-- `Stack<T, P>` (stack/mod.rs:90-96); its iterator is the one of the list -/
  | stack (t : Ty)
  /-- `Queue<T, P>` (queue/mod.rs:96-103) -/
  | queue (t : Ty)
  /-- `LazilyReversedListIter<'a, T, P>` (queue/mod.rs:298-304) -/
  | lazyIter (t : Ty)
  /-- `queue::IterPtr<'a, T, P>`, a `Chain` (queue/mod.rs:11-12) -/
  | queueIter (t : Ty)
  /-- `vector::Node<T, P>` (vector/mod.rs:106-113) -/
  | vecNode (t : Ty)
  /-- `Vector<T, P>` (vector/mod.rs:94-102) -/
  | vector (t : Ty)
  /-- `vector::IterStackElement<'a, T, P>` (vector/mod.rs:662-668) -/
  | vecStack (t : Ty)
  /-- `vector::IterPtr<'a, T, P>` (vector/mod.rs:649-660) -/
  | vecIter (t : Ty)
  /-- `Entry<K, V>` (map/entry.rs:2-5) -/
  | entry (k v : Ty)
  /-- `EntryWithHash<K, V, P>` (hash_trie_map/mod.rs:201-208) -/
  | hashEntry (k v : Ty)
  /-- `Bucket<K, V, P>` (hash_trie_map/mod.rs:192-199) -/
  | hashBucket (k v : Ty)
  /-- `hash_trie_map::Node<K, V, P>` (hash_trie_map/mod.rs:183-190), with the `SparseArrayUsize` in it (sparse_array_usize/mod.rs:8-11) -/
  | hashNode (k v : Ty)
  /-- `HashTrieMap<K, V, P, H>` (hash_trie_map/mod.rs:116-125) -/
  | hashMap (k v h : Ty)
  /-- `hash_trie_map::IterStackElement<'a, K, V, P>` (hash_trie_map/mod.rs:1050-1058) -/
  | hashStack (k v : Ty)
  /-- `hash_trie_map::IterPtr<'a, K, V, P>` (hash_trie_map/mod.rs:1041-1048) -/
  | hashIter (k v : Ty)
  /-- `HashTrieSet<T, P, H>` (hash_trie_set/mod.rs:92-100) -/
  | hashSet (t h : Ty)
  /-- `ParallelIter<'a, K, V, H>` (hash_trie_map/rayon.rs:11-17) -/
  | parIter (k v h : Ty)
  /-- `HashTrieMapProducer<'a, K, V>` with `ProducerNode` (hash_trie_map/rayon.rs:61-71) -/
  | producer (k v : Ty)
  /-- `red_black_tree_map::Node<K, V, P>` (red_black_tree_map/mod.rs:119-128) -/
  | rbNode (k v : Ty)
  /-- `RedBlackTreeMap<K, V, P>` (red_black_tree_map/mod.rs:102-109) -/
  | rbMap (k v : Ty)
  /-- `IterStack<'a, K, V, P>` (red_black_tree_map/mod.rs:1145-1156) -/
  | rbStack (k v : Ty)
  /-- `RangeIterPtr<'a, K, V, RB, Q, P>` (red_black_tree_map/mod.rs:1366-1379) -/
  | rbRange (k v rb q : Ty)
  /-- `red_black_tree_map::IterPtr<'a, K, V, P>` (red_black_tree_map/mod.rs:1307-1316) -/
  | rbIter (k v : Ty)
  /-- `RedBlackTreeSet<T, P>` (red_black_tree_set/mod.rs:93-100) -/
  | rbSet (t : Ty)
  deriving DecidableEq, Repr

/-- What a type of the library holds: its fields, or those of all its variants. -/
def Ty.fields : Ty → List Ty
  | .listNode t => [.ptr t, .ptr (.listNode t)]
  | .list t => [.ptr (.listNode t), .ptr t, .plain]
  | .listIter t => [.ref (.listNode t), .plain]
  | .stack t => [.list t]
  | .queue t => [.list t, .list t]
  | .lazyIter t => [.ref (.list t), .ref (.ptr t), .plain]
  | .queueIter t => [.listIter t, .lazyIter t]
  | .vecNode t => [.ptr (.vecNode t), .ptr t]
  | .vector t => [.ptr (.vecNode t), .plain, .plain]
  | .vecStack t => [.ref (.vecNode t), .plain]
  | .vecIter t => [.ref (.vector t), .vecStack t, .vecStack t, .plain, .plain]
  | .entry k v => [k, v]
  | .hashEntry k v => [.ptr (.entry k v), .plain]
  | .hashBucket k v => [.hashEntry k v, .list (.hashEntry k v)]
  | .hashNode k v => [.plain, .ptr (.hashNode k v), .hashBucket k v]
  | .hashMap k v h => [.ptr (.hashNode k v), .plain, .plain, h]
  | .hashStack k v => [.ref (.ptr (.hashNode k v)), .listIter (.hashEntry k v), .ref (.ptr (.entry k v))]
  | .hashIter k v => [.hashStack k v, .plain]
  | .hashSet t h => [.hashMap t .plain h]
  | .parIter k v h => [.ref (.hashMap k v h)]
  | .producer k v => [.ref (.ptr (.hashNode k v)), .ref (.hashBucket k v)]
  | .rbNode k v => [.ptr (.entry k v), .plain, .ptr (.rbNode k v), .ptr (.rbNode k v)]
  | .rbMap k v => [.ptr (.rbNode k v), .plain]
  | .rbStack k v => [.ref (.rbNode k v), .plain]
  | .rbRange k v rb q => [.ref (.rbMap k v), .rbStack k v, .rbStack k v, rb, q]
  | .rbIter k v => [.rbRange k v .plain k, .plain]
  | .rbSet t => [.rbMap t .plain]
  | .plain | .user _ _ | .ref _ | .ptr _ => []

/-- A kind of shared pointer, given by what its `Send` and `Sync` need of the type pointed to (`none`: it never has the trait). -/
structure Kind where
  needs : Trait → Option (List Trait)

/-- `ArcTK`, like `std::sync::Arc`: both traits need both. -/
def arc : Kind := ⟨fun _ => some [.send, .sync]⟩

/-- `RcK`, like `std::rc::Rc`: never. -/
def rc : Kind := ⟨fun _ => none⟩

/-- What a trait of a type needs: `&T` has each of them just if `T` is `Sync`, a type of the library has it if all that it holds has it. -/
def Ty.needs (P : Kind) (tr : Trait) : Ty → Option (List (Trait × Ty))
  | .user send sync => if (match tr with | .send => send | .sync => sync) then some [] else none
  | .ref t => some [(.sync, t)]
  | .ptr t => (P.needs tr).map fun l => l.map fun tr' => (tr', t)
  | t => some (t.fields.map fun x => (tr, x))

/-- Everything that is needed for what is claimed is claimed as well. -/
def Consistent (P : Kind) (S : Trait → Ty → Prop) : Prop :=
  ∀ tr t, S tr t → ∃ l, t.needs P tr = some l ∧ ∀ x ∈ l, S x.1 x.2

/-- The type has the auto trait.  The rules for auto traits are read coinductively, as the compiler does: the trait is there unless the
search for what is needed finds something that is not. -/
def Has (P : Kind) (tr : Trait) (t : Ty) : Prop := ∃ S, Consistent P S ∧ S tr t

/-! ### Proofs about `Has` -/

section
variable {P : Kind} {tr : Trait}

theorem has_iff {t : Ty} : Has P tr t ↔ ∃ l, t.needs P tr = some l ∧ ∀ x ∈ l, Has P x.1 x.2 := by
  constructor
  · rintro ⟨S, hS, h⟩
    obtain ⟨l, h1, h2⟩ := hS tr t h
    exact ⟨l, h1, fun x hx => ⟨S, hS, h2 x hx⟩⟩
  · rintro ⟨l, h1, h2⟩
    refine ⟨fun tr' t' => (tr' = tr ∧ t' = t) ∨ Has P tr' t', ?_, .inl ⟨rfl, rfl⟩⟩
    rintro tr' t' (⟨rfl, rfl⟩ | ⟨S, hS, h⟩)
    · exact ⟨l, h1, fun x hx => .inr (h2 x hx)⟩
    · obtain ⟨l, h1, h2⟩ := hS tr' t' h
      exact ⟨l, h1, fun x hx => .inr ⟨S, hS, h2 x hx⟩⟩

/-- A family of types that need only each other, and what is known. -/
theorem has_of_family (S : Trait → Ty → Prop)
    (hS : ∀ tr t, S tr t → ∃ l, t.needs P tr = some l ∧ ∀ x ∈ l, S x.1 x.2 ∨ Has P x.1 x.2) {t : Ty} (h : S tr t) : Has P tr t := by
  refine ⟨fun tr' t' => S tr' t' ∨ Has P tr' t', ?_, .inl h⟩
  rintro tr' t' (h | ⟨S', hS', h⟩)
  · exact hS tr' t' h
  · obtain ⟨l, h1, h2⟩ := hS' tr' t' h
    exact ⟨l, h1, fun x hx => .inr ⟨S', hS', h2 x hx⟩⟩

theorem has_some {t : Ty} {l : List (Trait × Ty)} (h : t.needs P tr = some l) : Has P tr t ↔ ∀ x ∈ l, Has P x.1 x.2 := by
  rw [has_iff]
  simp [h]

@[simp] theorem has_plain : Has P tr .plain := (has_some (l := []) rfl).2 (by simp)

theorem has_user {send sync : Bool} : Has P tr (.user send sync) ↔ (match tr with | .send => send | .sync => sync) = true := by
  rw [has_iff]
  cases tr <;> cases send <;> cases sync <;> simp [Ty.needs]

theorem has_ref {t : Ty} : Has P tr (.ref t) ↔ Has P .sync t := by
  rw [has_some (l := [(.sync, t)]) rfl]
  simp

end
end Traits
end Rpds
