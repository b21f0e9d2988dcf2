import Verif.Traits.Model
/-
Property C77: which collections can be sent to other threads, and shared with them.
-/
set_option autoImplicit false
namespace Rpds
namespace Props
open Traits

/-- `T: Send + Sync`. -/
def Both (P : Kind) (t : Ty) : Prop := Has P .send t ∧ Has P .sync t

theorem both_iff {P : Kind} {t : Ty} {p : Prop} (h : ∀ tr, Has P tr t ↔ p) : Both P t ↔ p := by
  simp only [Both, h, and_self]

theorem has_arc {tr : Trait} {t : Ty} : Has arc tr (.ptr t) ↔ Both arc t := by
  rw [has_some (l := [(.send, t), (.sync, t)]) rfl]
  simp [Both]

theorem not_has_rc {tr : Trait} {t : Ty} : ¬ Has rc tr (.ptr t) := by
  rw [has_iff]
  rintro ⟨l, h, -⟩
  cases h

section
variable {tr : Trait} {t k v h rb q : Ty}

/-! Node types: the recursive ones. -/

theorem has_listNode : Has arc tr (.listNode t) ↔ Both arc t := by
  constructor
  · rw [has_some (l := [(tr, .ptr t), (tr, .ptr (.listNode t))]) rfl]
    intro h
    exact has_arc.1 (h (tr, .ptr t) (by simp))
  · intro h
    refine has_of_family (fun _ t' => t' = .listNode t ∨ t' = .ptr (.listNode t)) ?_ (.inl rfl)
    rintro tr t' (rfl | rfl)
    · exact ⟨_, rfl, by simp [has_arc, h, Ty.fields]⟩
    · exact ⟨_, rfl, by simp⟩

theorem has_vecNode : Has arc tr (.vecNode t) ↔ Both arc t := by
  constructor
  · rw [has_some (l := [(tr, .ptr (.vecNode t)), (tr, .ptr t)]) rfl]
    intro h
    exact has_arc.1 (h (tr, .ptr t) (by simp))
  · intro h
    refine has_of_family (fun _ t' => t' = .vecNode t ∨ t' = .ptr (.vecNode t)) ?_ (.inl rfl)
    rintro tr t' (rfl | rfl)
    · exact ⟨_, rfl, by simp [has_arc, h, Ty.fields]⟩
    · exact ⟨_, rfl, by simp⟩

theorem has_entry {P : Kind} : Has P tr (.entry k v) ↔ Has P tr k ∧ Has P tr v := by
  rw [has_some (l := [(tr, k), (tr, v)]) rfl]
  simp

theorem both_entry {P : Kind} : Both P (.entry k v) ↔ Both P k ∧ Both P v := by
  simp only [Both, has_entry]
  exact ⟨fun ⟨⟨a, b⟩, c, d⟩ => ⟨⟨a, c⟩, b, d⟩, fun ⟨⟨a, c⟩, b, d⟩ => ⟨⟨a, b⟩, c, d⟩⟩

theorem has_rbNode : Has arc tr (.rbNode k v) ↔ Both arc k ∧ Both arc v := by
  rw [← both_entry]
  constructor
  · rw [has_some (l := [(tr, .ptr (.entry k v)), (tr, .plain), (tr, .ptr (.rbNode k v)), (tr, .ptr (.rbNode k v))]) rfl]
    intro h
    exact has_arc.1 (h (tr, .ptr (.entry k v)) (by simp))
  · intro h
    refine has_of_family (fun _ t' => t' = .rbNode k v ∨ t' = .ptr (.rbNode k v)) ?_ (.inl rfl)
    rintro tr t' (rfl | rfl)
    · exact ⟨_, rfl, by simp [has_arc, h, Ty.fields]⟩
    · exact ⟨_, rfl, by simp⟩

theorem has_list : Has arc tr (.list t) ↔ Both arc t := by
  rw [has_some (l := [(tr, .ptr (.listNode t)), (tr, .ptr t), (tr, .plain)]) rfl]
  simp [has_arc, both_iff fun _ => has_listNode]

theorem has_hashEntry : Has arc tr (.hashEntry k v) ↔ Both arc k ∧ Both arc v := by
  rw [has_some (l := [(tr, .ptr (.entry k v)), (tr, .plain)]) rfl]
  simp [has_arc, both_entry]

theorem has_hashBucket : Has arc tr (.hashBucket k v) ↔ Both arc k ∧ Both arc v := by
  rw [has_some (l := [(tr, .hashEntry k v), (tr, .list (.hashEntry k v))]) rfl]
  simp [has_list, has_hashEntry, both_iff fun _ => has_hashEntry]

theorem has_hashNode : Has arc tr (.hashNode k v) ↔ Both arc k ∧ Both arc v := by
  constructor
  · rw [has_some (l := [(tr, .plain), (tr, .ptr (.hashNode k v)), (tr, .hashBucket k v)]) rfl]
    intro h
    exact has_hashBucket.1 (h (tr, .hashBucket k v) (by simp))
  · intro h
    refine has_of_family (fun _ t' => t' = .hashNode k v ∨ t' = .ptr (.hashNode k v)) ?_ (.inl rfl)
    rintro tr t' (rfl | rfl)
    · exact ⟨_, rfl, by simp [has_hashBucket, h, Ty.fields]⟩
    · exact ⟨_, rfl, by simp⟩

theorem has_vector : Has arc tr (.vector t) ↔ Both arc t := by
  rw [has_some (l := [(tr, .ptr (.vecNode t)), (tr, .plain), (tr, .plain)]) rfl]
  simp [has_arc, both_iff fun _ => has_vecNode]

theorem has_hashMap : Has arc tr (.hashMap k v h) ↔ Both arc k ∧ Both arc v ∧ Has arc tr h := by
  rw [has_some (l := [(tr, .ptr (.hashNode k v)), (tr, .plain), (tr, .plain), (tr, h)]) rfl]
  simp [has_arc, both_iff fun _ => has_hashNode, and_assoc]

theorem has_rbMap : Has arc tr (.rbMap k v) ↔ Both arc k ∧ Both arc v := by
  rw [has_some (l := [(tr, .ptr (.rbNode k v)), (tr, .plain)]) rfl]
  simp [has_arc, both_iff fun _ => has_rbNode]

theorem both_plain {P : Kind} : Both P .plain := ⟨has_plain, has_plain⟩

/-- C77 for the collections with `ArcTK` (the `Sync` variants), of any types: each is `Send` just if it is `Sync`, namely if what it holds is
both; a hasher is not shared, so it needs only the trait in question. -/
theorem C77_collections (tr : Trait) (t k v h : Ty) :
    (Has arc tr (.list t) ↔ Both arc t) ∧ (Has arc tr (.stack t) ↔ Both arc t) ∧ (Has arc tr (.queue t) ↔ Both arc t) ∧
    (Has arc tr (.vector t) ↔ Both arc t) ∧
    (Has arc tr (.rbMap k v) ↔ Both arc k ∧ Both arc v) ∧ (Has arc tr (.rbSet t) ↔ Both arc t) ∧
    (Has arc tr (.hashMap k v h) ↔ Both arc k ∧ Both arc v ∧ Has arc tr h) ∧
    (Has arc tr (.hashSet t h) ↔ Both arc t ∧ Has arc tr h) := by
  refine ⟨has_list, ?_, ?_, has_vector, has_rbMap, ?_, has_hashMap, ?_⟩
  · rw [has_some (l := [(tr, .list t)]) rfl]; simp [has_list]
  · rw [has_some (l := [(tr, .list t), (tr, .list t)]) rfl]; simp [has_list]
  · rw [has_some (l := [(tr, .rbMap t .plain)]) rfl]; simp [has_rbMap, both_plain]
  · rw [has_some (l := [(tr, .hashMap t .plain h)]) rfl]; simp [has_hashMap, both_plain]

/-- C77 for the iterators of collections with `ArcTK`: as the collection, but iterators over hash maps do not ask for the hasher, and ranges ask
also for the bounds and for the type that keys are borrowed as. -/
theorem C77_iterators (tr : Trait) (t k v rb q : Ty) :
    (Has arc tr (.listIter t) ↔ Both arc t) ∧ (Has arc tr (.queueIter t) ↔ Both arc t) ∧ (Has arc tr (.vecIter t) ↔ Both arc t) ∧
    (Has arc tr (.hashIter k v) ↔ Both arc k ∧ Both arc v) ∧ (Has arc tr (.rbIter k v) ↔ Both arc k ∧ Both arc v) ∧
    (Has arc tr (.rbRange k v rb q) ↔ Both arc k ∧ Both arc v ∧ Has arc tr rb ∧ Has arc tr q) := by
  have listIter : ∀ {t : Ty}, Has arc tr (.listIter t) ↔ Both arc t := by
    intro t
    rw [has_some (l := [(tr, .ref (.listNode t)), (tr, .plain)]) rfl]
    simp [has_ref, has_listNode]
  have vecStack : Has arc tr (.vecStack t) ↔ Both arc t := by
    rw [has_some (l := [(tr, .ref (.vecNode t)), (tr, .plain)]) rfl]
    simp [has_ref, has_vecNode]
  have lazyIter : Has arc tr (.lazyIter t) ↔ Both arc t := by
    rw [has_some (l := [(tr, .ref (.list t)), (tr, .ref (.ptr t)), (tr, .plain)]) rfl]
    simp [has_ref, has_list, has_arc]
  have rbStack : Has arc tr (.rbStack k v) ↔ Both arc k ∧ Both arc v := by
    rw [has_some (l := [(tr, .ref (.rbNode k v)), (tr, .plain)]) rfl]
    simp [has_ref, has_rbNode]
  have range : ∀ {rb q : Ty}, Has arc tr (.rbRange k v rb q) ↔ Both arc k ∧ Both arc v ∧ Has arc tr rb ∧ Has arc tr q := by
    intro rb q
    rw [has_some (l := [(tr, .ref (.rbMap k v)), (tr, .rbStack k v), (tr, .rbStack k v), (tr, rb), (tr, q)]) rfl]
    simp only [List.mem_cons, List.not_mem_nil, or_false, forall_eq_or_imp, forall_eq, has_ref, has_rbMap, rbStack]
    exact ⟨fun ⟨⟨a, b⟩, _, _, c, d⟩ => ⟨a, b, c, d⟩, fun ⟨a, b, c, d⟩ => ⟨⟨a, b⟩, ⟨a, b⟩, ⟨a, b⟩, c, d⟩⟩
  have hashStack : Has arc tr (.hashStack k v) ↔ Both arc k ∧ Both arc v := by
    rw [has_some (l := [(tr, .ref (.ptr (.hashNode k v))), (tr, .listIter (.hashEntry k v)), (tr, .ref (.ptr (.entry k v)))]) rfl]
    simp [has_ref, has_arc, both_iff fun _ => has_hashNode, listIter, both_iff fun _ => has_hashEntry, both_entry]
  refine ⟨listIter, ?_, ?_, ?_, ?_, range⟩
  · rw [has_some (l := [(tr, .listIter t), (tr, .lazyIter t)]) rfl]
    simp [listIter, lazyIter]
  · rw [has_some (l := [(tr, .ref (.vector t)), (tr, .vecStack t), (tr, .vecStack t), (tr, .plain), (tr, .plain)]) rfl]
    simp [has_ref, has_vector, vecStack]
  · rw [has_some (l := [(tr, .hashStack k v), (tr, .plain)]) rfl]
    simp [hashStack]
  · rw [has_some (l := [(tr, .rbRange k v .plain k), (tr, .plain)]) rfl]
    simp only [List.mem_cons, List.not_mem_nil, or_false, forall_eq_or_imp, forall_eq, range, has_plain, true_and, and_true]
    constructor
    · exact fun ⟨a, b, _⟩ => ⟨a, b⟩
    · rintro ⟨a, b⟩
      refine ⟨a, b, ?_⟩
      cases tr
      · exact a.1
      · exact a.2

/-- C77 for parallel iterators: under the bounds of rayon.rs (keys, values and hasher are `Send + Sync`) the iterator, what it is divided into and the
items are `Send`, as rayon demands.  The hasher has to be `Sync` only, and the producers do not ask for it. -/
theorem C77_parallel (k v h : Ty) :
    (Has arc .send (.parIter k v h) ↔ Both arc k ∧ Both arc v ∧ Has arc .sync h) ∧
    (Has arc .send (.producer k v) ↔ Both arc k ∧ Both arc v) ∧
    (Both arc k → Both arc v → Both arc h → Has arc .send (.parIter k v h) ∧ Has arc .send (.producer k v) ∧ Has arc .send (.entry (.ref k) (.ref v))) := by
  have h1 : Has arc .send (.parIter k v h) ↔ Both arc k ∧ Both arc v ∧ Has arc .sync h := by
    rw [has_some (l := [(.send, .ref (.hashMap k v h))]) rfl]
    simp [has_ref, has_hashMap]
  have h2 : Has arc .send (.producer k v) ↔ Both arc k ∧ Both arc v := by
    rw [has_some (l := [(.send, .ref (.ptr (.hashNode k v))), (.send, .ref (.hashBucket k v))]) rfl]
    simp [has_ref, has_arc, has_hashBucket, both_iff fun _ => has_hashNode]
  exact ⟨h1, h2, fun a b c => ⟨h1.2 ⟨a, b, c.2⟩, h2.2 ⟨a, b⟩, has_entry.2 ⟨has_ref.2 a.2, has_ref.2 b.2⟩⟩⟩

/-- C77 for the collections with `RcK` (the default) and their iterators: none of them is `Send` or `Sync`, whatever they hold. -/
theorem C77_rc (tr : Trait) (t k v h rb q : Ty) :
    ¬ Has rc tr (.list t) ∧ ¬ Has rc tr (.stack t) ∧ ¬ Has rc tr (.queue t) ∧ ¬ Has rc tr (.vector t) ∧ ¬ Has rc tr (.rbMap k v) ∧
    ¬ Has rc tr (.rbSet t) ∧ ¬ Has rc tr (.hashMap k v h) ∧ ¬ Has rc tr (.hashSet t h) ∧
    ¬ Has rc tr (.listIter t) ∧ ¬ Has rc tr (.queueIter t) ∧ ¬ Has rc tr (.vecIter t) ∧ ¬ Has rc tr (.hashIter k v) ∧
    ¬ Has rc tr (.rbIter k v) ∧ ¬ Has rc tr (.rbRange k v rb q) := by
  -- one field is enough
  have by_field : ∀ {tr : Trait} {t x : Ty}, t.needs rc tr = some (t.fields.map fun x => (tr, x)) → x ∈ t.fields → ¬ Has rc tr x → ¬ Has rc tr t := by
    intro tr t x h1 h2 h3 h4
    exact h3 ((has_some h1).1 h4 (tr, x) (List.mem_map.2 ⟨x, h2, rfl⟩))
  have by_ref : ∀ {tr : Trait} {t : Ty}, ¬ Has rc .sync t → ¬ Has rc tr (.ref t) := fun h1 h2 => h1 (has_ref.1 h2)
  have list : ∀ {tr : Trait} {t : Ty}, ¬ Has rc tr (.list t) := fun {_ t} =>
    by_field (x := .ptr (.listNode t)) rfl (by simp [Ty.fields]) not_has_rc
  have vector : ∀ {tr : Trait} {t : Ty}, ¬ Has rc tr (.vector t) := fun {_ t} =>
    by_field (x := .ptr (.vecNode t)) rfl (by simp [Ty.fields]) not_has_rc
  have rbMap : ∀ {tr : Trait} {k v : Ty}, ¬ Has rc tr (.rbMap k v) := fun {_ k v} =>
    by_field (x := .ptr (.rbNode k v)) rfl (by simp [Ty.fields]) not_has_rc
  have hashMap : ∀ {tr : Trait} {k v h : Ty}, ¬ Has rc tr (.hashMap k v h) := fun {_ k v _} =>
    by_field (x := .ptr (.hashNode k v)) rfl (by simp [Ty.fields]) not_has_rc
  have listIter : ∀ {tr : Trait} {t : Ty}, ¬ Has rc tr (.listIter t) := fun {_ t} =>
    by_field (x := .ref (.listNode t)) rfl (by simp [Ty.fields]) (by_ref (by_field (x := .ptr (.listNode t)) rfl (by simp [Ty.fields]) not_has_rc))
  have range : ∀ {tr : Trait} {k v rb q : Ty}, ¬ Has rc tr (.rbRange k v rb q) := fun {_ k v _ _} =>
    by_field (x := .ref (.rbMap k v)) rfl (by simp [Ty.fields]) (by_ref rbMap)
  exact ⟨list, by_field (x := .list t) rfl (by simp [Ty.fields]) list, by_field (x := .list t) rfl (by simp [Ty.fields]) list, vector, rbMap,
    by_field (x := .rbMap t .plain) rfl (by simp [Ty.fields]) rbMap, hashMap, by_field (x := .hashMap t .plain h) rfl (by simp [Ty.fields]) hashMap,
    listIter, by_field (x := .listIter t) rfl (by simp [Ty.fields]) listIter,
    by_field (x := .ref (.vector t)) rfl (by simp [Ty.fields]) (by_ref vector),
    by_field (x := .hashStack k v) rfl (by simp [Ty.fields])
      (by_field (x := .ref (.ptr (.hashNode k v))) rfl (by simp [Ty.fields]) (by_ref not_has_rc)),
    by_field (x := .rbRange k v .plain k) rfl (by simp [Ty.fields]) range, range⟩

end

-- the assertions of the project's own tests: lists, maps and so on of `i32`, with the hasher `RandomState` (two integers)
example : Both arc (.list .plain) := ⟨(C77_collections .send .plain .plain .plain .plain).1.2 both_plain,
  (C77_collections .sync .plain .plain .plain .plain).1.2 both_plain⟩
example : Both arc (.hashMap .plain .plain .plain) := ⟨has_hashMap.2 ⟨both_plain, both_plain, has_plain⟩, has_hashMap.2 ⟨both_plain, both_plain, has_plain⟩⟩
-- maps of vectors of lists
example : Both arc (.rbMap .plain (.vector (.list .plain))) := by
  have : Both arc (.vector (.list .plain)) := (both_iff fun _ => has_vector).2 ((both_iff fun _ => has_list).2 both_plain)
  exact (both_iff fun _ => has_rbMap).2 ⟨both_plain, this⟩
-- `Cell<i32>` is `Send`, not `Sync`: a list of them is neither, as a clone of the list would share them with another thread
example : ¬ Has arc .send (.list (.user true false)) ∧ ¬ Has arc .sync (.list (.user true false)) := by
  simp [has_list, Both, has_user]
-- the guard of a mutex is `Sync`, not `Send`: a list of them is neither, as the last handle drops them
example : ¬ Has arc .send (.list (.user false true)) ∧ ¬ Has arc .sync (.list (.user false true)) := by
  simp [has_list, Both, has_user]
-- a hasher that is `Send`, not `Sync`: the map can be sent, not lent, but its iterators can be sent
example : Has arc .send (.hashMap .plain .plain (.user true false)) ∧ ¬ Has arc .sync (.hashMap .plain .plain (.user true false)) ∧
    ¬ Has arc .send (.parIter .plain .plain (.user true false)) ∧ Has arc .send (.hashIter .plain .plain) :=
  ⟨has_hashMap.2 ⟨both_plain, both_plain, has_user.2 rfl⟩, by simp [has_hashMap, both_plain, has_user],
    by simp [(C77_parallel .plain .plain (.user true false)).1, both_plain, has_user],
    (C77_iterators .send .plain .plain .plain .plain .plain).2.2.2.1.2 ⟨both_plain, both_plain⟩⟩
-- a range whose bounds are not `Send`
example : ¬ Has arc .send (.rbRange .plain .plain (.user false false) .plain) := by
  simp [(C77_iterators .send .plain .plain .plain (.user false false) .plain).2.2.2.2.2, has_user]
-- with a pointer that asks only for the same trait (as one with `PhantomData<T>` would), a list of cells could be sent with its clone kept
example : Has ⟨fun tr => some [tr]⟩ .send (.list (.user true false)) := by
  refine has_of_family (fun tr t => tr = .send ∧ (t = .list (.user true false) ∨ t = .listNode (.user true false) ∨ t = .ptr (.listNode (.user true false))))
    ?_ ⟨rfl, .inl rfl⟩
  have hu : Has ⟨fun tr => some [tr]⟩ .send (.ptr (.user true false)) :=
    (has_some (l := [(.send, .user true false)]) rfl).2 (by simp [has_user])
  rintro _ _ ⟨rfl, rfl | rfl | rfl⟩
  · exact ⟨_, rfl, by simp [hu, Ty.fields]⟩
  · exact ⟨_, rfl, by simp [hu, Ty.fields]⟩
  · exact ⟨_, rfl, by simp⟩

end Props
end Rpds
