import Verif.Debug
import Verif.Props.Cross
import Verif.Props.Unlawful
/-
Property C65: `Debug` of the collections.
-/
set_option autoImplicit false
namespace Rpds.Props
open Dbg Heap.HT
variable {T H K V Q : Type}

/-! ### C65 -/

/-- C65 for `List`: with elements whose own `fmt` nests at most `w` deep, printing a list of `n` elements nests between `2 n + 2` and
`2 n + w + 1` calls of `fmt`; so exactly `2 n + 2` for elements that print themselves at once. -/
theorem C65_list_debug_depth (l : RList T) (hl : RList.Reach l) (f : T → Dbg) (w : Nat) (hw : 1 ≤ w) (hf : ∀ x, (f x).depth ≤ w) :
    ∃ xs, listItems l = .ok xs ∧ 2 * xs.length + 2 ≤ (l.dbg f).depth ∧ (l.dbg f).depth ≤ 2 * xs.length + w + 1 := by
  obtain ⟨xs, r⟩ := hl.rep
  exact ⟨xs, rep_items r, r.dbg_depth (fun x _ => hf x) hw⟩

/-- C65 for `Stack`. -/
theorem C65_stack_debug_depth (s : Stack T) (hs : Stack.Reach s) (f : T → Dbg) (w : Nat) (hw : 1 ≤ w) (hf : ∀ x, (f x).depth ≤ w) :
    ∃ xs, stackItems s = .ok xs ∧ 2 * xs.length + 3 ≤ (s.dbg f).depth ∧ (s.dbg f).depth ≤ 2 * xs.length + w + 2 := by
  obtain ⟨xs, r⟩ := hs.rep
  have := RList.Rep.dbg_depth r (fun x _ => hf x) hw
  refine ⟨xs, rep_sitems r, ?_⟩
  simp only [Stack.dbg, depth, depthAll]
  omega

/-- C65 for `Queue`: at least one of the two lists has half of the elements. -/
theorem C65_queue_debug_depth (q : Queue T) (hq : Queue.Reach q) (f : T → Dbg) (w : Nat) (hw : 1 ≤ w) (hf : ∀ x, (f x).depth ≤ w) :
    ∃ xs, queueItems q = .ok xs ∧ xs.length + 3 ≤ (q.dbg f).depth ∧ (q.dbg f).depth ≤ 2 * xs.length + w + 2 := by
  obtain ⟨xs, r⟩ := hq.rep
  refine ⟨xs, rep_qitems r, ?_⟩
  obtain ⟨ins, outs, h1, h2, rfl⟩ := r
  have g1 := RList.Rep.dbg_depth h1 (fun x _ => hf x) hw
  have g2 := RList.Rep.dbg_depth h2 (fun x _ => hf x) hw
  simp only [Queue.dbg, depth, depthAll, List.length_append, List.length_reverse]
  omega

/-- C65, the flaw: whatever the stack allows, there is a list, a stack and a queue that cannot be printed with `{:?}` on it. -/
theorem C65_linear_debug_unbounded (f : T → Dbg) (x : T) (limit : Nat) :
    (∃ l : RList T, RList.Reach l ∧ limit < (l.dbg f).depth) ∧
    (∃ s : Stack T, Stack.Reach s ∧ limit < (s.dbg f).depth) ∧
    (∃ q : Queue T, Queue.Reach q ∧ limit < (q.dbg f).depth) := by
  have hd : ∀ y ∈ List.replicate limit x, (f y).depth ≤ (f x).depth := by
    intro y hy
    rw [List.eq_of_mem_replicate hy]
    exact Nat.le_refl _
  have key := (RList.Rep.dbg_depth (RList.rep_fromIter (List.replicate limit x)) hd (Dbg.depth_pos _)).1
  rw [List.length_replicate] at key
  refine ⟨⟨.fromIter (List.replicate limit x), .init (.fromIter _), by omega⟩,
    ⟨.fromIter (List.replicate limit x), .init (.fromIter _), ?_⟩, ⟨.fromIter (List.replicate limit x), .init (.fromIter _), ?_⟩⟩
  · simp only [Stack.dbg, Stack.fromIter, depth, depthAll]; omega
  · simp only [Queue.dbg, Queue.fromIter, depth, depthAll]; omega

/-- C65 for `Vector`: two calls for every level. -/
theorem C65_vector_debug_depth (A : Arch) (v : RVector T) (hv : RVector.Reach A v) (f : T → Dbg) (w : Nat) (hf : ∀ x, (f x).depth ≤ w) :
    (v.dbg f).depth ≤ 2 * (Nat.log2 v.len / v.bits) + w + 3 := by
  obtain ⟨xs, h, r⟩ := hv.rep
  rw [r.len]
  exact r.dbg_depth hf

/-- C65 for `RedBlackTreeMap`. -/
theorem C65_rb_map_debug_depth (A : Arch) (o : OrdKeys K Q) (lo : o.Lawful) (m : RBMap K V) (hm : RBMap.Reach A o m) (fk : K → Dbg)
    (fv : V → Dbg) (w : Nat) (hk : ∀ x, (fk x).depth ≤ w) (hv : ∀ x, (fv x).depth ≤ w) :
    (m.dbg fk fv).depth ≤ 4 * Nat.log2 (m.getSize + 1) + w + 2 := by
  obtain ⟨l, r⟩ := hm.rep lo
  rw [RBMap.getSize, r.size]
  exact r.dbg_depth hk hv

/-- C65 for `RedBlackTreeSet`. -/
theorem C65_rb_set_debug_depth (A : Arch) (o : OrdKeys T Q) (lo : o.Lawful) (s : RBSet T) (hs : RBSet.Reach A o s) (f : T → Dbg) (w : Nat)
    (hw : 1 ≤ w) (hf : ∀ x, (f x).depth ≤ w) : (s.dbg f).depth ≤ 4 * Nat.log2 (s.size + 1) + w + 3 := by
  obtain ⟨l, r⟩ := hs.rep lo
  have := RBMap.Rep.dbg_depth r (fk := f) (fv := fun _ => .atom "()") hf (fun _ => by simpa [depth] using hw)
  rw [← RBMap.Rep.size r] at this
  simp only [RBSet.dbg, depth, depthAll, RBSet.size, RBMap.getSize]
  omega

/-- C65 for `HashTrieMap`, of degree `2 ^ k`: three calls for every level, two for every entry of the largest group of keys with equal
hashes. -/
theorem C65_hash_map_debug_depth (A : Arch) (hA : HTMap.StdWord A) (o : HashKeys H K Q) (lo : o.Lawful) (m : HTMap H K V)
    (hm : HTMap.Reach A o m) (fk : K → Dbg) (fv : V → Dbg) (fh : H → Dbg) (w : Nat) (hk : ∀ x, (fk x).depth ≤ w) (hv : ∀ x, (fv x).depth ≤ w)
    (hh : ∀ x, (fh x).depth ≤ w) :
    ∃ k kvs, 1 ≤ k ∧ m.degree = 2 ^ k ∧ mapItems m = .ok kvs ∧
      (m.dbg fk fv fh).depth ≤ 3 * (63 / k + 1) + 2 * crowd (kvs.map fun x => o.hashK m.hasher x.1) + w + 6 := by
  obtain ⟨l, k, r⟩ := hm.rep hA lo
  refine ⟨k, _, r.conf.pos, r.degree, rep_mapItems r, ?_⟩
  rw [crowd_perm (r.perm.map fun x => o.hashK m.hasher x.1)]
  exact r.dbg_depth hk hv hh

/-- C65 for `HashTrieSet`. -/
theorem C65_hash_set_debug_depth (A : Arch) (hA : HTMap.StdWord A) (o : HashKeys H T Q) (lo : o.Lawful) (s : HTSet H T)
    (hs : HTSet.Reach A o s) (f : T → Dbg) (fh : H → Dbg) (w : Nat) (hw : 1 ≤ w) (hf : ∀ x, (f x).depth ≤ w) (hh : ∀ x, (fh x).depth ≤ w) :
    ∃ k vs, 1 ≤ k ∧ s.map.degree = 2 ^ k ∧ setItems s = .ok vs ∧
      (s.dbg f fh).depth ≤ 3 * (63 / k + 1) + 2 * crowd (vs.map (o.hashK s.map.hasher)) + w + 7 := by
  obtain ⟨l, k, r⟩ := hs.rep hA lo
  refine ⟨k, _, r.conf.pos, r.degree, rep_setItems r, ?_⟩
  rw [crowd_perm (r.items_perm.map (o.hashK s.map.hasher))]
  have := HTMap.Rep.dbg_depth r (fk := f) (fv := fun _ => .atom "()") hf (fun _ => by simpa [depth] using hw) hh
  simp only [Spec.unitPairs, List.map_map, Function.comp_def] at this
  rw [show (fun x => o.hashK s.map.hasher x) = o.hashK s.map.hasher from rfl] at this
  simp only [HTSet.dbg, depth, depthAll]
  omega

/-- C65, `Debug` is not a function of the contents: equal queues, equal vectors and equal red-black trees print differently. -/
theorem C65_debug_not_extensional :
    (∃ a b : Queue Nat, Queue.Reach a ∧ Queue.Reach b ∧ a.eq (· == ·) b = .ok true ∧ (a.dbg .nat).render ≠ (b.dbg .nat).render) ∧
    (∃ (A : Arch) (a b : RVector Nat), RVector.Reach A a ∧ RVector.Reach A b ∧ a.eq A (· == ·) b = .ok true ∧
      (a.dbg .nat).render ≠ (b.dbg .nat).render) ∧
    (∃ (A : Arch) (a b : RBMap Nat Nat), RBMap.Reach A exUsual a ∧ RBMap.Reach A exUsual b ∧ RBMap.eq A exUsual (· == ·) false a b = .ok true ∧
      (a.dbg .nat .nat).render ≠ (b.dbg .nat .nat).render) := by
  refine ⟨⟨.fromIter [1], .queueMacro [1], .init (.fromIter _), .init (.macro _), by decide +kernel, by decide +kernel⟩,
    ⟨dbg64, vec5, { root := .branch [.leaf [1, 2, 3, 4], .leaf [5]], bits := 2, length := 5 }, vec5_reach, ?_, by decide +kernel,
      by decide +kernel⟩,
    ⟨dbg64, ⟨.some (1, 5) .black .none (.some (2, 6) .red .none .none), 2⟩, ⟨.some (2, 6) .black (.some (1, 5) .red .none .none) .none, 2⟩,
      .init (.fromIter (kvs := [(1, 5), (2, 6)]) (by decide +kernel)), .init (.fromIter (kvs := [(2, 6), (1, 5)]) (by decide +kernel)),
      by decide +kernel, by decide +kernel⟩⟩
  exact .update (v := { root := .leaf [], bits := 2, length := 0 }) (op := .extend [1, 2, 3, 4, 5]) (r := .unit)
    (.new (b := 2) (by decide) (by decide) rfl) (by decide) rfl

/-! The text of `{:?}`, and the depths, of small collections. -/

example : ((RList.fromIter [1, 2]).dbg .nat).render =
    "List { head: Some(Node { value: 1, next: Some(Node { value: 2, next: None }) }), last: Some(2), length: 2 }" := by decide +kernel
example : ((Queue.queueMacro [7]).dbg .nat).render = "Queue { in_list: List { head: Some(Node { value: 7, next: None }), last: Some(7), \
    length: 1 }, out_list: List { head: None, last: None, length: 0 } }" := by decide +kernel
example : (vec5.dbg .nat).render = "Vector { root: Branch([Branch([Leaf([1, 2]), Leaf([3, 4])]), Branch([Leaf([5])])]), bits: 1, length: 5 }" := by
  decide +kernel
example : ((⟨.some (1, 5) .black .none (.some (2, 6) .red .none .none), 2⟩ : RBMap Nat Nat).dbg .nat .nat).render =
    "RedBlackTreeMap { root: Some(Node { entry: Entry { key: 1, value: 5 }, color: Black, left: None, right: Some(Node { entry: \
    Entry { key: 2, value: 6 }, color: Red, left: None, right: None }) }), size: 2 }" := by decide +kernel
example : ((Stack.fromIter [1]).dbg .nat).render =
    "Stack { list: List { head: Some(Node { value: 1, next: None }), last: Some(1), length: 1 } }" := by decide +kernel
example : ((⟨⟨.some (1, ()) .black .none .none, 1⟩⟩ : RBSet Nat).dbg .nat).render =
    "RedBlackTreeSet { map: RedBlackTreeMap { root: Some(Node { entry: Entry { key: 1, value: () }, color: Black, left: None, right: None }), \
    size: 1 } }" := by decide +kernel
example : ((⟨.branch 136 [.leaf (.single ⟨1, 5, 3⟩), .leaf (.collision (RList.fromIter [⟨2, 6, 7⟩, ⟨4, 8, 7⟩]))], 3, 16, 0⟩ :
    HTMap Nat Nat Nat).dbg .nat .nat .nat).render =
    "HashTrieMap { root: Branch(SparseArrayUsize { bitmap: 136, array: [Leaf(Single(EntryWithHash { entry: Entry { key: 1, value: 5 }, \
    key_hash: 3 })), Leaf(Collision(List { head: Some(Node { value: EntryWithHash { entry: Entry { key: 2, value: 6 }, key_hash: 7 }, next: \
    Some(Node { value: EntryWithHash { entry: Entry { key: 4, value: 8 }, key_hash: 7 }, next: None }) }), last: Some(EntryWithHash { entry: \
    Entry { key: 4, value: 8 }, key_hash: 7 }), length: 2 }))] }), size: 3, degree: 16, hasher_builder: 0 }" := by decide +kernel
example : ((⟨⟨.branch 8 [.leaf (.single ⟨1, (), 3⟩)], 1, 16, 0⟩⟩ : HTSet Nat Nat).dbg .nat .nat).render =
    "HashTrieSet { map: HashTrieMap { root: Branch(SparseArrayUsize { bitmap: 8, array: [Leaf(Single(EntryWithHash { entry: Entry { key: 1, \
    value: () }, key_hash: 3 }))] }), size: 1, degree: 16, hasher_builder: 0 } }" := by decide +kernel
example : ((RList.fromIter [1, 2, 3]).dbg .nat).depth = 8 ∧ (vec5.dbg .nat).depth = 8 ∧ (vec5.dbg .nat).depth ≤ 2 * (Nat.log2 5 / 1) + 1 + 3 := by
  decide +kernel
example : ((RList.fromIter (List.range 1000)).dbg .nat).depth = 2002 := by
  obtain ⟨xs, h1, h2, h3⟩ := C65_list_debug_depth (.fromIter (List.range 1000)) (.init (.fromIter _)) .nat 1 (Nat.le_refl _)
    (fun _ => by simp [Dbg.nat, depth])
  rw [rep_items (RList.rep_fromIter _)] at h1
  have h4 := congrArg List.length (Except.ok.inj h1)
  rw [List.length_range] at h4
  omega

end Rpds.Props
