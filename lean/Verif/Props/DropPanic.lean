import Verif.Props.Panic
import Verif.Drop.RedBlack
import Verif.Drop.HashTrie
import Verif.Drop.Vector
import Verif.Drop.List
import Verif.Drop.Finished
import Verif.Props.Linear
/-
Properties C74 and C75: elements, keys or values whose `Drop` panics.  Here exactly one drop panics, the panic is caught, and the
program goes on with the collection.
-/
set_option autoImplicit false
namespace Rpds.Props
open Spec
variable {H K V Q T : Type}

/-! ### C74: vectors -/

/-- C74.  A `drop_last_mut` of a vector whose last element panics while it is dropped: the length stays, every other index answers as
before, reading the last index panics, and writing it makes the vector what writing it before would have made it. -/
theorem C74_vector_drop_last_mut (A : Arch) (v : RVector T) (hv : RVector.Reach A v) :
    (v.len = 0 → v.dropLastMutD = .ok none) ∧
    (0 < v.len → ∃ v', v.dropLastMutD = .ok (some v') ∧ v'.len = v.len ∧
      (∀ i, i + 1 ≠ v.len → v'.get A i = v.get A i) ∧ v'.get A (v.len - 1) = .error .indexOutOfBounds ∧
      ∀ x, v'.setMut A (v.len - 1) x = v.setMut A (v.len - 1) x) := by
  obtain ⟨xs, h, r⟩ := hv.rep
  have hl : v.len = xs.length := r.len
  rw [hl]
  constructor
  · intro h0
    have : v.length = 0 := by rw [r.length, h0]
    simp [RVector.dropLastMutD, this]
  · intro h0
    obtain ⟨v', h1, h2, _, _, h3, h4, h5⟩ := r.dropLastMutD (List.length_pos_iff.1 h0)
    exact ⟨v', h1, by rw [← hl]; exact h2, h3, h4, h5⟩

/-! ### C74: operations that are finished -/

/-- The state in which an operation that answers whether there was something to remove leaves the collection, if there was. -/
def removedFrom {α : Type} (r : Res (Bool × α)) : Res (Option α) := r.map fun p => if p.1 then some p.2 else none

/-- C74.  `drop_first_mut` of a list, `pop_mut` of a stack and `dequeue_mut` of a queue whose removed element panics while it is dropped:
they leave what they leave without the panic. -/
theorem C74_linear_finished (l : RList T) (s : Stack T) (q : Queue T) :
    l.dropFirstMutD = removedFrom l.dropFirstMut ∧ s.popMutD = removedFrom s.popMut ∧
    (Queue.Reach q → q.dequeueMutD = removedFrom q.dequeueMut) := by
  refine ⟨l.dropFirstMutD_eq, s.popMutD_eq, fun hq => ?_⟩
  obtain ⟨_, os, is, h1, h2, rfl⟩ := hq.rep
  simp only [Queue.dequeueMutD, Queue.dequeueMut, RList.dropFirstMutD_eq, removedFrom, h1.isEmpty, h2.isEmpty]
  cases os with
  | cons o os =>
    obtain ⟨l', h3, -⟩ := h1.dropFirstMut_cons
    rw [h3]; rfl
  | nil =>
    cases hr : is.reverse with
    | nil =>
      obtain rfl : is = [] := by simpa using hr
      rfl
    | cons y ys =>
      have hi := h2.reverseMut
      rw [hr] at hi
      obtain ⟨l', h3, -⟩ := hi.dropFirstMut_cons
      have : is.isEmpty = false := by cases is <;> simp_all
      rw [this, h3]; rfl

/-- C74.  `set_mut` of a vector whose replaced element panics while it is dropped leaves what it leaves without the panic. -/
theorem C74_vector_set_mut (A : Arch) (v : RVector T) (hv : RVector.Reach A v) (i : Nat) (x : T) :
    v.setMutD A i x = removedFrom (v.setMut A i x) := by
  obtain ⟨xs, h, r⟩ := hv.rep
  exact r.setMutD i x

/-- C74.  `insert_mut` of a red-black tree map that replaces a pair which panics while it is dropped leaves what it leaves without the
panic.  (The root is not coloured black again, but it is black.) -/
theorem C74_rb_map_insert_mut (A : Arch) (o : OrdKeys K Q) (lo : o.Lawful) (m : RBMap K V) (hm : RBMap.Reach A o m) (key : K) (value : V) :
    (m.get o (o.borrow key) = none → m.insertMutD o key value = none) ∧
    (∀ v, m.get o (o.borrow key) = some v → ∃ m', m.insertMutD o key value = some m' ∧ m.insertMut o key value = .ok m') := by
  obtain ⟨l, r⟩ := hm.rep lo
  have hs := RBTree.insD_isSome (k := key) (v := value) lo m.root
  simp only [RBMap.get, RBMap.insertMutD]
  cases hi : m.root.insD o key value with
  | none =>
    rw [hi] at hs
    refine ⟨fun _ => rfl, fun v hv => ?_⟩
    cases hg : m.root.get o (o.borrow key) with
    | none => simp [hg] at hv
    | some e => simp [hg] at hs
  | some t' =>
    rw [hi] at hs
    refine ⟨fun hn => ?_, fun v _ => ⟨_, rfl, ?_⟩⟩
    · cases hg : m.root.get o (o.borrow key) with
      | none => simp [hg] at hs
      | some e => simp [hg] at hn
    · simp [RBMap.insertMut, RBTree.insert, RBTree.insD_root r.ok.root hi]

/-- `RedBlackTreeSet::insert_mut` (red_black_tree_set/mod.rs:139-141) when the drop of the replaced element panics. -/
def rbSetInsertMutD (o : OrdKeys T Q) (s : RBSet T) (v : T) : Option (RBSet T) := (s.map.insertMutD o v ()).map fun map => { map }

/-- C74 for `insert_mut` of red-black tree sets. -/
theorem C74_rb_set_insert_mut (A : Arch) (o : OrdKeys T Q) (lo : o.Lawful) (s : RBSet T) (hs : RBSet.Reach A o s) (x : T) :
    (s.get o (o.borrow x) = none → rbSetInsertMutD o s x = none) ∧
    (∀ y, s.get o (o.borrow x) = some y → ∃ s', rbSetInsertMutD o s x = some s' ∧ s.insertMut o x = .ok s') := by
  obtain ⟨l, r⟩ := hs.rep lo
  have rm : s.map.Rep o (unitPairs l) := r
  have hi := RBTree.insD_isSome (k := x) (v := ()) lo s.map.root
  simp only [RBSet.get, RBMap.getKeyValue, rbSetInsertMutD, RBMap.insertMutD]
  cases hd : s.map.root.insD o x () with
  | none =>
    rw [hd] at hi
    refine ⟨fun _ => rfl, fun v hv => ?_⟩
    cases hg : s.map.root.get o (o.borrow x) with
    | none => simp [hg] at hv
    | some e => simp [hg] at hi
  | some t' =>
    rw [hd] at hi
    refine ⟨fun hn => ?_, fun v _ => ⟨_, rfl, ?_⟩⟩
    · cases hg : s.map.root.get o (o.borrow x) with
      | none => simp [hg] at hi
      | some e => simp [hg] at hn
    · simp [RBSet.insertMut, RBMap.insertMut, RBTree.insert, RBTree.insD_root rm.ok.root hd]

/-! ### C74: red-black tree maps and sets -/

theorem rb_removeMutD {A : Arch} {o : OrdKeys K Q} (lo : o.Lawful) {m : RBMap K V} {l0 : List (K × V)} (hr : m.Rep o l0) (hf : RBMap.Fits A m) (q : Q) :
    (mapGet o.hits m.root.toList q = none ∧ m.removeMutD A o q = .ok none) ∨
    ∃ m' p pre l kept r post, m.removeMutD A o q = .ok (some m') ∧ m'.size = m.size ∧ mapGet o.hits m.root.toList q = some p ∧
      m.root.toList = pre ++ (l ++ p :: r) ++ post ∧ m'.root.toList = pre ++ kept ++ post ∧ kept.Sublist (l ++ r) ∧ kept.length ≤ 4 ∧
      (l = [] ∨ r = [] → kept = l ++ r) ∧ (∀ q', m'.root.get o q' = mapGet o.hits (pre ++ kept ++ post) q') ∧
      (∀ e c tl tr, m.root = .some e c tl tr → o.cmpQ q (o.borrow e.1) = .eq → pre = [] ∧ post = []) ∧
      m'.root.toList.length ≤ m.size ∧ ∀ {β : Type} (f : K × V → β), Drives (RBIter.mapNext A o f) m'.iter (m'.root.toList.map f) := by
  obtain ⟨n, hb⟩ := hr.ok.bh
  rcases RBTree.delD_ok (A := A) lo q m.root hb hr.ok.noRR hr.ok.sorted with ⟨h1, h2⟩ | ⟨t', p, pre, l, kept, r, post, h1, h2, h3, h4, h5, h6, h7, h8⟩
  · exact .inl ⟨h1, by simp [RBMap.removeMutD, h2]⟩
  · have hsub : t'.toList.Sublist m.root.toList := by
      rw [h3, h4]
      refine ((List.Sublist.refl pre).append (h5.trans ?_)).append (.refl post)
      exact (List.Sublist.refl l).append (List.sublist_cons_self _ _)
    have hle : t'.toList.length ≤ m.size := by rw [hr.size']; exact hsub.length_le
    refine .inr ⟨{ m with root := t' }, p, pre, l, kept, r, post, by simp [RBMap.removeMutD, h1], rfl, h2, h3, h4, h5, h6, h7, fun q' => ?_, h8, hle, fun f => ?_⟩
    · show RBTree.get o q' t' = _
      rw [RBTree.get_eq lo q' _ (hr.ok.sorted.sublist hsub), ← h4]
    · exact RBIter.drives_long (A := A) o (m := { m with root := t' }) f t'.toList (it := RBMap.iter { m with root := t' })
        (RBRangeIter.new_looseRel hf.word hf.size) rfl hle

/-- C74.  A `remove_mut` of a red-black tree map whose pair panics while it is dropped.  The size stays.  The pairs before and after a
block around the removed pair stay.  Of the block, which is the whole subtree of the removed node, at most four pairs remain; if the
removed pair is first or last in it, none is lost.  What remains is found, and nothing else. -/
theorem C74_rb_map_remove_mut (A : Arch) (o : OrdKeys K Q) (lo : o.Lawful) (m : RBMap K V) (hm : RBMap.Reach A o m) (hf : RBMap.Fits A m) (q : Q) :
    (m.get o q = none → m.removeMutD A o q = .ok none) ∧
    (∀ v, m.get o q = some v → ∃ m' k pre l kept r post, m.removeMutD A o q = .ok (some m') ∧ m'.getSize = m.getSize ∧
      rbItems A o m = .ok (pre ++ (l ++ (k, v) :: r) ++ post) ∧ o.cmpQ q (o.borrow k) = .eq ∧
      rbItems A o m' = .ok (pre ++ kept ++ post) ∧ kept.Sublist (l ++ r) ∧ kept.length ≤ 4 ∧ (l = [] ∨ r = [] → kept = l ++ r) ∧
      ∀ q', m'.get o q' = ((pre ++ kept ++ post).find? fun p => o.cmpQ q' (o.borrow p.1) == .eq).map (·.2)) := by
  obtain ⟨l0, r⟩ := hm.rep lo
  have hget : m.get o q = (mapGet o.hits m.root.toList q).map (·.2) := by rw [RBMap.get, RBTree.get_eq lo q _ r.ok.sorted]
  rcases rb_removeMutD lo r hf q with ⟨h1, h2⟩ | ⟨m', ⟨k, v⟩, pre, l, kept, rr, post, h1, hsz, h2, h3, h4, h5, h6, h7, h8, _, hle, h9⟩
  · refine ⟨fun _ => h2, fun v hv => ?_⟩
    rw [hget, h1] at hv; simp at hv
  · refine ⟨fun hn => by rw [hget, h2] at hn; simp at hn, fun v' hv => ?_⟩
    rw [hget, h2] at hv
    simp only [Option.map_some, Option.some.injEq] at hv
    subst hv
    refine ⟨m', k, pre, l, kept, rr, post, h1, hsz, ?_, ?_, ?_, h5, h6, h7, fun q' => ?_⟩
    · rw [rep_rbItems r lo hf, h3]
    · have := List.find?_some h2
      simpa [OrdKeys.hits] using this
    · have := (h9 fun p => p).drain (fuel := m'.getSize + 1) (by rw [List.length_map]; show _ < m'.size + 1; omega)
      rw [List.map_id', h4] at this
      exact this
    · rw [RBMap.get, h8]; rfl

/-- C74: how much can be lost.  Every non-empty map, however large, has a key whose `remove_mut`, if the pair panics while it is dropped,
leaves at most four pairs.  The size stays. -/
theorem C74_rb_map_loses_all_but_four (A : Arch) (o : OrdKeys K Q) (lo : o.Lawful) (m : RBMap K V) (hm : RBMap.Reach A o m)
    (hf : RBMap.Fits A m) (hne : 0 < m.getSize) :
    ∃ k v m' items, m.get o (o.borrow k) = some v ∧ m.removeMutD A o (o.borrow k) = .ok (some m') ∧ m'.getSize = m.getSize ∧
      rbItems A o m' = .ok items ∧ items.length ≤ 4 := by
  obtain ⟨l0, r⟩ := hm.rep lo
  cases hroot : m.root with
  | none =>
    have := r.size'
    rw [hroot] at this
    simp [RBTree.toList] at this
    simp [RBMap.getSize, this] at hne
  | some e c tl tr =>
    have heq : o.cmpQ (o.borrow e.1) (o.borrow e.1) = .eq := by rw [lo.borrow]; exact lo.ordK.refl _
    rcases rb_removeMutD lo r hf (o.borrow e.1) with ⟨h1, h2⟩ | ⟨m', ⟨k, v⟩, pre, l, kept, rr, post, h1, hsz, h2, h3, h4, h5, h6, h7, h8, hpp, hle, h9⟩
    · have hg := RBTree.get_eq lo (o.borrow e.1) m.root r.ok.sorted
      rw [h1, hroot, RBTree.get, heq] at hg
      cases hg
    · obtain ⟨rfl, rfl⟩ := hpp e c tl tr hroot heq
      refine ⟨e.1, v, m', kept, ?_, h1, hsz, ?_, h6⟩
      · rw [RBMap.get, RBTree.get_eq lo _ _ r.ok.sorted, h2]; rfl
      · have := (h9 fun p => p).drain (fuel := m'.getSize + 1) (by rw [List.length_map]; show _ < m'.size + 1; omega)
        rw [List.map_id', h4, List.nil_append, List.append_nil] at this
        exact this

/-- `RedBlackTreeSet::remove_mut` (red_black_tree_set/mod.rs:152-158) when the drop of the removed element panics. -/
def rbSetRemoveMutD (A : Arch) (o : OrdKeys T Q) (s : RBSet T) (v : Q) : Res (Option (RBSet T)) := do
  let map ← s.map.removeMutD A o v
  pure (map.map fun map => { map })

/-- C74 for red-black tree sets. -/
theorem C74_rb_set_remove_mut (A : Arch) (o : OrdKeys T Q) (lo : o.Lawful) (s : RBSet T) (hs : RBSet.Reach A o s) (hf : RBMap.Fits A s.map) (q : Q) :
    (s.get o q = none → rbSetRemoveMutD A o s q = .ok none) ∧
    (∀ x, s.get o q = some x → ∃ s' pre l kept r post, rbSetRemoveMutD A o s q = .ok (some s') ∧ s'.size = s.size ∧
      rbSetItems A o s = .ok (pre ++ (l ++ x :: r) ++ post) ∧ o.cmpQ q (o.borrow x) = .eq ∧
      rbSetItems A o s' = .ok (pre ++ kept ++ post) ∧ kept.Sublist (l ++ r) ∧ kept.length ≤ 4 ∧ (l = [] ∨ r = [] → kept = l ++ r) ∧
      ∀ q', s'.get o q' = (pre ++ kept ++ post).find? fun y => o.cmpQ q' (o.borrow y) == .eq) := by
  obtain ⟨l0, r⟩ := hs.rep lo
  have rm : s.map.Rep o (unitPairs l0) := r
  have hget : s.get o q = (mapGet o.hits s.map.root.toList q).map (·.1) := by
    rw [RBSet.get, RBMap.getKeyValue, RBTree.get_eq lo q _ rm.ok.sorted]
    cases mapGet o.hits s.map.root.toList q <;> rfl
  rcases rb_removeMutD lo rm hf q with ⟨h1, h2⟩ | ⟨m', ⟨k, v⟩, pre, l, kept, rr, post, h1, hsz, h2, h3, h4, h5, h6, h7, h8, _, hle, h9⟩
  · refine ⟨fun _ => by simp [rbSetRemoveMutD, h2], fun v hv => ?_⟩
    rw [hget, h1] at hv; simp at hv
  · refine ⟨fun hn => by rw [hget, h2] at hn; simp at hn, fun v' hv => ?_⟩
    rw [hget, h2] at hv
    simp only [Option.map_some, Option.some.injEq] at hv
    subst hv
    refine ⟨⟨m'⟩, pre.map (·.1), l.map (·.1), kept.map (·.1), rr.map (·.1), post.map (·.1), by simp [rbSetRemoveMutD, h1], hsz, ?_, ?_, ?_,
      by simpa using h5.map (·.1), by simpa using h6, ?_, fun q' => ?_⟩
    · rw [show rbSetItems A o s = .ok s.items from r.serialize lo hf, RBSet.items, h3]; simp
    · have := List.find?_some h2
      simpa [OrdKeys.hits] using this
    · have := (h9 fun p => p.1).drain (fuel := m'.getSize + 1) (by rw [List.length_map]; show _ < m'.size + 1; omega)
      rw [h4, List.map_append, List.map_append] at this
      exact this
    · intro h
      rw [h7 (by simpa using h)]; simp
    · rw [RBSet.get, RBMap.getKeyValue, h8, mapGet, ← List.map_append, ← List.map_append, List.find?_map]
      simp only [OrdKeys.hits, Function.comp_def]
      cases (pre ++ kept ++ post).find? fun p => o.cmpQ q' (o.borrow p.1) == .eq <;> rfl

/-! ### C74: hash trie maps and sets -/

/-- What the two operations leave when they lose a pair: `m'` is `m` without the entries hit. -/
structure HTLost (A : Arch) (o : HashKeys H K Q) (m m' : HTMap H K V) (hit : K → Bool) (kh : UInt64) : Prop where
  size : m'.size = m.size
  perm : m'.root.entries.Perm (m.root.entries.filter fun e => !hit e.key)
  found : ∀ x ∈ m'.root.entries, ∀ q', o.eqKQ x.key q' = true → m'.lookup A o q' = .ok (some x)
  same : ∀ q', o.hashQ m.hasher q' ≠ kh → m'.lookup A o q' = m.lookup A o q'
  walk : m'.root.Walk
  le : m'.root.entries.length ≤ m'.size

theorem HTLost.of {A : Arch} {o : HashKeys H K Q} (lo : o.Lawful) {k : Nat} {m : HTMap H K V} {l : List (K × V)} (r : m.Rep A o k l)
    {n' : HNode K V} {hit : K → Bool} {kh : UInt64} (h : HNode.Gone A o m.hasher k kh (fun e => hit e.key) m.root n' 0) :
    HTLost A o m { m with root := n' } hit kh := by
  have hsame : ∀ q', o.hashQ m.hasher q' ≠ kh → ({ m with root := n' } : HTMap H K V).lookup A o q' = m.lookup A o q' := by
    intro q' hq
    have := h.same q' hq (fun j hj => absurd hj (Nat.not_lt_zero j))
    simp only [HTMap.lookup, r.degree, this]
  refine ⟨rfl, h.perm, ?_, hsame, h.walk, ?_⟩
  · intro x hx q' hq'
    have hx0 : x ∈ m.root.entries := (List.mem_filter.1 (h.perm.mem_iff.1 hx)).1
    have hkh : x.keyHash = o.hashQ m.hasher q' := by rw [r.good x hx0, lo.hash_borrow, lo.hash_eq _ _ _ hq']
    by_cases he : o.hashQ m.hasher q' = kh
    · have := h.found q' he x hx (hkh.trans he) hq'
      simp only [HTMap.lookup, r.degree, he, this]
    · rw [hsame q' he, HTMap.lookup, r.degree, HNode.get_eq lo r.conf m.hasher q' m.root 0 (by omega) r.ok r.good,
        HNode.find_one ((r.apart lo).atMostOne lo q') hx0 hq']
  · show n'.entries.length ≤ m.size
    rw [h.perm.length_eq, r.size, ← r.perm.length_eq, List.length_map]; exact List.length_filter_le _ _

theorem ht_lookup {A : Arch} {o : HashKeys H K Q} (lo : o.Lawful) {k : Nat} {m : HTMap H K V} {l : List (K × V)} (r : m.Rep A o k l) (q : Q) :
    ∃ x, m.lookup A o q = .ok x ∧ m.root.entries.any (fun e => o.eqKQ e.key q) = x.isSome :=
  ⟨_, by rw [HTMap.lookup, r.degree]; exact HNode.get_eq lo r.conf m.hasher q m.root 0 (by omega) r.ok r.good, HNode.any_hit.symm⟩

theorem ht_removeMutD {A : Arch} {o : HashKeys H K Q} (lo : o.Lawful) {k : Nat} {m : HTMap H K V} {l : List (K × V)} (r : m.Rep A o k l) (q : Q) :
    (m.lookup A o q = .ok none ∧ m.removeMutD A o q = .ok none) ∨
    ∃ x m', m.lookup A o q = .ok (some x) ∧ m.removeMutD A o q = .ok (some m') ∧
      HTLost A o m m' (fun y => o.eqKQ y q) (o.hashQ m.hasher q) := by
  obtain ⟨h1, h2⟩ := HNode.removeD_ok lo r.conf m.hasher q m.root r.ok r.good (r.apart lo)
  obtain ⟨x, h3, h4⟩ := ht_lookup lo r q
  rw [h4] at h1 h2
  cases x with
  | none => exact .inl ⟨h3, by simp [HTMap.removeMutD, HNode.clone_eq, r.degree, h1 rfl]⟩
  | some x =>
    obtain ⟨n', h5, h6⟩ := h2 rfl
    exact .inr ⟨x, { m with root := n' }, h3, by simp [HTMap.removeMutD, HNode.clone_eq, r.degree, h5], .of lo r h6⟩

theorem ht_insertMutD {A : Arch} {o : HashKeys H K Q} (lo : o.Lawful) {k : Nat} {m : HTMap H K V} {l : List (K × V)} (r : m.Rep A o k l)
    (key : K) (value : V) :
    (m.lookup A o (o.borrow key) = .ok none ∧ m.insertMutD A o key value = .ok none) ∨
    ∃ x m', m.lookup A o (o.borrow key) = .ok (some x) ∧ m.insertMutD A o key value = .ok (some m') ∧
      (m.insertMut A o key value = .ok m' ∨ (HTLost A o m m' (fun y => o.eqK y key) (o.hashK m.hasher key) ∧
        ∃ x ∈ m'.root.entries, o.hashK m.hasher x.key = o.hashK m.hasher key)) := by
  obtain ⟨h1, h2⟩ := HNode.insertD_ok lo r.conf m.hasher (HEntry.new o m.hasher key value) rfl m.root r.ok r.good (r.apart lo)
  obtain ⟨x, h3, h4⟩ := ht_lookup lo r (o.borrow key)
  have hbor : (fun e : HEntry K V => o.eqKQ e.key (o.borrow key)) = fun e => o.eqK e.key key := by
    funext e; exact (lo.eq_borrow e.key key).symm
  rw [hbor] at h4
  simp only [show (HEntry.new o m.hasher key value).key = key from rfl, h4] at h1 h2
  cases x with
  | none => exact .inl ⟨h3, by simp [HTMap.insertMutD, HNode.clone_eq, r.degree, h1 rfl]⟩
  | some x =>
    obtain ⟨n', h5, hcase⟩ := h2 rfl
    refine .inr ⟨x, { m with root := n' }, h3, by simp [HTMap.insertMutD, HNode.clone_eq, r.degree, h5], ?_⟩
    rcases hcase with hdone | ⟨hgone, y, hy, hyh, hyk⟩
    · left
      have := hdone HTMap.insertFuel (by simp only [HNode.need, HTMap.insertFuel]; split <;> omega)
      rw [HTMap.insertMut, HNode.clone_eq, r.degree]
      simp only [this, Res.ok_bind]
      simp
    · right
      refine ⟨.of lo r hgone, y, hgone.perm.mem_iff.2 (List.mem_filter.2 ⟨hy, by simp [hyk]⟩), ?_⟩
      exact (r.good y hy).symm.trans hyh

theorem HTLost.mapItems {A : Arch} {o : HashKeys H K Q} {m m' : HTMap H K V} {hit : K → Bool} {kh : UInt64} (h : HTLost A o m m' hit kh) :
    mapItems m' = .ok (m'.root.entries.map HTMap.pair) :=
  ((HIter.walks_new h.walk h.le).drives HTMap.pair).drain (by rw [List.length_map]; exact Nat.lt_succ_of_le h.le)

theorem HTLost.perm_pairs {A : Arch} {o : HashKeys H K Q} {m m' : HTMap H K V} {hit : K → Bool} {kh : UInt64} (h : HTLost A o m m' hit kh) :
    (m'.root.entries.map HTMap.pair).Perm ((m.root.entries.map HTMap.pair).filter fun p => !hit p.1) := by
  have := h.perm.map HTMap.pair
  rwa [show (List.map HTMap.pair (m.root.entries.filter fun x => !hit x.key)) =
    (m.root.entries.map HTMap.pair).filter (fun p => !hit p.1) by rw [List.filter_map]; rfl] at this

theorem HTLost.pair_found {A : Arch} {o : HashKeys H K Q} {m m' : HTMap H K V} {hit : K → Bool} {kh : UInt64} (h : HTLost A o m m' hit kh) :
    ∀ p ∈ m'.root.entries.map HTMap.pair, ∀ q', o.eqKQ p.1 q' = true → m'.get A o q' = .ok (some p.2) := by
  intro p hp q' hq'
  obtain ⟨x, hx, rfl⟩ := List.mem_map.1 hp
  rw [HTMap.get, h.found x hx q' hq']
  rfl

theorem HTLost.pair_same {A : Arch} {o : HashKeys H K Q} {m m' : HTMap H K V} {hit : K → Bool} {kh : UInt64} (h : HTLost A o m m' hit kh) :
    ∀ q', o.hashQ m.hasher q' ≠ kh → m'.get A o q' = m.get A o q' := by
  intro q' hq'
  rw [HTMap.get, HTMap.get, h.same q' hq']

theorem ht_get_some {A : Arch} {o : HashKeys H K Q} {m : HTMap H K V} {q : Q} {x : Option (HEntry K V)} (h : m.lookup A o q = .ok x) :
    m.get A o q = .ok (x.map fun e => e.value) := by rw [HTMap.get, h]; rfl

/-- C74.  A `remove_mut` of a hash trie map whose pair panics while it is dropped: exactly that pair is gone, the size stays, iterating
gives the other pairs, these are all found, and lookups of keys with other hashes answer as before. -/
theorem C74_ht_map_remove_mut (A : Arch) (hA : HTMap.StdWord A) (o : HashKeys H K Q) (lo : o.Lawful) (m : HTMap H K V)
    (hm : HTMap.Reach A o m) (q : Q) :
    (m.get A o q = .ok none → m.removeMutD A o q = .ok none) ∧
    (∀ v, m.get A o q = .ok (some v) → ∃ m' items items', m.removeMutD A o q = .ok (some m') ∧ m'.getSize = m.getSize ∧
      mapItems m = .ok items ∧ mapItems m' = .ok items' ∧ items'.Perm (items.filter fun p => !o.eqKQ p.1 q) ∧
      (∀ p ∈ items', ∀ q', o.eqKQ p.1 q' = true → m'.get A o q' = .ok (some p.2)) ∧
      ∀ q', o.hashQ m.hasher q' ≠ o.hashQ m.hasher q → m'.get A o q' = m.get A o q') := by
  obtain ⟨l, k, r⟩ := hm.rep hA lo
  rcases ht_removeMutD lo r q with ⟨h1, h2⟩ | ⟨x, m', h1, h2, h3⟩
  · exact ⟨fun _ => h2, fun v hv => (by rw [ht_get_some h1] at hv; cases hv)⟩
  · exact ⟨fun hn => (by rw [ht_get_some h1] at hn; cases hn),
      fun v _ => ⟨m', _, _, h2, h3.size, rep_mapItems r, h3.mapItems, h3.perm_pairs, h3.pair_found, h3.pair_same⟩⟩

/-- C74.  An `insert_mut` of a hash trie map that replaces a pair whose drop panics: it has done what it does without the panic, or, and
only if another key in the map has the same hash, the old pair is gone and the new one is not there, the size and all else being as in
the theorem above. -/
theorem C74_ht_map_insert_mut (A : Arch) (hA : HTMap.StdWord A) (o : HashKeys H K Q) (lo : o.Lawful) (m : HTMap H K V)
    (hm : HTMap.Reach A o m) (key : K) (value : V) :
    (m.get A o (o.borrow key) = .ok none → m.insertMutD A o key value = .ok none) ∧
    (∀ v, m.get A o (o.borrow key) = .ok (some v) → ∃ m', m.insertMutD A o key value = .ok (some m') ∧
      (m.insertMut A o key value = .ok m' ∨ ∃ items items', m'.getSize = m.getSize ∧
        mapItems m = .ok items ∧ mapItems m' = .ok items' ∧ items'.Perm (items.filter fun p => !o.eqK p.1 key) ∧
        (∃ p ∈ items', o.hashK m.hasher p.1 = o.hashK m.hasher key) ∧
        (∀ p ∈ items', ∀ q', o.eqKQ p.1 q' = true → m'.get A o q' = .ok (some p.2)) ∧
        ∀ q', o.hashQ m.hasher q' ≠ o.hashK m.hasher key → m'.get A o q' = m.get A o q')) := by
  obtain ⟨l, k, r⟩ := hm.rep hA lo
  rcases ht_insertMutD lo r key value with ⟨h1, h2⟩ | ⟨x, m', h1, h2, h3⟩
  · exact ⟨fun _ => h2, fun v hv => (by rw [ht_get_some h1] at hv; cases hv)⟩
  · refine ⟨fun hn => (by rw [ht_get_some h1] at hn; cases hn), fun v _ => ⟨m', h2, ?_⟩⟩
    rcases h3 with h3 | ⟨h3, y, hy, hyh⟩
    · exact .inl h3
    · exact .inr ⟨_, _, h3.size, rep_mapItems r, h3.mapItems, h3.perm_pairs, ⟨_, List.mem_map_of_mem hy, hyh⟩, h3.pair_found, h3.pair_same⟩

/-- `HashTrieSet::remove_mut` (hash_trie_set/mod.rs:177-183) when the drop of the removed element panics. -/
def htSetRemoveMutD (A : Arch) (o : HashKeys H T Q) (s : HTSet H T) (v : Q) : Res (Option (HTSet H T)) := do
  let map ← s.map.removeMutD A o v
  pure (map.map fun map => { map })

/-- `HashTrieSet::insert_mut` (hash_trie_set/mod.rs:164-166) when the drop of the replaced element panics. -/
def htSetInsertMutD (A : Arch) (o : HashKeys H T Q) (s : HTSet H T) (v : T) : Res (Option (HTSet H T)) := do
  let map ← s.map.insertMutD A o v ()
  pure (map.map fun map => { map })

theorem HTLost.setItems {A : Arch} {o : HashKeys H T Q} {m m' : HTMap H T Unit} {hit : T → Bool} {kh : UInt64} (h : HTLost A o m m' hit kh) :
    setItems ⟨m'⟩ = .ok (m'.root.entries.map fun e => e.key) :=
  ((HIter.walks_new h.walk h.le).drives fun e => e.key).drain (by rw [List.length_map]; exact Nat.lt_succ_of_le h.le)

theorem HTLost.perm_keys {A : Arch} {o : HashKeys H T Q} {m m' : HTMap H T Unit} {hit : T → Bool} {kh : UInt64} (h : HTLost A o m m' hit kh) :
    (m'.root.entries.map fun e => e.key).Perm ((m.root.entries.map fun e => e.key).filter fun p => !hit p) := by
  have := h.perm.map fun e => e.key
  rwa [show ((m.root.entries.filter fun x => !hit x.key).map fun e => e.key) =
    (m.root.entries.map fun e => e.key).filter (fun p => !hit p) by rw [List.filter_map]; rfl] at this

theorem HTLost.key_found {A : Arch} {o : HashKeys H T Q} {m m' : HTMap H T Unit} {hit : T → Bool} {kh : UInt64} (h : HTLost A o m m' hit kh) :
    ∀ p ∈ m'.root.entries.map fun e => e.key, ∀ q', o.eqKQ p q' = true → (⟨m'⟩ : HTSet H T).get A o q' = .ok (some p) := by
  intro p hp q' hq'
  obtain ⟨x, hx, rfl⟩ := List.mem_map.1 hp
  rw [HTSet.get, HTMap.getKeyValue, h.found x hx q' hq']
  rfl

theorem HTLost.key_same {A : Arch} {o : HashKeys H T Q} {m m' : HTMap H T Unit} {hit : T → Bool} {kh : UInt64} (h : HTLost A o m m' hit kh) :
    ∀ q', o.hashQ m.hasher q' ≠ kh → (⟨m'⟩ : HTSet H T).get A o q' = (⟨m⟩ : HTSet H T).get A o q' := by
  intro q' hq'
  simp only [HTSet.get, HTMap.getKeyValue, h.same q' hq']

theorem ht_set_get {A : Arch} {o : HashKeys H T Q} {s : HTSet H T} {q : Q} {x : Option (HEntry T Unit)} (h : s.map.lookup A o q = .ok x) :
    s.get A o q = .ok (x.map fun e => e.key) := by rw [HTSet.get, HTMap.getKeyValue, h]; cases x <;> rfl

/-- C74 for `remove_mut` of hash trie sets. -/
theorem C74_ht_set_remove_mut (A : Arch) (hA : HTMap.StdWord A) (o : HashKeys H T Q) (lo : o.Lawful) (s : HTSet H T)
    (hs : HTSet.Reach A o s) (q : Q) :
    (s.get A o q = .ok none → htSetRemoveMutD A o s q = .ok none) ∧
    (∀ x, s.get A o q = .ok (some x) → ∃ s' items items', htSetRemoveMutD A o s q = .ok (some s') ∧ s'.size = s.size ∧
      setItems s = .ok items ∧ setItems s' = .ok items' ∧ items'.Perm (items.filter fun y => !o.eqKQ y q) ∧
      (∀ y ∈ items', ∀ q', o.eqKQ y q' = true → s'.get A o q' = .ok (some y)) ∧
      ∀ q', o.hashQ s.map.hasher q' ≠ o.hashQ s.map.hasher q → s'.get A o q' = s.get A o q') := by
  obtain ⟨l, k, r⟩ := hs.rep hA lo
  rcases ht_removeMutD lo (m := s.map) r q with ⟨h1, h2⟩ | ⟨x, m', h1, h2, h3⟩
  · exact ⟨fun _ => by simp [htSetRemoveMutD, h2], fun v hv => (by rw [ht_set_get h1] at hv; cases hv)⟩
  · exact ⟨fun hn => (by rw [ht_set_get h1] at hn; cases hn),
      fun v _ => ⟨⟨m'⟩, _, _, by simp [htSetRemoveMutD, h2], h3.size, rep_setItems r, h3.setItems, h3.perm_keys, h3.key_found, h3.key_same⟩⟩

/-- C74 for `insert_mut` of hash trie sets. -/
theorem C74_ht_set_insert_mut (A : Arch) (hA : HTMap.StdWord A) (o : HashKeys H T Q) (lo : o.Lawful) (s : HTSet H T)
    (hs : HTSet.Reach A o s) (v : T) :
    (s.get A o (o.borrow v) = .ok none → htSetInsertMutD A o s v = .ok none) ∧
    (∀ x, s.get A o (o.borrow v) = .ok (some x) → ∃ s', htSetInsertMutD A o s v = .ok (some s') ∧
      (s.insertMut A o v = .ok s' ∨ ∃ items items', s'.size = s.size ∧
        setItems s = .ok items ∧ setItems s' = .ok items' ∧ items'.Perm (items.filter fun y => !o.eqK y v) ∧
        (∃ y ∈ items', o.hashK s.map.hasher y = o.hashK s.map.hasher v) ∧
        (∀ y ∈ items', ∀ q', o.eqKQ y q' = true → s'.get A o q' = .ok (some y)) ∧
        ∀ q', o.hashQ s.map.hasher q' ≠ o.hashK s.map.hasher v → s'.get A o q' = s.get A o q')) := by
  obtain ⟨l, k, r⟩ := hs.rep hA lo
  rcases ht_insertMutD lo (m := s.map) r v () with ⟨h1, h2⟩ | ⟨x, m', h1, h2, h3⟩
  · exact ⟨fun _ => by simp [htSetInsertMutD, h2], fun v hv => (by rw [ht_set_get h1] at hv; cases hv)⟩
  · refine ⟨fun hn => (by rw [ht_set_get h1] at hn; cases hn), fun v _ => ⟨⟨m'⟩, by simp [htSetInsertMutD, h2], ?_⟩⟩
    rcases h3 with h3 | ⟨h3, y, hy, hyh⟩
    · exact .inl (by simp [HTSet.insertMut, h3])
    · exact .inr ⟨_, _, h3.size, rep_setItems r, h3.setItems, h3.perm_keys, ⟨_, List.mem_map.2 ⟨y, hy, rfl⟩, hyh⟩, h3.key_found, h3.key_same⟩

/-! ### C75: dropping a list -/

/-- C75.  Dropping a list that owns its nodes.  If no element panics, node drops do not nest and the drop finishes.  If exactly one
panics, the rest of the list is dropped by nested calls, one inside the other, as many as elements follow.  If a second one panics, the
process aborts, that deep inside the nested calls. -/
theorem C75_list_drop (bomb : T → Bool) (xs : List T) :
    ((∀ x ∈ xs, bomb x = false) → listDrop bomb xs = (min 1 xs.length, .done)) ∧
    (∀ pre x post, xs = pre ++ x :: post → bomb x = true → (∀ y ∈ pre, bomb y = false) →
      ((∀ y ∈ post, bomb y = false) → listDrop bomb xs = (max 1 post.length, .panicked)) ∧
      (∀ mid y rest, post = mid ++ y :: rest → bomb y = true → (∀ z ∈ mid, bomb z = false) →
        listDrop bomb xs = (mid.length + 1, .aborted))) := by
  refine ⟨listDrop_calm xs, ?_⟩
  rintro pre x post rfl hx hp
  refine ⟨fun hq => listDrop_one pre post x (fun y hy => ?_) hx, ?_⟩
  · rcases List.mem_append.1 hy with h | h
    · exact hp y h
    · exact hq y h
  · rintro mid y rest rfl hy hm
    refine listDrop_two pre mid rest x y (fun z hz => ?_) hx hy
    rcases List.mem_append.1 hz with h | h
    · exact hp z h
    · exact hm z h

/-- C75: there is no bound on the nesting.  For every `n` there is a list, with one element that panics, whose drop nests `n` deep. -/
theorem C75_list_drop_unbounded (n : Nat) : ∃ (xs : List Nat) (bomb : Nat → Bool), (xs.filter bomb).length = 1 ∧
    (listDrop bomb xs) = (max 1 n, .panicked) := by
  refine ⟨1 :: List.replicate n 0, (· == 1), by simp, ?_⟩
  have := listDrop_one (bomb := (· == 1)) [] (List.replicate n 0) 1 (fun y hy => by simp at hy; simp [hy.2]) rfl
  simpa using this

/-! ### Consequences -/

/-- The panic of a computation, if any. -/
def panicOf {α : Type} : Res α → Option Panic
  | .ok _ => none
  | .error e => some e

/-- A map of the pairs `(i, i)` for `i < n`, after a `remove_mut` of `q` whose pair panicked while it was dropped. -/
def exRBDropped (A : Arch) (n q : Nat) : Res (RBMap Nat Nat) := do
  let m ← RBMap.fromIter exUsual ((List.range n).map fun i => (i, i))
  match ← m.removeMutD A exUsual q with
  | some m => pure m
  | none => .error .diverge

/-- C74, examples.  In a map of the keys 0 to 30 a panic while the pair of key 15 (the root) is dropped leaves two pairs; the size is 31.
In a map of three keys a panic in `remove_mut(0)` leaves a map in which `remove_mut(2)` panics (`unreachable!`), and in one of five keys a
panic in `remove_mut(4)` one in which `remove_mut(0)` panics (an `unwrap` of `None`). -/
theorem C74_rb_map_examples :
    (do let m ← exRBDropped dbg64 31 15; let items ← rbItems dbg64 exUsual m; pure (m.getSize, items)) = .ok (31, [(14, 14), (16, 16)]) ∧
    (do let m ← exRBDropped dbg64 3 0; pure (panicOf (m.removeMut dbg64 exUsual 2))) = .ok (some .unreachable) ∧
    (do let m ← exRBDropped dbg64 5 4; pure (panicOf (m.removeMut dbg64 exUsual 0))) = .ok (some .unwrapNone) := by
  refine ⟨?_, ?_, ?_⟩ <;> decide +kernel

/-- The same for a hash trie map of degree 64 with the hash function `h`. -/
def exHTDropped (A : Arch) (h : Nat → UInt64) (n q : Nat) : Res (HTMap Nat Nat Nat) := do
  let m ← htBuild A (exHKeys h) (0, 64, (List.range n).map fun i => (i, i))
  match ← m.removeMutD A (exHKeys h) q with
  | some m => pure m
  | none => .error .diverge

/-- The same with an `insert_mut` of `(key, 7)` whose replaced pair panicked. -/
def exHTReplace (A : Arch) (h : Nat → UInt64) (n key : Nat) : Res (HTMap Nat Nat Nat) := do
  let m ← htBuild A (exHKeys h) (0, 64, (List.range n).map fun i => (i, i))
  match ← m.insertMutD A (exHKeys h) key 7 with
  | some m => pure m
  | none => .error .diverge

/-- C74, examples.  Two keys whose hashes differ in the four highest bits only, so that both are at the deepest level: a panic in `remove_mut(0)` leaves a map in which `get(0)`,
`insert_mut(0, _)` and `remove_mut(0)` panic, while `get(1)` finds the pair.  Two keys with the same hash: a panic in `remove_mut(0)`
leaves a map in which `remove_mut(1)` panics (`unreachable!`), in debug and release builds.  Three keys with the same hash: a panic while
`insert_mut(1, 7)` drops the old pair loses the pair of key 1; the size is 3. -/
theorem C74_ht_map_examples :
    (do let m ← exHTDropped dbg64 (fun k => UInt64.ofNat k <<< 60) 2 0
        pure (panicOf (m.get dbg64 (exHKeys fun k => UInt64.ofNat k <<< 60) 0), panicOf (m.insertMut dbg64 (exHKeys fun k => UInt64.ofNat k <<< 60) 0 7),
          panicOf (m.removeMut dbg64 (exHKeys fun k => UInt64.ofNat k <<< 60) 0), ← m.get dbg64 (exHKeys fun k => UInt64.ofNat k <<< 60) 1)) =
      .ok (some .unwrapNone, some .unwrapNone, some .unwrapNone, some 1) ∧
    (do let m ← exHTDropped dbg64 (fun _ => 5) 2 0; pure (panicOf (m.removeMut dbg64 (exHKeys fun _ => 5) 1))) = .ok (some .unreachable) ∧
    (do let m ← exHTDropped ⟨.release, 64⟩ (fun _ => 5) 2 0; pure (panicOf (m.removeMut ⟨.release, 64⟩ (exHKeys fun _ => 5) 1))) = .ok (some .unreachable) ∧
    (do let m ← exHTReplace dbg64 (fun _ => 5) 3 1; pure (m.getSize, ← mapItems m)) = .ok (3, [(2, 2), (0, 0)]) := by
  refine ⟨?_, ?_, ?_, ?_⟩ <;> decide +kernel

/-- A vector of `0 … n-1` with `bits = 1`, after a `drop_last_mut` whose element panicked while it was dropped. -/
def exVecDropped (A : Arch) (n : Nat) : Res (RVector Nat) := do
  let v ← vecBuild A (1, List.range n)
  match ← v.dropLastMutD with
  | some v => pure v
  | none => .error .diverge

/-- C74, examples.  Vectors of 4 and 3 elements with two slots per node.  In the first, iterating stops early; after `push_back_mut(77)`
the index 3 panics and the index 4 gives 77.  In the second, iterating panics, and so does `push_back_mut`.  After another
`drop_last_mut` the first has the length 3 and, in release builds, answers wrongly without a panic: index 1 gives 0 and index 2 gives 1. -/
theorem C74_vector_examples :
    (do let v ← exVecDropped dbg64 4; pure (v.len, ← vecItems dbg64 v)) = .ok (4, [0, 1, 2]) ∧
    (do let v ← exVecDropped dbg64 4; let w ← v.pushBackMut dbg64 77; pure (panicOf (w.get dbg64 3), ← w.get dbg64 4)) =
      .ok (some .indexOutOfBounds, some 77) ∧
    (do let v ← exVecDropped dbg64 3; pure (panicOf (vecItems dbg64 v), panicOf (v.pushBackMut dbg64 77))) =
      .ok (some .indexOutOfBounds, some .indexOutOfBounds) ∧
    (do let v ← exVecDropped ⟨.release, 64⟩ 4; let (_, w) ← v.dropLastMut ⟨.release, 64⟩
        pure (w.len, ← w.get ⟨.release, 64⟩ 0, ← w.get ⟨.release, 64⟩ 1, ← w.get ⟨.release, 64⟩ 2)) = .ok (3, some 0, some 0, some 1) := by
  refine ⟨?_, ?_, ?_, ?_⟩ <;> decide +kernel

/-- C74, an example: a queue, a vector and a map after a panic in `dequeue_mut`, `set_mut(1, 9)` and `insert_mut(1, 9)`. -/
example :
    (do let q ← (((Queue.new : Queue Nat).enqueueMut 1).enqueueMut 2).dequeueMutD; pure (q.map queueItems)) = .ok (some (Except.ok [2])) ∧
    (do let v ← vecBuild dbg64 (1, [0, 1, 2]); let w ← v.setMutD dbg64 1 9; pure (w.map (vecItems dbg64))) = .ok (some (Except.ok [0, 9, 2])) ∧
    (do let m ← RBMap.fromIter exUsual [(0, 0), (1, 1), (2, 2)]; pure ((m.insertMutD exUsual 1 9).map (rbItems dbg64 exUsual))) =
      .ok (some (Except.ok [(0, 0), (1, 9), (2, 2)])) := by
  decide +kernel

/-- C75, an example: seven elements, the second of which panics. -/
example : listDrop (· == 1) (List.range 7) = (5, .panicked) ∧ listDrop (· == 9) (List.range 7) = (1, .done) ∧
    listDrop (fun x => x == 1 || x == 4) (List.range 7) = (3, .aborted) := by decide

end Rpds.Props
