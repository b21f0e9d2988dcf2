import Verif.Props.HashOrder
import Verif.Props.RedBlack
import Verif.Props.Linear
import Verif.Props.Vector
import Verif.Vector.Canonical
import Verif.HashTrie.Canonical
/-
Property C69: which structures have a canonical form, i.e. are a function of their contents and not of their history.
-/
set_option autoImplicit false
namespace Rpds.Props
open Spec
variable {H K V V' Q T : Type}

/-! ### Lists, stacks, vectors -/

theorem link_unique : ∀ {l l' : Link T}, l.toList = l'.toList → l = l'
  | .none, .none, _ => rfl
  | .none, .some _ _, h => by simp [Link.toList] at h
  | .some _ _, .none, h => by simp [Link.toList] at h
  | .some x n, .some x' n', h => by
    simp only [Link.toList, List.cons.injEq] at h
    rw [h.1, link_unique h.2]

/-- C69.  Two lists with the same items are the same, field for field and node for node. -/
theorem C69_list_canonical (l l' : RList T) (hl : RList.Reach l) (hl' : RList.Reach l') (h : listItems l = listItems l') : l = l' := by
  obtain ⟨xs, r⟩ := hl.rep
  obtain ⟨xs', r'⟩ := hl'.rep
  rw [rep_items r, rep_items r'] at h
  cases h
  have h1 : l.head = l'.head := link_unique (by rw [r.head, r'.head])
  have h2 : l.last = l'.last := by rw [r.last, r'.last]
  have h3 : l.length = l'.length := by rw [r.length, r'.length]
  cases l; cases l'
  simp_all

/-- C69.  Two vectors with the same items and the same `bits` are the same, node for node. -/
theorem C69_vector_canonical (A : Arch) (v w : RVector T) (hv : RVector.Reach A v) (hw : RVector.Reach A w) (hb : v.bits = w.bits)
    (h : vecItems A v = vecItems A w) : v = w := by
  obtain ⟨xs, hh, r⟩ := hv.rep
  obtain ⟨xs', hh', r'⟩ := hw.rep
  rw [rep_vitems r, rep_vitems r'] at h
  cases h
  exact r.unique r' hb

/-- A vector that grew to five items, shrank to two and grew again. -/
example : ∃ w, RVector.Reach dbg64 w ∧ w.bits = vec5.bits ∧ vecItems dbg64 w = vecItems dbg64 vec5 ∧
    (do let w1 ← (vec5.dropLast dbg64); let w2 ← unwrap w1; w2.pushBack dbg64 5) = .ok w := by
  obtain ⟨w1, h1⟩ : ∃ w1, RVector.step dbg64 vec5 .dropLast = .ok (.bool true, .fresh w1) ∧
    RVector.step dbg64 w1 (.pushBack 5) = .ok (.unit, .fresh vec5) ∧
    (vec5.dropLast dbg64) = .ok (some w1) ∧ w1.pushBack dbg64 5 = .ok vec5 ∧ w1.len + 1 ≤ vecCap dbg64 w1.bits :=
      ⟨⟨.branch [.leaf [1, 2], .leaf [3, 4]], 1, 4⟩, rfl, rfl, rfl, rfl, by decide⟩
  refine ⟨vec5, .fresh (.fresh vec5_reach (op := .dropLast) (by decide) h1.1) (op := .pushBack 5) h1.2.2.2.2 h1.2.1, rfl, rfl, ?_⟩
  rw [h1.2.2.1]
  exact h1.2.2.2.1

/-! ### Hash tries -/

/-- The hashes of the keys that iteration gives. -/
def keyHashes (o : HashKeys H K Q) (m : HTMap H K V) : Res (List UInt64) := (mapItems m).map fun l => l.map fun p => o.hashK m.hasher p.1

theorem rep_keyHashes {A : Arch} {o : HashKeys H K Q} {k : Nat} {m : HTMap H K V} {l : List (K × V)} (r : m.Rep A o k l) :
    keyHashes o m = .ok m.root.hashes := by
  rw [keyHashes, rep_mapItems r, HNode.hashes]
  simp only [Except.map, List.map_map, Except.ok.injEq]
  refine List.map_congr_left fun e he => ?_
  exact (r.good e he).symm

/-- C69.  The trie of a hash map is the one its hashes determine: below the root a single hash is a bucket, several hashes are
divided by their next bits, and equal ones share a bucket when the bits are used up.  The exception is a map with one pair, whose root may
be the bucket itself. -/
theorem C69_hash_map_shape (A : Arch) (hA : HTMap.StdWord A) (o : HashKeys H K Q) (lo : o.Lawful) (m : HTMap H K V)
    (hm : HTMap.Reach A o m) :
    ∃ k hs, m.degree = 2 ^ k ∧ keyHashes o m = .ok hs ∧
      (m.root.skeleton A = rootOf k hs ∨ ∃ h, hs = [h] ∧ m.root.skeleton A = .bucket h 1) := by
  obtain ⟨l, k, r⟩ := hm.rep hA lo
  exact ⟨k, _, r.degree, rep_keyHashes r, HNode.root_skeleton r.conf.pos r.ok (.refl _)⟩

/-- Lists whose members match each other one to one. -/
theorem perm_of_matching {α β γ : Type} {R : α → β → Prop} {f : α → γ} {g : β → γ} (hR : ∀ a b, R a b → f a = g b) :
    ∀ {xs : List α} {ys : List β}, xs.Pairwise (fun a a' => ∀ b, R a b → R a' b → False) →
    ys.Pairwise (fun b b' => ∀ a, R a b → R a b' → False) → (∀ x ∈ xs, ∃ y ∈ ys, R x y) → (∀ y ∈ ys, ∃ x ∈ xs, R x y) →
    (xs.map f).Perm (ys.map g) := by
  intro xs
  induction xs with
  | nil =>
    intro ys _ _ _ h2
    cases ys with
    | nil => exact .refl _
    | cons y ys => obtain ⟨x, hx, _⟩ := h2 y (by simp); cases hx
  | cons x xs ih =>
    intro ys hx hy h1 h2
    obtain ⟨y, hy', hxy⟩ := h1 x (by simp)
    obtain ⟨s, t, rfl⟩ := List.append_of_mem hy'
    have hp : (s ++ y :: t).Perm (y :: (s ++ t)) := List.perm_middle
    have hy2 : (y :: (s ++ t)).Pairwise (fun b b' => ∀ a, R a b → R a b' → False) :=
      hp.pairwise hy fun h a h1 h2 => h a h2 h1
    rw [List.pairwise_cons] at hx hy2
    refine .trans ?_ (hp.map g).symm
    rw [List.map_cons, List.map_cons, hR x y hxy]
    refine .cons _ (ih hx.2 hy2.2 ?_ ?_)
    · intro x' hx'
      obtain ⟨y', hy', h⟩ := h1 x' (by simp [hx'])
      rcases List.mem_cons.1 (hp.mem_iff.1 hy') with rfl | h'
      · exact (hx.1 x' hx' _ hxy h).elim
      · exact ⟨y', h', h⟩
    · intro y' hy'
      obtain ⟨x', hx', h⟩ := h2 y' (hp.mem_iff.2 (by simp [hy']))
      rcases List.mem_cons.1 hx' with rfl | h'
      · exact (hy2.1 y' hy' _ hxy h).elim
      · exact ⟨x', h', h⟩

theorem rep_canonical {A : Arch} {o : HashKeys H K Q} (lo : o.Lawful) {m : HTMap H K V} {m' : HTMap H K V'} {k k' : Nat} {l : List (K × V)}
    {l' : List (K × V')} (r : m.Rep A o k l) (r' : m'.Rep A o k' l') (hh : m.hasher = m'.hasher) (hd : m.degree = m'.degree)
    (hk : ∀ q, m.containsKey A o q = m'.containsKey A o q) (h1 : m.getSize ≠ 1) : m.root.skeleton A = m'.root.skeleton A := by
  have hkk : k' = k := by
    have := r'.degree
    rw [← hd, r.degree] at this
    exact ((Nat.pow_right_inj (by decide)).1 this).symm
  subst hkk
  have any : ∀ {V : Type} (l : List (K × V)) q, (mapGet o.eqKQ l q).isSome = l.any fun p => o.eqKQ p.1 q := by
    intro V l q; rw [mapGet, Bool.eq_iff_iff, List.find?_isSome, List.any_eq_true]
  have hany : ∀ q, (l.any fun p => o.eqKQ p.1 q) = l'.any fun p => o.eqKQ p.1 q := by
    intro q
    have := hk q
    rw [r.containsKey lo q, r'.containsKey lo q, any, any] at this
    exact Except.ok.inj this
  have eqkq : ∀ a b : K, o.eqKQ a (o.borrow b) = o.eqK a b := fun a b => by rw [HashKeys.eqKQ, lo.eq_borrow]
  have heq := lo.equivK
  have hpl : (l.map fun p => o.hashK m.hasher p.1).Perm (l'.map fun p => o.hashK m.hasher p.1) := by
    refine perm_of_matching (R := fun (a : K × V) (b : K × V') => o.eqK a.1 b.1 = true) (fun a b h => lo.hashK_eq _ _ _ h) ?_ ?_ ?_ ?_
    · refine r.distinct.imp ?_
      intro a a' h b h1 h2
      rw [heq.trans _ _ _ h1 (heq.symm _ _ h2)] at h; cases h
    · refine r'.distinct.imp ?_
      intro b b' h a h1 h2
      rw [heq.trans _ _ _ (heq.symm _ _ h1) h2] at h; cases h
    · intro x hx
      have : (l.any fun p => o.eqKQ p.1 (o.borrow x.1)) = true := by
        rw [List.any_eq_true]; exact ⟨x, hx, by rw [eqkq]; exact heq.refl _⟩
      rw [hany, List.any_eq_true] at this
      obtain ⟨y, hy, h⟩ := this
      rw [eqkq] at h
      exact ⟨y, hy, heq.symm _ _ h⟩
    · intro y hy
      have : (l'.any fun p => o.eqKQ p.1 (o.borrow y.1)) = true := by
        rw [List.any_eq_true]; exact ⟨y, hy, by rw [eqkq]; exact heq.refl _⟩
      rw [← hany, List.any_eq_true] at this
      obtain ⟨x, hx, h⟩ := this
      rw [eqkq] at h
      exact ⟨x, hx, h⟩
  have hashes_perm : ∀ {V : Type} {m : HTMap H K V} {l : List (K × V)}, m.Rep A o k' l → (l.map fun p => o.hashK m.hasher p.1).Perm m.root.hashes := by
    intro V m l r
    have e : m.root.hashes = (m.root.entries.map HTMap.pair).map fun p => o.hashK m.hasher p.1 := by
      rw [HNode.hashes, List.map_map]
      exact List.map_congr_left fun e he => r.good e he
    rw [e]
    exact (r.perm.map _).symm
  have hs1 := HNode.root_skeleton r.conf.pos r.ok (hashes_perm r)
  have p2 := hashes_perm r'
  rw [← hh] at p2
  have hs2 := HNode.root_skeleton r'.conf.pos r'.ok (hpl.trans p2)
  have hlen : (l.map fun p => o.hashK m.hasher p.1).length ≠ 1 := by
    rw [List.length_map, ← r.size]; exact h1
  rcases hs1 with e1 | ⟨h, e1, _⟩
  · rcases hs2 with e2 | ⟨h, e2, _⟩
    · rw [e1, e2]
    · rw [e2] at hlen; exact absurd rfl hlen
  · rw [e1] at hlen; exact absurd rfl hlen

/-- C69.  Two hash maps with the same hasher and degree and the same keys, other than a single one, have the same trie up to the entries in
the buckets, however they were obtained and whatever collides. -/
theorem C69_hash_map_canonical (A : Arch) (hA : HTMap.StdWord A) (o : HashKeys H K Q) (lo : o.Lawful) (m : HTMap H K V) (m' : HTMap H K V')
    (hm : HTMap.Reach A o m) (hm' : HTMap.Reach A o m') (hh : m.hasher = m'.hasher) (hd : m.degree = m'.degree)
    (hk : ∀ q, m.containsKey A o q = m'.containsKey A o q) (h1 : m.getSize ≠ 1) :
    m.root.skeleton A = m'.root.skeleton A := by
  obtain ⟨l, k, r⟩ := hm.rep hA lo
  obtain ⟨l', k', r'⟩ := hm'.rep hA lo
  exact rep_canonical lo r r' hh hd hk h1

/-- C69 for sets. -/
theorem C69_hash_set_canonical (A : Arch) (hA : HTMap.StdWord A) (o : HashKeys H T Q) (lo : o.Lawful) (s s' : HTSet H T)
    (hs : HTSet.Reach A o s) (hs' : HTSet.Reach A o s') (hh : s.map.hasher = s'.map.hasher) (hd : s.map.degree = s'.map.degree)
    (hk : ∀ q, s.contains A o q = s'.contains A o q) (h1 : s.size ≠ 1) :
    s.map.root.skeleton A = s'.map.root.skeleton A := by
  obtain ⟨l, k, r⟩ := hs.rep hA lo
  obtain ⟨l', k', r'⟩ := hs'.rep hA lo
  exact rep_canonical (l := unitPairs l) (l' := unitPairs l') lo r r' hh hd hk h1

/-- Two histories to the keys 2, 4, 5 and 1004 (which collides with 4), one with removals: the same trie. -/
example : ∃ m m', htBuild dbg64 exKeys (1000, 2, [((2, "b"), 0), ((4, "d"), 0), ((5, "e"), 0), ((1004, "f"), 0)]) = .ok m ∧
    HTMap.Reach dbg64 exKeys m ∧
    htBuild dbg64 exKeys (1000, 2, [((1004, "x"), 1), ((9, "n"), 0), ((4, "y"), 1), ((5, "z"), 1), ((2, "z"), 1)]) = .ok m' ∧
    HTMap.Reach dbg64 exKeys m' ∧ m.root.skeleton dbg64 = rootOf 1 [2, 5, 4, 4] ∧
    ((m'.remove dbg64 exKeys 9).map fun m => m.root.skeleton dbg64) = .ok (rootOf 1 [2, 5, 4, 4]) := by
  obtain ⟨m, h1, h2, h3⟩ := exMap (1000, 2, [((2, "b"), 0), ((4, "d"), 0), ((5, "e"), 0), ((1004, "f"), 0)])
    (fun m => .ok (m.root.skeleton dbg64)) (rootOf 1 [2, 5, 4, 4]) (by decide) (by decide +kernel)
  obtain ⟨m', g1, g2, g3⟩ := exMap (1000, 2, [((1004, "x"), 1), ((9, "n"), 0), ((4, "y"), 1), ((5, "z"), 1), ((2, "z"), 1)])
    (fun m => (m.remove dbg64 exKeys 9).map fun m => m.root.skeleton dbg64) (rootOf 1 [2, 5, 4, 4]) (by decide) (by decide +kernel)
  exact ⟨m, m', h1, h2, g1, g2, Except.ok.inj h3, g3⟩

/-- What the canonical trie looks like: with degree 16, the hashes 1 and 17 share their first four bits. -/
example : rootOf 4 [1, 17, 3] = .branch [(1, .branch [(0, .bucket 1 1), (1, .bucket 17 1)]), (3, .bucket 3 1)] := by decide +kernel

/-- C69, why one pair is an exception: inserted into an empty map it is below a branch, left over by a removal it is the root. -/
theorem C69_hash_map_single_pair : ∃ m m1 m2 : HTMap Nat (Nat × String) Nat,
    htBuild dbg64 exKeys (1000, 16, [((3, "a"), 7)]) = .ok m ∧ HTMap.Reach dbg64 exKeys m ∧
    htBuild dbg64 exKeys (1000, 16, [((3, "a"), 7), ((4, "b"), 8)]) = .ok m1 ∧ HTMap.Reach dbg64 exKeys m1 ∧
    m1.remove dbg64 exKeys 4 = .ok m2 ∧ HTMap.Reach dbg64 exKeys m2 ∧ mapItems m2 = mapItems m ∧
    m.root.skeleton dbg64 = .branch [(3, .bucket 3 1)] ∧ m2.root.skeleton dbg64 = .bucket 3 1 := by
  obtain ⟨m, h1, h2, h3⟩ := exMap (1000, 16, [((3, "a"), 7)])
    (fun m => (mapItems m).map fun l => (l, m.root.skeleton dbg64)) ([((3, "a"), 7)], .branch [(3, .bucket 3 1)]) (by decide) (by decide +kernel)
  obtain ⟨m1, g1, g2, g3⟩ := exMap (1000, 16, [((3, "a"), 7), ((4, "b"), 8)])
    (fun m => (m.remove dbg64 exKeys 4).bind fun m => (mapItems m).map fun l => (l, m.root.skeleton dbg64))
    ([((3, "a"), 7)], .bucket 3 1) (by decide) (by decide +kernel)
  cases hr : m1.remove dbg64 exKeys 4 with
  | error e => rw [hr] at g3; cases g3
  | ok m2 =>
    rw [hr] at g3
    have i1 : mapItems m = .ok [((3, "a"), 7)] ∧ m.root.skeleton dbg64 = .branch [(3, .bucket 3 1)] := by
      cases hi : mapItems m with
      | error e => rw [hi] at h3; cases h3
      | ok l => rw [hi] at h3; injection h3 with h3; injection h3 with a b; exact ⟨by rw [a], b⟩
    have i2 : mapItems m2 = .ok [((3, "a"), 7)] ∧ m2.root.skeleton dbg64 = .bucket 3 1 := by
      simp only [Except.bind] at g3
      cases hi : mapItems m2 with
      | error e => rw [hi] at g3; cases g3
      | ok l => rw [hi] at g3; injection g3 with g3; injection g3 with a b; exact ⟨by rw [a], b⟩
    exact ⟨m, m1, m2, h1, h2, g1, g2, hr, .fresh g2 (op := .remove 4) (by simp only [HTMap.step, hr]; rfl), by rw [i1.1, i2.1], i1.2, i2.2⟩

/-! ### The others -/

/-- C69, why queues are not listed: the same items in two ways. -/
theorem C69_queue_depends_on_history : ∃ q q' : Queue Nat, Queue.Reach q ∧ Queue.Reach q' ∧ queueItems q = queueItems q' ∧ q ≠ q' :=
  ⟨Queue.fromIter [1], Queue.new.enqueueMut 1, .init (.fromIter _), .update (.init .new) (op := .enqueueMut 1) rfl, rfl, by decide⟩

/-- C69, why red-black trees are not listed: the order of insertion decides which key is at the root. -/
theorem C69_rb_map_depends_on_history : ∃ m m' : RBMap (Nat × String) Nat, RBMap.Reach dbg64 exOrd m ∧ RBMap.Reach dbg64 exOrd m' ∧
    rbItems dbg64 exOrd m = rbItems dbg64 exOrd m' ∧ m.root ≠ m'.root := by
  obtain ⟨m, _, h2, _, h3⟩ := exRB [((1, "a"), 0), ((2, "b"), 0)] (fun m => (rbItems dbg64 exOrd m).map fun l => (l, m.root))
    ([((1, "a"), 0), ((2, "b"), 0)], .some ((1, "a"), 0) .black .none (.some ((2, "b"), 0) .red .none .none)) (by decide +kernel)
  obtain ⟨m', _, g2, _, g3⟩ := exRB [((2, "b"), 0), ((1, "a"), 0)] (fun m => (rbItems dbg64 exOrd m).map fun l => (l, m.root))
    ([((1, "a"), 0), ((2, "b"), 0)], .some ((2, "b"), 0) .black (.some ((1, "a"), 0) .red .none .none) .none) (by decide +kernel)
  have key : ∀ {m : RBMap (Nat × String) Nat} {l t}, ((rbItems dbg64 exOrd m).map fun l => (l, m.root)) = .ok (l, t) →
      rbItems dbg64 exOrd m = .ok l ∧ m.root = t := by
    intro m l t h
    cases hi : rbItems dbg64 exOrd m with
    | error e => rw [hi] at h; cases h
    | ok l' => rw [hi] at h; injection h with h; injection h with a b; exact ⟨by rw [a], b⟩
  have k1 := key h3
  have k2 := key g3
  exact ⟨m, m', h2, g2, by rw [k1.1, k2.1], by rw [k1.2, k2.2]; decide⟩

end Rpds.Props
