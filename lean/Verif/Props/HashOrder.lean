import Verif.Props.HashTrie
import Verif.HashTrie.Order
/-
Property C53: the iteration order of hash maps and sets.
-/
set_option autoImplicit false
namespace Rpds.Props
open Spec
variable {H K V V' Q T : Type}

/-- C53.  Iteration visits the entries by their hashes: with degree `2 ^ k`, at the first group of `k` bits (from the least significant
end) in which the hashes of two keys differ, the key with the smaller group comes first. -/
theorem C53_hash_map_order (A : Arch) (hA : HTMap.StdWord A) (o : HashKeys H K Q) (lo : o.Lawful) (m : HTMap H K V)
    (hm : HTMap.Reach A o m) :
    ∃ k items, m.degree = 2 ^ k ∧ mapItems m = .ok items ∧
      items.Pairwise fun a b => o.hashK m.hasher a.1 = o.hashK m.hasher b.1 ∨
        HashBefore k (o.hashK m.hasher a.1) (o.hashK m.hasher b.1) := by
  obtain ⟨l, k, r⟩ := hm.rep hA lo
  refine ⟨k, _, r.degree, rep_mapItems r, ?_⟩
  rw [List.pairwise_map]
  refine (HNode.entries_ordered r.conf.pos m.root 0 r.ok (fun _ _ _ _ j hj => absurd hj (by omega))).imp_of_mem ?_
  intro x y hx hy h
  rw [HNode.Ordered, r.good x hx, r.good y hy] at h
  exact h

/-- Three keys with hashes 2, 4, 5: the lowest bits decide first with degree 2, the lowest four bits with degree 16. -/
example : (∃ m, htBuild dbg64 exKeys (1000, 2, [((2, "b"), 0), ((4, "d"), 0), ((5, "e"), 0)]) = .ok m ∧ HTMap.Reach dbg64 exKeys m ∧
      mapItems m = .ok [((4, "d"), 0), ((2, "b"), 0), ((5, "e"), 0)]) ∧
    (∃ m, htBuild dbg64 exKeys (1000, 16, [((2, "b"), 0), ((4, "d"), 0), ((5, "e"), 0)]) = .ok m ∧ HTMap.Reach dbg64 exKeys m ∧
      mapItems m = .ok [((2, "b"), 0), ((4, "d"), 0), ((5, "e"), 0)]) :=
  ⟨exMap _ _ _ (by decide) (by decide +kernel), exMap _ _ _ (by decide) (by decide +kernel)⟩

example : HashBefore 1 4 2 ∧ HashBefore 1 2 5 ∧ HashBefore 4 2 4 ∧ HashBefore 4 4 5 :=
  ⟨⟨1, by decide, by decide⟩, ⟨0, by decide, by decide⟩, ⟨0, by decide, by decide⟩, ⟨0, by decide, by decide⟩⟩

/-- C53, consequence.  Two maps with the same hasher and degree and the same keys iterate their keys in the same order, however they
were obtained, when different keys have different hashes. -/
theorem C53_hash_map_order_deterministic (A : Arch) (hA : HTMap.StdWord A) (o : HashKeys H K Q) (lo : o.Lawful) (m : HTMap H K V) (m' : HTMap H K V')
    (hm : HTMap.Reach A o m) (hm' : HTMap.Reach A o m') (hh : m.hasher = m'.hasher) (hd : m.degree = m'.degree)
    (hk : ∀ q, m.containsKey A o q = m'.containsKey A o q)
    (hinj : ∀ items, mapItems m = .ok items → ∀ a ∈ items, ∀ b ∈ items, o.hashK m.hasher a.1 = o.hashK m.hasher b.1 → o.eqK a.1 b.1 = true) :
    ∃ items items', mapItems m = .ok items ∧ mapItems m' = .ok items' ∧
      List.Forall₂ (fun a b => o.eqK a.1 b.1 = true) items items' := by
  obtain ⟨k, items, d1, i1, s1⟩ := C53_hash_map_order A hA o lo m hm
  obtain ⟨k', items', d2, i2, s2⟩ := C53_hash_map_order A hA o lo m' hm'
  have hkk : k' = k := by
    rw [← hd, d1] at d2
    exact ((Nat.pow_right_inj (by decide)).1 d2).symm
  subst hkk
  obtain ⟨l, kk, r⟩ := hm.rep hA lo
  obtain ⟨l', kk', r'⟩ := hm'.rep hA lo
  have e1 : items = m.root.entries.map HTMap.pair := by rw [rep_mapItems r] at i1; exact (Except.ok.inj i1).symm
  have e2 : items' = m'.root.entries.map HTMap.pair := by rw [rep_mapItems r'] at i2; exact (Except.ok.inj i2).symm
  have any : ∀ {V : Type} (l : List (K × V)) q, (mapGet o.eqKQ l q).isSome = l.any fun p => o.eqKQ p.1 q := by
    intro V l q; rw [mapGet, Bool.eq_iff_iff, List.find?_isSome, List.any_eq_true]
  have c1 : ∀ q, m.containsKey A o q = .ok (items.any fun p => o.eqKQ p.1 q) := by
    intro q; rw [e1, (r.congr lo r.perm.symm).containsKey lo q, any]
  have c2 : ∀ q, m'.containsKey A o q = .ok (items'.any fun p => o.eqKQ p.1 q) := by
    intro q; rw [e2, (r'.congr lo r'.perm.symm).containsKey lo q, any]
  have hany : ∀ q, (items.any fun p => o.eqKQ p.1 q) = items'.any fun p => o.eqKQ p.1 q := by
    intro q
    have := hk q
    rw [c1, c2] at this
    exact Except.ok.inj this
  have eqkq : ∀ a b : K, o.eqKQ a (o.borrow b) = o.eqK a b := fun a b => by rw [HashKeys.eqKQ, lo.eq_borrow]
  have heq := lo.equivK
  have hash : ∀ {a b : K}, o.eqK a b = true → o.hashK m.hasher a = o.hashK m.hasher b := fun h => lo.hashK_eq _ _ _ h
  have dis1 : items.Pairwise fun a b => o.eqK a.1 b.1 = false := by rw [e1]; exact r.distinct.perm lo.equivK r.perm.symm
  have dis2 : items'.Pairwise fun a b => o.eqK a.1 b.1 = false := by rw [e2]; exact r'.distinct.perm lo.equivK r'.perm.symm
  rw [← hh] at s2
  have m1 : ∀ x ∈ items, ∃ y ∈ items', o.eqK x.1 y.1 = true := by
    intro x hx
    have : (items.any fun p => o.eqKQ p.1 (o.borrow x.1)) = true := by
      rw [List.any_eq_true]; exact ⟨x, hx, by rw [eqkq]; exact heq.refl _⟩
    rw [hany, List.any_eq_true] at this
    obtain ⟨y, hy, h⟩ := this
    rw [eqkq] at h
    exact ⟨y, hy, heq.symm _ _ h⟩
  have m2 : ∀ y ∈ items', ∃ x ∈ items, o.eqK x.1 y.1 = true := by
    intro y hy
    have : (items'.any fun p => o.eqKQ p.1 (o.borrow y.1)) = true := by
      rw [List.any_eq_true]; exact ⟨y, hy, by rw [eqkq]; exact heq.refl _⟩
    rw [← hany, List.any_eq_true] at this
    obtain ⟨x, hx, h⟩ := this
    rw [eqkq] at h
    exact ⟨x, hx, h⟩
  -- strict order: distinct keys of one map have different hashes
  have st1 : items.Pairwise fun a b => HashBefore k' (o.hashK m.hasher a.1) (o.hashK m.hasher b.1) ∧ o.eqK a.1 b.1 = false := by
    refine (s1.and dis1).imp_of_mem ?_
    intro a b ha hb h
    refine ⟨?_, h.2⟩
    rcases h.1 with g | g
    · have := hinj items i1 a ha b hb g; rw [h.2] at this; cases this
    · exact g
  have st2 : items'.Pairwise fun a b => HashBefore k' (o.hashK m.hasher a.1) (o.hashK m.hasher b.1) ∧ o.eqK a.1 b.1 = false := by
    refine (s2.and dis2).imp_of_mem ?_
    intro a b ha hb h
    refine ⟨?_, h.2⟩
    rcases h.1 with g | g
    · obtain ⟨a', ha', ea⟩ := m2 a ha
      obtain ⟨b', hb', eb⟩ := m2 b hb
      have := hinj items i1 a' ha' b' hb' (by rw [hash ea, hash eb, g])
      have : o.eqK a.1 b.1 = true := heq.trans _ _ _ (heq.trans _ _ _ (heq.symm _ _ ea) this) eb
      rw [h.2] at this; cases this
    · exact g
  refine ⟨items, items', i1, i2, forall₂_of_sorted ?_ st1 st2 m1 m2 ?_ ?_⟩
  · intro a b a' b' h1 h2 l1 l2
    have l1 := l1.1
    have l2 := l2.1
    rw [hash h1, hash h2] at l1
    exact l1.asymm l2
  · intro x _ y _ y' _ h1 h2 l
    have := heq.trans _ _ _ (heq.symm _ _ h1) h2
    rw [l.2] at this; cases this
  · intro x _ x' _ y _ h1 h2 l
    have := heq.trans _ _ _ h1 (heq.symm _ _ h2)
    rw [l.2] at this; cases this

/-- The hypotheses are met: two histories to the same keys, the second with a removal; both iterate the keys 4, 2, 5. -/
example : ∃ m m', htBuild dbg64 exKeys (1000, 2, [((2, "b"), 0), ((4, "d"), 0), ((5, "e"), 0)]) = .ok m ∧ HTMap.Reach dbg64 exKeys m ∧
    htBuild dbg64 exKeys (1000, 2, [((5, "x"), 1), ((9, "n"), 0), ((4, "y"), 1), ((2, "z"), 1)]) = .ok m' ∧ HTMap.Reach dbg64 exKeys m' ∧
    mapItems m = .ok [((4, "d"), 0), ((2, "b"), 0), ((5, "e"), 0)] ∧
    (m'.remove dbg64 exKeys 9).bind mapItems = .ok [((4, "y"), 1), ((2, "z"), 1), ((5, "x"), 1)] := by
  obtain ⟨m, h1, h2, h3⟩ := exMap (1000, 2, [((2, "b"), 0), ((4, "d"), 0), ((5, "e"), 0)]) mapItems
    [((4, "d"), 0), ((2, "b"), 0), ((5, "e"), 0)] (by decide) (by decide +kernel)
  obtain ⟨m', g1, g2, g3⟩ := exMap (1000, 2, [((5, "x"), 1), ((9, "n"), 0), ((4, "y"), 1), ((2, "z"), 1)])
    (fun m => (m.remove dbg64 exKeys 9).bind mapItems) [((4, "y"), 1), ((2, "z"), 1), ((5, "x"), 1)] (by decide) (by decide +kernel)
  exact ⟨m, m', h1, h2, g1, g2, h3, g3⟩

/-- C53 for sets. -/
theorem C53_hash_set_order (A : Arch) (hA : HTMap.StdWord A) (o : HashKeys H T Q) (lo : o.Lawful) (s : HTSet H T)
    (hs : HTSet.Reach A o s) :
    ∃ k items, s.map.degree = 2 ^ k ∧ setItems s = .ok items ∧
      items.Pairwise fun a b => o.hashK s.map.hasher a = o.hashK s.map.hasher b ∨
        HashBefore k (o.hashK s.map.hasher a) (o.hashK s.map.hasher b) := by
  obtain ⟨l, k, r⟩ := hs.rep hA lo
  refine ⟨k, _, r.degree, rep_setItems r, ?_⟩
  rw [HTSet.items, List.pairwise_map]
  refine (HNode.entries_ordered r.conf.pos s.map.root 0 r.ok (fun _ _ _ _ j hj => absurd hj (by omega))).imp_of_mem ?_
  intro x y hx hy h
  rw [HNode.Ordered, r.good x hx, r.good y hy] at h
  exact h

end Rpds.Props
