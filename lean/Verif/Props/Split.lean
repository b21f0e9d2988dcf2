import Verif.Props.HashTrie
import Verif.HashTrie.Split
/-
How the work of a parallel iteration can be divided (C61).
-/
set_option autoImplicit false
namespace Rpds.Props
open Spec
variable {H K V Q : Type}

section
variable {A : Arch} {o : HashKeys H K Q} {m : HTMap H K V} {l : List (K × V)} {k : Nat}

theorem new_shape (r : m.Rep A o k l) :
    (Producer.new m).Shape A k (fun e => e.keyHash = o.hashK m.hasher e.key) (63 + k) ∧ (Producer.new m).ents = m.root.entries := by
  have h := Producer.fromNode_shape (P := fun e => e.keyHash = o.hashK m.hasher e.key) r.conf.pos m.root 0
    ⟨r.ok, fun _ _ _ _ j hj => absurd hj (Nat.not_lt_zero j), fun e he => r.good e he⟩
  rw [Producer.splits, Nat.zero_mul] at h
  exact h

end

/-- C61.  Whatever has been split so far: a piece that splits, splits into two pieces that both have items, and keys with the same hash
stay together; a piece that does not split has only keys with one hash. -/
theorem C61_split_progress (A : Arch) (hA : HTMap.StdWord A) (o : HashKeys H K Q) (lo : o.Lawful) (m : HTMap H K V)
    (hm : HTMap.Reach A o m) (plan : Producer.Plan) :
    ∀ p ∈ Producer.pieces plan (Producer.new m), ∃ items, p.foldWith Producer.collector [] = .ok items ∧
      (∀ a b, p.split = (a, some b) → ∃ xs ys, a.foldWith Producer.collector [] = .ok xs ∧ b.foldWith Producer.collector [] = .ok ys ∧
        items = xs ++ ys ∧ xs ≠ [] ∧ ys ≠ [] ∧ ∀ x ∈ xs, ∀ y ∈ ys, o.hashK m.hasher x.1 ≠ o.hashK m.hasher y.1) ∧
      (∀ a, p.split = (a, none) → a = p ∧ ∀ x ∈ items, ∀ y ∈ items, o.hashK m.hasher x.1 = o.hashK m.hasher y.1) := by
  obtain ⟨l, k, r⟩ := hm.rep hA lo
  have hsh := Producer.pieces_shape r.conf.pos plan (new_shape r).1
  obtain ⟨h1, _⟩ := Producer.fromNode_ok m.root 0 r.ok
  obtain ⟨h2, _⟩ := Producer.pieces_ok plan (Producer.new m) h1
  have coll : ∀ {p : Producer K V}, p.OK A k → p.foldWith Producer.collector [] = .ok (p.ents.map HTMap.pair) := fun hp => by
    rw [← Producer.items_eq]; simpa using Producer.foldWith_collector hp []
  intro p hp
  have hs := hsh p hp
  refine ⟨p.ents.map HTMap.pair, coll (h2 p hp), ?_, ?_⟩
  · intro a b hab
    obtain ⟨-, ha, hb, h3, h4, h5, h6⟩ := hs.split r.conf.pos hab
    obtain ⟨g1, g2, -⟩ := Producer.split_ok (h2 p hp)
    rw [hab] at g1 g2
    refine ⟨_, _, coll g1, coll (g2 b rfl), by rw [← List.map_append, h3], by simpa using h4, by simpa using h5, ?_⟩
    intro x hx y hy
    obtain ⟨e, he, rfl⟩ := List.mem_map.1 hx
    obtain ⟨e', he', rfl⟩ := List.mem_map.1 hy
    have := h6 e he e' he'
    rw [ha.all e he, hb.all e' he'] at this
    exact this
  · intro a ha
    obtain ⟨h3, h4⟩ := hs.whole r.conf.pos ha
    refine ⟨h3, ?_⟩
    intro x hx y hy
    obtain ⟨e, he, rfl⟩ := List.mem_map.1 hx
    obtain ⟨e', he', rfl⟩ := List.mem_map.1 hy
    have := h4 e he e' he'
    rw [hs.all e he, hs.all e' he'] at this
    exact this

/-- C61.  There are never more pieces than items (but one piece at least), no hash occurs in two pieces, and with degree `2 ^ k` nothing
can be split after `63 + k` rounds of splitting all pieces. -/
theorem C61_split_ends (A : Arch) (hA : HTMap.StdWord A) (o : HashKeys H K Q) (lo : o.Lawful) (m : HTMap H K V) (hm : HTMap.Reach A o m)
    (k : Nat) (hk : m.degree = 2 ^ k) :
    (∀ plan, (Producer.pieces plan (Producer.new m)).length ≤ max 1 m.getSize) ∧
    (∀ plan, (Producer.pieces plan (Producer.new m)).Pairwise fun p q => ∀ xs ys, p.foldWith Producer.collector [] = .ok xs →
      q.foldWith Producer.collector [] = .ok ys → ∀ x ∈ xs, ∀ y ∈ ys, o.hashK m.hasher x.1 ≠ o.hashK m.hasher y.1) ∧
    ∀ p ∈ Producer.pieces (.full (63 + k)) (Producer.new m), p.split.2 = none := by
  obtain ⟨l, k', r⟩ := hm.rep hA lo
  have hs := (new_shape r).1
  obtain rfl : k = k' := by
    have := r.degree
    rw [hk] at this
    exact (Nat.pow_right_inj (a := 2) (by omega)).1 this
  obtain ⟨h1, _⟩ := Producer.fromNode_ok m.root 0 r.ok
  refine ⟨fun plan => ?_, fun plan => ?_, Producer.pieces_full r.conf.pos _ hs⟩
  · have := Producer.pieces_length r.conf.pos plan hs
    rw [(new_shape r).2, r.length] at this
    rw [HTMap.getSize, r.size]; exact this
  · have h2 := (Producer.pieces_ok plan (Producer.new m) h1).1
    have h3 := Producer.pieces_shape r.conf.pos plan hs
    refine List.Pairwise.imp_of_mem ?_ (Producer.pieces_apart r.conf.pos plan hs).1
    intro p q hp hq hpq xs ys hx hy x hxs y hys
    rw [Producer.foldWith_collector (h2 p hp), Producer.items_eq] at hx
    rw [Producer.foldWith_collector (h2 q hq), Producer.items_eq] at hy
    cases hx; cases hy
    simp only [List.nil_append] at hxs hys
    obtain ⟨e, he, rfl⟩ := List.mem_map.1 hxs
    obtain ⟨e', he', rfl⟩ := List.mem_map.1 hys
    have := hpq e he e' he'
    rw [(h3 p hp).all e he, (h3 q hq).all e' he'] at this
    exact this

/-- Splitting as far as possible: keys 1 and 11 have the same hash under the hasher 10 and stay together. -/
example : ((do
    let m ← htBuild dbg64 exKeys (10, 4, [((1, "a"), 10), ((2, "b"), 20), ((11, "c"), 30), ((5, "e"), 50)])
    let ps := Producer.pieces (.full 7) (Producer.new m)
    let rs ← ps.mapM fun p => p.foldWith Producer.collector []
    pure (rs.map fun r => r.map fun p => p.1.1, ps.map fun p => p.split.2.isSome)) : Res (List (List Nat) × List Bool)) =
    .ok ([[11, 1], [5], [2]], [false, false, false]) := by decide +kernel

/-- The empty map is one piece that does not split. -/
example : ((do
    let m ← htBuild (V := Nat) dbg64 exKeys (10, 4, [])
    let ps := Producer.pieces (.full 3) (Producer.new m)
    pure (ps.map fun p => p.split.2.isSome)) : Res (List Bool)) = .ok [false] := by decide +kernel

end Rpds.Props
