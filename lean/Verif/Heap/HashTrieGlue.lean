import Verif.Heap.HashTrieMap
import Verif.Heap.Glue
/-
Hash tries on the heap, with the loop of `Drop for List` in the leaves that hold a list.
-/
set_option autoImplicit false
namespace Rpds
namespace Heap
namespace HT
variable {H K V Q : Type}

/-- The cells that begin with a `List` that has a first node: leaves with collisions (`Bucket::Collision`, map/hash_trie_map/mod.rs:196-199). -/
def collisionList : HLabel K V → Bool
  | .collision head _ _ => head
  | _ => false

theorem flat_mono {L : Type} {lists : L → Bool} {b : Bool} {n : Nat} {t : ATree L} (h : Flat lists b n t) : ∀ {m}, n ≤ m → Flat lists b m t := by
  induction h with
  | leaf => intro m _; exact .leaf
  | @node n a l ts hl _ ih =>
    intro m hm
    obtain ⟨m, rfl⟩ : ∃ k, m = k + 1 := ⟨m - 1, by omega⟩
    exact .node hl fun t ht => ih t ht (by omega)
  | @list n a l c cs hl _ _ ihc ih =>
    intro m hm
    obtain ⟨m, rfl⟩ : ∃ k, m = k + 1 := ⟨m - 1, by omega⟩
    exact .list hl (ihc (by omega)) fun t ht => ih t ht (by omega)
  | @link n a l v next _ _ ihv ih =>
    intro m hm
    obtain ⟨m, rfl⟩ : ∃ k, m = k + 1 := ⟨m - 1, by omega⟩
    exact .link (ihv (by omega)) fun t ht => ih t ht (by omega)

theorem flat_entry {t : ATree (HLabel K V)} {x : HEntry K V} (h : entIs t x) (n : Nat) : Flat collisionList false n t := by
  obtain ⟨a, l, ts⟩ := t
  have : ts = [] := h.2
  subst this
  exact .leaf

theorem flat_ewh {t : ATree (HLabel K V)} {x : HEntry K V} (h : ewhIs t x) (n : Nat) : Flat collisionList false (n + 1) t := by
  obtain ⟨a, l, ts⟩ := t
  obtain ⟨te, h1, h2, h3⟩ := h
  simp only [ATree.label, ATree.kids] at h1 h2
  subst h1 h2
  refine .node rfl ?_
  intro u hu
  rw [List.mem_singleton.1 hu]
  exact flat_entry h3 n

theorem flat_link {th : Option (ATree (HLabel K V))} {hd : Link (HEntry K V)} (h : IsLink .lnode ewhIs th hd) :
    ∀ t, t ∈ th.toList → Flat collisionList true 2 t := by
  induction h with
  | none => intro t ht; simp at ht
  | @some a tv tn v next hv hn ih =>
    intro t ht
    simp only [Option.toList_some, List.mem_singleton] at ht
    subst ht
    exact .link (flat_ewh hv 0) ih

/-- A trie: its levels, and three more for a list, an `EntryWithHash` and an entry. -/
theorem IsN.flat {Ar : Arch} {k : Nat} (hk : 1 ≤ k) (n : HNode K V) : ∀ d t, IsN n t → n.OK Ar k true d →
    Flat collisionList false ((63 / k + 1 - d) + 3) t := by
  induction n using HNode.induct with
  | hb bm arr ih =>
    intro d t ht hok
    obtain ⟨a, l, ts⟩ := t
    rw [IsN, isNs_iff] at ht
    rw [HNode.ok_branch] at hok
    simp only [ATree.label, ATree.kids] at ht
    obtain ⟨rfl, ht⟩ := ht
    have hd : d ≤ 63 / k := by rw [Nat.le_div_iff_mul_le hk]; omega
    rw [show (63 / k + 1 - d) + 3 = ((63 / k + 1 - (d + 1)) + 3) + 1 by omega]
    refine .node rfl fun u hu => ?_
    obtain ⟨i, hi⟩ := List.getElem?_of_mem hu
    rcases f2_get ht i with ⟨h1, -⟩ | ⟨u', n', h1, h2, h3⟩
    · rw [hi] at h1; cases h1
    · rw [hi] at h1; cases h1
      have hmem := List.mem_of_getElem? h2
      obtain ⟨p, -, hp⟩ := SparseArray.forall₂_mem hok.2 hmem
      exact ih n' hmem (d + 1) u h3 hp.ok
  | hl b =>
    intro d t ht hok
    obtain ⟨a, l, ts⟩ := t
    cases b with
    | single x =>
      rw [IsN] at ht
      simp only [ATree.label, ATree.kids] at ht
      obtain ⟨rfl, te, rfl, h2⟩ := ht
      refine flat_mono (n := 1) (.node rfl ?_) (by omega)
      intro u hu
      rw [List.mem_singleton.1 hu]
      exact flat_entry h2 0
    | collision r =>
      rw [IsN] at ht
      simp only [ATree.label, ATree.kids] at ht
      obtain ⟨th, tl, rfl, rfl, h3, h4, -⟩ := ht
      have hl : ∀ u, u ∈ tl.toList → Flat collisionList false 2 u := by
        intro u hu
        generalize r.last = la at h4
        cases h4 with
        | none => simp at hu
        | some h4 =>
          simp only [Option.toList_some, List.mem_singleton] at hu
          subst hu
          exact flat_ewh h4 1
      refine flat_mono (n := 3) ?_ (by omega)
      cases th with
      | none => exact .node rfl (by simpa using hl)
      | some c => exact .list rfl (flat_link h3 c (by simp)) hl

section
variable {A : Allocator (HLabel K V)} {Ar : Arch} {o : HashKeys H K Q} {k : Nat} {hm : HHTMap H} {m : HTMap H K V}
  {ρ : List (Item (HLabel K V))} {D : Option Nat}

theorem does_htDrop (h : hm.Is m ρ) (hl : ∃ l, m.Rep Ar o k l) (hD : Within D (63 / k + 4)) :
    Does collisionList A D (fun _ σ => σ = []) hm.dropMap ρ := by
  obtain ⟨⟨t, h1, rfl, h2⟩, -, -, -⟩ := h
  obtain ⟨l, hl⟩ := hl
  rw [HHTMap.dropMap, h1]
  exact (h2.flat hl.conf.pos _ 0 t hl.ok).does (hD.mono (by have := Nat.zero_le (63 / k); omega))

theorem does_htRemove (lo : o.Lawful) (h : hm.Is m ρ) (hl : ∃ l, m.Rep Ar o k l) (hD : Within D (63 / k + 4)) {q : Q} {m' : HTMap H K V}
    (he : m.remove Ar o q = .ok m') :
    Does collisionList A D (fun r σ => ∃ τ τ', σ = τ ++ τ' ∧ r.Is m' τ ∧ hm.Is m τ') (hm.remove Ar o q) ρ := by
  have roomy : Roomy (some 3) := ⟨within_some.2 (Nat.le_refl 3)⟩
  have hw : ∀ d, Within (some 3) d → Within D d := fun d hd => hD.mono (by have := within_some.1 hd; have := Nat.zero_le (63 / k); omega)
  obtain ⟨⟨b, m1⟩, h1, h2⟩ := res_bind_ok he
  have h1 : m.removeMut Ar o q = .ok (b, m1) := h1
  obtain ⟨l, hl⟩ := hl
  have hf : Shallow trieFuel m.root := shallow_of_ok hl.conf.pos m.root 0 trieFuel hl.ok (by decide) (by decide)
  have hl1 : ∃ l, m1.Rep Ar o k l := by
    obtain ⟨e2, h4, h5⟩ := hl.step lo (.removeMut q)
    simp only [HTMap.step, h1] at h4
    cases h4
    cases h5 with
    | update h6 => exact ⟨_, h6⟩
  refine Does.bind ((safe_htClone (D := some 3) h).does hw) ?_
  rintro hm' _ ⟨τ, τ', rfl, h3, h4⟩
  refine Does.bindFrame (F := τ') ((safe_htRemoveMut (D := some 3) h3 hf (.inr ⟨lo, l, hl⟩) h1).does hw) (.refl _) ?_
  rintro ⟨_, hm1⟩ σ ⟨rfl, h5⟩
  simp only at h2 h5 ⊢
  split
  · next hb =>
    rw [if_pos hb] at h2
    cases h2
    exact Does.ret ⟨σ, τ', rfl, h5, h4⟩
  · next hb =>
    rw [if_neg hb] at h2
    cases h2
    refine Does.bindFrame (F := σ) ((safe_htClone (D := some 3) h4).does hw) (by perm_tac) ?_
    rintro hm2 _ ⟨τ1, τ2, rfl, h6, h7⟩
    refine Does.bindFrame (F := τ1 ++ τ2) (does_htDrop h5 hl1 hD) (by perm_tac) ?_
    rintro _ _ rfl
    exact Does.ret ⟨τ1, τ2, rfl, h6, h7⟩

end

/-- The heap version of `HashTrieMap` run alone. -/
theorem htImpl_gbounded_model (Ar : Arch) {o : HashKeys H K Q} (lo : o.Lawful) {k : Nat} (c : HConf Ar k) (hW : 2 ^ k ≤ Ar.W % 256)
    (hasher : H) (A : Allocator (HLabel K V)) :
    (htImpl Ar o hasher (2 ^ k) : Impl (HLabel K V) _ _ _).GBounded collisionList A (some (63 / k + 4))
      (⟨HNode.newEmptyBranch, 0, 2 ^ k, hasher⟩ : HTMap H K V) (HTMap.stepAll Ar o) (HTIs Ar o k) := by
  have roomy : Roomy (some 3) := ⟨within_some.2 (Nat.le_refl 3)⟩
  have hw : ∀ d, Within (some 3) d → Within (some (63 / k + 4)) d := fun d hd => within_some.2 (by have := within_some.1 hd; have := Nat.zero_le (63 / k); omega)
  have hn := htImpl_nests_model (V := V) Ar lo c hW hasher A
  refine ⟨(hn.new (some 3)).does hw, ?_, ?_⟩
  · rintro hm m ρ op r e ⟨h, l, hl⟩ he
    have hf : Shallow trieFuel m.root := shallow_of_ok hl.conf.pos m.root 0 trieFuel hl.ok (by decide) (by decide)
    cases op with
    | base op =>
      obtain ⟨⟨r', e'⟩, h1, h2⟩ := res_bind_ok he
      cases h2
      have key : Does collisionList A (some (63 / k + 4)) (fun x τ => x.1 = r' ∧ HTEff hm m x.2 e' τ) (htHStep Ar o hm op) ρ := by
        by_cases hq : ∃ q, op = .remove q
        · obtain ⟨q, rfl⟩ := hq
          obtain ⟨m', h3, h4⟩ := res_bind_ok h1
          cases h4
          refine Does.bind (does_htRemove lo h ⟨l, hl⟩ (within_some.2 (Nat.le_refl _)) h3) ?_
          rintro hm' _ ⟨τ, τ', rfl, h3, h4⟩
          exact Does.ret ⟨rfl, .fresh h3 h4⟩
        · exact (safe_htHStep (D := some 3) h hf (fun q => ⟨_, hl.get lo q⟩) (.inr ⟨lo, l, hl⟩) op
            (fun q hq' => absurd ⟨q, hq'⟩ hq) h1).does hw
      refine Does.bind key ?_
      rintro ⟨x, f⟩ τ ⟨rfl, h3⟩
      obtain ⟨e2, h4, h5⟩ := hl.step lo op
      rw [h4] at h1
      cases h1
      exact Does.ret ⟨rfl, h3.is ⟨l, hl⟩ ⟨_, h5⟩⟩
    | iter n =>
      obtain ⟨rs, h1, h2⟩ := res_bind_ok he
      cases h2
      refine Does.bind ((safe_htView (D := some 3) h hf).does hw) ?_
      rintro _ τ ⟨rfl, h3⟩
      exact Safe.does (Safe.liftBind (D := some 3) h1 (Safe.ret ⟨rfl, .keep ⟨h3, l, hl⟩⟩)) hw
    | count p =>
      obtain ⟨rs, h1, h2⟩ := res_bind_ok he
      cases h2
      refine Does.bind ((safe_htView (D := some 3) h hf).does hw) ?_
      rintro _ τ ⟨rfl, h3⟩
      exact Safe.does (Safe.liftBind (D := some 3) h1 (Safe.ret ⟨rfl, .keep ⟨h3, l, hl⟩⟩)) hw
  · rintro hm m ρ ⟨h, hl⟩
    exact does_htDrop h hl (within_some.2 (Nat.le_refl _))

end HT
end Heap
end Rpds
