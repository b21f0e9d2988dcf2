import Verif.Heap.HashTrieLemmas
import Verif.HashTrie.Map
import Verif.HashTrie.Shape
/-
`HashTrieMap` on the heap refines `HashTrieMap` of the value model.
-/
set_option autoImplicit false
set_option linter.unusedSectionVars false
namespace Rpds
namespace Heap
namespace HT
variable {H K V Q : Type}

/-- A map on the heap represents a map of the value model. -/
structure HHTMap.Is (hm : HHTMap H) (m : HTMap H K V) (ρ : List (Item (HLabel K V))) : Prop where
  tree : ∃ t : ATree (HLabel K V), hm.root = t.addr ∧ ρ = [.ptr t] ∧ IsN m.root t
  size : hm.size = m.size
  degree : hm.degree = m.degree
  hasher : hm.hasher = m.hasher

/-- A map on the heap represents a well-formed map of the value model. -/
def HTIs (Ar : Arch) (o : HashKeys H K Q) (k : Nat) (hm : HHTMap H) (m : HTMap H K V) (ρ : List (Item (HLabel K V))) : Prop :=
  hm.Is m ρ ∧ ∃ l, m.Rep Ar o k l

theorem f2_memR {α β : Type} {R : α → β → Prop} {l : List α} {m : List β} (h : List.Forall₂ R l m) {b : β} (hb : b ∈ m) :
    ∃ a ∈ l, R a b := by
  obtain ⟨i, hi⟩ := List.getElem?_of_mem hb
  obtain ⟨a, h1, h2⟩ := f2_getR h hi
  exact ⟨a, List.mem_of_getElem? h1, h2⟩

/-- Every level of a trie but the last consumes a bit of the hash. -/
theorem shallow_of_ok {Ar : Arch} {k : Nat} (hk : 1 ≤ k) (n : HNode K V) :
    ∀ d fuel, n.OK Ar k true d → 66 ≤ fuel + d → 1 ≤ fuel → Shallow fuel n := by
  induction n using HNode.induct with
  | hb bm arr ih =>
    intro d fuel h hf h1
    have hd : d * k < 64 := (HNode.ok_branch.1 h).1
    have hd' : d < 64 := Nat.lt_of_le_of_lt (Nat.le_mul_of_pos_right d hk) hd
    obtain ⟨fuel, rfl⟩ : ∃ f, fuel = f + 1 := ⟨fuel - 1, by omega⟩
    have child : ∀ c ∈ arr, c.OK Ar k true (d + 1) := by
      have := (HNode.ok_branch.1 h).2
      intro c hc
      obtain ⟨_, _, hi⟩ := f2_memR this hc
      exact hi.ok
    intro c hc
    exact ih c hc (d + 1) fuel (child c hc) (by omega) (by omega)
  | hl b =>
    intro d fuel h hf h1
    obtain ⟨fuel, rfl⟩ : ∃ f, fuel = f + 1 := ⟨fuel - 1, by omega⟩
    trivial

/-! ### How deep the cells of a trie are nested -/

/-- The largest number of times that a hash occurs. -/
def crowd (hs : List UInt64) : Nat := (hs.map fun h => hs.count h).foldr max 0

theorem foldr_max_le {l : List Nat} {c : Nat} : l.foldr max 0 ≤ c ↔ ∀ x ∈ l, x ≤ c := by
  induction l with
  | nil => simp
  | cons a l ih => simp [ih, Nat.max_le]

theorem crowd_le_iff {hs : List UInt64} {c : Nat} : crowd hs ≤ c ↔ ∀ h, hs.count h ≤ c := by
  rw [crowd, foldr_max_le]
  constructor
  · intro hx h
    by_cases hm : h ∈ hs
    · exact hx _ (List.mem_map.2 ⟨h, hm, rfl⟩)
    · rw [List.count_eq_zero_of_not_mem hm]; exact Nat.zero_le _
  · intro hx x hm
    obtain ⟨h, -, rfl⟩ := List.mem_map.1 hm
    exact hx h

theorem crowd_mono {hs hs' : List UInt64} (h : ∀ x, hs.count x ≤ hs'.count x) : crowd hs ≤ crowd hs' :=
  crowd_le_iff.2 fun x => Nat.le_trans (h x) (crowd_le_iff.1 (Nat.le_refl _) x)

theorem crowd_perm {hs hs' : List UInt64} (h : hs.Perm hs') : crowd hs = crowd hs' :=
  Nat.le_antisymm (crowd_mono fun x => Nat.le_of_eq (h.count_eq x)) (crowd_mono fun x => Nat.le_of_eq (h.symm.count_eq x))

theorem crowd_sublist {hs hs' : List UInt64} (h : hs.Sublist hs') : crowd hs ≤ crowd hs' := crowd_mono fun x => h.count_le x

theorem nest_link {nd : HLabel K V} {th : Option (ATree (HLabel K V))} {hd : Link (HEntry K V)} (h : IsLink nd ewhIs th hd)
    {t : ATree (HLabel K V)} (ht : th = some t) (Hs : List Addr) : nest Hs t ≤ hd.toList.length + 1 := by
  induction h generalizing t with
  | none => cases ht
  | @some a tv tn v next hv hn ih =>
    cases ht
    refine Nat.le_trans (nest_le_go _) ?_
    simp only [ATree.kids, Link.toList, List.length_cons]
    refine nest_go_le_succ fun u hu => ?_
    rcases List.mem_cons.1 hu with rfl | hu
    · exact Nat.le_trans (nest_ewh hv Hs) (by omega)
    · exact ih (by simpa using hu)

theorem IsN.nest {Ar : Arch} {k c : Nat} (hk : 1 ≤ k) (Hs : List Addr) (n : HNode K V) : ∀ d t, IsN n t → n.OK Ar k true d →
    (∀ j, j < d → ∀ x ∈ n.entries, ∀ y ∈ n.entries, idx k j x.keyHash = idx k j y.keyHash) →
    (∀ h, (n.entries.map (·.keyHash)).count h ≤ c) → Heap.nest Hs t ≤ (63 / k + 1 - d) + c + 2 := by
  induction n using HNode.induct with
  | hb bm arr ih =>
    intro d t ht hok hsame hc
    rw [IsN, isNs_iff] at ht
    rw [HNode.ok_branch] at hok
    have hd : d ≤ 63 / k := by rw [Nat.le_div_iff_mul_le hk]; omega
    refine Nat.le_trans (nest_le_go _) ?_
    have key : nest.go Hs t.kids ≤ ((63 / k + 1 - (d + 1)) + c + 2) + 1 := by
      refine nest_go_le_succ fun u hu => ?_
      obtain ⟨i, hi⟩ := List.getElem?_of_mem hu
      rcases f2_get ht.2 i with ⟨h1, -⟩ | ⟨u', n', h1, h2, h3⟩
      · rw [hi] at h1; cases h1
      · rw [hi] at h1; cases h1
        have hmem := List.mem_of_getElem? h2
        obtain ⟨p, -, hp⟩ := SparseArray.forall₂_mem hok.2 hmem
        have hsub : n'.entries.Sublist (HNode.branch bm arr).entries := by
          rw [HNode.entries_branch]
          obtain ⟨l1, l2, rfl⟩ := List.append_of_mem hmem
          rw [List.flatMap_append, List.flatMap_cons]
          exact (List.sublist_append_left _ _).trans (List.sublist_append_right _ _)
        refine ih n' hmem (d + 1) u h3 hp.ok ?_ fun h => Nat.le_trans ((hsub.map _).count_le h) (hc h)
        intro j hj x hx y hy
        rcases Nat.lt_or_ge j d with hjd | hjd
        · exact hsame j hjd x (hsub.subset hx) y (hsub.subset hy)
        · have : j = d := by omega
          subst this
          rw [hp.pos x hx, hp.pos y hy]
    omega
  | hl b =>
    intro d t ht hok hsame hc
    refine Nat.le_trans (nest_le_go _) ?_
    cases b with
    | single x =>
      rw [IsN] at ht
      obtain ⟨-, te, h1, h2⟩ := ht
      rw [h1]
      have := nest_no_kids (H := Hs) h2.2
      simp only [nest.go, this]
      omega
    | collision r =>
      rw [IsN] at ht
      obtain ⟨th, tl, -, h2, h3, h4, -⟩ := ht
      rw [HNode.OK] at hok
      simp only [HNode.entries_leaf, Bucket.entries] at hsame hc
      have hlen : r.head.toList.length ≤ c := by
        cases hl : r.head.toList with
        | nil => exact Nat.zero_le _
        | cons x xs =>
          rw [hl] at hsame hc
          refine Nat.le_trans (Nat.le_of_eq ?_) (hc x.keyHash)
          rw [List.count_eq_length.2]
          · simp
          · intro y hy
            obtain ⟨z, hz, rfl⟩ := List.mem_map.1 hy
            exact HNode.hash_eq_of_idx hk hok.1 fun j hj => hsame j hj x (by simp) z hz
      rw [h2]
      have := nest_go_le_succ (H := Hs) (ts := th.toList ++ tl.toList) (n := r.head.toList.length + 1) (by
        intro u hu
        rcases List.mem_append.1 hu with hu | hu
        · exact nest_link h3 (by simpa using hu) Hs
        · generalize r.last = la at h4
          cases h4 with
          | none => simp at hu
          | some h4 =>
            simp only [Option.toList_some, List.mem_singleton] at hu
            subst hu
            exact Nat.le_trans (nest_ewh h4 Hs) (by omega))
      omega

/-- A limit on the nesting of the destructors of a trie: the number of levels, and the list of entries with equal hashes. -/
def nestLim (k : Nat) (m : HTMap H K V) : Nat := 63 / k + 3 + crowd (m.root.entries.map (·.keyHash))

theorem crowd_rep {Ar : Arch} {o : HashKeys H K Q} {k : Nat} {m : HTMap H K V} {l : List (K × V)} (hl : m.Rep Ar o k l) :
    crowd (m.root.entries.map (·.keyHash)) = crowd (l.map fun x => o.hashK m.hasher x.1) := by
  refine crowd_perm ?_
  have h1 : m.root.entries.map (·.keyHash) = (m.root.entries.map HTMap.pair).map fun x => o.hashK m.hasher x.1 := by
    rw [List.map_map]
    exact List.map_congr_left hl.good
  rw [h1]
  exact hl.perm.map _

section
variable {A : Allocator (HLabel K V)} {Ar : Arch} {o : HashKeys H K Q} {k : Nat} {hm : HHTMap H} {m : HTMap H K V}
  {ρ : List (Item (HLabel K V))} {D : Option Nat} [Roomy D]

theorem safe_htClone (h : hm.Is m ρ) : Safe A D (fun r σ => ∃ τ τ', σ = τ ++ τ' ∧ r.Is m τ ∧ hm.Is m τ') hm.clone ρ := by
  have hh := h
  obtain ⟨⟨t, h1, rfl, h2⟩, h3, h4, h5⟩ := h
  unfold HHTMap.clone
  rw [h1]
  refine Safe.bind (Heap.safe_clone (.refl t) (ρ := [.ptr t]) (by simp)) ?_
  rintro _ _ rfl
  exact Safe.ret ⟨[.ptr t], [.ptr t], rfl, hh, hh⟩

theorem safe_htDrop (h : hm.Is m ρ) (hD : D = none ∨ ((∃ l, m.Rep Ar o k l) ∧ Within D (nestLim k m))) (F : List (Item (HLabel K V))) : Safe A D (fun _ σ => σ = F) hm.dropMap (ρ ++ F) := by
  obtain ⟨⟨t, h1, rfl, h2⟩, -, -, -⟩ := h
  rw [HHTMap.dropMap, h1]
  refine safe_drop ?_
  rcases hD with rfl | ⟨⟨l, hl⟩, hD⟩
  · exact within_none _
  · refine hD.mono (Nat.le_trans (h2.nest hl.conf.pos _ _ 0 t hl.ok (fun j hj => absurd hj (by omega))
      (crowd_le_iff.1 (Nat.le_refl _))) ?_)
    rw [nestLim]
    have := Nat.zero_le (63 / k)
    omega

theorem safe_htInsertMut (h : hm.Is m ρ) {key : K} {v : V} {m' : HTMap H K V} (he : m.insertMut Ar o key v = .ok m') :
    Safe A D (fun r σ => r.Is m' σ) (hm.insertMut Ar o key v) ρ := by
  obtain ⟨⟨t, h1, rfl, h2⟩, h3, h4, h5⟩ := h
  obtain ⟨⟨b, n'⟩, g1, g2⟩ := res_bind_ok he
  cases g2
  rw [Rpds.HNode.clone_eq] at g1
  unfold HHTMap.insertMut
  rw [h1, h3, h4, h5]
  refine Safe.bindFrame (F := [.ptr t]) (safe_new (HLabel.entry key v) []) (.refl _) ?_
  rintro e _ rfl
  refine Safe.bind (Safe.perm (safe_modNode h2 (a := b) (n' := n') (E := [.ptr (.node e (.entry key v) [])]) fun hn τ hτ => ?_)
    (.swap _ _ _)) ?_
  · exact Safe.perm (safe_hinsert m.degree HTMap.insertFuel hτ (x := HEntry.new o m.hasher key v) ⟨rfl, rfl, rfl, rfl⟩ g1)
      (List.perm_append_singleton _ _)
  · rintro ⟨_, p⟩ _ ⟨rfl, t', rfl, h6, rfl⟩
    exact Safe.ret ⟨⟨t', rfl, rfl, h6⟩, rfl, rfl, rfl⟩

theorem safe_htRemoveMut (h : hm.Is m ρ) (hf : Shallow trieFuel m.root)
    (hN : D = none ∨ (o.Lawful ∧ ∃ l, m.Rep Ar o k l)) {q : Q} {b : Bool} {m' : HTMap H K V}
    (he : m.removeMut Ar o q = .ok (b, m')) : Safe A D (fun r σ => r.1 = b ∧ r.2.Is m' σ) (hm.removeMut Ar o q) ρ := by
  obtain ⟨⟨t, h1, rfl, h2⟩, h3, h4, h5⟩ := h
  obtain ⟨⟨b', n'⟩, g1, g2⟩ := res_bind_ok he
  rw [Rpds.HNode.clone_eq] at g1
  unfold HHTMap.removeMut
  rw [h1, h3, h4, h5]
  refine Safe.bind (safe_modNode h2 (a := b') (n' := n') (E := []) fun hn τ hτ => ?_) ?_
  · rw [List.append_nil]
    refine safe_hremove q _ m.degree trieFuel hf (hN.imp id ?_) hτ g1
    rintro ⟨lo, l, hl⟩
    exact ⟨m.hasher, k, lo, hl.conf, hl.degree, rfl, by omega, hl.ok, hl.good, hl.apart lo⟩
  · rintro ⟨_, p⟩ _ ⟨rfl, t', rfl, h6, rfl⟩
    simp only at g2 ⊢
    split
    · next hb =>
      rw [if_pos hb] at g2
      obtain ⟨size, h7, h8⟩ := res_bind_ok g2
      cases h8
      exact Safe.liftBind h7 (Safe.ret ⟨rfl, ⟨⟨t', rfl, rfl, h6⟩, rfl, rfl, rfl⟩⟩)
    · next hb =>
      rw [if_neg hb] at g2
      cases g2
      exact Safe.ret ⟨rfl, ⟨⟨t', rfl, rfl, h6⟩, rfl, rfl, rfl⟩⟩

theorem safe_htGetMut (h : hm.Is m ρ) (hf : Shallow trieFuel m.root) {q : Q} {f : V → V} {ov : Option V} {m' : HTMap H K V}
    (he : m.getMut Ar o q f = .ok (ov, m')) : Safe A D (fun r σ => r.1 = ov ∧ r.2.Is m' σ) (hm.getMut Ar o q f) ρ := by
  obtain ⟨⟨t, h1, rfl, h2⟩, h3, h4, h5⟩ := h
  obtain ⟨⟨oe, n'⟩, g1, g2⟩ := res_bind_ok he
  cases g2
  rw [Rpds.HNode.clone_eq] at g1
  unfold HHTMap.getMut
  rw [h1, h3, h4, h5]
  refine Safe.bind (safe_modNode h2 (a := oe.map (·.value)) (n' := n') (E := []) fun hn τ hτ => ?_) ?_
  · rw [List.append_nil]
    exact safe_hgetMut q _ m.degree f trieFuel hf hτ g1
  · rintro ⟨_, p⟩ _ ⟨rfl, t', rfl, h6, rfl⟩
    exact Safe.ret ⟨rfl, ⟨⟨t', rfl, rfl, h6⟩, rfl, rfl, rfl⟩⟩

theorem safe_htInsert (h : hm.Is m ρ) {key : K} {v : V} {m' : HTMap H K V} (he : m.insert Ar o key v = .ok m') :
    Safe A D (fun r σ => ∃ τ τ', σ = τ ++ τ' ∧ r.Is m' τ ∧ hm.Is m τ') (hm.insert Ar o key v) ρ := by
  refine Safe.bind (safe_htClone h) ?_
  rintro hm' _ ⟨τ, τ', rfl, h1, h2⟩
  exact ((safe_htInsertMut h1 he).frame τ').imp fun r σ ⟨τ, e, hr⟩ => ⟨τ, τ', e, hr, h2⟩

theorem safe_htRemove (h : hm.Is m ρ) (hf : Shallow trieFuel m.root) (hN : D = none ∨ (o.Lawful ∧ ∃ l, m.Rep Ar o k l)) {q : Q}
    {m' : HTMap H K V}
    (hD : ∀ b m1, m.removeMut Ar o q = .ok (b, m1) → D = none ∨ ((∃ l, m1.Rep Ar o k l) ∧ Within D (nestLim k m1))) (he : m.remove Ar o q = .ok m') :
    Safe A D (fun r σ => ∃ τ τ', σ = τ ++ τ' ∧ r.Is m' τ ∧ hm.Is m τ') (hm.remove Ar o q) ρ := by
  obtain ⟨⟨b, m1⟩, h1, h2⟩ := res_bind_ok he
  refine Safe.bind (safe_htClone h) ?_
  rintro hm' _ ⟨τ, τ', rfl, h3, h4⟩
  refine Safe.bindFrame (F := τ') (safe_htRemoveMut h3 hf hN h1) (.refl _) ?_
  rintro ⟨_, hm1⟩ σ ⟨rfl, h5⟩
  simp only at h2 h5 ⊢
  split
  · next hb =>
    rw [if_pos hb] at h2
    cases h2
    exact Safe.ret ⟨σ, τ', rfl, h5, h4⟩
  · next hb =>
    rw [if_neg hb] at h2
    cases h2
    refine Safe.bindFrame (F := σ) (safe_htClone h4) (by perm_tac) ?_
    rintro hm2 _ ⟨τ1, τ2, rfl, h6, h7⟩
    refine Safe.bind (Safe.perm (safe_htDrop h5 (hD _ _ h1) (τ1 ++ τ2)) (by perm_tac)) ?_
    rintro _ _ rfl
    exact Safe.ret ⟨τ1, τ2, rfl, h6, h7⟩

theorem safe_htLookup (h : hm.Is m ρ) (hf : Shallow trieFuel m.root) {q : Q} {oe : Option (HEntry K V)} (he : m.lookup Ar o q = .ok oe) :
    Safe A D (fun r σ => r = oe.map kv ∧ hm.Is m σ) (hm.getKeyValue Ar o q) ρ := by
  have hh := h
  obtain ⟨⟨t, h1, rfl, h2⟩, h3, h4, h5⟩ := h
  unfold HHTMap.getKeyValue
  rw [h1, h4, h5]
  refine (safe_hget q _ m.degree (t := t) (by simp) trieFuel (.refl t) hf h2 he).imp ?_
  rintro r σ ⟨rfl, rfl⟩
  exact ⟨rfl, hh⟩

theorem safe_htGetKeyValue (h : hm.Is m ρ) (hf : Shallow trieFuel m.root) {q : Q} {x : Option (K × V)}
    (he : m.getKeyValue Ar o q = .ok x) : Safe A D (fun r σ => r = x ∧ hm.Is m σ) (hm.getKeyValue Ar o q) ρ := by
  obtain ⟨oe, h1, h2⟩ := res_bind_ok he
  cases h2
  exact safe_htLookup h hf h1

theorem safe_htGet (h : hm.Is m ρ) (hf : Shallow trieFuel m.root) {q : Q} {x : Option V}
    (he : m.get Ar o q = .ok x) : Safe A D (fun r σ => r = x ∧ hm.Is m σ) (hm.get Ar o q) ρ := by
  obtain ⟨oe, h1, h2⟩ := res_bind_ok he
  cases h2
  refine Safe.bind (safe_htLookup h hf h1) ?_
  rintro _ σ ⟨rfl, h3⟩
  exact Safe.ret ⟨by cases oe <;> rfl, h3⟩

theorem safe_htView (h : hm.Is m ρ) (hf : Shallow trieFuel m.root) : Safe A D (fun r σ => r = m ∧ hm.Is m σ) hm.view ρ := by
  have hh := h
  obtain ⟨⟨t, h1, rfl, h2⟩, h3, h4, h5⟩ := h
  unfold HHTMap.view
  rw [h1, h3, h4, h5]
  refine Safe.bind (safe_hview trieFuel (t := t) (by simp) (.refl t) hf h2) ?_
  rintro r σ ⟨rfl, rfl⟩
  exact Safe.ret ⟨rfl, hh⟩

/-- Effects on maps that are not known to be well formed yet. -/
def HTEff (hm : HHTMap H) (m : HTMap H K V) : Effect (HHTMap H) → Effect (HTMap H K V) → List (Item (HLabel K V)) → Prop :=
  EffOwn (fun hm m ρ => hm.Is m ρ) hm m

theorem safe_htHStep (h : hm.Is m ρ) (hf : Shallow trieFuel m.root) (hg : ∀ q, ∃ x, m.get Ar o q = .ok x)
    (hN : D = none ∨ (o.Lawful ∧ ∃ l, m.Rep Ar o k l)) (op : MapOp K V Q)
    (hD : ∀ q, op = .remove q → ∀ b m1, m.removeMut Ar o q = .ok (b, m1) → D = none ∨ ((∃ l, m1.Rep Ar o k l) ∧ Within D (nestLim k m1))) {r : MapRet K V} {e : Effect (HTMap H K V)}
    (he : m.step Ar o op = .ok (r, e)) :
    Safe A D (fun x τ => x.1 = r ∧ HTEff hm m x.2 e τ) (htHStep Ar o hm op) ρ := by
  cases op with
  | insert k v =>
    obtain ⟨m', h1, h2⟩ := res_bind_ok he
    cases h2
    refine Safe.bind (safe_htInsert h h1) ?_
    rintro hm' _ ⟨τ, τ', rfl, h3, h4⟩
    exact Safe.ret ⟨rfl, .fresh h3 h4⟩
  | insertMut k v =>
    obtain ⟨m', h1, h2⟩ := res_bind_ok he
    cases h2
    refine Safe.bind (safe_htInsertMut h h1) ?_
    intro hm' τ h3
    exact Safe.ret ⟨rfl, .update h3⟩
  | remove q =>
    obtain ⟨m', h1, h2⟩ := res_bind_ok he
    cases h2
    refine Safe.bind (safe_htRemove h hf hN (hD q rfl) h1) ?_
    rintro hm' _ ⟨τ, τ', rfl, h3, h4⟩
    exact Safe.ret ⟨rfl, .fresh h3 h4⟩
  | removeMut q =>
    obtain ⟨⟨b, m'⟩, h1, h2⟩ := res_bind_ok he
    cases h2
    refine Safe.bind (safe_htRemoveMut h hf hN h1) ?_
    rintro ⟨_, hm'⟩ τ ⟨rfl, h3⟩
    exact Safe.ret ⟨rfl, .update h3⟩
  | getMut q f =>
    obtain ⟨⟨b, m'⟩, h1, h2⟩ := res_bind_ok he
    cases h2
    refine Safe.bind (safe_htGetMut h hf h1) ?_
    rintro ⟨_, hm'⟩ τ ⟨rfl, h3⟩
    exact Safe.ret ⟨rfl, .update h3⟩
  | clone =>
    cases he
    refine Safe.bind (safe_htClone h) ?_
    rintro hm' _ ⟨τ, τ', rfl, h3, h4⟩
    exact Safe.ret ⟨rfl, .fresh h3 h4⟩
  | get q =>
    obtain ⟨x, h1, h2⟩ := res_bind_ok he
    cases h2
    refine Safe.bind (safe_htGet h hf h1) ?_
    rintro _ τ ⟨rfl, h3⟩
    exact Safe.ret ⟨rfl, .keep h3⟩
  | getKeyValue q =>
    obtain ⟨x, h1, h2⟩ := res_bind_ok he
    cases h2
    refine Safe.bind (safe_htGetKeyValue h hf h1) ?_
    rintro _ τ ⟨rfl, h3⟩
    exact Safe.ret ⟨rfl, .keep h3⟩
  | containsKey q =>
    obtain ⟨x, h1, h2⟩ := res_bind_ok he
    cases h2
    obtain ⟨y, h3, h2⟩ := res_bind_ok h1
    cases h2
    refine Safe.bind (safe_htGet h hf h3) ?_
    rintro _ τ ⟨rfl, h4⟩
    exact Safe.ret ⟨rfl, .keep h4⟩
  | index q =>
    simp only [HTMap.step, HTMap.index] at he
    obtain ⟨x, hx⟩ := hg q
    simp only [hx, Res.ok_bind] at he
    refine Safe.bind (safe_htGet h hf hx) ?_
    rintro y τ ⟨e1, h1⟩
    subst e1
    cases y with
    | none => cases he; exact Safe.ret ⟨rfl, .keep h1⟩
    | some v => cases he; exact Safe.ret ⟨rfl, .keep h1⟩
  | size =>
    cases he
    exact Safe.ret ⟨by rw [h.size]; rfl, .keep h⟩
  | isEmpty =>
    cases he
    exact Safe.ret ⟨by rw [h.size]; rfl, .keep h⟩

theorem HTEff.is {e : Effect (HHTMap H)} {f : Effect (HTMap H K V)} (h : HTEff hm m e f ρ) (lo : ∃ l, m.Rep Ar o k l)
    (hf : ∃ e' : Effect (List (K × V)), Effect.Rel (fun m l => m.Rep Ar o k l) f e') : EffOwn (HTIs Ar o k) hm m e f ρ := by
  obtain ⟨e', hf⟩ := hf
  cases h with
  | keep hk => exact .keep ⟨hk, lo⟩
  | fresh h1 h2 => cases hf with | fresh hs => exact .fresh ⟨h1, _, hs⟩ ⟨h2, lo⟩
  | update h1 => cases hf with | update hs => exact .update ⟨h1, _, hs⟩

end

/-- The heap version of `HashTrieMap` does what the value model does, with limited nesting of destructors. -/
theorem htImpl_nests_model (Ar : Arch) {o : HashKeys H K Q} (lo : o.Lawful) {k : Nat} (c : HConf Ar k) (hW : 2 ^ k ≤ Ar.W % 256) (hasher : H)
    (A : Allocator (HLabel K V)) :
    (htImpl Ar o hasher (2 ^ k) : Impl (HLabel K V) _ _ _).Nests A (⟨HNode.newEmptyBranch, 0, 2 ^ k, hasher⟩ : HTMap H K V)
      (HTMap.stepAll Ar o) (HTIs Ar o k) (nestLim k) where
  new D := by
    refine Safe.liftBind (x := ()) ?_ (Safe.liftBind (x := ()) ?_ ?_)
    · rw [isPow2_pow c.small]; rfl
    · rw [decide_eq_true hW]; rfl
    · refine Safe.bind (safe_new (HLabel.branch 0) []) ?_
      rintro p _ rfl
      refine Safe.ret ⟨⟨⟨.node p (.branch 0) [], rfl, rfl, ?_⟩, rfl, rfl, rfl⟩, [], HTMap.rep_empty c hasher⟩
      show IsN (HNode.branch 0 []) _
      rw [IsN]
      exact ⟨rfl, by rw [IsNs]; rfl⟩
  step := by
    rintro D _ hm m ρ op r e ⟨h, l, hl⟩ hD he
    have hN : D = none ∨ (o.Lawful ∧ ∃ l, m.Rep Ar o k l) := .inr ⟨lo, l, hl⟩
    have hD' : ∀ q b m1, m.removeMut Ar o q = .ok (b, m1) → D = none ∨ ((∃ l, m1.Rep Ar o k l) ∧ Within D (nestLim k m1)) := by
      intro q b m1 h1
      have hh : m1.hasher = m.hasher := by
        obtain ⟨_, -, h7⟩ := res_bind_ok h1
        dsimp only at h7
        split at h7
        · obtain ⟨_, -, h7⟩ := res_bind_ok h7
          cases h7; rfl
        · cases h7; rfl
      obtain ⟨e2, h4, h5⟩ := hl.step lo (.removeMut q)
      simp only [HTMap.step, h1] at h4
      cases h4
      cases h5 with
      | update h6 =>
        refine .inr ⟨⟨_, h6⟩, hD.mono (Nat.add_le_add_left ?_ _)⟩
        rw [crowd_rep h6, crowd_rep hl, hh]
        exact crowd_sublist (List.filter_sublist.map _)
    have hf : Shallow trieFuel m.root := shallow_of_ok hl.conf.pos m.root 0 trieFuel hl.ok (by decide) (by decide)
    cases op with
    | base op =>
      obtain ⟨⟨r', e'⟩, h1, h2⟩ := res_bind_ok he
      cases h2
      refine Safe.bind (safe_htHStep h hf (fun q => ⟨_, hl.get lo q⟩) hN op (fun q _ => hD' q) h1) ?_
      rintro ⟨x, f⟩ τ ⟨rfl, h3⟩
      obtain ⟨e2, h4, h5⟩ := hl.step lo op
      rw [h4] at h1
      cases h1
      exact Safe.ret ⟨rfl, h3.is ⟨l, hl⟩ ⟨_, h5⟩⟩
    | iter n =>
      obtain ⟨rs, h1, h2⟩ := res_bind_ok he
      cases h2
      refine Safe.bind (safe_htView h hf) ?_
      rintro _ τ ⟨rfl, h3⟩
      exact Safe.liftBind h1 (Safe.ret ⟨rfl, .keep ⟨h3, l, hl⟩⟩)
    | count p =>
      obtain ⟨rs, h1, h2⟩ := res_bind_ok he
      cases h2
      refine Safe.bind (safe_htView h hf) ?_
      rintro _ τ ⟨rfl, h3⟩
      exact Safe.liftBind h1 (Safe.ret ⟨rfl, .keep ⟨h3, l, hl⟩⟩)
  drop := by
    rintro D _ hm m ρ ⟨h, hl⟩ hD
    have := safe_htDrop (A := A) h (.inr ⟨hl, hD⟩) []
    rw [List.append_nil] at this
    exact this
  ptrs := by
    rintro hm m ρ ⟨⟨⟨t, e1, rfl, h2⟩, -, -, -⟩, -⟩
    exact ⟨[t], rfl, by simp [htImpl, e1]⟩

/-- The heap version of `HashTrieMap` does what the value model does. -/
theorem htImpl_refines_model (Ar : Arch) {o : HashKeys H K Q} (lo : o.Lawful) {k : Nat} (c : HConf Ar k) (hW : 2 ^ k ≤ Ar.W % 256) (hasher : H)
    (A : Allocator (HLabel K V)) :
    (htImpl Ar o hasher (2 ^ k) : Impl (HLabel K V) _ _ _).Refines A (⟨HNode.newEmptyBranch, 0, 2 ^ k, hasher⟩ : HTMap H K V)
      (HTMap.stepAll Ar o) (HTIs Ar o k) := (htImpl_nests_model Ar lo c hW hasher A).refines

end HT
end Heap
end Rpds
