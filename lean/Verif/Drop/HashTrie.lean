import Verif.HashTrie.Map
import Verif.HashTrie.Shape
/-
`HashTrieMap::remove_mut` and `HashTrieMap::insert_mut` when the `Drop` of the removed or replaced pair panics and the panic is caught.

The pair is dropped where `Node::remove` overwrites the leaf (hash_trie_map/mod.rs:436), or with the temporary that holds the result of
`list_remove_first` (581, 618), or where `Bucket::insert` assigns the entry (563).  An assignment whose old value panics while it is
dropped still writes the new value; all that would have come after the drop is skipped.  The case modelled is that this one drop panics
and no other: a second panic during unwinding aborts the process.
-/
set_option autoImplicit false
namespace Rpds
open Spec

/-- `Bucket::remove` (593-640) and the leaf case of `Node::remove` (425-440) when the drop of the removed entry panics: what is in the
place of the leaf afterwards, `none` if nothing is dropped. -/
def Bucket.removeD {H K V Q : Type} (o : HashKeys H K Q) (key : Q) (keyHash : UInt64) : Bucket K V → Res (Option (HNode K V))
  | .single e => pure (if e.matches o key keyHash then some HNode.newEmptyBranch else none)
  | .collision entries => do
    let (removed, entries) ← listRemoveFirst (fun e => e.matches o key keyHash) entries
    pure (if removed.isSome then some (.leaf (.collision entries)) else none)

/-- `Bucket::insert` (558-588) when the drop of the entry it replaces panics, `none` if it replaces nothing: in a `Collision` the old entry
is dropped before the new one is pushed. -/
def Bucket.insertD {H K V Q : Type} (o : HashKeys H K Q) (entry : HEntry K V) : Bucket K V → Res (Option (HNode K V))
  | .single e => pure (if e.matches o.self entry.key entry.keyHash then some (.leaf (.single entry)) else none)
  | .collision entries => do
    let (removed, entries) ← listRemoveFirst (fun e => e.matches o.self entry.key entry.keyHash) entries
    pure (if removed.isSome then some (.leaf (.collision entries)) else none)

namespace HNode
variable {H K V Q : Type} (A : Arch)

mutual
/-- The way down of `Node::remove` (388-424) and `Node::insert` (299-315) to the leaf, where `f` runs and panics; on the way back nothing
more is done to the branches (403-417 are not reached). -/
def editD (f : Bucket K V → Res (Option (HNode K V))) (keyHash : UInt64) (degree : Nat) : HNode K V → (depth : Nat) → Res (Option (HNode K V))
  | .branch bm arr, depth => do
    let index ← unwrap (← indexFromHash A keyHash depth degree)
    match ← SparseArray.slot A bm index with
    | none => pure none
    | some i => do
      match ← editAtD f keyHash degree arr i (depth + 1) with
      | none => pure none
      | some subtree => do
        let subtrees ← SparseArray.writeSlot ⟨bm, arr⟩ i subtree
        pure (some (.branch subtrees.bitmap subtrees.array))
  | .leaf b, _ => f b
/-- The recursive call on `arr[i]`. -/
def editAtD (f : Bucket K V → Res (Option (HNode K V))) (keyHash : UInt64) (degree : Nat) :
    List (HNode K V) → (i depth : Nat) → Res (Option (HNode K V))
  | [], _, _ => .error .indexOutOfBounds
  | c :: _, 0, depth => editD f keyHash degree c depth
  | _ :: cs, i + 1, depth => editAtD f keyHash degree cs i depth
end

end HNode

namespace HTMap
variable {H K V Q : Type} (A : Arch) (o : HashKeys H K Q)

/-- `HashTrieMap::remove_mut` (819-835) when the drop of the removed pair panics; `none` if the key is not there.  `self.size -= 1` is not
reached. -/
def removeMutD (m : HTMap H K V) (key : Q) : Res (Option (HTMap H K V)) := do
  let root ← m.root.clone.editD A (Bucket.removeD o key (o.hashQ m.hasher key)) (o.hashQ m.hasher key) m.degree 0
  pure (root.map fun root => { m with root })

/-- `HashTrieMap::insert_mut` (794-801) when the drop of the replaced pair panics; `none` if the key is not there. -/
def insertMutD (m : HTMap H K V) (key : K) (value : V) : Res (Option (HTMap H K V)) := do
  let entry := HEntry.new o m.hasher key value
  let root ← m.root.clone.editD A (Bucket.insertD o entry) entry.keyHash m.degree 0
  pure (root.map fun root => { m with root })

end HTMap

namespace HNode
variable {H K V Q : Type} {A : Arch} {o : HashKeys H K Q} {k : Nat}

/-- All that iterating needs: the collision lists know their lengths. -/
inductive Walk : HNode K V → Prop
  | branch {bm : Nat} {arr : List (HNode K V)} : (∀ n ∈ arr, Walk n) → Walk (.branch bm arr)
  | single {e : HEntry K V} : Walk (.leaf (.single e))
  | collision {l : RList (HEntry K V)} : l.Rep l.head.toList → Walk (.leaf (.collision l))

theorem OK.walk {z : Bool} (n : HNode K V) : ∀ {d : Nat}, n.OK A k z d → n.Walk := by
  induction n using HNode.induct with
  | hl b =>
    intro d h
    cases b with
    | single e => exact .single
    | collision l => rw [OK] at h; exact .collision h.2.1
  | hb bm arr ih =>
    intro d h
    rw [ok_branch] at h
    refine .branch fun n hn => ?_
    obtain ⟨i, _, hc⟩ := SparseArray.forall₂_mem h.2 hn
    exact ih n hn hc.ok

theorem editAtD_eq (f : Bucket K V → Res (Option (HNode K V))) (kh : UInt64) (deg : Nat) (arr : List (HNode K V)) (i d : Nat) :
    editAtD A f kh deg arr i d = (vecIndex arr i >>= fun c => editD A f kh deg c d) := by
  induction arr generalizing i with
  | nil => simp [editAtD, vecIndex]
  | cons c arr ih => cases i <;> simp [editAtD, ih, vecIndex]

/-- The way down: if an entry is hit, `f` runs on the leaf that holds it, and what holds of the leaf and its replacement and is passed on
by branches holds of the whole node. -/
theorem editD_ok (c : HConf A k) {h : H} (f : Bucket K V → Res (Option (HNode K V))) (kh : UInt64) (hit : HEntry K V → Bool)
    (C : HNode K V → HNode K V → Nat → Prop)
    (hbr : ∀ bm los a a' his d, d ≤ 64 → d * k < 64 → bm.testBit (idx k d kh) = true → los.length = (SparseArray.below bm (idx k d kh)).length →
      (∀ n ∈ los ++ his, n.Walk) → (∀ x ∈ (los ++ his).flatMap entries, x.keyHash ≠ kh ∧ hit x = false) → C a a' (d + 1) →
      C (.branch bm (los ++ a :: his)) (.branch bm (los ++ a' :: his)) d)
    (hhit : ∀ e : HEntry K V, e.keyHash = o.hashK h e.key → hit e = true → e.keyHash = kh)
    (hn : ∀ b d, (HNode.leaf b).OK A k true d → Good o h b.entries → b.entries.any hit = false → f b = .ok none)
    (hs : ∀ b d, d ≤ 64 → (HNode.leaf b).OK A k true d → Good o h b.entries → Apart o b.entries →
      (∀ e ∈ b.entries, ∀ j, j < d → idx k j e.keyHash = idx k j kh) → b.entries.any hit = true →
      ∃ x, f b = .ok (some x) ∧ C (.leaf b) x d) (n : HNode K V) : ∀ d, d ≤ 64 → n.OK A k true d → Good o h n.entries → Apart o n.entries →
    (∀ e ∈ n.entries, ∀ j, j < d → idx k j e.keyHash = idx k j kh) →
    (n.entries.any hit = false → n.editD A f kh (2 ^ k) d = .ok none) ∧
    (n.entries.any hit = true → ∃ n', n.editD A f kh (2 ^ k) d = .ok (some n') ∧ C n n' d) := by
  induction n using HNode.induct with
  | hl b =>
    intro d hd hok hg ha hu
    simp only [entries_leaf] at hg ha hu ⊢
    rw [editD]
    exact ⟨hn b d hok hg, hs b d hd hok hg ha hu⟩
  | hb bm arr ih =>
    intro d hd hok hg ha hu
    rw [ok_branch] at hok
    obtain ⟨hd64, hrel⟩ := hok
    have hi := c.idx_lt d kh
    obtain ⟨los, his, hlo, hhi, hcase⟩ := hrel.cases hi
    have miss : ∀ {is cs}, List.Forall₂ (Child A k true d) is cs → Good o h (cs.flatMap entries) → (∀ i ∈ is, i ≠ idx k d kh) →
        ∀ e ∈ cs.flatMap entries, e.keyHash ≠ kh ∧ hit e = false := by
      intro is cs hc hg hne e he
      obtain ⟨x, hcm, hec⟩ := List.mem_flatMap.1 he
      obtain ⟨i, hi, hci⟩ := SparseArray.forall₂_mem hc hcm
      have hkh : e.keyHash ≠ kh := fun hk => hne i hi (by rw [← hci.pos e hec, hk])
      refine ⟨hkh, ?_⟩
      cases hq : hit e with
      | false => rfl
      | true => exact absurd (hhit e (hg e he) hq) hkh
    simp only [editD, indexFromHash_eq c.small hd, hd64, if_true, Res.ok_bind, unwrap_some, SparseArray.slot_eq hi]
    rcases hcase with ⟨hb, e1⟩ | ⟨a, hb, e1, hca⟩
    · simp only at hb e1
      subst e1
      simp only [entries_branch, List.flatMap_append] at hg ⊢
      rw [Good.append] at hg
      have n1 := miss hlo hg.1 (fun i hi => below_ne hi)
      have n2 := miss hhi hg.2 (fun i hi => above_ne hi)
      have n12 : ∀ x ∈ los.flatMap entries ++ his.flatMap entries, hit x = false :=
        fun x hx => (List.mem_append.1 hx).elim (fun h => (n1 x h).2) (fun h => (n2 x h).2)
      rw [any_none n12]
      simp [hb]
    · simp only at hb e1
      subst e1
      simp only [entries_branch, List.flatMap_append, List.flatMap_cons] at hg ha ⊢
      rw [Good.append, Good.append] at hg
      have n1 := miss hlo hg.1 (fun i hi => below_ne hi)
      have n2 := miss hhi hg.2.2 (fun i hi => above_ne hi)
      obtain ⟨i1, i2⟩ := ih a (by simp) (d + 1) (depth_succ c hd64) hca.ok hg.2.1 ha.append_right.append_left
        (fun e he j hj => by
          by_cases hjd : j = d
          · rw [hjd]; exact hca.pos e he
          · exact hu e (by simp [he]) j (by omega))
      have hany : (los.flatMap entries ++ (a.entries ++ his.flatMap entries)).any hit = a.entries.any hit := by
        rw [List.any_append, List.any_append, any_none fun x hx => (n1 x hx).2, any_none fun x hx => (n2 x hx).2]; simp
      rw [hb]
      simp only [if_true]
      rw [editAtD_eq, vecIndex_ok (a := a) (by simp [SparseArray.forall₂_length hlo]), hany]
      refine ⟨fun h0 => by simp [i1 h0], fun h1 => ?_⟩
      obtain ⟨a', g1, g2⟩ := i2 h1
      refine ⟨.branch bm (los ++ a' :: his), ?_, ?_⟩
      · simp only [Res.ok_bind, g1]
        rw [SparseArray.writeSlot_ok (s := ⟨bm, los ++ a :: his⟩) (b := a') hlo rfl]
        simp
      · refine hbr bm los a a' his d hd hd64 hb (SparseArray.forall₂_length hlo).symm ?_ ?_ g2
        · intro n hn
          rcases List.mem_append.1 hn with hn | hn
          · obtain ⟨i, _, hc⟩ := SparseArray.forall₂_mem hlo hn
            exact hc.ok.walk
          · obtain ⟨i, _, hc⟩ := SparseArray.forall₂_mem hhi hn
            exact hc.ok.walk
        · intro x hx
          rw [List.flatMap_append] at hx
          exact (List.mem_append.1 hx).elim (n1 x) (n2 x)

/-- Lookups of keys with another hash find what they found before. -/
def SameElsewhere (A : Arch) (o : HashKeys H K Q) (h : H) (k : Nat) (kh : UInt64) (n n' : HNode K V) (d : Nat) : Prop :=
  ∀ q, o.hashQ h q ≠ kh → (∀ j, j < d → idx k j (o.hashQ h q) = idx k j kh) →
    n'.get A o q (o.hashQ h q) (2 ^ k) d = n.get A o q (o.hashQ h q) (2 ^ k) d

theorem below_inj {bm i j : Nat} (hij : i ≠ j) (hi : bm.testBit i = true) (hj : bm.testBit j = true) :
    (SparseArray.below bm i).length ≠ (SparseArray.below bm j).length := by
  have key : ∀ {i j : Nat}, i < j → bm.testBit i = true → (SparseArray.below bm i).length < (SparseArray.below bm j).length := by
    intro i j hlt hi
    have h1 : List.range j = List.range i ++ i :: (List.range (j - i - 1)).map (fun t => i + 1 + t) := SparseArray.range_split hlt
    rw [SparseArray.below, SparseArray.below, h1, List.filter_append, List.filter_cons, hi]
    simp
  rcases Nat.lt_or_gt_of_ne hij with h | h
  · exact Nat.ne_of_lt (key h hi)
  · exact (Nat.ne_of_lt (key h hj)).symm

theorem getElem?_other {α : Type} (los his : List α) (a a' : α) {i : Nat} (h : i ≠ los.length) :
    (los ++ a' :: his)[i]? = (los ++ a :: his)[i]? := by
  rcases Nat.lt_or_gt_of_ne h with h | h
  · rw [List.getElem?_append_left h, List.getElem?_append_left h]
  · rw [List.getElem?_append_right (by omega), List.getElem?_append_right (by omega)]
    obtain ⟨t, ht⟩ : ∃ t, i - los.length = t + 1 := ⟨i - los.length - 1, by omega⟩
    simp [ht]

theorem SameElsewhere.branch (c : HConf A k) {h : H} {kh : UInt64} {bm : Nat} {los his : List (HNode K V)} {a a' : HNode K V} {d : Nat} (hd : d ≤ 64)
    (hd64 : d * k < 64) (hb : bm.testBit (idx k d kh) = true) (hl : los.length = (SparseArray.below bm (idx k d kh)).length)
    (hs : SameElsewhere A o h k kh a a' (d + 1)) :
    SameElsewhere A o h k kh (.branch bm (los ++ a :: his)) (.branch bm (los ++ a' :: his)) d := by
  intro q hq hp
  have hi := c.idx_lt d (o.hashQ h q)
  simp only [get, indexFromHash_eq c.small hd, hd64, if_true, Res.ok_bind, unwrap_some, SparseArray.slot_eq hi]
  by_cases he : idx k d (o.hashQ h q) = idx k d kh
  · rw [he, hb]
    simp only [if_true]
    rw [getAt_eq, getAt_eq, vecIndex_ok (a := a') (by simp [← hl]), vecIndex_ok (a := a) (by simp [← hl])]
    simp only [Res.ok_bind]
    refine hs q hq fun j hj => ?_
    by_cases hjd : j = d
    · rw [hjd, he]
    · exact hp j (by omega)
  · cases hb' : bm.testBit (idx k d (o.hashQ h q)) with
    | false => rfl
    | true =>
      simp only [if_true]
      rw [getAt_eq, getAt_eq]
      have hne := below_inj (fun hh => he hh) hb' hb
      rw [← hl] at hne
      simp only [vecIndex, getElem?_other los his a a' hne]

/-- Entries with this hash are found. -/
def FoundHere (A : Arch) (o : HashKeys H K Q) (h : H) (k : Nat) (kh : UInt64) (n' : HNode K V) (d : Nat) : Prop :=
  ∀ q, o.hashQ h q = kh → ∀ x ∈ n'.entries, x.keyHash = kh → o.eqKQ x.key q = true → n'.get A o q kh (2 ^ k) d = .ok (some x)

/-- What is true when the entries hit are gone and nothing else changed. -/
structure Gone (A : Arch) (o : HashKeys H K Q) (h : H) (k : Nat) (kh : UInt64) (hit : HEntry K V → Bool) (n n' : HNode K V) (d : Nat) : Prop where
  perm : n'.entries.Perm (n.entries.filter fun x => !hit x)
  walk : n'.Walk
  same : SameElsewhere A o h k kh n n' d
  found : FoundHere A o h k kh n' d

theorem Gone.branch (c : HConf A k) {h : H} {kh : UInt64} {hit : HEntry K V → Bool} {bm : Nat} {los his : List (HNode K V)} {a a' : HNode K V}
    {d : Nat} (hd : d ≤ 64)
    (hd64 : d * k < 64) (hb : bm.testBit (idx k d kh) = true) (hl : los.length = (SparseArray.below bm (idx k d kh)).length)
    (hw : ∀ n ∈ los ++ his, n.Walk) (hm : ∀ x ∈ (los ++ his).flatMap entries, x.keyHash ≠ kh ∧ hit x = false) (hs : Gone A o h k kh hit a a' (d + 1)) :
    Gone A o h k kh hit (.branch bm (los ++ a :: his)) (.branch bm (los ++ a' :: his)) d := by
  rw [List.flatMap_append] at hm
  refine ⟨?_, .branch ?_, hs.same.branch c hd hd64 hb hl, ?_⟩
  · simp only [entries_branch, List.flatMap_append, List.flatMap_cons, List.filter_append]
    rw [filter_none fun x hx => (hm x (List.mem_append.2 (.inl hx))).2, filter_none fun x hx => (hm x (List.mem_append.2 (.inr hx))).2]
    exact (hs.perm.append_right _).append_left _
  · intro n hn
    rcases List.mem_append.1 hn with hn | hn
    · exact hw n (List.mem_append.2 (.inl hn))
    · rcases List.mem_cons.1 hn with rfl | hn
      · exact hs.walk
      · exact hw n (List.mem_append.2 (.inr hn))
  · intro q hq x hx hk he
    have hxa : x ∈ a'.entries := by
      simp only [entries_branch, List.flatMap_append, List.flatMap_cons] at hx
      rcases List.mem_append.1 hx with h | h
      · exact absurd hk (hm x (List.mem_append.2 (.inl h))).1
      · rcases List.mem_append.1 h with h | h
        · exact h
        · exact absurd hk (hm x (List.mem_append.2 (.inr h))).1
    have hi := c.idx_lt d kh
    simp only [get, indexFromHash_eq c.small hd, hd64, if_true, Res.ok_bind, unwrap_some, SparseArray.slot_eq hi, hb]
    rw [getAt_eq, vecIndex_ok (a := a') (by simp [← hl])]
    exact hs.found q hq x hxa hk he

theorem get_newEmptyBranch (c : HConf A k) {h : H} {d : Nat} (hd : d ≤ 64) (hd64 : d * k < 64) (q : Q) :
    (newEmptyBranch : HNode K V).get A o q (o.hashQ h q) (2 ^ k) d = .ok none := by
  have hi := c.idx_lt d (o.hashQ h q)
  simp [newEmptyBranch, get, indexFromHash_eq c.small hd, hd64, SparseArray.slot_eq hi, SparseArray.new]

theorem find_one {es : List (HEntry K V)} {p : HEntry K V → Bool} (h : AtMostOne p es) {x : HEntry K V} (hx : x ∈ es) (hp : p x = true) :
    es.find? p = some x := by
  induction es with
  | nil => simp at hx
  | cons y es ih =>
    obtain ⟨h1, h2⟩ := List.pairwise_cons.1 h
    rw [List.find?_cons]
    rcases List.mem_cons.1 hx with rfl | hx
    · simp [hp]
    · cases hy : p y with
      | true => exact absurd ⟨hy, hp⟩ (h1 x hx)
      | false => exact ih h2 hx

theorem found_collision (lo : o.Lawful) {h : H} {kh : UInt64} {l : RList (HEntry K V)} {es : List (HEntry K V)} (hr : l.Rep es)
    (hg : Good o h es) (ha : Apart o es) (d : Nat) : FoundHere A o h k kh (.leaf (.collision l)) d := by
  intro q hq x hx _ he
  subst hq
  simp only [entries_leaf, Bucket.entries, hr.head] at hx
  simp only [get, Bucket.get]
  rw [iterFind_spec hr, find_matches lo hg, find_one (ha.atMostOne lo q) hx he]

/-- A collision without one of its entries. -/
theorem gone_collision (lo : o.Lawful) (c : HConf A k) (h : H) (q : Q) {l : RList (HEntry K V)} {d : Nat}
    (hok : (HNode.leaf (.collision l)).OK A k true d) (hg : Good o h l.head.toList) (ha : Apart o l.head.toList) :
    ∃ l', listRemoveFirst (fun e => e.matches o q (o.hashQ h q)) l = .ok (l.head.toList.find? (fun e => o.eqKQ e.key q), l') ∧
      l'.Rep (l.head.toList.filter fun e => !o.eqKQ e.key q) ∧
      Gone A o h k (o.hashQ h q) (fun e => o.eqKQ e.key q) (.leaf (.collision l)) (.leaf (.collision l')) d := by
  rw [OK] at hok
  obtain ⟨l', h1, h2⟩ := listRemoveFirst_spec (p := fun x => x.matches o q (o.hashQ h q)) hok.2.1
  rw [find_matches lo hg] at h1
  rw [eraseP_matches lo hg, eraseP_eq_filter (ha.atMostOne lo q)] at h2
  refine ⟨l', h1, h2, ?_, .collision (by rw [h2.head]; exact h2), ?_, found_collision lo h2 (fun e he => hg e (List.mem_filter.1 he).1)
    (ha.sublist List.filter_sublist) d⟩
  · simp [Bucket.entries, h2.head]
  · intro q' hq hp
    exact absurd (hash_eq_of_idx c.pos hok.1 hp) hq

theorem any_hit {es : List (HEntry K V)} {p : HEntry K V → Bool} : (es.find? p).isSome = es.any p := by
  rw [any_eq_find]

/-- `Node::remove` with a panicking drop. -/
theorem removeD_ok (lo : o.Lawful) (c : HConf A k) (h : H) (q : Q) (n : HNode K V) (hok : n.OK A k true 0)
    (hg : Good o h n.entries) (ha : Apart o n.entries) :
    (n.entries.any (fun e => o.eqKQ e.key q) = false → n.editD A (Bucket.removeD o q (o.hashQ h q)) (o.hashQ h q) (2 ^ k) 0 = .ok none) ∧
    (n.entries.any (fun e => o.eqKQ e.key q) = true → ∃ n', n.editD A (Bucket.removeD o q (o.hashQ h q)) (o.hashQ h q) (2 ^ k) 0 = .ok (some n') ∧
      Gone A o h k (o.hashQ h q) (fun e => o.eqKQ e.key q) n n' 0) := by
  refine editD_ok (o := o) (h := h) c (Bucket.removeD o q (o.hashQ h q)) (o.hashQ h q) (fun e => o.eqKQ e.key q)
    (Gone A o h k (o.hashQ h q) fun e => o.eqKQ e.key q) ?_ ?_ ?_ ?_ n 0 (Nat.zero_le _) hok hg ha (fun _ _ j hj => absurd hj (Nat.not_lt_zero j))
  · intro bm los a a' his d hd hd64 hb hl hw hm hs
    exact hs.branch c hd hd64 hb hl hw hm
  · intro e he hq
    rw [he, lo.hash_borrow, lo.hash_eq h _ _ hq]
  · intro b d hok hg h0
    cases b with
    | single x =>
      simp only [Bucket.entries, List.any_cons, List.any_nil, Bool.or_false] at hg h0
      simp [Bucket.removeD, matches_eq lo (hg x (by simp)) q, h0]
    | collision l =>
      rw [OK] at hok
      simp only [Bucket.entries] at hg h0
      obtain ⟨l', h1, _⟩ := listRemoveFirst_spec (p := fun x => x.matches o q (o.hashQ h q)) hok.2.1
      rw [find_matches lo hg] at h1
      have h2 : (l.head.toList.find? fun e => o.eqKQ e.key q).isSome = false := by rw [any_hit]; exact h0
      simp [Bucket.removeD, h1, h2]
  · intro b d hd hok hg ha _ h0
    cases b with
    | single x =>
      simp only [Bucket.entries, List.any_cons, List.any_nil, Bool.or_false] at hg h0
      have hm := matches_eq lo (hg x (by simp)) q
      refine ⟨newEmptyBranch, by simp [Bucket.removeD, hm, h0], ?_, .branch (by simp [SparseArray.new]), ?_, fun q' _ x hx => by simp [entries_empty] at hx⟩
      · simp [entries_empty, Bucket.entries, h0]
      · intro q' hq hp
        have hd64 : d * k < 64 := by
          rcases Nat.lt_or_ge (d * k) 64 with h | h
          · exact h
          · exact absurd (hash_eq_of_idx c.pos h hp) hq
        rw [get_newEmptyBranch c hd hd64]
        have hx : x.keyHash = o.hashQ h q := by rw [hg x (by simp), lo.hash_borrow, lo.hash_eq h _ _ h0]
        have : (x.keyHash == o.hashQ h q') = false := by rw [hx]; simpa using fun e => hq e.symm
        simp [get, Bucket.get, HEntry.matches, this]
    | collision l =>
      simp only [Bucket.entries] at hg ha h0
      obtain ⟨l', h1, _, h2⟩ := gone_collision lo c h q hok hg ha
      have h3 : (l.head.toList.find? fun e => o.eqKQ e.key q).isSome = true := by rw [any_hit]; exact h0
      exact ⟨.leaf (.collision l'), by simp [Bucket.removeD, h1, h3], h2⟩

/-- `Node::insert` with a panicking drop of the entry it replaces: the insertion is done, or the entry is gone and the new one is not there
(then another entry has the same hash). -/
theorem insertD_ok (lo : o.Lawful) (c : HConf A k) (h : H) (e : HEntry K V) (he : e.keyHash = o.hashK h e.key) (n : HNode K V)
    (hok : n.OK A k true 0) (hg : Good o h n.entries) (ha : Apart o n.entries) :
    (n.entries.any (fun x => o.eqK x.key e.key) = false → n.editD A (Bucket.insertD o e) e.keyHash (2 ^ k) 0 = .ok none) ∧
    (n.entries.any (fun x => o.eqK x.key e.key) = true → ∃ n', n.editD A (Bucket.insertD o e) e.keyHash (2 ^ k) 0 = .ok (some n') ∧
      ((∀ fuel, need n 0 ≤ fuel → n.insert A o (2 ^ k) fuel e 0 = .ok (false, n')) ∨
       (Gone A o h k e.keyHash (fun x => o.eqK x.key e.key) n n' 0 ∧ ∃ x ∈ n.entries, x.keyHash = e.keyHash ∧ o.eqK x.key e.key = false))) := by
  have hhash : e.keyHash = o.self.hashQ h e.key := he
  refine editD_ok (o := o) (h := h) c (Bucket.insertD o e) e.keyHash (fun x => o.eqK x.key e.key)
    (fun n n' d => (∀ fuel, need n d ≤ fuel → n.insert A o (2 ^ k) fuel e d = .ok (false, n')) ∨
       (Gone A o h k e.keyHash (fun x => o.eqK x.key e.key) n n' d ∧ ∃ x ∈ n.entries, x.keyHash = e.keyHash ∧ o.eqK x.key e.key = false))
    ?_ ?_ ?_ ?_ n 0 (Nat.zero_le _) hok hg ha (fun _ _ j hj => absurd hj (Nat.not_lt_zero j))
  · intro bm los a a' his d hd hd64 hb hl hw hm hs
    rcases hs with hs | ⟨hs, x, hx, hx'⟩
    · refine .inl fun fuel hf => ?_
      obtain ⟨fuel, rfl⟩ : ∃ f, fuel = f + 1 := ⟨fuel - 1, by simp only [need] at hf; omega⟩
      have hi := c.idx_lt d e.keyHash
      have h1 := hs fuel (by simp only [need] at hf ⊢; have := depth_succ c hd64; split <;> omega)
      simp only [insert, indexFromHash_eq c.small hd, hd64, if_true, Res.ok_bind, unwrap_some, SparseArray.slot_eq hi, hb]
      rw [vecIndex_ok (a := a) (by simp [← hl])]
      simp only [Res.ok_bind, h1, SparseArray.writeSlot, vecSet, ← hl]
      simp
    · exact .inr ⟨hs.branch c hd hd64 hb hl hw hm, x, by simp [hx], hx'⟩
  · intro x hx hq
    rw [hx, he, lo.hashK_eq h _ _ hq]
  · intro b d hok hg h0
    cases b with
    | single x =>
      simp only [Bucket.entries, List.any_cons, List.any_nil, Bool.or_false] at hg h0
      have hm := matches_eq (o := o.self) lo.self (hg x (by simp)) e.key
      rw [← hhash] at hm
      have hm' : x.matches o.self e.key e.keyHash = false := by rw [hm]; exact h0
      simp [Bucket.insertD, hm']
    | collision l =>
      rw [OK] at hok
      simp only [Bucket.entries] at hg h0
      obtain ⟨l', h1, _⟩ := listRemoveFirst_spec (p := fun x => x.matches o.self e.key (o.self.hashQ h e.key)) hok.2.1
      rw [find_matches (o := o.self) lo.self hg, ← hhash] at h1
      have h2 : (l.head.toList.find? fun x => o.self.eqKQ x.key e.key).isSome = false := by rw [any_hit]; exact h0
      simp [Bucket.insertD, h1, h2]
  · intro b d hd hok hg ha hu h0
    cases b with
    | single x =>
      simp only [Bucket.entries, List.any_cons, List.any_nil, Bool.or_false] at hg h0
      have hm := matches_eq (o := o.self) lo.self (hg x (by simp)) e.key
      rw [← hhash] at hm
      have hm' : x.matches o.self e.key e.keyHash = true := by rw [hm]; exact h0
      refine ⟨.leaf (.single e), by simp [Bucket.insertD, hm'], .inl fun fuel hf => ?_⟩
      obtain ⟨fuel, rfl⟩ : ∃ f, fuel = f + 1 := ⟨fuel - 1, by simp only [need] at hf; omega⟩
      simp [insert, indexFromHash_eq c.small hd, Bucket.containsKey, Bucket.get, hm', Bucket.insert]
    | collision l =>
      simp only [Bucket.entries] at hg ha hu h0
      obtain ⟨l', h1, hr, h2⟩ := gone_collision (o := o.self) lo.self c h e.key hok hg ha
      have h3 : (l.head.toList.find? fun x => o.self.eqKQ x.key e.key).isSome = true := by rw [any_hit]; exact h0
      rw [← hhash] at h1
      refine ⟨.leaf (.collision l'), by simp [Bucket.insertD, h1, h3], .inr ⟨⟨h2.perm, h2.walk, ?_, found_collision lo hr
        (fun e he => hg e (List.mem_filter.1 he).1) (ha.sublist List.filter_sublist) d⟩, ?_⟩⟩
      · intro q' hq hp
        rw [OK] at hok
        exact absurd (hash_eq_of_idx c.pos hok.1 hp) hq
      · rw [OK] at hok
        have hlen := length_of_find (ha.atMostOneK lo e.key)
        obtain ⟨x, hx⟩ : ∃ x, x ∈ l.head.toList.filter fun x => !o.eqK x.key e.key := by
          apply List.exists_mem_of_ne_nil
          intro h0; rw [h0] at hlen; simp at hlen; omega
        obtain ⟨hx1, hx2⟩ := List.mem_filter.1 hx
        exact ⟨x, by simpa [Bucket.entries] using hx1, hash_eq_of_idx c.pos hok.1 (hu x hx1), by simpa using hx2⟩

end HNode

/-! ### Iterating what is left -/

section
variable {K V : Type}

/-- Stack elements over nodes that can be walked. -/
def HStackElem.Walk : HStackElem K V → Prop
  | .branch rest => ∀ n ∈ rest, n.Walk
  | .leafCollision it => it.Rep it.next.toList
  | .leafSingle _ => True

theorem HStackElem.new_walk {n : HNode K V} (h : n.Walk) : (HStackElem.new n).Walk ∧ (HStackElem.new n).entries = n.entries := by
  cases h with
  | branch h => exact ⟨h, by simp [HStackElem.new, entries]⟩
  | single => simp [HStackElem.new, entries, Walk, Bucket.entries]
  | collision h => exact ⟨h.iter, by simp [HStackElem.new, entries, Bucket.entries, RList.iter, ListIter.new]⟩

theorem HStackElem.next_walk {e : HStackElem K V} (h : e.Walk) :
    (∃ e', e.next = .ok (none, e') ∧ e.entries = []) ∨
    (∃ x e', e.next = .ok (some (.inl x), e') ∧ e.entries = x :: e'.entries ∧ e'.Walk) ∨
    (∃ n e', e.next = .ok (some (.inr n), e') ∧ e.entries = n.entries ++ e'.entries ∧ e'.Walk ∧ n.Walk ∧ n.weight + e'.weight < e.weight) := by
  cases e with
  | branch rest =>
    cases rest with
    | nil => exact .inl ⟨_, rfl, rfl⟩
    | cons n rest =>
      have hn := h n (by simp)
      have hr : (HStackElem.branch rest).Walk := fun m hm => h m (by simp [hm])
      have hw := HStackElem.new_weight n
      obtain ⟨h1, h2⟩ := HStackElem.new_walk hn
      cases n with
      | branch bm arr =>
        refine .inr (.inr ⟨HStackElem.new (.branch bm arr), .branch rest, rfl, ?_, hr, h1, ?_⟩)
        · rw [h2]; simp [entries]
        · simp only [weight, HNode.weights] at hw ⊢; omega
      | leaf b =>
        cases b with
        | single x => exact .inr (.inl ⟨x, .branch rest, rfl, by simp [entries, Bucket.entries], hr⟩)
        | collision l =>
          refine .inr (.inr ⟨HStackElem.new (.leaf (.collision l)), .branch rest, rfl, ?_, hr, h1, ?_⟩)
          · rw [h2]; simp [entries]
          · simp only [weight, HNode.weights] at hw ⊢; omega
  | leafCollision it =>
    simp only [Walk] at h
    cases hl : it.next.toList with
    | nil =>
      rw [hl] at h
      obtain ⟨it', h1, _⟩ := h.step_nil
      exact .inl ⟨.leafCollision it', by simp [next, h1], hl⟩
    | cons x xs =>
      rw [hl] at h
      obtain ⟨it', h1, h2⟩ := h.step_cons
      have h3 : it'.next.toList = xs := h2.1
      exact .inr (.inl ⟨x, .leafCollision it', by simp [next, h1], by simp [entries, hl, h3], by simpa [Walk, h3] using h2⟩)
  | leafSingle x =>
    cases x with
    | none => exact .inl ⟨_, rfl, rfl⟩
    | some x => exact .inr (.inl ⟨x, .leafSingle none, rfl, by simp [entries], trivial⟩)

/-- The iterator has the entries `es` left, in this order; its counter may be too large. -/
structure HIter.Walks (it : HIter K V) (es : List (HEntry K V)) : Prop where
  ok : ∀ e ∈ it.stack, e.Walk
  entries : it.stack.flatMap HStackElem.entries = es
  size : es.length ≤ it.size

theorem HIter.loop_walks (fuel : Nat) : ∀ (it : HIter K V) (es : List (HEntry K V)), it.Walks es →
    (it.stack.map HStackElem.weight).sum < fuel → ∃ it', HIter.loop fuel it = .ok (es.head?, it') ∧ it'.Walks es.tail := by
  induction fuel with
  | zero => intro it es _ h; omega
  | succ fuel ih =>
    intro it es h hf
    obtain ⟨stack, size⟩ := it
    obtain ⟨hok, hes, hsz⟩ := h
    simp only at hok hes hsz hf
    cases stack with
    | nil =>
      simp only [List.flatMap_nil] at hes
      subst hes
      exact ⟨_, rfl, ⟨hok, rfl, hsz⟩⟩
    | cons top below =>
      simp only [List.flatMap_cons, List.map_cons, List.sum_cons] at hes hf
      have hb : ∀ e ∈ below, e.Walk := fun e he => hok e (by simp [he])
      have hw := top.weight_pos
      rcases HStackElem.next_walk (hok top (by simp)) with ⟨e', h1, h2⟩ | ⟨x, e', h1, h2, h3⟩ | ⟨n, e', h1, h2, h3, h4, h5⟩
      · rw [h2] at hes
        obtain ⟨it', g1, g2⟩ := ih ⟨below, size⟩ es ⟨hb, by simpa using hes, hsz⟩ (by simp only; omega)
        exact ⟨it', by simp [HIter.loop, h1, g1], g2⟩
      · subst hes
        rw [h2] at hsz ⊢
        simp only [List.cons_append, List.length_cons] at hsz
        refine ⟨⟨e' :: below, size - 1⟩, ?_, ⟨?_, by simp, ?_⟩⟩
        · simp only [HIter.loop, h1, Res.ok_bind]
          rw [csub_ok (by omega)]
          simp
        · intro e he
          rcases List.mem_cons.1 he with rfl | he
          · exact h3
          · exact hb e he
        · simp only [List.cons_append, List.tail_cons]; omega
      · have hb' : ∀ e ∈ n :: e' :: below, e.Walk := by
          intro e he
          rcases List.mem_cons.1 he with rfl | he
          · exact h4
          · rcases List.mem_cons.1 he with rfl | he
            · exact h3
            · exact hb e he
        obtain ⟨it', g1, g2⟩ := ih ⟨n :: e' :: below, size⟩ es ⟨hb', by simpa [h2] using hes, hsz⟩ (by
            simp only [List.map_cons, List.sum_cons]; omega)
        exact ⟨it', by simp [HIter.loop, h1, g1], g2⟩

theorem HIter.Walks.drives {β : Type} (f : HEntry K V → β) {it : HIter K V} {es : List (HEntry K V)} (h : it.Walks es) :
    Drives (HIter.mapNext f) it (es.map f) := by
  have step : ∀ {it : HIter K V} {bs : List β}, (∃ es, it.Walks es ∧ es.map f = bs) →
      ∃ it', it.mapNext f = .ok (bs.head?, it') ∧ ∃ es, it'.Walks es ∧ es.map f = bs.tail := by
    rintro it bs ⟨es, h1, rfl⟩
    obtain ⟨it', h2, h3⟩ := HIter.loop_walks _ it es h1 (Nat.lt_succ_self _)
    exact ⟨it', by simp [HIter.mapNext, HIter.next, h2], es.tail, h3, by simp⟩
  refine drives_of_rel (R := fun it bs => ∃ es, it.Walks es ∧ es.map f = bs) ?_ ?_ it _ ⟨es, h, rfl⟩
  · intro s hs; exact step hs
  · intro s a l hs; exact step hs

theorem HIter.walks_new {H : Type} {m : HTMap H K V} (hw : m.root.Walk) (hs : m.root.entries.length ≤ m.size) :
    (HIter.new m).Walks m.root.entries := by
  obtain ⟨h1, h2⟩ := HStackElem.new_walk hw
  by_cases h0 : m.size > 0
  · refine ⟨?_, ?_, hs⟩
    · simp [HIter.new, h0, h1]
    · simp [HIter.new, h0, h2]
  · have : m.root.entries = [] := List.length_eq_zero_iff.1 (by omega)
    refine ⟨?_, ?_, hs⟩
    · simp [HIter.new, h0]
    · simp [HIter.new, h0, this]

end
end Rpds
