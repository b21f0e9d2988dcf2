import Verif.HashTrie.Iter
/-
`HashTrieMap` represents a finite map.
-/
set_option autoImplicit false
namespace Rpds
open Spec

theorem RList.Rep.unique {T : Type} {l l' : RList T} {xs : List T} (h : l.Rep xs) (h' : l'.Rep xs) : l = l' := by
  have inj : ∀ a b : Link T, a.toList = b.toList → a = b := by
    intro a
    induction a with
    | none => intro b hb; exact (Link.toList_eq_nil hb.symm).symm
    | some x a ih =>
      intro b hb
      obtain ⟨b', rfl, h2⟩ := Link.toList_eq_cons hb.symm
      rw [ih b' h2.symm]
  obtain ⟨h1, h2, h3⟩ := h
  obtain ⟨g1, g2, g3⟩ := h'
  cases l; cases l'
  simp only at *
  rw [inj _ _ (h1.trans g1.symm), h2.trans g2.symm, h3.trans g3.symm]

@[simp] theorem HNode.clone_eq {K V : Type} (n : HNode K V) : n.clone = n := by
  cases n with
  | branch bm arr => rfl
  | leaf b => cases b <;> rfl

namespace HNode
variable {H K V Q : Type} {A : Arch} {o : HashKeys H K Q} {k : Nat}

/-- Removing an absent key gives back the very same node. -/
theorem remove_absent (lo : o.Lawful) (c : HConf A k) (h : H) (q : Q) (n : HNode K V) : ∀ (d : Nat),
    d ≤ 64 → n.OK A k true d → Good o h n.entries → (∀ e ∈ n.entries, o.eqKQ e.key q = false) →
    n.remove A o q (o.hashQ h q) (2 ^ k) d = .ok (false, n) := by
  induction n using HNode.induct with
  | hl b =>
    intro d hd hok hg hno
    cases b with
    | single x =>
      simp only [entries_leaf, Bucket.entries] at hg hno
      have hx := matches_eq lo (hg x (by simp)) q
      rw [hno x (by simp)] at hx
      simp [remove, Bucket.remove, hx]
    | collision l =>
      rw [OK] at hok
      simp only [entries_leaf, Bucket.entries] at hg hno
      obtain ⟨l', h1, h2⟩ := listRemoveFirst_spec (p := fun x => x.matches o q (o.hashQ h q)) hok.2.1
      have hnone : l.head.toList.find? (fun e => o.eqKQ e.key q) = none := by
        rw [List.find?_eq_none]; intro e he; simp [hno e he]
      rw [find_matches lo hg, hnone] at h1
      rw [eraseP_matches lo hg, List.eraseP_of_forall_not (by intro e he; simp [hno e he])] at h2
      have : l' = l := h2.unique hok.2.1
      subst this
      have hlen : 2 ≤ l'.len := by rw [h2.len]; exact hok.2.2
      simp only [remove, Bucket.remove, h1, Res.ok_bind]
      match hl : l'.len, hlen with
      | n + 2, _ => simp
  | hb bm arr ih =>
    intro d hd hok hg hno
    have hok0 := hok
    rw [ok_branch] at hok
    obtain ⟨hd64, hrel⟩ := hok
    have hi := c.idx_lt d (o.hashQ h q)
    obtain ⟨los, his, hlo, hhi, hcase⟩ := hrel.cases hi
    simp only [remove, indexFromHash_eq c.small hd, hd64, if_true, Res.ok_bind, unwrap_some, SparseArray.slot_eq hi]
    rcases hcase with ⟨hb, e1⟩ | ⟨a, hb, e1, hca⟩
    · simp only at hb
      simp [hb]
    · simp only at hb e1
      subst e1
      have hga : Good o h a.entries := fun e he => hg e (by simp [he])
      have e2 := ih a (by simp) (d + 1) (depth_succ c hd64) hca.ok hga (fun e he => hno e (by simp [he]))
      rw [hb]
      simp only [if_true]
      rw [removeAt_eq, vecIndex_ok (a := a) (by simp [SparseArray.forall₂_length hlo])]
      simp only [Res.ok_bind, e2]
      rw [SparseArray.writeSlot_ok (s := ⟨bm, los ++ a :: his⟩) (b := a) hlo rfl]
      simp [isEmpty_ok hca.ok]

end HNode

namespace HTMap
variable {H K V Q : Type} {A : Arch} {o : HashKeys H K Q} {k : Nat}

/-- The pair of an entry. -/
def pair (e : HEntry K V) : K × V := (e.key, e.value)

/-- The map `m` represents the finite map `l`. -/
structure Rep (A : Arch) (o : HashKeys H K Q) (k : Nat) (m : HTMap H K V) (l : List (K × V)) : Prop where
  degree : m.degree = 2 ^ k
  conf : HConf A k
  ok : m.root.OK A k true 0
  good : HNode.Good o m.hasher m.root.entries
  perm : (m.root.entries.map pair).Perm l
  distinct : Distinct o.eqK l
  size : m.size = l.length

variable {m : HTMap H K V} {l : List (K × V)}

theorem Rep.apart (r : m.Rep A o k l) (lo : o.Lawful) : HNode.Apart o m.root.entries := by
  have := r.distinct.perm lo.equivK r.perm.symm
  rw [Distinct, List.pairwise_map] at this
  exact this

theorem Rep.length (r : m.Rep A o k l) : m.root.entries.length = l.length := by simpa using r.perm.length_eq

theorem rep_empty (c : HConf A k) (hasher : H) :
    (⟨HNode.newEmptyBranch, 0, 2 ^ k, hasher⟩ : HTMap H K V).Rep A o k [] where
  degree := rfl
  conf := c
  ok := HNode.ok_empty (by omega)
  good := by simp [HNode.entries_empty, HNode.Good]
  perm := by simp [HNode.entries_empty]
  distinct := .nil
  size := rfl

/-- Word sizes of the supported machines. -/
def StdWord (A : Arch) : Prop := A.W = 16 ∨ A.W = 32 ∨ A.W = 64

theorem newWithDegree_ok {hasher : H} {d : Nat} (h : newWithDegree A hasher d = .ok m) (h2 : 2 ≤ d) :
    ∃ k, HConf A k ∧ d = 2 ^ k ∧ m = ⟨HNode.newEmptyBranch, 0, 2 ^ k, hasher⟩ := by
  simp only [newWithDegree, assertRt] at h
  split at h
  · rename_i hp
    split at h
    · rename_i hle
      simp only [decide_eq_true_eq] at hle
      have hw : A.W % 256 ≤ A.W := Nat.mod_le _ _
      have : A.W % 256 < 256 := Nat.mod_lt _ (by decide)
      obtain ⟨k, hk, rfl⟩ := (isPow2_iff (by omega)).1 hp
      simp only [Res.ok_bind, Res.pure_eq, Except.ok.injEq] at h
      refine ⟨k, ⟨?_, hk, by omega⟩, rfl, h.symm⟩
      cases k with
      | zero => simp at h2
      | succ k => omega
    · simp at h
  · simp at h

theorem newWithDegree_rep {hasher : H} {d : Nat} (h : newWithDegree A hasher d = .ok m) (h2 : 2 ≤ d) : ∃ k, m.Rep A o k [] := by
  obtain ⟨k, c, rfl, rfl⟩ := newWithDegree_ok h h2
  exact ⟨k, rep_empty c hasher⟩

theorem new_rep (hA : StdWord A) (hasher : H) : ∃ k, ∃ m : HTMap H K V, new A hasher = .ok m ∧ m.Rep A o k [] ∧ m.degree = A.W := by
  have : ∃ k, HConf A k ∧ A.W % 256 = 2 ^ k ∧ A.W = 2 ^ k := by
    rcases hA with h | h | h
    · exact ⟨4, ⟨by decide, by decide, by rw [h]; decide⟩, by rw [h], h⟩
    · exact ⟨5, ⟨by decide, by decide, by rw [h]; decide⟩, by rw [h], h⟩
    · exact ⟨6, ⟨by decide, by decide, by rw [h]; decide⟩, by rw [h], h⟩
  obtain ⟨k, c, hk, hk'⟩ := this
  refine ⟨k, ⟨HNode.newEmptyBranch, 0, 2 ^ k, hasher⟩, ?_, rep_empty c hasher, hk'.symm⟩
  simp only [new, newWithDegree, hk, isPow2_pow c.small, assertRt, if_true, Res.ok_bind, Nat.le_refl, decide_true]
  rfl

theorem Rep.lookup (r : m.Rep A o k l) (lo : o.Lawful) (q : Q) : ∃ oe, m.lookup A o q = .ok oe ∧ oe.map pair = mapGet o.eqKQ l q := by
  refine ⟨m.root.entries.find? fun e => o.eqKQ e.key q, ?_, ?_⟩
  · rw [HTMap.lookup, r.degree]
    exact HNode.get_eq lo r.conf _ q _ 0 (by omega) r.ok r.good
  · rw [mapGet, ← find?_perm ((r.distinct.perm lo.equivK r.perm.symm).atMostOne lo.keyLaws q) r.perm, List.find?_map]
    rfl

theorem Rep.get (r : m.Rep A o k l) (lo : o.Lawful) (q : Q) : m.get A o q = .ok ((mapGet o.eqKQ l q).map (·.2)) := by
  obtain ⟨oe, h1, h2⟩ := r.lookup lo q
  simp only [HTMap.get, h1, ← h2, Res.ok_bind, Res.pure_eq, Option.map_map]
  rfl

theorem Rep.getKeyValue (r : m.Rep A o k l) (lo : o.Lawful) (q : Q) : m.getKeyValue A o q = .ok (mapGet o.eqKQ l q) := by
  obtain ⟨oe, h1, h2⟩ := r.lookup lo q
  simp only [HTMap.getKeyValue, h1, ← h2, Res.ok_bind, Res.pure_eq]
  rfl

theorem Rep.containsKey (r : m.Rep A o k l) (lo : o.Lawful) (q : Q) :
    m.containsKey A o q = .ok (mapGet o.eqKQ l q).isSome := by
  simp [HTMap.containsKey, r.get lo q]

theorem Rep.self (r : m.Rep A o k l) : m.Rep A o.self k l :=
  ⟨r.degree, r.conf, r.ok, r.good, r.perm, r.distinct, r.size⟩

theorem Rep.ofSelf (r : m.Rep A o.self k l) : m.Rep A o k l :=
  ⟨r.degree, r.conf, r.ok, r.good, r.perm, r.distinct, r.size⟩

/-- The finite map does not depend on the order of the list. -/
theorem Rep.congr (r : m.Rep A o k l) (lo : o.Lawful) {l' : List (K × V)} (hp : l.Perm l') : m.Rep A o k l' :=
  ⟨r.degree, r.conf, r.ok, r.good, r.perm.trans hp, r.distinct.perm lo.equivK hp, by rw [r.size, hp.length_eq]⟩

theorem map_filter_pair (es : List (HEntry K V)) (p : K → Bool) :
    (es.filter fun e => !p e.key).map pair = (es.map pair).filter fun e => !p e.1 := by
  rw [List.filter_map]; rfl

theorem any_pair (es : List (HEntry K V)) (p : K → Bool) : (es.any fun e => p e.key) = (es.map pair).any fun e => p e.1 := by
  rw [List.any_map]; rfl

theorem Rep.insertMut (r : m.Rep A o k l) (lo : o.Lawful) (key : K) (v : V) :
    ∃ m', m.insertMut A o key v = .ok m' ∧ m'.Rep A o k (mapInsert o.eqK l key v) ∧ m'.hasher = m.hasher ∧
      (m.root.Compressed → m'.root.Compressed) := by
  obtain ⟨n', h1, h2, h3, h4⟩ := HNode.insert_ok lo r.conf m.hasher insertFuel m.root 0 (HEntry.new o m.hasher key v) (by omega)
    r.ok r.good rfl (r.apart lo) (by simp only [HNode.need, insertFuel]; split <;> omega)
  refine ⟨⟨n', if !m.root.entries.any (fun x => o.eqK x.key key) then m.size + 1 else m.size, 2 ^ k, m.hasher⟩,
    by rw [HTMap.insertMut, HNode.clone_eq, r.degree]; simp only [h1, Res.ok_bind]; rfl, ?_, rfl, h4⟩
  have hd := r.distinct.insert lo.equivK key v
  have hperm : (n'.entries.map pair).Perm (mapInsert o.eqK l key v) := by
    refine (h3.map pair).trans ?_
    simp only [List.map_cons, HEntry.new, mapInsert]
    rw [map_filter_pair m.root.entries (fun x => o.eqK x key)]
    exact (r.perm.filter _).cons _
  refine ⟨rfl, r.conf, h2, ?_, hperm, hd, ?_⟩
  · intro e he
    rcases List.mem_cons.1 (h3.mem_iff.1 he) with rfl | he
    · rfl
    · exact r.good e (List.mem_filter.1 he).1
  · simp only
    rw [any_pair m.root.entries (fun x => o.eqK x key), List.Perm.any_eq r.perm, any_eq_find]
    have := filter_length_of_find (r.distinct.atMostOne lo.self.keyLaws key)
    simp only [mapInsert, List.length_cons]
    rw [show (fun p : K × V => !o.eqK p.1 key) = (fun a => !o.self.eqKQ a.1 key) from rfl, this, r.size]
    rw [show (fun p : K × V => o.eqK p.1 key) = (fun a => o.self.eqKQ a.1 key) from rfl]
    cases hfi : (l.find? fun a => o.self.eqKQ a.1 key) with
    | none => simp
    | some p =>
      have : 0 < l.length := List.length_pos_iff.2 (by rintro rfl; simp at hfi)
      simp; omega

theorem Rep.insert (r : m.Rep A o k l) (lo : o.Lawful) (key : K) (v : V) :
    ∃ m', m.insert A o key v = .ok m' ∧ m'.Rep A o k (mapInsert o.eqK l key v) ∧ m'.hasher = m.hasher :=
  let ⟨m', h1, h2, h3, _⟩ := r.insertMut lo key v
  ⟨m', h1, h2, h3⟩

theorem Rep.removeMut (r : m.Rep A o k l) (lo : o.Lawful) (q : Q) :
    ∃ m', m.removeMut A o q = .ok ((mapGet o.eqKQ l q).isSome, m') ∧ m'.Rep A o k (mapRemove o.eqKQ l q) ∧ m'.hasher = m.hasher ∧
      (mapGet o.eqKQ l q = none → m' = m) := by
  obtain ⟨n', h1, h2, h3, h4⟩ := HNode.remove_ok lo r.conf m.hasher q m.root 0 (by omega) r.ok r.good (r.apart lo)
  have hone := r.distinct.atMostOne lo.keyLaws q
  have hany : (m.root.entries.any fun x => o.eqKQ x.key q) = (mapGet o.eqKQ l q).isSome := by
    rw [any_pair m.root.entries (fun x => o.eqKQ x q), List.Perm.any_eq r.perm, any_eq_find]; rfl
  have hlen := filter_length_of_find hone
  rw [hany] at h1
  have hok : n'.OK A k true 0 := h3.resolve_right (by omega)
  have hperm : (n'.entries.map pair).Perm (mapRemove o.eqKQ l q) := by
    refine (h2.map pair).trans ?_
    rw [map_filter_pair m.root.entries (fun x => o.eqKQ x q)]
    exact r.perm.filter _
  have hgood : HNode.Good o m.hasher n'.entries := fun e he => r.good e (List.mem_filter.1 (h2.mem_iff.1 he)).1
  rw [HTMap.removeMut, HNode.clone_eq, r.degree]
  simp only [h1, Res.ok_bind]
  cases hg : mapGet o.eqKQ l q with
  | none =>
    refine ⟨{ m with root := n' }, by simp [r.degree], ⟨r.degree, r.conf, hok, hgood, hperm, r.distinct.remove q, ?_⟩, rfl, fun _ => ?_⟩
    · rw [mapRemove, filter_not_of_none hg]; exact r.size
    · have hno : ∀ e ∈ m.root.entries, o.eqKQ e.key q = false := by
        intro e he
        exact mapGet_none hg (pair e) (r.perm.mem_iff.1 (List.mem_map_of_mem he))
      have := HNode.remove_absent lo r.conf m.hasher q m.root 0 (by omega) r.ok r.good hno
      rw [h1] at this
      simp only [Except.ok.injEq, Prod.mk.injEq] at this
      rw [this.2]
  | some p =>
    have hpos : 0 < l.length := List.length_pos_iff.2 (by rintro rfl; simp [mapGet] at hg)
    refine ⟨{ m with root := n', size := m.size - 1 }, ?_, ⟨r.degree, r.conf, hok, hgood, hperm, r.distinct.remove q, ?_⟩, rfl, by simp⟩
    · rw [csub_ok (by rw [r.size]; omega)]; simp [r.degree]
    · rw [mapRemove, hlen]
      rw [mapGet] at hg
      simp [hg, r.size]

theorem Rep.clone_eq (m : HTMap H K V) : m.clone = m := rfl

theorem Rep.remove (r : m.Rep A o k l) (lo : o.Lawful) (q : Q) :
    ∃ m', m.remove A o q = .ok m' ∧ m'.Rep A o k (mapRemove o.eqKQ l q) ∧ m'.hasher = m.hasher ∧
      (mapGet o.eqKQ l q = none → m' = m) := by
  obtain ⟨m', h1, h2, h3, h4⟩ := r.removeMut lo q
  simp only [HTMap.remove, Rep.clone_eq, h1, Res.ok_bind]
  cases hg : mapGet o.eqKQ l q with
  | none =>
    rw [h4 hg] at h2
    exact ⟨m, by simp, h2, rfl, fun _ => rfl⟩
  | some p => exact ⟨m', by simp, h2, h3, by simp⟩

theorem Rep.getMut (r : m.Rep A o k l) (lo : o.Lawful) (q : Q) (f : V → V) :
    ∃ m', m.getMut A o q f = .ok ((mapGet o.eqKQ l q).map (·.2), m') ∧ m'.Rep A o k (mapModify o.eqKQ l q f) ∧ m'.hasher = m.hasher := by
  obtain ⟨n', h1, h2, h3, h4⟩ := HNode.getMut_ok lo r.conf m.hasher q (fun e => e.valueMut f) (fun _ => rfl) m.root 0 (by omega)
    r.ok r.good (r.apart lo)
  refine ⟨{ m with root := n' }, ?_, ⟨r.degree, r.conf, h3, ?_, ?_, r.distinct.modify q f, ?_⟩, rfl⟩
  · rw [HTMap.getMut, HNode.clone_eq, r.degree]
    simp only [h1, Res.ok_bind, Res.pure_eq, Except.ok.injEq, Prod.mk.injEq, and_true]
    rw [mapGet, ← find?_perm ((r.distinct.perm lo.equivK r.perm.symm).atMostOne lo.keyLaws q) r.perm, List.find?_map,
      Option.map_map]
    rfl
  · intro e he
    obtain ⟨y, hy, rfl⟩ := List.mem_map.1 (h2.mem_iff.1 he)
    have := r.good y hy
    split
    · exact this
    · exact this
  · refine (h2.map pair).trans ?_
    rw [mapModify]
    refine List.Perm.trans ?_ (r.perm.map _)
    rw [List.map_map, List.map_map]
    refine List.Perm.of_eq (List.map_congr_left ?_)
    intro e _
    simp only [Function.comp, pair]
    by_cases hq : o.eqKQ e.key q = true <;> simp [hq, HEntry.valueMut]
  · simp [mapModify, r.size]

theorem Rep.index (r : m.Rep A o k l) (lo : o.Lawful) (q : Q) :
    m.index A o q = unwrap ((mapGet o.eqKQ l q).map (·.2)) := by
  simp [HTMap.index, r.get lo q]

/-- Every operation succeeds and does what the specification does. -/
theorem Rep.step (r : m.Rep A o k l) (lo : o.Lawful) (op : MapOp K V Q) :
    ∃ e, m.step A o op = .ok ((mapStep o.eqK o.eqKQ l op).1, e) ∧
      Effect.Rel (fun m l => m.Rep A o k l) e (mapStep o.eqK o.eqKQ l op).2 := by
  cases op with
  | insert key v =>
    obtain ⟨m', h1, h2, _⟩ := r.insert lo key v
    exact ⟨.fresh m', by simp [HTMap.step, h1, mapStep], .fresh h2⟩
  | insertMut key v =>
    obtain ⟨m', h1, h2, _⟩ := r.insertMut lo key v
    exact ⟨.update m', by simp [HTMap.step, h1, mapStep], .update h2⟩
  | remove q =>
    obtain ⟨m', h1, h2, _⟩ := r.remove lo q
    exact ⟨.fresh m', by simp [HTMap.step, h1, mapStep], .fresh h2⟩
  | removeMut q =>
    obtain ⟨m', h1, h2, _⟩ := r.removeMut lo q
    exact ⟨.update m', by simp [HTMap.step, h1, mapStep], .update h2⟩
  | getMut q f =>
    obtain ⟨m', h1, h2, _⟩ := r.getMut lo q f
    exact ⟨.update m', by simp [HTMap.step, h1, mapStep], .update h2⟩
  | clone => exact ⟨.fresh m, by simp [HTMap.step, mapStep, Rep.clone_eq], .fresh r⟩
  | get q => exact ⟨.keep, by simp [HTMap.step, r.get lo q, mapStep], .keep⟩
  | getKeyValue q => exact ⟨.keep, by simp [HTMap.step, r.getKeyValue lo q, mapStep], .keep⟩
  | containsKey q => exact ⟨.keep, by simp [HTMap.step, r.containsKey lo q, mapStep], .keep⟩
  | index q =>
    refine ⟨.keep, ?_, .keep⟩
    simp only [HTMap.step, r.index lo q, mapStep]
    cases mapGet o.eqKQ l q <;> simp [unwrap]
  | size => exact ⟨.keep, by simp [HTMap.step, HTMap.getSize, r.size, mapStep], .keep⟩
  | isEmpty => exact ⟨.keep, by cases l <;> simp [HTMap.step, HTMap.isEmpty, HTMap.getSize, r.size, mapStep], .keep⟩

theorem Rep.iter (r : m.Rep A o k l) : m.iter.Rep A k m.root.entries :=
  HIter.rep_new r.ok (by rw [r.size, r.length])

theorem Rep.serialize (r : m.Rep A o k l) : m.serialize = .ok (m.root.entries.map pair) :=
  (r.iter.drives pair).drain (by simp [r.size, r.length])

theorem Rep.insertAll (r : m.Rep A o k l) (lo : o.Lawful) (kvs : List (K × V)) :
    ∃ m', m.insertAll A o kvs = .ok m' ∧ m'.Rep A o k (kvs.foldl (fun l p => mapInsert o.eqK l p.1 p.2) l) ∧ m'.hasher = m.hasher := by
  induction kvs generalizing m l with
  | nil => exact ⟨m, rfl, r, rfl⟩
  | cons p kvs ih =>
    obtain ⟨m1, h1, h2, h3, _⟩ := r.insertMut lo p.1 p.2
    obtain ⟨m2, g1, g2, g3⟩ := ih h2
    exact ⟨m2, by simp [HTMap.insertAll, h1, g1], g2, g3.trans h3⟩

theorem fromIter_rep (hA : StdWord A) (lo : o.Lawful) (hasher : H) (kvs : List (K × V)) :
    ∃ k, ∃ m : HTMap H K V, fromIter A o hasher kvs = .ok m ∧ m.Rep A o k (kvs.foldl (fun l p => mapInsert o.eqK l p.1 p.2) []) ∧
      m.hasher = hasher ∧ m.degree = A.W := by
  obtain ⟨k, m, h1, h2, h3⟩ := new_rep (K := K) (V := V) (o := o) hA hasher
  obtain ⟨m', g1, g2, g3⟩ := h2.insertAll lo kvs
  refine ⟨k, m', by simp [fromIter, h1, g1], g2, ?_, ?_⟩
  · rw [g3]
    simp only [new, newWithDegree, assertRt] at h1
    split at h1
    · split at h1
      · cases h1; rfl
      · simp at h1
    · simp at h1
  · rw [g2.degree, ← h2.degree, h3]

/-- The results of a deserializer up to the first error. -/
theorem Rep.visitLoop {E : Type} (r : m.Rep A o k l) (lo : o.Lawful) (input : List (Except E (K × V))) :
    match collectExcept input with
    | .ok kvs => ∃ m', m.visitLoop A o input = .ok (.ok m') ∧ m.insertAll A o kvs = .ok m'
    | .error e => m.visitLoop A o input = .ok (.error e) := by
  induction input generalizing m l with
  | nil => exact ⟨m, rfl, rfl⟩
  | cons x input ih =>
    cases x with
    | error e => simp [HTMap.visitLoop, collectExcept]
    | ok p =>
      obtain ⟨m1, h1, h2, _⟩ := r.insertMut lo p.1 p.2
      have := ih h2
      simp only [collectExcept]
      cases hm : collectExcept input with
      | error e =>
        rw [hm] at this
        simp only at this
        simp [HTMap.visitLoop, h1, this]
      | ok kvs =>
        rw [hm] at this
        obtain ⟨m', g1, g2⟩ := this
        exact ⟨m', by simp [HTMap.visitLoop, h1, g1], by simp [HTMap.insertAll, h1, g2]⟩

theorem Rep.eq {k' : Nat} {m' : HTMap H K V} {l' : List (K × V)} (r : m.Rep A o k l) (r' : m'.Rep A o k' l') (lo : o.Lawful)
    (eqV : V → V → Bool) : ∃ b, m.eq A o eqV false m' = .ok b ∧ (b = true ↔ MapEq o.eqK eqV l l') := by
  have hrw := mapEq_iff lo.equivK eqV r.distinct r'.distinct
  simp only [HTMap.eq, HTMap.getSize, r.size, r'.size, Bool.false_eq_true, if_false]
  by_cases hl : l.length = l'.length
  · have := (r.iter.drives pair).iterAll (p := fun kv => do
      let r ← m'.get A o.self kv.1
      pure (match r with | none => false | some v => eqV kv.2 v))
      (q := fun kv => match mapGet o.eqK l' kv.1 with | none => false | some p' => eqV kv.2 p'.2) (fuel := l.length + 1)
      (by
        intro a _
        rw [r'.self.get lo.self]
        simp only [Res.ok_bind, Res.pure_eq]
        rw [show mapGet o.self.eqKQ l' a.1 = mapGet o.eqK l' a.1 from rfl]
        cases mapGet o.eqK l' a.1 <;> rfl) (by simp [r.length])
    refine ⟨_, by simp only [hl, beq_self_eq_true, if_true]; rw [← hl]; exact this, ?_⟩
    rw [hrw, List.all_eq_true]
    constructor
    · intro h
      exact ⟨hl, fun p hp => h p (r.perm.mem_iff.2 hp)⟩
    · rintro ⟨_, h⟩ p hp
      exact h p (r.perm.mem_iff.1 hp)
  · refine ⟨false, by simp [hl], ?_⟩
    rw [hrw]
    simp [hl]

theorem Rep.display (r : m.Rep A o k l) (fmtK : K → String) (fmtV : V → String) :
    m.display fmtK fmtV = .ok (bracketed "{" "}" ((m.root.entries.map pair).map fun kv => fmtK kv.1 ++ ": " ++ fmtV kv.2)) := by
  simp only [HTMap.display]
  have := (r.iter.drives pair).iterDisplay (fmt := fun kv => fmtK kv.1 ++ ": " ++ fmtV kv.2) "{" (fuel := m.size + 1)
    (by simp [r.size, r.length])
  rw [show HTMap.iterNext (K := K) (V := V) = HIter.mapNext pair from rfl, this]
  rfl

/-! ### Reachable maps -/

/-- The ways of creating a map without another map: a constructor (with degree at least two), `from_iter`/`ht_map!`,
deserialization. -/
inductive Init (A : Arch) (o : HashKeys H K Q) : HTMap H K V → Prop where
  | newWithDegree {hasher : H} {degree : Nat} {m : HTMap H K V} : 2 ≤ degree → newWithDegree A hasher degree = .ok m → Init A o m
  | new {hasher : H} {m : HTMap H K V} : new A hasher = .ok m → Init A o m
  | fromIter {hasher : H} {kvs : List (K × V)} {m : HTMap H K V} : fromIter A o hasher kvs = .ok m → Init A o m
  | deserialize {E : Type} {hasher : H} {input : List (Except E (K × V))} {m : HTMap H K V} :
      deserialize A o hasher input = .ok (.ok m) → Init A o m

/-- All maps a program can obtain. -/
abbrev Reach (A : Arch) (o : HashKeys H K Q) (m : HTMap H K V) : Prop := Reachable (Init A o) (HTMap.step A o) m

/-- `m` represents `l`, with some degree. -/
def Repr (A : Arch) (o : HashKeys H K Q) (m : HTMap H K V) (l : List (K × V)) : Prop := ∃ k, m.Rep A o k l

theorem Repr.step (r : m.Repr A o l) (lo : o.Lawful) (op : MapOp K V Q) :
    ∃ e, m.step A o op = .ok ((mapStep o.eqK o.eqKQ l op).1, e) ∧
      Effect.Rel (fun m l => m.Repr A o l) e (mapStep o.eqK o.eqKQ l op).2 := by
  obtain ⟨k, r⟩ := r
  obtain ⟨e, h1, h2⟩ := r.step lo op
  exact ⟨e, h1, h2.imp fun _ _ h => ⟨k, h⟩⟩

theorem Init.rep (hA : StdWord A) (lo : o.Lawful) (h : Init A o m) : ∃ l, m.Repr A o l := by
  cases h with
  | newWithDegree h2 h =>
    obtain ⟨k, r⟩ := newWithDegree_rep (o := o) h h2
    exact ⟨_, k, r⟩
  | @new hasher _ h =>
    obtain ⟨k, m', h1, h2, _⟩ := new_rep (K := K) (V := V) (o := o) hA hasher
    rw [h] at h1; cases h1; exact ⟨_, k, h2⟩
  | @fromIter hasher kvs _ h =>
    obtain ⟨k, m', h1, h2, _⟩ := fromIter_rep (o := o) hA lo hasher kvs
    rw [h] at h1; cases h1; exact ⟨_, k, h2⟩
  | @deserialize E hasher input _ h =>
    obtain ⟨k, m', h1, h2, _⟩ := new_rep (K := K) (V := V) (o := o) hA hasher
    have h3 := h2.visitLoop lo input
    simp only [HTMap.deserialize, h1, Res.ok_bind] at h
    split at h3
    · obtain ⟨m'', g1, g2⟩ := h3
      rw [g1] at h; cases h
      rename_i kvs _
      obtain ⟨m3, e1, e2, _⟩ := h2.insertAll lo kvs
      rw [e1] at g2; cases g2
      exact ⟨_, k, e2⟩
    · rw [h3] at h; cases h

theorem Reach.rep (hA : StdWord A) (lo : o.Lawful) (h : Reach A o m) : ∃ l k, m.Rep A o k l :=
  Reachable.rep (R := fun m l => m.Repr A o l) (fun _ h => h.rep hA lo) (fun _ _ op h => h.step lo op) h

end HTMap
end Rpds
