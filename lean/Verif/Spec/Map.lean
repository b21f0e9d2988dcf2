import Verif.Spec.Order
/-
Specification of finite maps: a list of pairs with pairwise different keys, looked up by scanning.

`same k k'` is the equality of keys (`Eq`, or `Ord` answering `Equal`); `hits k q` is the same for a borrowed form `q` of a key.
-/
set_option autoImplicit false
namespace Rpds

/-- The public operations of the maps on one version.  `getMut q f` calls `get_mut` and, when it finds a value, replaces it by `f`
of it. -/
inductive MapOp (K V Q : Type) where
  | insert (k : K) (v : V)
  | insertMut (k : K) (v : V)
  | remove (q : Q)
  | removeMut (q : Q)
  | getMut (q : Q) (f : V → V)
  | clone
  | get (q : Q)
  | getKeyValue (q : Q)
  | containsKey (q : Q)
  | index (q : Q)
  | size
  | isEmpty

/-- Answers of operations. -/
inductive MapRet (K V : Type) where
  | unit
  | bool (b : Bool)
  | nat (n : Nat)
  | optV (o : Option V)
  | optKV (o : Option (K × V))
  /-- the operation panicked as documented (`Index` with an absent key) -/
  | panicked
  deriving DecidableEq, Repr

namespace Spec
variable {K V Q : Type}

/-- The pairs after inserting: the pair with the same key, if any, is replaced, key and value. -/
def mapInsert (same : K → K → Bool) (l : List (K × V)) (k : K) (v : V) : List (K × V) :=
  (k, v) :: l.filter fun p => !same p.1 k

/-- The pairs after removing. -/
def mapRemove (hits : K → Q → Bool) (l : List (K × V)) (q : Q) : List (K × V) := l.filter fun p => !hits p.1 q

/-- The pair found by `q`. -/
def mapGet (hits : K → Q → Bool) (l : List (K × V)) (q : Q) : Option (K × V) := l.find? fun p => hits p.1 q

/-- The pairs after changing the value found by `q`. -/
def mapModify (hits : K → Q → Bool) (l : List (K × V)) (q : Q) (f : V → V) : List (K × V) :=
  l.map fun p => if hits p.1 q then (p.1, f p.2) else p

/-- What a finite map answers. -/
def mapStep (same : K → K → Bool) (hits : K → Q → Bool) (l : List (K × V)) :
    MapOp K V Q → MapRet K V × Effect (List (K × V))
  | .insert k v => (.unit, .fresh (mapInsert same l k v))
  | .insertMut k v => (.unit, .update (mapInsert same l k v))
  | .remove q => (.unit, .fresh (mapRemove hits l q))
  | .removeMut q => (.bool (mapGet hits l q).isSome, .update (mapRemove hits l q))
  | .getMut q f => (.optV ((mapGet hits l q).map (·.2)), .update (mapModify hits l q f))
  | .clone => (.unit, .fresh l)
  | .get q => (.optV ((mapGet hits l q).map (·.2)), .keep)
  | .getKeyValue q => (.optKV (mapGet hits l q), .keep)
  | .containsKey q => (.bool (mapGet hits l q).isSome, .keep)
  | .index q => (match mapGet hits l q with | some p => .optV (some p.2) | none => .panicked, .keep)
  | .size => (.nat l.length, .keep)
  | .isEmpty => (.bool l.isEmpty, .keep)

/-- Pairwise different keys. -/
def Distinct (same : K → K → Bool) (l : List (K × V)) : Prop := l.Pairwise fun a b => same a.1 b.1 = false

/-- What is needed of key equality. -/
structure KeyLaws (same : K → K → Bool) (hits : K → Q → Bool) : Prop where
  equiv : LawfulEquiv same
  /-- equal keys are found by the same borrowed keys -/
  hits_congr : ∀ k k' q, same k k' = true → hits k q = hits k' q
  /-- keys found by the same borrowed key are equal -/
  hits_inj : ∀ k k' q, hits k q = true → hits k' q = true → same k k' = true

/-- `same` itself, as a way to look keys up. -/
theorem KeyLaws.self {same : K → K → Bool} {hits : K → Q → Bool} (h : KeyLaws same hits) : KeyLaws same same where
  equiv := h.equiv
  hits_congr k k' q hk := by
    cases h1 : same k q with
    | true => exact (h.equiv.trans _ _ _ (h.equiv.symm _ _ hk) h1).symm
    | false =>
      cases h2 : same k' q with
      | true => rw [h.equiv.trans _ _ _ hk h2] at h1; cases h1
      | false => rfl
  hits_inj k k' q h1 h2 := h.equiv.trans _ _ _ h1 (h.equiv.symm _ _ h2)

theorem distinct_symm {same : K → K → Bool} (he : LawfulEquiv same) {a b : K × V} (h : same a.1 b.1 = false) :
    same b.1 a.1 = false := by
  cases h' : same b.1 a.1 with
  | false => rfl
  | true => rw [he.symm _ _ h'] at h; cases h

theorem Distinct.perm {same : K → K → Bool} (he : LawfulEquiv same) {l l' : List (K × V)} (h : Distinct same l)
    (p : l.Perm l') : Distinct same l' :=
  p.pairwise h fun h => distinct_symm he h

theorem Distinct.filter {same : K → K → Bool} {l : List (K × V)} (h : Distinct same l) (p : K × V → Bool) :
    Distinct same (l.filter p) := List.Pairwise.filter p h

theorem Distinct.insert {same : K → K → Bool} (he : LawfulEquiv same) {l : List (K × V)} (h : Distinct same l) (k : K) (v : V) :
    Distinct same (mapInsert same l k v) := by
  refine List.Pairwise.cons ?_ (h.filter _)
  intro p hp
  have := (List.mem_filter.1 hp).2
  exact distinct_symm he (a := p) (b := (k, v)) (by simpa using this)

theorem Distinct.remove {same : K → K → Bool} {hits : K → Q → Bool} {l : List (K × V)} (h : Distinct same l) (q : Q) :
    Distinct same (mapRemove hits l q) := h.filter _

theorem Distinct.modify {same : K → K → Bool} {hits : K → Q → Bool} {l : List (K × V)} (h : Distinct same l) (q : Q) (f : V → V) :
    Distinct same (mapModify hits l q f) := by
  unfold Distinct mapModify at *
  rw [List.pairwise_map]
  refine h.imp ?_
  intro a b hab
  split <;> split <;> exact hab

/-- At most one pair is found by a borrowed key. -/
theorem Distinct.atMostOne {same : K → K → Bool} {hits : K → Q → Bool} (hl : KeyLaws same hits) {l : List (K × V)}
    (h : Distinct same l) (q : Q) : l.Pairwise fun a b => ¬ (hits a.1 q = true ∧ hits b.1 q = true) :=
  h.imp fun hab ⟨h1, h2⟩ => by rw [hl.hits_inj _ _ _ h1 h2] at hab; cases hab

section lists
variable {α : Type} {p : α → Bool}

/-- At most one element satisfies `p`. -/
abbrev AtMostOne (p : α → Bool) (l : List α) : Prop := l.Pairwise fun a b => ¬ (p a = true ∧ p b = true)

theorem AtMostOne.perm {l l' : List α} (h : AtMostOne p l) (hp : l.Perm l') : AtMostOne p l' :=
  hp.pairwise h fun h ⟨h1, h2⟩ => h ⟨h2, h1⟩

theorem find?_unique {l : List α} (h : AtMostOne p l) {a : α} (ha : a ∈ l) (hp : p a = true) : l.find? p = some a := by
  induction l with
  | nil => simp at ha
  | cons b l ih =>
    have hc := List.pairwise_cons.1 h
    rcases List.mem_cons.1 ha with rfl | ha
    · simp [hp]
    · have : p b = false := by
        cases hb : p b with
        | false => rfl
        | true => exact absurd ⟨hb, hp⟩ (hc.1 a ha)
      simp [this, ih hc.2 ha]

theorem find?_perm {l l' : List α} (h : AtMostOne p l) (hp : l.Perm l') : l.find? p = l'.find? p := by
  cases h1 : l.find? p with
  | some a => exact (find?_unique (h.perm hp) (hp.mem_iff.1 (List.mem_of_find?_eq_some h1)) (List.find?_some h1)).symm
  | none =>
    rw [List.find?_eq_none] at h1
    symm; rw [List.find?_eq_none]
    intro a ha; exact h1 a (hp.mem_iff.2 ha)

theorem filter_not_of_none {l : List α} (h : l.find? p = none) : l.filter (fun a => !p a) = l := by
  rw [List.filter_eq_self]
  intro a ha
  have := List.find?_eq_none.1 h a ha
  simpa using this

theorem eraseP_eq_filter {l : List α} (h : AtMostOne p l) : l.eraseP p = l.filter fun a => !p a := by
  induction l with
  | nil => rfl
  | cons a l ih =>
    have hc := List.pairwise_cons.1 h
    cases ha : p a with
    | true =>
      simp only [List.eraseP_cons, ha, List.filter_cons]
      simp only [Bool.not_true, cond_true, Bool.false_eq_true, if_false]
      symm; rw [List.filter_eq_self]
      intro b hb
      cases hpb : p b with
      | false => rfl
      | true => exact absurd ⟨ha, hpb⟩ (hc.1 b hb)
    | false => simp [ha, ih hc.2]

theorem perm_of_find {l : List α} (h : AtMostOne p l) {a : α} (ha : l.find? p = some a) : l.Perm (a :: l.filter fun a => !p a) := by
  induction l with
  | nil => simp at ha
  | cons b l ih =>
    have hc := List.pairwise_cons.1 h
    cases hb : p b with
    | true =>
      have : b = a := by simpa [hb] using ha
      subst this
      have e := eraseP_eq_filter h
      rw [← e]; simp [hb]
    | false =>
      have h2 : l.find? p = some a := by simpa [hb] using ha
      have := (ih hc.2 h2).cons b
      simp only [List.filter_cons, hb, Bool.not_false, if_true]
      exact this.trans (List.Perm.swap _ _ _)

theorem map_perm_of_find {l : List α} (h : AtMostOne p l) {a : α} (ha : l.find? p = some a) (f : α → α) :
    (l.map fun e => if p e then f e else e).Perm (f a :: l.filter fun a => !p a) := by
  have h1 := (perm_of_find h ha).map fun e => if p e then f e else e
  refine h1.trans ?_
  simp only [List.map_cons, List.find?_some ha, if_true]
  refine List.Perm.cons _ ?_
  rw [List.map_congr_left (g := id)]
  · simp
  · intro b hb
    have := (List.mem_filter.1 hb).2
    simp only [Bool.not_eq_true'] at this
    simp [this]

theorem map_of_none {l : List α} (h : l.find? p = none) (f : α → α) : (l.map fun e => if p e then f e else e) = l := by
  rw [List.map_congr_left (g := id)]
  · simp
  · intro b hb
    have := List.find?_eq_none.1 h b hb
    simp [this]

theorem any_eq_find {l : List α} : l.any p = (l.find? p).isSome := by
  induction l with
  | nil => rfl
  | cons a l ih => cases h : p a <;> simp [h, ih]

theorem filter_length_of_find {l : List α} (h : AtMostOne p l) : (l.filter fun a => !p a).length =
    if (l.find? p).isSome then l.length - 1 else l.length := by
  cases h1 : l.find? p with
  | none => simp [filter_not_of_none h1]
  | some a =>
    have := (perm_of_find h h1).length_eq
    simp only [List.length_cons] at this
    simp; omega

/-- If all of `l` is found in `l'`, and `l` has no doubles, then `l` is not longer than `l'`. -/
theorem length_le_of_subset {same : α → α → Bool} (he : LawfulEquiv same) {l l' : List α} (hd : l.Pairwise fun a b => same a b = false)
    (hd' : l'.Pairwise fun a b => same a b = false) (h : ∀ a ∈ l, ∃ b ∈ l', same a b = true) : l.length ≤ l'.length := by
  induction l generalizing l' with
  | nil => simp
  | cons a l ih =>
    have hc := List.pairwise_cons.1 hd
    obtain ⟨b, hb, hab⟩ := h a (by simp)
    have hone : AtMostOne (fun x => same a x) l' := hd'.imp fun hxy ⟨h1, h2⟩ => by
      rw [he.trans _ _ _ (he.symm _ _ h1) h2] at hxy; cases hxy
    have hf := perm_of_find hone (find?_unique hone hb hab)
    have := ih (l' := l'.filter fun x => !same a x) hc.2 (List.Pairwise.filter _ hd') (by
      intro c hcm
      obtain ⟨e, he1, he2⟩ := h c (by simp [hcm])
      refine ⟨e, List.mem_filter.2 ⟨he1, ?_⟩, he2⟩
      cases hae : same a e with
      | false => rfl
      | true => have := hc.1 c hcm; rw [he.trans _ _ _ hae (he.symm _ _ he2)] at this; cases this)
    rw [hf.length_eq]
    simpa using this

/-- Pigeonhole: if moreover `l'` is not longer than `l`, then all of `l'` is found in `l`. -/
theorem subset_of_length_le {same : α → α → Bool} (he : LawfulEquiv same) {l l' : List α} (hd : l.Pairwise fun a b => same a b = false)
    (hd' : l'.Pairwise fun a b => same a b = false) (h : ∀ a ∈ l, ∃ b ∈ l', same a b = true) (hl : l'.length ≤ l.length) :
    ∀ b ∈ l', ∃ a ∈ l, same a b = true := by
  induction l generalizing l' with
  | nil =>
    have : l' = [] := List.length_eq_zero_iff.1 (by simpa using hl)
    simp [this]
  | cons a l ih =>
    have hc := List.pairwise_cons.1 hd
    obtain ⟨b, hb, hab⟩ := h a (by simp)
    have hone : AtMostOne (fun x => same a x) l' := hd'.imp fun hxy ⟨h1, h2⟩ => by
      rw [he.trans _ _ _ (he.symm _ _ h1) h2] at hxy; cases hxy
    have hf := perm_of_find hone (find?_unique hone hb hab)
    have hlen := hf.length_eq
    simp only [List.length_cons] at hlen hl
    have := ih (l' := l'.filter fun x => !same a x) hc.2 (List.Pairwise.filter _ hd') (by
      intro c hcm
      obtain ⟨e, he1, he2⟩ := h c (by simp [hcm])
      refine ⟨e, List.mem_filter.2 ⟨he1, ?_⟩, he2⟩
      cases hae : same a e with
      | false => rfl
      | true => have := hc.1 c hcm; rw [he.trans _ _ _ hae (he.symm _ _ he2)] at this; cases this) (by omega)
    intro c hcm
    cases hac : same a c with
    | true => exact ⟨a, by simp, hac⟩
    | false =>
      obtain ⟨d, h1, h2⟩ := this c (List.mem_filter.2 ⟨hcm, by simp [hac]⟩)
      exact ⟨d, by simp [h1], h2⟩

end lists

/-! ### Equality of maps -/

/-- Two maps are equal when they have the same keys, with equal values. -/
def MapEq (same : K → K → Bool) (eqV : V → V → Bool) (l l' : List (K × V)) : Prop :=
  ∀ k, match mapGet same l k, mapGet same l' k with
    | none, none => True
    | some p, some p' => eqV p.2 p'.2 = true
    | _, _ => False

theorem mapGet_some {hits : K → Q → Bool} {l : List (K × V)} {q : Q} {p : K × V} (h : mapGet hits l q = some p) :
    p ∈ l ∧ hits p.1 q = true := ⟨List.mem_of_find?_eq_some h, by simpa using List.find?_some h⟩

theorem mapGet_mem {same : K → K → Bool} (he : LawfulEquiv same) {l : List (K × V)} (hd : Distinct same l) {p : K × V} (hp : p ∈ l)
    {k : K} (hk : same p.1 k = true) : mapGet same l k = some p :=
  find?_unique (hd.atMostOne (hits := same) ⟨he, fun a b c h => by
    cases h1 : same a c with
    | true => exact (he.trans _ _ _ (he.symm _ _ h) h1).symm
    | false =>
      cases h2 : same b c with
      | true => rw [he.trans _ _ _ h h2] at h1; cases h1
      | false => rfl, fun a b c h1 h2 => he.trans _ _ _ h1 (he.symm _ _ h2)⟩ k) hp hk

theorem mapGet_none {hits : K → Q → Bool} {l : List (K × V)} {q : Q} (h : mapGet hits l q = none) : ∀ p ∈ l, hits p.1 q = false := by
  intro p hp
  have := List.find?_eq_none.1 h p hp
  simpa using this

theorem mapGet_congr {same : K → K → Bool} (he : LawfulEquiv same) {l : List (K × V)} (hd : Distinct same l) {k k' : K}
    (hk : same k k' = true) : mapGet same l k = mapGet same l k' := by
  cases h : mapGet same l k with
  | some p =>
    obtain ⟨h1, h2⟩ := mapGet_some h
    exact (mapGet_mem he hd h1 (he.trans _ _ _ h2 hk)).symm
  | none =>
    symm
    unfold mapGet
    rw [List.find?_eq_none]
    intro p hp hpk
    have := mapGet_none h p hp
    rw [he.trans _ _ _ hpk (he.symm _ _ hk)] at this; cases this

/-- The decision procedure used by both maps: equal sizes, and every pair of the first is in the second. -/
theorem mapEq_iff {same : K → K → Bool} (he : LawfulEquiv same) (eqV : V → V → Bool) {l l' : List (K × V)} (hd : Distinct same l)
    (hd' : Distinct same l') :
    MapEq same eqV l l' ↔ l.length = l'.length ∧
      ∀ p ∈ l, (match mapGet same l' p.1 with | none => false | some p' => eqV p.2 p'.2) = true := by
  have key : ∀ {a b : List (K × V)}, (∀ p ∈ a, ∃ p' ∈ b, same p.1 p'.1 = true) → ∀ c ∈ a.map (·.1), ∃ e ∈ b.map (·.1), same c e = true := by
    intro a b h c hc
    obtain ⟨p, hp, rfl⟩ := List.mem_map.1 hc
    obtain ⟨p', h1, h2⟩ := h p hp
    exact ⟨p'.1, List.mem_map_of_mem h1, h2⟩
  have dk : ∀ {a : List (K × V)}, Distinct same a → (a.map (·.1)).Pairwise fun a b => same a b = false := by
    intro a h; rw [List.pairwise_map]; exact h
  constructor
  · intro h
    have f1 : ∀ p ∈ l, ∃ p' ∈ l', same p.1 p'.1 = true := by
      intro p hp
      have := h p.1
      rw [mapGet_mem he hd hp (he.refl _)] at this
      cases hg : mapGet same l' p.1 with
      | none => rw [hg] at this; exact this.elim
      | some p' => exact ⟨p', (mapGet_some hg).1, he.symm _ _ (mapGet_some hg).2⟩
    have f2 : ∀ p ∈ l', ∃ p' ∈ l, same p.1 p'.1 = true := by
      intro p hp
      have := h p.1
      rw [mapGet_mem he hd' hp (he.refl _)] at this
      cases hg : mapGet same l p.1 with
      | none => rw [hg] at this; exact this.elim
      | some p' => exact ⟨p', (mapGet_some hg).1, he.symm _ _ (mapGet_some hg).2⟩
    refine ⟨Nat.le_antisymm ?_ ?_, ?_⟩
    · simpa using length_le_of_subset he (dk hd) (dk hd') (key f1)
    · simpa using length_le_of_subset he (dk hd') (dk hd) (key f2)
    · intro p hp
      have := h p.1
      rw [mapGet_mem he hd hp (he.refl _)] at this
      cases hg : mapGet same l' p.1 with
      | none => rw [hg] at this; exact this.elim
      | some p' => rw [hg] at this; exact this
  · rintro ⟨hlen, hall⟩
    have f1 : ∀ p ∈ l, ∃ p' ∈ l', same p.1 p'.1 = true := by
      intro p hp
      have := hall p hp
      cases hg : mapGet same l' p.1 with
      | none => rw [hg] at this; cases this
      | some p' => exact ⟨p', (mapGet_some hg).1, he.symm _ _ (mapGet_some hg).2⟩
    have f2 := subset_of_length_le he (dk hd) (dk hd') (key f1) (by simp [hlen])
    intro k
    cases hg : mapGet same l k with
    | some p =>
      obtain ⟨h1, h2⟩ := mapGet_some hg
      have := hall p h1
      rw [← mapGet_congr he hd' h2]
      cases hg' : mapGet same l' p.1 with
      | none => rw [hg'] at this; cases this
      | some p' => rw [hg'] at this; exact this
    | none =>
      cases hg' : mapGet same l' k with
      | none => trivial
      | some p' =>
        obtain ⟨h1, h2⟩ := mapGet_some hg'
        obtain ⟨c, hc, hck⟩ := f2 p'.1 (List.mem_map_of_mem h1)
        obtain ⟨p, hp, rfl⟩ := List.mem_map.1 hc
        have := mapGet_none hg p hp
        rw [he.trans _ _ _ hck h2] at this; cases this

theorem MapEq.refl {same : K → K → Bool} {eqV : V → V → Bool} (hv : ∀ v, eqV v v = true) (l : List (K × V)) : MapEq same eqV l l := by
  intro k
  cases mapGet same l k <;> simp [hv]

theorem MapEq.symm {same : K → K → Bool} {eqV : V → V → Bool} (hv : ∀ v w, eqV v w = true → eqV w v = true) {l l' : List (K × V)}
    (h : MapEq same eqV l l') : MapEq same eqV l' l := by
  intro k
  have := h k
  revert this
  cases mapGet same l k <;> cases mapGet same l' k <;> simp
  exact hv _ _

theorem MapEq.trans {same : K → K → Bool} {eqV : V → V → Bool} (hv : ∀ u v w, eqV u v = true → eqV v w = true → eqV u w = true)
    {l l' l'' : List (K × V)} (h : MapEq same eqV l l') (h' : MapEq same eqV l' l'') : MapEq same eqV l l'' := by
  intro k
  have h1 := h k
  have h2 := h' k
  revert h1 h2
  cases mapGet same l k <;> cases mapGet same l' k <;> cases mapGet same l'' k <;> simp
  exact hv _ _ _

theorem MapEq.perm {same : K → K → Bool} (he : LawfulEquiv same) {eqV : V → V → Bool} (hv : ∀ v, eqV v v = true) {l l' : List (K × V)}
    (hd : Distinct same l) (hp : l.Perm l') : MapEq same eqV l l' := by
  rw [mapEq_iff he eqV hd (hd.perm he hp)]
  refine ⟨hp.length_eq, ?_⟩
  intro p hp'
  rw [mapGet_mem he (hd.perm he hp) (hp.mem_iff.1 hp') (he.refl _)]
  exact hv _

/-- After inserting, the new pair is found by its key and the others as before. -/
theorem mapGet_insert {same : K → K → Bool} {hits : K → Q → Bool} (hl : KeyLaws same hits) (l : List (K × V)) (k : K) (v : V) (q : Q) :
    mapGet hits (mapInsert same l k v) q = if hits k q then some (k, v) else mapGet hits l q := by
  simp only [mapGet, mapInsert, List.find?_cons]
  cases hk : hits k q with
  | true => simp
  | false =>
    simp only [List.find?_filter, Bool.false_eq_true, if_false]
    congr 1
    funext p
    cases hs : same p.1 k with
    | false => simp
    | true => simp [hl.hits_congr _ _ q hs, hk]

/-- After removing, the pair is not found and the others are found as before. -/
theorem mapGet_remove {same : K → K → Bool} {hits : K → Q → Bool} (hl : KeyLaws same hits) {l : List (K × V)} (hd : Distinct same l) (q q' : Q) :
    mapGet hits (mapRemove hits l q) q' = (mapGet hits l q').filter fun p => !hits p.1 q := by
  simp only [mapGet, mapRemove, List.find?_filter]
  induction l with
  | nil => rfl
  | cons p l ih =>
    have hd' := List.pairwise_cons.1 hd
    simp only [List.find?_cons]
    cases hp' : hits p.1 q' with
    | false => simpa using ih hd'.2
    | true =>
      cases hp : hits p.1 q with
      | false => simp [Option.filter, hp]
      | true =>
        have hr : (some p).filter (fun p => !hits p.1 q) = none := by simp [Option.filter, hp]
        simp only [hr]
        simp only [Bool.not_true, Bool.false_eq_true, false_and, decide_false]
        rw [List.find?_eq_none]
        intro x hx
        cases hx' : hits x.1 q' with
        | false => simp
        | true =>
          have := hd'.1 x hx
          rw [hl.hits_inj _ _ _ hp' hx'] at this; cases this

/-- Changing a value changes what is found accordingly, and nothing else. -/
theorem mapGet_modify {hits : K → Q → Bool} (l : List (K × V)) (q q' : Q) (f : V → V) :
    mapGet hits (mapModify hits l q f) q' = (mapGet hits l q').map fun p => if hits p.1 q then (p.1, f p.2) else p := by
  simp only [mapGet, mapModify, List.find?_map]
  congr 2
  funext p
  simp only [Function.comp]
  split <;> rfl

end Spec
end Rpds
