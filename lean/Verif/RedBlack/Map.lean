import Verif.RedBlack.Iter
import Verif.Spec.Map
/-
`RedBlackTreeMap` represents a finite ordered map.
-/
set_option autoImplicit false
namespace Rpds
open Spec

namespace RBMap
variable {K V Q : Type} {A : Arch} {o : OrdKeys K Q}

/-- The map `m` represents the finite map `l`. -/
structure Rep (o : OrdKeys K Q) (m : RBMap K V) (l : List (K × V)) : Prop where
  ok : m.root.OK o
  perm : m.root.toList.Perm l
  size : m.size = l.length

variable {m : RBMap K V} {l : List (K × V)}

theorem Rep.length (r : m.Rep o l) : m.root.toList.length = l.length := r.perm.length_eq

theorem Rep.size' (r : m.Rep o l) : m.size = m.root.toList.length := by rw [r.size, r.length]

theorem Rep.distinct (r : m.Rep o l) (lo : o.Lawful) : Distinct o.same l := r.ok.sorted.distinct.perm lo.equivK r.perm

theorem Rep.self (r : m.Rep o l) : m.Rep o.self l := ⟨⟨r.ok.sorted, r.ok.bh, r.ok.noRR, r.ok.root⟩, r.perm, r.size⟩

theorem Rep.ofSelf (r : m.Rep o.self l) : m.Rep o l := ⟨⟨r.ok.sorted, r.ok.bh, r.ok.noRR, r.ok.root⟩, r.perm, r.size⟩

theorem Rep.congr (r : m.Rep o l) {l' : List (K × V)} (hp : l.Perm l') : m.Rep o l' := ⟨r.ok, r.perm.trans hp, by rw [r.size, hp.length_eq]⟩

theorem new_rep : (new : RBMap K V).Rep o [] := ⟨⟨.nil, ⟨0, rfl⟩, trivial, RBTree.notRed_none⟩, .nil, rfl⟩

theorem clone_eq (m : RBMap K V) : m.clone = m := rfl

theorem Rep.lookup (r : m.Rep o l) (lo : o.Lawful) (q : Q) : m.root.get o q = mapGet o.hits l q := by
  rw [RBTree.get_eq lo q _ r.ok.sorted, mapGet, mapGet]
  exact find?_perm ((r.ok.sorted.distinct).atMostOne lo.keyLaws q) r.perm

theorem Rep.get (r : m.Rep o l) (lo : o.Lawful) (q : Q) : m.get o q = (mapGet o.hits l q).map (·.2) := by
  rw [RBMap.get, r.lookup lo]

theorem Rep.getKeyValue (r : m.Rep o l) (lo : o.Lawful) (q : Q) : m.getKeyValue o q = mapGet o.hits l q := by
  rw [RBMap.getKeyValue, r.lookup lo]
  cases mapGet o.hits l q <;> rfl

theorem Rep.containsKey (r : m.Rep o l) (lo : o.Lawful) (q : Q) : m.containsKey o q = (mapGet o.hits l q).isSome := by
  rw [RBMap.containsKey, r.get lo]
  cases mapGet o.hits l q <;> rfl

theorem Rep.first (r : m.Rep o l) : m.first = m.root.toList.head? := by
  rw [RBMap.first, RBTree.first_eq]
  cases m.root.toList <;> rfl

theorem Rep.last (r : m.Rep o l) : m.last = m.root.toList.getLast? := by
  rw [RBMap.last, RBTree.last_eq]
  cases m.root.toList.getLast? <;> rfl

theorem Rep.insertMut (r : m.Rep o l) (lo : o.Lawful) (k : K) (v : V) :
    ∃ m', m.insertMut o k v = .ok m' ∧ m'.Rep o (mapInsert o.same l k v) := by
  obtain ⟨t', h1, h2, h3⟩ := r.ok.insert lo k v
  refine ⟨⟨t', if !m.root.toList.any (fun x => o.same x.1 k) then m.size + 1 else m.size⟩, ?_, h3, ?_, ?_⟩
  · simp only [RBMap.insertMut, h1, Res.ok_bind]; rfl
  · rw [h2]
    exact (RBTree.insertedList_perm lo _ k v).trans ((r.perm.filter _).cons _)
  · simp only
    rw [List.Perm.any_eq r.perm, any_eq_find]
    have := filter_length_of_find ((r.distinct lo).atMostOne lo.keyLaws.self k)
    simp only [mapInsert, List.length_cons]
    rw [this, r.size]
    cases hfi : (l.find? fun a => o.same a.1 k) with
    | none => simp
    | some p =>
      have : 0 < l.length := List.length_pos_iff.2 (by rintro rfl; simp at hfi)
      simp; omega

theorem Rep.insert (r : m.Rep o l) (lo : o.Lawful) (k : K) (v : V) :
    ∃ m', m.insert o k v = .ok m' ∧ m'.Rep o (mapInsert o.same l k v) := r.insertMut lo k v

theorem Rep.removeMut (r : m.Rep o l) (lo : o.Lawful) (q : Q) :
    ∃ m', m.removeMut A o q = .ok ((mapGet o.hits l q).isSome, m') ∧ m'.Rep o (mapRemove o.hits l q) := by
  obtain ⟨t', h1, h2, h3⟩ := r.ok.remove (A := A) lo q
  have hany : (m.root.toList.any fun x => o.hits x.1 q) = (mapGet o.hits l q).isSome := by
    rw [List.Perm.any_eq r.perm, any_eq_find]; rfl
  have hlen := filter_length_of_find ((r.distinct lo).atMostOne lo.keyLaws q)
  have hperm : t'.toList.Perm (mapRemove o.hits l q) := by rw [h2]; exact r.perm.filter _
  rw [hany] at h1
  simp only [RBMap.removeMut, h1, Res.ok_bind]
  cases hg : mapGet o.hits l q with
  | none =>
    refine ⟨{ m with root := t' }, by simp, h3, hperm, ?_⟩
    rw [mapRemove, filter_not_of_none hg]; exact r.size
  | some p =>
    have hpos : 0 < l.length := List.length_pos_iff.2 (by rintro rfl; simp [mapGet] at hg)
    refine ⟨⟨t', m.size - 1⟩, ?_, h3, hperm, ?_⟩
    · rw [csub_ok (by rw [r.size]; omega)]; simp
    · rw [mapRemove, hlen]
      rw [mapGet] at hg
      simp [hg, r.size]

theorem Rep.remove (r : m.Rep o l) (lo : o.Lawful) (q : Q) :
    ∃ m', m.remove A o q = .ok m' ∧ m'.Rep o (mapRemove o.hits l q) ∧ (mapGet o.hits l q = none → m' = m) := by
  obtain ⟨m', h1, h2⟩ := r.removeMut (A := A) lo q
  simp only [RBMap.remove, clone_eq, h1, Res.ok_bind]
  cases hg : mapGet o.hits l q with
  | none =>
    refine ⟨m, by simp, ?_, fun _ => rfl⟩
    rw [mapRemove, filter_not_of_none hg]; exact r
  | some p => exact ⟨m', by simp, h2, by simp⟩

theorem Rep.getMut (r : m.Rep o l) (lo : o.Lawful) (q : Q) (f : V → V) :
    (m.getMut o q f).1 = (mapGet o.hits l q).map (·.2) ∧ (m.getMut o q f).2.Rep o (mapModify o.hits l q f) := by
  obtain ⟨h1, h2, h3⟩ := r.ok.getMut lo q f
  refine ⟨?_, h3, ?_, by simp [RBMap.getMut, mapModify, r.size]⟩
  · rw [← r.lookup lo, RBTree.get_eq lo q _ r.ok.sorted]; exact h1
  · simp only [RBMap.getMut]
    rw [h2]
    exact r.perm.map _

theorem Rep.index (r : m.Rep o l) (lo : o.Lawful) (q : Q) : m.index o q = unwrap ((mapGet o.hits l q).map (·.2)) := by
  rw [RBMap.index, r.get lo]

/-- Every operation succeeds and does what the specification does. -/
theorem Rep.step (r : m.Rep o l) (lo : o.Lawful) (op : MapOp K V Q) :
    ∃ e, m.step A o op = .ok ((mapStep o.same o.hits l op).1, e) ∧ Effect.Rel (fun m l => m.Rep o l) e (mapStep o.same o.hits l op).2 := by
  cases op with
  | insert key v =>
    obtain ⟨m', h1, h2⟩ := r.insert lo key v
    exact ⟨.fresh m', by simp [RBMap.step, h1, mapStep], .fresh h2⟩
  | insertMut key v =>
    obtain ⟨m', h1, h2⟩ := r.insertMut lo key v
    exact ⟨.update m', by simp [RBMap.step, h1, mapStep], .update h2⟩
  | remove q =>
    obtain ⟨m', h1, h2, _⟩ := r.remove (A := A) lo q
    exact ⟨.fresh m', by simp [RBMap.step, h1, mapStep], .fresh h2⟩
  | removeMut q =>
    obtain ⟨m', h1, h2⟩ := r.removeMut (A := A) lo q
    exact ⟨.update m', by simp [RBMap.step, h1, mapStep], .update h2⟩
  | getMut q f =>
    obtain ⟨h1, h2⟩ := r.getMut lo q f
    exact ⟨.update _, by simp only [RBMap.step, h1, mapStep]; rfl, .update h2⟩
  | clone => exact ⟨.fresh m, by simp [RBMap.step, mapStep, clone_eq], .fresh r⟩
  | get q => exact ⟨.keep, by simp [RBMap.step, r.get lo q, mapStep], .keep⟩
  | getKeyValue q => exact ⟨.keep, by simp [RBMap.step, r.getKeyValue lo q, mapStep], .keep⟩
  | containsKey q => exact ⟨.keep, by simp [RBMap.step, r.containsKey lo q, mapStep], .keep⟩
  | index q =>
    refine ⟨.keep, ?_, .keep⟩
    simp only [RBMap.step, r.index lo q, mapStep]
    cases mapGet o.hits l q <;> simp [unwrap]
  | size => exact ⟨.keep, by simp [RBMap.step, RBMap.getSize, r.size, mapStep], .keep⟩
  | isEmpty => exact ⟨.keep, by cases l <;> simp [RBMap.step, RBMap.isEmpty, RBMap.getSize, r.size, mapStep], .keep⟩

/-! ### Iteration -/

/-- The size is small enough for the arithmetic of the iterators, on a machine with words of at least 3 bits. -/
structure Fits (A : Arch) (m : RBMap K V) : Prop where
  word : 3 ≤ A.W
  size : m.size + 1 < 2 ^ A.W

theorem Rep.iterRel (r : m.Rep o l) (hf : Fits A m) {β : Type} (f : K × V → β) :
    RBIter.MapRel A o m f m.iter (m.root.toList.map f) := ⟨_, rfl, RBIter.new_rel r.ok.sorted r.size' hf.size⟩

theorem Rep.drives (r : m.Rep o l) (lo : o.Lawful) (hf : Fits A m) {β : Type} (f : K × V → β) :
    Drives (RBIter.mapNext A o f) m.iter (m.root.toList.map f) := RBIter.drives lo hf.word (r.iterRel hf f)

theorem pairFun_eq : (fun e : K × V => (e.1, e.2)) = id := rfl

theorem Rep.iterDrives (r : m.Rep o l) (lo : o.Lawful) (hf : Fits A m) : Drives (RBMap.iterNext A o) m.iter m.root.toList := by
  have := r.drives lo hf (fun e => (e.1, e.2))
  rw [pairFun_eq, List.map_id] at this
  exact this

theorem Rep.serialize (r : m.Rep o l) (lo : o.Lawful) (hf : Fits A m) : m.serialize A o = .ok m.root.toList :=
  (r.iterDrives lo hf).drain (by rw [r.size']; omega)

theorem Rep.insertAll (r : m.Rep o l) (lo : o.Lawful) (kvs : List (K × V)) :
    ∃ m', m.insertAll o kvs = .ok m' ∧ m'.Rep o (kvs.foldl (fun l p => mapInsert o.same l p.1 p.2) l) := by
  induction kvs generalizing m l with
  | nil => exact ⟨m, rfl, r⟩
  | cons p kvs ih =>
    obtain ⟨m1, h1, h2⟩ := r.insertMut lo p.1 p.2
    obtain ⟨m2, g1, g2⟩ := ih h2
    exact ⟨m2, by simp [RBMap.insertAll, h1, g1], g2⟩

theorem fromIter_rep (lo : o.Lawful) (kvs : List (K × V)) :
    ∃ m : RBMap K V, fromIter o kvs = .ok m ∧ m.Rep o (kvs.foldl (fun l p => mapInsert o.same l p.1 p.2) []) := new_rep.insertAll lo kvs

theorem Rep.visitLoop {E : Type} (r : m.Rep o l) (lo : o.Lawful) (input : List (Except E (K × V))) :
    match collectExcept input with
    | .ok kvs => ∃ m', m.visitLoop o input = .ok (.ok m') ∧ m.insertAll o kvs = .ok m'
    | .error e => m.visitLoop o input = .ok (.error e) := by
  induction input generalizing m l with
  | nil => exact ⟨m, rfl, rfl⟩
  | cons x input ih =>
    cases x with
    | error e => simp [RBMap.visitLoop, collectExcept]
    | ok p =>
      obtain ⟨m1, h1, h2⟩ := r.insertMut lo p.1 p.2
      have := ih h2
      simp only [collectExcept]
      cases hm : collectExcept input with
      | error e =>
        rw [hm] at this
        simp only at this
        simp [RBMap.visitLoop, h1, this]
      | ok kvs =>
        rw [hm] at this
        obtain ⟨m', g1, g2⟩ := this
        exact ⟨m', by simp [RBMap.visitLoop, h1, g1], by simp [RBMap.insertAll, h1, g2]⟩

theorem Rep.eq {m' : RBMap K V} {l' : List (K × V)} (r : m.Rep o l) (r' : m'.Rep o l') (lo : o.Lawful) (hf : Fits A m)
    (eqV : V → V → Bool) : ∃ b, m.eq A o eqV false m' = .ok b ∧ (b = true ↔ MapEq o.same eqV l l') := by
  have hrw := mapEq_iff lo.equivK eqV (r.distinct lo) (r'.distinct lo)
  simp only [RBMap.eq, RBMap.getSize, r.size, r'.size, Bool.false_eq_true, if_false]
  have hsame : ∀ k : K, mapGet o.self.hits l' k = mapGet o.same l' k := by
    intro k
    simp only [mapGet]
    congr 1
    funext p
    simp only [OrdKeys.hits, OrdKeys.self, OrdKeys.same, id]
    rw [lo.swapK p.1 k]
    cases o.cmpK p.1 k <;> rfl
  by_cases hl : l.length = l'.length
  · have := (r.iterDrives lo hf).iterAll (p := fun kv => pure (match m'.get o.self kv.1 with | none => false | some v => eqV kv.2 v))
      (q := fun kv => match mapGet o.same l' kv.1 with | none => false | some p' => eqV kv.2 p'.2) (fuel := l.length + 1)
      (by
        intro a _
        rw [r'.self.get lo.self, hsame]
        cases mapGet o.same l' a.1 <;> rfl) (by rw [r.length]; omega)
    refine ⟨_, by simp only [hl, beq_self_eq_true, if_true]; rw [← hl]; exact this, ?_⟩
    rw [hrw, List.all_eq_true]
    constructor
    · intro h
      exact ⟨hl, fun p hp => h p (r.perm.mem_iff.2 hp)⟩
    · rintro ⟨_, h⟩ p hp
      exact h p (r.perm.mem_iff.1 hp)
  · refine ⟨false, by simp [hl], ?_⟩
    rw [hrw]
    simp [hl]

theorem Rep.cmp {m' : RBMap K V} {l' : List (K × V)} (r : m.Rep o l) (r' : m'.Rep o l') (lo : o.Lawful) (hf : Fits A m) (hf' : Fits A m')
    (cmpV : V → V → Ordering) : m.cmp A o cmpV m' = .ok (lexCmp (cmpPair o cmpV) m.root.toList m'.root.toList) :=
  (r.iterDrives lo hf).iterCmp (r'.iterDrives lo hf') (by rw [r.size']; omega)

theorem Rep.partialCmp {m' : RBMap K V} {l' : List (K × V)} (r : m.Rep o l) (r' : m'.Rep o l') (lo : o.Lawful) (hf : Fits A m)
    (hf' : Fits A m') (pcmpV : V → V → Option Ordering) :
    m.partialCmp A o pcmpV m' = .ok (lexPartialCmp (partialCmpPair o pcmpV) m.root.toList m'.root.toList) :=
  (r.iterDrives lo hf).iterPartialCmp (r'.iterDrives lo hf') (by rw [r.size']; omega)

theorem Rep.hash {S : Type} (r : m.Rep o l) (lo : o.Lawful) (hf : Fits A m) (hashUsize : S → Nat → S) (hashK : S → K → S) (hashV : S → V → S)
    (state : S) : m.hash A o hashUsize hashK hashV state =
      .ok (m.root.toList.foldl (fun s e => hashV (hashK s e.1) e.2) (hashUsize state m.root.toList.length)) := by
  rw [RBMap.hash, RBMap.getSize, r.size']
  exact (r.iterDrives lo hf).iterHash _ (by omega)

theorem Rep.display (r : m.Rep o l) (lo : o.Lawful) (hf : Fits A m) (fmtK : K → String) (fmtV : V → String) :
    m.display A o fmtK fmtV = .ok (bracketed "{" "}" (m.root.toList.map fun kv => fmtK kv.1 ++ ": " ++ fmtV kv.2)) := by
  simp only [RBMap.display]
  have := (r.iterDrives lo hf).iterDisplay (fmt := fun kv => fmtK kv.1 ++ ": " ++ fmtV kv.2) "{" (fuel := m.size + 1)
    (by rw [r.size']; omega)
  rw [this]
  rfl

/-! ### Reachable maps -/

/-- The ways of creating a map without another map. -/
inductive Init (o : OrdKeys K Q) : RBMap K V → Prop where
  | new : Init o RBMap.new
  | fromIter {kvs : List (K × V)} {m : RBMap K V} : RBMap.fromIter o kvs = .ok m → Init o m
  | deserialize {E : Type} {input : List (Except E (K × V))} {m : RBMap K V} : RBMap.deserialize o input = .ok (.ok m) → Init o m

/-- All maps a program can obtain. -/
abbrev Reach (A : Arch) (o : OrdKeys K Q) (m : RBMap K V) : Prop := Reachable (Init o) (RBMap.step A o) m

theorem Init.rep (lo : o.Lawful) (h : Init o m) : ∃ l, m.Rep o l := by
  cases h with
  | new => exact ⟨[], new_rep⟩
  | @fromIter kvs _ h =>
    obtain ⟨m', h1, h2⟩ := fromIter_rep lo kvs
    rw [h] at h1; cases h1; exact ⟨_, h2⟩
  | @deserialize E input _ h =>
    have h3 := (new_rep (o := o) (K := K) (V := V)).visitLoop lo input
    rw [RBMap.deserialize] at h
    split at h3
    · obtain ⟨m'', g1, g2⟩ := h3
      rw [g1] at h; cases h
      rename_i kvs _
      obtain ⟨m3, e1, e2⟩ := (new_rep (o := o) (K := K) (V := V)).insertAll lo kvs
      rw [e1] at g2; cases g2
      exact ⟨_, e2⟩
    · rw [h3] at h; cases h

theorem Reach.rep (lo : o.Lawful) (h : Reach A o m) : ∃ l, m.Rep o l :=
  Reachable.rep (R := fun m l => m.Rep o l) (fun _ h => h.rep lo) (fun _ _ op h => h.step lo op) h

end RBMap
end Rpds
