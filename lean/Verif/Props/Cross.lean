import Verif.Props.Linear
import Verif.Props.RedBlack
import Verif.Spec.Collect
/-
Properties C46–C51, which concern all collections: serialization, hashing, order, collecting, printing.
-/
set_option autoImplicit false
namespace Rpds.Props
open Spec
variable {T H K V Q E S : Type}

/-- What a program sees when it iterates a stack to the end. -/
def stackItems (s : Stack T) : Res (List T) := drain ListIter.step (s.size + 1) s.iter

theorem rep_sitems {s : Stack T} {xs : List T} (h : s.Rep xs) : stackItems s = .ok xs :=
  (RList.Rep.iter h).drives.drain (by simp [Stack.size, RList.Rep.len h])

/-! ### Deserialization of maps and sets is collecting -/

theorem ht_deserialize_ok {A : Arch} (hA : HTMap.StdWord A) {o : HashKeys H K Q} (lo : o.Lawful) (hasher : H) (kvs : List (K × V)) :
    ∃ m, HTMap.deserialize A o hasher (kvs.map (Except.ok (ε := E))) = .ok (.ok m) ∧ HTMap.fromIter A o hasher kvs = .ok m := by
  obtain ⟨k, m, h1, h2, _⟩ := HTMap.new_rep (K := K) (V := V) (o := o) hA hasher
  have := h2.visitLoop lo (kvs.map (Except.ok (ε := E)))
  rw [collectExcept_ok] at this
  obtain ⟨m', h3, h4⟩ := this
  exact ⟨m', by simp [HTMap.deserialize, h1, h3], by simp [HTMap.fromIter, h1, h4]⟩

theorem ht_deserialize_error {A : Arch} (hA : HTMap.StdWord A) {o : HashKeys H K Q} (lo : o.Lawful) (hasher : H) (pre : List (K × V))
    (e : E) (rest : List (Except E (K × V))) :
    HTMap.deserialize A o hasher (pre.map .ok ++ .error e :: rest) = .ok (.error e) := by
  obtain ⟨k, m, h1, h2, _⟩ := HTMap.new_rep (K := K) (V := V) (o := o) hA hasher
  have := h2.visitLoop lo (pre.map .ok ++ .error e :: rest)
  rw [collectExcept_error] at this
  simp only at this
  simp [HTMap.deserialize, h1, this]

theorem hs_deserialize_ok {A : Arch} (hA : HTMap.StdWord A) {o : HashKeys H T Q} (lo : o.Lawful) (hasher : H) (vs : List T) :
    ∃ m, HTSet.deserialize A o hasher (vs.map (Except.ok (ε := E))) = .ok (.ok m) ∧ HTSet.fromIter A o hasher vs = .ok m := by
  obtain ⟨k, m, h1, h2⟩ := HTSet.new_rep (T := T) (o := o) hA hasher
  have := h2.visitLoop lo (vs.map (Except.ok (ε := E)))
  rw [collectExcept_ok] at this
  obtain ⟨m', h3, h4⟩ := this
  exact ⟨m', by simp [HTSet.deserialize, h1, h3], by simp [HTSet.fromIter, h1, h4]⟩

theorem hs_deserialize_error {A : Arch} (hA : HTMap.StdWord A) {o : HashKeys H T Q} (lo : o.Lawful) (hasher : H) (pre : List T)
    (e : E) (rest : List (Except E T)) :
    HTSet.deserialize A o hasher (pre.map .ok ++ .error e :: rest) = .ok (.error e) := by
  obtain ⟨k, m, h1, h2⟩ := HTSet.new_rep (T := T) (o := o) hA hasher
  have := h2.visitLoop lo (pre.map .ok ++ .error e :: rest)
  rw [collectExcept_error] at this
  simp only at this
  simp [HTSet.deserialize, h1, this]

theorem rb_deserialize_ok {o : OrdKeys K Q} (lo : o.Lawful) (kvs : List (K × V)) :
    ∃ m, RBMap.deserialize o (kvs.map (Except.ok (ε := E))) = .ok (.ok m) ∧ RBMap.fromIter o kvs = .ok m := by
  have := (RBMap.new_rep (K := K) (V := V) (o := o)).visitLoop lo (kvs.map (Except.ok (ε := E)))
  rw [collectExcept_ok] at this
  exact this

theorem rb_deserialize_error {o : OrdKeys K Q} (lo : o.Lawful) (pre : List (K × V)) (e : E) (rest : List (Except E (K × V))) :
    RBMap.deserialize o (pre.map .ok ++ .error e :: rest) = .ok (.error e) := by
  have := (RBMap.new_rep (K := K) (V := V) (o := o)).visitLoop lo (pre.map .ok ++ .error e :: rest)
  rw [collectExcept_error] at this
  exact this

theorem rs_deserialize_ok {o : OrdKeys T Q} (lo : o.Lawful) (vs : List T) :
    ∃ m, RBSet.deserialize o (vs.map (Except.ok (ε := E))) = .ok (.ok m) ∧ RBSet.fromIter o vs = .ok m := by
  have := (RBSet.new_rep (T := T) (o := o)).visitLoop lo (vs.map (Except.ok (ε := E)))
  rw [collectExcept_ok] at this
  exact this

theorem rs_deserialize_error {o : OrdKeys T Q} (lo : o.Lawful) (pre : List T) (e : E) (rest : List (Except E T)) :
    RBSet.deserialize o (pre.map .ok ++ .error e :: rest) = .ok (.error e) := by
  have := (RBSet.new_rep (T := T) (o := o)).visitLoop lo (pre.map .ok ++ .error e :: rest)
  rw [collectExcept_error] at this
  exact this

/-! ### C46 -/

/-- C46 for `List`, `Stack`, `Queue`: what serialization emits is the sequence of items, and deserializing it gives a collection with
the same items, equal to the original whenever `==` of elements is reflexive. -/
theorem C46_list_round_trip (l : RList T) (hl : RList.Reach l) (eqT : T → T → Bool) (hr : ∀ a, eqT a a = true) :
    ∃ xs l', listItems l = .ok xs ∧ l.serialize = .ok xs ∧ RList.deserialize (xs.map (Except.ok (ε := E))) = .ok l' ∧
      listItems l' = .ok xs ∧ l.eq eqT l' = .ok true := by
  obtain ⟨xs, r⟩ := hl.rep
  have := RList.rep_deserialize (xs.map (Except.ok (ε := E)))
  rw [collectExcept_ok] at this
  obtain ⟨l', h1, h2⟩ := this
  exact ⟨xs, l', rep_items r, r.serialize, h1, rep_items h2, by rw [r.eq h2, seqEq_refl hr]⟩

theorem C46_stack_round_trip (s : Stack T) (hs : Stack.Reach s) (eqT : T → T → Bool) (hr : ∀ a, eqT a a = true) :
    ∃ xs s', stackItems s = .ok xs ∧ s.serialize = .ok xs ∧ Stack.deserialize (xs.map (Except.ok (ε := E))) = .ok s' ∧
      stackItems s' = .ok xs ∧ s.eq eqT s' = .ok true := by
  obtain ⟨xs, r⟩ := hs.rep
  have := Stack.rep_deserialize (xs.map (Except.ok (ε := E)))
  rw [collectExcept_ok] at this
  obtain ⟨l', h1, h2⟩ := this
  exact ⟨xs, l', rep_sitems r, RList.Rep.serialize r, h1, rep_sitems h2, by rw [Stack.eq, RList.Rep.eq r h2, seqEq_refl hr]⟩

theorem C46_queue_round_trip (q : Queue T) (hq : Queue.Reach q) (eqT : T → T → Bool) (hr : ∀ a, eqT a a = true) :
    ∃ xs q', queueItems q = .ok xs ∧ q.serialize = .ok xs ∧ Queue.deserialize (xs.map (Except.ok (ε := E))) = .ok q' ∧
      queueItems q' = .ok xs ∧ q.eq eqT q' = .ok true := by
  obtain ⟨xs, r⟩ := hq.rep
  have := Queue.rep_deserialize (xs.map (Except.ok (ε := E)))
  rw [collectExcept_ok] at this
  obtain ⟨l', h1, h2⟩ := this
  exact ⟨xs, l', rep_qitems r, r.serialize, h1, rep_qitems h2, by rw [r.eq h2, seqEq_refl hr]⟩

/-- C46 for `Vector`: the deserialized vector has the default 5 bits whatever the bits of the original. -/
theorem C46_vector_round_trip (A : Arch) (hW : RVector.defaultBits < A.W) (v : RVector T) (hv : RVector.Reach A v)
    (hc : v.len ≤ vecCap A RVector.defaultBits) (eqT : T → T → Bool) (hr : ∀ a, eqT a a = true) :
    ∃ xs v', vecItems A v = .ok xs ∧ v.serialize A = .ok xs ∧ RVector.deserialize A (xs.map (Except.ok (ε := E))) = .ok (.ok v') ∧
      vecItems A v' = .ok xs ∧ v.eq A eqT v' = .ok true := by
  obtain ⟨xs, h, r⟩ := hv.rep
  have := RVector.rep_deserialize (A := A) hW (xs.map (Except.ok (ε := E))) (by rw [r.len] at hc; simpa using hc)
  rw [collectExcept_ok] at this
  obtain ⟨l', h', h1, h2⟩ := this
  exact ⟨xs, l', rep_vitems r, r.serialize, h1, rep_vitems h2, by rw [r.eq h2, seqEq_refl hr]⟩

/-- C46 for `HashTrieMap`, whatever the hasher and degree of the original and the hasher of the deserialized map. -/
theorem C46_hash_map_round_trip (A : Arch) (hA : HTMap.StdWord A) (o : HashKeys H K Q) (lo : o.Lawful) (m : HTMap H K V)
    (hm : HTMap.Reach A o m) (hasher : H) (eqV : V → V → Bool) (hr : ∀ a, eqV a a = true) :
    ∃ kvs m', mapItems m = .ok kvs ∧ m.serialize = .ok kvs ∧
      HTMap.deserialize A o hasher (kvs.map (Except.ok (ε := E))) = .ok (.ok m') ∧
      (∃ kvs', mapItems m' = .ok kvs' ∧ kvs'.Perm kvs) ∧ m.eq A o eqV false m' = .ok true := by
  obtain ⟨l, k, r⟩ := hm.rep hA lo
  have hd : Distinct o.eqK (m.root.entries.map HTMap.pair) := r.distinct.perm lo.equivK r.perm.symm
  obtain ⟨m', h1, h2⟩ := ht_deserialize_ok (E := E) hA lo hasher (m.root.entries.map HTMap.pair)
  obtain ⟨k', m'', g1, g2, _⟩ := HTMap.fromIter_rep hA lo hasher (m.root.entries.map HTMap.pair)
  rw [h2] at g1; cases g1
  rw [foldl_mapInsert_distinct lo.equivK _ [] (by simpa using hd), List.append_nil] at g2
  obtain ⟨b, e1, e2⟩ := r.eq g2 lo eqV
  have hp : l.Perm (m.root.entries.map HTMap.pair).reverse := r.perm.symm.trans (List.reverse_perm _).symm
  have hb : b = true := e2.2 (MapEq.perm lo.equivK hr r.distinct hp)
  exact ⟨_, m', rep_mapItems r, r.serialize, h1, ⟨_, rep_mapItems g2, g2.perm.trans (List.reverse_perm _)⟩, by rw [e1, hb]⟩

/-- C46 for `HashTrieSet`. -/
theorem C46_hash_set_round_trip (A : Arch) (hA : HTMap.StdWord A) (o : HashKeys H T Q) (lo : o.Lawful) (s : HTSet H T)
    (hs : HTSet.Reach A o s) (hasher : H) :
    ∃ vs s', setItems s = .ok vs ∧ s.serialize = .ok vs ∧
      HTSet.deserialize A o hasher (vs.map (Except.ok (ε := E))) = .ok (.ok s') ∧
      (∃ vs', setItems s' = .ok vs' ∧ vs'.Perm vs) ∧ s.eq A o false s' = .ok true := by
  obtain ⟨l, k, r⟩ := hs.rep hA lo
  have hd : Distinct o.eqK (unitPairs s.items) := (HTMap.Rep.distinct r).perm lo.equivK (r.items_perm.symm.map _)
  obtain ⟨m', h1, h2⟩ := hs_deserialize_ok (E := E) hA lo hasher s.items
  obtain ⟨k', m'', g1, g2⟩ := HTSet.fromIter_rep hA lo hasher s.items
  rw [h2] at g1; cases g1
  rw [foldl_setInsert_distinct lo.equivK _ [] (by simpa using unitPairs_distinct.1 hd), List.append_nil] at g2
  obtain ⟨b, e1, e2⟩ := r.eq g2 lo
  have hp : l.Perm s.items.reverse := r.items_perm.symm.trans (List.reverse_perm _).symm
  have hb : b = true := e2.2 fun a => Mem.perm hp a
  exact ⟨_, m', rep_setItems r, r.serialize, h1, ⟨_, rep_setItems g2, g2.items_perm.trans (List.reverse_perm _)⟩, by rw [e1, hb]⟩

/-- C46 for `RedBlackTreeMap`. -/
theorem C46_rb_map_round_trip (A : Arch) (o : OrdKeys K Q) (lo : o.Lawful) (m : RBMap K V) (hm : RBMap.Reach A o m) (hf : RBMap.Fits A m)
    (eqV : V → V → Bool) (hr : ∀ a, eqV a a = true) :
    ∃ kvs m', rbItems A o m = .ok kvs ∧ m.serialize A o = .ok kvs ∧
      RBMap.deserialize o (kvs.map (Except.ok (ε := E))) = .ok (.ok m') ∧
      rbItems A o m' = .ok kvs ∧ m.eq A o eqV false m' = .ok true := by
  obtain ⟨l, r⟩ := hm.rep lo
  have hd : Distinct o.same m.root.toList := (r.distinct lo).perm lo.equivK r.perm.symm
  obtain ⟨m', h1, h2⟩ := rb_deserialize_ok (E := E) lo m.root.toList
  obtain ⟨m'', g1, g2⟩ := RBMap.fromIter_rep lo m.root.toList
  rw [h2] at g1; cases g1
  rw [foldl_mapInsert_distinct lo.equivK _ [] (by simpa using hd), List.append_nil] at g2
  obtain ⟨b, e1, e2⟩ := r.eq g2 lo hf eqV
  have hp : l.Perm m.root.toList.reverse := r.perm.symm.trans (List.reverse_perm _).symm
  have hb : b = true := e2.2 (MapEq.perm lo.equivK hr (r.distinct lo) hp)
  have hf' : RBMap.Fits A m' := ⟨hf.word, by have := hf.size; rw [g2.size, ← hp.length_eq, ← r.size]; exact this⟩
  have hit : m'.root.toList = m.root.toList := by
    refine (g2.perm.trans (List.reverse_perm _)).eq_of_pairwise ?_ g2.ok.sorted r.ok.sorted
    intro a b _ _ h1 h2
    rw [lo.swapK, h1] at h2; simp at h2
  exact ⟨_, m', rep_rbItems r lo hf, r.serialize lo hf, h1, by rw [rep_rbItems g2 lo hf', hit], by rw [e1, hb]⟩

/-- C46 for `RedBlackTreeSet`. -/
theorem C46_rb_set_round_trip (A : Arch) (o : OrdKeys T Q) (lo : o.Lawful) (s : RBSet T) (hs : RBSet.Reach A o s)
    (hf : RBMap.Fits A s.map) :
    ∃ vs s', rbSetItems A o s = .ok vs ∧ s.serialize A o = .ok vs ∧
      RBSet.deserialize o (vs.map (Except.ok (ε := E))) = .ok (.ok s') ∧
      rbSetItems A o s' = .ok vs ∧ s.eq A o false s' = .ok true := by
  obtain ⟨l, r⟩ := hs.rep lo
  have hd : Distinct o.same (unitPairs s.items) := (RBMap.Rep.distinct r lo).perm lo.equivK (r.items_perm.symm.map _)
  obtain ⟨m', h1, h2⟩ := rs_deserialize_ok (E := E) lo s.items
  obtain ⟨m'', g1, g2⟩ := RBSet.fromIter_rep lo s.items
  rw [h2] at g1; cases g1
  rw [foldl_setInsert_distinct lo.equivK _ [] (by simpa using unitPairs_distinct.1 hd), List.append_nil] at g2
  obtain ⟨b, e1, e2⟩ := r.eq g2 lo hf
  have hp : l.Perm s.items.reverse := r.items_perm.symm.trans (List.reverse_perm _).symm
  have hb : b = true := e2.2 fun a => Mem.perm hp a
  have hf' : RBMap.Fits A m'.map := ⟨hf.word, by have := hf.size; rw [g2.size_eq, ← hp.length_eq, ← r.size_eq]; exact this⟩
  have hit : m'.items = s.items := by
    refine (g2.items_perm.trans (List.reverse_perm _)).eq_of_pairwise ?_ g2.items_sorted r.items_sorted
    intro a b _ _ h1 h2
    rw [lo.swapK, h1] at h2; simp at h2
  exact ⟨_, m', rep_rbSetItems r lo hf, r.serialize lo hf, h1, by rw [rep_rbSetItems g2 lo hf', hit], by rw [e1, hb]⟩

/-- Round trips of a list, a vector with 1 bit and a map all of whose keys collide. -/
example : (RList.deserialize (E := Unit) ([1, 2, 3].map .ok)).map listItems = .ok (.ok [1, 2, 3]) := by decide

example : ((do
    let v ← RVector.newWithBits (T := Nat) 1
    let v ← v.extend dbg64 [1, 2, 3, 4, 5]
    let xs ← v.serialize dbg64
    match ← RVector.deserialize dbg64 (xs.map (Except.ok (ε := Unit))) with
    | .ok w => do pure (some (w.bits, ← v.eq dbg64 (· == ·) w))
    | .error _ => pure none) : Res (Option (Nat × Bool))) = .ok (some (5, true)) := by decide +kernel

example : ((do
    let m ← htBuild dbg64 exKeys (1, 32, [((1, "a"), 10), ((2, "b"), 20), ((1, "A"), 11)])
    let kvs ← m.serialize
    match ← HTMap.deserialize dbg64 exKeys 7 (kvs.map (Except.ok (ε := Unit))) with
    | .ok w => do pure (some (kvs, ← m.eq dbg64 exKeys (fun v w => v == w) false w))
    | .error _ => pure none) : Res (Option (List ((Nat × String) × Nat) × Bool))) =
    .ok (some ([((1, "A"), 11), ((2, "b"), 20)], true)) := by decide +kernel

/-! ### C47 -/

/-- C47 for `List`, `Stack`, `Queue`: an input that fails after any number of elements gives that error; an input without failure gives
the collection of all its elements.  (By `Spec.except_cases` there are no other inputs.) -/
theorem C47_list_deserialize_errors :
    (∀ (pre : List T) (e : E) rest, RList.deserialize (pre.map .ok ++ .error e :: rest) = .error e) ∧
    (∀ xs : List T, ∃ l, RList.deserialize (xs.map (Except.ok (ε := E))) = .ok l ∧ listItems l = .ok xs) := by
  refine ⟨fun pre e rest => ?_, fun xs => ?_⟩
  · have := RList.rep_deserialize (pre.map .ok ++ .error e :: rest)
    rw [collectExcept_error] at this
    exact this
  · have := RList.rep_deserialize (xs.map (Except.ok (ε := E)))
    rw [collectExcept_ok] at this
    obtain ⟨l, h1, h2⟩ := this
    exact ⟨l, h1, rep_items h2⟩

theorem C47_stack_deserialize_errors :
    (∀ (pre : List T) (e : E) rest, Stack.deserialize (pre.map .ok ++ .error e :: rest) = .error e) ∧
    (∀ xs : List T, ∃ l, Stack.deserialize (xs.map (Except.ok (ε := E))) = .ok l ∧ stackItems l = .ok xs) := by
  refine ⟨fun pre e rest => ?_, fun xs => ?_⟩
  · have := Stack.rep_deserialize (pre.map .ok ++ .error e :: rest)
    rw [collectExcept_error] at this
    exact this
  · have := Stack.rep_deserialize (xs.map (Except.ok (ε := E)))
    rw [collectExcept_ok] at this
    obtain ⟨l, h1, h2⟩ := this
    exact ⟨l, h1, rep_sitems h2⟩

theorem C47_queue_deserialize_errors :
    (∀ (pre : List T) (e : E) rest, Queue.deserialize (pre.map .ok ++ .error e :: rest) = .error e) ∧
    (∀ xs : List T, ∃ l, Queue.deserialize (xs.map (Except.ok (ε := E))) = .ok l ∧ queueItems l = .ok xs) := by
  refine ⟨fun pre e rest => ?_, fun xs => ?_⟩
  · have := Queue.rep_deserialize (pre.map .ok ++ .error e :: rest)
    rw [collectExcept_error] at this
    exact this
  · have := Queue.rep_deserialize (xs.map (Except.ok (ε := E)))
    rw [collectExcept_ok] at this
    obtain ⟨l, h1, h2⟩ := this
    exact ⟨l, h1, rep_qitems h2⟩

/-- What comes after an error is not looked at. -/
theorem vector_visit_error (A : Arch) (v : RVector T) (pre : List T) (e : E) (rest : List (Except E T)) :
    v.visitLoop A (pre.map .ok ++ .error e :: rest) = v.visitLoop A (pre.map .ok ++ [.error e]) := by
  induction pre generalizing v with
  | nil => rfl
  | cons x pre ih =>
    simp only [List.map_cons, List.cons_append, RVector.visitLoop]
    cases v.pushBackMut A x with
    | error e => rfl
    | ok w => simp [ih]

/-- C47 for `Vector`. -/
theorem C47_vector_deserialize_errors (A : Arch) (hW : RVector.defaultBits < A.W) :
    (∀ (pre : List T) (e : E) rest, pre.length < vecCap A RVector.defaultBits →
      RVector.deserialize A (pre.map .ok ++ .error e :: rest) = .ok (.error e)) ∧
    (∀ xs : List T, xs.length ≤ vecCap A RVector.defaultBits →
      ∃ v, RVector.deserialize A (xs.map (Except.ok (ε := E))) = .ok (.ok v) ∧ vecItems A v = .ok xs) := by
  refine ⟨fun pre e rest hc => ?_, fun xs hc => ?_⟩
  · have := RVector.rep_deserialize hW (pre.map .ok ++ [.error e]) (by simp; omega)
    rw [collectExcept_error] at this
    rw [← this]
    obtain ⟨v, h1, _⟩ := RVector.new_rep (T := T) hW
    simp only [RVector.deserialize, h1, Res.ok_bind]
    exact vector_visit_error A v pre e rest
  · have := RVector.rep_deserialize hW (xs.map (Except.ok (ε := E))) (by simpa using hc)
    rw [collectExcept_ok] at this
    obtain ⟨l, h, h1, h2⟩ := this
    exact ⟨l, h1, rep_vitems h2⟩

/-- C47 for the maps and sets; without failure the result is what collecting the pairs or elements gives (see C50). -/
theorem C47_hash_map_deserialize_errors (A : Arch) (hA : HTMap.StdWord A) (o : HashKeys H K Q) (lo : o.Lawful) (hasher : H) :
    (∀ (pre : List (K × V)) (e : E) rest, HTMap.deserialize A o hasher (pre.map .ok ++ .error e :: rest) = .ok (.error e)) ∧
    (∀ kvs : List (K × V), ∃ m, HTMap.deserialize A o hasher (kvs.map (Except.ok (ε := E))) = .ok (.ok m) ∧
      HTMap.fromIter A o hasher kvs = .ok m) :=
  ⟨fun pre e rest => ht_deserialize_error hA lo hasher pre e rest, fun kvs => ht_deserialize_ok hA lo hasher kvs⟩

theorem C47_hash_set_deserialize_errors (A : Arch) (hA : HTMap.StdWord A) (o : HashKeys H T Q) (lo : o.Lawful) (hasher : H) :
    (∀ (pre : List T) (e : E) rest, HTSet.deserialize A o hasher (pre.map .ok ++ .error e :: rest) = .ok (.error e)) ∧
    (∀ vs : List T, ∃ m, HTSet.deserialize A o hasher (vs.map (Except.ok (ε := E))) = .ok (.ok m) ∧
      HTSet.fromIter A o hasher vs = .ok m) :=
  ⟨fun pre e rest => hs_deserialize_error hA lo hasher pre e rest, fun kvs => hs_deserialize_ok hA lo hasher kvs⟩

theorem C47_rb_map_deserialize_errors (o : OrdKeys K Q) (lo : o.Lawful) :
    (∀ (pre : List (K × V)) (e : E) rest, RBMap.deserialize o (pre.map .ok ++ .error e :: rest) = .ok (.error e)) ∧
    (∀ kvs : List (K × V), ∃ m, RBMap.deserialize o (kvs.map (Except.ok (ε := E))) = .ok (.ok m) ∧ RBMap.fromIter o kvs = .ok m) :=
  ⟨fun pre e rest => rb_deserialize_error lo pre e rest, fun kvs => rb_deserialize_ok lo kvs⟩

theorem C47_rb_set_deserialize_errors (o : OrdKeys T Q) (lo : o.Lawful) :
    (∀ (pre : List T) (e : E) rest, RBSet.deserialize o (pre.map .ok ++ .error e :: rest) = .ok (.error e)) ∧
    (∀ vs : List T, ∃ m, RBSet.deserialize o (vs.map (Except.ok (ε := E))) = .ok (.ok m) ∧ RBSet.fromIter o vs = .ok m) :=
  ⟨fun pre e rest => rs_deserialize_error lo pre e rest, fun kvs => rs_deserialize_ok lo kvs⟩

example : RList.deserialize [.ok 1, .ok 2, .error "bad", .ok 3, .error "worse"] = .error "bad" := rfl

/-! ### C48 -/

/-- Hashing `a` and then `b` feeds the same stream as hashing `a'` and then `b'` only if the pairs are equal.  The hasher records
what it is fed: `encN n` for a `usize`. -/
def Separates {C β : Type} (R : C → Prop) (hash : C → List β → Res (List β)) (eq : C → C → Res Bool) : Prop :=
  ∀ a b a' b', R a → R b → R a' → R b' →
    (do hash b (← hash a []) : Res (List β)) = (do hash b' (← hash a' []) : Res (List β)) → eq a a' = .ok true ∧ eq b b' = .ok true

/-- The hash of a collection with items `items` and equality `eq`:
the stream is the length followed by the items; equal collections feed any hasher that respects equality of items identically;
and with uniquely decodable streams of items, two collections hashed in sequence are told apart from any two other collections. -/
structure HashLaws {C α : Type} (R : C → Prop) (items : C → Res (List α))
    (hash : (S : Type) → (S → Nat → S) → (S → α → S) → C → S → Res S) (eq : C → C → Res Bool) (eqT : α → α → Bool) : Prop where
  stream : ∀ c, R c → ∃ xs, items c = .ok xs ∧
    ∀ S (hashUsize : S → Nat → S) (hashT : S → α → S) state, hash S hashUsize hashT c state = .ok (xs.foldl hashT (hashUsize state xs.length))
  agrees : ∀ a b, R a → R b → eq a b = .ok true → ∀ S (hashUsize : S → Nat → S) (hashT : S → α → S),
    (∀ s x y, eqT x y = true → hashT s x = hashT s y) → ∀ state, hash S hashUsize hashT a state = hash S hashUsize hashT b state
  separates : ∀ β (encN : Nat → List β) (enc : α → List β), PrefixFree encN (fun a b => a == b) → PrefixFree enc eqT →
    Separates R (fun c s => hash _ (fun s n => s ++ encN n) (fun s a => s ++ enc a) c s) eq

theorem hash_stream {α β : Type} (encN : Nat → List β) (enc : α → List β) (xs : List α) (s : List β) :
    xs.foldl (fun s a => s ++ enc a) (s ++ encN xs.length) = s ++ hashStream encN enc xs := by
  rw [foldl_enc, hashStream, List.append_assoc]

theorem separates_of {C α β : Type} {R : C → Prop} {hash : C → List β → Res (List β)} {eq : C → C → Res Bool} {items : C → Res (List α)}
    {encN : Nat → List β} {enc : α → List β} {eqT : α → α → Bool} (hN : PrefixFree encN (fun a b => a == b)) (he : PrefixFree enc eqT)
    (hh : ∀ a, R a → ∃ xs, items a = .ok xs ∧ ∀ s, hash a s = .ok (s ++ hashStream encN enc xs))
    (heq : ∀ a b xs ys, R a → R b → items a = .ok xs → items b = .ok ys → (eq a b = .ok true ↔ seqEq eqT xs ys = true)) :
    Separates R hash eq := by
  intro a b a' b' ra rb ra' rb' h
  obtain ⟨xs, h1, h2⟩ := hh a ra
  obtain ⟨xs', h1', h2'⟩ := hh a' ra'
  obtain ⟨ys, g1, g2⟩ := hh b rb
  obtain ⟨ys', g1', g2'⟩ := hh b' rb'
  simp only [h2, h2', Res.ok_bind, g2, g2', List.nil_append, Except.ok.injEq] at h
  obtain ⟨e1, e2⟩ := hashStream_inj hN he _ _ _ _ h
  have := hashStream_inj hN he ys ys' [] [] (by simpa using e2)
  exact ⟨(heq a a' _ _ ra ra' h1 h1').2 e1, (heq b b' _ _ rb rb' g1 g1').2 this.1⟩

theorem hashLaws_of {C α : Type} {R : C → Prop} {items : C → Res (List α)}
    {hash : (S : Type) → (S → Nat → S) → (S → α → S) → C → S → Res S} {eq : C → C → Res Bool} {eqT : α → α → Bool}
    (hh : ∀ c, R c → ∃ xs, items c = .ok xs ∧
      ∀ S (hashUsize : S → Nat → S) (hashT : S → α → S) state, hash S hashUsize hashT c state = .ok (xs.foldl hashT (hashUsize state xs.length)))
    (heq : ∀ a b xs ys, R a → R b → items a = .ok xs → items b = .ok ys → (eq a b = .ok true ↔ seqEq eqT xs ys = true)) :
    HashLaws R items hash eq eqT where
  stream := hh
  agrees a b ra rb he S hu ht hht st := by
    obtain ⟨xs, h1, h2⟩ := hh a ra
    obtain ⟨ys, g1, g2⟩ := hh b rb
    have he := (heq a b xs ys ra rb h1 g1).1 he
    rw [h2, g2, seqEq_length he, foldl_congr_seqEq ht hht _ _ _ he]
  separates β encN enc hN he := by
    refine separates_of (items := items) hN he (fun a ra => ?_) heq
    obtain ⟨xs, h1, h2⟩ := hh a ra
    exact ⟨xs, h1, fun s => by rw [h2, hash_stream]⟩

/-- C48 for `List`. -/
theorem C48_list_hash (eqT : T → T → Bool) :
    HashLaws RList.Reach listItems (fun _ hu ht l st => l.hash hu ht st) (fun a b => a.eq eqT b) eqT := by
  refine hashLaws_of (fun c hc => ?_) (fun a b xs ys ha hb hx hy => ?_)
  · obtain ⟨xs, r⟩ := hc.rep
    exact ⟨xs, rep_items r, fun _ _ _ _ => r.hash _ _ _⟩
  · obtain ⟨xs', r⟩ := ha.rep
    obtain ⟨ys', r'⟩ := hb.rep
    rw [rep_items r] at hx; rw [rep_items r'] at hy
    cases hx; cases hy
    simp [r.eq r']

/-- C48 for `Stack`. -/
theorem C48_stack_hash (eqT : T → T → Bool) :
    HashLaws Stack.Reach stackItems (fun _ hu ht l st => l.hash hu ht st) (fun a b => a.eq eqT b) eqT := by
  refine hashLaws_of (fun c hc => ?_) (fun a b xs ys ha hb hx hy => ?_)
  · obtain ⟨xs, r⟩ := hc.rep
    exact ⟨xs, rep_sitems r, fun _ _ _ _ => RList.Rep.hash r _ _ _⟩
  · obtain ⟨xs', r⟩ := ha.rep
    obtain ⟨ys', r'⟩ := hb.rep
    rw [rep_sitems r] at hx; rw [rep_sitems r'] at hy
    cases hx; cases hy
    simp [Stack.eq, RList.Rep.eq r r']

/-- C48 for `Queue`. -/
theorem C48_queue_hash (eqT : T → T → Bool) :
    HashLaws Queue.Reach queueItems (fun _ hu ht l st => l.hash hu ht st) (fun a b => a.eq eqT b) eqT := by
  refine hashLaws_of (fun c hc => ?_) (fun a b xs ys ha hb hx hy => ?_)
  · obtain ⟨xs, r⟩ := hc.rep
    exact ⟨xs, rep_qitems r, fun _ _ _ _ => r.hash _ _ _⟩
  · obtain ⟨xs', r⟩ := ha.rep
    obtain ⟨ys', r'⟩ := hb.rep
    rw [rep_qitems r] at hx; rw [rep_qitems r'] at hy
    cases hx; cases hy
    simp [r.eq r']

/-- C48 for `Vector`. -/
theorem C48_vector_hash (A : Arch) (eqT : T → T → Bool) :
    HashLaws (RVector.Reach A) (vecItems A) (fun _ hu ht l st => l.hash A hu ht st) (fun a b => a.eq A eqT b) eqT := by
  refine hashLaws_of (fun c hc => ?_) (fun a b xs ys ha hb hx hy => ?_)
  · obtain ⟨xs, _, r⟩ := hc.rep
    exact ⟨xs, rep_vitems r, fun _ _ _ _ => r.hash _ _ _⟩
  · obtain ⟨xs', _, r⟩ := ha.rep
    obtain ⟨ys', _, r'⟩ := hb.rep
    rw [rep_vitems r] at hx; rw [rep_vitems r'] at hy
    cases hx; cases hy
    simp [r.eq r']

theorem rbSet_eq_iff {A : Arch} {o : OrdKeys T Q} (lo : o.Lawful) {a b : RBSet T} {l l' : List T} (r : a.Rep o l) (r' : b.Rep o l')
    (fa : RBMap.Fits A a.map) : a.eq A o false b = .ok true ↔ seqEq o.same a.items b.items = true := by
  obtain ⟨x, h1, h2⟩ := RBMap.Rep.eq (r.congr r.perm.symm) (r'.congr r'.perm.symm) lo fa (fun _ _ => true)
  rw [RBSet.eq, h1]
  have h3 := RBMap.mapEq_sorted lo (fun _ _ : Unit => true) r.ok.sorted r'.ok.sorted
  rw [h3] at h2
  rw [Except.ok.injEq, h2]
  have : ∀ l l' : List (T × Unit), seqEq (RBMap.eqPair o fun _ _ => true) l l' = seqEq o.same (l.map fun e => e.1) (l'.map fun e => e.1) := by
    intro l
    induction l with
    | nil => intro l'; cases l' <;> rfl
    | cons p l ih => intro l'; cases l' <;> simp [seqEq, RBMap.eqPair, ih]
  rw [this]; rfl

/-- C48 for `RedBlackTreeSet`. -/
theorem C48_rb_set_hash (A : Arch) (o : OrdKeys T Q) (lo : o.Lawful) :
    HashLaws (fun s => RBSet.Reach A o s ∧ RBMap.Fits A s.map) (rbSetItems A o) (fun _ hu ht s st => s.hash A o hu ht st)
      (fun a b => a.eq A o false b) o.same := by
  refine hashLaws_of (fun c hc => ?_) (fun a b xs ys ha hb hx hy => ?_)
  · obtain ⟨_, r⟩ := hc.1.rep lo
    exact ⟨_, rep_rbSetItems r lo hc.2, fun _ _ _ _ => r.hash lo hc.2 _ _ _⟩
  · obtain ⟨_, r⟩ := ha.1.rep lo
    obtain ⟨_, r'⟩ := hb.1.rep lo
    rw [rep_rbSetItems r lo ha.2] at hx; rw [rep_rbSetItems r' lo hb.2] at hy
    cases hx; cases hy
    exact rbSet_eq_iff lo r r' ha.2

/-- C48 for `RedBlackTreeMap` (that equal maps feed the same stream, which starts with the length, is C39): keys and values are fed
in turn. -/
theorem C48_rb_map_hash_separates (A : Arch) (o : OrdKeys K Q) (lo : o.Lawful) (eqV : V → V → Bool) {β : Type} (encN : Nat → List β)
    (encK : K → List β) (encV : V → List β) (hN : PrefixFree encN (fun a b => a == b)) (hK : PrefixFree encK o.same)
    (hV : PrefixFree encV eqV) :
    Separates (fun m => RBMap.Reach A o m ∧ RBMap.Fits A m)
      (fun m s => m.hash A o (fun s n => s ++ encN n) (fun s k => s ++ encK k) (fun s v => s ++ encV v) s)
      (fun a b => a.eq A o eqV false b) := by
  refine separates_of (items := rbItems A o) hN (hK.pair hV) (fun a ra => ?_) (fun a b xs ys ha hb hx hy => ?_)
  · obtain ⟨_, r⟩ := ra.1.rep lo
    refine ⟨_, rep_rbItems r lo ra.2, fun s => ?_⟩
    rw [r.hash lo ra.2, ← hash_stream]
    simp only [List.append_assoc]
  · obtain ⟨_, r⟩ := ha.1.rep lo
    obtain ⟨_, r'⟩ := hb.1.rep lo
    rw [rep_rbItems r lo ha.2] at hx; rw [rep_rbItems r' lo hb.2] at hy
    cases hx; cases hy
    obtain ⟨x, h1, h2⟩ := RBMap.Rep.eq (r.congr r.perm.symm) (r'.congr r'.perm.symm) lo ha.2 eqV
    have h3 := RBMap.mapEq_sorted lo eqV r.ok.sorted r'.ok.sorted
    rw [h1, Except.ok.injEq, h2, h3]
    rfl

/-- Uniquely decodable streams exist: 8 byte integers.  Without the length in front the two pairs of lists `[1], [2, 3]` and
`[1, 2], [3]` would be the same stream. -/
example : PrefixFree (fun n : Nat => [n]) (fun a b => a == b) := by
  intro a b s t h
  simpa using h

example :
    ((RList.fromIter [1]).hash (fun s n => s ++ [n]) (fun s a => s ++ [a]) [] >>=
      (RList.fromIter [2, 3]).hash (fun s n => s ++ [n]) (fun s a => s ++ [a])) = .ok [1, 1, 2, 2, 3] ∧
    ((RList.fromIter [1, 2]).hash (fun s n => s ++ [n]) (fun s a => s ++ [a]) [] >>=
      (RList.fromIter [3]).hash (fun s n => s ++ [n]) (fun s a => s ++ [a])) = .ok [2, 1, 2, 1, 3] := by
  decide

/-! ### C49 -/

/-- The order of a collection: lexicographic in the items; `Equal` exactly for equal collections; antisymmetric; transitive;
`partial_cmp` agrees with `cmp`. -/
structure OrderLaws {C α : Type} (R : C → Prop) (items : C → Res (List α)) (cmp : C → C → Res Ordering)
    (partialCmp : C → C → Res (Option Ordering)) (eq : C → C → Res Bool) (cmpT : α → α → Ordering) : Prop where
  lex : ∀ a b, R a → R b → ∃ xs ys, items a = .ok xs ∧ items b = .ok ys ∧ cmp a b = .ok (lexCmp cmpT xs ys)
  eq_iff : ∀ a b, R a → R b → (cmp a b = .ok .eq ↔ eq a b = .ok true)
  swap : ∀ a b, R a → R b → cmp b a = (cmp a b).map Ordering.swap
  trans : ∀ a b c x y, R a → R b → R c → cmp a b = .ok x → cmp b c = .ok y → x.isLE → y.isLE → ∃ z, cmp a c = .ok z ∧ z.isLE
  partial_eq : ∀ a b, R a → R b → partialCmp a b = (cmp a b).map some

theorem orderLaws_of {C α : Type} {R : C → Prop} {items : C → Res (List α)} {cmp : C → C → Res Ordering}
    {partialCmp : C → C → Res (Option Ordering)} {eq : C → C → Res Bool} {cmpT : α → α → Ordering} {eqT : α → α → Bool}
    (hl : LawfulOrd cmpT eqT) (h : ∀ a, R a → ∃ xs, items a = .ok xs)
    (hc : ∀ a b xs ys, R a → R b → items a = .ok xs → items b = .ok ys → cmp a b = .ok (lexCmp cmpT xs ys) ∧
      partialCmp a b = .ok (some (lexCmp cmpT xs ys)) ∧ (eq a b = .ok true ↔ seqEq eqT xs ys = true)) :
    OrderLaws R items cmp partialCmp eq cmpT where
  lex a b ra rb := by
    obtain ⟨xs, hx⟩ := h a ra
    obtain ⟨ys, hy⟩ := h b rb
    exact ⟨xs, ys, hx, hy, (hc a b xs ys ra rb hx hy).1⟩
  eq_iff a b ra rb := by
    obtain ⟨xs, hx⟩ := h a ra
    obtain ⟨ys, hy⟩ := h b rb
    obtain ⟨h1, _, h3⟩ := hc a b xs ys ra rb hx hy
    rw [h1, h3, Except.ok.injEq, lexCmp_eq_iff _ _ hl.eq_iff]
  swap a b ra rb := by
    obtain ⟨xs, hx⟩ := h a ra
    obtain ⟨ys, hy⟩ := h b rb
    rw [(hc a b xs ys ra rb hx hy).1, (hc b a ys xs rb ra hy hx).1, lexCmp_oriented hl.oriented xs ys]
    rfl
  trans a b c x y ra rb rc h1 h2 hx' hy' := by
    obtain ⟨xs, hx⟩ := h a ra
    obtain ⟨ys, hy⟩ := h b rb
    obtain ⟨zs, hz⟩ := h c rc
    rw [(hc a b xs ys ra rb hx hy).1] at h1
    rw [(hc b c ys zs rb rc hy hz).1] at h2
    cases h1; cases h2
    exact ⟨_, (hc a c xs zs ra rc hx hz).1, lexCmp_trans hl xs ys zs hx' hy'⟩
  partial_eq a b ra rb := by
    obtain ⟨xs, hx⟩ := h a ra
    obtain ⟨ys, hy⟩ := h b rb
    obtain ⟨h1, h2, _⟩ := hc a b xs ys ra rb hx hy
    rw [h1, h2]; rfl

/-- C49 for `List`. -/
theorem C49_list_order (cmpT : T → T → Ordering) (eqT : T → T → Bool) (hl : LawfulOrd cmpT eqT) :
    OrderLaws RList.Reach listItems (fun a b => a.cmp cmpT b) (fun a b => a.partialCmp (fun x y => some (cmpT x y)) b)
      (fun a b => a.eq eqT b) cmpT := by
  refine orderLaws_of hl (fun a ra => ?_) (fun a b xs ys ha hb hx hy => ?_)
  · obtain ⟨xs, r⟩ := ra.rep
    exact ⟨xs, rep_items r⟩
  · obtain ⟨xs', r⟩ := ha.rep
    obtain ⟨ys', r'⟩ := hb.rep
    rw [rep_items r] at hx; rw [rep_items r'] at hy
    cases hx; cases hy
    exact ⟨r.cmp r' _, by rw [r.partialCmp r', lexPartialCmp_total], by simp [r.eq r']⟩

/-- C49 for `Stack`. -/
theorem C49_stack_order (cmpT : T → T → Ordering) (eqT : T → T → Bool) (hl : LawfulOrd cmpT eqT) :
    OrderLaws Stack.Reach stackItems (fun a b => a.cmp cmpT b) (fun a b => a.partialCmp (fun x y => some (cmpT x y)) b)
      (fun a b => a.eq eqT b) cmpT := by
  refine orderLaws_of hl (fun a ra => ?_) (fun a b xs ys ha hb hx hy => ?_)
  · obtain ⟨xs, r⟩ := ra.rep
    exact ⟨xs, rep_sitems r⟩
  · obtain ⟨xs', r⟩ := ha.rep
    obtain ⟨ys', r'⟩ := hb.rep
    rw [rep_sitems r] at hx; rw [rep_sitems r'] at hy
    cases hx; cases hy
    exact ⟨RList.Rep.cmp r r' _, by rw [Stack.partialCmp, RList.Rep.partialCmp r r', lexPartialCmp_total],
      by simp [Stack.eq, RList.Rep.eq r r']⟩

/-- C49 for `Queue`. -/
theorem C49_queue_order (cmpT : T → T → Ordering) (eqT : T → T → Bool) (hl : LawfulOrd cmpT eqT) :
    OrderLaws Queue.Reach queueItems (fun a b => a.cmp cmpT b) (fun a b => a.partialCmp (fun x y => some (cmpT x y)) b)
      (fun a b => a.eq eqT b) cmpT := by
  refine orderLaws_of hl (fun a ra => ?_) (fun a b xs ys ha hb hx hy => ?_)
  · obtain ⟨xs, r⟩ := ra.rep
    exact ⟨xs, rep_qitems r⟩
  · obtain ⟨xs', r⟩ := ha.rep
    obtain ⟨ys', r'⟩ := hb.rep
    rw [rep_qitems r] at hx; rw [rep_qitems r'] at hy
    cases hx; cases hy
    exact ⟨r.cmp r' _, by rw [r.partialCmp r', lexPartialCmp_total], by simp [r.eq r']⟩

/-- C49 for `Vector`. -/
theorem C49_vector_order (A : Arch) (cmpT : T → T → Ordering) (eqT : T → T → Bool) (hl : LawfulOrd cmpT eqT) :
    OrderLaws (RVector.Reach A) (vecItems A) (fun a b => a.cmp A cmpT b) (fun a b => a.partialCmp A (fun x y => some (cmpT x y)) b)
      (fun a b => a.eq A eqT b) cmpT := by
  refine orderLaws_of hl (fun a ra => ?_) (fun a b xs ys ha hb hx hy => ?_)
  · obtain ⟨xs, _, r⟩ := ra.rep
    exact ⟨xs, rep_vitems r⟩
  · obtain ⟨xs', _, r⟩ := ha.rep
    obtain ⟨ys', _, r'⟩ := hb.rep
    rw [rep_vitems r] at hx; rw [rep_vitems r'] at hy
    cases hx; cases hy
    exact ⟨r.cmp r' _, by rw [r.partialCmp r', lexPartialCmp_total], by simp [r.eq r']⟩

/-- C49 for `RedBlackTreeMap`: pairs in key order, compared by key and then value. -/
theorem C49_rb_map_order (A : Arch) (o : OrdKeys K Q) (lo : o.Lawful) (cmpV : V → V → Ordering) (eqV : V → V → Bool)
    (lv : LawfulOrd cmpV eqV) :
    OrderLaws (fun m => RBMap.Reach A o m ∧ RBMap.Fits A m) (rbItems A o) (fun a b => a.cmp A o cmpV b)
      (fun a b => a.partialCmp A o (fun x y => some (cmpV x y)) b) (fun a b => a.eq A o eqV false b)
      (fun x y => (o.cmpK x.1 y.1).then (cmpV x.2 y.2)) := by
  refine orderLaws_of (RBMap.cmpPair_lawful lo lv) (fun a ra => ?_) (fun a b xs ys ha hb hx hy => ?_)
  · obtain ⟨_, r⟩ := ra.1.rep lo
    exact ⟨_, rep_rbItems r lo ra.2⟩
  · obtain ⟨_, r⟩ := ha.1.rep lo
    obtain ⟨_, r'⟩ := hb.1.rep lo
    rw [rep_rbItems r lo ha.2] at hx; rw [rep_rbItems r' lo hb.2] at hy
    cases hx; cases hy
    obtain ⟨x, h1, h2⟩ := RBMap.Rep.eq (r.congr r.perm.symm) (r'.congr r'.perm.symm) lo ha.2 eqV
    have h3 := RBMap.mapEq_sorted lo eqV r.ok.sorted r'.ok.sorted
    refine ⟨r.cmp r' lo ha.2 hb.2 cmpV, ?_, ?_⟩
    · simp only [r.partialCmp r' lo ha.2 hb.2, RBMap.partialCmpPair_total, lexPartialCmp_total]
      rfl
    · simp only [h1, Except.ok.injEq, h2, h3]

/-- C49 for `RedBlackTreeSet`. -/
theorem C49_rb_set_order (A : Arch) (o : OrdKeys T Q) (lo : o.Lawful) :
    OrderLaws (fun s => RBSet.Reach A o s ∧ RBMap.Fits A s.map) (rbSetItems A o) (fun a b => a.cmp A o b)
      (fun a b => a.partialCmp A o b) (fun a b => a.eq A o false b) o.cmpK := by
  refine orderLaws_of lo.ordK (fun a ra => ?_) (fun a b xs ys ha hb hx hy => ?_)
  · obtain ⟨_, r⟩ := ra.1.rep lo
    exact ⟨_, rep_rbSetItems r lo ra.2⟩
  · obtain ⟨_, r⟩ := ha.1.rep lo
    obtain ⟨_, r'⟩ := hb.1.rep lo
    rw [rep_rbSetItems r lo ha.2] at hx; rw [rep_rbSetItems r' lo hb.2] at hy
    cases hx; cases hy
    exact ⟨r.cmp r' lo ha.2 hb.2, r.partialCmp r' lo ha.2 hb.2, rbSet_eq_iff lo r r' ha.2⟩

example : LawfulOrd (fun a b : Nat => compare a b) (fun a b => a == b) ∧
    (RList.fromIter [1, 2]).cmp compare (RList.fromIter [1, 2, 0]) = .ok .lt ∧
    (RList.fromIter [1, 3]).cmp compare (RList.fromIter [1, 2, 0]) = .ok .gt ∧
    (Queue.fromIter [1, 2]).cmp compare ((Queue.new.enqueue 1).enqueue 2) = .ok .eq := ⟨natOrd_lawful, by decide, by decide, by decide⟩

/-! ### C50 -/

/-- C50 for `List`. -/
theorem C50_list_collect (xs : List T) :
    listItems (RList.fromIter xs) = .ok xs ∧ listItems (RList.listMacro xs) = .ok xs :=
  ⟨rep_items (RList.rep_fromIter xs), rep_items (RList.rep_listMacro xs)⟩

/-- C50 for `Stack`: collecting puts the first item on top, the macro the last. -/
theorem C50_stack_collect (xs : List T) :
    stackItems (Stack.fromIter xs) = .ok xs ∧ (Stack.fromIter xs).peek = xs.head? ∧
    stackItems (Stack.stackMacro xs) = .ok xs.reverse ∧ (Stack.stackMacro xs).peek = xs.getLast? :=
  ⟨rep_sitems (Stack.rep_fromIter xs), RList.Rep.first (Stack.rep_fromIter xs), rep_sitems (Stack.rep_stackMacro xs), by
    rw [Stack.peek, RList.Rep.first (Stack.rep_stackMacro xs), List.head?_reverse]⟩

/-- C50 for `Queue`. -/
theorem C50_queue_collect (xs : List T) :
    queueItems (Queue.fromIter xs) = .ok xs ∧ queueItems (Queue.queueMacro xs) = .ok xs :=
  ⟨rep_qitems (Queue.rep_fromIter xs), rep_qitems (Queue.rep_queueMacro xs)⟩

/-- C50 for `Vector`. -/
theorem C50_vector_collect (A : Arch) (hW : RVector.defaultBits < A.W) (xs : List T) (hc : xs.length ≤ vecCap A RVector.defaultBits) :
    ∃ v, RVector.fromIter A xs = .ok v ∧ RVector.vectorMacro A xs = .ok v ∧ vecItems A v = .ok xs ∧
      ∀ ys, xs.length + ys.length ≤ vecCap A RVector.defaultBits → ∃ w, v.extend A ys = .ok w ∧ vecItems A w = .ok (xs ++ ys) := by
  obtain ⟨v, h, h1, h2, h3⟩ := RVector.rep_fromIter (A := A) hW xs hc
  refine ⟨v, h1, by rw [RVector.vectorMacro_eq, h1], rep_vitems h2, fun ys hy => ?_⟩
  obtain ⟨w, h', g1, g2, _⟩ := h2.extend ys (by rw [h3]; exact hy)
  exact ⟨w, g1, rep_vitems g2⟩

/-- C50.  `extend` appends to any vector, of any bits. -/
theorem C50_vector_extend (A : Arch) (v : RVector T) (hv : RVector.Reach A v) (ys : List T) (hc : v.len + ys.length ≤ vecCap A v.bits) :
    ∃ xs w, vecItems A v = .ok xs ∧ v.extend A ys = .ok w ∧ vecItems A w = .ok (xs ++ ys) := by
  obtain ⟨xs, h, r⟩ := hv.rep
  obtain ⟨w, h', g1, g2, _⟩ := r.extend ys (by rw [← r.len]; exact hc)
  exact ⟨xs, w, rep_vitems r, g1, rep_vitems g2⟩

/-- C50 for `HashTrieMap`: a lookup finds the last pair with that key; the map consists of the pairs that are the last with their key. -/
theorem C50_hash_map_collect (A : Arch) (hA : HTMap.StdWord A) (o : HashKeys H K Q) (lo : o.Lawful) (hasher : H) (kvs : List (K × V)) :
    ∃ m items, HTMap.fromIter A o hasher kvs = .ok m ∧ mapItems m = .ok items ∧ m.getSize = items.length ∧
      (∀ q, m.getKeyValue A o q = .ok (kvs.reverse.find? fun p => o.eqKQ p.1 q)) ∧
      (∀ p, p ∈ items ↔ kvs.reverse.find? (fun p' => o.eqK p'.1 p.1) = some p) := by
  obtain ⟨k, m, h1, h2, _⟩ := HTMap.fromIter_rep hA lo hasher kvs
  have hd := distinct_foldl_insert lo.equivK kvs [] List.Pairwise.nil
  refine ⟨m, _, h1, rep_mapItems h2, ?_, fun q => ?_, fun p => ?_⟩
  · rw [HTMap.getSize, h2.size, h2.perm.length_eq]
  · rw [h2.getKeyValue lo, mapGet_foldl_insert lo.keyLaws]
    simp [mapGet]
  · rw [h2.perm.mem_iff, mem_iff_mapGet lo.equivK hd, mapGet_foldl_insert lo.keyLaws.self]
    simp [mapGet]

/-- C50 for `HashTrieSet`. -/
theorem C50_hash_set_collect (A : Arch) (hA : HTMap.StdWord A) (o : HashKeys H T Q) (lo : o.Lawful) (hasher : H) (vs : List T) :
    ∃ s items, HTSet.fromIter A o hasher vs = .ok s ∧ setItems s = .ok items ∧ s.size = items.length ∧
      (∀ q, s.get A o q = .ok (vs.reverse.find? fun v => o.eqKQ v q)) ∧
      (∀ v, v ∈ items ↔ vs.reverse.find? (fun v' => o.eqK v' v) = some v) := by
  obtain ⟨k, s, h1, h2⟩ := HTSet.fromIter_rep hA lo hasher vs
  have hd := distinct_foldl_insert lo.equivK (unitPairs vs) [] List.Pairwise.nil
  rw [show ([] : List (T × Unit)) = unitPairs [] from rfl, ← foldl_unitPairs] at hd
  refine ⟨s, _, h1, rep_setItems h2, ?_, fun q => ?_, fun v => ?_⟩
  · rw [h2.items_length]; rfl
  · rw [h2.get lo, setGet_foldl_insert lo.keyLaws]
  · rw [h2.items_perm.mem_iff, ← setGet_foldl_insert lo.keyLaws.self]
    have := mem_iff_mapGet lo.equivK hd (v, ())
    rw [unitPairs_get] at this
    have h3 : ((v, ()) ∈ unitPairs (vs.foldl (setInsert o.eqK) [])) ↔ v ∈ vs.foldl (setInsert o.eqK) [] := by simp [unitPairs]
    rw [← h3, this]
    cases setGet o.eqK (vs.foldl (setInsert o.eqK) []) v <;> simp

/-- C50 for `RedBlackTreeMap`. -/
theorem C50_rb_map_collect (A : Arch) (o : OrdKeys K Q) (lo : o.Lawful) (kvs : List (K × V)) :
    ∃ m, RBMap.fromIter o kvs = .ok m ∧
      (∀ q, m.getKeyValue o q = kvs.reverse.find? fun p => o.hits p.1 q) ∧
      (RBMap.Fits A m → ∃ items, rbItems A o m = .ok items ∧ m.getSize = items.length ∧
        ∀ p, p ∈ items ↔ kvs.reverse.find? (fun p' => o.same p'.1 p.1) = some p) := by
  obtain ⟨m, h1, h2⟩ := RBMap.fromIter_rep lo kvs
  have hd := distinct_foldl_insert lo.equivK kvs [] List.Pairwise.nil
  refine ⟨m, h1, fun q => ?_, fun hf => ⟨_, rep_rbItems h2 lo hf, ?_, fun p => ?_⟩⟩
  · rw [h2.getKeyValue lo, mapGet_foldl_insert lo.keyLaws]
    simp [mapGet]
  · rw [RBMap.getSize, h2.size']
  · rw [h2.perm.mem_iff, mem_iff_mapGet lo.equivK hd, mapGet_foldl_insert lo.keyLaws.self]
    simp [mapGet]

/-- C50 for `RedBlackTreeSet`. -/
theorem C50_rb_set_collect (A : Arch) (o : OrdKeys T Q) (lo : o.Lawful) (vs : List T) :
    ∃ s, RBSet.fromIter o vs = .ok s ∧ (∀ q, s.get o q = vs.reverse.find? fun v => o.hits v q) ∧
      (RBMap.Fits A s.map → ∃ items, rbSetItems A o s = .ok items ∧ s.size = items.length ∧
        ∀ v, v ∈ items ↔ vs.reverse.find? (fun v' => o.same v' v) = some v) := by
  obtain ⟨s, h1, h2⟩ := RBSet.fromIter_rep lo vs
  have hd := distinct_foldl_insert lo.equivK (unitPairs vs) [] List.Pairwise.nil
  rw [show ([] : List (T × Unit)) = unitPairs [] from rfl, ← foldl_unitPairs] at hd
  refine ⟨s, h1, fun q => ?_, fun hf => ⟨_, rep_rbSetItems h2 lo hf, ?_, fun v => ?_⟩⟩
  · rw [h2.get lo, setGet_foldl_insert lo.keyLaws]
  · rw [h2.items_length]; rfl
  · rw [h2.items_perm.mem_iff, ← setGet_foldl_insert lo.keyLaws.self]
    have := mem_iff_mapGet lo.equivK hd (v, ())
    rw [unitPairs_get] at this
    have h3 : ((v, ()) ∈ unitPairs (vs.foldl (setInsert o.same) [])) ↔ v ∈ vs.foldl (setInsert o.same) [] := by simp [unitPairs]
    rw [← h3, this]
    cases setGet o.same (vs.foldl (setInsert o.same) []) v <;> simp

example : stackItems (Stack.fromIter [1, 2, 3]) = .ok [1, 2, 3] ∧ stackItems (Stack.stackMacro [1, 2, 3]) = .ok [3, 2, 1] := by decide

/-- Duplicate keys: the last pair wins, key and value. -/
example : ((do
    let m ← HTMap.fromIter dbg64 exKeys 1 [((1, "a"), 10), ((2, "b"), 20), ((1, "A"), 11)]
    pure (m.getSize, ← m.getKeyValue dbg64 exKeys 1)) : Res (Nat × Option ((Nat × String) × Nat))) = .ok (2, some ((1, "A"), 11)) := by
  decide +kernel

example : ∃ m, RBMap.fromIter exOrd [((1, "a"), 10), ((2, "b"), 20), ((1, "A"), 11)] = .ok m ∧ RBMap.Reach dbg64 exOrd m ∧
    RBMap.Fits dbg64 m ∧ (do pure (m.getSize, m.getKeyValue exOrd 1)) = (.ok (2, some ((1, "A"), 11)) : Res _) :=
  exRB _ _ _ (by decide +kernel)

/-! ### C51 -/

/-- C51 for the sequences: the items in order, separated by `", "`, between the delimiters of the collection. -/
theorem C51_sequences_display (A : Arch) (fmt : T → String) :
    (∀ l : RList T, RList.Reach l → ∃ xs, listItems l = .ok xs ∧ l.display fmt = .ok ("[" ++ joinWith ", " (xs.map fmt) ++ "]")) ∧
    (∀ s : Stack T, Stack.Reach s → ∃ xs, stackItems s = .ok xs ∧ s.display fmt = .ok ("Stack(" ++ joinWith ", " (xs.map fmt) ++ ")")) ∧
    (∀ q : Queue T, Queue.Reach q → ∃ xs, queueItems q = .ok xs ∧ q.display fmt = .ok ("Queue(" ++ joinWith ", " (xs.map fmt) ++ ")")) ∧
    (∀ v : RVector T, RVector.Reach A v → ∃ xs, vecItems A v = .ok xs ∧ v.display A fmt = .ok ("[" ++ joinWith ", " (xs.map fmt) ++ "]")) := by
  refine ⟨fun l h => ?_, fun l h => ?_, fun l h => ?_, fun l h => ?_⟩
  · obtain ⟨xs, r⟩ := h.rep
    exact ⟨xs, rep_items r, r.display fmt⟩
  · obtain ⟨xs, r⟩ := h.rep
    exact ⟨xs, rep_sitems r, Stack.Rep.display r fmt⟩
  · obtain ⟨xs, r⟩ := h.rep
    exact ⟨xs, rep_qitems r, r.display fmt⟩
  · obtain ⟨xs, _, r⟩ := h.rep
    exact ⟨xs, rep_vitems r, r.display fmt⟩

/-- C51 for the hash trie map and set. -/
theorem C51_hash_display (A : Arch) (hA : HTMap.StdWord A) (o : HashKeys H K Q) (lo : o.Lawful) (fmtK : K → String) (fmtV : V → String) :
    (∀ m : HTMap H K V, HTMap.Reach A o m → ∃ items, mapItems m = .ok items ∧
      m.display fmtK fmtV = .ok ("{" ++ joinWith ", " (items.map fun p => fmtK p.1 ++ ": " ++ fmtV p.2) ++ "}")) ∧
    (∀ s : HTSet H K, HTSet.Reach A o s → ∃ items, setItems s = .ok items ∧
      s.display fmtK = .ok ("{" ++ joinWith ", " (items.map fmtK) ++ "}")) := by
  refine ⟨fun m h => ?_, fun s h => ?_⟩
  · obtain ⟨_, _, r⟩ := h.rep hA lo
    exact ⟨_, rep_mapItems r, r.display fmtK fmtV⟩
  · obtain ⟨_, _, r⟩ := h.rep hA lo
    exact ⟨_, rep_setItems r, r.display fmtK⟩

/-- C51 for the red-black tree map and set; the items are in increasing order (C31, C40). -/
theorem C51_rb_display (A : Arch) (o : OrdKeys K Q) (lo : o.Lawful) (fmtK : K → String) (fmtV : V → String) :
    (∀ m : RBMap K V, RBMap.Reach A o m → RBMap.Fits A m → ∃ items, rbItems A o m = .ok items ∧
      m.display A o fmtK fmtV = .ok ("{" ++ joinWith ", " (items.map fun p => fmtK p.1 ++ ": " ++ fmtV p.2) ++ "}")) ∧
    (∀ s : RBSet K, RBSet.Reach A o s → RBMap.Fits A s.map → ∃ items, rbSetItems A o s = .ok items ∧
      s.display A o fmtK = .ok ("{" ++ joinWith ", " (items.map fmtK) ++ "}")) := by
  refine ⟨fun m h hf => ?_, fun s h hf => ?_⟩
  · obtain ⟨_, r⟩ := h.rep lo
    exact ⟨_, rep_rbItems r lo hf, r.display lo hf fmtK fmtV⟩
  · obtain ⟨_, r⟩ := h.rep lo
    exact ⟨_, rep_rbSetItems r lo hf, r.display lo hf fmtK⟩

example : (RList.fromIter [1, 2, 3]).display toString = .ok "[1, 2, 3]" ∧ (RList.new : RList Nat).display toString = .ok "[]" ∧
    (Stack.stackMacro [1, 2, 3]).display toString = .ok "Stack(3, 2, 1)" ∧ (Queue.fromIter [1]).display toString = .ok "Queue(1)" := by
  decide

example : ∃ m, RBMap.fromIter exOrd [((2, "b"), 20), ((1, "a"), 10)] = .ok m ∧ RBMap.Reach dbg64 exOrd m ∧
    RBMap.Fits dbg64 m ∧ m.display dbg64 exOrd Prod.snd toString = .ok "{a: 10, b: 20}" :=
  exRB _ _ _ (by decide +kernel)

end Rpds.Props
