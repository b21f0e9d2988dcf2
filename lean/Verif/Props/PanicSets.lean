import Verif.Props.Panic
/-
Property C55 for sets.  Sets are maps with the value `()`: every operation of a set is one operation of its map
(red_black_tree_set/mod.rs:135-176, hash_trie_set/mod.rs:160-201).
-/
set_option autoImplicit false
namespace Rpds

/-- The operation of the map that a set calls. -/
def SetOp.onMap {T Q : Type} : SetOp T Q → MapOp T Unit Q
  | .insert v => .insert v ()
  | .insertMut v => .insertMut v ()
  | .remove q => .remove q
  | .removeMut q => .removeMut q
  | .clone => .clone
  | .get q => .getKeyValue q
  | .contains q => .containsKey q
  | .size => .size
  | .isEmpty => .isEmpty

/-- What a set makes of the answer of its map. -/
def MapRet.onSet {T : Type} : MapRet T Unit → SetRet T
  | .bool b => .bool b
  | .nat n => .nat n
  | .optKV x => .opt (x.map fun kv => kv.1)
  | _ => .unit

/-- The effect on something that holds the version. -/
def Effect.map {σ α : Type} (g : σ → α) : Effect σ → Effect α
  | .keep => .keep
  | .fresh s => .fresh (g s)
  | .update s => .update (g s)

/-- Operations of tree sets with user code that may panic. -/
def RBSet.stepU {S T Q : Type} (A : Arch) (U : RBUser S T Unit Q) (s : S) (c : RBSet T) (op : SetOp T Q) :
    Res (Option (SetRet T) × Effect (RBSet T)) :=
  (c.map.stepU A U s op.onMap).map fun p => (p.1.map MapRet.onSet, p.2.map fun m => ⟨m⟩)

/-- Operations of hash sets with user code that may panic. -/
def HTSet.stepU {S H T Q : Type} (A : Arch) (U : HTUser S H T Unit Q) (s : S) (c : HTSet H T) (op : SetOp T Q) :
    Res (Option (SetRet T) × Effect (HTSet H T)) :=
  (c.map.stepU A U s op.onMap).map fun p => (p.1.map MapRet.onSet, p.2.map fun m => ⟨m⟩)

namespace Props
open Spec
variable {H T Q S : Type}

theorem unitPairs_fst (l : List (T × Unit)) : unitPairs (l.map fun e => e.1) = l := by
  simp [unitPairs, Function.comp_def]

theorem effect_map_map {σ α β : Type} (g : α → β) (f : σ → α) (e : Effect σ) : (e.map f).map g = e.map fun s => g (f s) := by
  cases e <;> rfl

theorem effect_rel_sets {σ τ : Type} {R : σ → List (T × Unit) → Prop} {mk : σ → τ} {R' : τ → List T → Prop}
    (h : ∀ m l, R m l → R' (mk m) (l.map fun e => e.1)) {e : Effect σ} {f : Effect (List (T × Unit))} (he : Effect.Rel R e f) :
    Effect.Rel R' (e.map mk) (f.map fun l => l.map fun e => e.1) := by
  cases he with
  | keep => exact .keep
  | fresh he => exact .fresh (h _ _ he)
  | update he => exact .update (h _ _ he)

theorem effect_unitPairs (f : Effect (List (T × Unit))) : (f.map fun l => l.map fun e => e.1).map unitPairs = f := by
  rw [effect_map_map]
  cases f <;> simp [Effect.map, unitPairs_fst]

/-- What a set operation may answer and do is what the map operation may. -/
def SetAllowed (allowed : List (T × Unit) → Option (MapRet T Unit) → Effect (List (T × Unit)) → Prop) (l : List T)
    (r : Option (SetRet T)) (f : Effect (List T)) : Prop :=
  ∃ r', r = r'.map MapRet.onSet ∧ allowed (unitPairs l) r' (f.map unitPairs)

/-! ### Red-black tree sets -/

/-- One operation together with the user code it calls and the state of that code. -/
abbrev RBSetCall (S T Q : Type) := RBUser S T Unit Q × S × SetOp T Q

/-- C55.  Histories of operations on red-black tree sets with user code that may panic at any call. -/
theorem C55_rb_set_user_panics (A : Arch) (vs : List (RBSet T)) (hv : ∀ c ∈ vs, RBReachU A S Q c.map) (h : List (Nat × RBSetCall S T Q)) :
    ∃ ws rs vs' ws', List.Forall₂ (fun (c : RBSet T) l => RBHolds A c.map (unitPairs l)) vs ws ∧
      runHistory (fun c (p : RBSetCall S T Q) => c.stepU A p.1 p.2.1 p.2.2) vs h = .ok (rs, vs') ∧
      LooseHistory (fun l (p : RBSetCall S T Q) => SetAllowed (fun l => RBMap.AllowedU p.1 l p.2.2.onMap) l) ws h rs ws' ∧
      List.Forall₂ (fun (c : RBSet T) l => RBHolds A c.map (unitPairs l)) vs' ws' := by
  obtain ⟨ws, hw⟩ := forall₂_choose (R := fun (c : RBSet T) l => c.map.Loose (unitPairs l)) fun c hc => by
    obtain ⟨l, hl⟩ := rbReachU_loose (hv c hc)
    exact ⟨l.map fun e => e.1, by rw [unitPairs_fst]; exact hl⟩
  obtain ⟨rs, vs', ws', h1, h2, h3⟩ := runHistory_loose (R := fun (c : RBSet T) l => c.map.Loose (unitPairs l))
    (step := fun c (p : RBSetCall S T Q) => c.stepU A p.1 p.2.1 p.2.2)
    (allowed := fun l (p : RBSetCall S T Q) => SetAllowed (fun l => RBMap.AllowedU p.1 l p.2.2.onMap) l)
    (fun c l p hl => by
      obtain ⟨r, e, f, g1, g2, g3, _⟩ := hl.stepU A p.1 p.2.1 p.2.2.onMap
      refine ⟨r.map MapRet.onSet, e.map fun m => ⟨m⟩, f.map fun l => l.map fun e => e.1, by simp only [RBSet.stepU, g1, Except.map],
        ⟨r, rfl, by rw [effect_unitPairs]; exact g2⟩, effect_rel_sets (fun m l h => by rw [unitPairs_fst]; exact h) g3⟩) h vs ws hw
  exact ⟨ws, rs, vs', ws', forall₂_imp (fun _ _ h => loose_rbHolds h) hw, h1, h2, forall₂_imp (fun _ _ h => loose_rbHolds h) h3⟩

/-- C55.  An operation on a red-black tree set in which user code panics leaves the very same tree behind, node for node. -/
theorem C55_rb_set_panic_unchanged (A : Arch) (c : RBSet T) (hc : RBReachU A S Q c.map) (U : RBUser S T Unit Q) (s : S) (op : SetOp T Q)
    (e : Effect (RBSet T)) (h : c.stepU A U s op = .ok (none, e)) : e = .keep ∨ e = .update c := by
  unfold RBSet.stepU at h
  cases hm : c.map.stepU A U s op.onMap with
  | error e => rw [hm] at h; cases h
  | ok p =>
    obtain ⟨r, e'⟩ := p
    rw [hm] at h
    simp only [Except.map, Except.ok.injEq, Prod.mk.injEq, Option.map_eq_none_iff] at h
    obtain ⟨rfl, rfl⟩ := h
    rcases C55_rb_map_panic_unchanged A c.map hc U s op.onMap e' hm with rfl | rfl
    · exact .inl rfl
    · exact .inr rfl

/-- C55.  User code that keeps no state and does not panic: the operations are those of the other properties. -/
theorem C55_rb_set_no_panic (A : Arch) (o : OrdKeys T Q) (s : S) (c : RBSet T) (op : SetOp T Q) :
    c.stepU A (RBUser.pure o) s op = (c.step A o op).map fun p => (some p.1, p.2) := by
  rw [RBSet.stepU, C55_rb_map_no_panic]
  cases op with
  | insert v => simp only [SetOp.onMap, RBMap.step, RBSet.step, RBSet.insert]; cases c.map.insert o v () <;> rfl
  | insertMut v => simp only [SetOp.onMap, RBMap.step, RBSet.step, RBSet.insertMut]; cases c.map.insertMut o v () <;> rfl
  | remove q => simp only [SetOp.onMap, RBMap.step, RBSet.step, RBSet.remove]; cases c.map.remove A o q <;> rfl
  | removeMut q => simp only [SetOp.onMap, RBMap.step, RBSet.step, RBSet.removeMut]; cases c.map.removeMut A o q <;> rfl
  | _ => rfl

/-! ### Hash trie sets -/

/-- One operation together with the user code it calls and the state of that code. -/
abbrev HTSetCall (S H T Q : Type) := HTUser S H T Unit Q × S × SetOp T Q

/-- The call of the map. -/
abbrev HTSetCall.onMap (p : HTSetCall S H T Q) : HTCall S H T Unit Q := (p.1, p.2.1, p.2.2.onMap)

theorem htSet_loose_step {A : Arch} {k : Nat} (G : HTMap H T Unit → Prop) (c : HTSet H T) (l : List T) (p : HTSetCall S H T Q)
    (h : ∃ r e f, c.map.stepU A p.1 p.2.1 p.2.2.onMap = .ok (r, e) ∧ HTAllowedU p.onMap (unitPairs l) r f ∧
      Effect.Rel (fun m l => m.Loose A k false l ∧ G m) e f) :
    ∃ r e f, c.stepU A p.1 p.2.1 p.2.2 = .ok (r, e) ∧ SetAllowed (fun l => HTAllowedU p.onMap l) l r f ∧
      Effect.Rel (fun (c : HTSet H T) l => c.map.Loose A k false (unitPairs l) ∧ G c.map) e f := by
  obtain ⟨r, e, f, g1, g2, g3⟩ := h
  exact ⟨r.map MapRet.onSet, e.map fun m => ⟨m⟩, f.map fun l => l.map fun e => e.1, by simp only [HTSet.stepU, g1, Except.map],
    ⟨r, rfl, by rw [effect_unitPairs]; exact g2⟩, effect_rel_sets (fun m l h => by rw [unitPairs_fst]; exact h) g3⟩

/-- C55.  Histories of operations on hash trie sets with user code that may panic at any call, when no two elements inserted collide: the
library itself never panics, and those operations that panic leave all elements as they were. -/
theorem C55_hash_set_user_panics (A : Arch) (hA : HTMap.StdWord A) (hash : H → T → UInt64) (P : T → Prop) (vs : List (HTSet H T))
    (hv : ∀ c ∈ vs, HTReachU A S Q hash P c.map)
    (h : List (Nat × { p : HTSetCall S H T Q // ∃ o, HTMap.Orderly hash P p.1 o p.2.2.onMap })) :
    ∃ ws rs vs' ws', List.Forall₂ (fun (c : HTSet H T) l => HTHolds c.map (unitPairs l)) vs ws ∧
      runHistory (fun c (p : { p : HTSetCall S H T Q // ∃ o, HTMap.Orderly hash P p.1 o p.2.2.onMap }) =>
        c.stepU A p.1.1 p.1.2.1 p.1.2.2) vs h = .ok (rs, vs') ∧
      LooseHistory (fun l (p : { p : HTSetCall S H T Q // ∃ o, HTMap.Orderly hash P p.1 o p.2.2.onMap }) =>
        SetAllowed (fun l => HTAllowedU p.1.onMap l) l) ws h rs ws' ∧
      List.Forall₂ (fun (c : HTSet H T) l => HTHolds c.map (unitPairs l)) vs' ws' := by
  obtain ⟨ws, hw⟩ := forall₂_choose (R := fun (c : HTSet H T) l => ∃ k, c.map.Loose A k false (unitPairs l) ∧ c.map.NoColl hash P)
    fun c hc => by
      obtain ⟨l, k, hl⟩ := htReachU_loose hA (hv c hc)
      exact ⟨l.map fun e => e.1, k, by rw [unitPairs_fst]; exact hl⟩
  obtain ⟨rs, vs', ws', h1, h2, h3⟩ := runHistory_loose
    (R := fun (c : HTSet H T) l => ∃ k, c.map.Loose A k false (unitPairs l) ∧ c.map.NoColl hash P)
    (step := fun c (p : { p : HTSetCall S H T Q // ∃ o, HTMap.Orderly hash P p.1 o p.2.2.onMap }) => c.stepU A p.1.1 p.1.2.1 p.1.2.2)
    (allowed := fun l p => SetAllowed (fun l => HTAllowedU p.1.onMap l) l)
    (fun c l p hl => by
      obtain ⟨k, hl⟩ := hl
      obtain ⟨r, e, f, g1, g2, g3⟩ := htSet_loose_step (fun m => m.NoColl hash P) c l p.1
        (htNoColl_step hl ⟨p.1.onMap, p.2⟩)
      exact ⟨r, e, f, g1, g2, g3.imp fun _ _ h => ⟨k, h⟩⟩) h vs ws hw
  exact ⟨ws, rs, vs', ws', forall₂_imp (fun _ _ ⟨_, h⟩ => loose_htHolds h.1) hw, h1, h2,
    forall₂_imp (fun _ _ ⟨_, h⟩ => loose_htHolds h.1) h3⟩

/-- Calls in which `Eq` answers by some function and never panics. -/
abbrev SetEqAnswers (S H T Q : Type) :=
  { p : HTSetCall S H T Q // ∃ o : HashKeys H T Q,
    (∀ s a b, (p.1.eqK s a b).1 = some (o.eqK a b)) ∧ ∀ s a q, (p.1.eqQ s a q).1 = some (o.eqKQ a q) }

/-- C55.  Histories of operations on hash trie sets, collisions or not, when only `Hash` panics. -/
theorem C55_hash_set_hash_panics (A : Arch) (hA : HTMap.StdWord A) (vs : List (HTSet H T)) (hv : ∀ c ∈ vs, HTReachE A S Q c.map)
    (h : List (Nat × SetEqAnswers S H T Q)) :
    ∃ ws rs vs' ws', List.Forall₂ (fun (c : HTSet H T) l => HTHolds c.map (unitPairs l)) vs ws ∧
      runHistory (fun c (p : SetEqAnswers S H T Q) => c.stepU A p.1.1 p.1.2.1 p.1.2.2) vs h = .ok (rs, vs') ∧
      LooseHistory (fun l (p : SetEqAnswers S H T Q) => SetAllowed (fun l => HTAllowedU p.1.onMap l) l) ws h rs ws' ∧
      List.Forall₂ (fun (c : HTSet H T) l => HTHolds c.map (unitPairs l)) vs' ws' := by
  obtain ⟨ws, hw⟩ := forall₂_choose (R := fun (c : HTSet H T) l => ∃ k, c.map.Loose A k false (unitPairs l) ∧ True)
    fun c hc => by
      obtain ⟨l, k, hl⟩ := htReachE_loose hA (hv c hc)
      exact ⟨l.map fun e => e.1, k, by rw [unitPairs_fst]; exact ⟨hl, trivial⟩⟩
  obtain ⟨rs, vs', ws', h1, h2, h3⟩ := runHistory_loose
    (R := fun (c : HTSet H T) l => ∃ k, c.map.Loose A k false (unitPairs l) ∧ True)
    (step := fun c (p : SetEqAnswers S H T Q) => c.stepU A p.1.1 p.1.2.1 p.1.2.2)
    (allowed := fun l p => SetAllowed (fun l => HTAllowedU p.1.onMap l) l)
    (fun c l p hl => by
      obtain ⟨k, hl, _⟩ := hl
      obtain ⟨r, e, f, g1, g2, g3⟩ := htEqAnswers_step hl ⟨p.1.onMap, p.2⟩
      obtain ⟨r, e, f, g1, g2, g3⟩ := htSet_loose_step (fun _ => True) c l p.1 ⟨r, e, f, g1, g2, g3.imp fun _ _ h => ⟨h, trivial⟩⟩
      exact ⟨r, e, f, g1, g2, g3.imp fun _ _ h => ⟨k, h⟩⟩) h vs ws hw
  exact ⟨ws, rs, vs', ws', forall₂_imp (fun _ _ ⟨_, h⟩ => loose_htHolds h.1) hw, h1, h2,
    forall₂_imp (fun _ _ ⟨_, h⟩ => loose_htHolds h.1) h3⟩

/-- C55.  One operation with user code that may panic, on any hash trie set, collisions or not: an operation that finishes does what C54
allows; one that panics leaves the set alone, or (in place) can only lose elements whose stored hashes are the hash it computed, and that only
if several elements have this hash and a comparison can panic. -/
theorem C55_hash_set_panic_loss (A : Arch) (hA : HTMap.StdWord A) (c : HTSet H T) (hc : HTMap.ReachAny A Q c.map) (U : HTUser S H T Unit Q)
    (o : HashKeys H T Q) (hU : U.Obeys o) (s : S) (op : SetOp T Q) :
    ∃ l r e, HTHolds c.map (unitPairs l) ∧ c.stepU A U s op = .ok (r, e) ∧
      (∀ x, r = some x → ∃ x' f, x = x'.onSet ∧ LooseStep o.eqK o.eqKQ (unitPairs l) op.onMap x' (f.map unitPairs) ∧
        Effect.Rel (fun (c : HTSet H T) l => HTHolds c.map (unitPairs l)) e f) ∧
      (r = none → e = .keep ∨ ∃ c' kh lost, e = .update c' ∧ c'.size = c.size ∧
        (c'.map.root.entries ++ lost).Perm c.map.root.entries ∧ (∀ x ∈ lost, x.keyHash = kh) ∧
        (lost = [] → ∃ l', HTHolds c'.map (unitPairs l') ∧ l'.Perm l) ∧
        (lost ≠ [] → 2 ≤ c.map.root.entries.countP (fun x => x.keyHash == kh) ∧ HTMap.LossCause U s c.map.hasher op.onMap kh)) := by
  obtain ⟨l, r, e, h1, h2, h3, h4⟩ := C55_hash_map_panic_loss A hA c.map hc U o hU s op.onMap
  refine ⟨l.map fun e => e.1, r.map MapRet.onSet, e.map fun m => ⟨m⟩, by rw [unitPairs_fst]; exact h1,
    by simp only [HTSet.stepU, h2, Except.map], fun x hx => ?_, fun hr => ?_⟩
  · cases r with
    | none => cases hx
    | some r =>
      cases hx
      obtain ⟨f, g1, g2⟩ := h3 r rfl
      exact ⟨r, f.map fun l => l.map fun e => e.1, rfl, by rw [unitPairs_fst, effect_unitPairs]; exact g1,
        effect_rel_sets (fun m l h => by rw [unitPairs_fst]; exact h) g2⟩
  · rcases h4 (by simpa using hr) with rfl | ⟨m', kh, lost, rfl, g1, g2, g3, g4, g5⟩
    · exact .inl rfl
    · refine .inr ⟨⟨m'⟩, kh, lost, rfl, g1, g2, g3, fun h0 => ?_, g5⟩
      obtain ⟨l', k1, k2⟩ := g4 h0
      exact ⟨l'.map fun e => e.1, by rw [unitPairs_fst]; exact k1, k2.map _⟩

/-- C55.  User code that keeps no state and does not panic: the operations are those of the other properties. -/
theorem C55_hash_set_no_panic (A : Arch) (hA : HTMap.StdWord A) (c : HTSet H T) (hc : HTMap.ReachAny A Q c.map) (o : HashKeys H T Q) (s : S)
    (op : SetOp T Q) : c.stepU A (HTUser.pure o) s op = (c.step A o op).map fun p => (some p.1, p.2) := by
  rw [HTSet.stepU, C55_hash_map_no_panic A hA c.map hc]
  cases op with
  | insert v => simp only [SetOp.onMap, HTMap.step, HTSet.step, HTSet.insert]; cases c.map.insert A o v () <;> rfl
  | insertMut v => simp only [SetOp.onMap, HTMap.step, HTSet.step, HTSet.insertMut]; cases c.map.insertMut A o v () <;> rfl
  | remove q => simp only [SetOp.onMap, HTMap.step, HTSet.step, HTSet.remove]; cases c.map.remove A o q <;> rfl
  | removeMut q => simp only [SetOp.onMap, HTMap.step, HTSet.step, HTSet.removeMut]; cases c.map.removeMut A o q <;> rfl
  | get q => simp only [SetOp.onMap, HTMap.step, HTSet.step, HTSet.get]; cases c.map.getKeyValue A o q <;> rfl
  | contains q => simp only [SetOp.onMap, HTMap.step, HTSet.step, HTSet.contains]; cases c.map.containsKey A o q <;> rfl
  | _ => rfl

/-! ### Examples -/

/-- `exBomb` of C55 for sets: panics when the counter is used up. -/
def exSetBomb : RBUser Nat Nat Unit Nat where
  cmpK s a b := match s with | 0 => (none, 0) | s + 1 => (some (compare a b), s)
  cmpQ s a b := match s with | 0 => (none, 0) | s + 1 => (some (compare a b), s)
  clone s _ := (some (), s)

/-- Operations on sets in which `cmp` panics, and others that finish. -/
example : RBReachU dbg64 Nat Nat (RBSet.new : RBSet Nat).map ∧
    (runHistory (fun c (p : RBSetCall Nat Nat Nat) => c.stepU dbg64 p.1 p.2.1 p.2.2) [(RBSet.new : RBSet Nat)]
      [(0, exSetBomb, 9, .insertMut 1), (0, exSetBomb, 9, .insertMut 2), (0, exSetBomb, 9, .insert 3), (1, exSetBomb, 0, .insertMut 4),
       (1, exSetBomb, 1, .removeMut 1), (1, exSetBomb, 0, .contains 2), (1, exSetBomb, 9, .get 3), (0, exSetBomb, 9, .size)] >>=
        fun p => (p.2.mapM (rbSetItems dbg64 exUsual)).map fun l => (p.1, l)) =
      .ok ([some (some .unit), some (some .unit), some (some .unit), some none, some none, some none, some (some (.opt (some 3))),
        some (some (.nat 2))], [[1, 2], [1, 2, 3]]) :=
  ⟨.init ⟨exUsual, .new⟩, by decide +kernel⟩

/-- A call on a set of small elements hashed to themselves; `Eq` panics when the counter is used up. -/
def exSetCall (s : Nat) (op : SetOp Nat Nat) (h : ∀ key v, op.onMap = .insert key v ∨ op.onMap = .insertMut key v → key < 100) :
    { p : HTSetCall Nat Nat Nat Nat // ∃ o, HTMap.Orderly (fun _ k => UInt64.ofNat k) (· < 100) p.1 o p.2.2.onMap } :=
  ⟨({ hashK := fun s _ k => (some (UInt64.ofNat k), s)
      hashQ := fun s _ k => (some (UInt64.ofNat k), s)
      eqK := fun s a b => match s with | 0 => (none, 0) | s + 1 => (some (a == b), s)
      eqQ := fun s a b => match s with | 0 => (none, 0) | s + 1 => (some (a == b), s)
      clone := fun s _ => (some (), s) }, s, op), exHKeys UInt64.ofNat,
    ⟨fun s _ _ => by cases s; exact .inl rfl; exact .inr rfl, fun s _ _ => by cases s; exact .inl rfl; exact .inr rfl⟩,
    fun _ a b ha hb h => by
      have := congrArg UInt64.toNat h
      simp only [UInt64.toNat_ofNat'] at this
      simp only [exHKeys, beq_iff_eq]
      omega,
    fun _ _ _ => .inr rfl, h⟩

theorem exHSetU {β : Type} (f : HTSet Nat Nat → Res β) (b : β) (h : ((HTMap.newWithDegree dbg64 0 4).bind fun m => f ⟨m⟩) = .ok b) :
    ∃ c : HTSet Nat Nat, HTReachU dbg64 Nat Nat (fun _ k => UInt64.ofNat k) (· < 100) c.map ∧ HTReachE dbg64 Nat Nat c.map ∧ f c = .ok b := by
  cases hm : (HTMap.newWithDegree dbg64 0 4 : Res (HTMap Nat Nat Unit)) with
  | error e => rw [hm] at h; cases h
  | ok m => rw [hm] at h; exact ⟨⟨m⟩, .init (.inl ⟨0, 4, by omega, hm⟩), .init (.inl ⟨0, 4, by omega, hm⟩), h⟩

/-- Panics in comparisons, and calls that finish. -/
example : ∃ c : HTSet Nat Nat, HTReachU dbg64 Nat Nat (fun _ k => UInt64.ofNat k) (· < 100) c.map ∧ HTReachE dbg64 Nat Nat c.map ∧
    (runHistory (fun c (p : { p : HTSetCall Nat Nat Nat Nat // ∃ o, HTMap.Orderly (fun _ k => UInt64.ofNat k) (· < 100) p.1 o p.2.2.onMap }) =>
        c.stepU dbg64 p.1.1 p.1.2.1 p.1.2.2) [c]
      [(0, exSetCall 9 (.insertMut 1) (by simp [SetOp.onMap])), (0, exSetCall 9 (.insertMut 17) (by simp [SetOp.onMap])),
       (0, exSetCall 0 (.removeMut 1) (by simp [SetOp.onMap])), (0, exSetCall 0 (.insertMut 17) (by simp [SetOp.onMap])),
       (0, exSetCall 9 (.get 17) (by simp [SetOp.onMap])), (0, exSetCall 9 .size (by simp [SetOp.onMap]))] >>=
        fun p => (p.2.mapM setItems).map fun l => (p.1, l)) =
      .ok ([some (some .unit), some (some .unit), some none, some none, some (some (.opt (some 17))), some (some (.nat 2))], [[1, 17]]) :=
  exHSetU _ _ (by decide +kernel)

/-- All elements collide; `Hash` panics when the counter is used up. -/
def exSetEqCall (s : Nat) (op : SetOp Nat Nat) : SetEqAnswers Nat Nat Nat Nat :=
  ⟨({ hashK := fun s _ _ => match s with | 0 => (none, 0) | s + 1 => (some 7, s)
      hashQ := fun s _ _ => match s with | 0 => (none, 0) | s + 1 => (some 7, s)
      eqK := fun s a b => (some (a == b), s)
      eqQ := fun s a b => (some (a == b), s)
      clone := fun s _ => (some (), s) }, s, op),
    exHKeys fun _ => 7, fun _ _ _ => rfl, fun _ _ _ => rfl⟩

/-- Panics in `Hash` with colliding elements: none is lost. -/
example : ∃ c : HTSet Nat Nat, HTReachU dbg64 Nat Nat (fun _ k => UInt64.ofNat k) (· < 100) c.map ∧ HTReachE dbg64 Nat Nat c.map ∧
    (runHistory (fun c (p : SetEqAnswers Nat Nat Nat Nat) => c.stepU dbg64 p.1.1 p.1.2.1 p.1.2.2) [c]
      [(0, exSetEqCall 9 (.insertMut 1)), (0, exSetEqCall 9 (.insertMut 2)), (0, exSetEqCall 0 (.insertMut 3)),
       (0, exSetEqCall 0 (.removeMut 1)), (0, exSetEqCall 9 (.contains 1)), (0, exSetEqCall 9 .size)] >>=
        fun p => (p.2.mapM setItems).map fun l => (p.1, l)) =
      .ok ([some (some .unit), some (some .unit), some none, some none, some (some (.bool true)), some (some (.nat 2))], [[2, 1]]) :=
  exHSetU _ _ (by decide +kernel)

/-- Elements are lost: a panic in the second comparison of `remove_mut(1)` in a set of three elements with the same hash leaves a set of size
3 that iterates over one element only. -/
example : (HTSet.fromIter dbg64 (exHKeys fun _ => 7) 0 [1, 2, 3] >>= fun c => setItems c >>= fun l =>
    c.stepU dbg64 ({ hashK := fun s _ _ => (some 7, s)
                     hashQ := fun s _ _ => (some 7, s)
                     eqK := fun s a b => match s with | 0 => (none, 0) | s + 1 => (some (a == b), s)
                     eqQ := fun s a b => match s with | 0 => (none, 0) | s + 1 => (some (a == b), s)
                     clone := fun s _ => (some (), s) } : HTUser Nat Nat Nat Unit Nat) 1 (.removeMut 1) >>= fun x => match x with
    | (none, .update c') => (setItems c').map fun l' => (l, c'.size, l')
    | _ => .error .diverge) = .ok ([3, 2, 1], 3, [1]) := by decide +kernel

end Props
end Rpds
