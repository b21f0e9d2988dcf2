import Verif.Props.Unlawful
import Verif.RedBlack.Panic
import Verif.HashTrie.PanicMap
/-
Property C55: user code (`Ord`, `Eq`, `Hash`, `Clone` of keys and values) that panics in the middle of an operation, and changes its
answers from call to call.
-/
set_option autoImplicit false
namespace Rpds.Props
open Spec
variable {H K V Q T S : Type}

/-! ### Red-black tree maps -/

/-- One operation together with the user code it calls and the state of that code. -/
abbrev RBCall (S K V Q : Type) := RBUser S K V Q × S × MapOp K V Q

/-- All maps a program can obtain when user code may panic, and the program carries on with what is left. -/
abbrev RBReachU (A : Arch) (S Q : Type) (m : RBMap K V) : Prop :=
  Reachable (fun m => ∃ o : OrdKeys K Q, RBMap.Init o m) (fun m (p : RBCall S K V Q) => m.stepU A p.1 p.2.1 p.2.2) m

theorem rbReachU_loose {A : Arch} {m : RBMap K V} (h : RBReachU A S Q m) : ∃ l, m.Loose l := by
  have step : ∀ (m : RBMap K V) (p : RBCall S K V Q) r e, (∃ l, m.Loose l) → m.stepU A p.1 p.2.1 p.2.2 = .ok (r, e) →
      ∀ m', e = .fresh m' ∨ e = .update m' → ∃ l, m'.Loose l := by
    rintro m p r e ⟨l, hl⟩ he m' hm'
    obtain ⟨r', e', f, h1, _, h3, _⟩ := hl.stepU A p.1 p.2.1 p.2.2
    rw [h1] at he; cases he
    rcases hm' with h | h <;> subst h <;> cases h3 <;> exact ⟨_, by assumption⟩
  refine Reachable.inv (Inv := fun m => ∃ l, RBMap.Loose m l) ?_ (fun m p r m' hm he => step m p r _ hm he m' (.inl rfl))
    (fun m p r m' hm he => step m p r _ hm he m' (.inr rfl)) h
  rintro m ⟨o, hm⟩
  exact RBMap.ReachAny.loose (A := A) (Q := Q) (.init ⟨o, hm⟩)

/-- C55.  Histories of operations on red-black tree maps with user code that may panic at any call: the library itself never panics,
the contents stay a list of pairs changed by one pair at a time by the operations that finish, and not at all by those that panic. -/
theorem C55_rb_map_user_panics (A : Arch) (vs : List (RBMap K V)) (hv : ∀ m ∈ vs, RBReachU A S Q m) (h : List (Nat × RBCall S K V Q)) :
    ∃ ws rs vs' ws', List.Forall₂ (RBHolds A) vs ws ∧
      runHistory (fun m (p : RBCall S K V Q) => m.stepU A p.1 p.2.1 p.2.2) vs h = .ok (rs, vs') ∧
      LooseHistory (fun l (p : RBCall S K V Q) r f => RBMap.AllowedU p.1 l p.2.2 r f) ws h rs ws' ∧
      List.Forall₂ (RBHolds A) vs' ws' := by
  obtain ⟨ws, hw⟩ := forall₂_choose (R := fun (m : RBMap K V) l => m.Loose l) fun m hm => rbReachU_loose (hv m hm)
  obtain ⟨rs, vs', ws', h1, h2, h3⟩ := runHistory_loose (R := fun (m : RBMap K V) l => m.Loose l)
    (step := fun m (p : RBCall S K V Q) => m.stepU A p.1 p.2.1 p.2.2)
    (allowed := fun l (p : RBCall S K V Q) r f => RBMap.AllowedU p.1 l p.2.2 r f)
    (fun m l p hl => by
      obtain ⟨r, e, f, g1, g2, g3, _⟩ := hl.stepU A p.1 p.2.1 p.2.2
      exact ⟨r, e, f, g1, g2, g3⟩) h vs ws hw
  exact ⟨ws, rs, vs', ws', forall₂_imp (fun _ _ h => loose_rbHolds h) hw, h1, h2, forall₂_imp (fun _ _ h => loose_rbHolds h) h3⟩

/-- C55.  An operation on a red-black tree map in which user code panics leaves the very same tree behind, node for node. -/
theorem C55_rb_map_panic_unchanged (A : Arch) (m : RBMap K V) (hm : RBReachU A S Q m) (U : RBUser S K V Q) (s : S) (op : MapOp K V Q)
    (e : Effect (RBMap K V)) (h : m.stepU A U s op = .ok (none, e)) : e = .keep ∨ e = .update m := by
  obtain ⟨l, hl⟩ := rbReachU_loose hm
  obtain ⟨r', e', f, h1, _, _, h4⟩ := hl.stepU A U s op
  rw [h1] at h; cases h
  exact h4 rfl

/-- C55.  User code that keeps no state and does not panic: the operations are those of the other properties. -/
theorem C55_rb_map_no_panic (A : Arch) (o : OrdKeys K Q) (s : S) (m : RBMap K V) (op : MapOp K V Q) :
    m.stepU A (RBUser.pure o) s op = (m.step A o op).map fun p => (some p.1, p.2) := RBMap.stepU_pure A o s m op

/-- The usual order, which panics when the count down reaches zero. -/
def exBomb : RBUser Nat Nat Nat Nat where
  cmpK s a b := match s with | 0 => (none, 0) | s + 1 => (some (compare a b), s)
  cmpQ s a b := match s with | 0 => (none, 0) | s + 1 => (some (compare a b), s)
  clone s _ := match s with | 0 => (none, 0) | s + 1 => (some (), s)

/-- For examples: what is computed from a collected map is computed from a map a program can obtain. -/
theorem exRBU {β : Type} (o : OrdKeys Nat Nat) (kvs : List (Nat × Nat)) (f : RBMap Nat Nat → Res β) (b : β)
    (h : (RBMap.fromIter o kvs).bind f = .ok b) : ∃ m, RBMap.fromIter o kvs = .ok m ∧ RBReachU dbg64 Nat Nat m ∧ f m = .ok b := by
  cases hm : RBMap.fromIter o kvs with
  | error e => rw [hm] at h; cases h
  | ok m => rw [hm] at h; exact ⟨m, rfl, .init ⟨o, .fromIter hm⟩, h⟩

/-- Panics at the first and second comparison and in `Clone` inside `get_mut`, and calls that finish. -/
example : ∃ m, RBMap.fromIter exUsual [(1, 10), (2, 20), (3, 30)] = .ok m ∧ RBReachU dbg64 Nat Nat m ∧
    (runHistory (fun m (p : RBCall Nat Nat Nat Nat) => m.stepU dbg64 p.1 p.2.1 p.2.2) [m]
      [(0, exBomb, 0, .insertMut 4 40), (0, exBomb, 1, .removeMut 1), (0, exBomb, 1, .getMut 2 (· + 1)), (0, exBomb, 9, .insertMut 4 40),
       (0, exBomb, 9, .get 4), (0, exBomb, 9, .size)] >>= fun p => (p.2.mapM (rbItems dbg64 exUsual)).map fun l => (p.1, l)) =
      .ok ([some none, some none, some none, some (some .unit), some (some (.optV (some 40))), some (some (.nat 4))],
        [[(1, 10), (2, 20), (3, 30), (4, 40)]]) :=
  exRBU _ _ _ _ (by decide +kernel)

/-! ### Hash trie maps -/

/-- One operation together with the user code it calls and the state of that code. -/
abbrev HTCall (S H K V Q : Type) := HTUser S H K V Q × S × MapOp K V Q

/-- Calls that do not make hashes collide: `Hash` gives the hash `hash` or panics, `Eq` keeps to some function or panics, and keys among
those inserted (`P`) that have the same hash are equal for it. -/
abbrev NoCollision (S V Q : Type) (hash : H → K → UInt64) (P : K → Prop) :=
  { p : HTCall S H K V Q // ∃ o, HTMap.Orderly hash P p.1 o p.2.2 }

/-- All maps a program can obtain by such calls from empty maps. -/
abbrev HTReachU (A : Arch) (S Q : Type) (hash : H → K → UInt64) (P : K → Prop) (m : HTMap H K V) : Prop :=
  Reachable (fun m => (∃ hasher degree, 2 ≤ degree ∧ HTMap.newWithDegree A hasher degree = .ok m) ∨ ∃ hasher, HTMap.new A hasher = .ok m)
    (fun m (p : NoCollision S V Q hash P) => m.stepU A p.1.1 p.1.2.1 p.1.2.2) m

/-- What is allowed when user code may panic: an operation that finishes does what C54 allows; one that panics leaves all pairs. -/
inductive HTAllowedU (p : HTCall S H K V Q) (l : List (K × V)) : Option (MapRet K V) → Effect (List (K × V)) → Prop where
  | done {o r f} : p.1.Obeys o → LooseStep o.eqK o.eqKQ l p.2.2 r f → HTAllowedU p l (some r) f
  | panicked : HTAllowedU p l none .keep
  | panickedMut {l'} : l'.Perm l → HTAllowedU p l none (.update l')

theorem htNoColl_step {A : Arch} {hash : H → K → UInt64} {P : K → Prop} {m : HTMap H K V} {l : List (K × V)} {k : Nat}
    (h : m.Loose A k false l ∧ m.NoColl hash P) (p : NoCollision S V Q hash P) :
    ∃ r e f, m.stepU A p.1.1 p.1.2.1 p.1.2.2 = .ok (r, e) ∧ HTAllowedU p.1 l r f ∧
      Effect.Rel (fun m l => m.Loose A k false l ∧ m.NoColl hash P) e f := by
  obtain ⟨⟨U, s, op⟩, o, ho⟩ := p
  obtain ⟨r, e, f, h1, h2, h3⟩ := h.2.stepU h.1 ho s
  refine ⟨r, e, f, h1, ?_, h2⟩
  cases r with
  | some r => exact .done ho.obeys h3
  | none =>
    rcases h3 with rfl | ⟨l', rfl, h3⟩
    · exact .panicked
    · exact .panickedMut h3

theorem htReachU_loose {A : Arch} (hA : HTMap.StdWord A) {hash : H → K → UInt64} {P : K → Prop} {m : HTMap H K V}
    (h : HTReachU A S Q hash P m) : ∃ l k, m.Loose A k false l ∧ m.NoColl hash P := by
  have step : ∀ (m : HTMap H K V) (p : NoCollision S V Q hash P) r e, (∃ l k, m.Loose A k false l ∧ m.NoColl hash P) →
      m.stepU A p.1.1 p.1.2.1 p.1.2.2 = .ok (r, e) →
      ∀ m', e = .fresh m' ∨ e = .update m' → ∃ l k, m'.Loose A k false l ∧ m'.NoColl hash P := by
    rintro m p r e ⟨l, k, hl⟩ he m' hm'
    obtain ⟨r', e', f, h1, _, h3⟩ := htNoColl_step hl p
    rw [h1] at he; cases he
    rcases hm' with h | h <;> subst h <;> cases h3 <;> exact ⟨_, k, by assumption⟩
  refine Reachable.inv (Inv := fun m => ∃ l k, HTMap.Loose A k false m l ∧ m.NoColl hash P) ?_
    (fun m p r m' hm he => step m p r _ hm he m' (.inl rfl)) (fun m p r m' hm he => step m p r _ hm he m' (.inr rfl)) h
  have hempty : ∀ (m : HTMap H K V) k, m.Loose A k true [] → ∃ l k, m.Loose A k false l ∧ m.NoColl hash P := by
    intro m k h
    have h0 : m.root.entries = [] := List.map_eq_nil_iff.1 h.list
    exact ⟨_, k, h.weaken, ⟨fun e he => (by rw [h0] at he; cases he), by rw [h0]; exact .nil⟩⟩
  rintro m (⟨hasher, degree, h2, h1⟩ | ⟨hasher, h1⟩)
  · obtain ⟨k, c, rfl, rfl⟩ := HTMap.newWithDegree_ok h1 h2
    exact hempty _ k (HTMap.loose_empty c _)
  · obtain ⟨k, m', h3, h4⟩ := HTMap.new_loose (K := K) (V := V) hA hasher
    rw [h1] at h3; cases h3
    exact hempty _ k h4

/-- C55.  Histories of operations on hash trie maps with user code that may panic at any call, when no two keys inserted collide: the
library itself never panics, operations that finish change one pair at a time, and those that panic leave all pairs as they were. -/
theorem C55_hash_map_user_panics (A : Arch) (hA : HTMap.StdWord A) (hash : H → K → UInt64) (P : K → Prop) (vs : List (HTMap H K V))
    (hv : ∀ m ∈ vs, HTReachU A S Q hash P m) (h : List (Nat × NoCollision S V Q hash P)) :
    ∃ ws rs vs' ws', List.Forall₂ HTHolds vs ws ∧
      runHistory (fun m (p : NoCollision S V Q hash P) => m.stepU A p.1.1 p.1.2.1 p.1.2.2) vs h = .ok (rs, vs') ∧
      LooseHistory (fun l (p : NoCollision S V Q hash P) r f => HTAllowedU p.1 l r f) ws h rs ws' ∧
      List.Forall₂ HTHolds vs' ws' := by
  obtain ⟨ws, hw⟩ := forall₂_choose (R := fun (m : HTMap H K V) l => ∃ k, m.Loose A k false l ∧ m.NoColl hash P) fun m hm =>
    htReachU_loose hA (hv m hm)
  obtain ⟨rs, vs', ws', h1, h2, h3⟩ := runHistory_loose (R := fun (m : HTMap H K V) l => ∃ k, m.Loose A k false l ∧ m.NoColl hash P)
    (step := fun m (p : NoCollision S V Q hash P) => m.stepU A p.1.1 p.1.2.1 p.1.2.2)
    (allowed := fun l (p : NoCollision S V Q hash P) r f => HTAllowedU p.1 l r f)
    (fun m l p hl => by
      obtain ⟨k, hl⟩ := hl
      obtain ⟨r, e, f, g1, g2, g3⟩ := htNoColl_step hl p
      exact ⟨r, e, f, g1, g2, g3.imp fun _ _ h => ⟨k, h⟩⟩) h vs ws hw
  exact ⟨ws, rs, vs', ws', forall₂_imp (fun _ _ ⟨_, h⟩ => loose_htHolds h.1) hw, h1, h2,
    forall₂_imp (fun _ _ ⟨_, h⟩ => loose_htHolds h.1) h3⟩

/-- C55.  One operation with user code that may panic, on any hash trie map, collisions or not: the library itself does not panic; an
operation that finishes does what C54 allows; one that panics leaves the map alone, or (in place) can only lose pairs whose stored hashes
are the hash it computed for its key, and that only if several pairs have this hash and a comparison with the key can panic (a panic in
`Hash` or `Clone` loses nothing).  If it loses none, the map holds the same pairs as before. -/
theorem C55_hash_map_panic_loss (A : Arch) (hA : HTMap.StdWord A) (m : HTMap H K V) (hm : HTMap.ReachAny A Q m) (U : HTUser S H K V Q)
    (o : HashKeys H K Q) (hU : U.Obeys o) (s : S) (op : MapOp K V Q) :
    ∃ l r e, HTHolds m l ∧ m.stepU A U s op = .ok (r, e) ∧
      (∀ x, r = some x → ∃ f, LooseStep o.eqK o.eqKQ l op x f ∧ Effect.Rel HTHolds e f) ∧
      (r = none → e = .keep ∨ ∃ m' kh lost, e = .update m' ∧ m'.getSize = m.getSize ∧
        (m'.root.entries ++ lost).Perm m.root.entries ∧ (∀ x ∈ lost, x.keyHash = kh) ∧
        (lost = [] → ∃ l', HTHolds m' l' ∧ l'.Perm l) ∧
        (lost ≠ [] → 2 ≤ m.root.entries.countP (fun x => x.keyHash == kh) ∧ HTMap.LossCause U s m.hasher op kh)) := by
  obtain ⟨k, l, hl⟩ := hm.loose hA
  have hl := hl.weaken
  rcases hl.stepU hU.within s op with ⟨e, h1, _, h2⟩ | ⟨r, e, h1, h2⟩
  · refine ⟨l, none, e, loose_htHolds hl, h1, ⟨fun x hx => (nomatch hx), fun _ => h2.imp id ?_⟩⟩
    rintro ⟨m', rfl, g1, g2, kh, lost, g3, g4, g5⟩
    refine ⟨m', kh, lost, rfl, g1, g3, fun x hx => (g5 (List.ne_nil_of_mem hx)).1 x hx, fun h0 => ?_, fun h0 => (g5 h0).2⟩
    refine ⟨_, loose_htHolds (g4 h0), ?_⟩
    rw [h0, List.append_nil] at g3
    rw [← hl.list]; exact g3.map _
  · obtain ⟨r', e', f, g1, g2, g3⟩ := hl.step (U.at_ s o) op
    rw [g1] at h2; cases h2
    refine ⟨l, some r, e, loose_htHolds hl, h1, ⟨fun x hx => ?_, fun h => nomatch h⟩⟩
    cases hx
    exact ⟨f, g2, g3.imp fun _ _ h => loose_htHolds h⟩

/-- Calls in which `Eq` answers by some function (which one may depend on the operation) and never panics.  `Hash` may say anything, and
`Hash` and `Clone` may panic. -/
abbrev EqAnswers (S H K V Q : Type) :=
  { p : HTCall S H K V Q // ∃ o : HashKeys H K Q,
    (∀ s a b, (p.1.eqK s a b).1 = some (o.eqK a b)) ∧ ∀ s a q, (p.1.eqQ s a q).1 = some (o.eqKQ a q) }

/-- All maps a program can obtain by such calls from empty maps. -/
abbrev HTReachE (A : Arch) (S Q : Type) (m : HTMap H K V) : Prop :=
  Reachable (fun m => (∃ hasher degree, 2 ≤ degree ∧ HTMap.newWithDegree A hasher degree = .ok m) ∨ ∃ hasher, HTMap.new A hasher = .ok m)
    (fun m (p : EqAnswers S H K V Q) => m.stepU A p.1.1 p.1.2.1 p.1.2.2) m

theorem htEqAnswers_step {A : Arch} {m : HTMap H K V} {l : List (K × V)} {k : Nat} (h : m.Loose A k false l) (p : EqAnswers S H K V Q) :
    ∃ r e f, m.stepU A p.1.1 p.1.2.1 p.1.2.2 = .ok (r, e) ∧ HTAllowedU p.1 l r f ∧
      Effect.Rel (fun m l => m.Loose A k false l) e f := by
  obtain ⟨⟨U, s, op⟩, o, hK, hQ⟩ := p
  have hU : U.Obeys o := ⟨fun s a b => .inr (hK s a b), fun s a q => .inr (hQ s a q)⟩
  rcases h.stepU hU.within s op with ⟨e, h1, _, h2⟩ | ⟨r, e, h1, h2⟩
  · rcases h2 with rfl | ⟨m', rfl, g1, g2, kh, lost, g3, g4, g5⟩
    · exact ⟨none, .keep, .keep, h1, .panicked, .keep⟩
    · have h0 : lost = [] := by
        by_cases h0 : lost = []
        · exact h0
        · cases (g5 h0).2.2 with
          | insertMut _ hn => rw [hK] at hn; cases hn
          | removeMut _ hn => rw [hQ] at hn; cases hn
          | getMut _ hn => rw [hQ] at hn; cases hn
      rw [h0, List.append_nil] at g3
      refine ⟨none, .update m', .update _, h1, .panickedMut ?_, .update (g4 h0)⟩
      rw [← h.list]; exact g3.map _
  · obtain ⟨r', e', f, g1, g2, g3⟩ := h.step (U.at_ s o) op
    rw [g1] at h2; cases h2
    exact ⟨some r, e, f, h1, .done hU g2, g3⟩

theorem htReachE_loose {A : Arch} (hA : HTMap.StdWord A) {m : HTMap H K V} (h : HTReachE A S Q m) : ∃ l k, m.Loose A k false l := by
  have step : ∀ (m : HTMap H K V) (p : EqAnswers S H K V Q) r e, (∃ l k, m.Loose A k false l) →
      m.stepU A p.1.1 p.1.2.1 p.1.2.2 = .ok (r, e) → ∀ m', e = .fresh m' ∨ e = .update m' → ∃ l k, m'.Loose A k false l := by
    rintro m p r e ⟨l, k, hl⟩ he m' hm'
    obtain ⟨r', e', f, h1, _, h3⟩ := htEqAnswers_step hl p
    rw [h1] at he; cases he
    rcases hm' with h | h <;> subst h <;> cases h3 <;> exact ⟨_, k, by assumption⟩
  refine Reachable.inv (Inv := fun m => ∃ l k, HTMap.Loose A k false m l) ?_ (fun m p r m' hm he => step m p r _ hm he m' (.inl rfl))
    (fun m p r m' hm he => step m p r _ hm he m' (.inr rfl)) h
  rintro m (⟨hasher, degree, h2, h1⟩ | ⟨hasher, h1⟩)
  · obtain ⟨k, c, rfl, rfl⟩ := HTMap.newWithDegree_ok h1 h2
    exact ⟨_, k, HTMap.loose_empty c _⟩
  · obtain ⟨k, m', h3, h4⟩ := HTMap.new_loose (K := K) (V := V) hA hasher
    rw [h1] at h3; cases h3
    exact ⟨_, k, h4.weaken⟩

/-- C55.  Histories of operations on hash trie maps, collisions or not, when only `Hash` and `Clone` panic: the library itself never
panics, operations that finish change one pair at a time, and those that panic leave all pairs as they were. -/
theorem C55_hash_map_hash_clone_panics (A : Arch) (hA : HTMap.StdWord A) (vs : List (HTMap H K V)) (hv : ∀ m ∈ vs, HTReachE A S Q m)
    (h : List (Nat × EqAnswers S H K V Q)) :
    ∃ ws rs vs' ws', List.Forall₂ HTHolds vs ws ∧
      runHistory (fun m (p : EqAnswers S H K V Q) => m.stepU A p.1.1 p.1.2.1 p.1.2.2) vs h = .ok (rs, vs') ∧
      LooseHistory (fun l (p : EqAnswers S H K V Q) r f => HTAllowedU p.1 l r f) ws h rs ws' ∧ List.Forall₂ HTHolds vs' ws' := by
  obtain ⟨ws, hw⟩ := forall₂_choose (R := fun (m : HTMap H K V) l => ∃ k, m.Loose A k false l) fun m hm => htReachE_loose hA (hv m hm)
  obtain ⟨rs, vs', ws', h1, h2, h3⟩ := runHistory_loose (R := fun (m : HTMap H K V) l => ∃ k, m.Loose A k false l)
    (step := fun m (p : EqAnswers S H K V Q) => m.stepU A p.1.1 p.1.2.1 p.1.2.2)
    (allowed := fun l (p : EqAnswers S H K V Q) r f => HTAllowedU p.1 l r f)
    (fun m l p hl => by
      obtain ⟨k, hl⟩ := hl
      obtain ⟨r, e, f, g1, g2, g3⟩ := htEqAnswers_step hl p
      exact ⟨r, e, f, g1, g2, g3.imp fun _ _ h => ⟨k, h⟩⟩) h vs ws hw
  exact ⟨ws, rs, vs', ws', forall₂_imp (fun _ _ ⟨_, h⟩ => loose_htHolds h) hw, h1, h2, forall₂_imp (fun _ _ ⟨_, h⟩ => loose_htHolds h) h3⟩

/-- C55.  User code that keeps no state and does not panic: the operations are those of the other properties. -/
theorem C55_hash_map_no_panic (A : Arch) (hA : HTMap.StdWord A) (m : HTMap H K V) (hm : HTMap.ReachAny A Q m) (o : HashKeys H K Q) (s : S)
    (op : MapOp K V Q) : m.stepU A (HTUser.pure o) s op = (HTMap.step A o m op).map fun p => (some p.1, p.2) := by
  obtain ⟨k, l, hl⟩ := hm.loose hA
  exact hl.stepU_pure s op

/-- Equality that panics when the count down reaches zero; all keys have the hash `h k`. -/
def exHBomb (h : Nat → UInt64) : HTUser Nat Nat Nat Nat Nat where
  hashK s _ k := (some (h k), s)
  hashQ s _ k := (some (h k), s)
  eqK s a b := match s with | 0 => (none, 0) | s + 1 => (some (a == b), s)
  eqQ s a b := match s with | 0 => (none, 0) | s + 1 => (some (a == b), s)
  clone s _ := match s with | 0 => (none, 0) | s + 1 => (some (), s)

/-- The usual equality and the hash `h`. -/
def exHKeys (h : Nat → UInt64) : HashKeys Nat Nat Nat := ⟨id, fun _ k => h k, fun _ k => h k, (· == ·), (· == ·)⟩

theorem exHBomb_obeys (h : Nat → UInt64) : (exHBomb h).Obeys (exHKeys h) where
  eqK s a b := by cases s; exact .inl rfl; exact .inr rfl
  eqQ s a b := by cases s; exact .inl rfl; exact .inr rfl

/-- C55: pairs are lost (the reason why the history theorem excludes collisions).  In a map of three keys with the same hash, a panic in
the second comparison of `remove_mut(1)` leaves a map of size 3 that iterates over one pair only; when `remove_mut(1)` is then called
again, and nothing panics in user code, the library panics (`unreachable!`). -/
theorem C55_hash_map_panic_loses_pairs : (exHBomb fun _ => 7).Obeys (exHKeys fun _ => 7) ∧
    ∃ m m' : HTMap Nat Nat Nat, HTMap.fromIter dbg64 (exHKeys fun _ => 7) 0 [(1, 10), (2, 20), (3, 30)] = .ok m ∧
      HTMap.ReachAny dbg64 Nat m ∧ mapItems m = .ok [(3, 30), (2, 20), (1, 10)] ∧
      m.stepU dbg64 (exHBomb fun _ => 7) 1 (.removeMut 1) = .ok (none, .update m') ∧
      m'.getSize = 3 ∧ mapItems m' = .ok [(1, 10)] ∧
      m'.removeMut dbg64 (exHKeys fun _ => 7) 1 = .error .unreachable := by
  refine ⟨exHBomb_obeys _, ?_⟩
  have h1 : (HTMap.fromIter dbg64 (exHKeys fun _ => 7) 0 [(1, 10), (2, 20), (3, 30)]).bind (fun m => (mapItems m).bind fun l =>
      (m.stepU dbg64 (exHBomb fun _ => 7) 1 (.removeMut 1)).bind fun x => match x with
      | (none, .update m') => (mapItems m').map fun l' => (l, m'.getSize, l', match m'.removeMut dbg64 (exHKeys fun _ => 7) 1 with
        | .error .unreachable => true | _ => false)
      | _ => .error .diverge) = .ok ([(3, 30), (2, 20), (1, 10)], 3, [(1, 10)], true) := by decide +kernel
  cases hm : HTMap.fromIter dbg64 (exHKeys fun _ => 7) 0 [(1, 10), (2, 20), (3, 30)] with
  | error e => rw [hm] at h1; cases h1
  | ok m =>
    rw [hm] at h1
    simp only [Except.bind] at h1
    cases hi : mapItems m with
    | error e => rw [hi] at h1; cases h1
    | ok l =>
      rw [hi] at h1
      simp only at h1
      rcases hs : m.stepU dbg64 (exHBomb fun _ => 7) 1 (.removeMut 1) with e | ⟨_ | _, _ | m' | m'⟩ <;> rw [hs] at h1 <;>
        simp only [reduceCtorEq] at h1
      cases hi' : mapItems m' with
      | error e => rw [hi'] at h1; cases h1
      | ok l' =>
        rw [hi'] at h1
        simp only [Except.map, Except.ok.injEq, Prod.mk.injEq] at h1
        obtain ⟨rfl, h2, rfl, h3⟩ := h1
        refine ⟨m, m', rfl, .init ⟨_, .fromIter hm⟩, hi, hs, h2, hi', ?_⟩
        rcases hr : m'.removeMut dbg64 (exHKeys fun _ => 7) 1 with e | x
        · rw [hr] at h3; cases e <;> first | rfl | cases h3
        · rw [hr] at h3; cases h3

/-- All keys have the hash 7; equality gives the answers listed, whatever it is asked, and after that the right ones. -/
def exFickle : HTUser (List Bool) Nat Nat Nat Nat where
  hashK s _ _ := (some 7, s)
  hashQ s _ _ := (some 7, s)
  eqK s a b := match s with | [] => (some (a == b), []) | x :: s => (some x, s)
  eqQ s a b := match s with | [] => (some (a == b), []) | x :: s => (some x, s)
  clone s _ := (some (), s)

/-- C55: why `Eq` must not change its mind during an operation.  An insertion into the map `{1: 10}` in which the first of two comparisons
of the same keys says yes and the second says no makes a collision bucket above the maximum depth; the next insertion, with the right
answers, panics (`unreachable!`).  When the first says no and later ones say yes, the pair is replaced but counted: size 2, one pair. -/
theorem C55_hash_map_fickle_eq : ∃ m m1 m2 : HTMap Nat Nat Nat, HTMap.fromIter dbg64 (exHKeys fun _ => 7) 0 [(1, 10)] = .ok m ∧
    HTMap.ReachAny dbg64 Nat m ∧
    m.stepU dbg64 exFickle [true, false] (.insertMut 2 20) = .ok (some .unit, .update m1) ∧ mapItems m1 = .ok [(2, 20), (1, 10)] ∧
      m1.insertMut dbg64 (exHKeys fun _ => 7) 3 30 = .error .unreachable ∧
    m.stepU dbg64 exFickle [false, true, true] (.insertMut 2 20) = .ok (some .unit, .update m2) ∧ m2.getSize = 2 ∧
      mapItems m2 = .ok [(2, 20)] := by
  have h1 : (HTMap.fromIter dbg64 (exHKeys fun _ => 7) 0 [(1, 10)]).bind (fun m =>
      (m.stepU dbg64 exFickle [true, false] (.insertMut 2 20)).bind fun x =>
      (m.stepU dbg64 exFickle [false, true, true] (.insertMut 2 20)).bind fun y => match x, y with
      | (some .unit, .update m1), (some .unit, .update m2) => (mapItems m1).bind fun l1 => (mapItems m2).map fun l2 =>
        (l1, (match m1.insertMut dbg64 (exHKeys fun _ => 7) 3 30 with | .error .unreachable => true | _ => false), m2.getSize, l2)
      | _, _ => .error .diverge) = .ok ([(2, 20), (1, 10)], true, 2, [(2, 20)]) := by decide +kernel
  cases hm : HTMap.fromIter dbg64 (exHKeys fun _ => 7) 0 [(1, 10)] with
  | error e => rw [hm] at h1; cases h1
  | ok m =>
    rw [hm] at h1
    simp only [Except.bind] at h1
    rcases hs : m.stepU dbg64 exFickle [true, false] (.insertMut 2 20) with e | ⟨_ | r1, _ | m1 | m1⟩ <;> rw [hs] at h1 <;>
      rcases ht : m.stepU dbg64 exFickle [false, true, true] (.insertMut 2 20) with e | ⟨_ | r2, _ | m2 | m2⟩ <;> rw [ht] at h1 <;>
      simp only [reduceCtorEq] at h1 <;> cases r1 <;> try (simp only [reduceCtorEq] at h1; done)
    cases r2 <;> try (simp only [reduceCtorEq] at h1; done)
    simp only at h1
    cases hi : mapItems m1 with
    | error e => rw [hi] at h1; cases h1
    | ok l1 =>
      cases hj : mapItems m2 with
      | error e => rw [hi, hj] at h1; cases h1
      | ok l2 =>
        rw [hi, hj] at h1
        simp only [Except.map, Except.ok.injEq, Prod.mk.injEq] at h1
        obtain ⟨rfl, h2, h3, rfl⟩ := h1
        refine ⟨m, m1, m2, rfl, .init ⟨_, .fromIter hm⟩, hs, hi, ?_, ht, h3, hj⟩
        rcases hr : m1.insertMut dbg64 (exHKeys fun _ => 7) 3 30 with e | x
        · rw [hr] at h2; cases e <;> first | rfl | cases h2
        · rw [hr] at h2; cases h2

/-- Small keys, hashed to themselves. -/
def exCall (s : Nat) (op : MapOp Nat Nat Nat) (h : ∀ key v, op = .insert key v ∨ op = .insertMut key v → key < 100) :
    NoCollision (H := Nat) Nat Nat Nat (fun _ k => UInt64.ofNat k) (· < 100) :=
  ⟨(exHBomb UInt64.ofNat, s, op), exHKeys UInt64.ofNat, exHBomb_obeys _,
    fun _ a b ha hb h => by
      have := congrArg UInt64.toNat h
      simp only [UInt64.toNat_ofNat'] at this
      simp only [exHKeys, beq_iff_eq]
      omega,
    fun _ _ _ => .inr rfl, h⟩

theorem exHTU {β : Type} (f : HTMap Nat Nat Nat → Res β) (b : β) (h : (HTMap.newWithDegree dbg64 0 4).bind f = .ok b) :
    ∃ m : HTMap Nat Nat Nat, HTReachU dbg64 Nat Nat (fun _ k => UInt64.ofNat k) (· < 100) m ∧ f m = .ok b := by
  cases hm : (HTMap.newWithDegree dbg64 0 4 : Res (HTMap Nat Nat Nat)) with
  | error e => rw [hm] at h; cases h
  | ok m => rw [hm] at h; exact ⟨m, .init (.inl ⟨0, 4, by omega, hm⟩), h⟩

/-- Panics in comparisons and in `Clone` inside `get_mut`, and calls that finish. -/
example : ∃ m : HTMap Nat Nat Nat, HTReachU dbg64 Nat Nat (fun _ k => UInt64.ofNat k) (· < 100) m ∧
    (runHistory (fun m (p : NoCollision Nat Nat Nat (fun _ k => UInt64.ofNat k) (· < 100)) => m.stepU dbg64 p.1.1 p.1.2.1 p.1.2.2) [m]
      [(0, exCall 9 (.insertMut 1 10) (by simp)), (0, exCall 9 (.insertMut 17 20) (by simp)), (0, exCall 0 (.removeMut 1) (by simp)),
       (0, exCall 0 (.insertMut 17 30) (by simp)), (0, exCall 1 (.getMut 17 (· + 1)) (by simp)), (0, exCall 9 (.get 17) (by simp)),
       (0, exCall 9 .size (by simp))] >>= fun p => (p.2.mapM mapItems).map fun l => (p.1, l)) =
      .ok ([some (some .unit), some (some .unit), some none, some none, some none, some (some (.optV (some 20))), some (some (.nat 2))],
        [[(1, 10), (17, 20)]]) :=
  exHTU _ _ (by decide +kernel)

/-- All keys collide; `Hash` and `Clone` panic when the count down reaches zero. -/
def exEqCall (s : Nat) (op : MapOp Nat Nat Nat) : EqAnswers Nat Nat Nat Nat Nat :=
  ⟨({ hashK := fun s _ _ => match s with | 0 => (none, 0) | s + 1 => (some 7, s)
      hashQ := fun s _ _ => match s with | 0 => (none, 0) | s + 1 => (some 7, s)
      eqK := fun s a b => (some (a == b), s)
      eqQ := fun s a b => (some (a == b), s)
      clone := fun s _ => match s with | 0 => (none, 0) | s + 1 => (some (), s) }, s, op),
    exHKeys fun _ => 7, fun _ _ _ => rfl, fun _ _ _ => rfl⟩

theorem exHTE {β : Type} (f : HTMap Nat Nat Nat → Res β) (b : β) (h : (HTMap.newWithDegree dbg64 0 4).bind f = .ok b) :
    ∃ m : HTMap Nat Nat Nat, HTReachE dbg64 Nat Nat m ∧ f m = .ok b := by
  cases hm : (HTMap.newWithDegree dbg64 0 4 : Res (HTMap Nat Nat Nat)) with
  | error e => rw [hm] at h; cases h
  | ok m => rw [hm] at h; exact ⟨m, .init (.inl ⟨0, 4, by omega, hm⟩), h⟩

/-- Panics in `Hash` and in `Clone` inside `get_mut` of a collision: the pair written to has moved to the front, none is lost. -/
example : ∃ m : HTMap Nat Nat Nat, HTReachE dbg64 Nat Nat m ∧
    (runHistory (fun m (p : EqAnswers Nat Nat Nat Nat Nat) => m.stepU dbg64 p.1.1 p.1.2.1 p.1.2.2) [m]
      [(0, exEqCall 9 (.insertMut 1 10)), (0, exEqCall 9 (.insertMut 2 20)), (0, exEqCall 9 (.insertMut 3 30)),
       (0, exEqCall 0 (.removeMut 1)), (0, exEqCall 1 (.getMut 2 (· + 1))), (0, exEqCall 9 .size)] >>=
        fun p => (p.2.mapM mapItems).map fun l => (p.1, l)) =
      .ok ([some (some .unit), some (some .unit), some (some .unit), some none, some none, some (some (.nat 3))],
        [[(2, 20), (3, 30), (1, 10)]]) :=
  exHTE _ _ (by decide +kernel)

end Rpds.Props
