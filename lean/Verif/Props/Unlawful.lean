import Verif.Props.RedBlack
import Verif.RedBlack.UnlawfulIter
import Verif.HashTrie.Unlawful
/-
Property C54: keys whose `Ord`, `Eq` and `Hash` keep no law.

The documentation of Rust allows a collection to do anything but undefined behaviour when the comparisons of its keys contradict each
other.  The maps of this library keep much more.  Each operation comes with its own comparison functions, all arbitrary: they need not
be consistent with each other, nor with those of the next operation (as when keys change through a `Cell`).
-/
set_option autoImplicit false
namespace Rpds.Props
open Spec
variable {H K V Q T S : Type}

theorem forall₂_imp {α β : Type} {R S : α → β → Prop} (hi : ∀ a b, R a b → S a b) {l : List α} {l' : List β} (h : List.Forall₂ R l l') :
    List.Forall₂ S l l' := by
  induction h with
  | nil => exact .nil
  | cons h1 _ ih => exact .cons (hi _ _ h1) ih

/-! ### Red-black tree maps -/

/-- What a program sees of a map: its size is the number of pairs, iterating it to the end in either direction gives the pairs; and
the tree is balanced. -/
structure RBHolds (A : Arch) (m : RBMap K V) (l : List (K × V)) : Prop where
  size : m.getSize = l.length
  forward : RBMap.Fits A m → ∀ (Q : Type) (o : OrdKeys K Q), rbItems A o m = .ok l
  backward : RBMap.Fits A m → ∀ (Q : Type) (o : OrdKeys K Q), drain (RBMap.iterNextBack A o) (m.getSize + 1) m.iter = .ok l.reverse
  balanced : pathLen m.root ≤ 2 * Nat.log2 (m.getSize + 1)
  noRedRed : ∀ p ∈ paths m.root, noAdjacentRed p = true
  sameBlack : ∃ n, ∀ p ∈ paths m.root, p.count .black = n

theorem loose_rbHolds {A : Arch} {m : RBMap K V} {l : List (K × V)} (h : m.Loose l) : RBHolds A m l := by
  obtain ⟨n, hn⟩ := h.shape.bh
  refine ⟨h.size, fun hf Q o => ?_, fun hf Q o => ?_, ?_, paths_noRR _ h.shape.noRR, ⟨n, paths_black _ n hn⟩⟩
  · exact (h.iterDrives hf o).drain (by simp [RBMap.getSize, h.size])
  · exact (h.iterDrivesBack hf o).drain (by simp [RBMap.getSize, h.size])
  · rw [pathLen_eq]; exact h.fits_height

/-- C54.  Histories of operations on red-black tree maps, each with arbitrary comparison functions of its own, never panic; the
contents stay a list of pairs changed by one pair at a time, and answers are pairs of the contents that the comparison of the moment
found equal to the key. -/
theorem C54_rb_map_unlawful (A : Arch) (vs : List (RBMap K V)) (hv : ∀ m ∈ vs, RBMap.ReachAny A Q m)
    (h : List (Nat × (OrdKeys K Q × MapOp K V Q))) :
    ∃ ws rs vs' ws', List.Forall₂ (RBHolds A) vs ws ∧
      runHistory (fun m (p : OrdKeys K Q × MapOp K V Q) => RBMap.step A p.1 m p.2) vs h = .ok (rs, vs') ∧
      LooseHistory (fun l (p : OrdKeys K Q × MapOp K V Q) => LooseStep (fun stored new => p.1.cmpK new stored == .eq) p.1.hits l p.2)
        ws h rs ws' ∧
      List.Forall₂ (RBHolds A) vs' ws' := by
  obtain ⟨ws, hw⟩ := forall₂_choose (R := fun (m : RBMap K V) l => m.Loose l) fun m hm => (hv m hm).loose
  obtain ⟨rs, vs', ws', h1, h2, h3⟩ := runHistory_loose (R := fun (m : RBMap K V) l => m.Loose l)
    (step := fun m (p : OrdKeys K Q × MapOp K V Q) => RBMap.step A p.1 m p.2)
    (allowed := fun l (p : OrdKeys K Q × MapOp K V Q) => LooseStep (fun stored new => p.1.cmpK new stored == .eq) p.1.hits l p.2)
    (fun m l p hl => hl.step A p.1 p.2) h vs ws hw
  exact ⟨ws, rs, vs', ws', forall₂_imp (fun _ _ h => loose_rbHolds h) hw, h1, h2, forall₂_imp (fun _ _ h => loose_rbHolds h) h3⟩

/-- The front, or back, answers of calls of `next` and `next_back`. -/
def answersOf (c : End) (cs : List End) (xs : List (Option (K × V))) : List (K × V) :=
  ((cs.zip xs).filter fun p => p.1 == c).filterMap (·.2)

theorem answersOf_eq (c : End) (cs : List End) (xs : List (Option (K × V))) : answersOf c cs xs = RBRangeIter.answersAt c cs xs := by
  induction cs generalizing xs with
  | nil => rfl
  | cons c' cs ih =>
    cases xs with
    | nil => rfl
    | cons x xs =>
      have ih := ih xs
      simp only [answersOf] at ih
      simp only [answersOf, RBRangeIter.answersAt, List.zip_cons_cons, List.filter_cons]
      by_cases hc : c' = c
      · subst hc
        simp only [beq_self_eq_true, if_true, List.filterMap_cons, ih]
        cases x <;> rfl
      · have : (c' == c) = false := by simpa using hc
        simp [this, hc, ih]

/-- C54.  Iterators and ranges with arbitrary comparison functions: no sequence of calls panics, `next` gives pairs of the map in the
order of iteration and `next_back` in the opposite order, without repetition on one side, and together no more than the size; a range
panics only by the documented check of its bounds. -/
theorem C54_rb_map_unlawful_iterators (A : Arch) (m : RBMap K V) (hm : RBMap.ReachAny A Q m) (hf : RBMap.Fits A m) (o : OrdKeys K Q) :
    ∃ items, rbItems A o m = .ok items ∧
      (∀ cs, ∃ xs it', deAnswers (RBMap.iterNext A o) (RBMap.iterNextBack A o) cs m.iter = .ok (xs, it') ∧
        (answersOf .front cs xs).Sublist items ∧ (answersOf .back cs xs).Sublist items.reverse ∧
        (answersOf .front cs xs).length + (answersOf .back cs xs).length ≤ m.getSize) ∧
      ∀ start end_ : Bound Q,
        ((RBMap.bothExcludedEqual o start end_ = true ∨ RBMap.startAfterEnd o start end_ = true) ∧ m.range o start end_ = .error .assertFailed) ∨
        ∃ it, m.range o start end_ = .ok it ∧ ∀ (o' : OrdKeys K Q) cs,
          ∃ xs it', deAnswers (RBRangeIter.next A o') (RBRangeIter.nextBack A o') cs it = .ok (xs, it') ∧
            (answersOf .front cs xs).Sublist items ∧ (answersOf .back cs xs).Sublist items.reverse := by
  obtain ⟨l, hl⟩ := hm.loose
  refine ⟨l, (loose_rbHolds hl).forward hf Q o, fun cs => ?_, fun start end_ => ?_⟩
  · obtain ⟨xs, it', h1, h2, h3, h4⟩ := RBIter.deAnswers_loose o cs (hl.iterRel hf)
    refine ⟨xs, it', ?_, by rwa [answersOf_eq], by rwa [answersOf_eq], by rw [answersOf_eq, answersOf_eq]; exact h4⟩
    have e1 : RBMap.iterNext A o = RBIter.next (V := V) A o := by
      funext it
      simp only [RBMap.iterNext, RBIter.mapNext]
      cases RBIter.next A o it with
      | error e => rfl
      | ok p => obtain ⟨x, it⟩ := p; cases x <;> rfl
    have e2 : RBMap.iterNextBack A o = RBIter.nextBack (V := V) A o := by
      funext it
      simp only [RBMap.iterNextBack, RBIter.mapNextBack]
      cases RBIter.nextBack A o it with
      | error e => rfl
      | ok p => obtain ⟨x, it⟩ := p; cases x <;> rfl
    rw [e1, e2]; exact h1
  · by_cases h1 : RBMap.bothExcludedEqual o start end_ = true
    · exact .inl ⟨.inl h1, by simp [RBMap.range, h1]⟩
    · by_cases h2 : RBMap.startAfterEnd o start end_ = true
      · exact .inl ⟨.inr h2, by simp [RBMap.range, h1, h2]⟩
      · refine .inr ⟨RBRangeIter.new m start end_, by simp [RBMap.range, h1, h2], fun o' cs => ?_⟩
        have := RBRangeIter.new_looseRel (A := A) (start := start) (end_ := end_) hf.word hf.size
        rw [hl.list] at this
        obtain ⟨xs, it', g1, g2, g3⟩ := RBRangeIter.deAnswers_loose o' cs this
        exact ⟨xs, it', g1, by rwa [answersOf_eq], by rwa [answersOf_eq]⟩

/-- C54.  Comparing, hashing, displaying and collecting maps with arbitrary comparison functions never panics, and depends on the pairs
in the order of iteration only. -/
theorem C54_rb_map_unlawful_compare (A : Arch) (m m' : RBMap K V) (hm : RBMap.ReachAny A Q m) (hm' : RBMap.ReachAny A Q m') (hf : RBMap.Fits A m)
    (hf' : RBMap.Fits A m') (o : OrdKeys K Q) (eqV : V → V → Bool) (cmpV : V → V → Ordering) (pcmpV : V → V → Option Ordering)
    (hashUsize : S → Nat → S) (hashK : S → K → S) (hashV : S → V → S) (st : S) (fk : K → String) (fv : V → String) :
    ∃ items items', rbItems A o m = .ok items ∧ rbItems A o m' = .ok items' ∧
      (∀ p, ∃ b, m.eq A o eqV p m' = .ok b) ∧
      m.cmp A o cmpV m' = .ok (lexCmp (RBMap.cmpPair o cmpV) items items') ∧
      m.partialCmp A o pcmpV m' = .ok (lexPartialCmp (RBMap.partialCmpPair o pcmpV) items items') ∧
      m.hash A o hashUsize hashK hashV st = .ok (items.foldl (fun s e => hashV (hashK s e.1) e.2) (hashUsize st items.length)) ∧
      m.display A o fk fv = .ok (bracketed "{" "}" (items.map fun kv => fk kv.1 ++ ": " ++ fv kv.2)) ∧
      m.serialize A o = .ok items ∧ ∀ kvs, ∃ m'', m.insertAll o kvs = .ok m'' := by
  obtain ⟨l, hl⟩ := hm.loose
  obtain ⟨l', hl'⟩ := hm'.loose
  have d := hl.iterDrives hf o
  have d' := hl'.iterDrives hf' o
  have hs : l.length < m.size + 1 := by rw [hl.size]; omega
  refine ⟨l, l', (loose_rbHolds hl).forward hf Q o, (loose_rbHolds hl').forward hf' Q o, fun p => ?_, d.iterCmp d' hs,
    d.iterPartialCmp d' hs, ?_, ?_, d.drain hs, fun kvs => ?_⟩
  · cases p with
    | true => exact ⟨true, rfl⟩
    | false =>
      simp only [RBMap.eq, Bool.false_eq_true, if_false]
      split
      · exact ⟨_, d.iterAll (q := fun kv => match m'.get o.self kv.1 with | none => false | some v => eqV kv.2 v) (fun kv _ => by cases m'.get o.self kv.1 <;> rfl) hs⟩
      · exact ⟨false, rfl⟩
  · rw [RBMap.hash, RBMap.getSize, ← hl.size]; exact d.iterHash _ hs
  · simp only [RBMap.display]
    rw [d.iterDisplay _ hs]
    rfl
  · obtain ⟨m'', _, h1, _⟩ := hl.insertAll o kvs
    exact ⟨m'', h1⟩

/-- An order that contradicts itself: everything is less than everything, also than itself. -/
def exLess : OrdKeys Nat Nat := ⟨fun _ _ => .lt, fun _ _ => .lt, fun _ _ => false, id⟩
/-- The usual order. -/
def exUsual : OrdKeys Nat Nat := ⟨fun a b => compare a b, fun a b => compare a b, fun a b => a == b, id⟩

/-- For examples: what is computed from a collected map is computed from a reachable map that fits. -/
theorem exRBAny {β : Type} (o : OrdKeys Nat Nat) (kvs : List (Nat × Nat)) (f : RBMap Nat Nat → Res β) (b : β)
    (h : (RBMap.fromIter o kvs).bind (fun m => if m.size < 100 then f m else .error .diverge) = .ok b) :
    ∃ m, RBMap.fromIter o kvs = .ok m ∧ RBMap.ReachAny dbg64 Nat m ∧ RBMap.Fits dbg64 m ∧ f m = .ok b := by
  cases hm : RBMap.fromIter o kvs with
  | error e => rw [hm] at h; cases h
  | ok m =>
    rw [hm] at h
    simp only [Except.bind] at h
    split at h
    · rename_i hs
      exact ⟨m, rfl, .init ⟨o, .fromIter hm⟩, ⟨by decide, Nat.lt_of_lt_of_le (by omega : m.size + 1 < 200) (by decide)⟩, h⟩
    · cases h

/-- Two orders in one map: key 2 is stored twice, then not found by one order and found and removed by the other. -/
example : ∃ m, RBMap.fromIter exUsual [(1, 10), (2, 20)] = .ok m ∧ RBMap.ReachAny dbg64 Nat m ∧ RBMap.Fits dbg64 m ∧
    (runHistory (fun m (p : OrdKeys Nat Nat × MapOp Nat Nat Nat) => RBMap.step dbg64 p.1 m p.2) [m]
      [(0, exLess, .insertMut 2 21), (0, exUsual, .size), (0, exUsual, .get 2), (0, exLess, .get 2), (0, exUsual, .removeMut 2),
       (0, exUsual, .get 2), (0, exUsual, .size)] >>= fun p => (p.2.mapM (rbItems dbg64 exUsual)).map fun l => (p.1, l)) =
      .ok ([some .unit, some (.nat 3), some (.optV (some 20)), some (.optV none), some (.bool true), some (.optV none), some (.nat 2)],
        [[(2, 21), (1, 10)]]) :=
  exRBAny _ _ _ _ (by decide +kernel)

/-- An order that contradicts itself: everything is greater than everything. -/
def exGreater : OrdKeys Nat Nat := ⟨fun _ _ => .gt, fun _ _ => .gt, fun _ _ => false, id⟩

/-- An iterator used at both ends with such an order may end early. -/
example : ∃ m, RBMap.fromIter exLess [(1, 10), (2, 20), (3, 30)] = .ok m ∧ RBMap.ReachAny dbg64 Nat m ∧ RBMap.Fits dbg64 m ∧
    (do let i ← rbItems dbg64 exGreater m
        let (xs, _) ← deAnswers (RBMap.iterNext dbg64 exGreater) (RBMap.iterNextBack dbg64 exGreater) [.back, .front, .front, .back] m.iter
        pure (i, xs)) = .ok ([(3, 30), (2, 20), (1, 10)], [some (1, 10), none, none, none]) :=
  exRBAny _ _ _ _ (by decide +kernel)

/-! ### Hash trie maps -/

/-- What a program sees of a map: its size is the number of pairs, and iterating it to the end gives the pairs. -/
structure HTHolds (m : HTMap H K V) (l : List (K × V)) : Prop where
  size : m.getSize = l.length
  items : mapItems m = .ok l
  answers : ∀ n, fwCalls HTMap.iterNext HIter.sizeHint n m.iter = .ok (fwRun l n)

theorem loose_htHolds {A : Arch} {k : Nat} {z : Bool} {m : HTMap H K V} {l : List (K × V)} (h : m.Loose A k z l) : HTHolds m l := by
  refine ⟨h.size, h.drives.drain (by simp [HTMap.getSize, h.size]), fun n => ?_⟩
  have := h.iter.calls (HTMap.pair (K := K) (V := V)) n
  rw [h.list] at this
  exact this

/-- C54.  Histories of operations on hash trie maps, each with arbitrary equality and hash functions of its own, never panic; the
contents stay a list of pairs changed by one pair at a time, and answers are pairs of the contents that the equality of the moment found
equal to the key. -/
theorem C54_hash_map_unlawful (A : Arch) (hA : HTMap.StdWord A) (vs : List (HTMap H K V)) (hv : ∀ m ∈ vs, HTMap.ReachAny A Q m)
    (h : List (Nat × (HashKeys H K Q × MapOp K V Q))) :
    ∃ ws rs vs' ws', List.Forall₂ HTHolds vs ws ∧
      runHistory (fun m (p : HashKeys H K Q × MapOp K V Q) => HTMap.step A p.1 m p.2) vs h = .ok (rs, vs') ∧
      LooseHistory (fun l (p : HashKeys H K Q × MapOp K V Q) => LooseStep p.1.eqK p.1.eqKQ l p.2) ws h rs ws' ∧
      List.Forall₂ HTHolds vs' ws' := by
  obtain ⟨ws, hw⟩ := forall₂_choose (R := fun (m : HTMap H K V) l => ∃ k, m.Loose A k true l) fun m hm => by
    obtain ⟨k, l, hl⟩ := (hv m hm).loose hA
    exact ⟨l, k, hl⟩
  obtain ⟨rs, vs', ws', h1, h2, h3⟩ := runHistory_loose (R := fun (m : HTMap H K V) l => ∃ k, m.Loose A k true l)
    (step := fun m (p : HashKeys H K Q × MapOp K V Q) => HTMap.step A p.1 m p.2)
    (allowed := fun l (p : HashKeys H K Q × MapOp K V Q) => LooseStep p.1.eqK p.1.eqKQ l p.2)
    (fun m l p hl => by
      obtain ⟨k, hl⟩ := hl
      obtain ⟨r, e, f, h1, h2, h3⟩ := hl.step p.1 p.2
      exact ⟨r, e, f, h1, h2, h3.imp fun _ _ h => ⟨k, h⟩⟩) h vs ws hw
  exact ⟨ws, rs, vs', ws', forall₂_imp (fun _ _ ⟨_, h⟩ => loose_htHolds h) hw, h1, h2, forall₂_imp (fun _ _ ⟨_, h⟩ => loose_htHolds h) h3⟩

/-- C54.  Comparing, displaying and collecting maps with arbitrary equality and hash functions never panics. -/
theorem C54_hash_map_unlawful_compare (A : Arch) (hA : HTMap.StdWord A) (m m' : HTMap H K V) (hm : HTMap.ReachAny A Q m)
    (hm' : HTMap.ReachAny A Q m') (o : HashKeys H K Q) (eqV : V → V → Bool) (fk : K → String) (fv : V → String) :
    ∃ items, mapItems m = .ok items ∧ (∀ p, ∃ b, m.eq A o eqV p m' = .ok b) ∧
      m.display fk fv = .ok (bracketed "{" "}" (items.map fun kv => fk kv.1 ++ ": " ++ fv kv.2)) ∧
      m.serialize = .ok items ∧ (∀ kvs, ∃ m'', m.insertAll A o kvs = .ok m'') ∧
      ∀ (hasher : H) (kvs : List (K × V)), ∃ m'', HTMap.fromIter A o hasher kvs = .ok m'' := by
  obtain ⟨k, l, hl⟩ := hm.loose hA
  obtain ⟨k', l', hl'⟩ := hm'.loose hA
  have hs : l.length < m.size + 1 := by rw [hl.size]; omega
  refine ⟨l, (loose_htHolds hl).items, fun p => ?_, ?_, hl.drives.drain hs, fun kvs => ?_, fun hasher kvs => ?_⟩
  · cases p with
    | true => exact ⟨true, rfl⟩
    | false =>
      simp only [HTMap.eq, Bool.false_eq_true, if_false]
      split
      · refine ⟨_, hl.drives.iterAll (q := fun kv => match m'.get A o.self kv.1 with | .ok (some v) => eqV kv.2 v | _ => false) ?_ hs⟩
        intro kv _
        obtain ⟨oe, h1, _⟩ := hl'.lookup o.self kv.1
        simp only [HTMap.get, h1, Res.ok_bind, Res.pure_eq]
        cases oe <;> rfl
      · exact ⟨false, rfl⟩
  · simp only [HTMap.display]
    rw [hl.drives.iterDisplay _ hs]
    rfl
  · obtain ⟨m'', _, h1, _⟩ := hl.insertAll o kvs
    exact ⟨m'', h1⟩
  · obtain ⟨k, m0, h1, h2⟩ := HTMap.new_loose (K := K) (V := V) hA hasher
    obtain ⟨m'', _, h3, _⟩ := h2.insertAll o kvs
    exact ⟨m'', by simp only [HTMap.fromIter, h1, Res.ok_bind, h3]⟩

/-- Keys that are never equal, not even to themselves, and all have the same hash. -/
def exNever : HashKeys Nat Nat Nat := ⟨id, fun _ _ => 7, fun _ _ => 7, fun _ _ => false, fun _ _ => false⟩
/-- Keys that are all equal, with a hash that tells them apart. -/
def exAlways : HashKeys Nat Nat Nat := ⟨id, fun _ k => k.toUInt64, fun _ k => k.toUInt64, fun _ _ => true, fun _ _ => true⟩
/-- Keys that are all equal and have the same hash. -/
def exOne : HashKeys Nat Nat Nat := ⟨id, fun _ _ => 7, fun _ _ => 7, fun _ _ => true, fun _ _ => true⟩

/-- For examples: what is computed from a collected map is computed from a reachable map. -/
theorem exHTAny {β : Type} (o : HashKeys Nat Nat Nat) (kvs : List (Nat × Nat)) (f : HTMap Nat Nat Nat → Res β) (b : β)
    (h : (HTMap.fromIter dbg64 o 0 kvs).bind f = .ok b) :
    ∃ m, HTMap.fromIter dbg64 o 0 kvs = .ok m ∧ HTMap.ReachAny dbg64 Nat m ∧ f m = .ok b := by
  cases hm : HTMap.fromIter dbg64 o 0 kvs with
  | error e => rw [hm] at h; cases h
  | ok m =>
    rw [hm] at h
    exact ⟨m, rfl, .init ⟨o, .fromIter hm⟩, h⟩

/-- Three pairs with the same key in one map, because the key is not equal to itself; another equality finds one of them, another hash
none; and two keys found equal are both stored when their hashes differ. -/
example : ∃ m, HTMap.fromIter dbg64 exNever 0 [(1, 10), (1, 11), (2, 20)] = .ok m ∧ HTMap.ReachAny dbg64 Nat m ∧
    (runHistory (fun m (p : HashKeys Nat Nat Nat × MapOp Nat Nat Nat) => HTMap.step dbg64 p.1 m p.2) [m]
      [(0, exNever, .get 1), (0, exOne, .get 1), (0, exAlways, .get 1), (0, exOne, .removeMut 5), (0, exAlways, .insertMut 7 70),
       (0, exAlways, .insertMut 8 80), (0, exNever, .size)] >>= fun p => (p.2.mapM mapItems).map fun l => (p.1, l)) =
      .ok ([some (.optV none), some (.optV (some 20)), some (.optV none), some (.bool true), some .unit, some .unit, some (.nat 3)],
        [[(7, 70), (1, 10), (8, 80)]]) :=
  exHTAny _ _ _ _ (by decide +kernel)

/-! ### Sets -/

theorem rbDisjointLoop_ok {A : Arch} (o : OrdKeys T Q) (fuel : Nat) : ∀ {i j : RBIter T Unit} {x y : List T} (v u : Option T),
    Drives (RBSet.iterNext A o) i x → Drives (RBSet.iterNext A o) j y → 1 ≤ fuel →
    (v.isSome = true → u.isSome = true → x.length + y.length + 2 ≤ fuel) → ∃ b, RBSet.disjointLoop A o fuel i j v u = .ok b := by
  induction fuel with
  | zero => intro _ _ _ _ _ _ _ _ h; omega
  | succ fuel ih =>
    intro i j x y v u hi hj _ hfu
    cases v with
    | none => exact ⟨true, rfl⟩
    | some v =>
      cases u with
      | none => exact ⟨true, rfl⟩
      | some u =>
        have hfu := hfu rfl rfl
        rw [RBSet.disjointLoop]
        cases o.cmpK v u with
        | eq => exact ⟨false, rfl⟩
        | lt =>
          cases hi with
          | @nil _ s' h =>
            obtain ⟨b, hb⟩ := ih (i := i) (j := j) (x := []) none (some u) (.nil h) hj (by omega) (by simp)
            obtain ⟨b', hb'⟩ : ∃ b, RBSet.disjointLoop A o fuel s' j none (some u) = .ok b := by
              cases fuel with
              | zero => omega
              | succ n => exact ⟨true, rfl⟩
            exact ⟨b', by simp only [h, Res.ok_bind]; exact hb'⟩
          | @cons _ i' a x' h h' =>
            simp only [List.length_cons] at hfu
            obtain ⟨b, hb⟩ := ih (some a) (some u) h' hj (by omega) (fun _ _ => by omega)
            exact ⟨b, by simp only [h, Res.ok_bind]; exact hb⟩
        | gt =>
          cases hj with
          | @nil _ s' h =>
            obtain ⟨b', hb'⟩ : ∃ b, RBSet.disjointLoop A o fuel i s' (some v) none = .ok b := by
              cases fuel with
              | zero => omega
              | succ n => exact ⟨true, rfl⟩
            exact ⟨b', by simp only [h, Res.ok_bind]; exact hb'⟩
          | @cons _ j' a y' h h' =>
            simp only [List.length_cons] at hfu
            obtain ⟨b, hb⟩ := ih (some v) (some a) hi h' (by omega) (fun _ _ => by omega)
            exact ⟨b, by simp only [h, Res.ok_bind]; exact hb⟩

theorem rbSubsetInner_ok {A : Arch} (o : OrdKeys T Q) (v : T) (fuel : Nat) : ∀ {j : RBIter T Unit} {y : List T},
    Drives (RBSet.iterNext A o) j y → y.length < fuel →
    ∃ r, RBSet.subsetInner A o v fuel j = .ok r ∧ ∀ j', r = some j' → ∃ y', Drives (RBSet.iterNext A o) j' y' ∧ y'.length ≤ y.length := by
  induction fuel with
  | zero => intro _ _ _ h; omega
  | succ fuel ih =>
    intro j y hj hfu
    rw [RBSet.subsetInner]
    cases hj with
    | nil h => exact ⟨none, by simp only [h, Res.ok_bind]; rfl, fun _ h => by cases h⟩
    | @cons _ j' u y' h h' =>
      simp only [List.length_cons] at hfu
      simp only [h, Res.ok_bind]
      cases o.cmpK u v with
      | lt =>
        obtain ⟨r, h1, h2⟩ := ih h' (by omega)
        refine ⟨r, h1, fun j' hj' => ?_⟩
        obtain ⟨y', h3, h4⟩ := h2 j' hj'
        exact ⟨y', h3, by simp only [List.length_cons]; omega⟩
      | eq => exact ⟨some j', rfl, fun _ he => by cases he; exact ⟨y', h', by simp⟩⟩
      | gt => exact ⟨none, rfl, fun _ h => by cases h⟩

theorem rbSubsetLoop_ok {A : Arch} (o : OrdKeys T Q) (n fuel : Nat) : ∀ {i j : RBIter T Unit} {x y : List T},
    Drives (RBSet.iterNext A o) i x → Drives (RBSet.iterNext A o) j y → x.length < fuel → y.length ≤ n →
    ∃ b, RBSet.subsetLoop A o n fuel i j = .ok b := by
  induction fuel with
  | zero => intro _ _ _ _ _ _ h; omega
  | succ fuel ih =>
    intro i j x y hi hj hx hy
    rw [RBSet.subsetLoop]
    cases hi with
    | nil h => exact ⟨true, by simp only [h, Res.ok_bind]; rfl⟩
    | @cons _ i' v x' h h' =>
      simp only [List.length_cons] at hx
      obtain ⟨r, h1, h2⟩ := rbSubsetInner_ok o v (n + 1) hj (by omega)
      simp only [h, Res.ok_bind, h1]
      cases r with
      | none => exact ⟨false, rfl⟩
      | some j' =>
        obtain ⟨y', h3, h4⟩ := h2 j' rfl
        exact ih h' h3 (by omega) (by omega)

/-- All sets a program can obtain when every operation may compare elements in its own way. -/
abbrev RBSetReachAny (A : Arch) (Q : Type) (s : RBSet T) : Prop :=
  Reachable (fun s => ∃ o : OrdKeys T Q, RBSet.Init o s) (fun s (p : OrdKeys T Q × SetOp T Q) => RBSet.step A p.1 s p.2) s

theorem rbSet_step_loose (A : Arch) {s : RBSet T} {l : List (T × Unit)} (h : s.map.Loose l) (o : OrdKeys T Q) (op : SetOp T Q) :
    ∃ r e, s.step A o op = .ok (r, e) ∧ ∀ s', e = .fresh s' ∨ e = .update s' → ∃ l', s'.map.Loose l' := by
  cases op with
  | insert v =>
    obtain ⟨m', l', h1, h2, _⟩ := h.insertMut o v ()
    refine ⟨.unit, .fresh ⟨m'⟩, by simp [RBSet.step, RBSet.insert, RBMap.insert, RBMap.clone_eq, h1], ?_⟩
    rintro s' (h | h) <;> cases h
    exact ⟨l', h2⟩
  | insertMut v =>
    obtain ⟨m', l', h1, h2, _⟩ := h.insertMut o v ()
    refine ⟨.unit, .update ⟨m'⟩, by simp [RBSet.step, RBSet.insertMut, h1], ?_⟩
    rintro s' (h | h) <;> cases h
    exact ⟨l', h2⟩
  | remove q =>
    obtain ⟨b, m', l', h1, h2, _⟩ := h.removeMut A o q
    refine ⟨.unit, .fresh ⟨if b then m' else s.map⟩, by simp [RBSet.step, RBSet.remove, RBMap.remove, RBMap.clone_eq, h1], ?_⟩
    rintro s' (g | g) <;> cases g
    cases b
    · exact ⟨l, h⟩
    · exact ⟨l', h2⟩
  | removeMut q =>
    obtain ⟨b, m', l', h1, h2, _⟩ := h.removeMut A o q
    refine ⟨.bool b, .update ⟨m'⟩, by simp [RBSet.step, RBSet.removeMut, h1], ?_⟩
    rintro s' (g | g) <;> cases g
    exact ⟨l', h2⟩
  | clone =>
    refine ⟨.unit, .fresh s.clone, rfl, ?_⟩
    rintro s' (g | g) <;> cases g
    exact ⟨l, h⟩
  | get q => exact ⟨_, .keep, rfl, by rintro s' (g | g) <;> cases g⟩
  | contains q => exact ⟨_, .keep, rfl, by rintro s' (g | g) <;> cases g⟩
  | size => exact ⟨_, .keep, rfl, by rintro s' (g | g) <;> cases g⟩
  | isEmpty => exact ⟨_, .keep, rfl, by rintro s' (g | g) <;> cases g⟩

theorem rbSet_insertAll_loose {s : RBSet T} {l : List (T × Unit)} (h : s.map.Loose l) (o : OrdKeys T Q) (vs : List T) :
    ∃ s' l', s.insertAll o vs = .ok s' ∧ s'.map.Loose l' := by
  induction vs generalizing s l with
  | nil => exact ⟨s, l, rfl, h⟩
  | cons v vs ih =>
    obtain ⟨m', l', h1, h2, _⟩ := h.insertMut o v ()
    obtain ⟨s'', l'', h3, h4⟩ := ih (s := ⟨m'⟩) h2
    exact ⟨s'', l'', by simp only [RBSet.insertAll, RBSet.insertMut, h1, Res.ok_bind, Res.pure_eq]; exact h3, h4⟩

theorem rbSet_visitLoop_loose {E : Type} {s : RBSet T} {l : List (T × Unit)} (h : s.map.Loose l) (o : OrdKeys T Q) (input : List (Except E T)) :
    ∃ x, s.visitLoop o input = .ok x ∧ ∀ s', x = .ok s' → ∃ l', s'.map.Loose l' := by
  induction input generalizing s l with
  | nil => exact ⟨.ok s, rfl, fun s' h' => by cases h'; exact ⟨l, h⟩⟩
  | cons p input ih =>
    cases p with
    | error e => exact ⟨.error e, rfl, fun m' h' => by cases h'⟩
    | ok v =>
      obtain ⟨m', l', h1, h2, _⟩ := h.insertMut o v ()
      obtain ⟨x, h3, h4⟩ := ih (s := ⟨m'⟩) h2
      exact ⟨x, by simp only [RBSet.visitLoop, RBSet.insertMut, h1, Res.ok_bind, Res.pure_eq]; exact h3, h4⟩

theorem rbSetReachAny_loose {A : Arch} {s : RBSet T} (h : RBSetReachAny A Q s) : ∃ l, s.map.Loose l := by
  refine Reachable.inv (Inv := fun s => ∃ l, s.map.Loose l) ?_ ?_ ?_ h
  · rintro s ⟨o, hi⟩
    cases hi with
    | new => exact ⟨[], RBMap.new_loose⟩
    | @fromIter vs _ h =>
      obtain ⟨s', l', h1, h2⟩ := rbSet_insertAll_loose (s := RBSet.new) RBMap.new_loose o vs
      rw [RBSet.fromIter, h1] at h; cases h; exact ⟨l', h2⟩
    | @deserialize E input _ h =>
      obtain ⟨x, h1, h2⟩ := rbSet_visitLoop_loose (s := RBSet.new) RBMap.new_loose o input
      rw [RBSet.deserialize, h1] at h; cases h; exact h2 _ rfl
  · rintro s ⟨o, op⟩ r s' ⟨l, hl⟩ hs
    obtain ⟨r', e, h1, h2⟩ := rbSet_step_loose A hl o op
    simp only at hs
    rw [h1] at hs
    cases hs
    exact h2 _ (.inl rfl)
  · rintro s ⟨o, op⟩ r s' ⟨l, hl⟩ hs
    obtain ⟨r', e, h1, h2⟩ := rbSet_step_loose A hl o op
    simp only at hs
    rw [h1] at hs
    cases hs
    exact h2 _ (.inr rfl)

/-- C54.  Operations, comparisons and relations of tree sets with arbitrary comparison functions never panic and always end. -/
theorem C54_rb_set_unlawful (A : Arch) (s t : RBSet T) (hs : RBSetReachAny A Q s) (ht : RBSetReachAny A Q t) (o : OrdKeys T Q) :
    (∀ op, ∃ r e, s.step A o op = .ok (r, e)) ∧
    (RBMap.Fits A s.map → RBMap.Fits A t.map → ∃ items items', rbSetItems A o s = .ok items ∧ rbSetItems A o t = .ok items' ∧
      s.size = items.length ∧ (∃ b, s.isDisjoint A o t = .ok b) ∧ (∀ p, ∃ b, s.isSubset A o p t = .ok b) ∧
      (∀ p, ∃ b, s.isSuperset A o p t = .ok b) ∧ (∀ p, ∃ b, s.eq A o p t = .ok b) ∧ s.cmp A o t = .ok (lexCmp o.cmpK items items')) := by
  obtain ⟨l, hl⟩ := rbSetReachAny_loose hs
  obtain ⟨l', hl'⟩ := rbSetReachAny_loose ht
  refine ⟨fun op => ?_, fun hf hf' => ?_⟩
  · obtain ⟨r, e, h, _⟩ := rbSet_step_loose A hl o op
    exact ⟨r, e, h⟩
  · have d : Drives (RBSet.iterNext A o) s.iter (l.map (·.1)) := hl.drives hf o fun e => e.1
    have d' : Drives (RBSet.iterNext A o) t.iter (l'.map (·.1)) := hl'.drives hf' o fun e => e.1
    have hn : s.size = (l.map (·.1)).length := by simp [RBSet.size, RBMap.getSize, hl.size]
    have hn' : t.size = (l'.map (·.1)).length := by simp [RBSet.size, RBMap.getSize, hl'.size]
    have sub : ∀ {s t : RBSet T} {x y : List T}, Drives (RBSet.iterNext A o) s.iter x → Drives (RBSet.iterNext A o) t.iter y →
        s.size = x.length → t.size = y.length → ∀ p, ∃ b, s.isSubset A o p t = .ok b := by
      intro s t x y d d' e e' p
      cases p with
      | true => exact ⟨true, rfl⟩
      | false =>
        simp only [RBSet.isSubset, Bool.false_eq_true, if_false]
        split
        · exact ⟨false, rfl⟩
        · exact rbSubsetLoop_ok o _ _ d d' (by omega) (by omega)
    refine ⟨_, _, d.drain (by omega), d'.drain (by omega), hn, ?_, sub d d' hn hn', sub d' d hn' hn, fun p => ?_, d.iterCmp d' (by omega)⟩
    · have hnext : ∀ {i : RBIter T Unit} {x : List T}, Drives (RBSet.iterNext A o) i x →
          ∃ v i' x', RBSet.iterNext A o i = .ok (v, i') ∧ (v.isSome = true → Drives (RBSet.iterNext A o) i' x' ∧ x.length = x'.length + 1) := by
        intro i x hx
        cases hx with
        | @nil _ s' h => exact ⟨none, s', [], h, by simp⟩
        | @cons _ i' v x' h h' => exact ⟨some v, i', x', h, fun _ => ⟨h', rfl⟩⟩
      obtain ⟨v, i', x', h1, h2⟩ := hnext d
      obtain ⟨u, j', y', h3, h4⟩ := hnext d'
      simp only [RBSet.isDisjoint, h1, h3, Res.ok_bind]
      cases v with
      | none => exact ⟨true, rfl⟩
      | some v =>
        cases u with
        | none => exact ⟨true, rfl⟩
        | some u =>
          obtain ⟨h2, e2⟩ := h2 rfl
          obtain ⟨h4, e4⟩ := h4 rfl
          exact rbDisjointLoop_ok o _ (some v) (some u) h2 h4 (by omega) (fun _ _ => by omega)
    · cases p with
      | true => exact ⟨true, rfl⟩
      | false =>
        simp only [RBSet.eq, RBMap.eq, Bool.false_eq_true, if_false]
        split
        · exact ⟨_, (hl.iterDrives hf o).iterAll
            (q := fun kv => match t.map.get o.self kv.1 with | none => false | some _ => true)
            (fun kv _ => by cases t.map.get o.self kv.1 <;> rfl) (by rw [hl.size]; omega)⟩
        · exact ⟨false, rfl⟩

/-- The order of the example makes two equal sets disjoint, and neither a subset of the other. -/
example : (do let s ← RBSet.fromIter exLess [1, 2, 3]
              let a ← s.isDisjoint dbg64 exLess s
              let b ← s.isSubset dbg64 exLess false s
              let c ← s.eq dbg64 exLess false s
              let d ← s.cmp dbg64 exLess s
              pure (s.size, a, b, c, d)) = .ok (3, true, false, false, .lt) ∧
    ∃ s, RBSet.fromIter exLess [1, 2, 3] = .ok s ∧ RBSetReachAny dbg64 Nat s := by
  refine ⟨by decide +kernel, ?_⟩
  obtain ⟨s, _, h, _⟩ := rbSet_insertAll_loose (s := RBSet.new) RBMap.new_loose exLess [1, 2, 3]
  exact ⟨s, h, .init ⟨exLess, .fromIter h⟩⟩

/-- All sets a program can obtain when every operation may hash and compare elements in its own way. -/
abbrev HTSetReachAny (A : Arch) (Q : Type) (s : HTSet H T) : Prop :=
  Reachable (fun s => ∃ o : HashKeys H T Q, HTSet.Init A o s) (fun s (p : HashKeys H T Q × SetOp T Q) => HTSet.step A p.1 s p.2) s

theorem htSet_step_loose {A : Arch} {k : Nat} {s : HTSet H T} {l : List (T × Unit)} (h : s.map.Loose A k true l) (o : HashKeys H T Q) (op : SetOp T Q) :
    ∃ r e, s.step A o op = .ok (r, e) ∧ ∀ s', e = .fresh s' ∨ e = .update s' → ∃ l', s'.map.Loose A k true l' := by
  cases op with
  | insert v =>
    obtain ⟨m', l', h1, h2, _⟩ := h.insertMut o v ()
    refine ⟨.unit, .fresh ⟨m'⟩, by simp [HTSet.step, HTSet.insert, HTMap.insert, HTMap.Rep.clone_eq, h1], ?_⟩
    rintro s' (h | h) <;> cases h
    exact ⟨l', h2⟩
  | insertMut v =>
    obtain ⟨m', l', h1, h2, _⟩ := h.insertMut o v ()
    refine ⟨.unit, .update ⟨m'⟩, by simp [HTSet.step, HTSet.insertMut, h1], ?_⟩
    rintro s' (h | h) <;> cases h
    exact ⟨l', h2⟩
  | remove q =>
    obtain ⟨b, m', l', h1, h2, _⟩ := h.removeMut o q
    refine ⟨.unit, .fresh ⟨if b then m' else s.map⟩, by simp [HTSet.step, HTSet.remove, HTMap.remove, HTMap.Rep.clone_eq, h1], ?_⟩
    rintro s' (g | g) <;> cases g
    cases b
    · exact ⟨l, h⟩
    · exact ⟨l', h2⟩
  | removeMut q =>
    obtain ⟨b, m', l', h1, h2, _⟩ := h.removeMut o q
    refine ⟨.bool b, .update ⟨m'⟩, by simp [HTSet.step, HTSet.removeMut, h1], ?_⟩
    rintro s' (g | g) <;> cases g
    exact ⟨l', h2⟩
  | clone =>
    refine ⟨.unit, .fresh s.clone, rfl, ?_⟩
    rintro s' (g | g) <;> cases g
    exact ⟨l, h⟩
  | get q =>
    obtain ⟨oe, h1, _⟩ := h.lookup o q
    exact ⟨_, .keep, by simp only [HTSet.step, HTSet.get, HTMap.getKeyValue, h1, Res.ok_bind, Res.pure_eq]; rfl, by rintro s' (g | g) <;> cases g⟩
  | contains q =>
    obtain ⟨oe, h1, _⟩ := h.lookup o q
    exact ⟨_, .keep, by simp only [HTSet.step, HTSet.contains, HTMap.containsKey, HTMap.get, h1, Res.ok_bind, Res.pure_eq]; rfl,
      by rintro s' (g | g) <;> cases g⟩
  | size => exact ⟨_, .keep, rfl, by rintro s' (g | g) <;> cases g⟩
  | isEmpty => exact ⟨_, .keep, rfl, by rintro s' (g | g) <;> cases g⟩

theorem htSet_insertAll_loose {A : Arch} {k : Nat} {s : HTSet H T} {l : List (T × Unit)} (h : s.map.Loose A k true l) (o : HashKeys H T Q) (vs : List T) :
    ∃ s' l', s.insertAll A o vs = .ok s' ∧ s'.map.Loose A k true l' := by
  induction vs generalizing s l with
  | nil => exact ⟨s, l, rfl, h⟩
  | cons v vs ih =>
    obtain ⟨m', l', h1, h2, _⟩ := h.insertMut o v ()
    obtain ⟨s'', l'', h3, h4⟩ := ih (s := ⟨m'⟩) h2
    exact ⟨s'', l'', by simp only [HTSet.insertAll, HTSet.insertMut, h1, Res.ok_bind, Res.pure_eq]; exact h3, h4⟩

theorem htSet_visitLoop_loose {E : Type} {A : Arch} {k : Nat} {s : HTSet H T} {l : List (T × Unit)} (h : s.map.Loose A k true l) (o : HashKeys H T Q)
    (input : List (Except E T)) : ∃ x, s.visitLoop A o input = .ok x ∧ ∀ s', x = .ok s' → ∃ l', s'.map.Loose A k true l' := by
  induction input generalizing s l with
  | nil => exact ⟨.ok s, rfl, fun s' h' => by cases h'; exact ⟨l, h⟩⟩
  | cons p input ih =>
    cases p with
    | error e => exact ⟨.error e, rfl, fun m' h' => by cases h'⟩
    | ok v =>
      obtain ⟨m', l', h1, h2, _⟩ := h.insertMut o v ()
      obtain ⟨x, h3, h4⟩ := ih (s := ⟨m'⟩) h2
      exact ⟨x, by simp only [HTSet.visitLoop, HTSet.insertMut, h1, Res.ok_bind, Res.pure_eq]; exact h3, h4⟩

theorem htSetReachAny_loose {A : Arch} (hA : HTMap.StdWord A) {s : HTSet H T} (h : HTSetReachAny A Q s) : ∃ k l, s.map.Loose A k true l := by
  refine Reachable.inv (Inv := fun s => ∃ k l, s.map.Loose A k true l) ?_ ?_ ?_ h
  · rintro s ⟨o, hi⟩
    cases hi with
    | @newWithDegree hasher d _ h2 h =>
      simp only [HTSet.newWithDegree] at h
      cases hm : HTMap.newWithDegree (K := T) (V := Unit) A hasher d with
      | error e => rw [hm] at h; cases h
      | ok m =>
        rw [hm] at h; cases h
        obtain ⟨k, c, _, rfl⟩ := HTMap.newWithDegree_ok hm h2
        exact ⟨k, [], HTMap.loose_empty c _⟩
    | @new hasher _ h =>
      obtain ⟨k, m', h1, h2⟩ := HTMap.new_loose (K := T) (V := Unit) hA hasher
      simp only [HTSet.new, h1, Res.ok_bind] at h; cases h; exact ⟨k, _, h2⟩
    | @fromIter hasher vs _ h =>
      obtain ⟨k, m', h1, h2⟩ := HTMap.new_loose (K := T) (V := Unit) hA hasher
      obtain ⟨s', l', h3, h4⟩ := htSet_insertAll_loose (s := ⟨m'⟩) h2 o vs
      simp only [HTSet.fromIter, HTSet.new, h1, Res.ok_bind, Res.pure_eq, h3] at h
      cases h; exact ⟨k, l', h4⟩
    | @deserialize E hasher input _ h =>
      obtain ⟨k, m', h1, h2⟩ := HTMap.new_loose (K := T) (V := Unit) hA hasher
      obtain ⟨x, h3, h4⟩ := htSet_visitLoop_loose (s := ⟨m'⟩) h2 o input
      simp only [HTSet.deserialize, HTSet.new, h1, Res.ok_bind, Res.pure_eq, h3] at h
      cases h; exact ⟨k, h4 _ rfl⟩
  · rintro s ⟨o, op⟩ r s' ⟨k, l, hl⟩ hs
    obtain ⟨r', e, h1, h2⟩ := htSet_step_loose hl o op
    simp only at hs
    rw [h1] at hs
    cases hs
    exact ⟨k, h2 _ (.inl rfl)⟩
  · rintro s ⟨o, op⟩ r s' ⟨k, l, hl⟩ hs
    obtain ⟨r', e, h1, h2⟩ := htSet_step_loose hl o op
    simp only at hs
    rw [h1] at hs
    cases hs
    exact ⟨k, h2 _ (.inr rfl)⟩

/-- C54.  Operations, comparisons and relations of hash sets with arbitrary equality and hash functions never panic and always end; the
second set of a relation may have its own kind of hasher. -/
theorem C54_hash_set_unlawful {H' Q' : Type} (A : Arch) (hA : HTMap.StdWord A) (s s₂ : HTSet H T) (t : HTSet H' T) (hs : HTSetReachAny A Q s)
    (hs₂ : HTSetReachAny A Q s₂) (ht : HTSetReachAny A Q' t) (o : HashKeys H T Q) (o' : HashKeys H' T Q') :
    (∀ op, ∃ r e, s.step A o op = .ok (r, e)) ∧
    (∃ items, setItems s = .ok items ∧ s.size = items.length) ∧ (∃ b, s.isDisjoint A o' t = .ok b) ∧
    (∀ p, ∃ b, s.isSubset A o' p t = .ok b) ∧ (∀ p, ∃ b, s.isSuperset A o p t = .ok b) ∧ (∀ p, ∃ b, s.eq A o p s₂ = .ok b) := by
  obtain ⟨k, l, hl⟩ := htSetReachAny_loose hA hs
  obtain ⟨k₂, l₂, hl₂⟩ := htSetReachAny_loose hA hs₂
  obtain ⟨k', l', hl'⟩ := htSetReachAny_loose hA ht
  have cont : ∀ {H Q : Type} {s : HTSet H T} {k : Nat} {l : List (T × Unit)} (o : HashKeys H T Q), s.map.Loose A k true l →
      ∀ v, ∃ b, s.contains A o.self v = .ok b := by
    intro H Q s k l o hl v
    obtain ⟨oe, h1, _⟩ := hl.lookup o.self v
    exact ⟨_, by simp only [HTSet.contains, HTMap.containsKey, HTMap.get, h1, Res.ok_bind, Res.pure_eq]; rfl⟩
  have dr : ∀ {H : Type} {s : HTSet H T} {k : Nat} {l : List (T × Unit)}, s.map.Loose A k true l →
      Drives HTSet.iterNext s.iter s.items ∧ s.map.size = s.items.length := by
    intro H s k l hl
    exact ⟨hl.iter.drives fun e => e.key, by rw [hl.size, ← hl.length]; simp [HTSet.items]⟩
  have sub : ∀ {H H' Q' : Type} {s : HTSet H T} {t : HTSet H' T} {k k' : Nat} {l l' : List (T × Unit)} (o' : HashKeys H' T Q'),
      s.map.Loose A k true l → t.map.Loose A k' true l' → ∀ p, ∃ b, s.isSubset A o' p t = .ok b := by
    intro H H' Q' s t k k' l l' o' hl hl' p
    cases p with
    | true => exact ⟨true, rfl⟩
    | false =>
      simp only [HTSet.isSubset, Bool.false_eq_true, if_false]
      split
      · refine ⟨_, (dr hl).1.iterAll (q := fun v => match t.contains A o'.self v with | .ok b => b | .error _ => false) ?_ (by rw [(dr hl).2]; omega)⟩
        intro v _
        obtain ⟨b, hb⟩ := cont o' hl' v
        rw [hb]
      · exact ⟨false, rfl⟩
  refine ⟨fun op => ?_, ⟨s.items, ?_, ?_⟩, ?_, sub o' hl hl', sub o hl' hl, fun p => ?_⟩
  · obtain ⟨r, e, h, _⟩ := htSet_step_loose hl o op
    exact ⟨r, e, h⟩
  · exact (dr hl).1.drain (by simp only [HTSet.size, HTMap.getSize]; rw [(dr hl).2]; omega)
  · exact (dr hl).2
  · refine ⟨_, (dr hl).1.iterAll (q := fun v => match t.contains A o'.self v with | .ok b => !b | .error _ => false) ?_ (by rw [(dr hl).2]; omega)⟩
    intro v _
    obtain ⟨b, hb⟩ := cont o' hl' v
    rw [hb]; rfl
  · cases p with
    | true => exact ⟨true, rfl⟩
    | false =>
      simp only [HTSet.eq, HTMap.eq, Bool.false_eq_true, if_false]
      split
      · refine ⟨_, hl.drives.iterAll (q := fun kv => match s₂.map.get A o.self kv.1 with | .ok (some _) => true | _ => false) ?_
          (by rw [hl.size]; omega)⟩
        intro kv _
        obtain ⟨oe, h1, _⟩ := hl₂.lookup o.self kv.1
        simp only [HTMap.get, h1, Res.ok_bind, Res.pure_eq]
        cases oe <;> rfl
      · exact ⟨false, rfl⟩

/-- Elements that are not equal to themselves: the set is disjoint from itself and not its own subset. -/
example : (do let s ← HTSet.fromIter dbg64 exNever 0 [1, 1, 2]
              let a ← s.isDisjoint dbg64 exNever s
              let b ← s.isSubset dbg64 exNever false s
              let c ← s.eq dbg64 exNever false s
              let d ← s.eq dbg64 exOne false s
              pure (s.size, a, b, c, d)) = .ok (3, true, false, false, true) ∧
    ∃ s, HTSet.fromIter dbg64 exNever 0 [1, 1, 2] = .ok s ∧ HTSetReachAny dbg64 Nat s := by
  refine ⟨by decide +kernel, ?_⟩
  obtain ⟨k, m, h1, h2⟩ := HTMap.new_loose (A := dbg64) (K := Nat) (V := Unit) (.inr (.inr rfl)) (0 : Nat)
  obtain ⟨s, _, h, _⟩ := htSet_insertAll_loose (s := ⟨m⟩) h2 exNever [1, 1, 2]
  have : HTSet.fromIter dbg64 exNever 0 [1, 1, 2] = .ok s := by
    simp only [HTSet.fromIter, HTSet.new, h1, Res.ok_bind, Res.pure_eq, h]
  exact ⟨s, this, .init ⟨exNever, .fromIter this⟩⟩

end Rpds.Props
