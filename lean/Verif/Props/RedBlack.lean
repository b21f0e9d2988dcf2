import Verif.Props.HashTrie
import Verif.RedBlack.Compare
/-
Properties C22 (second half) and C30–C41: `RedBlackTreeMap` and `RedBlackTreeSet`.

`o` gives the key operations: `Ord` of keys and of their borrowed form; `o.Lawful` are the laws the Rust documentation asks of them.
Creating an iterator computes with the size of the map, so statements about iterators assume `RBMap.Fits A m`: the size plus one is
below `2 ^ W` (a map larger than that does not fit in memory) and words have at least three bits.
-/
set_option autoImplicit false
namespace Rpds.Props
open Spec
variable {K V Q T S : Type}

/-- What a program sees when it iterates a map to the end. -/
def rbItems (A : Arch) (o : OrdKeys K Q) (m : RBMap K V) : Res (List (K × V)) := drain (RBMap.iterNext A o) (m.getSize + 1) m.iter

/-- What a program sees when it iterates a set to the end. -/
def rbSetItems (A : Arch) (o : OrdKeys T Q) (s : RBSet T) : Res (List T) := drain (RBSet.iterNext A o) (s.size + 1) s.iter

theorem rep_rbItems {A : Arch} {o : OrdKeys K Q} {m : RBMap K V} {l : List (K × V)} (r : m.Rep o l) (lo : o.Lawful) (hf : RBMap.Fits A m) :
    rbItems A o m = .ok m.root.toList := r.serialize lo hf

theorem rep_rbSetItems {A : Arch} {o : OrdKeys T Q} {s : RBSet T} {l : List T} (r : s.Rep o l) (lo : o.Lawful) (hf : RBMap.Fits A s.map) :
    rbSetItems A o s = .ok s.items := r.serialize lo hf

/-- Keys for examples: a number and a name, ordered by the number only, looked up by number. -/
def exOrd : OrdKeys (Nat × String) Nat where
  cmpK a b := compare a.1 b.1
  cmpQ a b := compare a b
  eqQ a b := a == b
  borrow := Prod.fst

theorem natOrd_lawful : LawfulOrd (fun a b : Nat => compare a b) (fun a b => a == b) where
  oriented a b := by rw [Nat.compare_swap]
  trans a b c h1 h2 := by
    rw [Nat.isLE_compare] at *
    omega
  eq_iff a b := by rw [beq_iff_eq, Nat.compare_eq_eq]

theorem exOrd_lawful : exOrd.Lawful where
  ordK := ⟨fun a b => natOrd_lawful.oriented a.1 b.1, fun a b c => natOrd_lawful.trans a.1 b.1 c.1, fun a b => by simp [OrdKeys.same]⟩
  ordQ := natOrd_lawful
  borrow _ _ := rfl

/-- For examples: what is computed from a collected map is computed from a reachable map that fits. -/
theorem exRB {β : Type} (kvs : List ((Nat × String) × Nat)) (f : RBMap (Nat × String) Nat → Res β) (b : β)
    (h : (RBMap.fromIter exOrd kvs).bind (fun m => if m.size < 100 then f m else .error .diverge) = .ok b) :
    ∃ m, RBMap.fromIter exOrd kvs = .ok m ∧ RBMap.Reach dbg64 exOrd m ∧ RBMap.Fits dbg64 m ∧ f m = .ok b := by
  cases hm : RBMap.fromIter exOrd kvs with
  | error e => rw [hm] at h; cases h
  | ok m =>
    rw [hm] at h
    simp only [Except.bind] at h
    split at h
    · rename_i hs
      exact ⟨m, rfl, .init (.fromIter hm), ⟨by decide, Nat.lt_of_lt_of_le (by omega : m.size + 1 < 200) (by decide)⟩, h⟩
    · cases h

/-! ### C22 (red-black tree) -/

/-- C22 for `RedBlackTreeMap`.  After inserting `(k, v)`, every key equal to `k` finds exactly the new key and value, all other keys
find what they found before. -/
theorem C22_rb_map_insert_replaces (A : Arch) (o : OrdKeys K Q) (lo : o.Lawful) (m : RBMap K V) (hm : RBMap.Reach A o m) (k : K) (v : V) :
    ∃ m', m.insertMut o k v = .ok m' ∧ m.insert o k v = .ok m' ∧
      (∀ q, m'.getKeyValue o q = if o.cmpQ q (o.borrow k) = .eq then some (k, v) else m.getKeyValue o q) := by
  obtain ⟨l, r⟩ := hm.rep lo
  obtain ⟨m', h1, h2⟩ := r.insertMut lo k v
  refine ⟨m', h1, h1, fun q => ?_⟩
  rw [h2.getKeyValue lo, mapGet_insert lo.keyLaws, r.getKeyValue lo]
  simp only [OrdKeys.hits, beq_iff_eq]

example : ∃ m, RBMap.fromIter exOrd [((1, "a"), 10), ((2, "b"), 20), ((3, "c"), 30)] = .ok m ∧ RBMap.Reach dbg64 exOrd m ∧
    RBMap.Fits dbg64 m ∧ (do pure (m.getKeyValue exOrd 1, (← m.insertMut exOrd (1, "NEW") 11).getKeyValue exOrd 1)) =
      (.ok (some ((1, "a"), 10), some ((1, "NEW"), 11)) : Res _) :=
  exRB _ _ _ (by decide +kernel)

/-! ### C30 -/

/-- C30.  Start from any collected maps and run any history of operations over any number of versions: the maps give the answers of
plain finite maps, and iterating gives exactly the pairs of the finite map, in increasing order of keys. -/
theorem C30_rb_map_refines_finite_map (A : Arch) (o : OrdKeys K Q) (lo : o.Lawful) (inits : List (List (K × V))) :
    ∃ ms, inits.mapM (RBMap.fromIter o) = .ok ms ∧ ∀ h : List (Nat × MapOp K V Q), ∃ answers versions maps,
      runHistory (fun l op => .ok (mapStep o.same o.hits l op))
        (inits.map fun p => p.foldl (fun l kv => mapInsert o.same l kv.1 kv.2) []) h = .ok (answers, maps) ∧
      runHistory (RBMap.step A o) ms h = .ok (answers, versions) ∧
      List.Forall₂ (fun m l => m.getSize = l.length ∧ (RBMap.Fits A m → ∃ items, rbItems A o m = .ok items ∧ items.Perm l ∧
        items.Pairwise fun a b => o.cmpK a.1 b.1 = .lt)) versions maps := by
  have h0 : ∃ ms, inits.mapM (RBMap.fromIter o) = .ok ms ∧ List.Forall₂ (fun m l => RBMap.Rep o m l) ms
      (inits.map fun p => p.foldl (fun l kv => mapInsert o.same l kv.1 kv.2) []) := by
    induction inits with
    | nil => exact ⟨[], rfl, .nil⟩
    | cons p ps ih =>
      obtain ⟨ms, e1, e2⟩ := ih
      obtain ⟨m, n1, n2⟩ := RBMap.fromIter_rep lo p
      exact ⟨m :: ms, by simp [List.mapM_cons, n1, e1], .cons n2 e2⟩
  obtain ⟨ms, e1, e2⟩ := h0
  refine ⟨ms, e1, fun h => ?_⟩
  obtain ⟨rs, vs, ws, f1, f2, f3⟩ := runHistory_sim (R := fun m l => RBMap.Rep o m l) (step := RBMap.step A o)
    (spec := mapStep o.same o.hits) (fun s a op h => h.step lo op) h _ _ e2
  refine ⟨rs, vs, ws, f2, f1, ?_⟩
  clear f1 f2
  induction f3 with
  | nil => exact .nil
  | cons hr _ ih => exact .cons ⟨hr.size, fun hf => ⟨_, rep_rbItems hr lo hf, hr.perm, hr.ok.sorted⟩⟩ ih

example : ((do
    let a ← RBMap.fromIter exOrd [((1, "a"), 10), ((2, "b"), 20)]
    let r ← runHistory (RBMap.step dbg64 exOrd) [a]
      [(0, .insert (1, "A") 11), (0, .getKeyValue 1), (1, .getKeyValue 1), (0, .insertMut (3, "c") 30), (0, .insertMut (0, "z") 5),
       (0, .getMut 3 (· + 1)), (0, .get 3), (0, .removeMut 2), (0, .removeMut 2), (0, .size), (1, .size), (0, .index 9), (0, .index 3),
       (1, .remove 1), (2, .isEmpty), (1, .containsKey 1), (2, .containsKey 1)]
    pure r.1) : Res (List (Option (MapRet (Nat × String) Nat)))) =
    .ok [some .unit, some (.optKV (some ((1, "a"), 10))), some (.optKV (some ((1, "A"), 11))), some .unit, some .unit,
      some (.optV (some 30)), some (.optV (some 31)), some (.bool true), some (.bool false), some (.nat 3), some (.nat 2),
      some .panicked, some (.optV (some 31)), some .unit, some (.bool false), some (.bool true), some (.bool false)] := by decide +kernel

/-- C30.  Lookups through any borrowed form agree with lookups of an equal key. -/
theorem C30_rb_map_borrow (A : Arch) (o : OrdKeys K Q) (lo : o.Lawful) (m : RBMap K V) (hm : RBMap.Reach A o m) (k : K) :
    m.getKeyValue o (o.borrow k) = m.getKeyValue o.self k ∧ m.get o (o.borrow k) = m.get o.self k ∧
      m.containsKey o (o.borrow k) = m.containsKey o.self k := by
  obtain ⟨l, r⟩ := hm.rep lo
  have h : mapGet o.hits l (o.borrow k) = mapGet o.self.hits l k := by
    simp only [mapGet]
    congr 1
    funext p
    simp only [OrdKeys.hits, OrdKeys.self, id, lo.borrow]
  rw [r.getKeyValue lo, r.get lo, r.containsKey lo, r.self.getKeyValue lo.self, r.self.get lo.self, r.self.containsKey lo.self, h]
  exact ⟨rfl, rfl, rfl⟩

example : ∃ m, RBMap.fromIter exOrd [((1, "a"), 10), ((2, "b"), 20)] = .ok m ∧ RBMap.Reach dbg64 exOrd m ∧ RBMap.Fits dbg64 m ∧
    (do pure (m.get exOrd 2, m.get exOrd.self (2, "other"), m.get exOrd 3)) = (.ok (some 20, some 20, none) : Res _) :=
  exRB _ _ _ (by decide +kernel)

/-! ### C31 -/

/-- C31.  There is one list of items, strictly increasing in the keys, such that `iter`, `keys` and `values`, called any number of
times, answer its pairs, keys and values in that order, each call reporting exactly the number of items still to come, and `None` for
ever after; the items are exactly the entries that lookups find. -/
theorem C31_rb_map_iteration (A : Arch) (o : OrdKeys K Q) (lo : o.Lawful) (m : RBMap K V) (hm : RBMap.Reach A o m) (hf : RBMap.Fits A m) :
    ∃ items : List (K × V),
      items.Pairwise (fun a b => o.cmpK a.1 b.1 = .lt) ∧
      (∀ n, fwCalls (RBMap.iterNext A o) RBIter.sizeHint n m.iter = .ok (fwRun items n)) ∧
      (∀ n, fwCalls (RBMap.keysNext A o) RBIter.sizeHint n m.iter = .ok (fwRun (items.map Prod.fst) n)) ∧
      (∀ n, fwCalls (RBMap.valuesNext A o) RBIter.sizeHint n m.iter = .ok (fwRun (items.map Prod.snd) n)) ∧
      m.iter.sizeHint = items.length ∧ m.getSize = items.length ∧
      ∀ q, m.getKeyValue o q = items.find? fun p => o.cmpQ q (o.borrow p.1) == .eq := by
  obtain ⟨l, r⟩ := hm.rep lo
  have key : ∀ {β : Type} (f : K × V → β) n,
      fwCalls (RBIter.mapNext A o f) RBIter.sizeHint n m.iter = .ok (fwRun (m.root.toList.map f) n) := by
    intro β f n
    refine fwCalls_eq (R := RBIter.MapRel A o m f) ?_ ?_ ?_ n _ _ (r.iterRel hf f)
    · intro s hs; exact RBIter.mapNext_rel lo hf.word hs
    · intro s a l hs; exact RBIter.mapNext_rel lo hf.word hs
    · rintro s l ⟨r, rfl, h⟩; simpa [RBIter.sizeHint] using h.size
  refine ⟨m.root.toList, r.ok.sorted, fun n => ?_, fun n => key _ n, fun n => key _ n, r.size', r.size', ?_⟩
  · have := key (fun e => (e.1, e.2)) n
    rw [RBMap.pairFun_eq, List.map_id] at this
    exact this
  · exact (r.congr r.perm.symm).getKeyValue lo

example : ∃ m, RBMap.fromIter exOrd [((3, "c"), 30), ((1, "a"), 10), ((2, "b"), 20), ((1, "A"), 11)] = .ok m ∧ RBMap.Reach dbg64 exOrd m ∧
    RBMap.Fits dbg64 m ∧ fwCalls (RBMap.iterNext dbg64 exOrd) RBIter.sizeHint 5 m.iter =
      .ok [(some ((1, "A"), 11), 2), (some ((2, "b"), 20), 1), (some ((3, "c"), 30), 0), (none, 0), (none, 0)] :=
  exRB _ _ _ (by decide +kernel)

/-! ### C32 -/

/-- C32.  `first` is an entry of the map whose key is below or equal to every key, `last` one whose key is above or equal to every
key; they are `None` exactly when the map is empty. -/
theorem C32_rb_map_first_last (A : Arch) (o : OrdKeys K Q) (lo : o.Lawful) (m : RBMap K V) (hm : RBMap.Reach A o m) :
    (m.first = none ↔ m.isEmpty = true) ∧ (m.last = none ↔ m.isEmpty = true) ∧
    (∀ e, m.first = some e → m.getKeyValue o.self e.1 = some e ∧
      ∀ k p, m.getKeyValue o.self k = some p → o.cmpK e.1 k ≠ .gt) ∧
    (∀ e, m.last = some e → m.getKeyValue o.self e.1 = some e ∧
      ∀ k p, m.getKeyValue o.self k = some p → o.cmpK e.1 k ≠ .lt) := by
  obtain ⟨l, r⟩ := hm.rep lo
  have hlen : m.isEmpty = true ↔ m.root.toList = [] := by
    simp only [RBMap.isEmpty, RBMap.getSize, r.size', beq_iff_eq, List.length_eq_zero_iff]
  have hget : ∀ k, m.getKeyValue o.self k = mapGet o.self.hits m.root.toList k := (r.congr r.perm.symm).self.getKeyValue lo.self
  have hself : ∀ e ∈ m.root.toList, m.getKeyValue o.self e.1 = some e := by
    intro e he
    rw [hget, mapGet]
    apply find?_unique ((r.ok.sorted.distinct).atMostOne lo.self.keyLaws e.1) he
    simp [OrdKeys.hits, OrdKeys.self, lo.ordK.refl]
  have hin : ∀ k p, m.getKeyValue o.self k = some p → p ∈ m.root.toList ∧ o.cmpK k p.1 = .eq := by
    intro k p h
    rw [hget] at h
    have := mapGet_some h
    exact ⟨this.1, by simpa [OrdKeys.hits, OrdKeys.self] using this.2⟩
  rw [hlen, r.first, r.last]
  refine ⟨List.head?_eq_none_iff, List.getLast?_eq_none_iff, ?_, ?_⟩
  · intro e he
    obtain ⟨ys, hys⟩ := List.head?_eq_some_iff.1 he
    refine ⟨hself e (by rw [hys]; simp), fun k p hk => ?_⟩
    obtain ⟨h1, h2⟩ := hin k p hk
    have hs := r.ok.sorted
    rw [hys] at h1 hs
    rw [OrdKeys.lt_eq_trans' lo.ordK h2]
    rcases List.mem_cons.1 h1 with rfl | h1
    · simp [lo.ordK.refl]
    · rw [(List.pairwise_cons.1 hs).1 p h1]; simp
  · intro e he
    obtain ⟨ys, hys⟩ := List.getLast?_eq_some_iff.1 he
    refine ⟨hself e (by rw [hys]; simp), fun k p hk => ?_⟩
    obtain ⟨h1, h2⟩ := hin k p hk
    have hs := r.ok.sorted
    rw [hys] at h1 hs
    rw [OrdKeys.lt_eq_trans' lo.ordK h2]
    rcases List.mem_append.1 h1 with h1 | h1
    · rw [lo.swapK, (List.pairwise_append.1 hs).2.2 p h1 e (by simp)]; simp
    · simp only [List.mem_singleton] at h1
      subst h1
      simp [lo.ordK.refl]

example : ∃ m, RBMap.fromIter exOrd [((3, "c"), 30), ((1, "a"), 10), ((2, "b"), 20)] = .ok m ∧ RBMap.Reach dbg64 exOrd m ∧
    RBMap.Fits dbg64 m ∧ (pure (m.first, m.last) : Res _) = .ok (some ((1, "a"), 10), some ((3, "c"), 30)) :=
  exRB _ _ _ (by decide +kernel)

/-! ### C33 -/

/-- C33.  For any interleaving of `next` and `next_back`, on pairs, keys or values, the answers and size hints are those of a
double-ended iteration of the sorted items, with `None` for ever once they are used up. -/
theorem C33_rb_map_double_ended (A : Arch) (o : OrdKeys K Q) (lo : o.Lawful) (m : RBMap K V) (hm : RBMap.Reach A o m) (hf : RBMap.Fits A m) :
    ∃ items, rbItems A o m = .ok items ∧ items.Pairwise (fun a b => o.cmpK a.1 b.1 = .lt) ∧
      (∀ cs, deCalls (RBMap.iterNext A o) (RBMap.iterNextBack A o) (fun it => .ok it.sizeHint) cs m.iter = .ok (deRun items cs)) ∧
      ∀ (β : Type) (f : K × V → β) cs, deCalls (RBIter.mapNext A o f) (RBIter.mapNextBack A o f) (fun it => .ok it.sizeHint) cs m.iter =
        .ok (deRun (items.map f) cs) := by
  obtain ⟨l, r⟩ := hm.rep lo
  have key : ∀ (β : Type) (f : K × V → β) cs, deCalls (RBIter.mapNext A o f) (RBIter.mapNextBack A o f) (fun it => .ok it.sizeHint) cs m.iter =
      .ok (deRun (m.root.toList.map f) cs) := by
    intro β f cs
    refine deCalls_eq (R := RBIter.MapRel A o m f) ?_ ?_ ?_ cs _ _ (r.iterRel hf f)
    · intro s l hs; exact RBIter.mapNext_rel lo hf.word hs
    · intro s l hs; exact RBIter.mapNextBack_rel lo hf.word hs
    · rintro s l ⟨r, rfl, h⟩; simpa [RBIter.sizeHint] using h.size
  refine ⟨_, rep_rbItems r lo hf, r.ok.sorted, fun cs => ?_, key⟩
  have := key _ (fun e => (e.1, e.2)) cs
  rw [RBMap.pairFun_eq, List.map_id] at this
  exact this

example : ∃ m, RBMap.fromIter exOrd [((3, "c"), 30), ((1, "a"), 10), ((2, "b"), 20)] = .ok m ∧ RBMap.Reach dbg64 exOrd m ∧
    RBMap.Fits dbg64 m ∧ deCalls (RBMap.iterNext dbg64 exOrd) (RBMap.iterNextBack dbg64 exOrd) (fun it => .ok it.sizeHint)
      [.back, .front, .back, .front, .back] m.iter =
      .ok [(some ((3, "c"), 30), 2), (some ((1, "a"), 10), 1), (some ((2, "b"), 20), 0), (none, 0), (none, 0)] :=
  exRB _ _ _ (by decide +kernel)

/-! ### C34, C35 -/

/-- The key is not below the start bound. -/
def AboveStart (o : OrdKeys K Q) : Bound Q → K → Bool
  | .included s, k => o.cmpQ s (o.borrow k) != .gt
  | .excluded s, k => o.cmpQ s (o.borrow k) == .lt
  | .unbounded, _ => true

/-- The key is not above the end bound. -/
def BelowEnd (o : OrdKeys K Q) : Bound Q → K → Bool
  | .included e, k => o.cmpQ (o.borrow k) e != .gt
  | .excluded e, k => o.cmpQ (o.borrow k) e == .lt
  | .unbounded, _ => true

theorem inRange_eq {o : OrdKeys K Q} (lo : o.Lawful) (start end_ : Bound Q) (k : K) :
    InRange o start end_ k = (AboveStart o start k && BelowEnd o end_ k) := by
  have h1 : IterStack.afterStart o start k = AboveStart o start k := by
    cases start with
    | unbounded => rfl
    | included s =>
      simp only [IterStack.afterStart, AboveStart]
      rw [lo.ordQ.oriented s]
      cases o.cmpQ s (o.borrow k) <;> rfl
    | excluded s =>
      simp only [IterStack.afterStart, AboveStart]
      rw [lo.ordQ.oriented s]
      cases o.cmpQ s (o.borrow k) <;> rfl
  have h2 : IterStack.beforeEnd o end_ k = BelowEnd o end_ k := by cases end_ <;> rfl
  rw [InRange, h1, h2]

/-- C34.  When `range` does not panic, any interleaving of `next` and `next_back` on its iterator answers as a double-ended
iteration of exactly those entries, in increasing order, whose keys are within both bounds; also for bounds in a borrowed form. -/
theorem C34_rb_map_range (A : Arch) (o : OrdKeys K Q) (lo : o.Lawful) (m : RBMap K V) (hm : RBMap.Reach A o m) (hf : RBMap.Fits A m)
    (start end_ : Bound Q) (it : RBRangeIter K V Q) (hit : m.range o start end_ = .ok it) :
    ∃ items, rbItems A o m = .ok items ∧ items.Pairwise (fun a b => o.cmpK a.1 b.1 = .lt) ∧
      ∀ cs, ∃ it', deAnswers (RBRangeIter.next A o) (RBRangeIter.nextBack A o) cs it =
        .ok ((deRun (items.filter fun p => AboveStart o start p.1 && BelowEnd o end_ p.1) cs).map Prod.fst, it') := by
  obtain ⟨l, r⟩ := hm.rep lo
  refine ⟨_, rep_rbItems r lo hf, r.ok.sorted, fun cs => ?_⟩
  have hn : it = RBRangeIter.new m start end_ := by
    simp only [RBMap.range] at hit
    split at hit
    · cases hit
    · split at hit
      · cases hit
      · exact (Except.ok.inj hit).symm
  subst hn
  have := RBRangeIter.new_rel (A := A) (start := start) (end_ := end_) r.ok.sorted hf.size
  obtain ⟨it', l', h1, _⟩ := deAnswers_eq (next := RBRangeIter.next A o) (nextBack := RBRangeIter.nextBack A o)
    (R := fun it rem => RBRangeIter.Rel A o m start end_ it rem) (fun s l hs => RBRangeIter.next_rel lo hf.word hs)
    (fun s l hs => RBRangeIter.nextBack_rel lo hf.word hs) cs _ _ this
  refine ⟨it', ?_⟩
  rw [h1, RBRangeIter.rangeList]
  simp only [inRange_eq lo]

example : ∃ m, RBMap.fromIter exOrd [((5, "e"), 50), ((3, "c"), 30), ((1, "a"), 10), ((2, "b"), 20), ((8, "h"), 80)] = .ok m ∧
    RBMap.Reach dbg64 exOrd m ∧ RBMap.Fits dbg64 m ∧ (do
      let it ← m.range exOrd (.excluded 1) (.included 6)
      let r ← deAnswers (RBRangeIter.next dbg64 exOrd) (RBRangeIter.nextBack dbg64 exOrd) [.back, .front, .front, .front, .back] it
      pure r.1) =
      .ok [some ((5, "e"), 50), some ((2, "b"), 20), some ((3, "c"), 30), none, none] :=
  exRB _ _ _ (by decide +kernel)

/-- C35.  `range` panics exactly when both bounds are given and the start is above the end, or both are excluded and equal. -/
theorem C35_rb_map_range_panics (o : OrdKeys K Q) (lo : o.Lawful) (m : RBMap K V) (start end_ : Bound Q) :
    (m.range o start end_ = .error .assertFailed ↔
      (∃ s e, (start = .included s ∨ start = .excluded s) ∧ (end_ = .included e ∨ end_ = .excluded e) ∧ o.cmpQ s e = .gt) ∨
      (∃ s e, start = .excluded s ∧ end_ = .excluded e ∧ o.cmpQ s e = .eq)) ∧
    ((∃ it, m.range o start end_ = .ok it) ∨ m.range o start end_ = .error .assertFailed) := by
  constructor
  · simp only [RBMap.range]
    have hq : ∀ s e, o.eqQ s e = true ↔ o.cmpQ s e = .eq := lo.ordQ.eq_iff
    cases start <;> cases end_ <;> simp [RBMap.bothExcludedEqual, RBMap.startAfterEnd, hq]
    · rename_i s e; cases h : o.cmpQ s e <;> simp <;> intro h <;> cases h
  · simp only [RBMap.range]
    split
    · exact .inr rfl
    · split
      · exact .inr rfl
      · exact .inl ⟨_, rfl⟩

example : ∃ m, RBMap.fromIter exOrd [((5, "e"), 50)] = .ok m ∧ RBMap.Reach dbg64 exOrd m ∧ RBMap.Fits dbg64 m ∧
    (pure ((m.range exOrd (.included 3) (.excluded 2)).isOk, (m.range exOrd (.excluded 2) (.excluded 2)).isOk,
      (m.range exOrd (.included 2) (.excluded 2)).isOk, (m.range exOrd (.excluded 2) .unbounded).isOk) : Res _) =
      .ok (false, false, true, true) :=
  exRB _ _ _ (by decide +kernel)

/-! ### C36 -/

/-- C36.  No operation on a reachable map panics, in particular none of the `unwrap`s, `unreachable!`s and debug assertions of
balancing fails; the same for iteration, ranges and comparison of maps that fit. -/
theorem C36_rb_map_no_panic (A : Arch) (o : OrdKeys K Q) (lo : o.Lawful) (m : RBMap K V) (hm : RBMap.Reach A o m) :
    (∀ op, ∃ r e, m.step A o op = .ok (r, e)) ∧
    (∀ q, ∃ m' m'', m.removeMut A o q = .ok (m.containsKey o q, m') ∧ m.remove A o q = .ok m'') ∧
    (∀ k v, ∃ m', m.insertMut o k v = .ok m') ∧ (∀ kvs, ∃ m', m.insertAll o kvs = .ok m') ∧
    (RBMap.Fits A m → (∀ n, ∃ x, fwCalls (RBMap.iterNext A o) RBIter.sizeHint n m.iter = .ok x) ∧
      (∀ m', RBMap.Reach A o m' → ∀ eqV p, ∃ b, m.eq A o eqV p m' = .ok b) ∧ (∀ fk fv, ∃ s, m.display A o fk fv = .ok s)) := by
  obtain ⟨l, r⟩ := hm.rep lo
  refine ⟨fun op => ?_, fun q => ?_, fun k v => ?_, fun kvs => ?_, fun hf => ⟨fun n => ?_, ?_, fun fk fv => ⟨_, r.display lo hf fk fv⟩⟩⟩
  · obtain ⟨e, h1, _⟩ := r.step lo op
    exact ⟨_, e, h1⟩
  · obtain ⟨m', h1, _⟩ := r.removeMut (A := A) lo q
    obtain ⟨m'', h2, _⟩ := r.remove (A := A) lo q
    exact ⟨m', m'', by rw [r.containsKey lo]; exact h1, h2⟩
  · obtain ⟨m', h, _⟩ := r.insertMut lo k v
    exact ⟨m', h⟩
  · obtain ⟨m', h, _⟩ := r.insertAll lo kvs
    exact ⟨m', h⟩
  · obtain ⟨_, _, h, _⟩ := C31_rb_map_iteration A o lo m hm hf
    exact ⟨_, h n⟩
  · intro m' hm' eqV p
    obtain ⟨l', r'⟩ := hm'.rep lo
    cases p with
    | true => exact ⟨true, rfl⟩
    | false => obtain ⟨b, h, _⟩ := r.eq r' lo hf eqV; exact ⟨b, h⟩

/-- C36.  The constructors succeed. -/
theorem C36_rb_map_constructors (A : Arch) (o : OrdKeys K Q) (lo : o.Lawful) :
    RBMap.Reach A o (RBMap.new : RBMap K V) ∧ ∀ kvs : List (K × V), ∃ m, RBMap.fromIter o kvs = .ok m ∧ RBMap.Reach A o m := by
  refine ⟨.init .new, fun kvs => ?_⟩
  obtain ⟨m, h, _⟩ := RBMap.fromIter_rep lo kvs
  exact ⟨m, h, .init (.fromIter h)⟩

/-- Outside the invariant the panics are there: removing below a black node whose sibling is missing, where no such tree is reachable. -/
example : RBTree.remove dbg64 exOrd (.some ((2, "b"), 20) .black (.some ((1, "a"), 10) .black .none .none) (.none : RBTree (Nat × String) Nat)) 1 =
    .error .unreachable := by decide +kernel

/-! ### C37 -/

/-- The number of nodes on the longest path from the root. -/
def pathLen : RBTree K V → Nat
  | .none => 0
  | .some _ _ l r => 1 + max (pathLen l) (pathLen r)

/-- The colors along each path from the root to an empty subtree. -/
def paths : RBTree K V → List (List Color)
  | .none => [[]]
  | .some _ c l r => (paths l ++ paths r).map (c :: ·)

/-- No two neighbours are both red. -/
def noAdjacentRed : List Color → Bool
  | .red :: .red :: _ => false
  | _ :: cs => noAdjacentRed cs
  | [] => true

theorem pathLen_eq (t : RBTree K V) : pathLen t = t.height := by
  induction t with
  | none => rfl
  | some e c l r ihl ihr => simp [pathLen, RBTree.height, ihl, ihr]

theorem paths_black (t : RBTree K V) (n : Nat) (h : t.BH n) : ∀ p ∈ paths t, p.count .black = n := by
  induction t generalizing n with
  | none => have h : n = 0 := h; subst h; simp [paths]
  | some e c l r ihl ihr =>
    intro p hp
    simp only [paths, List.mem_map, List.mem_append] at hp
    obtain ⟨p', hp', rfl⟩ := hp
    cases c with
    | red =>
      have h : l.BH n ∧ r.BH n := h
      rcases hp' with hp' | hp'
      · simpa using ihl n h.1 p' hp'
      · simpa using ihr n h.2 p' hp'
    | black =>
      cases n with
      | zero => exact absurd h (by simp [RBTree.BH])
      | succ n =>
        have h : l.BH n ∧ r.BH n := h
        rcases hp' with hp' | hp'
        · simpa using ihl n h.1 p' hp'
        · simpa using ihr n h.2 p' hp'

theorem paths_head (t : RBTree K V) (h : t.NotRed) : ∀ p ∈ paths t, p.head? ≠ some .red := by
  cases t with
  | none => simp [paths]
  | some e c l r =>
    cases c with
    | red => simp at h
    | black => intro p hp; simp only [paths, List.mem_map] at hp; obtain ⟨_, _, rfl⟩ := hp; simp

theorem paths_noRR (t : RBTree K V) (h : t.NoRR) : ∀ p ∈ paths t, noAdjacentRed p = true := by
  induction t with
  | none => simp [paths, noAdjacentRed]
  | some e c l r ihl ihr =>
    intro p hp
    simp only [paths, List.mem_map, List.mem_append] at hp
    obtain ⟨p', hp', rfl⟩ := hp
    cases c with
    | black =>
      have h : l.NoRR ∧ r.NoRR := h
      have : noAdjacentRed p' = true := by
        rcases hp' with hp' | hp'
        · exact ihl h.1 p' hp'
        · exact ihr h.2 p' hp'
      simpa [noAdjacentRed] using this
    | red =>
      have h : l.NotRed ∧ r.NotRed ∧ l.NoRR ∧ r.NoRR := h
      have h1 : noAdjacentRed p' = true := by
        rcases hp' with hp' | hp'
        · exact ihl h.2.2.1 p' hp'
        · exact ihr h.2.2.2 p' hp'
      have h2 : p'.head? ≠ some .red := by
        rcases hp' with hp' | hp'
        · exact paths_head l h.1 p' hp'
        · exact paths_head r h.2.1 p' hp'
      rcases p' with _ | ⟨_ | _, p'⟩
      · rfl
      · simp at h2
      · simpa [noAdjacentRed] using h1

/-- C37.  The tree of every reachable map is a red-black tree: no red node has a red child, all paths have the same number of black
nodes, the root is black; hence its height is at most `2 * log2 (size + 1)`. -/
theorem C37_rb_map_balanced (A : Arch) (o : OrdKeys K Q) (lo : o.Lawful) (m : RBMap K V) (hm : RBMap.Reach A o m) :
    (∀ p ∈ paths m.root, noAdjacentRed p = true) ∧ (∃ n, ∀ p ∈ paths m.root, p.count .black = n) ∧
    (∀ p ∈ paths m.root, p.head? ≠ some .red) ∧ pathLen m.root ≤ 2 * Nat.log2 (m.getSize + 1) := by
  obtain ⟨l, r⟩ := hm.rep lo
  obtain ⟨n, hn⟩ := r.ok.bh
  refine ⟨paths_noRR _ r.ok.noRR, ⟨n, paths_black _ n hn⟩, paths_head _ r.ok.root, ?_⟩
  rw [pathLen_eq, RBMap.getSize, r.size']
  exact r.ok.height_le

/-- C37.  The stacks of an iterator, over the whole map or a range, never hold more nodes than the capacity reserved for them, at any
time: between calls, and within a call before finished stacks are cleared. -/
theorem C37_rb_iter_stack_capacity (A : Arch) (o : OrdKeys K Q) (lo : o.Lawful) (m : RBMap K V) (hm : RBMap.Reach A o m)
    (hf : RBMap.Fits A m) (start end_ : Bound Q) (cs : List End) :
    ∃ answers it, deAnswers (RBRangeIter.next A o) (RBRangeIter.nextBack A o) cs (RBRangeIter.new m start end_) = .ok (answers, it) ∧
      ∀ s, it.stackForward = some s ∨ it.stackBackward = some s →
        s.stack.length ≤ s.cap ∧ s.cap = 2 * Nat.log2 (m.getSize + 1) + 1 ∧
        (∀ n rest, s.stack = n :: rest →
          (IterStack.digChild { s with stack := rest } (if s.backwards then n.left else n.right)).stack.length ≤ s.cap) ∧
        ∀ b, (IterStack.digTowards o start end_ ⟨[], b, s.cap⟩ m.root).stack.length ≤ s.cap := by
  obtain ⟨l, r⟩ := hm.rep lo
  have := RBRangeIter.new_rel (A := A) (start := start) (end_ := end_) r.ok.sorted hf.size
  obtain ⟨it, l', h1, h2⟩ := deAnswers_eq (next := RBRangeIter.next A o) (nextBack := RBRangeIter.nextBack A o)
    (R := fun it rem => RBRangeIter.Rel A o m start end_ it rem) (fun s l hs => RBRangeIter.next_rel lo hf.word hs)
    (fun s l hs => RBRangeIter.nextBack_rel lo hf.word hs) cs _ _ this
  refine ⟨_, it, h1, ?_⟩
  intro s hs
  have room : IterStack.Room m.root.height (2 * Nat.log2 (m.size + 1) + 1) s := by
    obtain ⟨i, j, _, _, h3, h4⟩ := h2.stacks
    rcases hs with hs | hs
    · rw [hs] at h3; exact h3.2
    · rw [hs] at h4; exact h4.2
  have hh : m.root.height ≤ 2 * Nat.log2 (m.size + 1) := by rw [r.size']; exact r.ok.height_le
  have hc := room.cap
  have hl := room.chain.length_le
  refine ⟨by omega, hc, fun n rest hst => ?_, fun b => ?_⟩
  · have hch := room.chain
    rw [hst] at hch
    have hp := List.pairwise_cons.1 hch.1
    have hn := hch.2 n (by simp)
    have hlt : (if s.backwards then n.left else n.right).height < n.ptr.height := by
      cases s.backwards <;> simp [RBNode.ptr, RBTree.height] <;> omega
    have := (IterStack.digChild_chain (H := m.root.height) (if s.backwards then n.left else n.right) { s with stack := rest }
      ⟨hp.2, fun x hx => hch.2 x (by simp [hx])⟩ (by omega) (fun x hx => by have := hp.1 x hx; omega)).length_le
    omega
  · have := (IterStack.digTowards_chain (o := o) (start := start) (end_ := end_) (H := m.root.height) m.root ⟨[], b, s.cap⟩
      ⟨.nil, by simp⟩ (Nat.le_refl _) (by simp)).length_le
    omega

example : ∃ m, RBMap.fromIter exOrd ((List.range 12).map fun i => ((i, "k"), i)) = .ok m ∧ RBMap.Reach dbg64 exOrd m ∧ RBMap.Fits dbg64 m ∧
    (pure (pathLen m.root, 2 * Nat.log2 (m.getSize + 1), m.root.color) : Res _) = .ok (5, 6, some .black) :=
  exRB _ _ _ (by decide +kernel)

/-! ### C38 -/

/-- C38.  `get_mut` finds a value exactly when `get` does, and writing through it changes the value of that key only: every lookup
answers as before, with the value of that key replaced; the size and the keys stay. -/
theorem C38_rb_map_get_mut_local (A : Arch) (o : OrdKeys K Q) (lo : o.Lawful) (m : RBMap K V) (hm : RBMap.Reach A o m) (q : Q) (f : V → V) :
    (m.getMut o q f).1 = m.get o q ∧ (m.getMut o q f).2.getSize = m.getSize ∧
    (∀ q', (m.getMut o q f).2.getKeyValue o q' =
      (m.getKeyValue o q').map fun p => if o.cmpQ q (o.borrow p.1) = .eq then (p.1, f p.2) else p) ∧
    (RBMap.Fits A m → ∃ items, rbItems A o m = .ok items ∧ rbItems A o (m.getMut o q f).2 =
      .ok (items.map fun p => if o.cmpQ q (o.borrow p.1) = .eq then (p.1, f p.2) else p)) := by
  obtain ⟨l, r⟩ := hm.rep lo
  obtain ⟨h1, h2⟩ := r.getMut lo q f
  obtain ⟨_, h4, _⟩ := r.ok.getMut lo q f
  have hsz : (m.getMut o q f).2.getSize = m.getSize := rfl
  refine ⟨by rw [h1, r.get lo], hsz, fun q' => ?_, fun hf => ⟨_, rep_rbItems r lo hf, ?_⟩⟩
  · rw [h2.getKeyValue lo, r.getKeyValue lo, mapGet_modify]
    simp only [OrdKeys.hits, beq_iff_eq]
  · rw [rep_rbItems h2 lo ⟨hf.word, by have := hf.size; simp only [RBMap.getSize] at hsz; rw [hsz]; exact this⟩]
    simp only [RBMap.getMut]
    rw [h4, mapModify]
    simp only [OrdKeys.hits, beq_iff_eq]

example : ∃ m, RBMap.fromIter exOrd [((3, "c"), 30), ((1, "a"), 10), ((2, "b"), 20)] = .ok m ∧ RBMap.Reach dbg64 exOrd m ∧
    RBMap.Fits dbg64 m ∧ (do pure (← rbItems dbg64 exOrd m, ← rbItems dbg64 exOrd (m.getMut exOrd 1 (· + 5)).2)) =
      (.ok ([((1, "a"), 10), ((2, "b"), 20), ((3, "c"), 30)], [((1, "a"), 15), ((2, "b"), 20), ((3, "c"), 30)]) : Res _) :=
  exRB _ _ _ (by decide +kernel)

/-! ### C39 -/

/-- Two maps have the same keys with equal values. -/
def SameRBMap (o : OrdKeys K Q) (eqV : V → V → Bool) (a b : RBMap K V) : Prop :=
  ∀ k, match a.get o.self k, b.get o.self k with
    | none, none => True
    | some v, some w => eqV v w = true
    | _, _ => False

theorem self_hits {o : OrdKeys K Q} (lo : o.Lawful) : o.self.hits = o.same := by
  funext p k
  simp only [OrdKeys.hits, OrdKeys.self, OrdKeys.same, id]
  rw [lo.swapK p k]
  cases o.cmpK p k <;> rfl

theorem sameRBMap_iff {o : OrdKeys K Q} (lo : o.Lawful) (eqV : V → V → Bool) {a b : RBMap K V} {l l' : List (K × V)} (r : a.Rep o l)
    (r' : b.Rep o l') : SameRBMap o eqV a b ↔ MapEq o.same eqV l l' := by
  unfold SameRBMap MapEq
  refine forall_congr' fun key => ?_
  rw [r.self.get lo.self, r'.self.get lo.self, self_hits lo]
  cases mapGet o.same l key <;> cases mapGet o.same l' key <;> simp

/-- C39.  `==` decides whether two maps have the same keys with equal values, whatever their shapes.  The short-cut for maps that share
their root never changes the answer when `==` of values is reflexive. -/
theorem C39_rb_map_eq_extensional (A : Arch) (o : OrdKeys K Q) (lo : o.Lawful) (eqV : V → V → Bool) (a b : RBMap K V)
    (ha : RBMap.Reach A o a) (hb : RBMap.Reach A o b) (hf : RBMap.Fits A a) :
    (∃ r, a.eq A o eqV false b = .ok r ∧ (r = true ↔ SameRBMap o eqV a b)) ∧
    ((∀ v, eqV v v = true) → a.root = b.root → a.eq A o eqV true b = a.eq A o eqV false b) := by
  obtain ⟨l, r⟩ := ha.rep lo
  obtain ⟨l', r'⟩ := hb.rep lo
  obtain ⟨x, h1, h2⟩ := r.eq r' lo hf eqV
  refine ⟨⟨x, h1, by rw [h2, sameRBMap_iff lo eqV r r']⟩, fun hv hr => ?_⟩
  have hp : l.Perm l' := by
    have := r.perm
    rw [hr] at this
    exact this.symm.trans r'.perm
  have : x = true := h2.2 (MapEq.perm lo.equivK hv (r.distinct lo) hp)
  rw [h1, this]; rfl

/-- C39.  `cmp` is the lexicographic order of the items iteration yields (keys first, then values); `partial_cmp` agrees with it.  It
is a total order on maps, whose `Equal` is exactly `==`. -/
theorem C39_rb_map_order (A : Arch) (o : OrdKeys K Q) (lo : o.Lawful) (cmpV : V → V → Ordering) (eqV : V → V → Bool)
    (lv : LawfulOrd cmpV eqV) (a b c : RBMap K V) (ha : RBMap.Reach A o a) (hb : RBMap.Reach A o b) (hc : RBMap.Reach A o c)
    (fa : RBMap.Fits A a) (fb : RBMap.Fits A b) (fc : RBMap.Fits A c) :
    ∃ as bs oab oba obc oac, rbItems A o a = .ok as ∧ rbItems A o b = .ok bs ∧
      a.cmp A o cmpV b = .ok oab ∧ b.cmp A o cmpV a = .ok oba ∧ b.cmp A o cmpV c = .ok obc ∧ a.cmp A o cmpV c = .ok oac ∧
      oab = lexCmp (fun x y => (o.cmpK x.1 y.1).then (cmpV x.2 y.2)) as bs ∧
      a.partialCmp A o (fun v w => some (cmpV v w)) b = .ok (some oab) ∧
      (oab = .eq ↔ a.eq A o eqV false b = .ok true) ∧
      oba = oab.swap ∧ (oab.isLE → obc.isLE → oac.isLE) := by
  obtain ⟨l, r⟩ := ha.rep lo
  obtain ⟨l', r'⟩ := hb.rep lo
  obtain ⟨l'', r''⟩ := hc.rep lo
  have law := lexCmp_lawful (RBMap.cmpPair_lawful lo lv)
  refine ⟨_, _, _, _, _, _, rep_rbItems r lo fa, rep_rbItems r' lo fb, r.cmp r' lo fa fb cmpV, r'.cmp r lo fb fa cmpV,
    r'.cmp r'' lo fb fc cmpV, r.cmp r'' lo fa fc cmpV, ?_, ?_, ?_, law.oriented _ _, law.trans _ _ _⟩
  · have : RBMap.cmpPair o cmpV = fun x y => (o.cmpK x.1 y.1).then (cmpV x.2 y.2) := by
      funext x y
      simp only [RBMap.cmpPair]
      cases o.cmpK x.1 y.1 <;> rfl
    rw [this]
  · rw [r.partialCmp r' lo fa fb, RBMap.partialCmpPair_total, lexPartialCmp_total]
  · obtain ⟨x, h1, h2⟩ := (r.congr r.perm.symm).eq (r'.congr r'.perm.symm) lo fa eqV
    rw [h1, ← law.eq_iff, ← RBMap.mapEq_sorted lo eqV r.ok.sorted r'.ok.sorted, ← h2]
    cases x <;> simp

/-- C39.  Equal maps feed the same stream to the hasher: the size and then each key and value in order, where equal keys and equal
values are assumed to feed the same. -/
theorem C39_rb_map_hash (A : Arch) (o : OrdKeys K Q) (lo : o.Lawful) (eqV : V → V → Bool) (a b : RBMap K V)
    (ha : RBMap.Reach A o a) (hb : RBMap.Reach A o b) (fa : RBMap.Fits A a) (fb : RBMap.Fits A b) (hashUsize : S → Nat → S)
    (hashK : S → K → S) (hashV : S → V → S) (hk : ∀ s k k', o.cmpK k k' = .eq → hashK s k = hashK s k')
    (hv : ∀ s v v', eqV v v' = true → hashV s v = hashV s v') (heq : a.eq A o eqV false b = .ok true) (state : S) :
    ∃ as st, rbItems A o a = .ok as ∧ a.hash A o hashUsize hashK hashV state = .ok st ∧ b.hash A o hashUsize hashK hashV state = .ok st ∧
      st = as.foldl (fun s e => hashV (hashK s e.1) e.2) (hashUsize state as.length) := by
  obtain ⟨l, r⟩ := ha.rep lo
  obtain ⟨l', r'⟩ := hb.rep lo
  refine ⟨_, _, rep_rbItems r lo fa, r.hash lo fa hashUsize hashK hashV state, ?_, rfl⟩
  obtain ⟨x, h1, h2⟩ := (r.congr r.perm.symm).eq (r'.congr r'.perm.symm) lo fa eqV
  rw [h1] at heq
  have hs := (RBMap.mapEq_sorted lo eqV r.ok.sorted r'.ok.sorted).1 (h2.1 (by cases heq; rfl))
  rw [r'.hash lo fb, seqEq_length hs]
  refine congrArg Except.ok (foldl_congr_seqEq (eq := RBMap.eqPair o eqV) _ ?_ _ _ _ hs).symm
  intro s p p' hp
  simp only [RBMap.eqPair, Bool.and_eq_true, OrdKeys.same, beq_iff_eq] at hp
  rw [hk s _ _ hp.1, hv _ _ _ hp.2]

/-- Different insertion orders, same contents; then the comparison with a map that differs in one value. -/
example : ((do
    let a ← RBMap.fromIter exOrd [((1, "a"), 10), ((2, "b"), 20), ((3, "c"), 30)]
    let b ← RBMap.fromIter exOrd [((3, "x"), 30), ((2, "y"), 21), ((1, "z"), 10), ((2, "b"), 20)]
    let c ← RBMap.fromIter exOrd [((3, "x"), 30), ((2, "y"), 21), ((1, "z"), 10)]
    let r ← a.eq dbg64 exOrd (fun v w => v == w) false b
    let s ← a.eq dbg64 exOrd (fun v w => v == w) false c
    let x ← a.cmp dbg64 exOrd (fun v w => compare v w) b
    let y ← a.cmp dbg64 exOrd (fun v w => compare v w) c
    let h ← a.hash dbg64 exOrd (fun s n => s ++ [n]) (fun s k => s ++ [k.1]) (fun s v => s ++ [v]) []
    let h' ← b.hash dbg64 exOrd (fun s n => s ++ [n]) (fun s k => s ++ [k.1]) (fun s v => s ++ [v]) []
    pure ([decide (a.root = b.root), r, s], [x, y], [h, h'])) : Res (List Bool × List Ordering × List (List Nat))) =
    .ok ([false, true, false], [.eq, .lt], [[3, 1, 10, 2, 20, 3, 30], [3, 1, 10, 2, 20, 3, 30]]) := by decide +kernel

/-! ### C40 -/

/-- C40.  `RedBlackTreeSet`: any history of operations over any number of versions gives the answers of plain finite sets; iterating
from both ends in any order gives exactly the elements in increasing order; `first`, `last` are the ends of that order. -/
theorem C40_rb_set_refines_finite_set (A : Arch) (o : OrdKeys T Q) (lo : o.Lawful) (inits : List (List T)) :
    ∃ ss, inits.mapM (RBSet.fromIter o) = .ok ss ∧ ∀ h : List (Nat × SetOp T Q), ∃ answers versions sets,
      runHistory (fun l op => .ok (setStep o.same o.hits l op)) (inits.map fun p => p.foldl (setInsert o.same) []) h =
        .ok (answers, sets) ∧
      runHistory (RBSet.step A o) ss h = .ok (answers, versions) ∧
      List.Forall₂ (fun s l => ∃ items : List T, items.Perm l ∧ items.Pairwise (fun a b => o.cmpK a b = .lt) ∧ s.first = items.head? ∧
        s.last = items.getLast? ∧ (RBMap.Fits A s.map → rbSetItems A o s = .ok items ∧
          ∀ cs, deCalls (RBSet.iterNext A o) (RBSet.iterNextBack A o) (fun it => .ok it.sizeHint) cs s.iter = .ok (deRun items cs)))
        versions sets := by
  have h0 : ∃ ss, inits.mapM (RBSet.fromIter o) = .ok ss ∧ List.Forall₂ (fun s l => RBSet.Rep o s l) ss
      (inits.map fun p => p.foldl (setInsert o.same) []) := by
    induction inits with
    | nil => exact ⟨[], rfl, .nil⟩
    | cons p ps ih =>
      obtain ⟨ms, e1, e2⟩ := ih
      obtain ⟨m, n1, n2⟩ := RBSet.fromIter_rep lo p
      exact ⟨m :: ms, by simp [List.mapM_cons, n1, e1], .cons n2 e2⟩
  obtain ⟨ss, e1, e2⟩ := h0
  refine ⟨ss, e1, fun h => ?_⟩
  obtain ⟨rs, vs, ws, f1, f2, f3⟩ := runHistory_sim (R := fun s l => RBSet.Rep o s l) (step := RBSet.step A o)
    (spec := setStep o.same o.hits) (fun s a op h => h.step lo op) h _ _ e2
  refine ⟨rs, vs, ws, f2, f1, ?_⟩
  clear f1 f2
  induction f3 with
  | nil => exact .nil
  | cons hr _ ih =>
    refine .cons ⟨_, hr.items_perm, hr.items_sorted, hr.first, hr.last, fun hf => ⟨rep_rbSetItems hr lo hf, fun cs => ?_⟩⟩ ih
    refine deCalls_eq (R := RBIter.MapRel A o _ fun e => e.1) ?_ ?_ ?_ cs _ _ (RBMap.Rep.iterRel hr hf fun e => e.1)
    · intro s l hs; exact RBIter.mapNext_rel lo hf.word hs
    · intro s l hs; exact RBIter.mapNextBack_rel lo hf.word hs
    · rintro s l ⟨r, rfl, h⟩; simpa [RBIter.sizeHint] using h.size

/-- C40.  `range` of a set panics exactly when that of a map does, and otherwise yields, from both ends in any order, exactly the
elements within the bounds, in increasing order. -/
theorem C40_rb_set_range (A : Arch) (o : OrdKeys T Q) (lo : o.Lawful) (s : RBSet T) (hs : RBSet.Reach A o s) (hf : RBMap.Fits A s.map)
    (start end_ : Bound Q) :
    (s.range o start end_ = .error .assertFailed ↔
      (∃ s e, (start = .included s ∨ start = .excluded s) ∧ (end_ = .included e ∨ end_ = .excluded e) ∧ o.cmpQ s e = .gt) ∨
      (∃ s e, start = .excluded s ∧ end_ = .excluded e ∧ o.cmpQ s e = .eq)) ∧
    ∀ it, s.range o start end_ = .ok it → ∃ items, rbSetItems A o s = .ok items ∧ items.Pairwise (fun a b => o.cmpK a b = .lt) ∧
      ∀ cs, ∃ it', deAnswers (RBSet.rangeNext A o) (RBSet.rangeNextBack A o) cs it =
        .ok ((deRun (items.filter fun p => AboveStart o start p && BelowEnd o end_ p) cs).map Prod.fst, it') := by
  obtain ⟨l, r⟩ := hs.rep lo
  refine ⟨(C35_rb_map_range_panics o lo s.map start end_).1, fun it hit => ⟨_, rep_rbSetItems r lo hf, r.items_sorted, fun cs => ?_⟩⟩
  have hn : it = RBRangeIter.new s.map start end_ := by
    simp only [RBSet.range, RBMap.range] at hit
    split at hit
    · cases hit
    · split at hit
      · cases hit
      · exact (Except.ok.inj hit).symm
  subst hn
  have hrel := RBRangeIter.new_rel (A := A) (start := start) (end_ := end_) (RBMap.Rep.ok r).sorted hf.size
  obtain ⟨it', l', h1, _⟩ := deAnswers_eq (next := RBSet.rangeNext A o) (nextBack := RBSet.rangeNextBack A o)
    (R := fun it rem => ∃ x, rem = x.map (fun e => e.1) ∧ RBRangeIter.Rel A o s.map start end_ it x)
    (fun it l ⟨x, hx, hr⟩ => by
      obtain ⟨it', g1, g2⟩ := RBRangeIter.next_rel lo hf.word hr
      exact ⟨it', by simp [RBSet.rangeNext, g1, hx], x.tail, by simp [hx], g2⟩)
    (fun it l ⟨x, hx, hr⟩ => by
      obtain ⟨it', g1, g2⟩ := RBRangeIter.nextBack_rel lo hf.word hr
      exact ⟨it', by simp [RBSet.rangeNextBack, g1, hx], x.dropLast, by simp [hx, List.map_dropLast], g2⟩)
    cs _ _ ⟨_, rfl, hrel⟩
  refine ⟨it', ?_⟩
  rw [h1, RBRangeIter.rangeList, RBSet.items, List.filter_map]
  simp only [inRange_eq lo, Function.comp_def]

/-- C40.  `get` returns the most recently inserted equal element; `contains` says whether `get` finds one. -/
theorem C40_rb_set_get_latest (A : Arch) (o : OrdKeys T Q) (lo : o.Lawful) (s : RBSet T) (hs : RBSet.Reach A o s) (v : T) :
    (∀ q, s.contains o q = (s.get o q).isSome) ∧
    ∃ s', s.insertMut o v = .ok s' ∧ s.insert o v = .ok s' ∧
      ∀ q, s'.get o q = if o.cmpQ q (o.borrow v) = .eq then some v else s.get o q := by
  obtain ⟨l, r⟩ := hs.rep lo
  obtain ⟨m', h1, h2⟩ := RBMap.Rep.insertMut r lo v ()
  refine ⟨fun q => by rw [r.contains lo, r.get lo], ⟨m'⟩, by simp [RBSet.insertMut, h1], by simp [RBSet.insert, RBMap.insert, RBMap.clone_eq, h1], fun q => ?_⟩
  simp only [RBSet.get]
  rw [h2.getKeyValue lo, RBMap.Rep.getKeyValue r lo, mapGet_insert lo.keyLaws]
  simp only [OrdKeys.hits, beq_iff_eq]
  split <;> rfl

example : ((do
    let a ← RBSet.fromIter exOrd [(3, "c"), (1, "a"), (2, "b")]
    let r ← runHistory (RBSet.step dbg64 exOrd) [a]
      [(0, .insertMut (4, "d")), (0, .insert (1, "A")), (0, .get 1), (1, .get 1), (0, .removeMut 1), (0, .contains 1), (1, .size), (0, .size),
       (0, .removeMut 9)]
    pure r.1) : Res (List (Option (SetRet (Nat × String))))) =
    .ok [some .unit, some .unit, some (.opt (some (1, "a"))), some (.opt (some (1, "A"))), some (.bool true), some (.bool false),
      some (.nat 4), some (.nat 3), some (.bool false)] := by decide +kernel

example : ((do
    let a ← RBSet.fromIter exOrd [(3, "c"), (1, "a"), (2, "b"), (4, "d")]
    let items ← rbSetItems dbg64 exOrd a
    let it ← a.range exOrd (.included 2) (.excluded 4)
    let x ← deAnswers (RBSet.rangeNext dbg64 exOrd) (RBSet.rangeNextBack dbg64 exOrd) [.front, .back, .back] it
    pure (items, x.1)) : Res (List (Nat × String) × List (Option (Nat × String)))) =
    .ok ([(1, "a"), (2, "b"), (3, "c"), (4, "d")], [some (2, "b"), some (3, "c"), none]) := by decide +kernel

/-! ### C41 -/

/-- The element is in the set. -/
def InRBSet (o : OrdKeys T Q) (s : RBSet T) (a : T) : Prop := s.contains o.self a = true

theorem inRBSet_iff {o : OrdKeys T Q} (lo : o.Lawful) {s : RBSet T} {l : List T} (r : s.Rep o l) (a : T) :
    InRBSet o s a ↔ Mem o.same l a := by
  rw [InRBSet, RBSet.Rep.contains (o := o.self) (RBMap.Rep.self r) lo.self, self_hits lo, ← setGet_isSome]

/-- C41.  The merge loops decide exactly the relations between sets, and the short-cut for sets sharing their root does not change
the answers. -/
theorem C41_rb_set_relations (A : Arch) (o : OrdKeys T Q) (lo : o.Lawful) (s t : RBSet T) (hs : RBSet.Reach A o s) (ht : RBSet.Reach A o t)
    (fs : RBMap.Fits A s.map) (ft : RBMap.Fits A t.map) :
    (∃ b, s.isSubset A o false t = .ok b ∧ (b = true ↔ ∀ a, InRBSet o s a → InRBSet o t a)) ∧
    (∃ b, s.isSuperset A o false t = .ok b ∧ (b = true ↔ ∀ a, InRBSet o t a → InRBSet o s a)) ∧
    (∃ b, s.isDisjoint A o t = .ok b ∧ (b = true ↔ ∀ a, ¬ (InRBSet o s a ∧ InRBSet o t a))) ∧
    (∃ b, s.eq A o false t = .ok b ∧ (b = true ↔ ∀ a, InRBSet o s a ↔ InRBSet o t a)) ∧
    (s.map.root = t.map.root → s.eq A o true t = s.eq A o false t ∧ s.isSubset A o true t = s.isSubset A o false t ∧
      s.isSuperset A o true t = s.isSuperset A o false t) := by
  obtain ⟨l, r⟩ := hs.rep lo
  obtain ⟨l', r'⟩ := ht.rep lo
  obtain ⟨b, h1, h2⟩ := r.isSubset r' lo fs ft
  obtain ⟨c, g1, g2⟩ := r'.isSubset r lo ft fs
  obtain ⟨d, e1, e2⟩ := r.isDisjoint r' lo fs ft
  obtain ⟨x, f1, f2⟩ := r.eq r' lo fs
  refine ⟨⟨b, h1, ?_⟩, ⟨c, g1, ?_⟩, ⟨d, e1, ?_⟩, ⟨x, f1, ?_⟩, fun hr => ?_⟩
  · simp only [h2, Spec.Subset, inRBSet_iff lo r, inRBSet_iff lo r']
  · simp only [g2, Spec.Subset, inRBSet_iff lo r, inRBSet_iff lo r']
  · simp only [e2, Spec.Disjoint, inRBSet_iff lo r, inRBSet_iff lo r']
  · simp only [f2, SameElems, inRBSet_iff lo r, inRBSet_iff lo r']
  · have hp : l.Perm l' := by
      have e1 := r.items_perm
      have e2 := r'.items_perm
      rw [RBSet.items, hr] at e1
      exact e1.symm.trans e2
    have hb : b = true := h2.2 fun a h => (Mem.perm hp a).1 h
    have hc : c = true := g2.2 fun a h => (Mem.perm hp a).2 h
    have hx : x = true := f2.2 fun a => Mem.perm hp a
    refine ⟨by rw [f1, hx]; rfl, by rw [h1, hb]; rfl, ?_⟩
    rw [RBSet.isSuperset, RBSet.isSuperset, g1, hc]; rfl

example : ((do
    let a ← RBSet.fromIter exOrd [(1, "a"), (3, "b")]
    let b ← RBSet.fromIter exOrd [(3, "c"), (2, "y"), (1, "z")]
    let c ← RBSet.fromIter exOrd [(4, "c"), (2, "x"), (0, "y")]
    let x ← a.isSubset dbg64 exOrd false b
    let y ← a.isSuperset dbg64 exOrd false b
    let z ← a.isDisjoint dbg64 exOrd c
    let w ← a.isDisjoint dbg64 exOrd b
    let v ← b.isSubset dbg64 exOrd false c
    pure [x, y, z, w, v]) : Res (List Bool)) = .ok [true, false, true, false, false] := by decide +kernel

end Rpds.Props
