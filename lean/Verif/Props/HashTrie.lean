import Verif.Props.Vector
import Verif.HashTrie.Shape
import Verif.HashTrie.Set
import Verif.HashTrie.Rayon
/-
Properties C16–C29: `HashTrieMap`, `HashTrieSet` and the parallel iterator.

`o` gives the key operations: `Eq` and `Hash` of keys and of their borrowed form, for an arbitrary 64 bit hash function of the
hasher; `o.Lawful` are the laws the Rust documentation asks of them.  Word sizes are 16, 32 and 64 bits.
-/
set_option autoImplicit false
namespace Rpds.Props
open Spec
variable {H H' K V Q T F : Type}

/-- What a program sees when it iterates a map to the end. -/
def mapItems (m : HTMap H K V) : Res (List (K × V)) := drain HTMap.iterNext (m.getSize + 1) m.iter

/-- What a program sees when it iterates a set to the end. -/
def setItems (s : HTSet H T) : Res (List T) := drain HTSet.iterNext (s.size + 1) s.iter

theorem rep_mapItems {A : Arch} {o : HashKeys H K Q} {k : Nat} {m : HTMap H K V} {l : List (K × V)} (r : m.Rep A o k l) :
    mapItems m = .ok (m.root.entries.map HTMap.pair) := r.serialize

theorem rep_setItems {A : Arch} {o : HashKeys H T Q} {k : Nat} {s : HTSet H T} {l : List T} (r : s.Rep A o k l) :
    setItems s = .ok s.items := r.serialize

/-- `new_with_hasher_and_degree(hasher, degree)` and inserting pairs. -/
def htBuild (A : Arch) (o : HashKeys H K Q) (p : H × Nat × List (K × V)) : Res (HTMap H K V) := do
  let m ← HTMap.newWithDegree A p.1 p.2.1
  m.insertAll A o p.2.2

/-- `new_with_hasher_and_degree(hasher, degree)` and inserting elements. -/
def htSetBuild (A : Arch) (o : HashKeys H T Q) (p : H × Nat × List T) : Res (HTSet H T) := do
  let s ← HTSet.newWithDegree A p.1 p.2.1
  s.insertAll A o p.2.2

/-- Degrees the code accepts and that work: powers of two from 2 to the word size. -/
def GoodDegree (A : Arch) (d : Nat) : Prop := ∃ b, 1 ≤ b ∧ d = 2 ^ b ∧ d ≤ A.W

theorem goodDegree_new {A : Arch} (hA : HTMap.StdWord A) {d : Nat} (h : GoodDegree A d) (hasher : H) :
    ∃ k, ∃ m : HTMap H K V, HTMap.newWithDegree A hasher d = .ok m ∧ HConf A k ∧ m = ⟨HNode.newEmptyBranch, 0, 2 ^ k, hasher⟩ := by
  obtain ⟨b, h1, rfl, h3⟩ := h
  have hW : A.W % 256 = A.W ∧ A.W ≤ 64 := by rcases hA with h | h | h <;> rw [h] <;> decide
  have hb : b ≤ 7 := by
    rcases Nat.lt_or_ge 7 b with h | h
    · have : 2 ^ 8 ≤ 2 ^ b := Nat.pow_le_pow_right (by decide) h
      omega
    · exact h
  refine ⟨b, ⟨HNode.newEmptyBranch, 0, 2 ^ b, hasher⟩, ?_, ⟨h1, hb, h3⟩, rfl⟩
  simp only [HTMap.newWithDegree, isPow2_pow hb, assertRt, if_true, Res.ok_bind, hW.1, h3, decide_true]
  rfl

theorem htBuild_rep {A : Arch} {o : HashKeys H K Q} (hA : HTMap.StdWord A) (lo : o.Lawful) (p : H × Nat × List (K × V))
    (hd : GoodDegree A p.2.1) :
    ∃ m, htBuild A o p = .ok m ∧ m.Repr A o (p.2.2.foldl (fun l kv => mapInsert o.eqK l kv.1 kv.2) []) := by
  obtain ⟨k, m, h1, h2, rfl⟩ := goodDegree_new (K := K) (V := V) hA hd p.1
  obtain ⟨m', h3, h4, _⟩ := (HTMap.rep_empty (o := o) h2 p.1).insertAll lo p.2.2
  exact ⟨m', by simp [htBuild, h1, h3], k, h4⟩

theorem htSetBuild_rep {A : Arch} {o : HashKeys H T Q} (hA : HTMap.StdWord A) (lo : o.Lawful) (p : H × Nat × List T)
    (hd : GoodDegree A p.2.1) :
    ∃ s, htSetBuild A o p = .ok s ∧ ∃ k, s.Rep A o k (p.2.2.foldl (setInsert o.eqK) []) := by
  obtain ⟨k, m, h1, h2, rfl⟩ := goodDegree_new (K := T) (V := Unit) hA hd p.1
  obtain ⟨s, h3, h4⟩ := HTSet.Rep.insertAll (s := ⟨⟨HNode.newEmptyBranch, 0, 2 ^ k, p.1⟩⟩) (l := [])
    (HTMap.rep_empty (o := o) h2 p.1) lo p.2.2
  exact ⟨s, by simp [htSetBuild, HTSet.newWithDegree, h1, h3], k, h4⟩

/-- Keys for examples: a number and a name, equal when the numbers are, looked up by number; the hasher `h` gives the hash
`n % h`, so that `1` makes all keys collide. -/
def exKeys : HashKeys Nat (Nat × String) Nat where
  borrow := Prod.fst
  hashK h k := UInt64.ofNat (k.1 % h)
  hashQ h q := UInt64.ofNat (q % h)
  eqK a b := a.1 == b.1
  eqQ a b := a == b

theorem exKeys_lawful : exKeys.Lawful where
  equivQ := ⟨by simp [exKeys], fun a b h => by simp only [exKeys, beq_iff_eq] at *; exact h.symm,
    fun a b c h1 h2 => by simp only [exKeys, beq_iff_eq] at *; exact h1.trans h2⟩
  eq_borrow _ _ := rfl
  hash_borrow _ _ := rfl
  hash_eq h a b := by simp only [exKeys, beq_iff_eq]; rintro rfl; rfl

theorem dbg64_std : HTMap.StdWord dbg64 := .inr (.inr rfl)

theorem insertAll_reach {A : Arch} {o : HashKeys H K Q} (kvs : List (K × V)) {m m' : HTMap H K V} (h : HTMap.Reach A o m)
    (h' : m.insertAll A o kvs = .ok m') : HTMap.Reach A o m' := by
  induction kvs generalizing m with
  | nil => cases h'; exact h
  | cons p kvs ih =>
    simp only [HTMap.insertAll] at h'
    cases hi : m.insertMut A o p.1 p.2 with
    | error e => rw [hi] at h'; simp at h'
    | ok m1 =>
      rw [hi] at h'
      exact ih (.update (op := .insertMut p.1 p.2) (r := .unit) h (by simp [HTMap.step, hi])) h'

/-- For examples: what is computed from a map built from scratch is computed from a reachable map. -/
theorem exMap {β : Type} (p : Nat × Nat × List ((Nat × String) × Nat)) (f : HTMap Nat (Nat × String) Nat → Res β) (b : β)
    (h2 : 2 ≤ p.2.1) (h : (htBuild dbg64 exKeys p).bind f = .ok b) :
    ∃ m, htBuild dbg64 exKeys p = .ok m ∧ HTMap.Reach dbg64 exKeys m ∧ f m = .ok b := by
  cases hm : htBuild dbg64 exKeys p with
  | error e => rw [hm] at h; cases h
  | ok m =>
    rw [hm] at h
    refine ⟨m, rfl, ?_, h⟩
    simp only [htBuild] at hm
    cases hn : HTMap.newWithDegree (K := Nat × String) (V := Nat) dbg64 p.1 p.2.1 with
    | error e => rw [hn] at hm; cases hm
    | ok m0 =>
      rw [hn] at hm
      exact insertAll_reach _ (.init (.newWithDegree h2 hn)) hm

/-! ### C16 -/

/-- C16.  Start from any maps of any valid degrees, hashers and contents and run any history of operations over any number of
versions.  For every lawful hash function, constant ones included, the maps give the answers of plain finite maps, and iterating
gives exactly the pairs of the finite map. -/
theorem C16_hash_map_refines_finite_map (A : Arch) (hA : HTMap.StdWord A) (o : HashKeys H K Q) (lo : o.Lawful)
    (inits : List (H × Nat × List (K × V))) (hin : ∀ p ∈ inits, GoodDegree A p.2.1) :
    ∃ ms, inits.mapM (htBuild A o) = .ok ms ∧ ∀ h : List (Nat × MapOp K V Q), ∃ answers versions maps,
      runHistory (fun l op => .ok (mapStep o.eqK o.eqKQ l op))
        (inits.map fun p => p.2.2.foldl (fun l kv => mapInsert o.eqK l kv.1 kv.2) []) h = .ok (answers, maps) ∧
      runHistory (HTMap.step A o) ms h = .ok (answers, versions) ∧
      List.Forall₂ (fun m l => ∃ items, mapItems m = .ok items ∧ items.Perm l) versions maps := by
  have h0 : ∃ ms, inits.mapM (htBuild A o) = .ok ms ∧ List.Forall₂ (fun m l => HTMap.Repr A o m l) ms
      (inits.map fun p => p.2.2.foldl (fun l kv => mapInsert o.eqK l kv.1 kv.2) []) := by
    induction inits with
    | nil => exact ⟨[], rfl, .nil⟩
    | cons p ps ih =>
      obtain ⟨ms, e1, e2⟩ := ih (fun q hq => hin q (by simp [hq]))
      obtain ⟨m, n1, n2⟩ := htBuild_rep hA lo p (hin p (by simp))
      exact ⟨m :: ms, by simp [List.mapM_cons, n1, e1], .cons n2 e2⟩
  obtain ⟨ms, e1, e2⟩ := h0
  refine ⟨ms, e1, fun h => ?_⟩
  obtain ⟨rs, vs, ws, f1, f2, f3⟩ := runHistory_sim (R := fun m l => HTMap.Repr A o m l) (step := HTMap.step A o)
    (spec := mapStep o.eqK o.eqKQ) (fun s a op h => h.step lo op) h _ _ e2
  refine ⟨rs, vs, ws, f2, f1, ?_⟩
  clear f1 f2
  induction f3 with
  | nil => exact .nil
  | cons hr _ ih =>
    obtain ⟨k, hr⟩ := hr
    exact .cons ⟨_, rep_mapItems hr, hr.perm⟩ ih

example : GoodDegree dbg64 2 ∧ GoodDegree dbg64 64 := ⟨⟨1, by decide⟩, ⟨6, by decide⟩⟩

/-- A history on a map where all keys collide (hasher 1, degree 32) next to one where none do (degree 2). -/
def exHistory : List (Nat × MapOp (Nat × String) Nat Nat) :=
  [(0, .insertMut (1, "a") 10), (0, .insertMut (2, "b") 20), (0, .insert (1, "A") 11), (0, .getKeyValue 1), (2, .getKeyValue 1),
   (0, .insertMut (3, "c") 30), (0, .getMut 3 (· + 1)), (0, .get 3), (0, .removeMut 2), (0, .removeMut 2), (0, .size), (1, .size),
   (0, .index 9), (0, .index 3), (1, .insertMut (4, "d") 40), (1, .insertMut (5, "e") 50), (1, .remove 4), (3, .isEmpty), (1, .containsKey 4),
   (3, .containsKey 4)]

example : ((do
    let a ← HTMap.newWithDegree dbg64 1 32
    let b ← HTMap.newWithDegree dbg64 1000 2
    let r ← runHistory (HTMap.step dbg64 exKeys) [a, b] exHistory
    pure r.1) : Res (List (Option (MapRet (Nat × String) Nat)))) =
    .ok [some .unit, some .unit, some .unit, some (.optKV (some ((1, "a"), 10))), some (.optKV (some ((1, "A"), 11))),
      some .unit, some (.optV (some 30)), some (.optV (some 31)), some (.bool true), some (.bool false), some (.nat 2), some (.nat 0),
      some .panicked, some (.optV (some 31)), some .unit, some .unit, some .unit, some (.bool false), some (.bool true),
      some (.bool false)] := by decide +kernel

/-! ### C17 -/

/-- C17.  `size` is the number of items iteration yields, whose keys are pairwise different; `is_empty` says whether no key is
present; inserting a present key and removing an absent one keep the size, otherwise it changes by one. -/
theorem C17_hash_map_size (A : Arch) (hA : HTMap.StdWord A) (o : HashKeys H K Q) (lo : o.Lawful) (m : HTMap H K V)
    (hm : HTMap.Reach A o m) :
    (∃ items, mapItems m = .ok items ∧ items.length = m.getSize ∧ items.Pairwise fun a b => o.eqK a.1 b.1 = false) ∧
    (m.isEmpty = true ↔ ∀ k, m.containsKey A o.self k = .ok false) ∧
    (∀ k v, ∃ b m', m.containsKey A o.self k = .ok b ∧ m.insertMut A o k v = .ok m' ∧ m.insert A o k v = .ok m' ∧
      m'.getSize = m.getSize + (if b then 0 else 1)) ∧
    (∀ q, ∃ b m' m'', m.containsKey A o q = .ok b ∧ m.removeMut A o q = .ok (b, m') ∧ m.remove A o q = .ok m'' ∧
      m'.getSize + (if b then 1 else 0) = m.getSize ∧ m''.getSize = m'.getSize) := by
  obtain ⟨l, k, r⟩ := hm.rep hA lo
  have pos : ∀ {Q' : Type} {hits : K → Q' → Bool} {q : Q'}, (mapGet hits l q).isSome = true → 0 < l.length := by
    intro Q' hits q h
    cases l with
    | nil => simp [mapGet] at h
    | cons _ _ => simp
  have hlen : ∀ (q : Q), (mapRemove o.eqKQ l q).length + (if (mapGet o.eqKQ l q).isSome then 1 else 0) = l.length := by
    intro q
    have : (mapRemove o.eqKQ l q).length = if (mapGet o.eqKQ l q).isSome then l.length - 1 else l.length :=
      filter_length_of_find (r.distinct.atMostOne lo.keyLaws q)
    by_cases h : (mapGet o.eqKQ l q).isSome = true
    · rw [if_pos h] at this ⊢; have := pos h; omega
    · rw [if_neg h] at this ⊢; omega
  have hlen' : ∀ (key : K), (l.filter fun p => !o.eqK p.1 key).length + (if (mapGet o.eqK l key).isSome then 1 else 0) = l.length := by
    intro q
    have : (l.filter fun p => !o.eqK p.1 q).length = if (mapGet o.eqK l q).isSome then l.length - 1 else l.length :=
      filter_length_of_find (r.distinct.atMostOne lo.keyLaws.self q)
    by_cases h : (mapGet o.eqK l q).isSome = true
    · rw [if_pos h] at this ⊢; have := pos h; omega
    · rw [if_neg h] at this ⊢; omega
  have hck : ∀ key, m.containsKey A o.self key = .ok (mapGet o.eqK l key).isSome := fun key => r.self.containsKey lo.self key
  refine ⟨⟨_, rep_mapItems r, by simp [HTMap.getSize, r.size, r.length], r.distinct.perm lo.equivK r.perm.symm⟩, ?_, ?_, ?_⟩
  · simp only [HTMap.isEmpty, HTMap.getSize, r.size, beq_iff_eq, List.length_eq_zero_iff]
    constructor
    · rintro rfl key; rw [hck]; rfl
    · intro h
      cases l with
      | nil => rfl
      | cons p l =>
        have := h p.1
        rw [hck] at this
        simp [mapGet, lo.equivK.refl] at this
  · intro key v
    obtain ⟨m', h1, h2, _⟩ := r.insertMut lo key v
    refine ⟨_, m', hck key, h1, h1, ?_⟩
    simp only [HTMap.getSize, h2.size, r.size, mapInsert, List.length_cons]
    have := hlen' key
    split <;> rename_i h <;> simp only [h, if_true, if_false, Bool.false_eq_true] at this <;> omega
  · intro q
    obtain ⟨m', h1, h2, _⟩ := r.removeMut lo q
    obtain ⟨m'', g1, g2, _⟩ := r.remove lo q
    exact ⟨_, m', m'', r.containsKey lo q, h1, g1, by simp only [HTMap.getSize, h2.size, r.size]; exact hlen q,
      by simp only [HTMap.getSize, h2.size, g2.size]⟩

example : ∃ m, htBuild dbg64 exKeys (1, 32, [((1, "a"), 10), ((2, "b"), 20), ((1, "c"), 30)]) = .ok m ∧ HTMap.Reach dbg64 exKeys m ∧
    (do pure ((m.getSize, ← m.containsKey dbg64 exKeys 1), (← m.containsKey dbg64 exKeys 9, ← mapItems m))) =
      (.ok ((2, true), (false, [((1, "c"), 30), ((2, "b"), 20)])) : Res ((Nat × Bool) × Bool × List ((Nat × String) × Nat))) :=
  exMap _ _ _ (by decide) (by decide +kernel)

/-! ### C18 -/

/-- C18.  There is one list of items such that `iter`, `keys` and `values`, called any number of times, answer its pairs, keys and
values in that order, each call reporting exactly the number of items still to come, and `None` for ever after; the keys of the items
are pairwise different, and the items are exactly the entries that lookups find. -/
theorem C18_hash_map_iteration (A : Arch) (hA : HTMap.StdWord A) (o : HashKeys H K Q) (lo : o.Lawful) (m : HTMap H K V)
    (hm : HTMap.Reach A o m) :
    ∃ items : List (K × V),
      (∀ n, fwCalls HTMap.iterNext HIter.sizeHint n m.iter = .ok (fwRun items n)) ∧
      (∀ n, fwCalls HTMap.keysNext HIter.sizeHint n m.iter = .ok (fwRun (items.map Prod.fst) n)) ∧
      (∀ n, fwCalls HTMap.valuesNext HIter.sizeHint n m.iter = .ok (fwRun (items.map Prod.snd) n)) ∧
      m.iter.sizeHint = items.length ∧
      items.Pairwise (fun a b => o.eqK a.1 b.1 = false) ∧
      ∀ q, m.getKeyValue A o q = .ok (items.find? fun p => o.eqKQ p.1 q) := by
  obtain ⟨l, k, r⟩ := hm.rep hA lo
  have hi := r.iter
  refine ⟨m.root.entries.map HTMap.pair, fun n => hi.calls HTMap.pair n, fun n => ?_, fun n => ?_, ?_,
    r.distinct.perm lo.equivK r.perm.symm, ?_⟩
  · rw [show (m.root.entries.map HTMap.pair).map Prod.fst = m.root.entries.map (fun e => e.key) by simp [Function.comp_def, HTMap.pair]]
    exact hi.calls (fun e => e.key) n
  · rw [show (m.root.entries.map HTMap.pair).map Prod.snd = m.root.entries.map (fun e => e.value) by
      simp [Function.comp_def, HTMap.pair]]
    exact hi.calls (fun e => e.value) n
  · rw [HIter.sizeHint, hi.size, List.length_map]
  · exact (r.congr lo r.perm.symm).getKeyValue lo

/-- What `fwRun` says, spelled out: the `i`-th call answers the `i`-th item, or `None` past the end. -/
example (items : List (K × V)) (n : Nat) :
    fwRun items n = (List.range n).map fun i => (items[i]?, items.length - (i + 1)) := fwRun_eq items n

example : ∃ m, htBuild dbg64 exKeys (1000, 2, [((1, "a"), 10), ((2, "b"), 20), ((3, "c"), 30)]) = .ok m ∧ HTMap.Reach dbg64 exKeys m ∧
    fwCalls HTMap.iterNext HIter.sizeHint 4 m.iter =
      .ok [(some ((2, "b"), 20), 2), (some ((1, "a"), 10), 1), (some ((3, "c"), 30), 0), (none, 0)] := by
  exact exMap _ _ _ (by decide) (by decide +kernel)

/-! ### C19 -/

/-- C19.  No operation on any reachable map panics or runs for ever (the documented panic of `map[key]` is an answer): each
answers what the corresponding operation of a finite map answers. -/
theorem C19_hash_map_no_panic (A : Arch) (hA : HTMap.StdWord A) (o : HashKeys H K Q) (lo : o.Lawful) (m : HTMap H K V)
    (hm : HTMap.Reach A o m) :
    (∀ op, ∃ r e, m.step A o op = .ok (r, e)) ∧ (∃ items, mapItems m = .ok items) ∧
    (∀ n, ∃ r, fwCalls HTMap.iterNext HIter.sizeHint n m.iter = .ok r) ∧
    (∀ m', HTMap.Reach A o m' → ∀ eqV p, ∃ b, m.eq A o eqV p m' = .ok b) ∧
    (∀ fk fv, ∃ s, m.display fk fv = .ok s) ∧ (∀ kvs, ∃ m', m.insertAll A o kvs = .ok m') := by
  obtain ⟨l, k, r⟩ := hm.rep hA lo
  refine ⟨fun op => ?_, ⟨_, rep_mapItems r⟩, fun n => ⟨_, r.iter.calls HTMap.pair n⟩, ?_, fun fk fv => ⟨_, r.display fk fv⟩, fun kvs => ?_⟩
  · obtain ⟨e, h1, _⟩ := r.step lo op
    exact ⟨_, e, h1⟩
  · intro m' hm' eqV p
    obtain ⟨l', k', r'⟩ := hm'.rep hA lo
    cases p with
    | true => exact ⟨true, rfl⟩
    | false => obtain ⟨b, h, _⟩ := r.eq r' lo eqV; exact ⟨b, h⟩
  · obtain ⟨m', h, _⟩ := r.insertAll lo kvs
    exact ⟨m', h⟩

/-- The constructors succeed for every valid degree and in the default configuration. -/
theorem C19_hash_map_constructors (A : Arch) (hA : HTMap.StdWord A) (o : HashKeys H K Q) (lo : o.Lawful) (hasher : H) :
    (∀ d, GoodDegree A d → ∃ m : HTMap H K V, HTMap.newWithDegree A hasher d = .ok m ∧ HTMap.Reach A o m) ∧
    (∃ m : HTMap H K V, HTMap.new A hasher = .ok m ∧ HTMap.Reach A o m) ∧
    (∀ kvs : List (K × V), ∃ m, HTMap.fromIter A o hasher kvs = .ok m ∧ HTMap.Reach A o m) := by
  refine ⟨fun d hd => ?_, ?_, fun kvs => ?_⟩
  · obtain ⟨k, m, h, _⟩ := goodDegree_new (K := K) (V := V) hA hd hasher
    refine ⟨m, h, .init (.newWithDegree ?_ h)⟩
    obtain ⟨b, h1, rfl, _⟩ := hd
    have : 2 ^ 1 ≤ 2 ^ b := Nat.pow_le_pow_right (by decide) h1
    omega
  · obtain ⟨k, m, h, _⟩ := HTMap.new_rep (K := K) (V := V) (o := o) hA hasher
    exact ⟨m, h, .init (.new h)⟩
  · obtain ⟨k, m, h, _⟩ := HTMap.fromIter_rep hA lo hasher kvs
    exact ⟨m, h, .init (.fromIter h)⟩

/-- Outside the invariant the panics are there: a branch below the maximum depth, a collision bucket with a single entry. -/
example : (HNode.branch (K := Nat × String) (V := Nat) 0 []).get dbg64 exKeys 1 0 2 64 = .error .unwrapNone := by decide +kernel
example : ((⟨.leaf (.collision (RList.new.pushFrontMut ⟨(1, "a"), 10, 0⟩)), 1, 2, 1⟩ : HTMap Nat (Nat × String) Nat).removeMut dbg64 exKeys 1).map Prod.fst =
    .error .unreachable := by decide +kernel

/-! ### C20 -/

/-- C20.  `get_mut` finds a value exactly when `get` does, and writing through it changes the value of that key only: every lookup
answers as before, with the value of that key replaced; the size and the keys stay. -/
theorem C20_hash_map_get_mut_local (A : Arch) (hA : HTMap.StdWord A) (o : HashKeys H K Q) (lo : o.Lawful) (m : HTMap H K V)
    (hm : HTMap.Reach A o m) (q : Q) (f : V → V) :
    ∃ r m', m.getMut A o q f = .ok (r, m') ∧ m.get A o q = .ok r ∧ m'.getSize = m.getSize ∧
      (∀ q', ∃ p, m.getKeyValue A o q' = .ok p ∧
        m'.getKeyValue A o q' = .ok (p.map fun p => if o.eqKQ p.1 q then (p.1, f p.2) else p)) ∧
      ∃ items items', mapItems m = .ok items ∧ mapItems m' = .ok items' ∧
        items'.Perm (items.map fun p => if o.eqKQ p.1 q then (p.1, f p.2) else p) := by
  obtain ⟨l, k, r⟩ := hm.rep hA lo
  obtain ⟨m', h1, h2, _⟩ := r.getMut lo q f
  refine ⟨_, m', h1, r.get lo q, by simp [HTMap.getSize, h2.size, r.size, mapModify], fun q' => ⟨_, r.getKeyValue lo q', ?_⟩,
    _, _, rep_mapItems r, rep_mapItems h2, ?_⟩
  · rw [h2.getKeyValue lo, mapGet_modify]
  · exact h2.perm.trans (r.perm.symm.map _)

example : ∃ m, htBuild dbg64 exKeys (1, 32, [((1, "a"), 10), ((2, "b"), 20), ((3, "c"), 30)]) = .ok m ∧ HTMap.Reach dbg64 exKeys m ∧
    (do pure (← mapItems m, ← mapItems (← m.getMut dbg64 exKeys 1 (· + 5)).2)) =
      (.ok ([((3, "c"), 30), ((2, "b"), 20), ((1, "a"), 10)], [((1, "a"), 15), ((3, "c"), 30), ((2, "b"), 20)]) : Res _) :=
  exMap _ _ _ (by decide) (by decide +kernel)

/-! ### C21 -/

/-- C21.  Removing an absent key: `remove_mut` answers `false` and leaves the map exactly as it was, `remove` returns the same map.
Removing a present key: `remove_mut` answers `true`, and lookups answer as before except for that key. -/
theorem C21_hash_map_remove (A : Arch) (hA : HTMap.StdWord A) (o : HashKeys H K Q) (lo : o.Lawful) (m : HTMap H K V)
    (hm : HTMap.Reach A o m) (q : Q) :
    (m.get A o q = .ok none → m.removeMut A o q = .ok (false, m) ∧ m.remove A o q = .ok m) ∧
    (m.get A o q ≠ .ok none → ∃ m', m.removeMut A o q = .ok (true, m') ∧ m.remove A o q = .ok m' ∧
      m'.get A o q = .ok none ∧
      ∀ q', ∃ p, m.getKeyValue A o q' = .ok p ∧ m'.getKeyValue A o q' = .ok (p.filter fun p => !o.eqKQ p.1 q)) := by
  obtain ⟨l, k, r⟩ := hm.rep hA lo
  obtain ⟨m', h1, h2, _, h4⟩ := r.removeMut lo q
  rw [r.get lo q]
  constructor
  · intro h
    have hn : mapGet o.eqKQ l q = none := by simpa using h
    rw [hn] at h1
    obtain rfl := h4 hn
    exact ⟨h1, by simp only [HTMap.remove, HTMap.Rep.clone_eq, h1, Res.ok_bind]; rfl⟩
  · intro h
    have hs : (mapGet o.eqKQ l q).isSome = true := by
      cases hg : mapGet o.eqKQ l q with
      | none => rw [hg] at h; exact absurd rfl h
      | some p => rfl
    rw [hs] at h1
    refine ⟨m', h1, by simp only [HTMap.remove, HTMap.Rep.clone_eq, h1, Res.ok_bind]; rfl, ?_, fun q' => ⟨_, r.getKeyValue lo q', ?_⟩⟩
    · rw [h2.get lo, mapGet_remove lo.keyLaws r.distinct]
      cases hg : mapGet o.eqKQ l q with
      | none => rfl
      | some p => simp [Option.filter, (mapGet_some hg).2]
    · rw [h2.getKeyValue lo, mapGet_remove lo.keyLaws r.distinct]

example : ∃ m, htBuild dbg64 exKeys (1, 32, [((1, "a"), 10), ((2, "b"), 20), ((3, "c"), 30)]) = .ok m ∧ HTMap.Reach dbg64 exKeys m ∧
    (do pure (← m.get dbg64 exKeys 9, ← m.get dbg64 exKeys 2, ← mapItems (← m.removeMut dbg64 exKeys 2).2)) =
      (.ok (none, some 20, [((3, "c"), 30), ((1, "a"), 10)]) : Res _) :=
  exMap _ _ _ (by decide) (by decide +kernel)

/-! ### C22 (hash trie) -/

/-- C22 for `HashTrieMap`.  After inserting `(k, v)`, every key equal to `k` finds exactly the new key and value, all other keys
find what they found before. -/
theorem C22_hash_map_insert_replaces (A : Arch) (hA : HTMap.StdWord A) (o : HashKeys H K Q) (lo : o.Lawful) (m : HTMap H K V)
    (hm : HTMap.Reach A o m) (k : K) (v : V) :
    ∃ m', m.insertMut A o k v = .ok m' ∧ m.insert A o k v = .ok m' ∧
      (∀ q, ∃ p, m.getKeyValue A o q = .ok p ∧ m'.getKeyValue A o q = .ok (if o.eqKQ k q then some (k, v) else p)) ∧
      ∃ items items', mapItems m = .ok items ∧ mapItems m' = .ok items' ∧
        items'.Perm ((k, v) :: items.filter fun p => !o.eqK p.1 k) := by
  obtain ⟨l, j, r⟩ := hm.rep hA lo
  obtain ⟨m', h1, h2, _⟩ := r.insertMut lo k v
  refine ⟨m', h1, h1, fun q => ⟨_, r.getKeyValue lo q, ?_⟩, _, _, rep_mapItems r, rep_mapItems h2, ?_⟩
  · rw [h2.getKeyValue lo, mapGet_insert lo.keyLaws]
  · exact h2.perm.trans ((r.perm.symm.filter _).cons _)

example : ∃ m, htBuild dbg64 exKeys (1, 32, [((1, "a"), 10), ((2, "b"), 20)]) = .ok m ∧ HTMap.Reach dbg64 exKeys m ∧
    (do pure (← m.getKeyValue dbg64 exKeys 1, ← (← m.insertMut dbg64 exKeys (1, "NEW") 11).getKeyValue dbg64 exKeys 1)) =
      (.ok (some ((1, "a"), 10), some ((1, "NEW"), 11)) : Res _) :=
  exMap _ _ _ (by decide) (by decide +kernel)

/-! ### C23 -/

/-- C23, first part.  A `u8` degree is accepted exactly if it is a power of two not above the word size, otherwise the constructor
panics; with an accepted degree of at least two the map is empty and all properties of reachable maps hold (C16–C25).  Missing: degree
one, for which the property is false (next theorem). -/
theorem C23_hash_degree_validated_partial (A : Arch) (hA : HTMap.StdWord A) (o : HashKeys H K Q) (hasher : H) (d : Nat) (hd : d < 256) :
    ((∃ b, d = 2 ^ b ∧ d ≤ A.W) → ∃ m : HTMap H K V, HTMap.newWithDegree A hasher d = .ok m ∧ m.getSize = 0 ∧ m.degree = d ∧
      (d ≠ 1 → HTMap.Reach A o m)) ∧
    ((¬ ∃ b, d = 2 ^ b ∧ d ≤ A.W) → HTMap.newWithDegree (K := K) (V := V) A hasher d = .error .assertFailed) := by
  have hW : A.W % 256 = A.W := by rcases hA with h | h | h <;> rw [h]
  constructor
  · rintro ⟨b, rfl, h2⟩
    have hb : b ≤ 7 := by
      rcases Nat.lt_or_ge 7 b with h | h
      · have : 2 ^ 8 ≤ 2 ^ b := Nat.pow_le_pow_right (by decide) h
        omega
      · exact h
    have hn : HTMap.newWithDegree (K := K) (V := V) A hasher (2 ^ b) = .ok ⟨HNode.newEmptyBranch, 0, 2 ^ b, hasher⟩ := by
      simp only [HTMap.newWithDegree, isPow2_pow hb, assertRt, if_true, Res.ok_bind, hW, h2, decide_true]
      rfl
    refine ⟨_, hn, rfl, rfl, fun h1 => .init (.newWithDegree ?_ hn)⟩
    have : 0 < 2 ^ b := Nat.pow_pos (by decide)
    omega
  · intro h
    simp only [HTMap.newWithDegree, assertRt, hW]
    by_cases hp : isPow2 d = true
    · obtain ⟨b, _, rfl⟩ := (isPow2_iff hd).1 hp
      have : ¬ 2 ^ b ≤ A.W := fun hle => h ⟨b, rfl, hle⟩
      simp [hp, this]
    · simp [hp]

/-- C23 is violated by the code: degree one is accepted, and inserting a second key into such a map does not terminate — however
many recursive calls of `Node::insert` are allowed, they run out. -/
theorem C23_hash_degree_one_diverges (A : Arch) (hA : HTMap.StdWord A) (o : HashKeys H K Q) (lo : o.Lawful) (hasher : H) (k₁ k₂ : K)
    (v₁ v₂ : V) (hne : o.eqK k₁ k₂ = false) :
    ∃ m m' : HTMap H K V, HTMap.newWithDegree A hasher 1 = .ok m ∧ m.insertMut A o k₁ v₁ = .ok m' ∧
      ∀ fuel, m'.root.clone.insert A o m'.degree fuel (HEntry.new o m'.hasher k₂ v₂) 0 = .error .diverge := by
  have hW : 1 ≤ A.W ∧ A.W % 256 = A.W := by rcases hA with h | h | h <;> rw [h] <;> decide
  refine ⟨⟨HNode.newEmptyBranch, 0, 1, hasher⟩, ⟨.branch 1 [.leaf (.single (HEntry.new o hasher k₁ v₁))], 1, 1, hasher⟩, ?_, ?_, ?_⟩
  · have h1 : isPow2 1 = true := by decide
    simp only [HTMap.newWithDegree, h1, assertRt, if_true, Res.ok_bind, hW.2, hW.1, decide_true]
    rfl
  · rw [HTMap.insertMut, HNode.clone_eq]
    rw [show HTMap.insertFuel = 129 + 1 from rfl, HNode.insert_empty_one hW.1]
    rfl
  · intro fuel
    rw [HNode.clone_eq]
    exact HTMap.insertMut_one_diverges lo hW.1 hasher _ k₂ v₂ hne fuel

example : exKeys.eqK (1, "a") (2, "b") = false := by decide
example : HTMap.newWithDegree (K := Nat) (V := Nat) dbg64 () 3 = .error .assertFailed ∧
    HTMap.newWithDegree (K := Nat) (V := Nat) dbg64 () 0 = .error .assertFailed ∧
    HTMap.newWithDegree (K := Nat) (V := Nat) dbg64 () 128 = .error .assertFailed := by
  refine ⟨?_, ?_, ?_⟩ <;> rfl

/-! ### C24 -/

/-- C24.  With degree `2 ^ k`, a lookup calls `Node::get` on at most `⌈64 / k⌉ + 1` nodes, whatever the contents; every branch
below the root has at least two entries under it; collision buckets are only at the maximum depth, where all 64 bits are used, and
hold at least two entries, all with the same hash. -/
theorem C24_hash_map_shape (A : Arch) (hA : HTMap.StdWord A) (o : HashKeys H K Q) (lo : o.Lawful) (m : HTMap H K V)
    (hm : HTMap.Reach A o m) :
    ∃ k, 1 ≤ k ∧ m.degree = 2 ^ k ∧
      (∀ q, ∃ r n, HNode.getCounted A o q (o.hashQ m.hasher q) m.degree m.root 0 = .ok (r, n) ∧ m.lookup A o q = .ok r ∧
        n ≤ (64 + (k - 1)) / k + 1) ∧
      (∀ bm arr d, HNode.Desc m.root 0 (.branch bm arr) d → 0 < d → 2 ≤ (HNode.branch bm arr).entries.length) ∧
      (∀ c d, HNode.Desc m.root 0 (.leaf (.collision c)) d → 64 ≤ d * k ∧
        ∃ hash es, c.Rep es ∧ 2 ≤ es.length ∧ ∀ e ∈ es, e.keyHash = hash) := by
  obtain ⟨l, k, r⟩ := hm.rep hA lo
  have hk := r.conf.pos
  refine ⟨k, hk, r.degree, fun q => ?_, ?_, ?_⟩
  · obtain ⟨oe, h1, _⟩ := r.lookup lo q
    refine ⟨oe, m.root.visits A (o.hashQ m.hasher q) m.degree 0, ?_, h1, ?_⟩
    · rw [HNode.getCounted_eq]
      rw [HTMap.lookup] at h1
      rw [h1]; rfl
    · have := HNode.visits_le r.conf (o.hashQ m.hasher q) m.root 0 r.ok (Nat.zero_le _)
      rw [r.degree]
      rw [show 64 + (k - 1) = 63 + k by omega, Nat.add_div_right _ hk]
      exact this
  · intro bm arr d hd h0
    obtain ⟨_, _, h3, _⟩ := HNode.desc_ok hd r.ok
    rcases (h3 h0).2 with ⟨b, hb⟩ | h
    · cases hb
    · exact h
  · intro c d hd
    obtain ⟨h1, _, _, _, h5⟩ := HNode.desc_ok hd r.ok
    rw [HNode.OK] at h1
    refine ⟨h1.1, ?_⟩
    have hlen := h1.2.2
    match hc : c.head.toList, hlen with
    | x :: es, _ =>
      refine ⟨x.keyHash, _, h1.2.1, h1.2.2, ?_⟩
      intro e he
      apply HNode.hash_eq_of_idx hk h1.1
      intro j hj
      exact h5 j (by omega) hj e (by simpa [Bucket.entries] using he) x (by simp [Bucket.entries, hc])

example : (64 + (6 - 1)) / 6 + 1 = 12 ∧ (64 + (5 - 1)) / 5 + 1 = 14 ∧ (64 + (1 - 1)) / 1 + 1 = 65 := by decide

/-- Two colliding keys in a map of degree 32: the lookup goes through all 13 levels to the collision bucket. -/
example : (((htBuild dbg64 exKeys (1, 32, [((1, "a"), 10), ((2, "b"), 20)])).bind fun m =>
    HNode.getCounted dbg64 exKeys 2 0 32 m.root 0).map fun p => (p.1.map fun e => e.value, p.2)) = .ok (some 20, 14) := by decide +kernel

/-! ### C25 -/

/-- Two maps have the same keys with equal values. -/
def SameMap (A : Arch) (o : HashKeys H K Q) (eqV : V → V → Bool) (a b : HTMap H K V) : Prop :=
  ∀ k, match a.get A o.self k, b.get A o.self k with
    | .ok none, .ok none => True
    | .ok (some v), .ok (some w) => eqV v w = true
    | _, _ => False

theorem sameMap_iff {A : Arch} {o : HashKeys H K Q} (lo : o.Lawful) (eqV : V → V → Bool) {a b : HTMap H K V} {k k' : Nat}
    {l l' : List (K × V)} (r : a.Rep A o k l) (r' : b.Rep A o k' l') : SameMap A o eqV a b ↔ MapEq o.eqK eqV l l' := by
  unfold SameMap MapEq
  refine forall_congr' fun key => ?_
  rw [r.self.get lo.self, r'.self.get lo.self]
  rw [show o.self.eqKQ = o.eqK from rfl]
  cases mapGet o.eqK l key <;> cases mapGet o.eqK l' key <;> simp

/-- C25.  `==` decides whether two maps have the same keys with equal values, whatever their degrees, hashers and histories.  The
short-cut for maps that share their root never changes the answer when `==` of values is reflexive. -/
theorem C25_hash_map_eq_extensional (A : Arch) (hA : HTMap.StdWord A) (o : HashKeys H K Q) (lo : o.Lawful) (eqV : V → V → Bool)
    (a b : HTMap H K V) (ha : HTMap.Reach A o a) (hb : HTMap.Reach A o b) :
    (∃ r, a.eq A o eqV false b = .ok r ∧ (r = true ↔ SameMap A o eqV a b)) ∧
    ((∀ v, eqV v v = true) → a.root = b.root → a.eq A o eqV true b = a.eq A o eqV false b) := by
  obtain ⟨l, k, r⟩ := ha.rep hA lo
  obtain ⟨l', k', r'⟩ := hb.rep hA lo
  obtain ⟨x, h1, h2⟩ := r.eq r' lo eqV
  refine ⟨⟨x, h1, by rw [h2, sameMap_iff lo eqV r r']⟩, fun hv hr => ?_⟩
  have hp : l.Perm l' := by
    have := r.perm
    rw [hr] at this
    exact this.symm.trans r'.perm
  have : x = true := h2.2 (MapEq.perm lo.equivK hv r.distinct hp)
  rw [h1, this]; rfl

/-- C25.  For values with `Eq`, `==` of maps is an equivalence relation; cloning gives an equal map. -/
theorem C25_hash_map_eq_equivalence (A : Arch) (hA : HTMap.StdWord A) (o : HashKeys H K Q) (lo : o.Lawful) (eqV : V → V → Bool)
    (hv : LawfulEquiv eqV) (a b c : HTMap H K V) (ha : HTMap.Reach A o a) (hb : HTMap.Reach A o b) (hc : HTMap.Reach A o c) :
    a.eq A o eqV false a = .ok true ∧ a.eq A o eqV false a.clone = .ok true ∧ a.eq A o eqV false b = b.eq A o eqV false a ∧
    (a.eq A o eqV false b = .ok true → b.eq A o eqV false c = .ok true → a.eq A o eqV false c = .ok true) := by
  obtain ⟨l, _, r⟩ := ha.rep hA lo
  obtain ⟨l', _, r'⟩ := hb.rep hA lo
  obtain ⟨l'', _, r''⟩ := hc.rep hA lo
  obtain ⟨x1, h1, g1⟩ := r.eq r lo eqV
  obtain ⟨x2, h2, g2⟩ := r.eq r' lo eqV
  obtain ⟨x3, h3, g3⟩ := r'.eq r lo eqV
  obtain ⟨x4, h4, g4⟩ := r'.eq r'' lo eqV
  obtain ⟨x5, h5, g5⟩ := r.eq r'' lo eqV
  have hx1 : x1 = true := g1.2 (.refl hv.refl l)
  refine ⟨by rw [h1, hx1], by rw [HTMap.Rep.clone_eq, h1, hx1], ?_, ?_⟩
  · rw [h2, h3]
    have : x2 = true ↔ x3 = true := by rw [g2, g3]; exact ⟨.symm hv.symm, .symm hv.symm⟩
    cases x2 <;> cases x3 <;> simp_all
  · rw [h2, h4, h5]
    intro e1 e2
    cases e1; cases e2
    exact congrArg Except.ok (g5.2 ((g2.1 rfl).trans hv.trans (g4.1 rfl)))

/-- Different hashers, degrees and insertion orders, same contents; and a difference in one value. -/
example : ((do
    let a ← htBuild dbg64 exKeys (1, 32, [((1, "a"), 10), ((2, "b"), 20), ((3, "c"), 30)])
    let b ← htBuild dbg64 exKeys (7, 64, [((3, "x"), 30), ((2, "y"), 21), ((1, "z"), 10), ((2, "b"), 20)])
    let c ← htBuild dbg64 exKeys (7, 64, [((3, "x"), 30), ((2, "y"), 21), ((1, "z"), 10)])
    let r ← a.eq dbg64 exKeys (fun v w => v == w) false b
    let s ← a.eq dbg64 exKeys (fun v w => v == w) false c
    pure (r, s)) : Res (Bool × Bool)) = .ok (true, false) := by decide +kernel

/-- Without reflexivity of value equality (as for floats with NaN) the short-cut does change the answer: a map compared with itself
is equal through the short-cut and not equal without. -/
example : ((do
    let a ← htBuild dbg64 exKeys (1, 32, [((1, "a"), 10)])
    let r ← a.eq dbg64 exKeys (fun _ _ => false) true a
    let s ← a.eq dbg64 exKeys (fun _ _ => false) false a
    pure (r, s)) : Res (Bool × Bool)) = .ok (true, false) := by decide +kernel

/-! ### C26 -/

/-- C26.  `HashTrieSet`: any history of operations over any number of versions gives the answers of plain finite sets, where
inserting replaces an equal element; iterating gives exactly the elements. -/
theorem C26_hash_set_refines_finite_set (A : Arch) (hA : HTMap.StdWord A) (o : HashKeys H T Q) (lo : o.Lawful)
    (inits : List (H × Nat × List T)) (hin : ∀ p ∈ inits, GoodDegree A p.2.1) :
    ∃ ss, inits.mapM (htSetBuild A o) = .ok ss ∧ ∀ h : List (Nat × SetOp T Q), ∃ answers versions sets,
      runHistory (fun l op => .ok (setStep o.eqK o.eqKQ l op)) (inits.map fun p => p.2.2.foldl (setInsert o.eqK) []) h =
        .ok (answers, sets) ∧
      runHistory (HTSet.step A o) ss h = .ok (answers, versions) ∧
      List.Forall₂ (fun s l => ∃ items, setItems s = .ok items ∧ items.Perm l) versions sets := by
  have h0 : ∃ ss, inits.mapM (htSetBuild A o) = .ok ss ∧ List.Forall₂ (fun s l => ∃ k, HTSet.Rep A o k s l) ss
      (inits.map fun p => p.2.2.foldl (setInsert o.eqK) []) := by
    induction inits with
    | nil => exact ⟨[], rfl, .nil⟩
    | cons p ps ih =>
      obtain ⟨ms, e1, e2⟩ := ih (fun q hq => hin q (by simp [hq]))
      obtain ⟨m, n1, n2⟩ := htSetBuild_rep hA lo p (hin p (by simp))
      exact ⟨m :: ms, by simp [List.mapM_cons, n1, e1], .cons n2 e2⟩
  obtain ⟨ss, e1, e2⟩ := h0
  refine ⟨ss, e1, fun h => ?_⟩
  obtain ⟨rs, vs, ws, f1, f2, f3⟩ := runHistory_sim (R := fun s l => ∃ k, HTSet.Rep A o k s l) (step := HTSet.step A o)
    (spec := setStep o.eqK o.eqKQ) (fun s a op ⟨k, h⟩ => by
      obtain ⟨e, h1, h2⟩ := h.step lo op
      exact ⟨e, h1, h2.imp fun _ _ h => ⟨k, h⟩⟩) h _ _ e2
  refine ⟨rs, vs, ws, f2, f1, ?_⟩
  clear f1 f2
  induction f3 with
  | nil => exact .nil
  | cons hr _ ih =>
    obtain ⟨k, hr⟩ := hr
    exact .cons ⟨_, rep_setItems hr, hr.items_perm⟩ ih

/-- C26.  `get` returns the most recently inserted equal element. -/
theorem C26_hash_set_get_latest (A : Arch) (hA : HTMap.StdWord A) (o : HashKeys H T Q) (lo : o.Lawful) (s : HTSet H T)
    (hs : HTSet.Reach A o s) (v : T) :
    ∃ s', s.insertMut A o v = .ok s' ∧ s.insert A o v = .ok s' ∧
      ∀ q, ∃ p, s.get A o q = .ok p ∧ s'.get A o q = .ok (if o.eqKQ v q then some v else p) := by
  obtain ⟨l, k, r⟩ := hs.rep hA lo
  obtain ⟨s', h1, h2, _⟩ := r.insertMut lo v
  refine ⟨s', h1, h1, fun q => ⟨_, r.get lo q, ?_⟩⟩
  rw [h2.get lo]
  have := mapGet_insert lo.keyLaws (unitPairs l) v () q
  rw [unitPairs_insert, unitPairs_get, unitPairs_get] at this
  congr 1
  split
  · rename_i hq
    rw [if_pos hq] at this
    cases hg : setGet o.eqKQ (setInsert o.eqK l v) q <;> rw [hg] at this <;> simp at this
    rw [this]
  · rename_i hq
    rw [if_neg hq] at this
    cases hg : setGet o.eqKQ (setInsert o.eqK l v) q <;> cases hg' : setGet o.eqKQ l q <;> rw [hg, hg'] at this <;> simp at this ⊢
    exact this

example : ((do
    let a ← HTSet.newWithDegree dbg64 1 32
    let r ← runHistory (HTSet.step dbg64 exKeys) [a]
      [(0, .insertMut (1, "a")), (0, .insertMut (2, "b")), (0, .insert (1, "A")), (0, .get 1), (1, .get 1), (0, .removeMut 1), (0, .contains 1),
       (1, .size), (0, .size), (0, .removeMut 9)]
    pure r.1) : Res (List (Option (SetRet (Nat × String))))) =
    .ok [some .unit, some .unit, some .unit, some (.opt (some (1, "a"))), some (.opt (some (1, "A"))), some (.bool true),
      some (.bool false), some (.nat 2), some (.nat 1), some (.bool false)] := by decide +kernel

/-! ### C27 -/

/-- The element is in the set. -/
def InSet (A : Arch) (o : HashKeys H T Q) (s : HTSet H T) (a : T) : Prop := s.contains A o.self a = .ok true

theorem inSet_iff {A : Arch} {o : HashKeys H T Q} (lo : o.Lawful) {s : HTSet H T} {k : Nat} {l : List T} (r : s.Rep A o k l) (a : T) :
    InSet A o s a ↔ Mem o.eqK l a := by
  rw [InSet, HTSet.Rep.contains (o := o.self) (HTMap.Rep.self r) lo.self, show o.self.eqKQ = o.eqK from rfl, ← setGet_isSome]
  simp

/-- C27.  The relations between two sets, which may have different hasher types, hashers and degrees (but the same element equality),
are decided exactly; the short-cuts for sets sharing their root do not change the answers. -/
theorem C27_hash_set_relations {Q' : Type} (A : Arch) (hA : HTMap.StdWord A) (o : HashKeys H T Q) (lo : o.Lawful) (o' : HashKeys H' T Q')
    (lo' : o'.Lawful) (he : o'.eqK = o.eqK) (s : HTSet H T) (t : HTSet H' T) (hs : HTSet.Reach A o s) (ht : HTSet.Reach A o' t) :
    (∃ b, s.isSubset A o' false t = .ok b ∧ (b = true ↔ ∀ a, InSet A o s a → InSet A o' t a)) ∧
    (∃ b, s.isSuperset A o false t = .ok b ∧ (b = true ↔ ∀ a, InSet A o' t a → InSet A o s a)) ∧
    (∃ b, s.isDisjoint A o' t = .ok b ∧ (b = true ↔ ∀ a, ¬ (InSet A o s a ∧ InSet A o' t a))) := by
  obtain ⟨l, k, r⟩ := hs.rep hA lo
  obtain ⟨l', k', r'⟩ := ht.rep hA lo'
  have hi : ∀ a, InSet A o s a ↔ Mem o.eqK l a := fun a => inSet_iff lo r a
  have hi' : ∀ a, InSet A o' t a ↔ Mem o.eqK l' a := fun a => by rw [inSet_iff lo' r' a, he]
  refine ⟨?_, ?_, ?_⟩
  · obtain ⟨b, h1, h2⟩ := r.isSubset r' lo lo' he
    exact ⟨b, h1, by simp only [h2, Spec.Subset, hi, hi']⟩
  · obtain ⟨b, h1, h2⟩ := r'.isSubset r lo' lo he.symm
    exact ⟨b, h1, by simp only [h2, Spec.Subset, hi, hi', he]⟩
  · obtain ⟨b, h1, h2⟩ := r.isDisjoint r' lo lo' he
    exact ⟨b, h1, by simp only [h2, Spec.Disjoint, hi, hi']⟩

/-- C27.  Set equality is extensional, and the short-cuts for sets that share their root never change an answer. -/
theorem C27_hash_set_eq (A : Arch) (hA : HTMap.StdWord A) (o : HashKeys H T Q) (lo : o.Lawful) (s t : HTSet H T)
    (hs : HTSet.Reach A o s) (ht : HTSet.Reach A o t) :
    (∃ b, s.eq A o false t = .ok b ∧ (b = true ↔ ∀ a, InSet A o s a ↔ InSet A o t a)) ∧
    (s.map.root = t.map.root → s.eq A o true t = s.eq A o false t ∧ s.isSubset A o true t = s.isSubset A o false t ∧
      s.isSuperset A o true t = s.isSuperset A o false t) := by
  obtain ⟨l, k, r⟩ := hs.rep hA lo
  obtain ⟨l', k', r'⟩ := ht.rep hA lo
  obtain ⟨b, h1, h2⟩ := r.eq r' lo
  obtain ⟨b1, g1, g2⟩ := r.isSubset r' lo lo rfl
  obtain ⟨b2, f1, f2⟩ := r'.isSubset r lo lo rfl
  refine ⟨⟨b, h1, by simp only [h2, SameElems, inSet_iff lo r, inSet_iff lo r']⟩, fun hr => ?_⟩
  have hp : l.Perm l' := by
    have e1 := r.items_perm
    have e2 := r'.items_perm
    rw [HTSet.items, hr] at e1
    exact e1.symm.trans e2
  have hb : b = true := h2.2 fun a => Mem.perm hp a
  have hb1 : b1 = true := g2.2 fun a h => (Mem.perm hp a).1 h
  have hb2 : b2 = true := f2.2 fun a h => (Mem.perm hp a).2 h
  refine ⟨by rw [h1, hb]; rfl, by rw [g1, hb1]; rfl, ?_⟩
  rw [HTSet.isSuperset, HTSet.isSuperset, f1, hb2]; rfl

example : ((do
    let a ← htSetBuild dbg64 exKeys (1, 32, [(1, "a"), (2, "b")])
    let b ← htSetBuild dbg64 exKeys (100, 16, [(3, "c"), (2, "y"), (1, "z")])
    let c ← htSetBuild dbg64 exKeys (3, 4, [(4, "c")])
    let x ← a.isSubset dbg64 exKeys false b
    let y ← a.isSuperset dbg64 exKeys false b
    let z ← a.isDisjoint dbg64 exKeys c
    let w ← a.isDisjoint dbg64 exKeys b
    pure [x, y, z, w]) : Res (List Bool)) = .ok [true, false, true, false] := by decide +kernel

/-! ### C28 -/

/-- C28.  However the work is split, collecting in parallel gives exactly what sequential iteration gives, in the same order. -/
theorem C28_parallel_iteration_complete (A : Arch) (hA : HTMap.StdWord A) (o : HashKeys H K Q) (lo : o.Lawful) (m : HTMap H K V)
    (hm : HTMap.Reach A o m) (plan : Producer.Plan) : Producer.collect plan (Producer.new m) = mapItems m := by
  obtain ⟨l, k, r⟩ := hm.rep hA lo
  obtain ⟨h1, h2⟩ := Producer.fromNode_ok m.root 0 r.ok
  rw [Producer.new, Producer.collect_ok plan h1, rep_mapItems r, h2]

/-- A plan that splits twice: the two entries that share a subtree get split too. -/
example : ((do
    let m ← htBuild dbg64 exKeys (1000, 4, [((1, "a"), 10), ((2, "b"), 20), ((3, "c"), 30), ((5, "e"), 50)])
    let ps := Producer.pieces (.split (.split .fold .fold) (.split .fold .fold)) (Producer.new m)
    let rs ← ps.mapM fun p => p.foldWith Producer.collector []
    pure (rs.map fun r => r.map fun p => p.1.1)) : Res (List (List Nat))) = .ok [[1], [5], [2], [3]] := by decide +kernel

/-! ### C29 -/

/-- C29.  Folding a piece with any consumer consumes a prefix of the piece's items in order, stops early only because the consumer
said it was full, and never fails.  The consumer may answer `full` depending on other threads, as long as it stays full once it is. -/
theorem C29_parallel_fold_prefix (A : Arch) (hA : HTMap.StdWord A) (o : HashKeys H K Q) (lo : o.Lawful) (m : HTMap H K V)
    (hm : HTMap.Reach A o m) (plan : Producer.Plan) (fd : Folder (K × V) F) (log : F → List (K × V))
    (hl : Producer.FolderLaws fd log) :
    ∀ p ∈ Producer.pieces plan (Producer.new m), ∀ f, ∃ items f' n,
      p.foldWith Producer.collector [] = .ok items ∧ p.foldWith fd f = .ok f' ∧ log f' = log f ++ items.take n ∧ n ≤ items.length ∧
      (n < items.length → ∃ g, fd.full g = (true, f')) ∧ ((∀ g, (fd.full g).1 = false) → n = items.length) := by
  obtain ⟨l, k, r⟩ := hm.rep hA lo
  obtain ⟨h1, _⟩ := Producer.fromNode_ok m.root 0 r.ok
  obtain ⟨h2, _⟩ := Producer.pieces_ok plan (Producer.new m) h1
  intro p hp f
  obtain ⟨f', g1, n, g2, g3, g4⟩ := Producer.foldWith_ok hl (h2 p hp) f
  refine ⟨p.items, f', n, by simpa using Producer.foldWith_collector (h2 p hp) [], g1, g3, g2, g4, fun hf => ?_⟩
  rcases Nat.lt_or_ge n p.items.length with h | h
  · obtain ⟨g, hg⟩ := g4 h
    have := hf g
    rw [hg] at this; cases this
  · omega

/-- C29.  If asking `full` does not change the consumer, the fold stops exactly after the first item that makes it full. -/
theorem C29_parallel_fold_exact (A : Arch) (hA : HTMap.StdWord A) (o : HashKeys H K Q) (lo : o.Lawful) (m : HTMap H K V)
    (hm : HTMap.Reach A o m) (plan : Producer.Plan) (consume : F → K × V → F) (full : F → Bool) :
    ∀ p ∈ Producer.pieces plan (Producer.new m), ∀ f, ∃ items, p.foldWith Producer.collector [] = .ok items ∧
      p.foldWith ⟨consume, fun f => (full f, f)⟩ f = .ok (Producer.foldStop consume full f items) := by
  obtain ⟨l, k, r⟩ := hm.rep hA lo
  obtain ⟨h1, _⟩ := Producer.fromNode_ok m.root 0 r.ok
  obtain ⟨h2, _⟩ := Producer.pieces_ok plan (Producer.new m) h1
  intro p hp f
  exact ⟨p.items, by simpa using Producer.foldWith_collector (h2 p hp) [], Producer.foldWith_exact (h2 p hp) f⟩

/-- A consumer that wants two items. -/
def takeTwo : Folder ((Nat × String) × Nat) (List ((Nat × String) × Nat)) := ⟨fun f x => f ++ [x], fun f => (decide (2 ≤ f.length), f)⟩

example : Producer.FolderLaws takeTwo id where
  consume _ _ := rfl
  full _ := rfl
  mono _ h := h

example : ((do
    let m ← htBuild dbg64 exKeys (1, 4, [((1, "a"), 10), ((2, "b"), 20), ((3, "c"), 30), ((5, "e"), 50)])
    let r ← (Producer.new m).foldWith takeTwo []
    pure (r.map fun p => p.1.1)) : Res (List Nat)) = .ok [5, 3] := by decide +kernel

end Rpds.Props
