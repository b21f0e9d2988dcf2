import Verif.Ask
import Verif.HashTrie.Set
import Verif.HashTrie.PanicLemmas
import Verif.HashTrie.Unlawful
/-
Lookups, equality and set algebra of hash tries, with every call of user code a question (line numbers of
/repo/src/map/hash_trie_map/mod.rs unless another file is named), and how many questions they ask.
-/
set_option autoImplicit false
namespace Rpds
open Spec

/-- What is asked of user code. -/
inductive HTQuestion (H K V : Type) where
  /-- the hash of a key -/
  | hash (h : H) (key : K)
  /-- `a == b` of keys -/
  | keysEq (a b : K)
  /-- `a == b` of values -/
  | valuesEq (a b : V)

namespace HTQuestion
variable {H K V Q : Type}

/-- The type of an answer. -/
def Ans : HTQuestion H K V → Type
  | hash _ _ => UInt64
  | keysEq _ _ | valuesEq _ _ => Bool

/-- The answers of functions that keep no state. -/
def answer (o : HashKeys H K Q) (eqV : V → V → Bool) : (i : HTQuestion H K V) → Ans i
  | hash h key => o.hashK h key
  | keysEq a b => o.eqK a b
  | valuesEq a b => eqV a b

def onHash : HTQuestion H K V → Bool
  | hash _ _ => true
  | _ => false

def onKeysEq : HTQuestion H K V → Bool
  | keysEq _ _ => true
  | _ => false

def onValuesEq : HTQuestion H K V → Bool
  | valuesEq _ _ => true
  | _ => false

end HTQuestion

abbrev HTAsk (H K V α : Type) : Type := Ask (HTQuestion H K V) HTQuestion.Ans α

open Ask

/-- The hash of a key (`node_utils::hash`, 213-217). -/
def askHash {H K V : Type} (h : H) (key : K) : HTAsk H K V UInt64 := query (HTQuestion.hash h key)
/-- A test for equality of keys. -/
def askKeysEq {H K V : Type} (a b : K) : HTAsk H K V Bool := query (HTQuestion.keysEq a b)
/-- A test for equality of values. -/
def askHValuesEq {H K V : Type} (a b : V) : HTAsk H K V Bool := query (HTQuestion.valuesEq a b)

variable {H H' K V Q : Type} (A : Arch)

/-- `EntryWithHash::matches` (676-682): `&&` evaluates its second operand only if the first is true. -/
def HEntry.matchesA (e : HEntry K V) (key : K) (keyHash : UInt64) : HTAsk H K V Bool :=
  if e.keyHash == keyHash then askKeysEq e.key key else pure false

/-- `iter.find(p)` with user code. -/
def iterFindA {σ α : Type} (next : σ → Res (Option α × σ)) (q : α → HTAsk H K V Bool) : Nat → σ → HTAsk H K V (Option α)
  | 0, _ => .ret (.error .diverge)
  | fuel + 1, s => do
    let (x, s') ← lift (next s)
    match x with
    | none => pure none
    | some a => do
      let b ← q a
      if b then pure (some a) else iterFindA next q fuel s'

/-- `Bucket::get` (508-518). -/
def Bucket.getA (key : K) (keyHash : UInt64) : Bucket K V → HTAsk H K V (Option (HEntry K V))
  | .single e => do
    let b ← e.matchesA key keyHash
    pure (if b then some e else none)
  | .collision entries => iterFindA ListIter.step (fun e => e.matchesA key keyHash) (entries.len + 1) entries.iter

namespace HNode
mutual
/-- `Node::get` (250-272). -/
def getA (key : K) (keyHash : UInt64) (degree : Nat) : HNode K V → (depth : Nat) → HTAsk H K V (Option (HEntry K V))
  | .branch bm arr, depth => do
    let ix ← lift (indexFromHash A keyHash depth degree)
    let index ← lift (unwrap ix)
    let r ← lift (SparseArray.slot A bm index)
    match r with
    | none => pure none
    | some i => getAtA key keyHash degree arr i (depth + 1)
  | .leaf b, _ => b.getA key keyHash
/-- `arr[i].get(…)`: the recursive call of `Node::get`. -/
def getAtA (key : K) (keyHash : UInt64) (degree : Nat) : List (HNode K V) → (i depth : Nat) → HTAsk H K V (Option (HEntry K V))
  | [], _, _ => .ret (.error .indexOutOfBounds)
  | c :: _, 0, depth => getA key keyHash degree c depth
  | _ :: cs, i + 1, depth => getAtA key keyHash degree cs i depth
end

theorem getAtA_eq (key : K) (kh : UInt64) (deg : Nat) (arr : List (HNode K V)) (i d : Nat) :
    (getAtA A key kh deg arr i d : HTAsk H K V _) = (lift (vecIndex arr i) >>= fun c => getA A key kh deg c d) := by
  induction arr generalizing i with
  | nil => rfl
  | cons c arr ih =>
    cases i with
    | zero => rfl
    | succ i => rw [getAtA, ih]; simp [vecIndex]
end HNode

namespace HTMap

/-- `self.root.get(key, hash(key), 0, self.degree)`. -/
def lookupA (m : HTMap H K V) (key : K) : HTAsk H K V (Option (HEntry K V)) := do
  let kh ← askHash m.hasher key
  m.root.getA A key kh m.degree 0

/-- `PartialEq for HashTrieMap` (963-969). -/
def eqA (samePtr : Bool) (a b : HTMap H K V) : HTAsk H K V Bool :=
  if samePtr then pure true
  else if a.getSize == b.getSize then
    iterAllA (fun it => lift (iterNext it)) (fun kv => do
      let r ← b.lookupA A kv.1
      match r with
      | none => pure false
      | some e => askHValuesEq kv.2 e.value) (a.size + 1) a.iter
  else pure false

end HTMap

namespace HTSet
variable {T : Type}

/-- `PartialEq` (hash_trie_set/mod.rs:280-282): the questions about values are tests `() == ()`. -/
def eqA (samePtr : Bool) (a b : HTSet H T) : HTAsk H T Unit Bool := a.map.eqA A samePtr b.map

/-- `contains` (hash_trie_set/mod.rs:195-201). -/
def containsA (s : HTSet H T) (v : T) : HTAsk H T Unit Bool := do
  let r ← s.map.lookupA A v
  pure r.isSome

/-- `is_disjoint` (hash_trie_set/mod.rs:204-206). -/
def isDisjointA (s : HTSet H T) (other : HTSet H' T) : HTAsk H' T Unit Bool :=
  iterAllA (fun it => lift (iterNext it)) (fun v => do
    let b ← other.containsA A v
    pure (!b)) (s.map.size + 1) s.iter

/-- `is_subset` (hash_trie_set/mod.rs:220-226). -/
def isSubsetA (samePtr : Bool) (s : HTSet H T) (other : HTSet H' T) : HTAsk H' T Unit Bool :=
  if samePtr then pure true
  else if s.size ≤ other.size then
    iterAllA (fun it => lift (iterNext it)) (fun v => other.containsA A v) (s.map.size + 1) s.iter
  else pure false

/-- `is_superset` (hash_trie_set/mod.rs:229-231). -/
def isSupersetA (samePtr : Bool) (s : HTSet H T) (other : HTSet H' T) : HTAsk H T Unit Bool := other.isSubsetA A samePtr s

end HTSet

/-! ### With answers that do not change, this is the model -/

section Run
variable (o : HashKeys H K Q) (eqV : V → V → Bool)
local notation "fs" => HTQuestion.answer o eqV

theorem HEntry.matchesA_run (e : HEntry K V) (key : K) (kh : UInt64) :
    (e.matchesA key kh).run fs = .ok (e.matches o.self key kh) := by
  unfold matchesA «matches»
  cases e.keyHash == kh <;> rfl

theorem iterFindA_run {σ α : Type} {next : σ → Res (Option α × σ)} {qA : α → HTAsk H K V Bool} {q : α → Bool}
    (hq : ∀ a, (qA a).run fs = .ok (q a)) (fuel : Nat) (s : σ) : (iterFindA next qA fuel s).run fs = iterFind next q fuel s := by
  induction fuel generalizing s with
  | zero => rfl
  | succ n ih =>
    simp only [iterFindA, iterFind, run_bind, run_lift]
    congr 1; funext r
    obtain ⟨x, s'⟩ := r
    cases x with
    | none => rfl
    | some a =>
      simp only [run_bind, hq, Res.ok_bind]
      cases q a with
      | false => exact ih s'
      | true => rfl

theorem Bucket.getA_run (key : K) (kh : UInt64) (b : Bucket K V) : (b.getA key kh).run fs = b.get o.self key kh := by
  cases b with
  | single e => simp only [getA, get, run_bind, HEntry.matchesA_run, Res.ok_bind]; rfl
  | collision l => exact iterFindA_run o eqV (HEntry.matchesA_run o eqV · key kh) _ _

theorem HNode.getA_run (key : K) (kh : UInt64) (deg : Nat) (n : HNode K V) : ∀ d, (n.getA A key kh deg d).run fs = n.get A o.self key kh deg d := by
  induction n using HNode.induct with
  | hl b => intro d; simp only [getA, get]; exact Bucket.getA_run o eqV key kh b
  | hb bm arr ih =>
    intro d
    simp only [getA, get, run_bind, run_lift]
    congr 1; funext ix
    congr 1; funext i
    congr 1; funext r
    cases r with
    | none => rfl
    | some j =>
      simp only [getAtA_eq, getAt_eq, run_bind, run_lift]
      cases hv : vecIndex arr j with
      | error e => rfl
      | ok c => exact ih c (vecIndex_mem hv) (d + 1)

theorem HTMap.lookupA_run (m : HTMap H K V) (key : K) : (m.lookupA A key).run fs = m.lookup A o.self key := by
  simp only [lookupA, lookup, run_bind]
  exact HNode.getA_run A o eqV key _ m.degree m.root 0

theorem HTMap.eqA_run (same : Bool) (a b : HTMap H K V) : (HTMap.eqA A same a b).run fs = a.eq A o eqV same b := by
  unfold eqA HTMap.eq
  split
  · rfl
  split
  · refine run_iterAllA _ (fun _ => rfl) (fun kv => ?_) _ _
    simp only [run_bind, lookupA_run, HTMap.get]
    cases b.lookup A o.self kv.1 with
    | error e => rfl
    | ok r => cases r <;> rfl
  · rfl

end Run

section Sets
variable {T : Type} (o' : HashKeys H' T Q) (eqV : Unit → Unit → Bool)
local notation "fs" => HTQuestion.answer o' eqV

theorem HTSet.containsA_run (s : HTSet H' T) (v : T) : (s.containsA A v).run fs = s.contains A o'.self v := by
  simp only [containsA, contains, HTMap.containsKey, HTMap.get, run_bind, HTMap.lookupA_run]
  cases s.map.lookup A o'.self v with
  | error e => rfl
  | ok r => cases r <;> rfl

theorem HTSet.isDisjointA_run (s : HTSet H T) (other : HTSet H' T) : (s.isDisjointA A other).run fs = s.isDisjoint A o' other := by
  refine run_iterAllA _ (fun _ => rfl) (fun v => ?_) _ _
  simp only [run_bind, containsA_run]
  rfl

theorem HTSet.isSubsetA_run (same : Bool) (s : HTSet H T) (other : HTSet H' T) :
    (s.isSubsetA A same other).run fs = s.isSubset A o' same other := by
  unfold isSubsetA isSubset
  split
  · rfl
  split
  · exact run_iterAllA _ (fun _ => rfl) (fun v => containsA_run A o' eqV other v) _ _
  · rfl

end Sets

/-! ### How many questions -/

section Cost
variable {A : Arch} {k : Nat} {z : Bool} {p : HTQuestion H K V → Bool}

/-- The price of a comparison of an entry with a key: `u` if the hashes agree. -/
def HEntry.price (u : Nat) (kh : UInt64) (e : HEntry K V) : Nat := if e.keyHash == kh then u else 0

/-- Questions of the kind `p` about equality of keys cost `u`. -/
def EqPrice (p : HTQuestion H K V → Bool) (u : Nat) : Prop := ∀ a b, Costs p (askKeysEq a b : HTAsk H K V Bool) u

theorem HEntry.matchesA_costs {u : Nat} (hu : EqPrice p u) (e : HEntry K V) (key : K) (kh : UInt64) :
    Costs p (e.matchesA key kh : HTAsk H K V Bool) (e.price u kh) := by
  unfold matchesA price
  split
  · exact hu _ _
  · exact costs_pure _ _

theorem iterFindA_costs {α : Type} {q : α → HTAsk H K V Bool} {w : α → Nat} (hq : ∀ a, Costs p (q a) (w a)) (fuel : Nat) {it : ListIter α} {xs : List α}
    (h : it.Rep xs) (hl : xs.length < fuel) : Costs p (iterFindA ListIter.step q fuel it) (xs.map w).sum := by
  induction fuel generalizing it xs with
  | zero => omega
  | succ n ih =>
    unfold iterFindA
    cases xs with
    | nil =>
      obtain ⟨it', e, _⟩ := h.step_nil
      rw [e]
      exact costs_pure (p := p) _ _
    | cons x xs =>
      obtain ⟨it', e, e2⟩ := h.step_cons
      rw [e]
      simp only [List.length_cons] at hl
      refine ((hq x).bind (d := (xs.map w).sum) fun b => ?_).mono (by simp)
      cases b with
      | true => exact costs_pure (p := p) _ _
      | false => exact ih e2 (by omega)

theorem Bucket.getA_costs {u : Nat} (hu : EqPrice p u) (key : K) (kh : UInt64) {b : Bucket K V} {d : Nat} (hok : (HNode.leaf b).OK A k z d) :
    Costs p (b.getA key kh : HTAsk H K V _) (b.entries.map (·.price u kh)).sum := by
  cases b with
  | single e =>
    refine ((HEntry.matchesA_costs hu e key kh).bind (d := 0) fun b => costs_pure _ _).mono ?_
    simp [Bucket.entries]
  | collision l =>
    rw [HNode.OK] at hok
    exact iterFindA_costs (fun e => HEntry.matchesA_costs hu e key kh) _ hok.2.1.iter (by have := hok.2.1.len; simp only [Bucket.entries]; omega)

theorem HNode.getA_costs (c : HConf A k) {u : Nat} (hu : EqPrice p u) (key : K) (kh : UInt64) (t : HNode K V) :
    ∀ d, d ≤ 64 → t.OK A k z d → Costs p (t.getA A key kh (2 ^ k) d : HTAsk H K V _) (t.entries.map (·.price u kh)).sum := by
  induction t using HNode.induct with
  | hl b =>
    intro d hd hok
    simp only [getA]
    exact (Bucket.getA_costs hu key kh hok).mono (by simp)
  | hb bm arr ih =>
    intro d hd hok
    rw [ok_branch] at hok
    obtain ⟨hd64, hrel⟩ := hok
    have hi := c.idx_lt d kh
    obtain ⟨los, his, hlo, hhi, hcase⟩ := hrel.cases hi
    simp only [getA, indexFromHash_eq c.small hd, hd64, if_true, lift_ok_bind, unwrap_some, SparseArray.slot_eq hi]
    rcases hcase with ⟨hb, e1⟩ | ⟨a, hb, e1, hca⟩
    · simp only at hb
      rw [hb]
      exact costs_pure (p := p) _ _
    · simp only at hb e1
      subst e1
      rw [hb]
      have := ih a (by simp) (d + 1) (depth_succ c hd64) hca.ok
      refine Costs.mono (c := (a.entries.map (·.price u kh)).sum) ?_ ?_
      · simp only [if_true]
        show Costs p (getAtA A key kh (2 ^ k) (los ++ a :: his) _ (d + 1)) _
        rw [getAtA_eq, vecIndex_ok (a := a) (by simp [SparseArray.forall₂_length hlo])]
        exact this
      · simp only [entries_branch, List.flatMap_append, List.flatMap_cons, List.map_append, List.sum_append]; omega

theorem sum_price (u : Nat) (kh : UInt64) (es : List (HEntry K V)) :
    (es.map (·.price u kh)).sum = es.countP (fun e => e.keyHash == kh) * u := by
  induction es with
  | nil => simp
  | cons e es ih =>
    rw [List.map_cons, List.sum_cons, ih, List.countP_cons, HEntry.price, Nat.add_mul]
    split <;> omega

/-- The number of entries with the same hash is at most `c`. -/
def HTMap.Crowd (m : HTMap H K V) (c : Nat) : Prop := ∀ kh, m.root.entries.countP (fun e => e.keyHash == kh) ≤ c

/-- Questions of the kind `p` cost: `w` for the hash of a key, `u` for equality of keys. -/
structure Prices (p : HTQuestion H K V → Bool) (w u : Nat) : Prop where
  hash : ∀ h key, Costs p (askHash h key : HTAsk H K V UInt64) w
  keysEq : ∀ a b, Costs p (askKeysEq a b : HTAsk H K V Bool) u

theorem prices_hash : Prices (HTQuestion.onHash : HTQuestion H K V → Bool) 1 0 := ⟨fun _ _ => costs_query _, fun _ _ => costs_query_free rfl⟩
theorem prices_keysEq : Prices (HTQuestion.onKeysEq : HTQuestion H K V → Bool) 0 1 := ⟨fun _ _ => costs_query_free rfl, fun _ _ => costs_query _⟩
theorem prices_valuesEq : Prices (HTQuestion.onValuesEq : HTQuestion H K V → Bool) 0 0 :=
  ⟨fun _ _ => costs_query_free rfl, fun _ _ => costs_query_free rfl⟩

theorem HTMap.lookupA_costs {m : HTMap H K V} {l : List (K × V)} (h : m.Loose A k z l) {w u c : Nat} (hp : Prices p w u) (hc : m.Crowd c) (key : K) :
    Costs p (m.lookupA A key) (w + c * u) := by
  refine (hp.hash _ _).bind fun kh => ?_
  rw [h.degree]
  refine (HNode.getA_costs h.conf hp.keysEq key kh m.root 0 (by omega) h.ok).mono ?_
  rw [sum_price]
  exact Nat.mul_le_mul_right u (hc kh)

theorem HTMap.eqA_costs {a b : HTMap H K V} {l l' : List (K × V)} {k' : Nat} {z' : Bool} (h : a.Loose A k z l) (h' : b.Loose A k' z' l')
    {w u v c : Nat} (hp : Prices p w u) (hv : ∀ x y, Costs p (askHValuesEq x y : HTAsk H K V Bool) v) (hc : b.Crowd c) (same : Bool) :
    Costs p (HTMap.eqA A same a b) (a.size * (w + c * u + v)) := by
  unfold eqA
  split
  · exact costs_pure _ _
  split
  · refine (iterAllA_costs (c := w + c * u + v) (fun kv => ?_) (quiet_lift h.drives) (by rw [h.size]; omega)).mono (by rw [h.size]; omega)
    refine (lookupA_costs h' hp hc kv.1).bind fun r => ?_
    cases r with
    | none => exact costs_pure _ _
    | some e => exact hv _ _
  · exact costs_pure _ _

end Cost

section SetCost
variable {T : Type} {A : Arch} {k k' : Nat} {z z' : Bool} {p : HTQuestion H' T Unit → Bool}

theorem HTSet.containsA_costs {s : HTSet H' T} {l : List (T × Unit)} (h : s.map.Loose A k z l) {w u c : Nat} (hp : Prices p w u) (hc : s.map.Crowd c)
    (v : T) : Costs p (s.containsA A v) (w + c * u) := (HTMap.lookupA_costs h hp hc v).bind fun _ => costs_pure _ 0

theorem HTSet.quiet_iter {s : HTSet H T} {l : List (T × Unit)} (h : s.map.Loose A k z l) :
    Quiet (fun it => (lift (HTSet.iterNext it) : HTAsk H' T Unit _)) s.iter (l.map (·.1)) := by
  refine quiet_lift ?_
  have := h.iter.drives (fun e => e.key)
  have hl : s.map.root.entries.map (fun e => e.key) = l.map (·.1) := by rw [← h.list, List.map_map]; rfl
  rw [hl] at this
  exact this

theorem HTSet.isDisjointA_costs {s : HTSet H T} {t : HTSet H' T} {l l' : List (T × Unit)} (h : s.map.Loose A k z l) (h' : t.map.Loose A k' z' l')
    {w u c : Nat} (hp : Prices p w u) (hc : t.map.Crowd c) : Costs p (s.isDisjointA A t) (s.size * (w + c * u)) := by
  have hs : s.map.size = l.length := h.size
  refine (iterAllA_costs (c := w + c * u) (fun v => ?_) (HTSet.quiet_iter h) (by simp [hs])).mono (by simp [HTSet.size, HTMap.getSize, hs])
  exact (containsA_costs h' hp hc v).bind fun _ => costs_pure _ 0

theorem HTSet.isSubsetA_costs {s : HTSet H T} {t : HTSet H' T} {l l' : List (T × Unit)} (h : s.map.Loose A k z l) (h' : t.map.Loose A k' z' l')
    {w u c : Nat} (hp : Prices p w u) (hc : t.map.Crowd c) (same : Bool) :
    Costs p (s.isSubsetA A same t) (if same || decide (t.size < s.size) then 0 else s.size * (w + c * u)) := by
  have hs : s.map.size = l.length := h.size
  unfold isSubsetA
  cases same with
  | true => exact costs_pure _ _
  | false =>
    simp only [Bool.false_eq_true, if_false, Bool.false_or, decide_eq_true_eq]
    split
    · rw [if_neg (by omega)]
      exact (iterAllA_costs (c := w + c * u) (fun v => containsA_costs h' hp hc v) (HTSet.quiet_iter h) (by simp [hs])).mono
        (by simp [HTSet.size, HTMap.getSize, hs])
    · exact costs_pure _ _

end SetCost
end Rpds
