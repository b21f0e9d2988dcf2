import Verif.Props.Cost
import Verif.RedBlack.AskCost
import Verif.HashTrie.Ask
/-
Property C68: how often iterators, equality, comparison and set algebra call `Ord`, `Hash` and `Eq` of keys and values.

The functions ending in `A` are the functions of the model with every call of user code a question (`Verif/Ask.lean`).  Each theorem
has two halves: with answers that keep no state the function is the one of the model; and whatever the answers are, it does not panic
and asks at most so many questions.
-/
set_option autoImplicit false
namespace Rpds.Props
open Spec Ask
variable {H H' K V Q Q' T S S' : Type}

/-- `x` makes at most `n` calls of the kind `p`, whatever the user code is: it keeps a state, may contradict itself, and may panic
(then so does `x`); `x` itself does not panic. -/
def CallsAtMost {ι α : Type} {ans : ι → Type} (p : ι → Bool) (n : Nat) (x : Ask ι ans α) : Prop :=
  ∀ (U : Type) (f : U → (i : ι) → Option (ans i) × U) (u : U), (∀ e, (x.runState f u).1 ≠ some (.error e)) ∧
    (x.runState (fun (s : U × Nat) i => ((f s.1 i).1, (f s.1 i).2, if p i then s.2 + 1 else s.2)) (u, 0)).2.2 ≤ n

theorem runState_counted {ι α U : Type} {ans : ι → Type} (p : ι → Bool) (x : Ask ι ans α) (f : U → (i : ι) → Option (ans i) × U) (u : U) (c : Nat) :
    (x.runState (Ask.counted p f) (u, c)).1 = (x.runState f u).1 := by
  induction x generalizing u c with
  | ret r => rfl
  | ask i k ih =>
    simp only [runState, Ask.counted]
    rcases f u i with ⟨_ | y, u'⟩
    · rfl
    · exact ih y u' _

theorem callsAtMost {ι α : Type} {ans : ι → Type} {p : ι → Bool} {n : Nat} {x : Ask ι ans α} (h : x.AtMost p n) : CallsAtMost p n x := by
  intro U f u
  obtain ⟨h1, h2⟩ := h.counted f u 0
  rw [Nat.zero_add] at h2
  exact ⟨fun e => by rw [← runState_counted p x f u 0]; exact h1 e, h2⟩

/-- Questions of any kind. -/
def anyCall {ι : Type} (_ : ι) : Bool := true

/-! ### What is counted -/

/-- The number of calls of the kind `p` that `x` makes with the user code `f`, as in `CallsAtMost`. -/
def callsOf {ι α U : Type} {ans : ι → Type} (p : ι → Bool) (x : Ask ι ans α) (f : U → (i : ι) → Option (ans i) × U) (u : U) (c : Nat) : Nat :=
  (x.runState (fun (s : U × Nat) i => ((f s.1 i).1, (f s.1 i).2, if p i then s.2 + 1 else s.2)) (u, c)).2.2

theorem callsOf_split {ι α U : Type} {ans : ι → Type} {p q r : ι → Bool} (h : ∀ i, (p i).toNat = (q i).toNat + (r i).toNat) (x : Ask ι ans α)
    (f : U → (i : ι) → Option (ans i) × U) (u : U) (c d : Nat) : callsOf p x f u (c + d) = callsOf q x f u c + callsOf r x f u d := by
  induction x generalizing u c d with
  | ret _ => rfl
  | ask i k ih =>
    have hi := h i
    simp only [callsOf, runState] at ih ⊢
    rcases f u i with ⟨_ | y, u'⟩
    · cases hp : p i <;> cases hq : q i <;> cases hr : r i <;> simp [hp, hq, hr] at hi ⊢ <;> omega
    · cases hp : p i <;> cases hq : q i <;> cases hr : r i <;> simp only [hp, hq, hr, Bool.toNat_true, Bool.toNat_false] at hi
      · exact ih y u' c d
      · omega
      · omega
      · omega
      · omega
      · exact (by rw [Nat.add_assoc]; exact ih y u' c (d + 1))
      · exact (by rw [Nat.add_right_comm]; exact ih y u' (c + 1) d)
      · omega

/-- C68.  The kinds of calls of hash tries: hashing, comparing keys and comparing values are told apart, and every call is of exactly one kind,
so that whatever a program and the user code are, the calls of the three kinds add up to all calls. -/
theorem C68_hash_kinds {α U : Type} (x : HTAsk H K V α) (f : U → (i : HTQuestion H K V) → Option i.Ans × U) (u : U) :
    (∀ i : HTQuestion H K V, (i.onHash = true ↔ ∃ h k, i = .hash h k) ∧ (i.onKeysEq = true ↔ ∃ a b, i = .keysEq a b) ∧
      (i.onValuesEq = true ↔ ∃ a b, i = .valuesEq a b)) ∧
    callsOf anyCall x f u 0 = callsOf HTQuestion.onHash x f u 0 + callsOf HTQuestion.onKeysEq x f u 0 + callsOf HTQuestion.onValuesEq x f u 0 := by
  refine ⟨fun i => by cases i <;> simp [HTQuestion.onHash, HTQuestion.onKeysEq, HTQuestion.onValuesEq], ?_⟩
  have h1 := callsOf_split (p := anyCall) (q := fun i => HTQuestion.onHash i || HTQuestion.onKeysEq i) (r := HTQuestion.onValuesEq)
    (fun i => by cases i <;> rfl) x f u 0 0
  have h2 := callsOf_split (p := fun i => HTQuestion.onHash i || HTQuestion.onKeysEq i) (q := HTQuestion.onHash) (r := HTQuestion.onKeysEq)
    (fun i => by cases i <;> rfl) x f u 0 0
  rw [Nat.add_zero] at h1 h2
  rw [h1, h2]

/-- C68.  The same for red-black trees: a call is about values if it is one of the three comparisons of values, and otherwise about keys. -/
theorem C68_rb_kinds {α U : Type} (x : RBAsk K V Q α) (f : U → (i : RBQuestion K V Q) → Option i.Ans × U) (u : U) :
    (∀ i : RBQuestion K V Q, i.onValues = true ↔ ∃ a b, i = .valuesEq a b ∨ i = .valuesCmp a b ∨ i = .valuesPartial a b) ∧
    callsOf anyCall x f u 0 = callsOf RBQuestion.onKeys x f u 0 + callsOf RBQuestion.onValues x f u 0 := by
  refine ⟨fun i => by cases i <;> simp [RBQuestion.onValues, RBQuestion.onKeys], ?_⟩
  exact callsOf_split (fun i => by cases i <;> rfl) x f u 0 0

/-- A program that asks for a hash, then compares two keys and, if they are equal, values: 1, 1 and 1 calls, 3 in all; 1, 1 and 0 if not. -/
example : (let x : HTAsk Nat Nat Nat Bool := askHash 0 5 >>= fun _ => askKeysEq 5 5 >>= fun b => if b then askHValuesEq 1 2 else pure false
           let f (ok : Bool) (u : Nat) (i : HTQuestion Nat Nat Nat) : Option i.Ans × Nat :=
             match i with | .hash _ _ => (some (7 : UInt64), u) | .keysEq _ _ => (some ok, u) | .valuesEq _ _ => (some false, u)
           [true, false].map fun ok => [callsOf anyCall x (f ok) 0 0, callsOf HTQuestion.onHash x (f ok) 0 0,
             callsOf HTQuestion.onKeysEq x (f ok) 0 0, callsOf HTQuestion.onValuesEq x (f ok) 0 0]) = [[3, 1, 1, 1], [2, 1, 1, 0]] := by decide +kernel

/-! ### Red-black trees -/

/-- C68.  `range` compares bounds at most twice.  Calls of `next` and `next_back` of its iterator compare at most twice each, and once
for each level of the tree when an end is first used; used from one end only, at most once each. -/
theorem C68_rb_range (A : Arch) (m : RBMap K V) (hm : RBReachU A S Q' m) (hf : RBMap.Fits A m) (start end_ : Bound Q) :
    (∀ (o : OrdKeys K Q) eqV cmpV, (m.rangeA start end_).run (RBQuestion.answer o eqV cmpV) =
      .ok (match m.range o start end_ with | .ok it => some it | .error _ => none)) ∧
    (∀ (o : OrdKeys K Q) eqV cmpV cs it, (deAnswersA (RBRangeIter.nextA A) (RBRangeIter.nextBackA A) cs it).run (RBQuestion.answer o eqV cmpV) =
      deAnswers (RBRangeIter.next A o) (RBRangeIter.nextBack A o) cs (it : RBRangeIter K V Q)) ∧
    CallsAtMost anyCall 2 (m.rangeA start end_) ∧
    (∀ cs, CallsAtMost anyCall (2 * (2 * Nat.log2 (m.size + 1) + 1) + 2 * cs.length)
      (deAnswersA (RBRangeIter.nextA A) (RBRangeIter.nextBackA A) cs (RBRangeIter.new m start end_))) ∧
    (∀ cs, (∀ d ∈ cs, d = End.front) ∨ (∀ d ∈ cs, d = End.back) → CallsAtMost anyCall (2 * Nat.log2 (m.size + 1) + 1 + cs.length)
      (deAnswersA (RBRangeIter.nextA A) (RBRangeIter.nextBackA A) cs (RBRangeIter.new m start end_))) := by
  obtain ⟨l, hl⟩ := rbReachU_loose hm
  have hh := hl.fits_height
  have hr : RangeOf A m start end_ (RBRangeIter.new m start end_) := ⟨hf.word, hf.size, rfl, rfl, rfl⟩
  have h1 : PerLook start end_ 1 := .inr rfl
  have i1 : initCost 1 m (RBRangeIter.new m start end_).stackForward = m.root.height + 1 := by simp [initCost, RBRangeIter.new]
  have i2 : initCost 1 m (RBRangeIter.new m start end_).stackBackward = m.root.height + 1 := by simp [initCost, RBRangeIter.new]
  refine ⟨fun o eqV cmpV => RBMap.rangeA_run o eqV cmpV m start end_, fun o eqV cmpV cs it => ?_,
    callsAtMost (RBMap.rangeA_costs m start end_).atMost, fun cs => callsAtMost ?_, fun cs hcs => callsAtMost ?_⟩
  · exact run_deAnswersA _ (RBRangeIter.nextA_run A o eqV cmpV) (RBRangeIter.nextBackA_run A o eqV cmpV) cs it
  · exact RBRangeIter.deAnswersA_wp h1 cs hr (by rw [i1, i2]; omega) fun _ _ => trivial
  · rcases hcs with hcs | hcs
    · exact RBRangeIter.frontA_wp h1 cs hcs hr rfl (by rw [i1]; omega) fun _ _ => trivial
    · exact RBRangeIter.backA_wp h1 cs hcs hr rfl (by rw [i2]; omega) fun _ _ => trivial

/-- C68.  Iterators over a whole tree compare nothing if used from one end, and else at most once for each call, until exhausted. -/
theorem C68_rb_iter (A : Arch) (m : RBMap K V) (hm : RBReachU A S Q m) (hf : RBMap.Fits A m) :
    (∀ (o : OrdKeys K Q) eqV cmpV cs it, (deAnswersA (RBIter.nextA A) (RBIter.nextBackA A) cs it).run (RBQuestion.answer o.self eqV cmpV) =
      deAnswers (RBIter.next A o) (RBIter.nextBack A o) cs (it : RBIter K V)) ∧
    (∀ cs, (∀ d ∈ cs, d = End.front) ∨ (∀ d ∈ cs, d = End.back) →
      CallsAtMost anyCall 0 (deAnswersA (RBIter.nextA A) (RBIter.nextBackA A) cs m.iter)) ∧
    (∀ cs, CallsAtMost anyCall (min cs.length m.size) (deAnswersA (RBIter.nextA A) (RBIter.nextBackA A) cs m.iter)) := by
  obtain ⟨l, hl⟩ := rbReachU_loose hm
  have hr : RangeOf A m (.unbounded : Bound K) .unbounded m.iter.rangeIter := ⟨hf.word, hf.size, rfl, rfl, rfl⟩
  refine ⟨fun o eqV cmpV cs it => ?_, fun cs hcs => callsAtMost ?_, fun cs => callsAtMost (RBIter.deAnswersA_costs cs hr).atMost⟩
  · exact run_deAnswersA _ (RBIter.nextA_run A o eqV cmpV) (RBIter.nextBackA_run A o eqV cmpV) cs it
  · rcases hcs with hcs | hcs
    · exact (RBIter.frontA_costs cs hcs hr rfl).atMost
    · exact (RBIter.backA_costs cs hcs hr rfl).atMost

/-- C68.  `==` of tree maps compares keys at most `2 * log2 (size + 1)` times and values at most once for each pair; `cmp` compares keys
and values at most once for each pair of the smaller map. -/
theorem C68_rb_compare (A : Arch) (a b : RBMap K V) (ha : RBReachU A S Q a) (hb : RBReachU A S' Q' b) (hf : RBMap.Fits A a)
    (hf' : RBMap.Fits A b) :
    (∀ (o : OrdKeys K Q) eqV cmpV same, (a.eqA A same b).run (RBQuestion.answer o.self eqV cmpV) = a.eq A o eqV same b) ∧
    (∀ (o : OrdKeys K Q) eqV cmpV, (a.cmpA A b).run (RBQuestion.answer o.self eqV cmpV) = a.cmp A o cmpV b) ∧
    (∀ same, CallsAtMost RBQuestion.onKeys (a.size * (2 * Nat.log2 (b.size + 1))) (a.eqA A same b)) ∧
    (∀ same, CallsAtMost RBQuestion.onValues a.size (a.eqA A same b)) ∧
    (∀ same, same = true ∨ a.size ≠ b.size → CallsAtMost anyCall 0 (a.eqA A same b)) ∧
    CallsAtMost RBQuestion.onKeys (min a.size b.size) (a.cmpA A b) ∧
    CallsAtMost RBQuestion.onValues (min a.size b.size) (a.cmpA A b) := by
  obtain ⟨l, hl⟩ := rbReachU_loose ha
  obtain ⟨l', hl'⟩ := rbReachU_loose hb
  refine ⟨fun o eqV cmpV same => RBMap.eqA_run A o eqV cmpV same a b, fun o eqV cmpV => RBMap.cmpA_run A o eqV cmpV a b, fun same => ?_,
    fun same => callsAtMost (RBMap.eqA_values hl hf same), fun same h => callsAtMost ?_, callsAtMost (RBMap.cmpA_keys hl hl' hf hf'),
    callsAtMost (RBMap.cmpA_values hl hl' hf hf')⟩
  · exact callsAtMost ((RBMap.eqA_keys hl hf same).mono (Nat.mul_le_mul_left _ hl'.fits_height))
  · unfold RBMap.eqA
    rcases h with rfl | h
    · exact trivial
    · split
      · exact trivial
      · rw [if_neg (by simpa [RBMap.getSize] using h)]
        exact trivial

/-- C68.  `is_disjoint` of tree sets compares at most `|s| + |t| - 1` times, `is_subset` at most once for each element of the other set
and not at all if the sizes or addresses decide, `is_superset` alike. -/
theorem C68_rb_set (A : Arch) (s t : RBSet T) (hs : RBSetReachAny A Q s) (ht : RBSetReachAny A Q' t) (hf : RBMap.Fits A s.map)
    (hf' : RBMap.Fits A t.map) :
    (∀ (o : OrdKeys T Q) eqV cmpV, (s.isDisjointA A t).run (RBQuestion.answer o.self eqV cmpV) = s.isDisjoint A o t) ∧
    (∀ (o : OrdKeys T Q) eqV cmpV same, (s.isSubsetA A same t).run (RBQuestion.answer o.self eqV cmpV) = s.isSubset A o same t) ∧
    (∀ (o : OrdKeys T Q) eqV cmpV same, (s.isSupersetA A same t).run (RBQuestion.answer o.self eqV cmpV) = s.isSuperset A o same t) ∧
    CallsAtMost anyCall (s.size + t.size - 1) (s.isDisjointA A t) ∧
    (∀ same, CallsAtMost anyCall (if same || decide (t.size < s.size) then 0 else t.size) (s.isSubsetA A same t)) ∧
    (∀ same, CallsAtMost anyCall (if same || decide (s.size < t.size) then 0 else s.size) (s.isSupersetA A same t)) := by
  obtain ⟨l, hl⟩ := rbSetReachAny_loose hs
  obtain ⟨l', hl'⟩ := rbSetReachAny_loose ht
  exact ⟨fun o eqV cmpV => RBSet.isDisjointA_run A o eqV cmpV s t, fun o eqV cmpV same => RBSet.isSubsetA_run A o eqV cmpV same s t,
    fun o eqV cmpV same => RBSet.isSubsetA_run A o eqV cmpV same t s, callsAtMost (RBSet.isDisjointA_costs hl hl' hf hf').atMost,
    fun same => callsAtMost (RBSet.isSubsetA_atMost hl hl' hf hf' same), fun same => callsAtMost (RBSet.isSubsetA_atMost hl' hl hf' hf same)⟩

/-- C68.  `partial_cmp` of tree maps compares keys and values, by `partial_cmp`, at most once for each pair of the smaller map, also when values
are incomparable. -/
theorem C68_rb_partial_cmp (A : Arch) (a b : RBMap K V) (ha : RBReachU A S Q a) (hb : RBReachU A S' Q' b) (hf : RBMap.Fits A a)
    (hf' : RBMap.Fits A b) :
    (∀ (o : OrdKeys K Q) pcmpV, (a.partialCmpA A b).run (RBQuestion.answerPartial o.self pcmpV) = a.partialCmp A o pcmpV b) ∧
    CallsAtMost RBQuestion.onKeys (min a.size b.size) (a.partialCmpA A b) ∧
    CallsAtMost RBQuestion.onValues (min a.size b.size) (a.partialCmpA A b) := by
  obtain ⟨l, hl⟩ := rbReachU_loose ha
  obtain ⟨l', hl'⟩ := rbReachU_loose hb
  exact ⟨fun o pcmpV => RBMap.partialCmpA_run o pcmpV hl hl' hf hf', callsAtMost (RBMap.partialCmpA_keys hl hl' hf hf'),
    callsAtMost (RBMap.partialCmpA_values hl hl' hf hf')⟩

/-- C68.  `==` of tree sets compares at most `2 * log2 (size + 1)` times for each element, and not at all if the sizes or addresses decide;
`cmp` and `partial_cmp` compare at most once for each element of the smaller set. -/
theorem C68_rb_set_compare (A : Arch) (s t : RBSet T) (hs : RBSetReachAny A Q s) (ht : RBSetReachAny A Q' t) (hf : RBMap.Fits A s.map)
    (hf' : RBMap.Fits A t.map) :
    (∀ (o : OrdKeys T Q) cmpV same, (s.eqA A same t).run (RBQuestion.answer o.self (fun _ _ => true) cmpV) = s.eq A o same t) ∧
    (∀ (o : OrdKeys T Q) eqV cmpV, (s.cmpA A t).run (RBQuestion.answer o.self eqV cmpV) = s.cmp A o t) ∧
    (∀ (o : OrdKeys T Q) eqV cmpV, (s.partialCmpA A t).run (RBQuestion.answer o.self eqV cmpV) = s.partialCmp A o t) ∧
    (∀ same, CallsAtMost RBQuestion.onKeys (s.size * (2 * Nat.log2 (t.size + 1))) (s.eqA A same t)) ∧
    (∀ same, same = true ∨ s.size ≠ t.size → CallsAtMost anyCall 0 (s.eqA A same t)) ∧
    CallsAtMost anyCall (min s.size t.size) (s.cmpA A t) ∧
    CallsAtMost anyCall (min s.size t.size) (s.partialCmpA A t) := by
  obtain ⟨l, hl⟩ := rbSetReachAny_loose hs
  obtain ⟨l', hl'⟩ := rbSetReachAny_loose ht
  refine ⟨fun o cmpV same => RBMap.eqA_run A o _ cmpV same s.map t.map, fun o eqV cmpV => RBSet.cmpA_run o eqV cmpV s t,
    fun o eqV cmpV => RBSet.partialCmpA_run o eqV cmpV hl hl' hf hf', fun same => ?_, fun same h => callsAtMost ?_,
    callsAtMost (RBSet.cmpA_costs hl hl' hf hf').atMost, callsAtMost (RBSet.partialCmpA_costs hl hl' hf hf').atMost⟩
  · exact callsAtMost ((RBMap.eqA_keys hl hf same).mono (Nat.mul_le_mul_left _ hl'.fits_height))
  · unfold RBSet.eqA RBMap.eqA
    rcases h with rfl | h
    · exact trivial
    · split
      · exact trivial
      · rw [if_neg (by simpa [RBSet.size] using h)]
        exact trivial

/-! ### Hash tries -/

/-- C68.  `==` of hash trie maps hashes each key of the first map at most once, compares it with at most as many keys as share a hash in the
second, and its value at most once; nothing if the addresses or sizes decide. -/
theorem C68_hash_map_eq (A : Arch) (hA : HTMap.StdWord A) (a b : HTMap H K V) (ha : HTMap.ReachAny A Q a) (hb : HTMap.ReachAny A Q' b) (c : Nat)
    (hc : ∀ kh, sameHash b kh ≤ c) :
    (∀ (o : HashKeys H K Q) eqV same, (a.eqA A same b).run (HTQuestion.answer o eqV) = a.eq A o eqV same b) ∧
    (∀ same, CallsAtMost HTQuestion.onHash a.size (a.eqA A same b)) ∧
    (∀ same, CallsAtMost HTQuestion.onKeysEq (a.size * c) (a.eqA A same b)) ∧
    (∀ same, CallsAtMost HTQuestion.onValuesEq a.size (a.eqA A same b)) ∧
    (∀ same, same = true ∨ a.size ≠ b.size → CallsAtMost anyCall 0 (a.eqA A same b)) := by
  obtain ⟨k, l, hl⟩ := ha.loose hA
  obtain ⟨k', l', hl'⟩ := hb.loose hA
  refine ⟨fun o eqV same => HTMap.eqA_run A o eqV same a b, fun same => callsAtMost ?_, fun same => callsAtMost ?_, fun same => callsAtMost ?_,
    fun same h => callsAtMost ?_⟩
  · exact ((HTMap.eqA_costs hl hl' prices_hash (v := 0) (fun _ _ => costs_query_free rfl) hc same).mono (by simp)).atMost
  · exact ((HTMap.eqA_costs hl hl' prices_keysEq (v := 0) (fun _ _ => costs_query_free rfl) hc same).mono (by simp)).atMost
  · exact ((HTMap.eqA_costs hl hl' prices_valuesEq (v := 1) (fun _ _ => costs_query _) hc same).mono (by simp)).atMost
  · unfold HTMap.eqA
    rcases h with rfl | h
    · exact trivial
    · split
      · exact trivial
      · rw [if_neg (by simpa [HTMap.getSize] using h)]
        exact trivial

/-- C68.  `is_disjoint` and `is_subset` of hash trie sets hash each element of the first set at most once, with the hasher of the second,
and compare it with at most as many elements as share a hash in the second. -/
theorem C68_hash_set (A : Arch) (hA : HTMap.StdWord A) (s : HTSet H T) (t : HTSet H' T) (hs : HTSetReachAny A Q s) (ht : HTSetReachAny A Q' t)
    (c : Nat) (hc : ∀ kh, sameHash t.map kh ≤ c) :
    (∀ (o : HashKeys H' T Q') eqV, (s.isDisjointA A t).run (HTQuestion.answer o eqV) = s.isDisjoint A o t) ∧
    (∀ (o : HashKeys H' T Q') eqV same, (s.isSubsetA A same t).run (HTQuestion.answer o eqV) = s.isSubset A o same t) ∧
    (∀ (o : HashKeys H' T Q') eqV same, (t.isSupersetA A same s).run (HTQuestion.answer o eqV) = t.isSuperset A o same s) ∧
    CallsAtMost HTQuestion.onHash s.size (s.isDisjointA A t) ∧
    CallsAtMost HTQuestion.onKeysEq (s.size * c) (s.isDisjointA A t) ∧
    (∀ same, CallsAtMost HTQuestion.onHash (if same || decide (t.size < s.size) then 0 else s.size) (s.isSubsetA A same t)) ∧
    (∀ same, CallsAtMost HTQuestion.onKeysEq (if same || decide (t.size < s.size) then 0 else s.size * c) (s.isSubsetA A same t)) ∧
    (∀ same, CallsAtMost HTQuestion.onHash (if same || decide (t.size < s.size) then 0 else s.size) (t.isSupersetA A same s)) ∧
    (∀ same, CallsAtMost HTQuestion.onKeysEq (if same || decide (t.size < s.size) then 0 else s.size * c) (t.isSupersetA A same s)) := by
  obtain ⟨k, l, hl⟩ := htSetReachAny_loose hA hs
  obtain ⟨k', l', hl'⟩ := htSetReachAny_loose hA ht
  have sub1 : ∀ same, CallsAtMost HTQuestion.onHash (if same || decide (t.size < s.size) then 0 else s.size) (s.isSubsetA A same t) := fun same =>
    callsAtMost ((HTSet.isSubsetA_costs hl hl' prices_hash hc same).mono (by simp)).atMost
  have sub2 : ∀ same, CallsAtMost HTQuestion.onKeysEq (if same || decide (t.size < s.size) then 0 else s.size * c) (s.isSubsetA A same t) :=
    fun same => callsAtMost ((HTSet.isSubsetA_costs hl hl' prices_keysEq hc same).mono (by simp)).atMost
  exact ⟨fun o eqV => HTSet.isDisjointA_run A o eqV s t, fun o eqV same => HTSet.isSubsetA_run A o eqV same s t,
    fun o eqV same => HTSet.isSubsetA_run A o eqV same s t,
    callsAtMost ((HTSet.isDisjointA_costs hl hl' prices_hash hc).mono (by simp)).atMost,
    callsAtMost ((HTSet.isDisjointA_costs hl hl' prices_keysEq hc).mono (by simp)).atMost, sub1, sub2, sub1, sub2⟩

/-- C68.  `==` of hash trie sets hashes each element of the first set at most once and compares it with at most as many elements as share a
hash in the second; nothing if the addresses or sizes decide. -/
theorem C68_hash_set_eq (A : Arch) (hA : HTMap.StdWord A) (s t : HTSet H T) (hs : HTSetReachAny A Q s) (ht : HTSetReachAny A Q' t)
    (c : Nat) (hc : ∀ kh, sameHash t.map kh ≤ c) :
    (∀ (o : HashKeys H T Q) same, (s.eqA A same t).run (HTQuestion.answer o (fun _ _ => true)) = s.eq A o same t) ∧
    (∀ same, CallsAtMost HTQuestion.onHash s.size (s.eqA A same t)) ∧
    (∀ same, CallsAtMost HTQuestion.onKeysEq (s.size * c) (s.eqA A same t)) ∧
    (∀ same, same = true ∨ s.size ≠ t.size → CallsAtMost anyCall 0 (s.eqA A same t)) := by
  obtain ⟨k, l, hl⟩ := htSetReachAny_loose hA hs
  obtain ⟨k', l', hl'⟩ := htSetReachAny_loose hA ht
  refine ⟨fun o same => HTMap.eqA_run A o _ same s.map t.map, fun same => callsAtMost ?_, fun same => callsAtMost ?_,
    fun same h => callsAtMost ?_⟩
  · exact ((HTMap.eqA_costs hl hl' prices_hash (v := 0) (fun _ _ => costs_query_free rfl) hc same).mono (by simp [HTSet.size, HTMap.getSize])).atMost
  · exact ((HTMap.eqA_costs hl hl' prices_keysEq (v := 0) (fun _ _ => costs_query_free rfl) hc same).mono
      (by simp [HTSet.size, HTMap.getSize])).atMost
  · unfold HTSet.eqA HTMap.eqA
    rcases h with rfl | h
    · exact trivial
    · split
      · exact trivial
      · rw [if_neg (by simpa [HTSet.size] using h)]
        exact trivial

/-! ### Examples -/

/-- The result with user code that keeps no state, and the number of its calls of the kind `p`. -/
def exCalls {α : Type} (p : RBQuestion K V Q → Bool) (o : OrdKeys K Q) (x : RBAsk K V Q α) : Option (Res α) × Nat :=
  x.runState (fun (n : Nat) i => (some (RBQuestion.answer o (fun _ _ => true) (fun _ _ => .eq) i), if p i then n + 1 else n)) 0

def exHCalls {α : Type} (p : HTQuestion H K V → Bool) (o : HashKeys H K Q) (x : HTAsk H K V α) : Option (Res α) × Nat :=
  x.runState (fun (n : Nat) i => (some (HTQuestion.answer o (fun _ _ => true) i), if p i then n + 1 else n)) 0

theorem exRBAsk {β : Type} (o : OrdKeys Nat Nat) (kvs : List (Nat × Nat)) (f : RBMap Nat Nat → Res β) (b : β)
    (h : (RBMap.fromIter o kvs).bind (fun m => if m.size < 100 then f m else .error .diverge) = .ok b) :
    ∃ m, RBMap.fromIter o kvs = .ok m ∧ RBReachU dbg64 Nat Nat m ∧ RBMap.Fits dbg64 m ∧ f m = .ok b := by
  obtain ⟨m, h1, _, h3, h4⟩ := exRBAny o kvs f b h
  exact ⟨m, h1, .init ⟨o, .fromIter h1⟩, h3, h4⟩

/-- Seven keys.  A range iterator: nothing before the first call; 7 comparisons for three calls at the front (bound 10), 15 for four calls at
both ends (bound 22).  An iterator of the whole map: none from the front, 3 for four calls at both ends.  `==` with an equal map: 17
comparisons of keys (bound 42) and 7 of values; `cmp`: 7 and 7, which are the bounds, as are 2 for creating a range. -/
example : ∃ m, RBMap.fromIter exUsual [(1, 0), (2, 0), (3, 0), (4, 0), (5, 0), (6, 0), (7, 0)] = .ok m ∧ RBReachU dbg64 Nat Nat m ∧
    RBMap.Fits dbg64 m ∧
    (let range := fun cs => (exCalls anyCall exUsual (deAnswersA (RBRangeIter.nextA dbg64) (RBRangeIter.nextBackA dbg64) cs
        (RBRangeIter.new m (.included 1) (.included 7)))).2
     let iter := fun cs => (exCalls anyCall exUsual (deAnswersA (RBIter.nextA dbg64) (RBIter.nextBackA dbg64) cs m.iter)).2
     (.ok (range [], range [.front, .front, .front], range [.back, .front, .back, .front], iter [.front, .front, .front],
       iter [.front, .back, .front, .back], (exCalls anyCall exUsual (m.rangeA (.excluded 1) (.excluded 3))).2) : Res _)) =
      .ok (0, 7, 15, 0, 3, 2) :=
  exRBAsk _ _ _ _ (by decide +kernel)

example : ∃ m, RBMap.fromIter exUsual [(1, 0), (2, 0), (3, 0), (4, 0), (5, 0), (6, 0), (7, 0)] = .ok m ∧ RBReachU dbg64 Nat Nat m ∧
    RBMap.Fits dbg64 m ∧
    (.ok ((exCalls RBQuestion.onKeys exUsual (m.eqA dbg64 false m)).2, (exCalls RBQuestion.onValues exUsual (m.eqA dbg64 false m)).2,
      (exCalls RBQuestion.onKeys exUsual (m.cmpA dbg64 m)).2, (exCalls RBQuestion.onValues exUsual (m.cmpA dbg64 m)).2,
      (exCalls anyCall exUsual (m.eqA dbg64 true m)).2) : Res _) = .ok (17, 7, 7, 7, 0) :=
  exRBAsk _ _ _ _ (by decide +kernel)

/-- User code that panics at its third call: so does `cmp`. -/
example : ∃ m, RBMap.fromIter exUsual [(1, 0), (2, 0), (3, 0)] = .ok m ∧ RBReachU dbg64 Nat Nat m ∧ RBMap.Fits dbg64 m ∧
    (.ok ((m.cmpA dbg64 m).runState (fun (n : Nat) i =>
      (if n = 0 then none else some (RBQuestion.answer exUsual (fun _ _ => true) (fun _ _ => .eq) i), n - 1)) 2).1.isNone : Res _) = .ok true :=
  exRBAsk _ _ _ _ (by decide +kernel)

/-- Disjoint sets of three elements each, one between the other: 5 comparisons, which is the bound; looking for the greatest element takes 3,
which is the bound; a subset that is too big takes none. -/
example : (do let s ← RBSet.fromIter exUsual [1, 3, 5]
              let t ← RBSet.fromIter exUsual [2, 4, 6]
              let u ← RBSet.fromIter exUsual [6]
              pure ((exCalls anyCall exUsual (s.isDisjointA dbg64 t)).2, (exCalls anyCall exUsual (u.isSubsetA dbg64 false t)).2,
                (exCalls anyCall exUsual (t.isSubsetA dbg64 false u)).2, (exCalls anyCall exUsual (t.isSupersetA dbg64 false u)).2) : Res _) =
    .ok (5, 3, 0, 3) := by decide +kernel

/-- Three keys, all with the same hash: each is hashed once and compared with at most 3 keys, 6 times in all. -/
example : ∃ m, HTMap.fromIter dbg64 (exHKeys fun _ => 7) 0 [(1, 1), (3, 3), (5, 5)] = .ok m ∧ HTMap.ReachAny dbg64 Nat m ∧
    (.ok (sameHash m 7, (exHCalls HTQuestion.onHash (exHKeys fun _ => 7) (m.eqA dbg64 false m)).2,
      (exHCalls HTQuestion.onKeysEq (exHKeys fun _ => 7) (m.eqA dbg64 false m)).2,
      (exHCalls HTQuestion.onValuesEq (exHKeys fun _ => 7) (m.eqA dbg64 false m)).2,
      (exHCalls anyCall (exHKeys fun _ => 7) (m.eqA dbg64 true m)).2) : Res _) = .ok (3, 3, 6, 3, 0) :=
  exHTAny _ _ _ _ (by decide +kernel)

/-- Disjoint sets whose elements all have the same hash: 3 hashes and 9 comparisons, which are the bounds. -/
example : (do let s ← HTSet.fromIter dbg64 (exHKeys fun _ => 7) 0 [1, 3, 5]
              let t ← HTSet.fromIter dbg64 (exHKeys fun _ => 7) 0 [2, 4, 6]
              pure (sameHash t.map 7, (exHCalls HTQuestion.onHash (exHKeys fun _ => 7) (s.isDisjointA dbg64 t)).2,
                (exHCalls HTQuestion.onKeysEq (exHKeys fun _ => 7) (s.isDisjointA dbg64 t)).2,
                (exHCalls anyCall (exHKeys fun _ => 7) (s.isSubsetA dbg64 true t)).2) : Res _) = .ok (3, 3, 9, 0) := by decide +kernel

/-- Comparing sets: `cmp` and `partial_cmp` of equal sets compare each element once; `==` compares 5 times for three elements (bound 12);
they stop at the first difference.  `==` of hash sets whose elements have the same hash: 3 hashes and 6 comparisons. -/
example : (do let s ← RBSet.fromIter exUsual [1, 3, 5]
              let t ← RBSet.fromIter exUsual [5, 3, 1]
              let u ← RBSet.fromIter exUsual [1, 4, 5]
              let h ← HTSet.fromIter dbg64 (exHKeys fun _ => 7) 0 [1, 3, 5]
              pure ([(exCalls anyCall exUsual (s.cmpA dbg64 t)).2, (exCalls anyCall exUsual (s.partialCmpA dbg64 t)).2,
                (exCalls RBQuestion.onKeys exUsual (s.eqA dbg64 false t)).2, (exCalls anyCall exUsual (s.cmpA dbg64 u)).2,
                (exCalls anyCall exUsual (s.partialCmpA dbg64 u)).2, (exCalls anyCall exUsual (s.eqA dbg64 true u)).2,
                (exHCalls HTQuestion.onHash (exHKeys fun _ => 7) (h.eqA dbg64 false h)).2,
                (exHCalls HTQuestion.onKeysEq (exHKeys fun _ => 7) (h.eqA dbg64 false h)).2]) : Res _) =
    .ok [3, 3, 5, 2, 2, 0, 3, 6] := by decide +kernel

/-- Values that are incomparable: `partial_cmp` stops there, after one comparison of keys and one of values. -/
example : ∃ m, RBMap.fromIter exUsual [(1, 0), (2, 0), (3, 0)] = .ok m ∧ RBReachU dbg64 Nat Nat m ∧ RBMap.Fits dbg64 m ∧
    (.ok (((m.partialCmpA dbg64 m).runState (fun (n : Nat) i => (some (RBQuestion.answerPartial exUsual (fun _ _ => none) i), n + 1)) 0)) : Res _) =
      .ok (some (.ok none), 2) :=
  exRBAsk _ _ _ _ (by decide +kernel)

end Rpds.Props
