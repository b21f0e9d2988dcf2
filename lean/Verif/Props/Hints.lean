import Verif.List.Hints
import Verif.Props.Cross
/-
Property C64: what collections do with the number of items they are told to expect, and what they announce themselves.
-/
set_option autoImplicit false
namespace Rpds.Props
variable {T H K V Q E : Type}

/-! ### C64 -/

/-- An iterator's `size_hint()` is honest: the number of items lies between the bounds. -/
def Honest (lo : Nat) (hi : Option Nat) (n : Nat) : Prop := lo ≤ n ∧ ∀ h, hi = some h → n ≤ h

/-- C64.  Collecting into a `List` an iterator that announces at most `h` items, and keeps to it, works exactly if room for `h` items
can be had, whatever the number of items; the result is then what the items are.  If the room for `h` items exceeds `isize::MAX` bytes
the answer is a panic, whatever the items. -/
theorem C64_list_collect_hint (M : Memory) (size lo h : Nat) (xs : List T) (hh : Honest lo (some h) xs.length) :
    ((∃ l, RList.fromIterHinted M size lo (some h) xs = .ok l) ↔ h * size ≤ M.limit) ∧
    (∀ l, RList.fromIterHinted M size lo (some h) xs = .ok l → l = RList.fromIter xs ∧ listItems l = .ok xs) ∧
    (2 ^ (M.W - 1) - 1 < h * size → RList.fromIterHinted M size lo (some h) xs = .error .capacityOverflow) := by
  have hok : h * size ≤ M.limit → RList.fromIterHinted M size lo (some h) xs = .ok (RList.fromIter xs) := fun hl =>
    RList.fromIterHinted_ok ⟨hl, .inl (hh.2 h rfl)⟩
  have hno : ¬ h * size ≤ M.limit → ∃ e, RList.fromIterHinted M size lo (some h) xs = .error e := fun hl => by
    obtain ⟨e, he⟩ := Memory.request_error (M := M) (size := size) (n := h) (by omega)
    exact ⟨e, RList.fromIterHinted_error he⟩
  refine ⟨⟨fun ⟨l, hl⟩ => ?_, fun hl => ⟨_, hok hl⟩⟩, fun l hl => ?_, fun hm => RList.fromIterHinted_error ?_⟩
  · by_cases hc : h * size ≤ M.limit
    · exact hc
    · obtain ⟨e, he⟩ := hno hc
      rw [he] at hl; simp at hl
  · by_cases hc : h * size ≤ M.limit
    · rw [hok hc] at hl
      cases hl
      exact ⟨rfl, rep_items (RList.rep_fromIter xs)⟩
    · obtain ⟨e, he⟩ := hno hc
      rw [he] at hl; simp at hl
  · simp only [Option.getD_some, Memory.request]
    rw [if_neg (by omega), if_pos (by rw [Memory.isizeMax]; exact hm)]

/-- C64.  An iterator without upper bound (`hi = none`) that yields at least the `lo` items announced: collecting works if the room
for `lo` items and for twice the number of items can be had. -/
theorem C64_list_collect_unbounded (M : Memory) (size lo : Nat) (xs : List T) (hl : lo * size ≤ M.limit)
    (hx : max 8 (2 * xs.length) * size ≤ M.limit) :
    RList.fromIterHinted M size lo none xs = .ok (RList.fromIter xs) := RList.fromIterHinted_ok ⟨hl, .inr hx⟩

/-- C64, the flaw.  However much memory there is, for all elements that take up space there is an honest iterator *without any item* that
cannot be collected into a `List`, `Stack` or `Queue`: the program panics.  Likewise a sequence without any element cannot be
deserialized if its input claims to be long. -/
theorem C64_empty_but_panics (M : Memory) (hW : 0 < M.W) (size : Nat) (hs : 0 < size) :
    ∃ h, h < 2 ^ M.W ∧ Honest 0 (some h) ([] : List T).length ∧
      RList.fromIterHinted M size 0 (some h) ([] : List T) = .error .capacityOverflow ∧
      Stack.fromIterHinted M size 0 (some h) ([] : List T) = .error .capacityOverflow ∧
      Queue.fromIterHinted M size 0 (some h) ([] : List T) = .error .capacityOverflow ∧
      RList.deserializeHinted M size (some h) ([] : List (Except E T)) = .error .capacityOverflow ∧
      Stack.deserializeHinted M size (some h) ([] : List (Except E T)) = .error .capacityOverflow ∧
      Queue.deserializeHinted M size (some h) ([] : List (Except E T)) = .error .capacityOverflow := by
  have hp : 2 ^ M.W = 2 * 2 ^ (M.W - 1) := by rw [← Nat.pow_succ', show (M.W - 1).succ = M.W from by omega]
  have hpos : 0 < 2 ^ (M.W - 1) := Nat.two_pow_pos _
  have hle : 2 ^ (M.W - 1) ≤ 2 ^ (M.W - 1) * size := Nat.le_mul_of_pos_right _ hs
  have hr : M.request size (2 ^ (M.W - 1)) = .error .capacityOverflow := by
    simp only [Memory.request]
    rw [if_neg (by omega), if_pos (by rw [Memory.isizeMax]; omega)]
  have h1 : RList.fromIterHinted M size 0 (some (2 ^ (M.W - 1))) ([] : List T) = .error .capacityOverflow :=
    RList.fromIterHinted_error hr
  have h2 : RList.deserializeHinted M size (some (2 ^ (M.W - 1))) ([] : List (Except E T)) = .error .capacityOverflow :=
    RList.deserializeHinted_error hr
  refine ⟨2 ^ (M.W - 1), by omega, ⟨Nat.le_refl _, fun h _ => by simp⟩, h1, ?_, ?_, h2, ?_, ?_⟩
  · simp only [Stack.fromIterHinted, h1]; rfl
  · simp only [Queue.fromIterHinted, h1]; rfl
  · simp only [Stack.deserializeHinted, h2]; rfl
  · simp only [Queue.deserializeHinted, h2]; rfl

/-- C64.  Elements without size never fail. -/
theorem C64_zero_sized (M : Memory) (lo : Nat) (hi : Option Nat) (xs : List T) (hint : Option Nat) (seq : List (Except E T)) :
    RList.fromIterHinted M 0 lo hi xs = .ok (RList.fromIter xs) ∧
    RList.deserializeHinted M 0 hint seq = .ok (RList.deserialize seq) :=
  ⟨RList.fromIterHinted_ok ⟨by simp, .inr (by simp)⟩, RList.deserializeHinted_ok ⟨by simp, .inr (by simp)⟩⟩

/-- C64.  Deserializing a `List`, `Stack` or `Queue` from an input that does not claim too much: room for the number of elements claimed,
and for twice the number of elements there are unless the claim covers them. -/
theorem C64_deserialize_hint (M : Memory) (size : Nat) (hint : Option Nat) (seq : List (Except E T))
    (hh : hint.getD 0 * size ≤ M.limit) (hn : seq.length ≤ hint.getD 0 ∨ max 8 (2 * seq.length) * size ≤ M.limit) :
    RList.deserializeHinted M size hint seq = .ok (RList.deserialize seq) ∧
    Stack.deserializeHinted M size hint seq = .ok (Stack.deserialize seq) ∧
    Queue.deserializeHinted M size hint seq = .ok (Queue.deserialize seq) := by
  have h := RList.deserializeHinted_ok (M := M) (size := size) (hint := hint) (seq := seq) ⟨hh, hn⟩
  refine ⟨h, ?_, ?_⟩
  · simp only [Stack.deserializeHinted, Stack.deserialize, h]
    cases RList.deserialize seq <;> rfl
  · simp only [Queue.deserializeHinted, Queue.deserialize, h]
    cases RList.deserialize seq <;> rfl

/-- C64 for `Stack` and `Queue`: collecting fails exactly when it does for `List`. -/
theorem C64_stack_queue_collect_hint (M : Memory) (size lo : Nat) (hi : Option Nat) (xs : List T) :
    (∀ e, RList.fromIterHinted M size lo hi xs = .error e →
      Stack.fromIterHinted M size lo hi xs = .error e ∧ Queue.fromIterHinted M size lo hi xs = .error e) ∧
    (RList.fromIterHinted M size lo hi xs = .ok (RList.fromIter xs) →
      Stack.fromIterHinted M size lo hi xs = .ok (Stack.fromIter xs) ∧ Queue.fromIterHinted M size lo hi xs = .ok (Queue.fromIter xs)) := by
  refine ⟨fun e h => ⟨?_, ?_⟩, fun h => ⟨?_, ?_⟩⟩
  · simp only [Stack.fromIterHinted, h]; rfl
  · simp only [Queue.fromIterHinted, h]; rfl
  · simp only [Stack.fromIterHinted, h]; rfl
  · simp only [Queue.fromIterHinted, h]; rfl

/-- C64.  What the collections announce when they are serialized is the number of items they then emit. -/
theorem C64_announced_length (A : Arch) :
    (∀ l : RList T, RList.Reach l → ∃ xs, l.serialize = .ok xs ∧ lenHint l.iter.sizeHint (some l.iter.sizeHint) = some xs.length) ∧
    (∀ s : Stack T, Stack.Reach s → ∃ xs, s.serialize = .ok xs ∧ lenHint s.iter.sizeHint (some s.iter.sizeHint) = some xs.length) ∧
    (∀ q : Queue T, Queue.Reach q → ∃ xs, q.serialize = .ok xs ∧ lenHint q.iter.sizeHint (some q.iter.sizeHint) = some xs.length) ∧
    (∀ v : RVector T, RVector.Reach A v → ∃ xs n, v.serialize A = .ok xs ∧ v.iter.sizeHint A = .ok n ∧ lenHint n (some n) = some xs.length) ∧
    (∀ (o : HashKeys H K Q) (m : HTMap H K V), HTMap.StdWord A → o.Lawful → HTMap.Reach A o m →
      ∃ xs, m.serialize = .ok xs ∧ lenHint m.iter.sizeHint (some m.iter.sizeHint) = some xs.length) ∧
    (∀ (o : HashKeys H T Q) (s : HTSet H T), HTMap.StdWord A → o.Lawful → HTSet.Reach A o s →
      ∃ xs, s.serialize = .ok xs ∧ lenHint s.iter.sizeHint (some s.iter.sizeHint) = some xs.length) ∧
    (∀ (o : OrdKeys K Q) (m : RBMap K V), o.Lawful → RBMap.Reach A o m → RBMap.Fits A m →
      ∃ xs, m.serialize A o = .ok xs ∧ lenHint m.iter.sizeHint (some m.iter.sizeHint) = some xs.length) ∧
    (∀ (o : OrdKeys T Q) (s : RBSet T), o.Lawful → RBSet.Reach A o s → RBMap.Fits A s.map →
      ∃ xs, s.serialize A o = .ok xs ∧ lenHint s.iter.sizeHint (some s.iter.sizeHint) = some xs.length) := by
  refine ⟨fun l hl => ?_, fun s hs => ?_, fun q hq => ?_, fun v hv => ?_, fun o m hA lo hm => ?_, fun o s hA lo hs => ?_,
    fun o m lo hm hf => ?_, fun o s lo hs hf => ?_⟩
  · obtain ⟨xs, r⟩ := hl.rep
    exact ⟨xs, r.serialize, by simp [lenHint, ListIter.sizeHint, r.iter.length]⟩
  · obtain ⟨xs, r⟩ := hs.rep
    exact ⟨xs, RList.Rep.serialize r, by simp [lenHint, ListIter.sizeHint, (RList.Rep.iter r).length, Stack.iter]⟩
  · obtain ⟨xs, r⟩ := hq.rep
    exact ⟨xs, r.serialize, by simp [lenHint, r.iter.sizeHint]⟩
  · obtain ⟨xs, h, r⟩ := hv.rep
    exact ⟨xs, _, r.serialize, VIter.sizeHint_ok (VIter.rem_new r), by simp [lenHint]⟩
  · obtain ⟨l, k, r⟩ := hm.rep hA lo
    exact ⟨_, r.serialize, by simp [lenHint, HIter.sizeHint, r.iter.size]⟩
  · obtain ⟨l, k, r⟩ := hs.rep hA lo
    exact ⟨_, r.serialize, by simp [lenHint, HIter.sizeHint, HTSet.iter, HTMap.iter, HIter.new, r.items_length]⟩
  · obtain ⟨l, r⟩ := hm.rep lo
    exact ⟨_, r.serialize lo hf, by simp [lenHint, RBIter.sizeHint, RBMap.iter, RBIter.new, r.size']⟩
  · obtain ⟨l, r⟩ := hs.rep lo
    exact ⟨_, r.serialize lo hf, by simp [lenHint, RBIter.sizeHint, RBSet.iter, RBMap.iter, RBIter.new, r.items_length]⟩

/-- C64.  Serializing a list and deserializing it on any machine, with the length it announced, works if the items fit in memory at all. -/
theorem C64_list_round_trip (M : Memory) (size : Nat) (l : RList T) (hl : RList.Reach l) (hm : l.len * size ≤ M.limit) :
    ∃ xs l', l.serialize = .ok xs ∧
      RList.deserializeHinted M size (lenHint l.iter.sizeHint (some l.iter.sizeHint)) (xs.map (Except.ok (ε := E))) = .ok (.ok l') ∧
      listItems l' = .ok xs := by
  obtain ⟨xs, r⟩ := hl.rep
  have hx : lenHint l.iter.sizeHint (some l.iter.sizeHint) = some xs.length := by simp [lenHint, ListIter.sizeHint, r.iter.length]
  have hd := RList.rep_deserialize (xs.map (Except.ok (ε := E)))
  rw [Spec.collectExcept_ok] at hd
  obtain ⟨l', h1, h2⟩ := hd
  refine ⟨xs, l', r.serialize, ?_, rep_items h2⟩
  rw [hx, RList.deserializeHinted_ok ⟨by simpa [r.len] using hm, .inl (by simp)⟩, h1]

/-- Three items announced honestly as at most 2^64 - 1: `(0..u64::MAX).take_while(|x| *x < 3).collect::<List<u64>>()`. -/
example : Honest 0 (some (2 ^ 64 - 1)) [0, 1, 2].length ∧
    RList.fromIterHinted ⟨64, 2 ^ 63⟩ 8 0 (some (2 ^ 64 - 1)) [0, 1, 2] = .error .capacityOverflow :=
  ⟨⟨by decide, by simp [List.length]⟩, by decide +kernel⟩

/-- The same with a smaller bound works on a large machine and ends the program on one that has 1 GB. -/
example : (RList.fromIterHinted ⟨64, 2 ^ 40⟩ 8 0 (some (2 ^ 32)) [0, 1, 2]).map listItems = .ok (.ok [0, 1, 2]) ∧
    (RList.fromIterHinted ⟨64, 2 ^ 30⟩ 8 0 (some (2 ^ 32)) [0, 1, 2]).map listItems = .error .outOfMemory :=
  ⟨by decide +kernel, by decide +kernel⟩

/-- Items beyond what was announced: the vector grows. -/
example : (RList.fromIterHinted ⟨64, 64⟩ 8 1 none [0, 1, 2, 3, 4]).map listItems = .ok (.ok [0, 1, 2, 3, 4]) ∧
    (RList.fromIterHinted ⟨64, 63⟩ 8 1 none [0, 1, 2, 3, 4]).map listItems = .error .outOfMemory ∧
    (RList.deserializeHinted ⟨64, 64⟩ 8 none [.ok 1, .error "no", .ok 3]).map (·.map listItems) = .ok (.error "no") :=
  ⟨by decide +kernel, by decide +kernel, by decide +kernel⟩

/-- The limits on a machine with 64 bits, and std's smallest capacities. -/
example : (⟨64, 2 ^ 64⟩ : Memory).limit = 9223372036854775807 ∧ (⟨64, 5⟩ : Memory).limit = 5 ∧
    RawVec.minCap 0 = 4 ∧ RawVec.minCap 1 = 8 ∧ RawVec.minCap 2 = 4 ∧ RawVec.minCap 1024 = 4 ∧ RawVec.minCap 1025 = 1 :=
  ⟨by decide +kernel, by decide, by decide, by decide, by decide, by decide, by decide⟩

end Rpds.Props
