import Verif.Sink
import Verif.Props.Cross
/-
Property C67: displaying and serializing into a sink that may fail.
-/
set_option autoImplicit false
namespace Rpds.Props
open Spec
variable {S E T H K V Q : Type}

/-! ### C67 -/

/-- C67 for the sequences.  Whatever the formatter does with what it is given, and whatever the items do with the formatter, displaying a
collection writes the opening delimiter, lets the items write themselves in the order of iteration, with one `", "` between any two, and writes
the closing delimiter; the first of these calls that returns an error is the last one made, and its error is returned. -/
theorem C67_sequences_display (A : Arch) (write : String → Emit S E) (fmt : T → Emit S E) :
    (∀ l : RList T, RList.Reach l → ∃ xs, listItems l = .ok xs ∧
      l.displayTo write fmt = runAll (pieces write "[" "]" (xs.map fun x => [fmt x]))) ∧
    (∀ s : Stack T, Stack.Reach s → ∃ xs, stackItems s = .ok xs ∧
      s.displayTo write fmt = runAll (pieces write "Stack(" ")" (xs.map fun x => [fmt x]))) ∧
    (∀ q : Queue T, Queue.Reach q → ∃ xs, queueItems q = .ok xs ∧
      q.displayTo write fmt = runAll (pieces write "Queue(" ")" (xs.map fun x => [fmt x]))) ∧
    (∀ v : RVector T, RVector.Reach A v → ∃ xs, vecItems A v = .ok xs ∧
      v.displayTo A write fmt = runAll (pieces write "[" "]" (xs.map fun x => [fmt x]))) := by
  have one := fun x => (runAll_single (fmt x)).symm
  refine ⟨fun l h => ?_, fun s h => ?_, fun q h => ?_, fun v h => ?_⟩
  · obtain ⟨xs, r⟩ := h.rep
    exact ⟨xs, rep_items r, r.iter.drives.displayEmit write fmt _ one _ _ (by have := r.length; omega)⟩
  · obtain ⟨xs, r⟩ := h.rep
    exact ⟨xs, rep_sitems r, (RList.Rep.iter r).drives.displayEmit write fmt _ one _ _ (by have := RList.Rep.length r; omega)⟩
  · obtain ⟨xs, r⟩ := h.rep
    exact ⟨xs, rep_qitems r, r.iter.drives.displayEmit write fmt _ one _ _ (by have := r.len; omega)⟩
  · obtain ⟨xs, _, r⟩ := h.rep
    exact ⟨xs, rep_vitems r, r.drives.displayEmit write fmt _ one _ _ (by simp [r.length])⟩

/-- C67 for the hash trie map and set: a pair is its key, `": "` and its value. -/
theorem C67_hash_display (A : Arch) (hA : HTMap.StdWord A) (o : HashKeys H K Q) (lo : o.Lawful) (write : String → Emit S E)
    (fmtK : K → Emit S E) (fmtV : V → Emit S E) :
    (∀ m : HTMap H K V, HTMap.Reach A o m → ∃ items, mapItems m = .ok items ∧
      m.displayTo write fmtK fmtV = runAll (pieces write "{" "}" (items.map fun p => [fmtK p.1, write ": ", fmtV p.2]))) ∧
    (∀ s : HTSet H K, HTSet.Reach A o s → ∃ items, setItems s = .ok items ∧
      s.displayTo write fmtK = runAll (pieces write "{" "}" (items.map fun x => [fmtK x]))) := by
  refine ⟨fun m h => ?_, fun s h => ?_⟩
  · obtain ⟨_, _, r⟩ := h.rep hA lo
    exact ⟨_, rep_mapItems r, (r.iter.drives HTMap.pair).displayEmit write _ _ (runAll_pair write fmtK fmtV) _ _ (by simp [r.size, r.length])⟩
  · obtain ⟨_, _, r⟩ := h.rep hA lo
    exact ⟨_, rep_setItems r, r.drives.displayEmit write _ _ (fun x => (runAll_single (fmtK x)).symm) _ _ (by rw [r.items_length]; omega)⟩

/-- C67 for the red-black tree map and set. -/
theorem C67_rb_display (A : Arch) (o : OrdKeys K Q) (lo : o.Lawful) (write : String → Emit S E) (fmtK : K → Emit S E) (fmtV : V → Emit S E) :
    (∀ m : RBMap K V, RBMap.Reach A o m → RBMap.Fits A m → ∃ items, rbItems A o m = .ok items ∧
      m.displayTo A o write fmtK fmtV = runAll (pieces write "{" "}" (items.map fun p => [fmtK p.1, write ": ", fmtV p.2]))) ∧
    (∀ s : RBSet K, RBSet.Reach A o s → RBMap.Fits A s.map → ∃ items, rbSetItems A o s = .ok items ∧
      s.displayTo A o write fmtK = runAll (pieces write "{" "}" (items.map fun x => [fmtK x]))) := by
  refine ⟨fun m h hf => ?_, fun s h hf => ?_⟩
  · obtain ⟨_, r⟩ := h.rep lo
    exact ⟨_, rep_rbItems r lo hf, (r.iterDrives lo hf).displayEmit write _ _ (runAll_pair write fmtK fmtV) _ _ (by rw [r.size']; omega)⟩
  · obtain ⟨_, r⟩ := h.rep lo
    exact ⟨_, rep_rbSetItems r lo hf, (r.drives lo hf).displayEmit write _ _ (fun x => (runAll_single (fmtK x)).symm) _ _
      (by simp only [RBSet.size, RBMap.getSize, r.items_length]; omega)⟩

/-- C67.  Serializing announces the exact number of items, gives the serializer the items in the order of iteration and ends the sequence or map;
the first of these calls that returns an error is the last one made, and its error is returned. -/
theorem C67_serialize (A : Arch) (start : Option Nat → Emit S E) (finish : Emit S E) (elem : T → Emit S E) (entry : K × V → Emit S E) :
    (∀ l : RList T, RList.Reach l → ∃ xs, listItems l = .ok xs ∧
      l.serializeTo start elem finish = runAll (start (some xs.length) :: xs.map elem ++ [finish])) ∧
    (∀ s : Stack T, Stack.Reach s → ∃ xs, stackItems s = .ok xs ∧
      s.serializeTo start elem finish = runAll (start (some xs.length) :: xs.map elem ++ [finish])) ∧
    (∀ q : Queue T, Queue.Reach q → ∃ xs, queueItems q = .ok xs ∧
      q.serializeTo start elem finish = runAll (start (some xs.length) :: xs.map elem ++ [finish])) ∧
    (∀ v : RVector T, RVector.Reach A v → ∃ xs, vecItems A v = .ok xs ∧
      v.serializeTo A start elem finish = runAll (start (some xs.length) :: xs.map elem ++ [finish])) ∧
    (∀ (o : HashKeys H K Q) (m : HTMap H K V), HTMap.StdWord A → o.Lawful → HTMap.Reach A o m → ∃ xs, mapItems m = .ok xs ∧
      m.serializeTo start entry finish = runAll (start (some xs.length) :: xs.map entry ++ [finish])) ∧
    (∀ (o : HashKeys H T Q) (s : HTSet H T), HTMap.StdWord A → o.Lawful → HTSet.Reach A o s → ∃ xs, setItems s = .ok xs ∧
      s.serializeTo start elem finish = runAll (start (some xs.length) :: xs.map elem ++ [finish])) ∧
    (∀ (o : OrdKeys K Q) (m : RBMap K V), o.Lawful → RBMap.Reach A o m → RBMap.Fits A m → ∃ xs, rbItems A o m = .ok xs ∧
      m.serializeTo A o start entry finish = runAll (start (some xs.length) :: xs.map entry ++ [finish])) ∧
    (∀ (o : OrdKeys T Q) (s : RBSet T), o.Lawful → RBSet.Reach A o s → RBMap.Fits A s.map → ∃ xs, rbSetItems A o s = .ok xs ∧
      s.serializeTo A o start elem finish = runAll (start (some xs.length) :: xs.map elem ++ [finish])) := by
  refine ⟨fun l hl => ?_, fun s hs => ?_, fun q hq => ?_, fun v hv => ?_, fun o m hA lo hm => ?_, fun o s hA lo hs => ?_,
    fun o m lo hm hf => ?_, fun o s lo hs hf => ?_⟩
  · obtain ⟨xs, r⟩ := hl.rep
    refine ⟨xs, rep_items r, ?_⟩
    rw [RList.serializeTo, r.iter.drives.collectEmit _ _ _ _ (by have := r.length; omega)]
    simp [lenHint, ListIter.sizeHint, r.iter.length]
  · obtain ⟨xs, r⟩ := hs.rep
    refine ⟨xs, rep_sitems r, ?_⟩
    rw [Stack.serializeTo, RList.serializeTo, (RList.Rep.iter r).drives.collectEmit _ _ _ _ (by have := RList.Rep.length r; omega)]
    simp [lenHint, ListIter.sizeHint, (RList.Rep.iter r).length]
  · obtain ⟨xs, r⟩ := hq.rep
    refine ⟨xs, rep_qitems r, ?_⟩
    rw [Queue.serializeTo, r.iter.drives.collectEmit _ _ _ _ (by have := r.len; omega)]
    simp [lenHint, r.iter.sizeHint]
  · obtain ⟨xs, h, r⟩ := hv.rep
    refine ⟨xs, rep_vitems r, ?_⟩
    funext s
    have hs : v.iter.sizeHint A = .ok xs.length := VIter.sizeHint_ok (VIter.rem_new r)
    rw [← r.drives.collectEmit start elem finish _ (fuel := v.length + 1) (by simp [r.length])]
    simp only [RVector.serializeTo, hs, lenHint, if_true]
    rfl
  · obtain ⟨l, k, r⟩ := hm.rep hA lo
    refine ⟨_, rep_mapItems r, ?_⟩
    rw [← (r.iter.drives HTMap.pair).collectEmit start entry finish _ (fuel := m.size + 1) (by simp [r.size, r.length])]
    simp [HTMap.serializeTo, lenHint, HIter.sizeHint, r.iter.size]
    rfl
  · obtain ⟨l, k, r⟩ := hs.rep hA lo
    refine ⟨_, rep_setItems r, ?_⟩
    rw [HTSet.serializeTo, r.drives.collectEmit _ _ _ _ (by rw [r.items_length]; omega)]
    simp [lenHint, HIter.sizeHint, HTSet.iter, HTMap.iter, HIter.new, r.items_length]
  · obtain ⟨l, r⟩ := hm.rep lo
    refine ⟨_, rep_rbItems r lo hf, ?_⟩
    rw [RBMap.serializeTo, (r.iterDrives lo hf).collectEmit _ _ _ _ (by rw [r.size']; omega)]
    simp [lenHint, RBIter.sizeHint, RBMap.iter, RBIter.new, r.size']
  · obtain ⟨l, r⟩ := hs.rep lo
    refine ⟨_, rep_rbSetItems r lo hf, ?_⟩
    rw [RBSet.serializeTo, (r.drives lo hf).collectEmit _ _ _ _ (by simp only [RBSet.size, RBMap.getSize, r.items_length]; omega)]
    simp [lenHint, RBIter.sizeHint, RBSet.iter, RBMap.iter, RBIter.new, r.items_length]

/-- A call that appends the text `t` to what has been written, or fails after a part of it. -/
def Writes (a : Emit String E) (t : String) : Prop :=
  ∀ s, a s = .ok (.ok (), s ++ t) ∨ ∃ p rest e, t = p ++ rest ∧ a s = .ok (.error e, s ++ p)

theorem Writes.andThen {a b : Emit String E} {t u : String} (ha : Writes a t) (hb : Writes b u) : Writes (Emit.andThen a b) (t ++ u) := by
  intro s
  rcases ha s with h | ⟨p, rest, e, rfl, h⟩
  · rcases hb (s ++ t) with h' | ⟨p, rest, e, hp, h'⟩
    · exact .inl (by simp [Emit.andThen, h, h', String.append_assoc])
    · exact .inr ⟨t ++ p, rest, e, by rw [hp, String.append_assoc], by simp [Emit.andThen, h, h', String.append_assoc]⟩
  · exact .inr ⟨p, rest ++ u, e, by rw [String.append_assoc], by simp [Emit.andThen, h]⟩

theorem writes_pieces {α : Type} {write : String → Emit String E} (hw : ∀ t, Writes (write t) t) (opening closing : String)
    (ps : α → List (Emit String E)) (text : α → String) (h : ∀ x, Writes (runAll (ps x)) (text x)) (xs : List α) :
    Writes (runAll (pieces write opening closing (xs.map ps))) (opening ++ joinWith ", " (xs.map text) ++ closing) := by
  rw [pieces, List.cons_append, runAll_cons, runAll_append, runAll_single, String.append_assoc]
  refine (hw _).andThen (Writes.andThen ?_ (hw _))
  induction xs with
  | nil => intro s; simp [runAll, joinWith, List.intercalate]
  | cons x xs ih =>
    cases xs with
    | nil => simpa [joinWith, List.intercalate] using h x
    | cons y ys =>
      simp only [List.map_cons, intercalate_cons_cons, joinWith, runAll_append, runAll_single] at ih ⊢
      exact ((h x).andThen (hw _)).andThen ih

theorem Writes.pair {write : String → Emit String E} (hw : ∀ t, Writes (write t) t) {fmtK : K → Emit String E} {fmtV : V → Emit String E}
    {textK : K → String} {textV : V → String} (hk : ∀ x, Writes (fmtK x) (textK x)) (hv : ∀ x, Writes (fmtV x) (textV x)) (p : K × V) :
    Writes (runAll [fmtK p.1, write ": ", fmtV p.2]) (textK p.1 ++ ": " ++ textV p.2) := by
  rw [runAll_cons, runAll_cons, runAll_single, String.append_assoc]
  exact (hk _).andThen ((hw _).andThen (hv _))

/-- C67.  If the sink takes text, and may fail after a part of it, and each item writes its own text, then what a collection has written is all
of the text that `display` gives (C51), or a beginning of it together with an error. -/
theorem C67_text (A : Arch) (write : String → Emit String E) (hw : ∀ t, Writes (write t) t)
    (fmt : T → Emit String E) (text : T → String) (ht : ∀ x, Writes (fmt x) (text x))
    (fmtK : K → Emit String E) (textK : K → String) (hk : ∀ x, Writes (fmtK x) (textK x))
    (fmtV : V → Emit String E) (textV : V → String) (hv : ∀ x, Writes (fmtV x) (textV x)) :
    (∀ l : RList T, RList.Reach l → ∃ t, l.display text = .ok t ∧ Writes (l.displayTo write fmt) t) ∧
    (∀ s : Stack T, Stack.Reach s → ∃ t, s.display text = .ok t ∧ Writes (s.displayTo write fmt) t) ∧
    (∀ q : Queue T, Queue.Reach q → ∃ t, q.display text = .ok t ∧ Writes (q.displayTo write fmt) t) ∧
    (∀ v : RVector T, RVector.Reach A v → ∃ t, v.display A text = .ok t ∧ Writes (v.displayTo A write fmt) t) ∧
    (∀ (o : HashKeys H K Q) (m : HTMap H K V), HTMap.StdWord A → o.Lawful → HTMap.Reach A o m →
      ∃ t, m.display textK textV = .ok t ∧ Writes (m.displayTo write fmtK fmtV) t) ∧
    (∀ (o : HashKeys H K Q) (s : HTSet H K), HTMap.StdWord A → o.Lawful → HTSet.Reach A o s →
      ∃ t, s.display textK = .ok t ∧ Writes (s.displayTo write fmtK) t) ∧
    (∀ (o : OrdKeys K Q) (m : RBMap K V), o.Lawful → RBMap.Reach A o m → RBMap.Fits A m →
      ∃ t, m.display A o textK textV = .ok t ∧ Writes (m.displayTo A o write fmtK fmtV) t) ∧
    (∀ (o : OrdKeys K Q) (s : RBSet K), o.Lawful → RBSet.Reach A o s → RBMap.Fits A s.map →
      ∃ t, s.display A o textK = .ok t ∧ Writes (s.displayTo A o write fmtK) t) := by
  have one : ∀ {α : Type} {f : α → Emit String E} {g : α → String}, (∀ x, Writes (f x) (g x)) → ∀ x, Writes (runAll [f x]) (g x) :=
    fun h x => by rw [runAll_single]; exact h x
  obtain ⟨c1, c2, c3, c4⟩ := C51_sequences_display A text
  obtain ⟨d1, d2, d3, d4⟩ := C67_sequences_display A write fmt
  refine ⟨fun l h => ?_, fun l h => ?_, fun l h => ?_, fun l h => ?_, fun o l hA lo h => ?_, fun o l hA lo h => ?_, fun o l lo h hf => ?_,
    fun o l lo h hf => ?_⟩
  · obtain ⟨xs, h1, h2⟩ := c1 l h
    obtain ⟨ys, h3, h4⟩ := d1 l h
    obtain rfl : xs = ys := by rw [h1] at h3; cases h3; rfl
    exact ⟨_, h2, h4 ▸ writes_pieces hw _ _ _ _ (one ht) xs⟩
  · obtain ⟨xs, h1, h2⟩ := c2 l h
    obtain ⟨ys, h3, h4⟩ := d2 l h
    obtain rfl : xs = ys := by rw [h1] at h3; cases h3; rfl
    exact ⟨_, h2, h4 ▸ writes_pieces hw _ _ _ _ (one ht) xs⟩
  · obtain ⟨xs, h1, h2⟩ := c3 l h
    obtain ⟨ys, h3, h4⟩ := d3 l h
    obtain rfl : xs = ys := by rw [h1] at h3; cases h3; rfl
    exact ⟨_, h2, h4 ▸ writes_pieces hw _ _ _ _ (one ht) xs⟩
  · obtain ⟨xs, h1, h2⟩ := c4 l h
    obtain ⟨ys, h3, h4⟩ := d4 l h
    obtain rfl : xs = ys := by rw [h1] at h3; cases h3; rfl
    exact ⟨_, h2, h4 ▸ writes_pieces hw _ _ _ _ (one ht) xs⟩
  · obtain ⟨xs, h1, h2⟩ := (C51_hash_display A hA o lo textK textV).1 l h
    obtain ⟨ys, h3, h4⟩ := (C67_hash_display A hA o lo write fmtK fmtV).1 l h
    obtain rfl : xs = ys := by rw [h1] at h3; cases h3; rfl
    exact ⟨_, h2, h4 ▸ writes_pieces hw _ _ _ _ (Writes.pair hw hk hv) xs⟩
  · obtain ⟨xs, h1, h2⟩ := (C51_hash_display A hA o lo textK textV).2 l h
    obtain ⟨ys, h3, h4⟩ := (C67_hash_display A hA o lo write fmtK fmtV).2 l h
    obtain rfl : xs = ys := by rw [h1] at h3; cases h3; rfl
    exact ⟨_, h2, h4 ▸ writes_pieces hw _ _ _ _ (one hk) xs⟩
  · obtain ⟨xs, h1, h2⟩ := (C51_rb_display A o lo textK textV).1 l h hf
    obtain ⟨ys, h3, h4⟩ := (C67_rb_display A o lo write fmtK fmtV).1 l h hf
    obtain rfl : xs = ys := by rw [h1] at h3; cases h3; rfl
    exact ⟨_, h2, h4 ▸ writes_pieces hw _ _ _ _ (Writes.pair hw hk hv) xs⟩
  · obtain ⟨xs, h1, h2⟩ := (C51_rb_display A o lo textK textV).2 l h hf
    obtain ⟨ys, h3, h4⟩ := (C67_rb_display A o lo write fmtK fmtV).2 l h hf
    obtain rfl : xs = ys := by rw [h1] at h3; cases h3; rfl
    exact ⟨_, h2, h4 ▸ writes_pieces hw _ _ _ _ (one hk) xs⟩

/-- For examples: a buffer of `n` characters, as `fmt::Write` for an array would be: it takes what fits and fails if that is not all. -/
def smallBuffer (n : Nat) (t : String) : Emit String Unit := fun s =>
  let room := n - s.length
  if t.length ≤ room then .ok (.ok (), s ++ t) else .ok (.error (), s ++ String.ofList (t.toList.take room))

theorem smallBuffer_writes (n : Nat) (t : String) : Writes (smallBuffer n t) t := by
  intro s
  unfold smallBuffer
  by_cases h : t.length ≤ n - s.length
  · exact .inl (by simp [h])
  · refine .inr ⟨String.ofList (t.toList.take (n - s.length)), String.ofList (t.toList.drop (n - s.length)), (), ?_, by simp only [h, if_false]⟩
    rw [← String.ofList_append, List.take_append_drop, String.ofList_toList]

example : (RList.fromIter [1, 2, 3]).displayTo (smallBuffer 9) (fun x : Nat => smallBuffer 9 (toString x)) "" = .ok (.ok (), "[1, 2, 3]") ∧
    (RList.fromIter [1, 2, 3]).displayTo (smallBuffer 8) (fun x : Nat => smallBuffer 8 (toString x)) "" = .ok (.error (), "[1, 2, 3") ∧
    (RList.fromIter [1, 2, 3]).displayTo (smallBuffer 3) (fun x : Nat => smallBuffer 3 (toString x)) "" = .ok (.error (), "[1,") ∧
    (RList.new : RList Nat).displayTo (smallBuffer 0) (fun x : Nat => smallBuffer 0 (toString x)) "" = .ok (.error (), "") ∧
    (Queue.fromIter [1, 2]).displayTo (smallBuffer 10) (fun x : Nat => smallBuffer 10 (toString x)) "" = .ok (.error (), "Queue(1, 2") ∧
    (Stack.stackMacro [1, 2]).displayTo (smallBuffer 11) (fun x : Nat => smallBuffer 11 (toString x)) "" = .ok (.ok (), "Stack(2, 1)") := by
  decide +kernel

/-- The second item cannot be displayed, or panics: nothing is written after it. -/
example : (RList.fromIter [1, 2, 3]).displayTo (smallBuffer 99) (fun x : Nat => if x = 2 then fun s => .ok (.error (), s) else smallBuffer 99 (toString x)) ""
      = .ok (.error (), "[1, ") ∧
    (RList.fromIter [1, 2, 3]).displayTo (smallBuffer 99) (fun x : Nat => if x = 2 then fun _ => .error .unwrapNone else smallBuffer 99 (toString x)) ""
      = .error .unwrapNone := by
  decide +kernel

/-- A formatter with a width, `{:3}`: it applies to each item and not to the delimiters. -/
example : (RList.fromIter [1, 22]).displayTo (S := Nat × String) (E := Unit) (fun t s => .ok (.ok (), s.1, s.2 ++ t))
    (fun x s => .ok (.ok (), s.1, s.2 ++ String.ofList (List.replicate (s.1 - (toString x).length) ' ') ++ toString x)) (3, "") =
    .ok (.ok (), 3, "[  1,  22]") := by
  decide +kernel

example : ∃ m, RBMap.fromIter exOrd [((2, "b"), 20), ((1, "a"), 10)] = .ok m ∧ RBMap.Reach dbg64 exOrd m ∧ RBMap.Fits dbg64 m ∧
    m.displayTo dbg64 exOrd (smallBuffer 9) (fun k => smallBuffer 9 k.2) (fun x => smallBuffer 9 (toString x)) "" = .ok (.error (), "{a: 10, b") :=
  exRB _ _ _ (by decide +kernel)

/-- A serializer that records what it is asked to do, and refuses the item 30. -/
def exSerialize (xs : List Nat) : Res (Except String Unit × List (Option Nat)) :=
  (RVector.fromIter dbg64 xs).bind fun v => v.serializeTo dbg64 (fun h s => .ok (.ok (), s ++ [h]))
    (fun x s => if x = 30 then .ok (.error "no 30", s) else .ok (.ok (), s ++ [some x])) (fun s => .ok (.ok (), s ++ [none])) []

example : exSerialize [10, 20, 30, 40] = .ok (.error "no 30", [some 4, some 10, some 20]) ∧
    exSerialize [10, 20] = .ok (.ok (), [some 2, some 10, some 20, none]) := by
  decide +kernel

end Rpds.Props
