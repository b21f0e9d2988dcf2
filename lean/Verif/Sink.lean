import Verif.Vector.Model
import Verif.List.Hints
import Verif.RedBlack.Set
import Verif.HashTrie.Set
/-
`Display` and `Serialize` with a formatter or serializer that may refuse what it is given, and with items whose own formatting or
serialization may fail or panic.  The model in `Iter.lean` and the `display` and `serialize` of each collection have a sink that takes
everything.

The sink has an arbitrary state `S` and errors `E`: `core::fmt::Formatter` with its flags, and `core::fmt::Error`, or any
`serde::Serializer` with its error type.
-/
set_option autoImplicit false
namespace Rpds
variable {σ α S E T H K V Q : Type}

/-- One call that may write to the sink: it panics, or it returns `Ok(())` or an error.  The state of the sink may have changed also if
it returns an error. -/
abbrev Emit (S E : Type) : Type := S → Res (Except E Unit × S)

/-- `a?; b`. -/
def Emit.andThen (a b : Emit S E) : Emit S E := fun s => do
  match ← a s with
  | (.ok (), s) => b s
  | (.error e, s) => pure (.error e, s)

/-- The loop of the `Display` implementations, e.g. list/mod.rs:356-362: `write` is `fmt.write_str`, `item` is what is done with an
item (`v.fmt(fmt)?`). -/
def displayLoop (next : σ → Res (Option α × σ)) (write : String → Emit S E) (item : α → Emit S E) : Nat → σ → Bool → Emit S E
  | 0, _, _, _ => .error .diverge
  | fuel + 1, it, first, s => do
    let (x, it') ← next it
    match x with
    | none => pure (.ok (), s)
    | some a =>
      Emit.andThen (if !first then write ", " else fun s => pure (.ok (), s))
        (Emit.andThen (item a) (fun s => displayLoop next write item fuel it' false s)) s

/-- A `Display` implementation: `opening`, the items, `closing`. -/
def displayEmit (next : σ → Res (Option α × σ)) (write : String → Emit S E) (item : α → Emit S E) (fuel : Nat) (it : σ)
    (opening closing : String) : Emit S E :=
  Emit.andThen (write opening) (Emit.andThen (fun s => displayLoop next write item fuel it true s) (write closing))

/-- What the `Display` implementations of the maps do with a pair (hash_trie_map/mod.rs:996-998, red_black_tree_map/mod.rs:1094-1096). -/
def pairEmit (write : String → Emit S E) (fmtK : K → Emit S E) (fmtV : V → Emit S E) (kv : K × V) : Emit S E :=
  Emit.andThen (fmtK kv.1) (Emit.andThen (write ": ") (fmtV kv.2))

/-- `try_for_each` in serde's `collect_seq` and `collect_map`. -/
def serializeLoop (next : σ → Res (Option α × σ)) (item : α → Emit S E) : Nat → σ → Emit S E
  | 0, _, _ => .error .diverge
  | fuel + 1, it, s => do
    let (x, it') ← next it
    match x with
    | none => pure (.ok (), s)
    | some a => Emit.andThen (item a) (fun s => serializeLoop next item fuel it' s) s

/-- serde's `Serializer::collect_seq`: `serialize_seq(hint)?`, `serialize_element(&item)?` for each item, `end()`; with
`serialize_map`, `serialize_entry` and `SerializeMap::end` it is `collect_map`. -/
def collectEmit (next : σ → Res (Option α × σ)) (start : Option Nat → Emit S E) (item : α → Emit S E) (finish : Emit S E) (fuel : Nat) (it : σ)
    (hint : Option Nat) : Emit S E :=
  Emit.andThen (start hint) (Emit.andThen (fun s => serializeLoop next item fuel it s) finish)

/-- `Display for List` (list/mod.rs:351-365). -/
def RList.displayTo (write : String → Emit S E) (fmt : T → Emit S E) (l : RList T) : Emit S E :=
  displayEmit ListIter.step write fmt (l.length + 1) l.iter "[" "]"
/-- `Display for Stack` (stack/mod.rs:231-245). -/
def Stack.displayTo (write : String → Emit S E) (fmt : T → Emit S E) (s : Stack T) : Emit S E :=
  displayEmit ListIter.step write fmt (s.list.length + 1) s.iter "Stack(" ")"
/-- `Display for Queue` (queue/mod.rs:260-274). -/
def Queue.displayTo (write : String → Emit S E) (fmt : T → Emit S E) (q : Queue T) : Emit S E :=
  displayEmit QueueIter.step write fmt (q.len + 1) q.iter "Queue(" ")"
/-- `Display for Vector` (vector/mod.rs:598-612). -/
def RVector.displayTo (A : Arch) (write : String → Emit S E) (fmt : T → Emit S E) (v : RVector T) : Emit S E :=
  displayEmit (VIter.next A) write fmt (v.length + 1) v.iter "[" "]"
/-- `Display for HashTrieMap` (hash_trie_map/mod.rs:987-1003). -/
def HTMap.displayTo (write : String → Emit S E) (fmtK : K → Emit S E) (fmtV : V → Emit S E) (m : HTMap H K V) : Emit S E :=
  displayEmit HTMap.iterNext write (pairEmit write fmtK fmtV) (m.size + 1) m.iter "{" "}"
/-- `Display for HashTrieSet` (hash_trie_set/mod.rs:299-313). -/
def HTSet.displayTo (write : String → Emit S E) (fmt : T → Emit S E) (s : HTSet H T) : Emit S E :=
  displayEmit HTSet.iterNext write fmt (s.map.size + 1) s.iter "{" "}"
/-- `Display for RedBlackTreeMap` (red_black_tree_map/mod.rs:1085-1101). -/
def RBMap.displayTo (A : Arch) (o : OrdKeys K Q) (write : String → Emit S E) (fmtK : K → Emit S E) (fmtV : V → Emit S E) (m : RBMap K V) :
    Emit S E :=
  displayEmit (RBMap.iterNext A o) write (pairEmit write fmtK fmtV) (m.size + 1) m.iter "{" "}"
/-- `Display for RedBlackTreeSet` (red_black_tree_set/mod.rs:359-373). -/
def RBSet.displayTo (A : Arch) (o : OrdKeys T Q) (write : String → Emit S E) (fmt : T → Emit S E) (s : RBSet T) : Emit S E :=
  displayEmit (RBSet.iterNext A o) write fmt (s.size + 1) s.iter "{" "}"

/-- `Serialize for List` (list/mod.rs:478-480). -/
def RList.serializeTo (start : Option Nat → Emit S E) (elem : T → Emit S E) (finish : Emit S E) (l : RList T) : Emit S E :=
  collectEmit ListIter.step start elem finish (l.length + 1) l.iter (lenHint l.iter.sizeHint (some l.iter.sizeHint))
/-- `Serialize for Stack` (stack/mod.rs:280-282). -/
def Stack.serializeTo (start : Option Nat → Emit S E) (elem : T → Emit S E) (finish : Emit S E) (s : Stack T) : Emit S E :=
  s.list.serializeTo start elem finish
/-- `Serialize for Queue` (queue/mod.rs:377-379). -/
def Queue.serializeTo (start : Option Nat → Emit S E) (elem : T → Emit S E) (finish : Emit S E) (q : Queue T) : Emit S E :=
  collectEmit QueueIter.step start elem finish (q.len + 1) q.iter (lenHint q.iter.sizeHint (some q.iter.sizeHint))
/-- `Serialize for Vector` (vector/mod.rs:865-867). -/
def RVector.serializeTo (A : Arch) (start : Option Nat → Emit S E) (elem : T → Emit S E) (finish : Emit S E) (v : RVector T) : Emit S E :=
  fun s => do
    let n ← v.iter.sizeHint A
    collectEmit (VIter.next A) start elem finish (v.length + 1) v.iter (lenHint n (some n)) s
/-- `Serialize for HashTrieMap` (hash_trie_map/mod.rs:1159-1161). -/
def HTMap.serializeTo (start : Option Nat → Emit S E) (entry : K × V → Emit S E) (finish : Emit S E) (m : HTMap H K V) : Emit S E :=
  collectEmit HTMap.iterNext start entry finish (m.size + 1) m.iter (lenHint m.iter.sizeHint (some m.iter.sizeHint))
/-- `Serialize for HashTrieSet` (hash_trie_set/mod.rs:361-363). -/
def HTSet.serializeTo (start : Option Nat → Emit S E) (elem : T → Emit S E) (finish : Emit S E) (s : HTSet H T) : Emit S E :=
  collectEmit HTSet.iterNext start elem finish (s.map.size + 1) s.iter (lenHint s.iter.sizeHint (some s.iter.sizeHint))
/-- `Serialize for RedBlackTreeMap` (red_black_tree_map/mod.rs:1500-1502). -/
def RBMap.serializeTo (A : Arch) (o : OrdKeys K Q) (start : Option Nat → Emit S E) (entry : K × V → Emit S E) (finish : Emit S E)
    (m : RBMap K V) : Emit S E :=
  collectEmit (RBMap.iterNext A o) start entry finish (m.size + 1) m.iter (lenHint m.iter.sizeHint (some m.iter.sizeHint))
/-- `Serialize for RedBlackTreeSet` (red_black_tree_set/mod.rs:419-421). -/
def RBSet.serializeTo (A : Arch) (o : OrdKeys T Q) (start : Option Nat → Emit S E) (elem : T → Emit S E) (finish : Emit S E) (s : RBSet T) :
    Emit S E :=
  collectEmit (RBSet.iterNext A o) start elem finish (s.size + 1) s.iter (lenHint s.iter.sizeHint (some s.iter.sizeHint))

end Rpds

namespace Rpds.Spec
variable {S E α K V : Type}

/-- Calls made one after the other, until one returns an error or panics. -/
def runAll : List (Emit S E) → Emit S E
  | [], s => .ok (.ok (), s)
  | a :: as, s => match a s with
    | .error p => .error p
    | .ok (.error e, s') => .ok (.error e, s')
    | .ok (.ok (), s') => runAll as s'

/-- The pieces of a displayed collection: what it writes for each item, with `", "` between the items and delimiters around them. -/
def pieces (write : String → Emit S E) (opening closing : String) (items : List (List (Emit S E))) : List (Emit S E) :=
  write opening :: List.intercalate [write ", "] items ++ [write closing]

end Rpds.Spec

namespace Rpds
open Spec
variable {σ α S E T H K V Q : Type} {next : σ → Res (Option α × σ)}

theorem runAll_append (as bs : List (Emit S E)) : runAll (as ++ bs) = Emit.andThen (runAll as) (runAll bs) := by
  funext s
  induction as generalizing s with
  | nil => rfl
  | cons a as ih =>
    simp only [List.cons_append, runAll, Emit.andThen]
    cases h : a s with
    | error p => rfl
    | ok r =>
      obtain ⟨r, s'⟩ := r
      cases r with
      | error e => rfl
      | ok u => exact ih s'

theorem runAll_single (a : Emit S E) : runAll [a] = a := by
  funext s
  simp only [runAll]
  cases h : a s with
  | error p => rfl
  | ok r =>
    obtain ⟨r, s'⟩ := r
    cases r <;> rfl

theorem runAll_cons (a : Emit S E) (as : List (Emit S E)) : runAll (a :: as) = Emit.andThen a (runAll as) := by
  rw [← List.singleton_append, runAll_append, runAll_single]

theorem runAll_pair (write : String → Emit S E) (fmtK : K → Emit S E) (fmtV : V → Emit S E) (kv : K × V) :
    pairEmit write fmtK fmtV kv = runAll [fmtK kv.1, write ": ", fmtV kv.2] := by
  rw [runAll_cons, runAll_cons, runAll_single]; rfl

theorem intercalate_cons_cons (sep x y : List α) (l : List (List α)) :
    List.intercalate sep (x :: y :: l) = x ++ sep ++ List.intercalate sep (y :: l) := by
  simp [List.intercalate, List.intersperse]

/-- The items after the first one, each after its comma. -/
theorem displayLoop_later {it : σ} {l : List α} (h : Drives next it l) (write : String → Emit S E) (item : α → Emit S E)
    (ps : α → List (Emit S E)) (hp : ∀ a, item a = runAll (ps a)) {fuel : Nat} (hf : l.length < fuel) :
    displayLoop next write item fuel it false = runAll (l.map fun a => write ", " :: ps a).flatten := by
  induction h generalizing fuel with
  | nil h =>
    obtain ⟨n, rfl⟩ : ∃ n, fuel = n + 1 := ⟨fuel - 1, by omega⟩
    funext s
    simp only [displayLoop, h]; rfl
  | @cons _ _ a l h h' ih =>
    obtain ⟨n, rfl⟩ : ∃ n, fuel = n + 1 := ⟨fuel - 1, by omega⟩
    simp only [List.length_cons] at hf
    have := ih (fuel := n) (by omega)
    simp only [List.map_cons, List.flatten_cons, List.cons_append]
    rw [runAll_cons, runAll_append, ← hp, ← this]
    funext s
    simp only [displayLoop, h]
    rfl

theorem flatten_later (write : String → Emit S E) (ps : α → List (Emit S E)) (a : α) (l : List α) :
    ps a ++ (l.map fun a => write ", " :: ps a).flatten = List.intercalate [write ", "] ((a :: l).map ps) := by
  induction l generalizing a with
  | nil => simp [List.intercalate]
  | cons b l ih =>
    have h := ih b
    simp only [List.map_cons] at h
    simp only [List.map_cons, intercalate_cons_cons, ← h]
    simp

theorem Drives.displayEmit {it : σ} {l : List α} (h : Drives next it l) (write : String → Emit S E) (item : α → Emit S E)
    (ps : α → List (Emit S E)) (hp : ∀ a, item a = runAll (ps a)) (opening closing : String) {fuel : Nat} (hf : l.length < fuel) :
    displayEmit next write item fuel it opening closing = runAll (pieces write opening closing (l.map ps)) := by
  rw [pieces, List.cons_append, runAll_cons, runAll_append, runAll_single]
  suffices hs : displayLoop next write item fuel it true = runAll (List.intercalate [write ", "] (l.map ps)) by
    rw [← hs]; rfl
  obtain ⟨n, rfl⟩ : ∃ n, fuel = n + 1 := ⟨fuel - 1, by omega⟩
  cases h with
  | nil h =>
    funext s
    simp only [displayLoop, h]; rfl
  | @cons _ it' a l h h' =>
    simp only [List.length_cons] at hf
    rw [← flatten_later, runAll_append, ← hp, ← displayLoop_later h' write item ps hp (fuel := n) (by omega)]
    funext s
    simp only [displayLoop, h]
    rfl

theorem Drives.collectEmit {it : σ} {l : List α} (h : Drives next it l) (start : Option Nat → Emit S E) (item : α → Emit S E)
    (finish : Emit S E) (hint : Option Nat) {fuel : Nat} (hf : l.length < fuel) :
    collectEmit next start item finish fuel it hint = runAll (start hint :: l.map item ++ [finish]) := by
  rw [List.cons_append, runAll_cons, runAll_append, runAll_single]
  suffices hs : serializeLoop next item fuel it = runAll (l.map item) by
    rw [← hs]; rfl
  induction h generalizing fuel with
  | nil h =>
    obtain ⟨n, rfl⟩ : ∃ n, fuel = n + 1 := ⟨fuel - 1, by omega⟩
    funext s
    simp only [serializeLoop, h]; rfl
  | @cons _ _ a l h h' ih =>
    obtain ⟨n, rfl⟩ : ∃ n, fuel = n + 1 := ⟨fuel - 1, by omega⟩
    simp only [List.length_cons] at hf
    rw [List.map_cons, runAll_cons, ← ih (fuel := n) (by omega)]
    funext s
    simp only [serializeLoop, h]
    rfl

end Rpds
