import Verif.Heap.HashTrieMap
import Verif.HashTrie.Unwind
/-
`HashTrieMap` on the reference counted heap with user code that may panic, change its answers from call to call, or do anything else
(`HTUser`): the functions of `Verif/HashTrie/Unwind.lean` with every pointer operation spelled out, or those of `Verif/Heap/HashTrie.lean`
with every call of user code written as such.  Line numbers are those of /repo/src/map/hash_trie_map/mod.rs.

A panic unwinds: the borrows made by `make_mut` end, with the fields of the nodes as they are, and what local variables own is dropped:
the entry that `insert` was given, the entries that `list_remove_first` has taken out of a list, the new map of `insert` and `remove`.  As in
the value model `make_mut` of an entry always asks `Clone`, where the code asks it only if the entry is shared; user code that does not panic
then, and does not change its state, is the other case.  So with `Drop`, which the code calls only if the entry is not shared; the cell of an
entry is released also if its `Drop` panics.
-/
set_option autoImplicit false
set_option linter.unusedSectionVars false
namespace Rpds
namespace Heap
namespace HT

section model
variable {S H K V Q : Type}

/-- `EntryWithHash::matches` (676-682). -/
def hmatchesU (eq : S → K → Q → Option Bool × S) (key : Q) (keyHash : UInt64) (e : HEnt) (s : S) : Prog (HLabel K V) (Option Bool × S) :=
  if e.hash == keyHash then Prog.bind (readEntry e.ptr) fun kv => .ret (eq s kv.1 key) else .ret (some false, s)

/-- The drop of a `Vec<EntryWithHash>`. -/
def dropEnts : List HEnt → Prog (HLabel K V) Unit
  | [] => .ret ()
  | e :: es => Prog.bind (drop e.ptr) fun _ => dropEnts es

/-- First loop of `list_remove_first` (480-491); if the predicate panics the entries taken out of the list are dropped. -/
def removeLoopU (eq : S → K → Q → Option Bool × S) (key : Q) (keyHash : UInt64) : Nat → HList → List HEnt → S →
    Prog (HLabel K V) (Option (Option HEnt × List HEnt) × HList × S)
  | 0, _, _, _ => .panic
  | fuel + 1, remaining, before_needle, s =>
    if remaining.length == 0 then .ret (some (none, before_needle), remaining, s)
    else
      Prog.bind remaining.first fun v =>
      Prog.bind (lift (unwrap v)) fun v =>
      Prog.bind (readEwh v) fun e =>
      Prog.bind (clone e.ptr) fun _ =>
      Prog.bind remaining.dropFirstMut fun x =>
      Prog.bind (hmatchesU eq key keyHash e s) fun b =>
        match b with
        | (none, s) => Prog.bind (drop e.ptr) fun _ => Prog.bind (dropEnts before_needle) fun _ => .ret (none, x.2, s)
        | (some true, s) => .ret (some (some e, before_needle), x.2, s)
        | (some false, s) => removeLoopU eq key keyHash fuel x.2 (before_needle ++ [e]) s

/-- `bucket_utils::list_remove_first` (472-500) for `|e| e.matches(key, key_hash)`. -/
def removeFirstU (eq : S → K → Q → Option Bool × S) (key : Q) (keyHash : UInt64) (list : HList) (s : S) :
    Prog (HLabel K V) (Option (Option HEnt) × HList × S) :=
  Prog.bind (removeLoopU eq key keyHash (list.length + 1) list [] s) fun x =>
    match x with
    | (none, remaining, s) => .ret (none, remaining, s)
    | (some (removed, before_needle), remaining, s) =>
      Prog.bind (pushAll before_needle.reverse remaining) fun l => .ret (some removed, l, s)

/-- `entries.iter().find(|e| e.matches(key, key_hash))` (516) over the remaining nodes; answers what is in the entry. -/
def findEntU (eq : S → K → Q → Option Bool × S) (key : Q) (keyHash : UInt64) : (fuel : Nat) → Option Addr → S →
    Prog (HLabel K V) (Option (Option (K × V)) × S)
  | _, none, s => .ret (some none, s)
  | 0, some _, _ => .panic
  | fuel + 1, some p, s =>
    Prog.bind (HList.readNode p) fun x =>
    Prog.bind (readEwh x.1) fun e =>
    Prog.bind (hmatchesU eq key keyHash e s) fun b =>
      match b with
      | (none, s) => .ret (none, s)
      | (some true, s) => Prog.bind (readEntry e.ptr) fun kv => .ret (some (some kv), s)
      | (some false, s) => findEntU eq key keyHash fuel x.2 s

/-- `value_mut` (691-693) and a write of `f old`: `make_mut` of an entry, which may call `Clone`. -/
def modEntryU (clone : S → K × V → Option Unit × S) (f : V → V) (p : Addr) (s : S) : Prog (HLabel K V) ((Option V × S) × Addr) :=
  Prog.bind (readEntry p) fun kv =>
    match clone s kv with
    | (none, s) => .ret ((none, s), p)
    | (some _, s) => Prog.bind (modEntry f p) fun y => .ret ((some y.1, s), y.2)

/-- `entries.first_mut()` (list/mod.rs:276-280), then `value_mut` and a write. -/
def firstMutU (clone : S → K × V → Option Unit × S) (f : V → V) (l : HList) (s : S) : Prog (HLabel K V) ((Option (Option V) × S) × HList) :=
  match l.head with
  | none => .ret ((some none, s), l)
  | some node =>
    Prog.bind (modifyPtr node fun c =>
      match c with
      | (nl, value :: rest) =>
        Prog.bind (modifyPtr value fun c =>
          match c with
          | (.ewh h, [e]) => Prog.bind (modEntryU clone f e s) fun x => .ret (x.1, (.ewh h, [x.2]))
          | _ => .panic) fun x => .ret (x.1, (nl, x.2 :: rest))
      | _ => .panic) fun x => .ret ((x.1.1.map some, x.1.2), { l with head := some x.2 })

/-- `Bucket::get` (508-518), answering what is in the entry. -/
def bucketGetU (eq : S → K → Q → Option Bool × S) (key : Q) (keyHash : UInt64) (s : S) : HHNode → Prog (HLabel K V) (Option (Option (K × V)) × S)
  | .branch _ _ => .panic
  | .single e =>
    Prog.bind (hmatchesU eq key keyHash e s) fun b =>
      match b with
      | (none, s) => .ret (none, s)
      | (some true, s) => Prog.bind (readEntry e.ptr) fun kv => .ret (some (some kv), s)
      | (some false, s) => .ret (some none, s)
  | .collision l => findEntU eq key keyHash l.length l.head s

/-- `Bucket::get_mut` (520-541), then `value_mut` and a write of `f old`. -/
def bucketGetMutU (eq : S → K → Q → Option Bool × S) (clone : S → K × V → Option Unit × S) (key : Q) (keyHash : UInt64) (f : V → V) (s : S) :
    HHNode → Prog (HLabel K V) ((Option (Option V) × S) × HHNode)
  | .branch _ _ => .panic
  | .single e =>
    Prog.bind (hmatchesU eq key keyHash e s) fun b =>
      match b with
      | (none, s) => .ret ((none, s), .single e)
      | (some false, s) => .ret ((some none, s), .single e)
      | (some true, s) =>
        Prog.bind (modEntryU clone f e.ptr s) fun x => .ret ((x.1.1.map some, x.1.2), .single { e with ptr := x.2 })
  | .collision entries =>
    Prog.bind (removeFirstU eq key keyHash entries s) fun x =>
      match x with
      | (none, l, s) => .ret ((none, s), .collision l)
      | (some none, l, s) => .ret ((some none, s), .collision l)
      | (some (some e), l, s) =>
        Prog.bind (pushEnt l e) fun entries =>
        Prog.bind (firstMutU clone f entries s) fun y => .ret (y.1, .collision y.2)

/-- The drop of an entry that an operation removes or replaces, which may call `Drop`. -/
def dropEntU (dr : S → K × V → Option Unit × S) (p : Addr) (s : S) : Prog (HLabel K V) (Option Unit × S) :=
  Prog.bind (readEntry p) fun kv =>
  Prog.bind (drop p) fun _ => .ret (dr s kv)

/-- The same for what `list_remove_first` has removed. -/
def dropRemovedU (dr : S → K × V → Option Unit × S) (s : S) : Option HEnt → Prog (HLabel K V) (Option Unit × S)
  | none => .ret (some (), s)
  | some e => dropEntU dr e.ptr s

/-- `Bucket::insert` (558-588); if `eq` panics the entry to be inserted is dropped, and also if `Drop` of the replaced one panics while the
new one has no place. -/
def bucketInsertX (eq : S → K → K → Option Bool × S) (dr : S → K × V → Option Unit × S) (entry : HEnt) (s : S) :
    HHNode → Prog (HLabel K V) ((Option Bool × S) × HHNode)
  | .branch _ _ => .panic
  | .single existing =>
    Prog.bind (readEntry entry.ptr) fun kv =>
    Prog.bind (hmatchesU eq kv.1 entry.hash existing s) fun b =>
      match b with
      | (none, s) => Prog.bind (drop entry.ptr) fun _ => .ret ((none, s), .single existing)
      | (some true, s) =>
        Prog.bind (dropEntU dr existing.ptr s) fun d =>
          match d with
          | (none, s) => .ret ((none, s), .single entry)
          | (some _, s) => .ret ((some false, s), .single entry)
      | (some false, s) =>
        Prog.bind (clone existing.ptr) fun _ =>
        Prog.bind (pushEnt HList.new existing) fun entries =>
        Prog.bind (pushEnt entries entry) fun entries =>
        Prog.bind (drop existing.ptr) fun _ => .ret ((some true, s), .collision entries)
  | .collision entries =>
    Prog.bind (readEntry entry.ptr) fun kv =>
    Prog.bind (removeFirstU eq kv.1 entry.hash entries s) fun x =>
      match x with
      | (none, l, s) => Prog.bind (drop entry.ptr) fun _ => .ret ((none, s), .collision l)
      | (some removed, l, s) =>
        Prog.bind (dropRemovedU dr s removed) fun d =>
          match d with
          | (none, s) => Prog.bind (drop entry.ptr) fun _ => .ret ((none, s), .collision l)
          | (some _, s) => Prog.bind (pushEnt l entry) fun entries => .ret ((some !removed.isSome, s), .collision entries)

/-- `Bucket::remove` (593-640) with the end of `Node::remove` (431-437). -/
def bucketRemoveX (eq : S → K → Q → Option Bool × S) (dr : S → K × V → Option Unit × S) (key : Q) (keyHash : UInt64) (s : S) :
    HHNode → Prog (HLabel K V) ((Option Bool × S) × HHNode)
  | .branch _ _ => .panic
  | .single e =>
    Prog.bind (hmatchesU eq key keyHash e s) fun b =>
      match b with
      | (none, s) => .ret ((none, s), .single e)
      | (some true, s) =>
        Prog.bind (dropEntU dr e.ptr s) fun d =>
          match d with
          | (none, s) => .ret ((none, s), .branch 0 [])
          | (some _, s) => .ret ((some true, s), .branch 0 [])
      | (some false, s) => .ret ((some false, s), .single e)
  | .collision entries =>
    Prog.bind (removeFirstU eq key keyHash entries s) fun x =>
      match x with
      | (none, l, s) => .ret ((none, s), .collision l)
      | (some removed, l, s) =>
        Prog.bind (dropRemovedU dr s removed) fun d =>
          match d with
          | (none, s) => .ret ((none, s), .collision l)
          | (some _, s) =>
            match l.length with
            | 0 => .ret ((none, s), .collision l)
            | 1 =>
              Prog.bind l.first fun v =>
              Prog.bind (lift (unwrap v)) fun v =>
              Prog.bind (readEwh v) fun e =>
              Prog.bind (clone e.ptr) fun _ =>
              Prog.bind l.dropList fun _ => .ret ((some removed.isSome, s), .single e)
            | _ => .ret ((some removed.isSome, s), .collision l)

variable (Ar : Arch)

/-- `index_from_hash(..)`, where `none` is a panic of `expect`, and the slot of the sparse array behind it. -/
def nodeSlotX (keyHash : UInt64) (depth degree bm : Nat) : Res (Option (Nat × Option Nat)) := do
  match ← indexFromHash Ar keyHash depth degree with
  | none => .ok none
  | some index => do
    let s ← SparseArray.slot Ar bm index
    .ok (some (index, s))

/-- One level of `Node::get`. -/
def hgetXStep (eq : S → K → Q → Option Bool × S) (key : Q) (keyHash : UInt64) (degree : Nat)
    (sub : Addr → Nat → S → Prog (HLabel K V) (Option (Option (K × V)) × S)) (p : Addr) (depth : Nat) (s : S) :
    Prog (HLabel K V) (Option (Option (K × V)) × S) :=
  Prog.bind (readNode p) fun n =>
    match n with
    | .branch bm ps =>
      Prog.bind (lift (nodeSlotX Ar keyHash depth degree bm)) fun x =>
        match x with
        | none => .ret (none, s)
        | some (_, none) => .ret (some none, s)
        | some (_, some i) => Prog.bind (lift (vecIndex ps i)) fun q => sub q (depth + 1) s
    | n => bucketGetU eq key keyHash s n

/-- `Node::get` (250-272), answering what is in the entry. -/
def hgetX (eq : S → K → Q → Option Bool × S) (key : Q) (keyHash : UInt64) (degree : Nat) : (fuel : Nat) → Addr → Nat → S →
    Prog (HLabel K V) (Option (Option (K × V)) × S)
  | 0 => fun _ _ _ => .panic
  | fuel + 1 => hgetXStep Ar eq key keyHash degree (hgetX eq key keyHash degree fuel)

/-- One level of `Node::get_mut`. -/
def hgetMutXStep (eq : S → K → Q → Option Bool × S) (clone : S → K × V → Option Unit × S) (key : Q) (keyHash : UInt64) (degree : Nat) (f : V → V)
    (sub : HHNode → Nat → S → Prog (HLabel K V) ((Option (Option V) × S) × HHNode)) :
    HHNode → Nat → S → Prog (HLabel K V) ((Option (Option V) × S) × HHNode)
  | .branch bm ps, depth, s =>
    Prog.bind (lift (nodeSlotX Ar keyHash depth degree bm)) fun x =>
      match x with
      | none => .ret ((none, s), .branch bm ps)
      | some (_, none) => .ret ((some none, s), .branch bm ps)
      | some (_, some i) =>
        Prog.bind (lift (vecIndex ps i)) fun p =>
        Prog.bind (modNode p fun n => sub n (depth + 1) s) fun y =>
        Prog.bind (lift (SparseArray.writeSlot ⟨bm, ps⟩ i y.2)) fun t => .ret (y.1, .branch t.bitmap t.array)
  | n, _, s => bucketGetMutU eq clone key keyHash f s n

/-- `Node::get_mut` (274-296), then `value_mut` and a write of `f old`. -/
def hgetMutX (eq : S → K → Q → Option Bool × S) (clone : S → K × V → Option Unit × S) (key : Q) (keyHash : UInt64) (degree : Nat) (f : V → V) :
    (fuel : Nat) → HHNode → Nat → S → Prog (HLabel K V) ((Option (Option V) × S) × HHNode)
  | 0 => fun _ _ _ => .panic
  | fuel + 1 => hgetMutXStep Ar eq clone key keyHash degree f (hgetMutX eq clone key keyHash degree f fuel)

/-- What `Node::insert` does with a leaf when `contains_key` has returned (323-352). -/
def hinsertXLeaf (eq : S → K → K → Option Bool × S) (dr : S → K × V → Option Unit × S) (sub : HEnt → HHNode → Nat → S → Prog (HLabel K V) ((Option Bool × S) × HHNode))
    (entry : HEnt) (n : HHNode) (depth : Nat) (maximum_depth contains_key : Bool) (s : S) : Prog (HLabel K V) ((Option Bool × S) × HHNode) :=
  if !maximum_depth then
    if contains_key then bucketInsertX eq dr entry s n
    else
      match n with
      | .single e =>
        Prog.bind (clone e.ptr) fun _ =>
        Prog.bind (drop e.ptr) fun _ =>
        Prog.bind (sub e (.branch 0 []) depth s) fun z =>
          match z with
          | ((none, s), n) => Prog.bind (drop entry.ptr) fun _ => .ret ((none, s), n)
          | ((some _, s), n) =>
            Prog.bind (sub entry n depth s) fun w =>
              match w with
              | ((none, s), n) => .ret ((none, s), n)
              | ((some _, s), n) => .ret ((some true, s), n)
      | n => Prog.bind (drop entry.ptr) fun _ => .ret ((none, s), n)
  else bucketInsertX eq dr entry s n

/-- One call of `Node::insert`; the entry to be inserted is dropped on a panic. -/
def hinsertXStep (eq : S → K → K → Option Bool × S) (dr : S → K × V → Option Unit × S) (degree : Nat)
    (sub : HEnt → HHNode → Nat → S → Prog (HLabel K V) ((Option Bool × S) × HHNode)) (entry : HEnt) :
    HHNode → Nat → S → Prog (HLabel K V) ((Option Bool × S) × HHNode)
  | .branch bm ps, depth, s =>
    Prog.bind (lift (nodeSlotX Ar entry.hash depth degree bm)) fun x =>
      match x with
      | none => Prog.bind (drop entry.ptr) fun _ => .ret ((none, s), .branch bm ps)
      | some (_, some i) =>
        Prog.bind (lift (vecIndex ps i)) fun p =>
        Prog.bind (modNode p fun n => sub entry n (depth + 1) s) fun y =>
        Prog.bind (lift (SparseArray.writeSlot ⟨bm, ps⟩ i y.2)) fun t => .ret (y.1, .branch t.bitmap t.array)
      | some (index, none) =>
        Prog.bind (new (.single entry.hash) [entry.ptr]) fun p =>
        Prog.bind (lift (SparseArray.set Ar ⟨bm, ps⟩ index p)) fun t => .ret ((some true, s), .branch t.bitmap t.array)
  | n, depth, s =>
    Prog.bind (lift (indexFromHash Ar entry.hash depth degree)) fun x =>
    Prog.bind (readEntry entry.ptr) fun kv =>
    Prog.bind (bucketGetU eq kv.1 entry.hash s n) fun y =>
      match y with
      | (none, s) => Prog.bind (drop entry.ptr) fun _ => .ret ((none, s), n)
      | (some r, s) => hinsertXLeaf eq dr sub entry n depth x.isNone r.isSome s

/-- `Node::insert` (299-355). -/
def hinsertX (eq : S → K → K → Option Bool × S) (dr : S → K × V → Option Unit × S) (degree : Nat) : (fuel : Nat) → HEnt → HHNode → Nat → S →
    Prog (HLabel K V) ((Option Bool × S) × HHNode)
  | 0 => fun _ _ _ _ => .panic
  | fuel + 1 => hinsertXStep Ar eq dr degree (hinsertX eq dr degree fuel)

/-- What `Node::remove` does after the recursive call (405-424). -/
def hafterRemoveX (t : SparseArray Addr) (index : Nat) : Option Bool → Res Bool → S → Prog (HLabel K V) ((Option Bool × S) × HHNode)
  | none, _, s => .ret ((none, s), .branch t.bitmap t.array)
  | some _, .error _, s => .ret ((none, s), .branch t.bitmap t.array)
  | some false, .ok _, s => .ret ((some false, s), .branch t.bitmap t.array)
  | some true, .ok false, s => Prog.bind (hcompress Ar t) fun n => .ret ((some true, s), n)
  | some true, .ok true, s =>
    Prog.bind (sparseRemove Ar t index) fun t =>
    Prog.bind (hcompress Ar t) fun n => .ret ((some true, s), n)

/-- One level of `Node::remove`. -/
def hremoveXStep (eq : S → K → Q → Option Bool × S) (dr : S → K × V → Option Unit × S) (key : Q) (keyHash : UInt64) (degree : Nat)
    (sub : HHNode → Nat → S → Prog (HLabel K V) ((Option Bool × S) × HHNode)) : HHNode → Nat → S → Prog (HLabel K V) ((Option Bool × S) × HHNode)
  | .branch bm ps, depth, s =>
    Prog.bind (lift (nodeSlotX Ar keyHash depth degree bm)) fun x =>
      match x with
      | none => .ret ((none, s), .branch bm ps)
      | some (_, none) => .ret ((some false, s), .branch bm ps)
      | some (index, some i) =>
        Prog.bind (lift (vecIndex ps i)) fun p =>
        Prog.bind (modNode p fun n => Prog.bind (sub n (depth + 1) s) fun y => .ret ((y.1, y.2.isEmpty Ar), y.2)) fun y =>
        Prog.bind (lift (SparseArray.writeSlot ⟨bm, ps⟩ i y.2)) fun t => hafterRemoveX Ar t index y.1.1.1 y.1.2 y.1.1.2
  | n, _, s => bucketRemoveX eq dr key keyHash s n

/-- `Node::remove` (388-442). -/
def hremoveX (eq : S → K → Q → Option Bool × S) (dr : S → K × V → Option Unit × S) (key : Q) (keyHash : UInt64) (degree : Nat) : (fuel : Nat) → HHNode → Nat → S →
    Prog (HLabel K V) ((Option Bool × S) × HHNode)
  | 0 => fun _ _ _ => .panic
  | fuel + 1 => hremoveXStep Ar eq dr key keyHash degree (hremoveX eq dr key keyHash degree fuel)

end model

/-! ### Lemmas -/

variable {S H K V Q : Type}
variable {A : Allocator (HLabel K V)} {ρ σ F : List (Item (HLabel K V))} {Ar : Arch}

section lists
variable {D : Option Nat} [Roomy D]
variable {eq : S → K → Q → Option Bool × S} {clone : S → K × V → Option Unit × S}

theorem safe_hmatchesU {e : HEnt} {x : HEntry K V} {u t : ATree (HLabel K V)} (h : EIs e x u) (hs : Sub u t) (ht : .ptr t ∈ ρ)
    (key : Q) (kh : UInt64) (s : S) :
    Safe A D (fun r σ => r = x.matchesU eq key kh s ∧ σ = ρ) (hmatchesU eq key kh e s) ρ := by
  obtain ⟨h1, h2, h3⟩ := h
  unfold hmatchesU
  rw [h1, h2]
  simp only [HEntry.matchesU]
  cases x.keyHash == kh with
  | false => exact Safe.ret ⟨rfl, rfl⟩
  | true =>
    refine Safe.bind (safe_readEntry h3 hs ht) ?_
    rintro _ _ ⟨rfl, rfl⟩
    exact Safe.ret ⟨rfl, rfl⟩

theorem safe_dropEnts {es : List HEnt} {xs : List (HEntry K V)} {τ : List (Item (HLabel K V))} (h : Ents es xs τ) :
    Safe A D (fun _ σ => σ = ρ) (dropEnts es) (τ ++ ρ) := by
  induction h with
  | nil => exact Safe.ret rfl
  | @cons e x t es xs τ h1 h2 ih =>
    rw [dropEnts, h1.2.1]
    refine Safe.bind (safe_dropPtr h1.2.2.2) ?_
    rintro _ _ rfl
    exact ih

/-- What `list_remove_first` has found, with the entries before it. -/
def FoundIs : Option (Option HEnt × List HEnt) → Option (Option (HEntry K V) × List (HEntry K V)) → List (Item (HLabel K V)) → Prop
  | none, none, τ => τ = []
  | some y, some x, τ => ∃ γ τ', τ = γ ++ τ' ∧ OptEnt y.1 x.1 γ ∧ Ents y.2 x.2 τ'
  | _, _, _ => False

theorem safe_removeLoopU (key : Q) (kh : UInt64) (fuel : Nat) {l : HList} {r r' : RList (HEntry K V)} {es : List HEnt}
    {xs : List (HEntry K V)} {τ : List (Item (HLabel K V))} {ov : Option (Option (HEntry K V) × List (HEntry K V))} {s s' : S} (h : LIs l r ρ)
    (hes : Ents es xs τ) (he : listRemoveLoopU (fun e => e.matchesU eq key kh) fuel r xs s = .ok (ov, r', s')) :
    Safe A D (fun y σ => ∃ γ ρ', σ = γ ++ ρ' ∧ FoundIs y.1 ov γ ∧ LIs y.2.1 r' ρ' ∧ y.2.2 = s')
      (removeLoopU eq key kh fuel l es s) (ρ ++ τ) := by
  induction fuel generalizing l r es xs ρ τ s with
  | zero => cases he
  | succ fuel ih =>
    have hlen : l.length = r.length := by
      obtain ⟨⟨th, tl, rfl, -⟩, -⟩ := h
      rfl
    simp only [listRemoveLoopU, RList.isEmpty, RList.len] at he
    rw [removeLoopU, hlen]
    cases hz : r.length == 0 with
    | true =>
      simp only [hz, Bool.not_true, Bool.false_eq_true, if_false] at he
      cases he
      simp only [if_true]
      exact Safe.perm (Safe.ret ⟨τ, ρ, rfl, ⟨[], τ, rfl, .none, hes⟩, h, rfl⟩) List.perm_append_comm
    | false =>
      simp only [hz, Bool.not_false, if_true] at he
      simp only [Bool.false_eq_true, if_false]
      cases hf : r.first with
      | none => rw [hf] at he; cases he
      | some x =>
        rw [hf] at he
        simp only [unwrap_some, Res.ok_bind] at he
        obtain ⟨⟨b, r1⟩, h1, he⟩ := res_bind_ok he
        refine safe_firstEnt h hf (F := τ) (.refl _) ?_
        intro e te hee
        refine Safe.bindFrame (F := .ptr te :: τ) (HList.safe_dropFirstMut elemOK h.1 h1) (by perm_tac) ?_
        rintro ⟨b', l1⟩ υ ⟨rfl, h2⟩
        have h2 : LIs l1 r1 υ := ⟨h2, (HList.length_dropFirstMut h.2 h1).1⟩
        refine Safe.bind (safe_hmatchesU (eq := eq) hee (.refl te) (by simp) key kh s) ?_
        rintro _ _ ⟨rfl, rfl⟩
        rcases hm : x.matchesU eq key kh s with ⟨_ | _ | _, s1⟩
        · rw [hm] at he
          cases he
          simp only
          rw [hee.2.1]
          refine Safe.bind (Safe.perm (safe_dropPtr hee.2.2.2 (ρ := τ ++ υ)) (by perm_tac)) ?_
          rintro _ _ rfl
          refine Safe.bind (safe_dropEnts hes) ?_
          rintro _ _ rfl
          exact Safe.ret ⟨[], _, rfl, rfl, h2, rfl⟩
        · rw [hm] at he
          exact Safe.perm (ih h2 (hes.append (.cons hee .nil)) he) (by perm_tac)
        · rw [hm] at he
          cases he
          exact Safe.perm (Safe.ret ⟨[.ptr te] ++ τ, υ, rfl, ⟨[.ptr te], τ, rfl, .some hee, hes⟩, h2, rfl⟩) (by perm_tac)

/-- What `list_remove_first` has removed. -/
def RemovedIs : Option (Option HEnt) → Option (Option (HEntry K V)) → List (Item (HLabel K V)) → Prop
  | none, none, τ => τ = []
  | some y, some x, τ => OptEnt y x τ
  | _, _, _ => False

theorem safe_removeFirstU (key : Q) (kh : UInt64) {l : HList} {r r' : RList (HEntry K V)} {ov : Option (Option (HEntry K V))} {s s' : S} (h : LIs l r ρ)
    (he : listRemoveFirstU (fun e => e.matchesU eq key kh) r s = .ok (ov, r', s')) :
    Safe A D (fun y σ => ∃ γ ρ', σ = γ ++ ρ' ∧ RemovedIs y.1 ov γ ∧ LIs y.2.1 r' ρ' ∧ y.2.2 = s') (removeFirstU eq key kh l s) ρ := by
  obtain ⟨⟨ov', r1, s1⟩, h1, h2⟩ := res_bind_ok he
  have hlen : l.length = r.length := by
    obtain ⟨⟨th, tl, rfl, -⟩, -⟩ := h
    rfl
  rw [removeFirstU, hlen]
  refine Safe.bindFrame (F := []) (safe_removeLoopU key kh _ h .nil h1) (by simp) ?_
  rintro ⟨y, l1, _⟩ _ ⟨γ, ρ', rfl, h3, h4, rfl⟩
  rw [List.append_nil]
  rcases y with _ | ⟨y1, y2⟩
  · rcases ov' with _ | x
    · cases h3
      cases h2
      exact Safe.ret ⟨[], ρ', rfl, rfl, h4, rfl⟩
    · cases h3
  · rcases ov' with _ | ⟨x1, x2⟩
    · cases h3
    · cases h2
      obtain ⟨γ, τ', rfl, h5, h6⟩ := h3
      refine Safe.bindFrame (F := γ) (safe_pushAll h6.reverse h4) ?_ ?_
      · have : (γ ++ τ' ++ ρ').Perm (γ ++ τ'.reverse ++ ρ') := ((List.reverse_perm _).symm.append_left _).append_right _
        exact this.trans (by perm_tac)
      · intro l2 υ hl
        exact Safe.perm (Safe.ret ⟨γ, υ, rfl, h5, hl, rfl⟩) (by perm_tac)

theorem safe_findEntU (key : Q) (kh : UInt64) {th : Option (ATree (HLabel K V))} {hd : Link (HEntry K V)}
    (h : IsLink .lnode ewhIs th hd) {t : ATree (HLabel K V)} (hin : ∀ s, th = some s → Sub s t) (ht : .ptr t ∈ ρ)
    {ov : Option (Option (HEntry K V))} {n : Nat} (hn : hd.toList.length = n) {s s' : S}
    (he : iterFindU ListIter.step (fun e => e.matchesU eq key kh) (n + 1) ⟨hd, n⟩ s = .ok (ov, s')) :
    Safe A D (fun r σ => r = (ov.map fun x => x.map kv, s') ∧ σ = ρ) (findEntU eq key kh n (th.map ATree.addr) s) ρ := by
  induction h generalizing n s with
  | none =>
    cases he
    cases n <;> exact Safe.ret ⟨rfl, rfl⟩
  | @some a tv tn x next hv hl ih =>
    simp only [Link.toList, List.length_cons] at hn
    subst hn
    have hs := hin _ rfl
    obtain ⟨te, g1, g2, g3⟩ := hv
    have hsv : Sub tv t := .kid hs (by simp [ATree.kids])
    have hse : Sub te t := .kid hsv (by simp [g2])
    simp only [iterFindU, ListIter.step] at he
    rw [csub_ok (by omega)] at he
    simp only [Res.ok_bind, Nat.add_sub_cancel] at he
    refine Safe.bind (HList.safe_readNode rfl hs ht) ?_
    rintro _ _ ⟨rfl, rfl⟩
    refine Safe.bind (safe_readEwh g1 g2 hsv ht) ?_
    rintro _ _ ⟨rfl, rfl⟩
    refine Safe.bind (safe_hmatchesU (eq := eq) (u := te) (x := x) ⟨rfl, rfl, g3⟩ hse ht key kh s) ?_
    rintro _ _ ⟨rfl, rfl⟩
    rcases hm : x.matchesU eq key kh s with ⟨_ | _ | _, s1⟩
    · rw [hm] at he
      cases he
      exact Safe.ret ⟨rfl, rfl⟩
    · rw [hm] at he
      refine ih ?_ rfl he
      rintro s rfl
      exact .kid hs (by simp [ATree.kids])
    · rw [hm] at he
      cases he
      refine Safe.bind (safe_readEntry g3 hse ht) ?_
      rintro _ _ ⟨rfl, rfl⟩
      exact Safe.ret ⟨rfl, rfl⟩

/-- What a write through the reference finds and leaves. -/
def written (clone : S → K × V → Option Unit × S) (f : V → V) (x : HEntry K V) (s : S) : (Option V × S) × HEntry K V :=
  match clone s (x.key, x.value) with
  | (none, s) => ((none, s), x)
  | (some _, s) => ((some x.value, s), x.valueMut f)

theorem written_hash (f : V → V) (x : HEntry K V) (s : S) : (written clone f x s).2.keyHash = x.keyHash := by
  simp only [written]; split <;> rfl

theorem safe_modEntryU (f : V → V) {x : HEntry K V} {t : ATree (HLabel K V)} (h : entIs t x) (s : S) :
    Safe A D (fun r σ => r.1 = (written clone f x s).1 ∧ ∃ t', r.2 = t'.addr ∧ entIs t' (written clone f x s).2 ∧ σ = [.ptr t'])
      (modEntryU clone f t.addr s) [.ptr t] := by
  refine Safe.bind (safe_readEntry h (.refl t) (by simp)) ?_
  rintro _ _ ⟨rfl, rfl⟩
  rcases hc : clone s (x.key, x.value) with ⟨_ | _, s1⟩ <;> simp only [written, hc]
  · exact Safe.ret ⟨rfl, t, rfl, h, rfl⟩
  · refine Safe.bind (safe_modEntry f h) ?_
    rintro ⟨_, p⟩ _ ⟨rfl, t', rfl, h4, rfl⟩
    exact Safe.ret ⟨rfl, t', rfl, h4, rfl⟩

theorem safe_firstMutU (f : V → V) {l : HList} {r : RList (HEntry K V)} {x : HEntry K V} {next : Link (HEntry K V)} (h : LIs l r ρ)
    (hx : r.head = .some x next) (s : S) :
    Safe A D (fun y σ => y.1 = ((written clone f x s).1.1.map some, (written clone f x s).1.2) ∧
      LIs y.2 { r with head := .some (written clone f x s).2 next } σ) (firstMutU clone f l s) ρ := by
  obtain ⟨⟨th, tl, rfl, rfl, h1, h2⟩, h3⟩ := h
  obtain ⟨hd, la, len⟩ := r
  simp only at h1 h2 h3 hx
  subst hx
  cases h1 with
  | @some a tv tn v next hv hn =>
    obtain ⟨te, g1, g2, g3⟩ := hv
    have hh := written_hash (clone := clone) f x s
    generalize hw : written clone f x s = w at *
    refine Safe.bindFrame (F := optPtr tl) (Q := fun r σ => r.1 = w.1 ∧ ∃ tv', ewhIs tv' w.2 ∧
      σ = [.ptr (.node r.2 .lnode (tv' :: tn.toList))]) ?_ (.refl _) ?_
    · refine (safe_modifyPtr (within_roomy (D := D) (by omega)) (.node a .lnode (tv :: tn.toList))
        (P := fun r l ts => r = w.1 ∧ l = .lnode ∧ ∃ tv', ewhIs tv' w.2 ∧ ts = tv' :: tn.toList) ?_).imp ?_
      · simp only [ATree.kids, ATree.label, List.map_cons]
        refine Safe.bindFrame (F := tn.toList.map .ptr) (ρ := [.ptr tv]) (Q := fun r σ => r.1 = w.1 ∧ ∃ tv', ewhIs tv' w.2 ∧
          r.2 = tv'.addr ∧ σ = [.ptr tv']) ?_ (.refl _) ?_
        · refine (safe_modifyPtr (within_roomy (by omega)) tv
            (P := fun r l ts => r = w.1 ∧ l = .ewh x.keyHash ∧ ∃ te', entIs te' w.2 ∧ ts = [te']) ?_).imp ?_
          · rw [g1, g2]
            refine Safe.bind (safe_modEntryU (clone := clone) f g3 s) ?_
            rintro ⟨y, p⟩ _ ⟨h5, te', h6, h4, rfl⟩
            rw [hw] at h4 h5
            simp only at h5 h6 ⊢
            exact Safe.ret ⟨[te'], by rw [h6]; rfl, rfl, h5, rfl, te', h4, rfl⟩
          · rintro ⟨_, p⟩ _ ⟨l, ts, rfl, rfl, rfl, te', h4, rfl⟩
            exact ⟨rfl, _, ⟨te', by rw [hh]; rfl, rfl, h4⟩, rfl, rfl⟩
        · rintro ⟨_, p⟩ _ ⟨rfl, tv', h4, rfl, rfl⟩
          exact Safe.ret ⟨tv' :: tn.toList, rfl, rfl, rfl, rfl, tv', h4, rfl⟩
      · rintro ⟨_, p⟩ _ ⟨l, ts, rfl, rfl, rfl, tv', h4, rfl⟩
        exact ⟨rfl, tv', h4, rfl⟩
    · rintro ⟨_, p⟩ _ ⟨rfl, tv', h4, rfl⟩
      refine Safe.ret ⟨rfl, ⟨some (.node p .lnode (tv' :: tn.toList)), tl, rfl, rfl, .some h4 hn, h2⟩, ?_⟩
      simpa [Link.toList] using h3

/-! ### Buckets -/

theorem safe_bucketGetU (key : Q) (kh : UInt64) {hn : HHNode} {b : Bucket K V} {τ : List (Item (HLabel K V))} (h : NIs hn (.leaf b) τ)
    (hin : ∀ s, .ptr s ∈ τ → ∃ t, Sub s t ∧ .ptr t ∈ ρ) {ov : Option (Option (HEntry K V))} {s s' : S} (he : b.getU eq key kh s = .ok (ov, s')) :
    Safe A D (fun r σ => r = (ov.map fun x => x.map kv, s') ∧ σ = ρ) (bucketGetU eq key kh s hn) ρ := by
  cases h with
  | @single e x te h =>
    obtain ⟨t, hs, ht⟩ := hin te (by simp)
    simp only [bucketGetU]
    refine Safe.bind (safe_hmatchesU (eq := eq) h hs ht key kh s) ?_
    rintro _ _ ⟨rfl, rfl⟩
    simp only [Bucket.getU] at he
    rcases hm : x.matchesU eq key kh s with ⟨_ | _ | _, s1⟩ <;> rw [hm] at he <;> cases he
    · exact Safe.ret ⟨rfl, rfl⟩
    · exact Safe.ret ⟨rfl, rfl⟩
    · simp only
      rw [h.2.1]
      refine Safe.bind (safe_readEntry h.2.2 hs ht) ?_
      rintro _ _ ⟨rfl, rfl⟩
      exact Safe.ret ⟨rfl, rfl⟩
  | @collision l r _ h =>
    obtain ⟨⟨th, tl, rfl, rfl, h1, h2⟩, h3⟩ := h
    simp only [bucketGetU]
    simp only [Bucket.getU, RList.len, RList.iter, ListIter.new] at he
    cases hth : th with
    | none =>
      subst hth
      have : r.head = .none := by
        generalize r.head = hd at *
        cases h1; rfl
      rw [this] at he h3
      simp only [Link.toList, List.length_nil] at h3
      rw [← h3] at he
      cases he
      rw [← h3]
      exact Safe.ret ⟨rfl, rfl⟩
    | some u =>
      subst hth
      obtain ⟨t, hs, ht⟩ := hin u (by simp)
      refine safe_findEntU key kh h1 ?_ ht h3 he
      intro u hu
      cases hu
      exact hs

theorem safe_bucketGetMutU (key : Q) (kh : UInt64) (f : V → V) {hn : HHNode} {b b' : Bucket K V} (h : NIs hn (.leaf b) ρ)
    {ov : Option (Option (HEntry K V))} {s s' : S} (he : b.getMutU eq clone key kh (fun e => e.valueMut f) s = .ok (ov, b', s')) :
    Safe A D (fun y σ => y.1 = (ov.map fun x => x.map (·.value), s') ∧ NIs y.2 (.leaf b') σ) (bucketGetMutU eq clone key kh f s hn) ρ := by
  cases h with
  | @single e x te h =>
    simp only [bucketGetMutU]
    refine Safe.bind (safe_hmatchesU (eq := eq) h (.refl te) (by simp) key kh s) ?_
    rintro _ _ ⟨rfl, rfl⟩
    simp only [Bucket.getMutU] at he
    rcases hm : x.matchesU eq key kh s with ⟨_ | _ | _, s1⟩ <;> rw [hm] at he <;> simp only at he ⊢
    · cases he
      exact Safe.ret ⟨rfl, .single h⟩
    · cases he
      exact Safe.ret ⟨rfl, .single h⟩
    · rw [h.2.1]
      refine Safe.bind (safe_modEntryU (clone := clone) f h.2.2 s1) ?_
      rintro ⟨y, p⟩ _ ⟨h5, t', h6, h4, rfl⟩
      simp only at h5 h6
      rcases hc : clone s1 (x.key, x.value) with ⟨_ | _, s2⟩ <;> simp only [written, hc] at h4 h5 <;> rw [hc] at he <;> cases he
      · exact Safe.ret ⟨by rw [h5]; rfl, .single ⟨h.1, h6, h4⟩⟩
      · exact Safe.ret ⟨by rw [h5]; rfl, .single ⟨h.1, h6, h4⟩⟩
  | @collision l r _ h =>
    obtain ⟨⟨ov', r1, s1⟩, h1, h2⟩ := res_bind_ok he
    simp only [bucketGetMutU]
    refine Safe.bind (safe_removeFirstU key kh h h1) ?_
    rintro ⟨oe, l1, s3⟩ _ ⟨γ, ρ', rfl, h3, h4, rfl⟩
    rcases oe with _ | oe
    · rcases ov' with _ | x
      · cases h3
        cases h2
        exact Safe.ret ⟨rfl, .collision h4⟩
      · cases h3
    · rcases ov' with _ | x
      · cases h3
      · cases (show OptEnt oe x γ from h3) with
        | none =>
          cases h2
          exact Safe.ret ⟨rfl, .collision h4⟩
        | @some e x te hee =>
          simp only at h2 ⊢
          refine Safe.bind (safe_pushEnt h4 hee) ?_
          intro l2 σ hl
          refine Safe.bind (safe_firstMutU (clone := clone) f hl (x := x) (next := r1.head) rfl _) ?_
          rintro ⟨y, l3⟩ σ' ⟨h5, hl3⟩
          simp only at h5
          rcases hc : clone s3 (x.key, x.value) with ⟨_ | _, s2⟩ <;> simp only [written, hc] at hl3 h5 <;> rw [hc] at h2 <;> cases h2
          · exact Safe.ret ⟨h5, .collision hl3⟩
          · exact Safe.ret ⟨h5, .collision hl3⟩

theorem safe_dropEntU {dr : S → K × V → Option Unit × S} {e : HEnt} {x : HEntry K V} {t : ATree (HLabel K V)} (h : EIs e x t) (s : S) :
    Safe A D (fun r σ => r = dr s (x.key, x.value) ∧ σ = ρ) (dropEntU dr e.ptr s) (.ptr t :: ρ) := by
  unfold dropEntU
  rw [h.2.1]
  refine Safe.bind (safe_readEntry h.2.2 (.refl t) (by simp)) ?_
  rintro _ _ ⟨rfl, rfl⟩
  refine Safe.bind (safe_dropPtr h.2.2.2) ?_
  rintro _ _ rfl
  exact Safe.ret ⟨rfl, rfl⟩

theorem safe_dropRemovedU {dr : S → K × V → Option Unit × S} {e : Option HEnt} {x : Option (HEntry K V)} {γ : List (Item (HLabel K V))}
    (h : OptEnt e x γ) (s : S) : Safe A D (fun r σ => r = dropRemoved dr s x ∧ σ = ρ) (dropRemovedU dr s e) (γ ++ ρ) := by
  cases h with
  | none => exact Safe.ret ⟨rfl, rfl⟩
  | some h => exact safe_dropEntU h s

theorem safe_bucketInsertX {eq : S → K → K → Option Bool × S} {dr : S → K × V → Option Unit × S} {hn : HHNode} {b b' : Bucket K V} {e : HEnt} {x : HEntry K V}
    {te : ATree (HLabel K V)} (h : NIs hn (.leaf b) ρ) (hx : EIs e x te) {isNew : Option Bool} {s s' : S}
    (he : b.insertX eq dr x s = .ok (isNew, b', s')) :
    Safe A D (fun y σ => y.1 = (isNew, s') ∧ NIs y.2 (.leaf b') σ) (bucketInsertX eq dr e s hn) (.ptr te :: ρ) := by
  cases h with
  | @single e0 x0 t0 h =>
    simp only [bucketInsertX]
    rw [hx.2.1]
    refine Safe.bind (safe_readEntry hx.2.2 (.refl te) (by simp)) ?_
    rintro _ _ ⟨rfl, rfl⟩
    simp only
    refine Safe.bind (safe_hmatchesU (eq := eq) h (.refl t0) (by simp) x.key e.hash s) ?_
    rintro _ _ ⟨rfl, rfl⟩
    simp only [Bucket.insertX] at he
    rw [← hx.1] at he
    rcases hm : x0.matchesU eq x.key e.hash s with ⟨_ | _ | _, s1⟩ <;> rw [hm] at he <;> simp only at he ⊢
    · cases he
      refine Safe.bind (safe_dropPtr hx.2.2.2) ?_
      rintro _ _ rfl
      exact Safe.ret ⟨rfl, .single h⟩
    · cases he
      rw [h.2.1]
      refine Safe.bind (Heap.safe_clone (.refl t0) (ρ := [.ptr te, .ptr t0]) (by simp)) ?_
      rintro _ _ rfl
      refine Safe.bindFrame (F := [.ptr te, .ptr t0]) (safe_pushEnt (r := RList.new) ⟨HList.is_new _ _, rfl⟩ h) (.refl _) ?_
      intro l1 σ1 hl1
      refine Safe.bindFrame (F := [.ptr t0]) (safe_pushEnt hl1 hx) (by perm_tac) ?_
      intro l2 σ2 hl2
      refine Safe.bind (Safe.perm (safe_dropPtr h.2.2.2 (ρ := σ2)) (List.perm_append_singleton _ _)) ?_
      rintro _ _ rfl
      exact Safe.ret ⟨rfl, .collision hl2⟩
    · refine Safe.bind (Safe.perm (safe_dropEntU (dr := dr) h s1 (ρ := [.ptr te])) (.swap _ _ _)) ?_
      rintro _ _ ⟨rfl, rfl⟩
      rcases hd : dr s1 (x0.key, x0.value) with ⟨_ | _, s2⟩ <;> rw [hd] at he <;> cases he
      · exact Safe.ret ⟨rfl, .single hx⟩
      · exact Safe.ret ⟨rfl, .single hx⟩
  | @collision l r _ h =>
    obtain ⟨⟨ov', r1, s1⟩, h1, h2⟩ := res_bind_ok he
    simp only [bucketInsertX]
    rw [hx.2.1]
    refine Safe.bind (safe_readEntry hx.2.2 (.refl te) (by simp)) ?_
    rintro _ _ ⟨rfl, rfl⟩
    simp only
    rw [hx.1]
    refine Safe.bindFrame (F := [.ptr te]) (safe_removeFirstU x.key x.keyHash h h1) (List.perm_append_singleton _ _).symm ?_
    rintro ⟨oe, l1, _⟩ _ ⟨γ, ρ', rfl, h3, h4, rfl⟩
    rcases oe with _ | oe
    · rcases ov' with _ | y
      · cases h3
        cases h2
        simp only
        refine Safe.bind (Safe.perm (safe_dropPtr hx.2.2.2 (ρ := ρ')) (by perm_tac)) ?_
        rintro _ _ rfl
        exact Safe.ret ⟨rfl, .collision h4⟩
      · cases h3
    · rcases ov' with _ | y
      · cases h3
      · have h3 : OptEnt oe y γ := h3
        simp only at h2 ⊢
        refine Safe.bind (Safe.perm (safe_dropRemovedU (dr := dr) h3 _ (ρ := .ptr te :: ρ')) (by perm_tac)) ?_
        rintro _ _ ⟨rfl, rfl⟩
        rcases hd : dropRemoved dr _ y with ⟨_ | _, s2⟩ <;> rw [hd] at h2 <;> cases h2 <;> simp only
        · refine Safe.bind (safe_dropPtr hx.2.2.2) ?_
          rintro _ _ rfl
          exact Safe.ret ⟨rfl, .collision h4⟩
        · refine Safe.bind (safe_pushEnt h4 hx) ?_
          intro l2 σ2 hl2
          exact Safe.ret ⟨by rw [h3.isSome], .collision hl2⟩

theorem safe_bucketRemoveX {dr : S → K × V → Option Unit × S} (key : Q) (kh : UInt64) {hn : HHNode} {b : Bucket K V} (h : NIs hn (.leaf b) ρ) {removed : Option Bool}
    {ob : Option (Bucket K V)} {s s' : S} (he : b.removeX eq dr key kh s = .ok (removed, ob, s')) :
    Safe A D (fun y σ => y.1 = (removed, s') ∧ NIs y.2 (leftover ob) σ) (bucketRemoveX eq dr key kh s hn) ρ := by
  cases h with
  | @single e x te h =>
    simp only [bucketRemoveX]
    refine Safe.bind (safe_hmatchesU (eq := eq) h (.refl te) (by simp) key kh s) ?_
    rintro _ _ ⟨rfl, rfl⟩
    simp only [Bucket.removeX] at he
    rcases hm : x.matchesU eq key kh s with ⟨_ | _ | _, s1⟩ <;> rw [hm] at he <;> simp only at he ⊢
    · cases he
      exact Safe.ret ⟨rfl, .single h⟩
    · cases he
      exact Safe.ret ⟨rfl, .single h⟩
    · refine Safe.bind (safe_dropEntU (dr := dr) h s1) ?_
      rintro _ _ ⟨rfl, rfl⟩
      rcases hd : dr s1 (x.key, x.value) with ⟨_ | _, s2⟩ <;> rw [hd] at he <;> cases he
      · exact Safe.ret ⟨rfl, NIs.empty⟩
      · exact Safe.ret ⟨rfl, NIs.empty⟩
  | @collision l r _ h =>
    obtain ⟨⟨ov', r1, s1⟩, h1, h2⟩ := res_bind_ok he
    simp only [bucketRemoveX]
    refine Safe.bind (safe_removeFirstU key kh h h1) ?_
    rintro ⟨oe, l1, _⟩ _ ⟨γ, ρ', rfl, h3, h4, rfl⟩
    rcases oe with _ | oe
    · rcases ov' with _ | y
      · cases h3
        cases h2
        exact Safe.ret ⟨rfl, .collision h4⟩
      · cases h3
    · rcases ov' with _ | y
      · cases h3
      · have h3 : OptEnt oe y γ := h3
        simp only at h2 ⊢
        refine Safe.bind (safe_dropRemovedU (dr := dr) h3 _) ?_
        rintro _ _ ⟨rfl, rfl⟩
        have hlen : l1.length = r1.length := by
          obtain ⟨⟨th, tl, rfl, -⟩, -⟩ := h4
          rfl
        rcases hd : dropRemoved dr _ y with ⟨_ | _, s2⟩ <;> rw [hd] at h2 <;> simp only at h2 ⊢
        · cases h2
          exact Safe.ret ⟨rfl, .collision h4⟩
        simp only [RList.len] at h2
        rw [hlen, h3.isSome]
        match hr : r1.length with
        | 0 => simp only [hr] at h2; cases h2; exact Safe.ret ⟨rfl, .collision h4⟩
        | 1 =>
          simp only [hr] at h2
          obtain ⟨x, h5, h6⟩ := res_bind_ok h2
          cases h6
          have hx : r1.first = some x := by
            cases hf : r1.first with
            | none => rw [hf] at h5; cases h5
            | some y => rw [hf] at h5; cases h5; rfl
          refine safe_firstEnt h4 hx (F := []) (by simp) ?_
          intro e te hee
          refine Safe.bindFrame (F := [.ptr te]) (HList.safe_dropShort elemOK h4.1 h4.2 (.inr (by omega))) (by perm_tac) ?_
          rintro _ _ rfl
          exact Safe.ret ⟨rfl, .single hee⟩
        | n + 2 =>
          simp only [hr] at h2
          cases h2
          exact Safe.ret ⟨rfl, .collision h4⟩

end lists

/-! ### Nodes -/

section unfold
variable {eq : S → K → Q → Option Bool × S} {clone : S → K × V → Option Unit × S}
variable {dr : S → K × V → Option Unit × S} (key : Q) (kh : UInt64) (deg depth bm : Nat) (arr : List (HNode K V)) (s : S)

theorem getX_branch : (HNode.branch bm arr).getX Ar eq key kh deg depth s = (do
    match ← nodeSlotX Ar kh depth deg bm with
    | none => .ok (none, s)
    | some (_, none) => .ok (some none, s)
    | some (_, some i) => do
      let c ← vecIndex arr i
      c.getX Ar eq key kh deg (depth + 1) s) := by
  simp only [Rpds.HNode.getX, nodeSlotX, bind_assoc]
  congr; funext a
  cases a with
  | none => rfl
  | some a =>
    simp only [bind_assoc]
    congr; funext x
    cases x with
    | none => rfl
    | some i => simp only [Rpds.HNode.getAtX_eq]; rfl

theorem getMutX_branch (f : HEntry K V → HEntry K V) : (HNode.branch bm arr).getMutX Ar eq clone key kh deg f depth s = (do
    match ← nodeSlotX Ar kh depth deg bm with
    | none => .ok (none, .branch bm arr, s)
    | some (_, none) => .ok (some none, .branch bm arr, s)
    | some (_, some i) => do
      let c ← vecIndex arr i
      let y ← c.getMutX Ar eq clone key kh deg f (depth + 1) s
      let t ← SparseArray.writeSlot ⟨bm, arr⟩ i y.2.1
      .ok (y.1, .branch t.bitmap t.array, y.2.2)) := by
  simp only [Rpds.HNode.getMutX, nodeSlotX, bind_assoc]
  congr; funext a
  cases a with
  | none => rfl
  | some a =>
    simp only [bind_assoc]
    congr; funext x
    cases x with
    | none => rfl
    | some i => simp only [Rpds.HNode.getMutAtX_eq, bind_assoc]; rfl

theorem insertX_branch {eq : S → K → K → Option Bool × S} (fuel : Nat) (x : HEntry K V) :
    (HNode.branch bm arr).insertX Ar eq dr deg (fuel + 1) x depth s = (do
    match ← nodeSlotX Ar x.keyHash depth deg bm with
    | none => .ok (none, .branch bm arr, s)
    | some (_, some i) => do
      let c ← vecIndex arr i
      let z ← HNode.insertX Ar eq dr deg fuel x c (depth + 1) s
      let t ← SparseArray.writeSlot ⟨bm, arr⟩ i z.2.1
      .ok (z.1, .branch t.bitmap t.array, z.2.2)
    | some (index, none) => do
      let t ← SparseArray.set Ar ⟨bm, arr⟩ index (.leaf (.single x))
      .ok (some true, .branch t.bitmap t.array, s)) := by
  simp only [Rpds.HNode.insertX, nodeSlotX, bind_assoc]
  congr; funext a
  cases a with
  | none => rfl
  | some a =>
    simp only [bind_assoc]
    congr; funext x
    cases x <;> rfl

/-- What `Node::insert` does with a leaf when `contains_key` has returned. -/
def insertXLeaf (Ar : Arch) (eq : S → K → K → Option Bool × S) (dr : S → K × V → Option Unit × S) (deg fuel : Nat) (x : HEntry K V) (b : Bucket K V) (depth : Nat) (s : S) :
    (maximum_depth contains_key : Bool) → Res (Option Bool × HNode K V × S)
  | false, true => do
    let y ← b.insertX eq dr x s
    .ok (y.1, .leaf y.2.1, y.2.2)
  | false, false =>
    match b with
    | .collision l => .ok (none, .leaf (.collision l), s)
    | .single e => do
      let z ← HNode.insertX Ar eq dr deg fuel e .newEmptyBranch depth s
      match z.1 with
      | none => .ok (none, z.2.1, z.2.2)
      | some _ => do
        let w ← HNode.insertX Ar eq dr deg fuel x z.2.1 depth z.2.2
        .ok (w.1.map fun _ => true, w.2.1, w.2.2)
  | true, _ => do
    let y ← b.insertX eq dr x s
    .ok (y.1, .leaf y.2.1, y.2.2)

theorem insertX_leaf {eq : S → K → K → Option Bool × S} (fuel : Nat) (x : HEntry K V) (b : Bucket K V) :
    (HNode.leaf b).insertX Ar eq dr deg (fuel + 1) x depth s = (do
    let i ← indexFromHash Ar x.keyHash depth deg
    let c ← b.getU eq x.key x.keyHash s
    match c.1 with
    | none => .ok (none, .leaf b, c.2)
    | some r => insertXLeaf Ar eq dr deg fuel x b depth c.2 i.isNone r.isSome) := by
  rw [Rpds.HNode.insertX]
  congr; funext i
  show (b.getU eq x.key x.keyHash s >>= _) = (b.getU eq x.key x.keyHash s >>= _)
  congr; funext c
  obtain ⟨_ | r, s⟩ := c
  · rfl
  · simp only
    cases i.isNone <;> cases r.isSome <;> simp only [Bool.not_true, Bool.not_false, if_true, Bool.false_eq_true, if_false, insertXLeaf] <;> try rfl
    cases b with
    | collision l => rfl
    | single e =>
      simp only [HEntry.clone]
      congr; funext z
      obtain ⟨_ | z, n, s⟩ := z
      · rfl
      · simp only
        congr; funext w
        obtain ⟨_ | w, n, s⟩ := w <;> rfl

/-- What `Node::remove` does with the array after the recursive call. -/
def afterRemoveX (Ar : Arch) (t : SparseArray (HNode K V)) (index : Nat) (s : S) : Option Bool → Res Bool → Res (Option Bool × HNode K V × S)
  | none, _ => .ok (none, .branch t.bitmap t.array, s)
  | some _, .error _ => .ok (none, .branch t.bitmap t.array, s)
  | some false, .ok _ => .ok (some false, .branch t.bitmap t.array, s)
  | some true, .ok false => do
    let n ← HNode.compress Ar (.branch t.bitmap t.array)
    .ok (some true, n, s)
  | some true, .ok true => do
    let t ← t.remove Ar index
    let n ← HNode.compress Ar (.branch t.bitmap t.array)
    .ok (some true, n, s)

theorem removeX_branch : (HNode.branch bm arr).removeX Ar eq dr key kh deg depth s = (do
    match ← nodeSlotX Ar kh depth deg bm with
    | none => .ok (none, .branch bm arr, s)
    | some (_, none) => .ok (some false, .branch bm arr, s)
    | some (index, some i) => do
      let c ← vecIndex arr i
      let y ← c.removeX Ar eq dr key kh deg (depth + 1) s
      let t ← SparseArray.writeSlot ⟨bm, arr⟩ i y.2.1
      afterRemoveX Ar t index y.2.2 y.1 (y.2.1.isEmpty Ar)) := by
  simp only [Rpds.HNode.removeX, nodeSlotX, bind_assoc]
  congr; funext a
  cases a with
  | none => rfl
  | some a =>
    simp only [bind_assoc]
    congr; funext x
    cases x with
    | none => rfl
    | some i =>
      simp only [Rpds.HNode.removeAtX_eq, bind_assoc, Res.ok_bind]
      congr; funext c; congr; funext y; congr; funext t
      obtain ⟨r, n, s⟩ := y
      simp only
      rcases r with _ | _ | _ <;> rcases n.isEmpty Ar with _ | _ | _ <;> rfl

theorem removeX_leaf (b : Bucket K V) : (HNode.leaf b).removeX Ar eq dr key kh deg depth s = (do
    let y ← b.removeX eq dr key kh s
    .ok (y.1, leftover y.2.1, y.2.2)) := by
  rw [Rpds.HNode.removeX]
  congr; funext y
  obtain ⟨r, _ | b, s⟩ := y <;> rfl

end unfold

section nodes
variable {D : Option Nat} [Roomy D]
variable {eq : S → K → Q → Option Bool × S} {clone : S → K × V → Option Unit × S}

theorem safe_hgetX (key : Q) (kh : UInt64) (deg : Nat) {t : ATree (HLabel K V)} (ht : .ptr t ∈ ρ) (fuel : Nat) {n : HNode K V}
    {u : ATree (HLabel K V)} (hs : Sub u t) {depth : Nat} (hf : Shallow fuel n) (h : IsN n u) {ov : Option (Option (HEntry K V))} {s s' : S}
    (he : n.getX Ar eq key kh deg depth s = .ok (ov, s')) :
    Safe A D (fun r σ => r = (ov.map fun x => x.map kv, s') ∧ σ = ρ) (hgetX Ar eq key kh deg fuel u.addr depth s) ρ := by
  induction fuel generalizing n u depth s with
  | zero => cases hf
  | succ fuel ih =>
    refine Safe.bind (safe_readNode h hs ht) ?_
    rintro hn _ ⟨⟨τ, h1, h2⟩, rfl⟩
    cases h1 with
    | @branch bm arr ts h3 =>
      rw [getX_branch] at he
      obtain ⟨ox, g1, g2⟩ := res_bind_ok he
      refine Safe.liftBind g1 ?_
      rcases ox with _ | ⟨index, _ | i⟩
      · cases g2; exact Safe.ret ⟨rfl, rfl⟩
      · cases g2; exact Safe.ret ⟨rfl, rfl⟩
      · simp only at g2 ⊢
        obtain ⟨c, g3, g4⟩ := res_bind_ok g2
        have g3 := vecIndex_some g3
        obtain ⟨u, g5, g6⟩ := f2_getR h3 g3
        refine Safe.liftBind (vecIndex_map _ g5) ?_
        refine ih (.kid hs (h2 u ?_)) (hf c (List.mem_of_getElem? g3)) g6 g4
        exact List.mem_map_of_mem (List.mem_of_getElem? g5)
    | @single e x te h3 =>
      rw [Rpds.HNode.getX] at he
      exact safe_bucketGetU key kh (.single h3) (fun u hu => ⟨t, .kid hs (h2 u hu), ht⟩) he
    | @collision l r _ h3 =>
      rw [Rpds.HNode.getX] at he
      exact safe_bucketGetU key kh (.collision h3) (fun u hu => ⟨t, .kid hs (h2 u hu), ht⟩) he

theorem safe_hgetMutX (key : Q) (kh : UInt64) (deg : Nat) (f : V → V) (fuel : Nat) {hn : HHNode} {n n' : HNode K V} {depth : Nat}
    (hf : Shallow fuel n) (h : NIs hn n ρ) {ov : Option (Option (HEntry K V))} {s s' : S}
    (he : n.getMutX Ar eq clone key kh deg (fun e => e.valueMut f) depth s = .ok (ov, n', s')) :
    Safe A D (fun y σ => y.1 = (ov.map fun x => x.map (·.value), s') ∧ NIs y.2 n' σ) (hgetMutX Ar eq clone key kh deg f fuel hn depth s) ρ := by
  induction fuel generalizing hn n n' depth ρ s s' with
  | zero => cases hf
  | succ fuel ih =>
    cases h with
    | @branch bm arr ts h3 =>
      rw [getMutX_branch] at he
      obtain ⟨ox, g1, g2⟩ := res_bind_ok he
      simp only [hgetMutX, hgetMutXStep]
      refine Safe.liftBind g1 ?_
      rcases ox with _ | ⟨index, _ | i⟩
      · cases g2; exact Safe.ret ⟨rfl, .branch h3⟩
      · cases g2; exact Safe.ret ⟨rfl, .branch h3⟩
      · simp only at g2 ⊢
        obtain ⟨c, g3, g4⟩ := res_bind_ok g2
        obtain ⟨⟨ov', c', s1⟩, g5, g6⟩ := res_bind_ok g4
        obtain ⟨t, g7, g8⟩ := res_bind_ok g6
        cases g8
        obtain ⟨g9, rfl⟩ := writeSlot_some g7
        have g3 := vecIndex_some g3
        obtain ⟨u, e1, e2⟩ := f2_getR h3 g3
        obtain ⟨F, p1, p2, -⟩ := perm_take e1
        refine Safe.liftBind (vecIndex_map _ e1) ?_
        refine Safe.bindFrame (F := F) (safe_modNode e2 (a := (ov'.map fun x => x.map (·.value), s1)) (n' := c') (E := []) fun hn' τ hτ => ?_) p1 ?_
        · rw [List.append_nil]
          exact ih (hf c (List.mem_of_getElem? g3)) hτ g5
        · rintro ⟨_, p⟩ _ ⟨rfl, t', rfl, h4, rfl⟩
          refine Safe.liftBind (writeSlot_ptr (by rw [f2_length h3]; exact g9)) ?_
          exact Safe.perm (Safe.ret ⟨rfl, .branch (f2_set h3 h4 i)⟩) (p2 t').symm
    | @single e x te h3 =>
      rw [Rpds.HNode.getMutX] at he
      obtain ⟨⟨ov', b', s1⟩, g1, g2⟩ := res_bind_ok he
      cases g2
      exact safe_bucketGetMutU key kh f (.single h3) g1
    | @collision l r _ h3 =>
      rw [Rpds.HNode.getMutX] at he
      obtain ⟨⟨ov', b', s1⟩, g1, g2⟩ := res_bind_ok he
      cases g2
      exact safe_bucketGetMutU key kh f (.collision h3) g1

theorem safe_hinsertXLeaf {eq : S → K → K → Option Bool × S} {dr : S → K × V → Option Unit × S} (deg fuel : Nat) {hn : HHNode} {b : Bucket K V} {n' : HNode K V} {depth : Nat}
    {e : HEnt} {x : HEntry K V} {te : ATree (HLabel K V)} {r : Option Bool} {s s' : S}
    (ih : ∀ {ρ : List (Item (HLabel K V))} {hn : HHNode} {n n' : HNode K V} {depth : Nat} {e : HEnt} {x : HEntry K V} {te : ATree (HLabel K V)}
      {r : Option Bool} {s s' : S}, NIs hn n ρ → EIs e x te → n.insertX Ar eq dr deg fuel x depth s = .ok (r, n', s') →
      Safe A D (fun y σ => y.1 = (r, s') ∧ NIs y.2 n' σ) (hinsertX Ar eq dr deg fuel e hn depth s) (.ptr te :: ρ))
    (h : NIs hn (.leaf b) ρ) (hx : EIs e x te) (m c : Bool) (he : insertXLeaf Ar eq dr deg fuel x b depth s m c = .ok (r, n', s')) :
    Safe A D (fun y σ => y.1 = (r, s') ∧ NIs y.2 n' σ) (hinsertXLeaf eq dr (hinsertX Ar eq dr deg fuel) e hn depth m c s) (.ptr te :: ρ) := by
  cases m with
  | true =>
    simp only [hinsertXLeaf, Bool.not_true, Bool.false_eq_true, if_false]
    obtain ⟨⟨ov', b', s1⟩, g1, g2⟩ := res_bind_ok he
    cases g2
    exact safe_bucketInsertX h hx g1
  | false =>
    simp only [hinsertXLeaf, Bool.not_false, if_true]
    cases c with
    | true =>
      simp only [if_true]
      obtain ⟨⟨ov', b', s1⟩, g1, g2⟩ := res_bind_ok he
      cases g2
      exact safe_bucketInsertX h hx g1
    | false =>
      simp only [Bool.false_eq_true, if_false]
      cases h with
      | @collision l r _ h3 =>
        cases he
        simp only
        rw [hx.2.1]
        refine Safe.bind (safe_dropPtr hx.2.2.2) ?_
        rintro _ _ rfl
        exact Safe.ret ⟨rfl, .collision h3⟩
      | @single e0 x0 t0 h3 =>
        obtain ⟨⟨b1, n1, s1⟩, g7, g8⟩ := res_bind_ok he
        simp only at g8 ⊢
        rw [h3.2.1]
        refine Safe.bind (Heap.safe_clone (.refl t0) (ρ := [.ptr te, .ptr t0]) (by simp)) ?_
        rintro _ _ rfl
        refine Safe.bind (Safe.perm (safe_dropPtr h3.2.2.2 (t := t0) (ρ := [.ptr t0, .ptr te])) (by perm_tac)) ?_
        rintro _ _ rfl
        refine Safe.bindFrame (F := [.ptr te]) (ih NIs.empty h3 g7) (.refl _) ?_
        rintro ⟨_, hn1⟩ σ1 ⟨rfl, k1⟩
        cases b1 with
        | none =>
          cases g8
          simp only
          rw [hx.2.1]
          refine Safe.bind (Safe.perm (safe_dropPtr hx.2.2.2 (ρ := σ1)) (List.perm_append_singleton _ _)) ?_
          rintro _ _ rfl
          exact Safe.ret ⟨rfl, k1⟩
        | some b1 =>
          obtain ⟨⟨b2, n2, s2⟩, g9, g10⟩ := res_bind_ok g8
          cases g10
          simp only
          refine Safe.bind (Safe.perm (ih k1 hx g9) (List.perm_append_singleton _ _)) ?_
          rintro ⟨_, hn2⟩ σ2 ⟨rfl, k2⟩
          cases b2 with
          | none => exact Safe.ret ⟨rfl, k2⟩
          | some b2 => exact Safe.ret ⟨rfl, k2⟩

theorem safe_hinsertX {eq : S → K → K → Option Bool × S} {dr : S → K × V → Option Unit × S} (deg : Nat) (fuel : Nat) {hn : HHNode} {n n' : HNode K V} {depth : Nat} {e : HEnt}
    {x : HEntry K V} {te : ATree (HLabel K V)} {r : Option Bool} {s s' : S} (h : NIs hn n ρ) (hx : EIs e x te)
    (he : n.insertX Ar eq dr deg fuel x depth s = .ok (r, n', s')) :
    Safe A D (fun y σ => y.1 = (r, s') ∧ NIs y.2 n' σ) (hinsertX Ar eq dr deg fuel e hn depth s) (.ptr te :: ρ) := by
  induction fuel generalizing hn n n' depth ρ r e x te s s' with
  | zero => cases n <;> cases he
  | succ fuel ih =>
    have leaf : ∀ {b : Bucket K V}, NIs hn (.leaf b) ρ → (HNode.leaf b).insertX Ar eq dr deg (fuel + 1) x depth s = .ok (r, n', s') →
        Safe A D (fun y σ => y.1 = (r, s') ∧ NIs y.2 n' σ)
          (Prog.bind (lift (indexFromHash Ar e.hash depth deg)) fun x =>
            Prog.bind (readEntry e.ptr) fun kv =>
            Prog.bind (bucketGetU eq kv.1 e.hash s hn) fun y =>
              match y with
              | (none, s) => Prog.bind (drop e.ptr) fun _ => .ret ((none, s), hn)
              | (some r, s) => hinsertXLeaf eq dr (hinsertX Ar eq dr deg fuel) e hn depth x.isNone r.isSome s) (.ptr te :: ρ) := by
      intro b hb he
      rw [insertX_leaf] at he
      obtain ⟨oi, g1, g2⟩ := res_bind_ok he
      obtain ⟨⟨og, s1⟩, g5, g4⟩ := res_bind_ok g2
      rw [hx.1, hx.2.1]
      refine Safe.liftBind g1 ?_
      refine Safe.bind (safe_readEntry hx.2.2 (.refl te) (by simp)) ?_
      rintro _ _ ⟨rfl, rfl⟩
      refine Safe.bind (safe_bucketGetU (eq := eq) x.key x.keyHash hb (fun s hs => ⟨s, .refl s, by simp [hs]⟩) g5) ?_
      rintro _ _ ⟨rfl, rfl⟩
      cases og with
      | none =>
        cases g4
        simp only [Option.map_none]
        refine Safe.bind (safe_dropPtr hx.2.2.2) ?_
        rintro _ _ rfl
        exact Safe.ret ⟨rfl, hb⟩
      | some og =>
        simp only [Option.map_some, Option.isSome_map] at g4 ⊢
        exact safe_hinsertXLeaf deg fuel ih hb hx _ _ g4
    cases h with
    | @branch bm arr ts h3 =>
      rw [insertX_branch] at he
      obtain ⟨ox, g1, g2⟩ := res_bind_ok he
      simp only [hinsertX, hinsertXStep]
      rw [hx.1]
      refine Safe.liftBind g1 ?_
      rcases ox with _ | ⟨index, _ | i⟩
      · cases g2
        simp only
        rw [hx.2.1]
        refine Safe.bind (safe_dropPtr hx.2.2.2) ?_
        rintro _ _ rfl
        exact Safe.ret ⟨rfl, .branch h3⟩
      rotate_left
      · simp only at g2 ⊢
        obtain ⟨c, g3, g4⟩ := res_bind_ok g2
        obtain ⟨⟨ov', c', s1⟩, g5, g6⟩ := res_bind_ok g4
        obtain ⟨t, g7, g8⟩ := res_bind_ok g6
        cases g8
        obtain ⟨g9, rfl⟩ := writeSlot_some g7
        have g3 := vecIndex_some g3
        obtain ⟨u, e1, e2⟩ := f2_getR h3 g3
        obtain ⟨F, p1, p2, -⟩ := perm_take e1
        refine Safe.liftBind (vecIndex_map _ e1) ?_
        refine Safe.bindFrame (F := F) (safe_modNode e2 (a := (ov', s1)) (n' := c') (E := [.ptr te]) fun hn' τ hτ => ?_)
          ((p1.cons _).trans (.swap _ _ _)) ?_
        · exact Safe.perm (ih hτ hx g5) (List.perm_append_singleton _ _)
        · rintro ⟨_, p⟩ _ ⟨rfl, t', rfl, h4, rfl⟩
          refine Safe.liftBind (writeSlot_ptr (by rw [f2_length h3]; exact g9)) ?_
          exact Safe.perm (Safe.ret ⟨rfl, .branch (f2_set h3 h4 i)⟩) (p2 t').symm
      · simp only at g2 ⊢
        obtain ⟨t, g3, g4⟩ := res_bind_ok g2
        cases g4
        have g5 : SparseArray.slot Ar bm index = .ok none := by
          simp only [nodeSlotX] at g1
          obtain ⟨oi, _, g1⟩ := res_bind_ok g1
          cases oi with
          | none => cases g1
          | some i =>
            obtain ⟨s', g1, g6⟩ := res_bind_ok g1
            cases g6
            exact g1
        obtain ⟨g6, g7⟩ := slot_none g5
        simp only [SparseArray.set, g6, g7, Res.ok_bind] at g3
        obtain ⟨rk, g8, g9⟩ := res_bind_ok g3
        obtain ⟨bit, g10, g11⟩ := res_bind_ok g9
        obtain ⟨arr', g12, g13⟩ := res_bind_ok g11
        cases g13
        unfold vecInsert at g12
        split at g12
        · next hle =>
          cases g12
          rw [hx.2.1]
          refine Safe.bindFrame (F := ts.map .ptr) (safe_new (HLabel.single x.keyHash) [te]) (.refl _) ?_
          rintro p _ rfl
          refine Safe.liftBind (x := ⟨bm ||| bit, (ts.insertIdx rk (.node p (.single x.keyHash) [te])).map ATree.addr⟩) ?_ ?_
          · simp only [SparseArray.set, g6, g7, Res.ok_bind, g8, g10, vecInsert, List.length_map]
            rw [if_pos (by rw [f2_length h3]; exact hle)]
            simp [map_insertIdx, ATree.addr]
          · refine Safe.perm (Safe.ret ⟨rfl, .branch (f2_insertIdx h3 (a := .node p (.single x.keyHash) [te]) ?_ rk)⟩) ?_
            · rw [IsN]
              exact ⟨rfl, te, rfl, hx.2.2⟩
            · rw [map_insertIdx]
              exact (perm_insertIdx (ts.map Item.ptr) (by rw [List.length_map, f2_length h3]; exact hle) _).symm
        · cases g12
    | @single e x te h3 => exact leaf (.single h3) he
    | @collision l r _ h3 => exact leaf (.collision h3) he

end nodes

section remove
variable {eq : S → K → Q → Option Bool × S}

theorem safe_hremoveX {dr : S → K × V → Option Unit × S} (key : Q) (kh : UInt64) (deg : Nat) (fuel : Nat) {hn : HHNode} {n n' : HNode K V} {depth : Nat}
    (hf : Shallow fuel n) (h : NIs hn n ρ) {removed : Option Bool} {s s' : S} (he : n.removeX Ar eq dr key kh deg depth s = .ok (removed, n', s')) :
    Safe A none (fun y σ => y.1 = (removed, s') ∧ NIs y.2 n' σ) (hremoveX Ar eq dr key kh deg fuel hn depth s) ρ := by
  induction fuel generalizing hn n n' depth ρ removed s s' with
  | zero => cases hf
  | succ fuel ih =>
    cases h with
    | @branch bm arr ts h3 =>
      rw [removeX_branch] at he
      obtain ⟨ox, g1, g2⟩ := res_bind_ok he
      simp only [hremoveX, hremoveXStep]
      refine Safe.liftBind g1 ?_
      rcases ox with _ | ⟨index, _ | i⟩
      · cases g2; exact Safe.ret ⟨rfl, .branch h3⟩
      · cases g2; exact Safe.ret ⟨rfl, .branch h3⟩
      · simp only at g2 ⊢
        obtain ⟨c, g3, g4⟩ := res_bind_ok g2
        obtain ⟨⟨rm, c', s1⟩, g5, g6⟩ := res_bind_ok g4
        obtain ⟨t, g7, g11⟩ := res_bind_ok g6
        obtain ⟨g9, rfl⟩ := writeSlot_some g7
        have g3 := vecIndex_some g3
        obtain ⟨u, e1, e2⟩ := f2_getR h3 g3
        obtain ⟨F, p1, p2, -⟩ := perm_take e1
        refine Safe.liftBind (vecIndex_map _ e1) ?_
        refine Safe.bindFrame (F := F) (safe_modNode e2 (a := ((rm, s1), c'.isEmpty Ar)) (n' := c') (E := []) fun hn' τ hτ => ?_) p1 ?_
        · rw [List.append_nil]
          refine Safe.bind (ih (hf c (List.mem_of_getElem? g3)) hτ g5) ?_
          rintro ⟨_, hn2⟩ σ2 ⟨rfl, k2⟩
          exact Safe.ret ⟨by rw [k2.isEmpty], k2⟩
        · rintro ⟨_, p⟩ _ ⟨rfl, t', rfl, h4, rfl⟩
          refine Safe.liftBind (writeSlot_ptr (by rw [f2_length h3]; exact g9)) ?_
          refine Safe.perm ?_ (p2 t').symm
          have hset := f2_set h3 h4 i
          simp only at g11 ⊢
          rcases rm with _ | _ | _
          · cases g11
            exact Safe.ret ⟨rfl, .branch hset⟩
          · rcases hem : c'.isEmpty Ar with em | em <;> rw [hem] at g11 <;> cases g11 <;> exact Safe.ret ⟨rfl, .branch hset⟩
          · rcases hem : c'.isEmpty Ar with em | _ | _ <;> rw [hem] at g11
            · cases g11; exact Safe.ret ⟨rfl, .branch hset⟩
            · obtain ⟨n2, k1, k2⟩ := res_bind_ok g11
              cases k2
              refine Safe.bind (safe_hcompress hset k1 (.inl rfl)) ?_
              intro r σ hr
              exact Safe.ret ⟨rfl, hr⟩
            · obtain ⟨s2, k0, g12⟩ := res_bind_ok g11
              obtain ⟨n2, k1, k2⟩ := res_bind_ok g12
              cases k2
              refine Safe.bind (safe_sparseRemove hset k0 (.inl rfl)) ?_
              rintro _ _ ⟨ts', rfl, rfl, k3⟩
              refine Safe.bind (safe_hcompress k3 k1 (.inl rfl)) ?_
              intro r σ hr
              exact Safe.ret ⟨rfl, hr⟩
    | @single e x te h3 =>
      rw [removeX_leaf] at he
      obtain ⟨⟨rm, ob, s1⟩, g1, g2⟩ := res_bind_ok he
      cases g2
      exact safe_bucketRemoveX key kh (.single h3) g1
    | @collision l r _ h3 =>
      rw [removeX_leaf] at he
      obtain ⟨⟨rm, ob, s1⟩, g1, g2⟩ := res_bind_ok he
      cases g2
      exact safe_bucketRemoveX key kh (.collision h3) g1

end remove

end HT
end Heap
end Rpds
