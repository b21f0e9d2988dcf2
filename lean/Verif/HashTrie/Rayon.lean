import Verif.HashTrie.Map
/-
Model of the parallel iterator of `HashTrieMapSync` (/repo/src/map/hash_trie_map/rayon.rs).

The scheduler is rayon's: it decides when to split and runs the pieces in any order.  It is modelled by an arbitrary tree of split
decisions (`Plan`).  A consumer's folder is an arbitrary state with `consume` and `full`; `full` may change the state, so that it
can depend on what other threads have done.
-/
set_option autoImplicit false
namespace Rpds
open Spec

/-- `enum ProducerNode`, `struct HashTrieMapProducer` (hash_trie_map/rayon.rs:61-71). -/
inductive Producer (K V : Type) where
  | branch (nodes : List (HNode K V))
  | leaf (b : Bucket K V)

/-- rayon's `Folder` for items `α`: `consume` and `full`. -/
structure Folder (α F : Type) where
  consume : F → α → F
  full : F → Bool × F

namespace Producer
section model
variable {H K V F : Type}

mutual
/-- `from_node` (hash_trie_map/rayon.rs:89-96). -/
def fromNode : HNode K V → Producer K V
  | .branch _ children => fromNodes children
  | .leaf b => .leaf b
/-- `from_nodes` (hash_trie_map/rayon.rs:81-87). -/
def fromNodes : List (HNode K V) → Producer K V
  | [] => .branch []
  | [n] => fromNode n
  | n :: m :: ns => .branch (n :: m :: ns)
end

/-- `HashTrieMapProducer::new` (hash_trie_map/rayon.rs:77-79). -/
def new (m : HTMap H K V) : Producer K V := fromNode m.root

/-- `for entry in collision_entries { folder = folder.consume(…); if folder.full() { break; } }` (hash_trie_map/rayon.rs:118-123,
147-152). -/
def foldCollision (fd : Folder (K × V) F) : (fuel : Nat) → ListIter (HEntry K V) → F → Res F
  | 0, _, _ => .error .diverge
  | fuel + 1, it, f => do
    let (x, it) ← it.step
    match x with
    | none => pure f
    | some e =>
      let f := fd.consume f (e.key, e.value)
      let (b, f) := fd.full f
      if b then pure f else foldCollision fd fuel it f

/-- Folding over a bucket (hash_trie_map/rayon.rs:115-126, 144-155; the code appears twice). -/
def foldBucket (fd : Folder (K × V) F) : Bucket K V → F → Res F
  | .single e, f => pure (fd.consume f (e.key, e.value))
  | .collision l, f => foldCollision fd (l.length + 1) l.iter f

mutual
/-- `fold_all_entries` (hash_trie_map/rayon.rs:130-157). -/
def foldAllEntries (fd : Folder (K × V) F) : HNode K V → F → Res F
  | .branch _ children, f => foldChildren fd children f
  | .leaf b, f => foldBucket fd b f
/-- `for child in children { folder = fold_all_entries(child, folder); if folder.full() { break; } }` (hash_trie_map/rayon.rs:104-109,
136-141). -/
def foldChildren (fd : Folder (K × V) F) : List (HNode K V) → F → Res F
  | [], f => pure f
  | c :: cs, f => do
    let f ← foldAllEntries fd c f
    let (b, f) := fd.full f
    if b then pure f else foldChildren fd cs f
end

/-- `fold_node_entries`, `fold_with` (hash_trie_map/rayon.rs:98-128, 177-182). -/
def foldWith (fd : Folder (K × V) F) : Producer K V → F → Res F
  | .branch children, f => foldChildren fd children f
  | .leaf b, f => foldBucket fd b f

/-- `split` (hash_trie_map/rayon.rs:167-175). -/
def split : Producer K V → Producer K V × Option (Producer K V)
  | .branch nodes =>
    if nodes.length > 1 then
      (fromNodes (nodes.take (nodes.length / 2)), some (fromNodes (nodes.drop (nodes.length / 2))))
    else (.branch nodes, none)
  | .leaf b => (.leaf b, none)

/-- Decisions of the scheduler: fold this piece, or try to split it. -/
inductive Plan where
  | fold
  | split (left right : Plan)

/-- The pieces that get folded: rayon's `bridge_unindexed` (a piece that cannot be split is folded). -/
def pieces : Plan → Producer K V → List (Producer K V)
  | .fold, p => [p]
  | .split l r, p =>
    match p.split with
    | (a, some b) => pieces l a ++ pieces r b
    | (a, none) => [a]

/-- The folder that collects all items. -/
def collector : Folder (K × V) (List (K × V)) where
  consume f x := f ++ [x]
  full f := (false, f)

/-- Parallel collection: every piece is folded by itself and the results are joined left to right (rayon's `reduce`). -/
def collect (plan : Plan) (p : Producer K V) : Res (List (K × V)) := do
  let rs ← (pieces plan p).mapM fun q => q.foldWith collector []
  pure rs.flatten

end model

variable {K V F : Type} {A : Arch} {k : Nat}

/-- The items of a piece, in order. -/
def items : Producer K V → List (K × V)
  | .branch nodes => (nodes.flatMap HNode.entries).map HTMap.pair
  | .leaf b => b.entries.map HTMap.pair

/-- A piece made of well-formed nodes with entries. -/
def OK (A : Arch) (k : Nat) : Producer K V → Prop
  | .branch nodes => ∀ n ∈ nodes, (∃ d, n.OK A k true d) ∧ n.entries ≠ []
  | .leaf b => ∃ d, (HNode.leaf b).OK A k true d

theorem fromNode_ok (n : HNode K V) : ∀ d, n.OK A k true d → (fromNode n).OK A k ∧ (fromNode n).items = n.entries.map HTMap.pair := by
  induction n using HNode.induct with
  | hl b => intro d h; exact ⟨by rw [fromNode]; exact ⟨d, h⟩, by rw [fromNode]; simp [items]⟩
  | hb bm arr ih =>
    intro d h
    rw [HNode.ok_branch] at h
    have hch : ∀ c ∈ arr, ∃ i, HNode.Child A k true d i c := fun c hc => by
      obtain ⟨i, _, hi⟩ := SparseArray.forall₂_mem h.2 hc; exact ⟨i, hi⟩
    rw [fromNode]
    match arr, ih, hch with
    | [], _, _ => rw [fromNodes]; exact ⟨by simp [OK], by simp [items]⟩
    | [c], ih, hch =>
      obtain ⟨i, hi⟩ := hch c (by simp)
      rw [fromNodes]
      have := ih c (by simp) _ hi.ok
      exact ⟨this.1, by rw [this.2]; simp⟩
    | c1 :: c2 :: cs, _, hch =>
      rw [fromNodes]
      refine ⟨?_, by simp [items]⟩
      intro n hn
      obtain ⟨i, hi⟩ := hch n hn
      exact ⟨⟨_, hi.ok⟩, hi.nonempty⟩

theorem fromNodes_ok {ns : List (HNode K V)} (h : ∀ n ∈ ns, (∃ d, n.OK A k true d) ∧ n.entries ≠ []) :
    (fromNodes ns).OK A k ∧ (fromNodes ns).items = (ns.flatMap HNode.entries).map HTMap.pair := by
  match ns, h with
  | [], _ => rw [fromNodes]; exact ⟨by simp [OK], by simp [items]⟩
  | [c], h =>
    rw [fromNodes]
    obtain ⟨⟨d, hd⟩, _⟩ := h c (by simp)
    have := fromNode_ok c d hd
    exact ⟨this.1, by rw [this.2]; simp⟩
  | c1 :: c2 :: cs, h => rw [fromNodes]; exact ⟨h, by simp [items]⟩

/-- Splitting neither loses nor repeats items. -/
theorem split_ok {p : Producer K V} (h : p.OK A k) :
    p.split.1.OK A k ∧ (∀ q, p.split.2 = some q → q.OK A k) ∧
      p.split.1.items ++ (match p.split.2 with | some q => q.items | none => []) = p.items := by
  cases p with
  | leaf b => exact ⟨h, by simp [split], by simp [split]⟩
  | branch nodes =>
    simp only [split]
    split
    · have h1 := fromNodes_ok (A := A) (k := k) (ns := nodes.take (nodes.length / 2)) fun n hn => h n (List.mem_of_mem_take hn)
      have h2 := fromNodes_ok (A := A) (k := k) (ns := nodes.drop (nodes.length / 2)) fun n hn => h n (List.mem_of_mem_drop hn)
      refine ⟨h1.1, ?_, ?_⟩
      · intro q hq; cases hq; exact h2.1
      · simp only [h1.2, h2.2]
        rw [items, ← List.map_append, ← List.flatMap_append, List.take_append_drop]
    · exact ⟨h, by simp, by simp⟩

/-- However the work is split, the pieces' items in order are the items. -/
theorem pieces_ok (plan : Plan) (p : Producer K V) (h : p.OK A k) :
    (∀ q ∈ pieces plan p, q.OK A k) ∧ (pieces plan p).flatMap items = p.items := by
  induction plan generalizing p with
  | fold => simp [pieces, h]
  | split l r ihl ihr =>
    obtain ⟨h1, h2, h3⟩ := split_ok h
    simp only [pieces]
    cases hs : p.split with
    | mk a ob =>
      rw [hs] at h1 h2 h3
      simp only at h1 h2 h3
      cases ob with
      | none => simp only [List.append_nil] at h3; simp [h1, h3]
      | some b =>
        have hl := ihl a h1
        have hr := ihr b (h2 b rfl)
        refine ⟨?_, ?_⟩
        · intro q hq
          rcases List.mem_append.1 hq with hq | hq
          · exact hl.1 q hq
          · exact hr.1 q hq
        · simp only [List.flatMap_append, hl.2, hr.2, h3]

/-- What a fold over `xs` has done: consumed a prefix, and stopped early only because the folder said it was full. -/
def Folded {α : Type} (fd : Folder α F) (log : F → List α) (xs : List α) (f f' : F) : Prop :=
  ∃ n, n ≤ xs.length ∧ log f' = log f ++ xs.take n ∧ (n < xs.length → ∃ g, fd.full g = (true, f'))

/-- `log` lists what has been consumed, and once full, always full. -/
structure FolderLaws {α : Type} (fd : Folder α F) (log : F → List α) : Prop where
  consume : ∀ f x, log (fd.consume f x) = log f ++ [x]
  full : ∀ f, log (fd.full f).2 = log f
  mono : ∀ f, (fd.full f).1 = true → (fd.full (fd.full f).2).1 = true

theorem Folded.cons_full {α : Type} {fd : Folder α F} {log : F → List α} {f : F} {x : α} {xs : List α} (hl : FolderLaws fd log)
    (hb : (fd.full (fd.consume f x)).1 = true) : Folded fd log (x :: xs) f (fd.full (fd.consume f x)).2 :=
  ⟨1, by simp, by rw [hl.full, hl.consume]; simp, fun _ => ⟨fd.consume f x, by rw [← hb]⟩⟩

theorem Folded.cons {α : Type} {fd : Folder α F} {log : F → List α} {f f' : F} {x : α} {xs : List α} (hl : FolderLaws fd log)
    (h : Folded fd log xs (fd.full (fd.consume f x)).2 f') : Folded fd log (x :: xs) f f' := by
  obtain ⟨n, h1, h2, h3⟩ := h
  refine ⟨n + 1, by simp; omega, ?_, fun hn => h3 (by simp at hn; omega)⟩
  rw [h2, hl.full, hl.consume]; simp

theorem foldCollision_ok {fd : Folder (K × V) F} {log : F → List (K × V)} (hl : FolderLaws fd log) (fuel : Nat) :
    ∀ (it : ListIter (HEntry K V)) (es : List (HEntry K V)) (f : F), it.Rep es → es.length < fuel →
    ∃ f', foldCollision fd fuel it f = .ok f' ∧ Folded fd log (es.map HTMap.pair) f f' := by
  induction fuel with
  | zero => intro it es f _ h; omega
  | succ fuel ih =>
    intro it es f h hf
    cases es with
    | nil =>
      obtain ⟨it', h1, _⟩ := h.step_nil
      exact ⟨f, by simp [foldCollision, h1], 0, by simp, by simp, by simp⟩
    | cons e es =>
      obtain ⟨it', h1, h2⟩ := h.step_cons
      simp only [foldCollision, h1, Res.ok_bind]
      cases hb : (fd.full (fd.consume f (e.key, e.value))).1 with
      | true => exact ⟨_, by simp [HTMap.pair], Folded.cons_full (x := HTMap.pair e) hl hb⟩
      | false =>
        obtain ⟨f', g1, g2⟩ := ih it' es (fd.full (fd.consume f (e.key, e.value))).2 h2 (by simpa using hf)
        exact ⟨f', by simp [g1], Folded.cons (x := HTMap.pair e) hl g2⟩

theorem foldBucket_ok {fd : Folder (K × V) F} {log : F → List (K × V)} (hl : FolderLaws fd log) {b : Bucket K V} {d : Nat}
    {z : Bool} (hok : (HNode.leaf b).OK A k z d) (f : F) :
    ∃ f', foldBucket fd b f = .ok f' ∧ Folded fd log (b.entries.map HTMap.pair) f f' := by
  cases b with
  | single e => exact ⟨_, rfl, 1, by simp [Bucket.entries], by simp [hl.consume, Bucket.entries, HTMap.pair], by simp [Bucket.entries]⟩
  | collision l =>
    rw [HNode.OK] at hok
    exact foldCollision_ok hl _ l.iter _ f hok.2.1.iter (by rw [hok.2.1.length, Bucket.entries]; omega)

theorem foldChildren_ok {fd : Folder (K × V) F} {log : F → List (K × V)} (hl : FolderLaws fd log) (cs : List (HNode K V))
    (ih : ∀ c ∈ cs, ∀ f, ∃ f', foldAllEntries fd c f = .ok f' ∧ Folded fd log (c.entries.map HTMap.pair) f f') (f : F) :
    ∃ f', foldChildren fd cs f = .ok f' ∧ Folded fd log ((cs.flatMap HNode.entries).map HTMap.pair) f f' := by
  induction cs generalizing f with
  | nil => exact ⟨f, by rw [foldChildren]; rfl, 0, by simp, by simp, by simp⟩
  | cons c cs ih2 =>
    obtain ⟨f1, h1, n, h2, h3, h4⟩ := ih c (by simp) f
    rw [foldChildren]
    simp only [h1, Res.ok_bind, List.flatMap_cons, List.map_append]
    cases hb : (fd.full f1).1 with
    | true =>
      refine ⟨(fd.full f1).2, by simp, n, by simp only [List.length_append]; omega, ?_, fun _ => ⟨f1, by rw [← hb]⟩⟩
      rw [hl.full, h3, List.take_append_of_le_length h2]
    | false =>
      obtain ⟨f', g1, n', g2, g3, g4⟩ := ih2 (fun c hc => ih c (by simp [hc])) (fd.full f1).2
      have hn : n = (c.entries.map HTMap.pair).length := by
        rcases Nat.lt_or_ge n (c.entries.map HTMap.pair).length with hlt | hge
        · obtain ⟨g, hg⟩ := h4 hlt
          have := hl.mono g (by rw [hg])
          rw [hg] at this
          simp only at this
          rw [this] at hb; cases hb
        · omega
      refine ⟨f', by simp [g1], n + n', by simp only [List.length_append]; omega, ?_, fun h => g4 ?_⟩
      · rw [g3, hl.full, h3, hn, List.take_length_add_append, List.take_length, List.append_assoc]
      · simp only [List.length_append] at h; omega

theorem foldAllEntries_ok {fd : Folder (K × V) F} {log : F → List (K × V)} (hl : FolderLaws fd log) (n : HNode K V) : ∀ z d, n.OK A k z d →
    ∀ f, ∃ f', foldAllEntries fd n f = .ok f' ∧ Folded fd log (n.entries.map HTMap.pair) f f' := by
  induction n using HNode.induct with
  | hl b =>
    intro z d h f
    obtain ⟨f', h1, h2⟩ := foldBucket_ok hl h f
    exact ⟨f', by rw [foldAllEntries]; exact h1, by simpa using h2⟩
  | hb bm arr ih =>
    intro z d h f
    obtain ⟨f', h1, h2⟩ := foldChildren_ok hl arr (fun c hc f => by
      obtain ⟨z', d', hd'⟩ := HNode.children_ok h c hc
      exact ih c hc z' d' hd' f) f
    exact ⟨f', by rw [foldAllEntries]; exact h1, by simpa using h2⟩

/-- Folding a piece consumes a prefix of its items; all of them if the folder never says it is full. -/
theorem foldWith_ok {fd : Folder (K × V) F} {log : F → List (K × V)} (hl : FolderLaws fd log) {p : Producer K V} (hok : p.OK A k) (f : F) :
    ∃ f', p.foldWith fd f = .ok f' ∧ Folded fd log p.items f f' := by
  cases p with
  | leaf b =>
    obtain ⟨d, hd⟩ := hok
    exact foldBucket_ok hl hd f
  | branch nodes =>
    exact foldChildren_ok hl nodes (fun c hc f => by
      obtain ⟨⟨d, hd⟩, _⟩ := hok c hc
      exact foldAllEntries_ok hl c _ d hd f) f

theorem collector_laws : FolderLaws (collector (K := K) (V := V)) id where
  consume _ _ := rfl
  full _ := rfl
  mono _ h := by cases h

theorem foldWith_collector {p : Producer K V} (hok : p.OK A k) (f : List (K × V)) : p.foldWith collector f = .ok (f ++ p.items) := by
  obtain ⟨f', h1, n, h2, h3, h4⟩ := foldWith_ok collector_laws hok f
  have hn : n = p.items.length := by
    rcases Nat.lt_or_ge n p.items.length with h | h
    · obtain ⟨g, hg⟩ := h4 h; cases hg
    · omega
  rw [h1]
  have : f' = f ++ p.items.take n := h3
  rw [this, hn, List.take_length]

theorem collect_ok (plan : Plan) {p : Producer K V} (hok : p.OK A k) : collect plan p = .ok p.items := by
  obtain ⟨h1, h2⟩ := pieces_ok plan p hok
  have : ∀ qs : List (Producer K V), (∀ q ∈ qs, q.OK A k) → qs.mapM (fun q => q.foldWith collector []) = .ok (qs.map items) := by
    intro qs
    induction qs with
    | nil => intro _; rfl
    | cons q qs ih =>
      intro h
      simp [List.mapM_cons, foldWith_collector (h q (by simp)), ih (fun q hq => h q (by simp [hq]))]
  simp only [collect, this _ h1, Res.ok_bind, Res.pure_eq]
  rw [← h2, List.flatMap_def]

/-- When asking `full` does not change the folder, the fold stops exactly after the first item that makes it full. -/
def foldStop {α : Type} (consume : F → α → F) (full : F → Bool) : F → List α → F
  | f, [] => f
  | f, x :: xs =>
    let f := consume f x
    if full f then f else foldStop consume full f xs

theorem foldStop_append {α : Type} (consume : F → α → F) (full : F → Bool) (xs ys : List α) (hx : xs ≠ []) (f : F) :
    foldStop consume full f (xs ++ ys) =
      if full (foldStop consume full f xs) then foldStop consume full f xs
      else foldStop consume full (foldStop consume full f xs) ys := by
  induction xs generalizing f with
  | nil => exact absurd rfl hx
  | cons x xs ih =>
    simp only [List.cons_append, foldStop]
    by_cases hf : full (consume f x) = true
    · simp [hf]
    · simp only [hf, if_false, Bool.false_eq_true]
      cases xs with
      | nil => simp [foldStop, hf]
      | cons y ys' => exact ih (by simp) _

section exact
variable {consume : F → K × V → F} {full : F → Bool}

/-- A folder whose `full` only looks. -/
abbrev pureFolder (consume : F → K × V → F) (full : F → Bool) : Folder (K × V) F := ⟨consume, fun f => (full f, f)⟩

theorem foldCollision_exact (fuel : Nat) : ∀ (it : ListIter (HEntry K V)) (es : List (HEntry K V)) (f : F), it.Rep es → es.length < fuel →
    foldCollision (pureFolder consume full) fuel it f = .ok (foldStop consume full f (es.map HTMap.pair)) := by
  induction fuel with
  | zero => intro it es f _ h; omega
  | succ fuel ih =>
    intro it es f h hf
    cases es with
    | nil => obtain ⟨it', h1, _⟩ := h.step_nil; simp [foldCollision, h1, foldStop]
    | cons e es =>
      obtain ⟨it', h1, h2⟩ := h.step_cons
      simp only [foldCollision, h1, Res.ok_bind, List.map_cons, foldStop, HTMap.pair]
      split
      · rfl
      · exact ih it' es _ h2 (by simpa using hf)

theorem foldBucket_exact {b : Bucket K V} {d : Nat} {z : Bool} (hok : (HNode.leaf b).OK A k z d) (f : F) :
    foldBucket (pureFolder consume full) b f = .ok (foldStop consume full f (b.entries.map HTMap.pair)) := by
  cases b with
  | single e => simp [foldBucket, Bucket.entries, foldStop, HTMap.pair]
  | collision l =>
    rw [HNode.OK] at hok
    exact foldCollision_exact _ l.iter _ f hok.2.1.iter (by rw [hok.2.1.length, Bucket.entries]; omega)

theorem foldChildren_exact (cs : List (HNode K V)) (hne : ∀ c ∈ cs, c.entries ≠ [])
    (ih : ∀ c ∈ cs, ∀ f, foldAllEntries (pureFolder consume full) c f = .ok (foldStop consume full f (c.entries.map HTMap.pair))) (f : F) :
    foldChildren (pureFolder consume full) cs f = .ok (foldStop consume full f ((cs.flatMap HNode.entries).map HTMap.pair)) := by
  induction cs generalizing f with
  | nil => rw [foldChildren]; rfl
  | cons c cs ih2 =>
    rw [foldChildren]
    simp only [ih c (by simp) f, Res.ok_bind, List.flatMap_cons, List.map_append]
    rw [foldStop_append _ _ _ _ (by simpa using hne c (by simp))]
    split
    · rfl
    · exact ih2 (fun c hc => hne c (by simp [hc])) (fun c hc => ih c (by simp [hc])) _

theorem foldAllEntries_exact (n : HNode K V) : ∀ z d, n.OK A k z d → ∀ f,
    foldAllEntries (pureFolder consume full) n f = .ok (foldStop consume full f (n.entries.map HTMap.pair)) := by
  induction n using HNode.induct with
  | hl b => intro z d h f; rw [foldAllEntries]; simpa using foldBucket_exact h f
  | hb bm arr ih =>
    intro z d h f
    rw [foldAllEntries]
    have hch := h
    rw [HNode.ok_branch] at hch
    have := foldChildren_exact (consume := consume) (full := full) arr (fun c hc => by
      obtain ⟨i, _, hi⟩ := SparseArray.forall₂_mem hch.2 hc; exact hi.nonempty) (fun c hc f => by
      obtain ⟨z', d', hd'⟩ := HNode.children_ok h c hc
      exact ih c hc z' d' hd' f) f
    simpa using this

theorem foldWith_exact {p : Producer K V} (hok : p.OK A k) (f : F) :
    p.foldWith (pureFolder consume full) f = .ok (foldStop consume full f p.items) := by
  cases p with
  | leaf b =>
    obtain ⟨d, hd⟩ := hok
    exact foldBucket_exact hd f
  | branch nodes =>
    exact foldChildren_exact nodes (fun c hc => (hok c hc).2) (fun c hc f => by
      obtain ⟨⟨d, hd⟩, _⟩ := hok c hc
      exact foldAllEntries_exact c _ d hd f) f

end exact

end Producer
end Rpds
