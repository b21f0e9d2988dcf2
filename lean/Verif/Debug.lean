import Verif.Heap.HashTrieMap
import Verif.RedBlack.Set
import Verif.HashTrie.Set
import Verif.Vector.Sim
import Verif.Stack.Lemmas
import Verif.Queue.Lemmas
/-
`Debug`, which all collections derive: what `{:?}` writes, and how deep the calls of `fmt` nest.

`#[derive(Debug)]` calls `fmt` of each field, `SharedPointer` that of the value pointed to, `Vec` and `Option` that of their elements.
The elements' own `fmt` is a parameter.  `{:#?}` makes the same calls.
-/
set_option autoImplicit false
namespace Rpds

/-- The builders of `core::fmt`: `debug_struct` with the names of the fields, `debug_tuple`, `debug_list`. -/
inductive DbgKind where
  | struct (name : String) (fields : List String)
  | tuple (name : String)
  | list
  deriving DecidableEq, Repr

/-- The calls of `Debug::fmt`: text written at once, or a builder with the calls it makes. -/
inductive Dbg where
  | atom (s : String)
  | node (k : DbgKind) (kids : List Dbg)

namespace Dbg

mutual
/-- How many calls of `fmt` are active at once at most. -/
def depth : Dbg → Nat
  | .atom _ => 1
  | .node _ ks => 1 + depthAll ks
/-- The same for the deepest of several. -/
def depthAll : List Dbg → Nat
  | [] => 0
  | d :: ds => max d.depth (depthAll ds)
end

/-- `, ` between the parts. -/
def commas : List String → String
  | [] => ""
  | [s] => s
  | s :: t :: ss => s ++ ", " ++ commas (t :: ss)

mutual
/-- The text written for `{:?}`. -/
def render : Dbg → String
  | .atom s => s
  | .node (.struct name fields) ks => name ++ " { " ++ commas (List.zipWith (fun f s => f ++ ": " ++ s) fields (renderAll ks)) ++ " }"
  | .node (.tuple name) ks => name ++ "(" ++ commas (renderAll ks) ++ ")"
  | .node .list ks => "[" ++ commas (renderAll ks) ++ "]"
/-- The texts of several. -/
def renderAll : List Dbg → List String
  | [] => []
  | d :: ds => d.render :: renderAll ds
end

/-- An integer. -/
def nat (n : Nat) : Dbg := .atom (toString n)

/-- `Option`. -/
def option : Option Dbg → Dbg
  | none => .atom "None"
  | some d => .node (.tuple "Some") [d]

theorem depthAll_le {ds : List Dbg} {c : Nat} : depthAll ds ≤ c ↔ ∀ d ∈ ds, d.depth ≤ c := by
  induction ds with
  | nil => simp [depthAll]
  | cons d ds ih => simp [depthAll, Nat.max_le, ih]

theorem depth_pos (d : Dbg) : 1 ≤ d.depth := by
  cases d <;> simp [depth]

end Dbg

open Dbg

variable {T H K V Q : Type}

/-- `Debug` of the links and nodes of a list (list/mod.rs:117-124). -/
def Link.dbg (f : T → Dbg) : Link T → Dbg
  | .none => .atom "None"
  | .some v next => .node (.tuple "Some") [.node (.struct "Node" ["value", "next"]) [f v, next.dbg f]]

/-- `Debug for List` (list/mod.rs:107-115). -/
def RList.dbg (f : T → Dbg) (l : RList T) : Dbg :=
  .node (.struct "List" ["head", "last", "length"]) [l.head.dbg f, .option (l.last.map f), .nat l.length]

/-- `Debug for Stack` (stack/mod.rs:90-96). -/
def Stack.dbg (f : T → Dbg) (s : Stack T) : Dbg := .node (.struct "Stack" ["list"]) [s.list.dbg f]

/-- `Debug for Queue` (queue/mod.rs:96-103). -/
def Queue.dbg (f : T → Dbg) (q : Queue T) : Dbg :=
  .node (.struct "Queue" ["in_list", "out_list"]) [q.in_list.dbg f, q.out_list.dbg f]

mutual
/-- `Debug` of the nodes of a vector (vector/mod.rs:106-113). -/
def VNode.dbg (f : T → Dbg) : VNode T → Dbg
  | .branch a => .node (.tuple "Branch") [.node .list (VNode.dbgAll f a)]
  | .leaf a => .node (.tuple "Leaf") [.node .list (a.map f)]
/-- The same for several nodes. -/
def VNode.dbgAll (f : T → Dbg) : List (VNode T) → List Dbg
  | [] => []
  | n :: ns => n.dbg f :: VNode.dbgAll f ns
end

/-- `Debug for Vector` (vector/mod.rs:94-102). -/
def RVector.dbg (f : T → Dbg) (v : RVector T) : Dbg :=
  .node (.struct "Vector" ["root", "bits", "length"]) [v.root.dbg f, .nat v.bits, .nat v.length]

/-- `Debug for Entry` (map/entry.rs:1-5). -/
def entryDbg (fk : K → Dbg) (fv : V → Dbg) (e : K × V) : Dbg := .node (.struct "Entry" ["key", "value"]) [fk e.1, fv e.2]

/-- `Debug for Color` (red_black_tree_map/mod.rs:113-117). -/
def Color.dbg : Color → Dbg
  | .red => .atom "Red"
  | .black => .atom "Black"

/-- `Debug` of the nodes of a tree (red_black_tree_map/mod.rs:119-128). -/
def RBTree.dbg (fk : K → Dbg) (fv : V → Dbg) : RBTree K V → Dbg
  | .none => .atom "None"
  | .some e c l r => .node (.tuple "Some")
      [.node (.struct "Node" ["entry", "color", "left", "right"]) [entryDbg fk fv e, c.dbg, l.dbg fk fv, r.dbg fk fv]]

/-- `Debug for RedBlackTreeMap` (red_black_tree_map/mod.rs:102-109). -/
def RBMap.dbg (fk : K → Dbg) (fv : V → Dbg) (m : RBMap K V) : Dbg :=
  .node (.struct "RedBlackTreeMap" ["root", "size"]) [m.root.dbg fk fv, .nat m.size]

/-- `Debug for RedBlackTreeSet` (red_black_tree_set/mod.rs:93-100). -/
def RBSet.dbg (f : T → Dbg) (s : RBSet T) : Dbg :=
  .node (.struct "RedBlackTreeSet" ["map"]) [s.map.dbg f fun _ => .atom "()"]

/-- `Debug for EntryWithHash` (hash_trie_map/mod.rs:201-208). -/
def HEntry.dbg (fk : K → Dbg) (fv : V → Dbg) (e : HEntry K V) : Dbg :=
  .node (.struct "EntryWithHash" ["entry", "key_hash"]) [entryDbg fk fv (e.key, e.value), .nat e.keyHash.toNat]

/-- `Debug for Bucket` (hash_trie_map/mod.rs:192-199). -/
def Bucket.dbg (fk : K → Dbg) (fv : V → Dbg) : Bucket K V → Dbg
  | .single e => .node (.tuple "Single") [e.dbg fk fv]
  | .collision l => .node (.tuple "Collision") [l.dbg (HEntry.dbg fk fv)]

mutual
/-- `Debug` of the nodes of a trie (hash_trie_map/mod.rs:183-190), with that of the sparse array (sparse_array_usize/mod.rs:7-11). -/
def HNode.dbg (fk : K → Dbg) (fv : V → Dbg) : HNode K V → Dbg
  | .branch bm arr => .node (.tuple "Branch")
      [.node (.struct "SparseArrayUsize" ["bitmap", "array"]) [.nat bm, .node .list (HNode.dbgAll fk fv arr)]]
  | .leaf b => .node (.tuple "Leaf") [b.dbg fk fv]
/-- The same for several nodes. -/
def HNode.dbgAll (fk : K → Dbg) (fv : V → Dbg) : List (HNode K V) → List Dbg
  | [] => []
  | n :: ns => n.dbg fk fv :: HNode.dbgAll fk fv ns
end

/-- `Debug for HashTrieMap` (hash_trie_map/mod.rs:116-125); `fh` is that of the hasher. -/
def HTMap.dbg (fk : K → Dbg) (fv : V → Dbg) (fh : H → Dbg) (m : HTMap H K V) : Dbg :=
  .node (.struct "HashTrieMap" ["root", "size", "degree", "hasher_builder"])
    [m.root.dbg fk fv, .nat m.size, .nat m.degree, fh m.hasher]

/-- `Debug for HashTrieSet` (hash_trie_set/mod.rs:92-100). -/
def HTSet.dbg (f : T → Dbg) (fh : H → Dbg) (s : HTSet H T) : Dbg :=
  .node (.struct "HashTrieSet" ["map"]) [s.map.dbg f (fun _ => .atom "()") fh]

/-! ### Depths -/

theorem Link.dbg_depth {f : T → Dbg} {d : Nat} (l : Link T) (h : ∀ x ∈ l.toList, (f x).depth ≤ d) (hd : 1 ≤ d) :
    2 * l.toList.length + 1 ≤ (l.dbg f).depth ∧ (l.dbg f).depth ≤ 2 * l.toList.length + d := by
  induction l with
  | none => simp [Link.dbg, depth, Link.toList, hd]
  | some v next ih =>
    have h1 := ih fun x hx => h x (by simp [Link.toList, hx])
    have h2 := h v (by simp [Link.toList])
    simp only [Link.dbg, depth, depthAll, Link.toList, List.length_cons]
    omega

theorem option_depth {o : Option Dbg} {d : Nat} (h : ∀ x, o = some x → x.depth ≤ d) : (Dbg.option o).depth ≤ d + 1 := by
  cases o with
  | none => simp [Dbg.option, depth]
  | some x => have := h x rfl; simp only [Dbg.option, depth, depthAll]; omega

theorem RList.Rep.dbg_depth {l : RList T} {xs : List T} (r : l.Rep xs) {f : T → Dbg} {d : Nat} (h : ∀ x ∈ xs, (f x).depth ≤ d) (hd : 1 ≤ d) :
    2 * xs.length + 2 ≤ (l.dbg f).depth ∧ (l.dbg f).depth ≤ 2 * xs.length + d + 1 := by
  have hx : l.head.toList = xs := r.head
  have h1 := Link.dbg_depth l.head (by rw [hx]; exact h) hd
  rw [hx] at h1
  have h2 : (Dbg.option (l.last.map f)).depth ≤ max (2 * xs.length + d) 1 := by
    cases xs with
    | nil =>
      have : l.last = none := by simpa using r.last
      rw [this]; simp [Dbg.option, depth]; omega
    | cons x xs =>
      refine Nat.le_trans (option_depth (d := d) ?_) (by simp only [List.length_cons]; omega)
      intro y hy
      obtain ⟨z, hz, rfl⟩ := Option.map_eq_some_iff.1 hy
      refine h z ?_
      rw [r.last] at hz
      exact List.mem_of_getLast? hz
  simp only [RList.dbg, depth, depthAll, Dbg.nat]
  omega

theorem VNode.dbgAll_eq (f : T → Dbg) (ns : List (VNode T)) : VNode.dbgAll f ns = ns.map (VNode.dbg f) := by
  induction ns with
  | nil => simp [VNode.dbgAll]
  | cons n ns ih => simp [VNode.dbgAll, ih]

theorem VNode.dbg_depth {f : T → Dbg} {d b : Nat} (h : Nat) (n : VNode T) (hn : n.OK b h) (hf : ∀ x, (f x).depth ≤ d) :
    (n.dbg f).depth ≤ 2 * (h + 1) + d := by
  induction h generalizing n with
  | zero =>
    cases n with
    | branch a => exact absurd hn (by simp [VNode.OK])
    | leaf a =>
      have : depthAll (a.map f) ≤ d := depthAll_le.2 (by simpa using fun x _ => hf x)
      simp only [VNode.dbg, depth, depthAll]; omega
  | succ h ih =>
    cases n with
    | leaf a => exact absurd hn (by simp [VNode.OK])
    | branch a =>
      have : depthAll (a.map (VNode.dbg f)) ≤ 2 * (h + 1) + d := depthAll_le.2 (by
        simp only [List.mem_map, forall_exists_index, and_imp, forall_apply_eq_imp_iff₂]
        intro c hc
        rw [VNode.OK] at hn
        exact ih c (hn.2.2 c hc))
      simp only [VNode.dbg, depth, depthAll, VNode.dbgAll_eq]; omega

theorem entryDbg_depth {fk : K → Dbg} {fv : V → Dbg} {d : Nat} (hk : ∀ x, (fk x).depth ≤ d) (hv : ∀ x, (fv x).depth ≤ d) (e : K × V) :
    (entryDbg fk fv e).depth ≤ d + 1 := by
  have h1 := hk e.1
  have h2 := hv e.2
  simp only [entryDbg, depth, depthAll]; omega

theorem RBTree.dbg_depth {fk : K → Dbg} {fv : V → Dbg} {d : Nat} (hk : ∀ x, (fk x).depth ≤ d) (hv : ∀ x, (fv x).depth ≤ d) (t : RBTree K V) :
    (t.dbg fk fv).depth ≤ 2 * t.height + d + 1 := by
  induction t with
  | none => simp [RBTree.dbg, depth]
  | some e c l r ihl ihr =>
    have h1 := entryDbg_depth hk hv e
    have h2 : c.dbg.depth = 1 := by cases c <;> rfl
    simp only [RBTree.dbg, depth, depthAll, RBTree.height]; omega

theorem HNode.dbgAll_eq (fk : K → Dbg) (fv : V → Dbg) (ns : List (HNode K V)) : HNode.dbgAll fk fv ns = ns.map (HNode.dbg fk fv) := by
  induction ns with
  | nil => simp [HNode.dbgAll]
  | cons n ns ih => simp [HNode.dbgAll, ih]

theorem HEntry.dbg_depth {fk : K → Dbg} {fv : V → Dbg} {d : Nat} (hk : ∀ x, (fk x).depth ≤ d) (hv : ∀ x, (fv x).depth ≤ d) (e : HEntry K V) :
    (e.dbg fk fv).depth ≤ d + 2 := by
  have h1 := entryDbg_depth hk hv (e.key, e.value)
  have h2 := hk e.key
  have h3 := Dbg.depth_pos (fk e.key)
  simp only [HEntry.dbg, depth, depthAll, Dbg.nat]; omega

theorem HNode.dbg_depth {A : Arch} {k c w : Nat} {fk : K → Dbg} {fv : V → Dbg} (hk : 1 ≤ k) (hfk : ∀ x, (fk x).depth ≤ w)
    (hfv : ∀ x, (fv x).depth ≤ w) (n : HNode K V) : ∀ d, n.OK A k true d →
    (∀ j, j < d → ∀ x ∈ n.entries, ∀ y ∈ n.entries, idx k j x.keyHash = idx k j y.keyHash) →
    (∀ h, (n.entries.map (·.keyHash)).count h ≤ c) → (n.dbg fk fv).depth ≤ 3 * (63 / k + 1 - d) + 2 * c + w + 5 := by
  induction n using HNode.induct with
  | hb bm arr ih =>
    intro d hok hsame hc
    rw [HNode.ok_branch] at hok
    have hd : d ≤ 63 / k := by rw [Nat.le_div_iff_mul_le hk]; omega
    have key : depthAll (arr.map (HNode.dbg fk fv)) ≤ 3 * (63 / k + 1 - (d + 1)) + 2 * c + w + 5 := by
      refine depthAll_le.2 ?_
      simp only [List.mem_map, forall_exists_index, and_imp, forall_apply_eq_imp_iff₂]
      intro n' hmem
      obtain ⟨p, -, hp⟩ := SparseArray.forall₂_mem hok.2 hmem
      have hsub : n'.entries.Sublist (HNode.branch bm arr).entries := by
        rw [HNode.entries_branch]
        obtain ⟨l1, l2, rfl⟩ := List.append_of_mem hmem
        rw [List.flatMap_append, List.flatMap_cons]
        exact (List.sublist_append_left _ _).trans (List.sublist_append_right _ _)
      refine ih n' hmem (d + 1) hp.ok ?_ fun h => Nat.le_trans ((hsub.map _).count_le h) (hc h)
      intro j hj x hx y hy
      rcases Nat.lt_or_ge j d with hjd | hjd
      · exact hsame j hjd x (hsub.subset hx) y (hsub.subset hy)
      · have : j = d := by omega
        subst this
        rw [hp.pos x hx, hp.pos y hy]
    simp only [HNode.dbg, depth, depthAll, HNode.dbgAll_eq, Dbg.nat]
    omega
  | hl b =>
    intro d hok hsame hc
    cases b with
    | single x =>
      have := HEntry.dbg_depth hfk hfv x
      simp only [HNode.dbg, Bucket.dbg, depth, depthAll]
      omega
    | collision r =>
      rw [HNode.OK] at hok
      simp only [HNode.entries_leaf, Bucket.entries] at hsame hc
      have hlen : r.head.toList.length ≤ c := by
        cases hl : r.head.toList with
        | nil => exact Nat.zero_le _
        | cons x xs =>
          rw [hl] at hsame hc
          refine Nat.le_trans (Nat.le_of_eq ?_) (hc x.keyHash)
          rw [List.count_eq_length.2]
          · simp
          · intro y hy
            obtain ⟨z, hz, rfl⟩ := List.mem_map.1 hy
            exact HNode.hash_eq_of_idx hk hok.1 fun j hj => hsame j hj x (by simp) z hz
      have := (RList.Rep.dbg_depth hok.2.1 (f := HEntry.dbg fk fv) (d := w + 2) (fun x _ => HEntry.dbg_depth hfk hfv x) (by omega)).2
      simp only [HNode.dbg, Bucket.dbg, depth, depthAll]
      omega

/-- A bound for the depth of a map: the levels, the list of entries with equal hashes, and the values. -/
theorem HTMap.Rep.dbg_depth {A : Arch} {o : HashKeys H K Q} {k : Nat} {m : HTMap H K V} {l : List (K × V)} (r : m.Rep A o k l) {w : Nat}
    {fk : K → Dbg} {fv : V → Dbg} {fh : H → Dbg} (hfk : ∀ x, (fk x).depth ≤ w) (hfv : ∀ x, (fv x).depth ≤ w) (hfh : ∀ x, (fh x).depth ≤ w) :
    (m.dbg fk fv fh).depth ≤ 3 * (63 / k + 1) + 2 * Heap.HT.crowd (l.map fun x => o.hashK m.hasher x.1) + w + 6 := by
  have h1 := HNode.dbg_depth (c := Heap.HT.crowd (l.map fun x => o.hashK m.hasher x.1)) r.conf.pos hfk hfv m.root 0 r.ok
    (fun j hj => absurd hj (by omega)) (Heap.HT.crowd_le_iff.1 (Nat.le_of_eq (Heap.HT.crowd_rep r)))
  have h2 := hfh m.hasher
  simp only [HTMap.dbg, depth, depthAll, Dbg.nat]
  omega

theorem RBMap.Rep.dbg_depth {o : OrdKeys K Q} {m : RBMap K V} {l : List (K × V)} (r : m.Rep o l) {w : Nat} {fk : K → Dbg} {fv : V → Dbg}
    (hfk : ∀ x, (fk x).depth ≤ w) (hfv : ∀ x, (fv x).depth ≤ w) :
    (m.dbg fk fv).depth ≤ 4 * Nat.log2 (l.length + 1) + w + 2 := by
  have h1 := RBTree.dbg_depth hfk hfv m.root
  have h2 : m.root.height ≤ 2 * Nat.log2 (l.length + 1) := by rw [← r.length]; exact r.ok.height_le
  simp only [RBMap.dbg, depth, depthAll, Dbg.nat]
  omega

theorem RVector.Rep.dbg_depth {A : Arch} {v : RVector T} {xs : List T} {h : Nat} (r : RVector.Rep A v xs h) {w : Nat} {f : T → Dbg}
    (hf : ∀ x, (f x).depth ≤ w) : (v.dbg f).depth ≤ 2 * (Nat.log2 xs.length / v.bits) + w + 3 := by
  have h1 := VNode.dbg_depth h v.root r.ok hf
  have h2 : h ≤ Nat.log2 xs.length / v.bits := by
    rcases r.tight with rfl | ht
    · exact Nat.zero_le _
    · rw [Nat.le_div_iff_mul_le r.bits_pos, Nat.mul_comm]
      exact (Nat.le_log2 (by have := Nat.two_pow_pos (v.bits * h); omega)).2 (Nat.le_of_lt ht)
  have h3 := Dbg.depth_pos (v.root.dbg f)
  simp only [RVector.dbg, depth, depthAll, Dbg.nat]
  omega

end Rpds
