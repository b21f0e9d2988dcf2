import Verif.Spec.HashOrder
/-
The trie of a collection of hashes, said without reference to the operations that build it.
-/
set_option autoImplicit false
namespace Rpds.Spec

/-- A trie with the entries forgotten: a bucket keeps its hash and the number of its entries, a branch the occupied positions. -/
inductive Trie where
  | bucket (hash : UInt64) (entries : Nat)
  | branch (children : List (Nat × Trie))

mutual
/-- Equality of tries, as a test. -/
def Trie.same : Trie → Trie → Bool
  | .bucket h n, .bucket h' n' => h == h' && n == n'
  | .branch cs, .branch cs' => Trie.sameAll cs cs'
  | _, _ => false
/-- Equality of lists of children, as a test. -/
def Trie.sameAll : List (Nat × Trie) → List (Nat × Trie) → Bool
  | [], [] => true
  | (i, t) :: cs, (i', t') :: cs' => i == i' && t.same t' && Trie.sameAll cs cs'
  | _, _ => false
end

mutual
theorem Trie.same_iff : ∀ (t t' : Trie), t.same t' = true ↔ t = t'
  | .bucket h n, .bucket h' n' => by simp [Trie.same]
  | .branch cs, .branch cs' => by simp [Trie.same, Trie.sameAll_iff cs cs']
  | .bucket _ _, .branch _ => by simp [Trie.same]
  | .branch _, .bucket _ _ => by simp [Trie.same]
theorem Trie.sameAll_iff : ∀ (cs cs' : List (Nat × Trie)), Trie.sameAll cs cs' = true ↔ cs = cs'
  | [], [] => by simp [Trie.sameAll]
  | (i, t) :: cs, (i', t') :: cs' => by simp [Trie.sameAll, Trie.same_iff t t', Trie.sameAll_iff cs cs']
  | [], _ :: _ => by simp [Trie.sameAll]
  | _ :: _, [] => by simp [Trie.sameAll]
end

instance : DecidableEq Trie := fun t t' => decidable_of_iff _ (Trie.same_iff t t')

/-- The children of a branch that divides `hashes` by their `d`-th group of `k` bits: one for each group that occurs, in order. -/
def branchOf (k d : Nat) (child : List UInt64 → Trie) (hashes : List UInt64) : List (Nat × Trie) :=
  (List.range (2 ^ k)).filterMap fun i =>
    match hashes.filter fun h => fragment k d h == i with
    | [] => none
    | h :: hs => some (i, child (h :: hs))

/-- What is below a branch, for hashes that agree in the first `d` groups: a bucket if there is one hash or the bits are used up, otherwise
a branch that divides them by the next group. -/
def trieOf (k : Nat) : (fuel d : Nat) → List UInt64 → Trie
  | 0, _, _ => .branch []
  | fuel + 1, d, hs =>
    match hs with
    | [] => .branch []
    | [h] => .bucket h 1
    | h :: h' :: hs =>
      if 64 ≤ d * k then .bucket h (hs.length + 2) else .branch (branchOf k d (trieOf k fuel (d + 1)) (h :: h' :: hs))

/-- The whole trie; the root is always a branch. -/
def rootOf (k : Nat) (hashes : List UInt64) : Trie := .branch (branchOf k 0 (trieOf k 65 1) hashes)

end Rpds.Spec
