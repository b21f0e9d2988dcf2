/-
The order in which a hash trie visits its entries, said in terms of the hash values only.
-/
set_option autoImplicit false
namespace Rpds.Spec

/-- The `n`-th group of `k` bits of a hash, counted from the least significant bits. -/
def fragment (k n : Nat) (h : UInt64) : Nat := h.toNat / 2 ^ (n * k) % 2 ^ k

/-- Hash `a` comes before hash `b`: at the first group of `k` bits where they differ, `a` has the smaller one. -/
def HashBefore (k : Nat) (a b : UInt64) : Prop :=
  ∃ n, (∀ j, j < n → fragment k j a = fragment k j b) ∧ fragment k n a < fragment k n b

theorem HashBefore.asymm {k : Nat} {a b : UInt64} (h : HashBefore k a b) : ¬ HashBefore k b a := by
  rintro ⟨m, m1, m2⟩
  obtain ⟨n, n1, n2⟩ := h
  rcases Nat.lt_trichotomy m n with g | g | g
  · rw [n1 m g] at m2; omega
  · subst g; omega
  · rw [m1 n g] at n2; omega

theorem HashBefore.irrefl {k : Nat} {a : UInt64} : ¬ HashBefore k a a := fun h => h.asymm h

end Rpds.Spec
