import Verif.Spec.Map
import Verif.Spec.Set
/-
Laws of the specifications used for collecting, deserialization and hashing.
-/
set_option autoImplicit false
namespace Rpds.Spec
variable {K V Q T E : Type}

theorem collectExcept_ok (xs : List T) : collectExcept (xs.map (Except.ok (ε := E))) = .ok xs := by
  induction xs with
  | nil => rfl
  | cons x xs ih => simp [collectExcept, ih]

theorem collectExcept_error (pre : List T) (e : E) (rest : List (Except E T)) :
    collectExcept (pre.map Except.ok ++ .error e :: rest) = .error e := by
  induction pre with
  | nil => rfl
  | cons x xs ih => simp [collectExcept, ih]

theorem seqEq_refl {eq : T → T → Bool} (hr : ∀ a, eq a a = true) (xs : List T) : seqEq eq xs xs = true := by
  induction xs <;> simp_all [seqEq]

/-- Every input of a deserialization is all values, or values up to a first error. -/
theorem except_cases (input : List (Except E T)) :
    (∃ xs : List T, input = xs.map Except.ok) ∨ ∃ (pre : List T) (e : E) (rest : _), input = pre.map Except.ok ++ .error e :: rest := by
  induction input with
  | nil => exact .inl ⟨[], rfl⟩
  | cons x input ih =>
    cases x with
    | error e => exact .inr ⟨[], e, input, rfl⟩
    | ok x =>
      rcases ih with ⟨xs, rfl⟩ | ⟨pre, e, rest, rfl⟩
      · exact .inl ⟨x :: xs, rfl⟩
      · exact .inr ⟨x :: pre, e, rest, rfl⟩

/-- Inserting pairs one after the other. -/
theorem foldl_mapInsert_distinct {same : K → K → Bool} (he : LawfulEquiv same) (kvs acc : List (K × V))
    (h : Distinct same (acc ++ kvs)) : kvs.foldl (fun l p => mapInsert same l p.1 p.2) acc = kvs.reverse ++ acc := by
  induction kvs generalizing acc with
  | nil => rfl
  | cons p kvs ih =>
    have hf : acc.filter (fun x => !same x.1 p.1) = acc := by
      rw [List.filter_eq_self]
      intro x hx
      have := (List.pairwise_append.1 h).2.2 x hx p (by simp)
      simp [this]
    have hp : (acc ++ p :: kvs).Perm ((p :: acc) ++ kvs) := List.perm_middle
    rw [List.foldl_cons, mapInsert, hf, ih _ (Distinct.perm he h hp)]
    simp

theorem foldl_setInsert_distinct {same : T → T → Bool} (he : LawfulEquiv same) (vs acc : List T)
    (h : (acc ++ vs).Pairwise fun a b => same a b = false) : vs.foldl (setInsert same) acc = vs.reverse ++ acc := by
  induction vs generalizing acc with
  | nil => rfl
  | cons p vs ih =>
    have hf : acc.filter (fun x => !same x p) = acc := by
      rw [List.filter_eq_self]
      intro x hx
      have := (List.pairwise_append.1 h).2.2 x hx p (by simp)
      simp [this]
    have hp : (acc ++ p :: vs).Perm ((p :: acc) ++ vs) := List.perm_middle
    rw [List.foldl_cons, setInsert, hf, ih _ (hp.pairwise h fun {a b} hab => by
      cases hb : same b a with
      | false => rfl
      | true => rw [he.symm _ _ hb] at hab; cases hab)]
    simp

/-- A lookup after inserting pairs finds the last pair with that key. -/
theorem mapGet_foldl_insert {same : K → K → Bool} {hits : K → Q → Bool} (hl : KeyLaws same hits) (kvs acc : List (K × V)) (q : Q) :
    mapGet hits (kvs.foldl (fun l p => mapInsert same l p.1 p.2) acc) q =
      (kvs.reverse.find? fun p => hits p.1 q).or (mapGet hits acc q) := by
  induction kvs generalizing acc with
  | nil => simp
  | cons p kvs ih =>
    rw [List.foldl_cons, ih, mapGet_insert hl, List.reverse_cons, List.find?_append, Option.or_assoc]
    congr 1
    cases hp : hits p.1 q <;> simp [hp]

theorem distinct_foldl_insert {same : K → K → Bool} (he : LawfulEquiv same) (kvs acc : List (K × V)) (h : Distinct same acc) :
    Distinct same (kvs.foldl (fun l p => mapInsert same l p.1 p.2) acc) := by
  induction kvs generalizing acc with
  | nil => exact h
  | cons p kvs ih => exact ih _ (h.insert he p.1 p.2)

/-- In a finite map, the pairs are exactly what looking up their keys finds. -/
theorem mem_iff_mapGet {same : K → K → Bool} (he : LawfulEquiv same) {l : List (K × V)} (h : Distinct same l) (p : K × V) :
    p ∈ l ↔ mapGet same l p.1 = some p := by
  constructor
  · intro hp
    refine find?_unique ?_ hp (he.refl _)
    refine h.imp ?_
    intro a b hab ⟨h1, h2⟩
    rw [he.trans _ _ _ h1 (he.symm _ _ h2)] at hab
    cases hab
  · intro hp
    exact List.mem_of_find?_eq_some hp

theorem foldl_unitPairs (same : T → T → Bool) (vs acc : List T) :
    unitPairs (vs.foldl (setInsert same) acc) = (unitPairs vs).foldl (fun l p => mapInsert same l p.1 p.2) (unitPairs acc) := by
  induction vs generalizing acc with
  | nil => rfl
  | cons v vs ih => rw [List.foldl_cons, ih, ← unitPairs_insert]; rfl

/-- A lookup after inserting elements finds the last equal element. -/
theorem setGet_foldl_insert {same : T → T → Bool} {hits : T → Q → Bool} (hl : KeyLaws same hits) (vs : List T) (q : Q) :
    setGet hits (vs.foldl (setInsert same) []) q = vs.reverse.find? fun p => hits p q := by
  have := mapGet_foldl_insert hl (unitPairs vs) [] q
  rw [show ([] : List (T × Unit)) = unitPairs [] from rfl, ← foldl_unitPairs, unitPairs_get] at this
  rw [unitPairs, ← List.map_reverse, List.find?_map] at this
  cases h1 : setGet hits (vs.foldl (setInsert same) []) q <;>
    cases h2 : vs.reverse.find? (fun p => hits p q) <;> simp_all [Function.comp_def, mapGet, unitPairs]

/-- The stream fed to the hasher by a sequence of elements: the length, then the elements. -/
def hashStream {α β : Type} (encN : Nat → List β) (enc : α → List β) (xs : List α) : List β := encN xs.length ++ xs.flatMap enc

/-- With uniquely decodable encodings of lengths and elements, a stream determines the elements in front of any continuation. -/
theorem hashStream_inj {α β : Type} {encN : Nat → List β} {enc : α → List β} {eq : α → α → Bool}
    (hN : PrefixFree encN (fun a b => a == b)) (he : PrefixFree enc eq) (xs ys : List α) (s t : List β)
    (h : hashStream encN enc xs ++ s = hashStream encN enc ys ++ t) : seqEq eq xs ys = true ∧ s = t := by
  simp only [hashStream, List.append_assoc] at h
  obtain ⟨h1, h2⟩ := hN _ _ _ _ h
  exact flatMap_prefixFree he xs ys (by simpa using h1) s t h2

/-- Encodings of the components of a pair give an encoding of the pair. -/
theorem PrefixFree.pair {α α' β : Type} {enc : α → List β} {enc' : α' → List β} {eq : α → α → Bool} {eq' : α' → α' → Bool}
    (h : PrefixFree enc eq) (h' : PrefixFree enc' eq') :
    PrefixFree (fun p : α × α' => enc p.1 ++ enc' p.2) fun p p' => eq p.1 p'.1 && eq' p.2 p'.2 := by
  intro a b s t e
  simp only [List.append_assoc] at e
  obtain ⟨h1, h2⟩ := h _ _ _ _ e
  obtain ⟨h3, h4⟩ := h' _ _ _ _ h2
  exact ⟨by simp [h1, h3], h4⟩

end Rpds.Spec
