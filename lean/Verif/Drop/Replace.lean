import Verif.RedBlack.Panic
/-
`RedBlackTreeMap::insert_mut` of a key that is there, with `Ord` that does what it wants, when the `Drop` of the replaced pair panics.
-/
set_option autoImplicit false
namespace Rpds

namespace RBTree
variable {S K V Q : Type} {U : RBUser S K V Q} {k : K} {v : V}

/-- `ins` (red_black_tree_map/mod.rs:373-427) when the drop of the replaced pair panics: it is dropped by the assignment of the entry (395), which
writes the new one, and nothing is done on the way back.  `none` if nothing is replaced. -/
def insUD (U : RBUser S K V Q) (k : K) (v : V) : RBTree K V → S → Option (RBTree K V)
  | .none, _ => Option.none
  | .some e c l r, s =>
    match U.cmpK s k e.1 with
    | (Option.none, _) => Option.none
    | (Option.some .lt, s) => (insUD U k v l s).map fun l => .some e c l r
    | (Option.some .eq, _) => Option.some (.some (k, v) c l r)
    | (Option.some .gt, s) => (insUD U k v r s).map fun r => .some e c l r

theorem insDone_new {x : RBNode K V} {t : RBTree K V} {b : Bool} (h : insDone false true x = .ok (b, t)) : b = true := by
  simp only [insDone] at h
  cases hb : x.balance with
  | error e => simp [hb] at h
  | ok y => simp [hb] at h; exact h.1

theorem insUD_iff (t t' : RBTree K V) (s : S) : insUD U k v t s = Option.some t' ↔ ∃ s', insU U k v t false s = .ok (Option.some false, t', s') := by
  induction t generalizing t' s with
  | none => simp [insUD, insU]
  | some e c l r ihl ihr =>
    simp only [insUD, insU]
    rcases U.cmpK s k e.1 with ⟨_ | x, s1⟩
    · simp
    cases x with
    | eq => simp [insDone, RBNode.ptr]
    | lt =>
      simp only
      constructor
      · intro h
        cases hl : insUD U k v l s1 with
        | none => simp [hl] at h
        | some l' =>
          obtain ⟨s', h1⟩ := (ihl l' s1).1 hl
          simp only [hl, Option.map_some, Option.some.injEq] at h
          subst h
          exact ⟨s', by rw [h1]; rfl⟩
      · rintro ⟨s', h⟩
        rcases hl : insU U k v l false s1 with _ | ⟨_ | _ | _, l', s2⟩
        · simp [hl] at h
        · simp [hl] at h
        · rw [(ihl l' s1).2 ⟨s2, hl⟩]
          rw [hl] at h
          cases h
          rfl
        · rw [hl] at h
          simp only [Res.ok_bind] at h
          rcases hd : insDone false true ⟨e, c, l', r⟩ with _ | ⟨b, t2⟩
          · simp [hd] at h
          · rw [hd] at h
            have := insDone_new hd
            subst this
            cases h
    | gt =>
      simp only
      constructor
      · intro h
        cases hl : insUD U k v r s1 with
        | none => simp [hl] at h
        | some r' =>
          obtain ⟨s', h1⟩ := (ihr r' s1).1 hl
          simp only [hl, Option.map_some, Option.some.injEq] at h
          subst h
          exact ⟨s', by rw [h1]; rfl⟩
      · rintro ⟨s', h⟩
        rcases hl : insU U k v r false s1 with _ | ⟨_ | _ | _, r', s2⟩
        · simp [hl] at h
        · simp [hl] at h
        · rw [(ihr r' s1).2 ⟨s2, hl⟩]
          rw [hl] at h
          cases h
          rfl
        · rw [hl] at h
          simp only [Res.ok_bind] at h
          rcases hd : insDone false true ⟨e, c, l, r'⟩ with _ | ⟨b, t2⟩
          · simp [hd] at h
          · rw [hd] at h
            have := insDone_new hd
            subst this
            cases h

theorem blacken_of_black {t : RBTree K V} (h : t.NotRed) : t.blacken = t := by
  cases t with
  | none => rfl
  | some e c l r =>
    cases c with
    | black => rfl
    | red => exact absurd rfl h

theorem insUD_notRed {t t' : RBTree K V} {s : S} (h : t.NotRed) (hd : insUD U k v t s = Option.some t') : t'.NotRed := by
  cases t with
  | none => simp [insUD] at hd
  | some e c l r =>
    simp only [insUD] at hd
    split at hd
    · cases hd
    · simp only [Option.map_eq_some_iff] at hd
      obtain ⟨_, -, rfl⟩ := hd
      exact h
    · cases hd; exact h
    · simp only [Option.map_eq_some_iff] at hd
      obtain ⟨_, -, rfl⟩ := hd
      exact h

end RBTree

/-- `RedBlackTreeMap::insert_mut` (848-854) when the drop of the replaced pair panics. -/
def RBMap.insertMutUD {S K V Q : Type} (U : RBUser S K V Q) (m : RBMap K V) (key : K) (value : V) (s : S) : Option (RBMap K V) :=
  (m.root.insUD U key value s).map fun root => { m with root }

theorem RBMap.Loose.insertMutUD_iff {S K V Q : Type} {m : RBMap K V} {l : List (K × V)} (h : m.Loose l) (U : RBUser S K V Q) (k : K) (v : V)
    (s : S) (m' : RBMap K V) : m.insertMutUD U k v s = some m' ↔ m.insertMutU U k v s = .ok (some (), m') ∧ m'.size = m.size := by
  simp only [RBMap.insertMutUD, RBMap.insertMutU, RBTree.insU_root]
  constructor
  · intro hd
    simp only [Option.map_eq_some_iff] at hd
    obtain ⟨t', hd, rfl⟩ := hd
    obtain ⟨s', h1⟩ := (RBTree.insUD_iff _ _ _).1 hd
    rw [h1]
    simp [Except.map, RBTree.rootDone, RBTree.blacken_of_black (RBTree.insUD_notRed h.shape.root hd)]
  · rintro ⟨h1, h2⟩
    rcases hi : RBTree.insU U k v m.root false s with _ | ⟨_ | _ | _, t', s'⟩
    · simp [hi, Except.map] at h1
    · simp [hi, Except.map, RBTree.rootDone] at h1
    · have hd := (RBTree.insUD_iff _ _ _).2 ⟨s', hi⟩
      rw [hi] at h1
      simp only [Except.map, RBTree.rootDone, Option.isSome_some, if_true, Res.ok_bind, RBTree.blacken_of_black (RBTree.insUD_notRed h.shape.root hd)] at h1
      cases h1
      rw [hd]; rfl
    · rw [hi] at h1
      simp only [Except.map, RBTree.rootDone, Option.isSome_some, if_true, Res.ok_bind] at h1
      cases h1
      simp at h2

end Rpds
