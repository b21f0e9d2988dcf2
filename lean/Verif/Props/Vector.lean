import Verif.Vector.BadBits
/-
Properties C08–C15: `Vector`.  `A` is the machine: build mode (overflow checks or wrapping) and word size.
-/
set_option autoImplicit false
namespace Rpds.Props
open RVector (Reach Rep)
variable {T U : Type}

/-- What a program sees when it iterates a vector to the end. -/
def vecItems (A : Arch) (v : RVector T) : Res (List T) := drain (VIter.next A) (v.len + 1) v.iter

theorem rep_vitems {A : Arch} {v : RVector T} {xs : List T} {h : Nat} (r : Rep A v xs h) : vecItems A v = .ok xs :=
  r.drives.drain (by simp [r.len])

/-- `new_with_bits(bits)` followed by `extend(items)`. -/
def vecBuild (A : Arch) (p : Nat × List T) : Res (RVector T) := do
  let v ← RVector.newWithBits p.1
  v.extend A p.2

/-- A 64 bit machine with overflow checks, for examples. -/
def dbg64 : Arch := ⟨.debug, 64⟩

/-! ### C08 -/

/-- C08.  Start from any vectors of any valid `bits`, and run any history of operations over any number of versions in which
no version outgrows the capacity.  Then the vectors give the answers of plain sequences, without panic, in debug and release
builds for any word size. -/
theorem C08_vector_refines_sequence (A : Arch) (inits : List (Nat × List T))
    (hin : ∀ p ∈ inits, 0 < p.1 ∧ p.1 < A.W ∧ p.2.length ≤ vecCap A p.1) :
    ∃ vs, inits.mapM (vecBuild A) = .ok vs ∧ ∀ (h : List (Nat × RVector.Op T)) answers seqs,
      runHistory Spec.vecStep (inits.map fun p => (vecCap A p.1, p.2)) h = .ok (answers, seqs) →
      ∃ versions, runHistory (RVector.step A) vs h = .ok (answers, versions) ∧
        List.Forall₂ (fun v s => vecItems A v = .ok s.2) versions seqs := by
  have h0 : ∃ vs, inits.mapM (vecBuild A) = .ok vs ∧
      List.Forall₂ (RVector.RepC A) vs (inits.map fun p => (vecCap A p.1, p.2)) := by
    induction inits with
    | nil => exact ⟨[], rfl, .nil⟩
    | cons p ps ih =>
      obtain ⟨vs, e1, e2⟩ := ih (fun q hq => hin q (by simp [hq]))
      obtain ⟨i1, i2, i3⟩ := hin p (by simp)
      obtain ⟨v, n1, n2, n3⟩ := RVector.newWithBits_rep (T := T) (A := A) i1 i2
      obtain ⟨w, h', n4, n5, n6⟩ := n2.extend p.2 (by rw [n3]; simpa using i3)
      refine ⟨w :: vs, by simp [List.mapM_cons, vecBuild, n1, n4, e1], .cons ⟨⟨h', by simpa using n5⟩, ?_⟩ e2⟩
      rw [n6, n3]
  obtain ⟨vs, e1, e2⟩ := h0
  refine ⟨vs, e1, ?_⟩
  intro h answers seqs hs
  obtain ⟨vs', e3, e4⟩ := runHistory_simP (R := RVector.RepC A) (step := RVector.step A) (spec := Spec.vecStep)
    (fun _ _ _ _ _ h1 h2 => h1.step h2) h _ _ _ _ e2 hs
  refine ⟨vs', e3, ?_⟩
  clear e3 hs e1 e2
  induction e4 with
  | nil => exact .nil
  | cons hr _ ih =>
    obtain ⟨⟨hh, hr⟩, _⟩ := hr
    exact .cons (rep_vitems hr) ih

/-- In debug builds the capacity is 2^60 items for the default `bits = 5` on 64 bit machines and 2^30 on 32 bit ones. -/
example : vecCap dbg64 5 = 2 ^ 60 ∧ vecCap ⟨.debug, 32⟩ 5 = 2 ^ 30 ∧ vecCap dbg64 1 = 2 ^ 63 ∧ vecCap ⟨.debug, 32⟩ 17 = 2 ^ 17 := by
  decide

/-- In release builds it is the largest `usize`. -/
example : vecCap ⟨.release, 64⟩ 5 = 2 ^ 64 - 1 ∧ vecCap ⟨.release, 32⟩ 17 = 2 ^ 32 - 1 := by decide

/-- A history with `bits = 1` that grows to three levels and shrinks again, on two versions. -/
example : runHistory (Spec.vecStep (T := Nat)) [(vecCap dbg64 1, [])]
      [(0, .extend [1, 2, 3, 4, 5]), (0, .dropLast), (1, .dropLastMut), (1, .dropLastMut), (1, .set 0 9), (2, .getMut 1 (· + 10)),
       (0, .get 4), (2, .iter [.back, .front, .front]), (0, .index 7), (0, .last)] =
    .ok ([some .unit, some (.bool true), some (.bool true), some (.bool true), some (.bool true), some (.bool true),
       some (.opt (some 5)), some (.calls 2 [(some 12, 1), (some 9, 0), (none, 0)]), some .panicked, some (.opt (some 5))],
      [(vecCap dbg64 1, [1, 2, 3, 4, 5]), (vecCap dbg64 1, [1, 2]), (vecCap dbg64 1, [9, 12])]) := by rfl

example : ((vecBuild dbg64 (1, ([] : List Nat))).bind fun v => (runHistory (RVector.step dbg64) [v]
      [(0, .extend [1, 2, 3, 4, 5]), (0, .dropLast), (1, .dropLastMut), (1, .dropLastMut), (1, .set 0 9), (2, .getMut 1 (· + 10)),
       (0, .get 4), (2, .iter [.back, .front, .front]), (0, .index 7), (0, .last)]).map Prod.fst) =
    .ok [some .unit, some (.bool true), some (.bool true), some (.bool true), some (.bool true), some (.bool true),
       some (.opt (some 5)), some (.calls 2 [(some 12, 1), (some 9, 0), (none, 0)]), some .panicked, some (.opt (some 5))] := by
  decide +kernel

/-! ### C09 -/

/-- C09.  Bounds: out of bounds accesses are refused (and `v[i]` panics) and change nothing; in bounds accesses succeed. -/
theorem C09_vector_bounds (A : Arch) (v : RVector T) (hv : Reach A v) (i : Nat) (x : T) (f : T → T) :
    (v.len ≤ i → v.get A i = .ok none ∧ v.modify A i f = .ok none ∧ v.set A i x = .ok none ∧ v.setMut A i x = .ok (false, v) ∧
      v.index A i = .error .assertFailed ∧ v.indexMut A i x = .error .assertFailed) ∧
    (i < v.len → (∃ y, v.get A i = .ok (some y) ∧ v.index A i = .ok y) ∧ (∃ w, v.modify A i f = .ok (some w)) ∧
      (∃ w, v.set A i x = .ok (some w)) ∧ (∃ w, v.setMut A i x = .ok (true, w)) ∧ ∃ w, v.indexMut A i x = .ok w) ∧
    (v.len = 0 → v.dropLast A = .ok none ∧ v.dropLastMut A = .ok (false, v)) ∧
    (0 < v.len → (∃ w, v.dropLast A = .ok (some w)) ∧ ∃ w, v.dropLastMut A = .ok (true, w)) := by
  obtain ⟨xs, h, r⟩ := hv.rep
  have hx0 : xs[i]? = none ↔ xs.length ≤ i := by simp
  rw [r.len]
  refine ⟨fun hi => ?_, fun hi => ?_, fun hi => ?_, fun hi => ?_⟩
  · have hg := r.get i
    rw [hx0.2 hi] at hg
    obtain ⟨w, s1, _, _, s2⟩ := r.setMut i x
    refine ⟨hg, ?_, ?_, ?_, ?_, ?_⟩
    · rcases r.modify i f with ⟨_, h2⟩ | ⟨w, y, h1, _⟩
      · exact h2
      · rw [hx0.2 hi] at h1; cases h1
    · rcases r.set i x with ⟨_, h2⟩ | ⟨w, h1, _⟩
      · exact h2
      · omega
    · rw [s1, s2 hi]; simp [hi]
    · simp [RVector.index, hg]
    · rcases r.modify i (fun _ => x) with ⟨_, h2⟩ | ⟨w, y, h1, _⟩
      · simp [RVector.indexMut, h2]
      · rw [hx0.2 hi] at h1; cases h1
  · have hg := r.get i
    have hxi : xs[i]? = some xs[i] := by simp [hi]
    rw [hxi] at hg
    obtain ⟨w, s1, _⟩ := r.setMut i x
    refine ⟨⟨xs[i], hg, by simp [RVector.index, hg]⟩, ?_, ?_, ⟨w, by rw [s1]; simp [hi]⟩, ?_⟩
    · rcases r.modify i f with ⟨h1, _⟩ | ⟨w, y, _, h2, _⟩
      · rw [hxi] at h1; cases h1
      · exact ⟨w, h2⟩
    · rcases r.set i x with ⟨h1, _⟩ | ⟨w, _, h2, _⟩
      · omega
      · exact ⟨w, h2⟩
    · rcases r.modify i (fun _ => x) with ⟨h1, _⟩ | ⟨w, y, _, h2, _⟩
      · rw [hxi] at h1; cases h1
      · exact ⟨w, by simp [RVector.indexMut, h2]⟩
  · have : xs = [] := by simpa using hi
    subst this
    exact ⟨(r.dropLast.resolve_right (by simp)).2, r.dropLastMut_nil⟩
  · have hne : xs ≠ [] := List.length_pos_iff.1 hi
    rcases r.dropLast with ⟨h1, _⟩ | ⟨w, _, _, h2, _⟩
    · exact absurd h1 hne
    · obtain ⟨w', _, h3, _⟩ := r.dropLastMut hne
      exact ⟨⟨w, h2⟩, w', h3⟩

/-- A concrete reachable vector of 5 items with `bits = 1` (three levels). -/
def vec5 : RVector Nat :=
  { root := .branch [.branch [.leaf [1, 2], .leaf [3, 4]], .branch [.leaf [5]]], bits := 1, length := 5 }

theorem vec5_reach : Reach dbg64 vec5 := by
  refine .update (v := { root := .leaf [], bits := 1, length := 0 }) (op := .extend [1, 2, 3, 4, 5]) (r := .unit)
    (.new (b := 1) (by decide) (by decide) rfl) (by decide) rfl

example : vec5.get dbg64 4 = .ok (some 5) ∧ vec5.get dbg64 5 = .ok none ∧ vec5.setMut dbg64 5 7 = .ok (false, vec5) ∧
    vec5.index dbg64 5 = .error .assertFailed := ⟨rfl, rfl, rfl, rfl⟩

/-! ### C10 -/

/-- C10.  Writing `f old` through `get_mut(i)` (or `x` through `IndexMut`) changes item `i` and nothing else. -/
theorem C10_vector_update_local (A : Arch) (v : RVector T) (hv : Reach A v) (i : Nat) (f : T → T) (y : T)
    (hy : v.get A i = .ok (some y)) :
    (∃ w, v.modify A i f = .ok (some w) ∧ w.len = v.len ∧ w.get A i = .ok (some (f y)) ∧
      (∀ j, j ≠ i → w.get A j = v.get A j) ∧
      ∃ xs, vecItems A v = .ok xs ∧ vecItems A w = .ok (xs.set i (f y))) ∧
    (∀ x, ∃ w, v.indexMut A i x = .ok w ∧ w.len = v.len ∧ w.get A i = .ok (some x) ∧ (∀ j, j ≠ i → w.get A j = v.get A j) ∧
      ∃ xs, vecItems A v = .ok xs ∧ vecItems A w = .ok (xs.set i x)) := by
  obtain ⟨xs, h, r⟩ := hv.rep
  rw [r.get] at hy
  have hy : xs[i]? = some y := by simpa using hy
  have hi := (List.getElem?_eq_some_iff.1 hy).1
  have main : ∀ g : T → T, ∃ w, v.modify A i g = .ok (some w) ∧ w.len = v.len ∧ w.get A i = .ok (some (g y)) ∧
      (∀ j, j ≠ i → w.get A j = v.get A j) ∧ ∃ xs, vecItems A v = .ok xs ∧ vecItems A w = .ok (xs.set i (g y)) := by
    intro g
    rcases r.modify i g with ⟨h1, _⟩ | ⟨w, z, h1, h2, h3, _⟩
    · rw [hy] at h1; cases h1
    · rw [hy] at h1; cases h1
      refine ⟨w, h2, by rw [h3.len, r.len]; simp, by rw [h3.get]; simp [hi], ?_, xs, rep_vitems r, rep_vitems h3⟩
      intro j hj
      rw [h3.get, r.get, List.getElem?_set_ne (by omega)]
  refine ⟨main f, fun x => ?_⟩
  obtain ⟨w, h1, h2, h3, h4, h5⟩ := main (fun _ => x)
  exact ⟨w, by simp [RVector.indexMut, h1], h2, h3, h4, h5⟩

example : vec5.get dbg64 2 = .ok (some 3) ∧
    ((vec5.modify dbg64 2 (· + 40)).bind fun w => match w with | some w => vecItems dbg64 w | none => .ok []) =
      .ok [1, 2, 43, 4, 5] := ⟨rfl, rfl⟩

/-! ### C11 -/

/-- C11.  Any interleaving of `next` and `next_back`: the answers, and the size hints before and after every call, are those of
a double-ended iteration over the items. -/
theorem C11_vector_iter_double_ended (A : Arch) (v : RVector T) (hv : Reach A v) (cs : List Spec.End) :
    ∃ xs, vecItems A v = .ok xs ∧ v.len = xs.length ∧ (∀ i, v.get A i = .ok xs[i]?) ∧ v.iter.sizeHint A = .ok xs.length ∧
      deCalls (VIter.next A) (VIter.nextBack A) (VIter.sizeHint A) cs v.iter = .ok (Spec.deRun xs cs) := by
  obtain ⟨xs, h, r⟩ := hv.rep
  have hr := VIter.rem_new r
  exact ⟨xs, rep_vitems r, r.len, r.get, VIter.sizeHint_ok hr, VIter.deCalls_ok hr cs⟩

example : deCalls (VIter.next dbg64) (VIter.nextBack dbg64) (VIter.sizeHint dbg64)
    [.front, .back, .back, .front, .front, .back, .front] vec5.iter =
    .ok [(some 1, 4), (some 5, 3), (some 4, 2), (some 2, 1), (some 3, 0), (none, 0), (none, 0)] := by rfl

/-! ### C12 -/

/-- C12.  No operation on a reachable vector panics, trips a debug assertion or overflows, as long as the vector does not
outgrow `vecCap`.  (`panicked` answers, the documented out-of-bounds panic of `v[i]`, are characterized in C09.) -/
theorem C12_vector_no_panic (A : Arch) (v : RVector T) (hv : Reach A v) (op : RVector.Op T)
    (hc : v.len + op.growth ≤ vecCap A v.bits) : ∃ r e, RVector.step A v op = .ok (r, e) := by
  obtain ⟨xs, h, r⟩ := hv.rep
  exact r.no_panic op hc

/-- C12, the limits in terms of the word size: `2^(bits * floor((W - 1) / bits))` items in every build, any `usize` in release builds,
although there the shift of `root_max_capacity` wraps around. -/
theorem C12_vector_capacity (A : Arch) (b : Nat) (hb : b < A.W) :
    2 ^ (b * ((A.W - 1) / b)) ≤ vecCap A b ∧ (A.mode = .release → vecCap A b = 2 ^ A.W - 1) :=
  ⟨le_vecCap hb, fun h => by simp only [vecCap, h]⟩

/-- C12, the limit is exact: pushing onto a vector of exactly `vecCap` items overflows the shift in `root_max_capacity` and
panics in debug builds. -/
theorem C12_vector_capacity_exact (A : Arch) (v : RVector T) (hv : Reach A v) (hd : A.mode = .debug)
    (hc : v.len = vecCap A v.bits) (x : T) : v.pushBackMut A x = .error .overflow ∧ v.pushBack A x = .error .overflow := by
  obtain ⟨xs, h, r⟩ := hv.rep
  rw [r.len] at hc
  exact ⟨r.full_push hd hc x, r.clone.full_push hd hc x⟩

/-- Such vectors exist on every machine: here on a (small) machine with 3 bit words, where it takes 4 items. -/
example : ∃ v : RVector Nat, Reach ⟨.debug, 3⟩ v ∧ v.len = vecCap ⟨.debug, 3⟩ v.bits ∧ v.pushBackMut ⟨.debug, 3⟩ 0 = .error .overflow :=
  ⟨{ root := .branch [.leaf [1, 2], .leaf [3, 4]], bits := 1, length := 4 },
   .update (v := { root := .leaf [], bits := 1, length := 0 }) (op := .extend [1, 2, 3, 4]) (r := .unit)
    (.new (b := 1) (by decide) (by decide) rfl) (by decide) rfl, by decide, by rfl⟩

/-- C12, the limit of release builds is exact: pushing onto a vector of `2^W - 1` items wraps the length around, and the vector says
that it is empty. -/
theorem C12_vector_release_wraps (A : Arch) (v : RVector T) (hv : Reach A v) (hm : A.mode = .release)
    (hc : v.len = vecCap A v.bits) (x : T) : ∃ w, v.pushBackMut A x = .ok w ∧ v.pushBack A x = .ok w ∧ w.len = 0 ∧
      ∀ i, w.get A i = .ok none := by
  obtain ⟨xs, h, r⟩ := hv.rep
  rw [r.len] at hc
  obtain ⟨w, h1, h2, -⟩ := r.full_push_release hm hc x
  exact ⟨w, h1, h1, h2, fun i => by simp [RVector.get, h2]⟩

/-- With `bits = 2` and 3 bit words a debug build takes 4 items and a release build 7.  The shift wraps from 5 items on. -/
example : (vecBuild ⟨.debug, 3⟩ (2, [1, 2, 3, 4])).isOk ∧ vecBuild ⟨.debug, 3⟩ (2, [1, 2, 3, 4, 5]) = .error .overflow ∧
    (do
      let v ← vecBuild ⟨.release, 3⟩ (2, [1, 2, 3, 4, 5, 6, 7])
      let w ← v.pushBackMut ⟨.release, 3⟩ 8
      pure (← v.rootMaxCapacity ⟨.release, 3⟩, ← vecItems ⟨.release, 3⟩ v, w.len, w.root.toList) : Res (Nat × List Nat × Nat × List Nat)) =
    .ok (2, [1, 2, 3, 4, 5, 6, 7], 0, [1, 2, 3, 4, 5, 6, 7, 8]) := by
  refine ⟨by decide +kernel, by rfl, by decide +kernel⟩

example : ∃ v : RVector Nat, Reach ⟨.release, 2⟩ v ∧ v.len = vecCap ⟨.release, 2⟩ v.bits :=
  ⟨{ root := .branch [.leaf [1, 2], .leaf [3]], bits := 1, length := 3 },
   .update (v := { root := .leaf [], bits := 1, length := 0 }) (op := .extend [1, 2, 3]) (r := .unit)
    (.new (b := 1) (by decide) (by decide) rfl) (by decide) rfl, by decide⟩

example : ∃ r e, RVector.step dbg64 vec5 (.pushBackMut 6) = .ok (r, e) := C12_vector_no_panic _ _ vec5_reach _ (by decide)

/-! ### C13 -/

/-- C13, the part that holds: `bits = 0` is refused, and every `bits` in `1 .. usize::BITS - 1` gives a vector to which C08 applies. -/
theorem C13_vector_bits_validated_partial (A : Arch) (b : Nat) :
    (b = 0 → RVector.newWithBits (T := T) b = .error .assertFailed) ∧
    (0 < b → b < A.W → ∃ v, RVector.newWithBits (T := T) b = .ok v ∧ Reach A v ∧ vecItems A v = .ok []) := by
  refine ⟨fun h => by subst h; rfl, fun h1 h2 => ?_⟩
  obtain ⟨v, e1, e2, _⟩ := RVector.newWithBits_rep (T := T) (A := A) h1 h2
  exact ⟨v, e1, .new h1 h2 e1, rep_vitems e2⟩

/-- C13 is violated by the code: `bits ≥ usize::BITS` is accepted, and then the first `push_back` panics in debug builds. -/
theorem C13_vector_bad_bits_debug (A : Arch) (hd : A.mode = .debug) (hW : 1 < A.W) (b : Nat) (hb : A.W ≤ b) (hb2 : b < 2 ^ A.W)
    (x : T) : ∃ v : RVector T, RVector.newWithBits b = .ok v ∧ v.pushBackMut A x = .error .overflow :=
  RVector.push_bad_bits_debug hd hW hb hb2 x

/-- C13 is violated by the code: in release builds `bits = 64` on a 64 bit machine silently loses items. After pushing 1 and
2 the vector claims to have two items and both are 2. -/
theorem C13_vector_bad_bits_release :
    (do
      let v ← RVector.newWithBits (T := Nat) 64
      let v ← v.pushBackMut ⟨.release, 64⟩ 1
      let v ← v.pushBackMut ⟨.release, 64⟩ 2
      let a ← v.get ⟨.release, 64⟩ 0
      let b ← v.get ⟨.release, 64⟩ 1
      pure (v.len, a, b) : Res (Nat × Option Nat × Option Nat)) = .ok (2, some 2, some 2) := by
  decide +kernel

/-- C13, how far a release build with `bits ≥ usize::BITS` works: as a sequence of at most `2^(bits mod usize::BITS)` items, whatever is done
with it. -/
theorem C13_vector_bad_bits_release_capacity (A : Arch) (hm : A.mode = .release) (hW : 0 < A.W) (b : Nat) (hb : A.W ≤ b) (hb2 : b < 2 ^ A.W) :
    ∃ v : RVector T, RVector.newWithBits b = .ok v ∧ ∀ (h : List (Nat × RVector.Op T)) answers seqs,
      runHistory Spec.vecStep [(2 ^ (b % A.W), [])] h = .ok (answers, seqs) →
      ∃ versions, runHistory (RVector.step A) [v] h = .ok (answers, versions) ∧
        List.Forall₂ (fun v s => vecItems A v = .ok s.2) versions seqs := by
  obtain ⟨v, e1, e2, e3⟩ := RVector.newWithBits_flat (T := T) hm hW hb hb2
  refine ⟨v, e1, fun h answers seqs hs => ?_⟩
  have h0 : List.Forall₂ (RVector.FlatC A) [v] [(2 ^ (b % A.W), [])] := .cons ⟨e2, by rw [e3]⟩ .nil
  obtain ⟨vs', e3, e4⟩ := runHistory_simP (R := RVector.FlatC A) (step := RVector.step A) (spec := Spec.vecStep)
    (fun _ _ _ _ _ h1 h2 => h1.step h2) h _ _ _ _ h0 hs
  refine ⟨vs', e3, ?_⟩
  clear e3 hs h0
  induction e4 with
  | nil => exact .nil
  | cons hr _ ih => exact .cons (hr.1.drives.drain (by simp [RVector.len, hr.1.length])) ih

/-- C13 is violated by the code, for every `bits ≥ usize::BITS` in release builds: the next `push_back` answers, but writes over an item.
The length counts one item more than iteration gives, and looking up any item between the first and the last panics. -/
theorem C13_vector_bad_bits_release_loses (A : Arch) (hm : A.mode = .release) (hW : 1 < A.W) (b : Nat) (hb : A.W ≤ b) (hb2 : b < 2 ^ A.W)
    (xs : List T) (hx : xs.length = 2 ^ (b % A.W)) (x : T) :
    ∃ v w j, vecBuild A (b, xs) = .ok v ∧ vecItems A v = .ok xs ∧ v.pushBackMut A x = .ok w ∧ w.len = xs.length + 1 ∧
      j < xs.length ∧ vecItems A w = .ok (xs.set j x) ∧ ∀ i, 0 < i → i < xs.length → w.get A i = .error .indexOutOfBounds := by
  obtain ⟨v, e1, e2, e3⟩ := RVector.newWithBits_flat (T := T) hm (by omega) hb hb2
  obtain ⟨v', f1, f2, f3⟩ := RVector.Flat.extend xs e2 (by rw [e3, ← hx]; simp)
  have hbits : v'.bits = b := by rw [f3, e3]
  obtain ⟨j, hj, g⟩ := f2.push_full hW (by rw [hbits, ← hx]; rfl) x
  simp only [List.nil_append] at hj g f2
  rw [hbits] at g
  have hl := f2.length_lt
  have hpos : 0 < xs.length := by omega
  have hl1 : xs.length + 1 < 2 ^ A.W := by
    have h1 : 2 ^ (b % A.W) ≤ 2 ^ (A.W - 1) := Nat.pow_le_pow_right (by decide) (by have := Nat.mod_lt b (show 0 < A.W by omega); omega)
    have h2 : 2 ^ A.W = 2 * 2 ^ (A.W - 1) := by rw [← Nat.pow_succ']; congr 1; omega
    have h3 : 2 ≤ 2 ^ (A.W - 1) := Nat.pow_le_pow_right (n := 2) (i := 1) (by decide) (by omega)
    omega
  refine ⟨v', _, j, by simp [vecBuild, e1, f1], f2.drives.drain (by simp [RVector.len, f2.length]), g, rfl, hj, ?_, fun i h0 hi => ?_⟩
  · have hd := RVector.overfull_drives (A := A) (b := b) (ys := xs.set j x) (by omega) hb (by simpa using hpos) (by simp [hx]) (by simpa using hl1)
    rw [List.length_set] at hd
    exact hd.drain (by rw [List.length_set]; show xs.length < xs.length + 1 + 1; omega)
  · have := RVector.overfull_get (A := A) (b := b) (ys := xs.set j x) hm (by omega) hb (by simpa using hx) h0 (by simpa using hi)
    rwa [List.length_set] at this

/-- On a 64 bit machine `bits = 65` is good for two items. -/
example : (do
      let v ← vecBuild ⟨.release, 64⟩ (65, [1, 2])
      let w ← v.pushBackMut ⟨.release, 64⟩ 3
      let is ← vecItems ⟨.release, 64⟩ w
      let a ← w.get ⟨.release, 64⟩ 0
      let c ← w.get ⟨.release, 64⟩ 2
      pure (is, w.len, a, c) : Res (List Nat × Nat × Option Nat × Option Nat)) = .ok ([3, 2], 3, some 3, some 3) := by
  decide +kernel
example : runHistory (Spec.vecStep (T := Nat)) [(2 ^ (65 % 64), [])] [(0, .extend [1, 2]), (0, .dropLast), (1, .pushBackMut 7), (1, .iter [.back, .front])] =
    .ok ([some .unit, some (.bool true), some .unit, some (.calls 2 [(some 7, 1), (some 1, 0)])], [(2, [1, 2]), (2, [1, 7])]) := by decide +kernel

example : ∃ v, RVector.newWithBits (T := Nat) 5 = .ok v ∧ Reach dbg64 v ∧ vecItems dbg64 v = .ok [] :=
  (C13_vector_bits_validated_partial dbg64 5).2 (by decide) (by decide)
example : ∃ v : RVector Nat, RVector.newWithBits 70 = .ok v ∧ v.pushBackMut dbg64 1 = .error .overflow :=
  C13_vector_bad_bits_debug dbg64 rfl (by decide) 70 (by decide) (by decide) 1

/-! ### C14 -/

/-- C14.  In a reachable vector of `n` items with degree `D = 2^bits` there is a number of levels `L` such that every leaf is at
depth `L`, all leaves but the last hold exactly `D` items, the leaves left to right hold the items of the vector, and
`n ≤ D^L`; and `L` is the least such number (`L = 1` or `D^(L-1) < n`), i.e. `L = max 1 ⌈log_D n⌉`. -/
theorem C14_vector_depth (A : Arch) (v : RVector T) (hv : Reach A v) :
    ∃ L init last, v.root.leaves = init ++ [last] ∧ (∀ p ∈ init ++ [last], p.1 = L) ∧
      (∀ p ∈ init, p.2.length = 2 ^ v.bits) ∧ last.2.length ≤ 2 ^ v.bits ∧
      vecItems A v = .ok (v.root.leaves.map Prod.snd).flatten ∧
      v.len ≤ (2 ^ v.bits) ^ L ∧ (L = 1 ∨ (2 ^ v.bits) ^ (L - 1) < v.len) := by
  obtain ⟨xs, h, r⟩ := hv.rep
  obtain ⟨init, last, e1, e2, _⟩ := VNode.leaves_full r.ok
  have hd := VNode.leaves_depth r.ok
  rw [e1] at hd
  refine ⟨h + 1, init, last, e1, hd, e2, ?_, ?_, ?_, ?_⟩
  · have key : ∀ (h : Nat) (n : VNode T), n.OK v.bits h → ∀ p ∈ n.leaves, p.2.length ≤ 2 ^ v.bits := by
      intro h
      induction h with
      | zero =>
        intro n hn
        obtain ⟨a, rfl, hl⟩ := hn.leaf_inv
        simpa [VNode.leaves] using hl
      | succ h ih =>
        intro n hn p hp
        obtain ⟨a, rfl, _, _, h3⟩ := hn.branch_inv
        rw [VNode.leaves_branch, List.mem_flatMap] at hp
        obtain ⟨c, hc, hp⟩ := hp
        rw [List.mem_map] at hp
        obtain ⟨q, hq, rfl⟩ := hp
        exact ih c (h3 c hc) q hq
    exact key h v.root r.ok last (by rw [e1]; simp)
  · rw [VNode.leaves_items r.ok, r.items, rep_vitems r]
  · rw [r.len, ← Nat.pow_mul]; exact r.length_le
  · rw [r.len, ← Nat.pow_mul, Nat.add_sub_cancel]
    rcases r.tight with h0 | h0
    · exact .inl (by omega)
    · exact .inr h0

example : vec5.root.leaves = [(3, [1, 2]), (3, [3, 4]), (3, [5])] ∧ 2 ^ 2 < vec5.len ∧ vec5.len ≤ 2 ^ 3 := by
  refine ⟨rfl, by decide, by decide⟩

/-! ### C15 -/

/-- C15.  Comparisons and hashing of two reachable vectors, of possibly different `bits`, are those of their item sequences:
elementwise equality, lexicographic order, and length followed by the items for hashing. -/
theorem C15_vector_comparisons_ignore_bits (A : Arch) (v w : RVector T) (hv : Reach A v) (hw : Reach A w)
    (eqT : T → T → Bool) (cmpT : T → T → Ordering) (pcmpT : T → T → Option Ordering)
    {S : Type} (hashUsize : S → Nat → S) (hashT : S → T → S) (s : S) :
    ∃ xs ys, vecItems A v = .ok xs ∧ vecItems A w = .ok ys ∧
      v.eq A eqT w = .ok (Spec.seqEq eqT xs ys) ∧ v.cmp A cmpT w = .ok (Spec.lexCmp cmpT xs ys) ∧
      v.partialCmp A pcmpT w = .ok (Spec.lexPartialCmp pcmpT xs ys) ∧
      v.hash A hashUsize hashT s = .ok (xs.foldl hashT (hashUsize s xs.length)) := by
  obtain ⟨xs, _, r⟩ := hv.rep
  obtain ⟨ys, _, r'⟩ := hw.rep
  exact ⟨xs, ys, rep_vitems r, rep_vitems r', r.eq r' _, r.cmp r' _, r.partialCmp r' _, r.hash _ _ _⟩

/-- C15, the laws: for a lawful element order, `==` holds exactly when `cmp` says `Equal` and when `partial_cmp` says
`Some(Equal)`; and equal vectors feed the same hash. -/
theorem C15_vector_eq_ord_hash_agree (A : Arch) (v w : RVector T) (hv : Reach A v) (hw : Reach A w)
    {eqT : T → T → Bool} {cmpT : T → T → Ordering} (hl : Spec.LawfulOrd cmpT eqT)
    {S : Type} (hashUsize : S → Nat → S) {hashT : S → T → S} (hh : ∀ s a b, eqT a b = true → hashT s a = hashT s b) (s : S) :
    (v.eq A eqT w = .ok true ↔ v.cmp A cmpT w = .ok .eq) ∧
    (v.eq A eqT w = .ok true ↔ v.partialCmp A (fun a b => some (cmpT a b)) w = .ok (some .eq)) ∧
    (v.eq A eqT w = .ok true → v.hash A hashUsize hashT s = w.hash A hashUsize hashT s) := by
  obtain ⟨xs, _, r⟩ := hv.rep
  obtain ⟨ys, _, r'⟩ := hw.rep
  have hiff := Spec.lexCmp_eq_iff xs ys hl.eq_iff
  rw [r.eq r', r.cmp r', r.partialCmp r', r.hash, r'.hash, Spec.lexPartialCmp_total]
  refine ⟨by simp [hiff], by simp [hiff], fun he => ?_⟩
  have he : Spec.seqEq eqT xs ys = true := by simpa using he
  rw [Spec.seqEq_length he, Spec.foldl_congr_seqEq hashT hh xs ys _ he]

/-- Two vectors with the same items and different `bits`. -/
example : ∃ v w : RVector Nat, v.bits = 1 ∧ w.bits = 5 ∧ Reach dbg64 v ∧ Reach dbg64 w ∧ v.eq dbg64 (· == ·) w = .ok true :=
  ⟨vec5, { root := .leaf [1, 2, 3, 4, 5], bits := 5, length := 5 }, rfl, rfl, vec5_reach,
    .update (v := { root := .leaf [], bits := 5, length := 0 }) (op := .extend [1, 2, 3, 4, 5]) (r := .unit)
    (.new (b := 5) (by decide) (by decide) rfl) (by decide) rfl, rfl⟩

end Rpds.Props
