import Verif.Heap.RedBlackPanicMap
import Verif.Heap.Weights
import Verif.Props.FootprintShared
import Verif.Props.OrderShared
import Verif.Props.HeapTrees
import Verif.Props.PanicSets
/-
Property C73: memory stays sound whatever the user code that is called by maps and sets does.
-/
set_option autoImplicit false
namespace Rpds
namespace Props
open Heap Spec

section
variable {L H Op Ret σ : Type}

/-- Whatever operations are run, and whatever user code they come with:
* an operation on one handle leaves all others alone (`persistent`);
* every reference count is the number of pointers, nothing is freed twice, used after it was freed or leaked (`counts`);
* threads with handles of their own (`threads`) or with handles lent to them (`share`) do not notice each other, also with the memory
  orderings of `Arc` (`orderings`);
* the memory in use is bounded by the contents of the handles (`memory`, `memoryShared`). -/
structure SoundHeap (impl : Impl L H Op Ret) (byRef : Op → Bool) (new : σ) (step : σ → Op → Res (Ret × Effect σ)) (size : σ → Nat) :
    Prop where
  persistent : Persistent impl new step
  counts : CountsExact impl new step
  threads : ThreadsIndependent impl new step
  share : ThreadsShare impl byRef new step
  orderings : SharesWeakly impl byRef new step
  memory : MemoryFollows impl new step size
  memoryShared : MemoryFollowsShared impl byRef new step size

/-- Besides, every sequence of operations has an outcome, also in the threads that get handles afterwards (`total`, `totalThreads`). -/
structure SoundMemory (impl : Impl L H Op Ret) (byRef : Op → Bool) (new : σ) (step : σ → Op → Res (Ret × Effect σ)) (size : σ → Nat) :
    Prop extends SoundHeap impl byRef new step size where
  total : ∀ cmds : List (Cmd Op), ∃ rs ss, pureClient new step [] cmds = .ok (rs, ss)
  totalThreads : ∀ (setup : List (Cmd Op)) (rs : List (Option Ret)) (ss : List (Option σ)), pureClient new step [] setup = .ok (rs, ss) →
    ∀ (sh : Nat → Bool) (owner : Nat → Nat) (i : Nat) (cmds : List (Cmd Op)),
      (∃ rs' ss', pureClient new step (handlesOf owner i ss) cmds = .ok (rs', ss')) ∧
      (∃ rs' ss', pureClient new step (lentTo sh owner i ss) cmds = .ok (rs', ss'))

theorem heap_of_refines {impl : Impl L H Op Ret} {byRef : Op → Bool} {new : σ} {step : σ → Op → Res (Ret × Effect σ)}
    {R : H → σ → List (Item L) → Prop} {size : σ → Nat} (hr : ∀ A, impl.Refines A new step R) (hl : ∀ A, impl.Lends A step R byRef)
    (hw : ∀ x s ρ, R x s ρ → weight ρ ≤ size s) : SoundHeap impl byRef new step size where
  persistent := persistent_of_refines hr
  counts := counts_of_refines hr
  threads := threads_of_refines hr
  share := share_of_lends hr hl
  orderings := weakly_of_lends hr hl
  memory := memory_of_refines hr hw
  memoryShared := memory_of_lends hr hl hw

/-- Operations that always have an outcome, and keep to `P`. -/
def Always (P : σ → Prop) (step : σ → Op → Res (Ret × Effect σ)) : Prop :=
  ∀ s op, P s → ∃ r e, step s op = .ok (r, e) ∧ (e = .keep ∨ ∃ t, (e = .fresh t ∨ e = .update t) ∧ P t)

theorem pureClient_always {P : σ → Prop} {new : σ} {step : σ → Op → Res (Ret × Effect σ)} (hn : P new) (hs : Always P step)
    (cmds : List (Cmd Op)) : ∀ ss : List (Option σ), (∀ t, some t ∈ ss → P t) →
    ∃ rs ss', pureClient new step ss cmds = .ok (rs, ss') ∧ ∀ t, some t ∈ ss' → P t := by
  induction cmds with
  | nil => exact fun ss h => ⟨_, _, rfl, h⟩
  | cons c cmds ih =>
    intro ss h
    cases c with
    | new =>
      obtain ⟨rs, ss', h1, h2⟩ := ih (ss ++ [some new]) (fun t ht => by
        rcases List.mem_append.1 ht with ht | ht
        · exact h t ht
        · cases List.mem_singleton.1 ht; exact hn)
      exact ⟨_, _, by simp only [pureClient, h1]; rfl, h2⟩
    | run i op =>
      rcases hi : ss[i]? with _ | _ | s
      · obtain ⟨rs, ss', h1, h2⟩ := ih ss h
        exact ⟨_, _, by simp only [pureClient, hi, h1]; rfl, h2⟩
      · obtain ⟨rs, ss', h1, h2⟩ := ih ss h
        exact ⟨_, _, by simp only [pureClient, hi, h1]; rfl, h2⟩
      · obtain ⟨r, e, h3, h4⟩ := hs s op (h s (List.mem_of_getElem? hi))
        obtain ⟨rs, ss', h1, h2⟩ := ih (Effect.applyOpt ss i e) (fun t ht => by
          rcases h4 with rfl | ⟨u, rfl | rfl, h4⟩
          · exact h t ht
          · rcases List.mem_append.1 ht with ht | ht
            · exact h t ht
            · cases List.mem_singleton.1 ht; exact h4
          · rcases List.mem_or_eq_of_mem_set ht with ht | ht
            · exact h t ht
            · cases ht; exact h4)
        exact ⟨some r :: rs, ss', by simp only [pureClient, hi, h3, Res.ok_bind, h1], h2⟩
    | discard i =>
      rcases hi : ss[i]? with _ | _ | s
      · obtain ⟨rs, ss', h1, h2⟩ := ih ss h
        exact ⟨_, _, by simp only [pureClient, hi, h1]; rfl, h2⟩
      · obtain ⟨rs, ss', h1, h2⟩ := ih ss h
        exact ⟨_, _, by simp only [pureClient, hi, h1]; rfl, h2⟩
      · obtain ⟨rs, ss', h1, h2⟩ := ih (ss.set i none) (fun t ht => by
          rcases List.mem_or_eq_of_mem_set ht with ht | ht
          · exact h t ht
          · cases ht)
        exact ⟨_, _, by simp only [pureClient, hi, h1]; rfl, h2⟩

theorem mem_keepIf {p : Nat → Prop} [DecidablePred p] {xs : List (Option σ)} {t : σ} : ∀ {j : Nat}, some t ∈ keepIf p j xs → some t ∈ xs := by
  induction xs with
  | nil => intro j h; cases h
  | cons x xs ih =>
    intro j h
    rcases List.mem_cons.1 h with h | h
    · split at h
      · exact h ▸ List.mem_cons_self
      · cases h
    · exact List.mem_cons_of_mem _ (ih h)

theorem sound_of_refines {impl : Impl L H Op Ret} {byRef : Op → Bool} {new : σ} {step : σ → Op → Res (Ret × Effect σ)}
    {R : H → σ → List (Item L) → Prop} {size : σ → Nat} {P : σ → Prop} (hn : P new) (hs : Always P step)
    (hr : ∀ A, impl.Refines A new step R) (hl : ∀ A, impl.Lends A step R byRef) (hw : ∀ x s ρ, R x s ρ → weight ρ ≤ size s) :
    SoundMemory impl byRef new step size where
  total cmds := by
    obtain ⟨rs, ss, h, -⟩ := pureClient_always hn hs cmds [] (by simp)
    exact ⟨rs, ss, h⟩
  totalThreads setup rs ss he sh owner i cmds := by
    obtain ⟨rs', ss', h1, h2⟩ := pureClient_always hn hs setup [] (by simp)
    rw [he] at h1
    cases h1
    obtain ⟨rs1, ss1, h3, -⟩ := pureClient_always hn hs cmds (handlesOf owner i ss) (fun t ht => h2 t (mem_keepIf ht))
    obtain ⟨rs2, ss2, h4, -⟩ := pureClient_always hn hs cmds (lentTo sh owner i ss) (fun t ht => h2 t (mem_keepIf ht))
    exact ⟨⟨rs1, ss1, h3⟩, rs2, ss2, h4⟩
  toSoundHeap := heap_of_refines hr hl hw

end

/-! ### Red-black tree maps and sets -/

theorem rb_always (S K V Q : Type) (Ar : Arch) :
    Always (fun m : RBMap K V => ∃ l, m.Loose l) (fun m (p : RBCall S K V Q) => m.stepU Ar p.1 p.2.1 p.2.2) := by
  rintro m ⟨U, s, op⟩ ⟨l, hl⟩
  obtain ⟨r, e, f, h1, -, h2, -⟩ := hl.stepU Ar U s op
  refine ⟨r, e, h1, ?_⟩
  cases h2 with
  | keep => exact .inl rfl
  | fresh h => exact .inr ⟨_, .inl rfl, _, h⟩
  | update h => exact .inr ⟨_, .inr rfl, _, h⟩

theorem RBLooseIs_weight {K V : Type} {hm : HRBMap} {m : RBMap K V} {ρ : List (Item (RLabel K V))} (h : RBLooseIs hm m ρ) :
    weight ρ ≤ 2 * m.size := by
  obtain ⟨⟨⟨t, -, rfl, h1⟩, -⟩, l, hl⟩ := h
  rw [weight_optPtr, h1.weight, hl.list, hl.size]
  exact Nat.le_refl _

/-- C73 for `RedBlackTreeMap`: whatever `Ord` and `Clone` do at each call (each operation comes with code and state of its own), and if the
panics are caught and the maps used again. -/
theorem C73_rb_map_sound (S K V Q : Type) (Ar : Arch) :
    SoundMemory (rbImplU S K V Q Ar) userByRef (RBMap.new : RBMap K V) (fun m (p : RBCall S K V Q) => m.stepU Ar p.1 p.2.1 p.2.2)
      (fun m => 2 * m.size) :=
  sound_of_refines ⟨[], RBMap.new_loose⟩ (rb_always S K V Q Ar) (fun A => rbImplU_refines S K V Q Ar A) (fun A => rbImplU_lends S K V Q Ar A)
    fun _ _ _ h => RBLooseIs_weight h

/-- `RedBlackTreeSet` on the heap: every operation is one of its map. -/
def rbSetImplU (S T Q : Type) (Ar : Arch) : Impl (RLabel T Unit) HRBMap (RBSetCall S T Q) (Option (SetRet T)) :=
  (rbImplU S T Unit Q Ar).adapt (fun p => (p.1, p.2.1, p.2.2.onMap)) (Option.map MapRet.onSet)

/-- The operations of sets that take `&self`, with the user code. -/
def userSetByRef {U S T Q : Type} (p : U × S × SetOp T Q) : Bool := mapByRef (p.2.2.onMap : MapOp T Unit Q)

theorem rbSet_step {S T Q : Type} {Ar : Arch} (m : RBMap T Unit) (c : RBSet T) (p : RBSetCall S T Q) {r : Option (SetRet T)} {f : Effect (RBSet T)}
    (hm : m = c.map) (he : c.stepU Ar p.1 p.2.1 p.2.2 = .ok (r, f)) :
    ∃ e, (do let x ← m.stepU Ar p.1 p.2.1 p.2.2.onMap; .ok (x.1.map MapRet.onSet, x.2) : Res _) = .ok (r, e) ∧
      Effect.Rel (fun m c => m = c.map) e f := by
  subst hm
  unfold RBSet.stepU at he
  cases h : c.map.stepU Ar p.1 p.2.1 p.2.2.onMap with
  | error x => rw [h] at he; cases he
  | ok x =>
    rw [h] at he
    cases he
    obtain ⟨y, e⟩ := x
    refine ⟨e, rfl, ?_⟩
    cases e with
    | keep => exact .keep
    | fresh m' => exact .fresh rfl
    | update m' => exact .update rfl

theorem rbSet_always (S T Q : Type) (Ar : Arch) :
    Always (fun c : RBSet T => ∃ l, c.map.Loose l) (fun c (p : RBSetCall S T Q) => c.stepU Ar p.1 p.2.1 p.2.2) := by
  rintro c ⟨U, s, op⟩ hc
  obtain ⟨r, e, h1, h2⟩ := rb_always S T Unit Q Ar c.map (U, s, op.onMap) hc
  simp only at h1
  refine ⟨r.map MapRet.onSet, e.map fun m => ⟨m⟩, by simp only [RBSet.stepU, h1]; rfl, ?_⟩
  rcases h2 with rfl | ⟨t, rfl | rfl, h2⟩
  · exact .inl rfl
  · exact .inr ⟨_, .inl rfl, h2⟩
  · exact .inr ⟨_, .inr rfl, h2⟩

/-- A set on the heap is its map. -/
def RBSetLooseIs {T : Type} (hm : HRBMap) (c : RBSet T) (ρ : List (Item (RLabel T Unit))) : Prop := ∃ m, RBLooseIs hm m ρ ∧ m = RBSet.map c

theorem rbSetImplU_refines (S T Q : Type) (Ar : Arch) (A : Allocator (RLabel T Unit)) :
    (rbSetImplU S T Q Ar).Refines A (⟨RBMap.new⟩ : RBSet T) (fun c (p : RBSetCall S T Q) => c.stepU Ar p.1 p.2.1 p.2.2) RBSetLooseIs :=
  (Impl.RefinesIn.adapt (rbImplU_refines S T Unit Q Ar A) _ _).trans (S := fun m c => m = RBSet.map c) rfl
    fun m c p r f hm he => rbSet_step m c p hm he

theorem rbSetImplU_lends (S T Q : Type) (Ar : Arch) (A : Allocator (RLabel T Unit)) :
    (rbSetImplU S T Q Ar).Lends A (fun (c : RBSet T) (p : RBSetCall S T Q) => c.stepU Ar p.1 p.2.1 p.2.2) RBSetLooseIs userSetByRef :=
  (Impl.Lends.adapt (rbImplU_lends S T Unit Q Ar A) _ _).trans (S := fun m c => m = RBSet.map c)
    fun m c p r f hm he => rbSet_step m c p hm he

/-- C73 for `RedBlackTreeSet`. -/
theorem C73_rb_set_sound (S T Q : Type) (Ar : Arch) :
    SoundMemory (rbSetImplU S T Q Ar) userSetByRef (⟨RBMap.new⟩ : RBSet T) (fun c (p : RBSetCall S T Q) => c.stepU Ar p.1 p.2.1 p.2.2)
      (fun c => 2 * c.map.size) :=
  sound_of_refines (P := fun c : RBSet T => ∃ l, c.map.Loose l) ⟨[], RBMap.new_loose⟩ (rbSet_always S T Q Ar) (rbSetImplU_refines S T Q Ar)
    (rbSetImplU_lends S T Q Ar) (by rintro x c ρ ⟨m, h, rfl⟩; exact RBLooseIs_weight h)

/-- A map of three entries and a clone; the comparison panics while changing either of them, and inside `get_mut` the `Clone` of an entry;
then calls that finish. -/
def exBombCmds : List (Cmd (RBCall Nat Nat Nat Nat)) :=
  [.new, .run 0 (exBomb, 9, .insertMut 1 10), .run 0 (exBomb, 9, .insertMut 2 20), .run 0 (exBomb, 9, .insertMut 3 30),
    .run 0 (exBomb, 9, .clone), .run 0 (exBomb, 1, .insertMut 4 40), .run 0 (exBomb, 1, .insert 4 40), .run 1 (exBomb, 1, .removeMut 1),
    .run 1 (exBomb, 2, .getMut 3 (· + 1)), .run 1 (exBomb, 9, .getMut 3 (· + 1)), .run 0 (exBomb, 9, .get 3)]

-- the answers: four panics, and the clone was changed alone
example : (pureClient RBMap.new (fun m (p : RBCall Nat Nat Nat Nat) => m.stepU dbg64 p.1 p.2.1 p.2.2) [] exBombCmds).map (·.1) =
    .ok [none, some (some .unit), some (some .unit), some (some .unit), some (some .unit), some none, some none, some none, some none,
      some (some (.optV (some 30))), some (some (.optV (some 30)))] := by
  decide +kernel
-- on the heap the calls that panicked left copies of the nodes on their way, and the entries of the keys 1 and 2 are still shared
example : (outcome (bump _) 400 (client (rbImplU Nat Nat Nat Nat dbg64) [] exBombCmds) []).map (·.2.1) =
    some [.closed 2 (.entry 1 10) [], .closed 1 (.node .black true true) [2, 10, 5], .closed 2 (.entry 2 20) [],
      .closed 1 (.node .black false false) [0], .closed 1 (.entry 3 30) [], .closed 1 (.node .black false false) [11],
      .closed 1 (.node .black true true) [2, 3, 7], .closed 1 (.node .black false false) [4], .free, .free,
      .closed 1 (.node .black false false) [0], .closed 1 (.entry 3 31) []] := by
  decide +kernel
-- after the two are dropped nothing is left
example : (outcome (bump _) 800 (client (rbImplU Nat Nat Nat Nat dbg64) [] (exBombCmds ++ [.discard 0, .discard 1])) []).map (fun x => live x.2.1) =
    some 0 := by
  decide +kernel
-- one thread panics in its map while the other changes and drops its own
set_option synthInstance.maxSize 1000 in
example : (interleaved (rbImplU Nat Nat Nat Nat dbg64) 300 (exBombCmds.take 5)
    [[.run 0 (exBomb, 1, .insertMut 4 40), .run 0 (exBomb, 9, .get 4)], [.run 1 (exBomb, 2, .removeMut 3), .discard 1]]
    (List.replicate 60 [0, 1]).flatten).map (fun x => (x.1, live x.2)) =
    some ([some [some none, some (some (.optV none))], some [some (some (.bool true)), none]], 6) := by
  decide +kernel
-- one thread panics in a lent map while the other makes a new version of it
set_option synthInstance.maxSize 1000 in
example : (interleavedSharing (rbImplU Nat Nat Nat Nat dbg64) 300 (exBombCmds.take 4)
    [[.run 0 (exBomb, 1, .insert 4 40), .run 0 (exBomb, 9, .get 2)], [.run 0 (exBomb, 9, .remove 3), .run 1 (exBomb, 9, .size)]]
    (List.replicate 60 [0, 1]).flatten).map (fun x => (x.1, live x.2)) =
    some ([some [some none, some (some (.optV (some 20)))], some [some (some .unit), some (some (.nat 2))]], 8) := by
  decide +kernel

end Props
end Rpds
