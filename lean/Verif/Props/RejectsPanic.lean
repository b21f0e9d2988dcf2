import Verif.Props.PanicHeapHash
import Verif.Props.PanicVector
import Verif.Props.Rejects
/-
Wrong programs that C73 rejects: maps that clean up wrongly when user code panics.  Each is right as long as nothing panics.
-/
set_option autoImplicit false
namespace Rpds
namespace Props
namespace Rejects
open Heap HT Spec

/-- A client whose run faults refutes C73. -/
theorem faulty_heap_rejected {L H Op Ret σ : Type} {impl : Impl L H Op Ret} {byRef : Op → Bool} {new : σ} {step : σ → Op → Res (Ret × Effect σ)}
    {size : σ → Nat} (n : Nat) (cmds : List (Cmd Op)) (hx : (pureClient new step [] cmds).isOk = true)
    (hb : faults n (client impl [] cmds) = true) : ¬ SoundHeap impl byRef new step size := by
  intro h
  cases hp : pureClient new step [] cmds with
  | error e => simp [hp, Except.isOk, Except.toBool] at hx
  | ok x =>
    obtain ⟨hs, m, d, e, -⟩ := h.persistent (bump _) cmds x.1 x.2 hp
    exact not_runs hb e

theorem faulty_rejected {L H Op Ret σ : Type} {impl : Impl L H Op Ret} {byRef : Op → Bool} {new : σ} {step : σ → Op → Res (Ret × Effect σ)}
    {size : σ → Nat} (n : Nat) (cmds : List (Cmd Op)) (hb : faults n (client impl [] cmds) = true) :
    ¬ SoundMemory impl byRef new step size := by
  intro h
  obtain ⟨rs, ss, hp⟩ := h.total cmds
  exact faulty_heap_rejected n cmds (by rw [hp]; rfl) hb h.toSoundHeap

/-- So does one that leaves something in memory when it has discarded all handles. -/
theorem leaky_heap_rejected {L H Op Ret σ : Type} {impl : Impl L H Op Ret} {byRef : Op → Bool} {new : σ} {step : σ → Op → Res (Ret × Effect σ)}
    {size : σ → Nat} (n : Nat) (cmds : List (Cmd Op)) (hx : (pureClient new step [] cmds).map (fun x => x.2.all Option.isNone) = .ok true)
    (hb : (outcome (bump _) n (client impl [] cmds) []).any (fun y => y.2.1.any fun c => c.used) = true) :
    ¬ SoundHeap impl byRef new step size := by
  intro h
  cases hp : pureClient new step [] cmds with
  | error e => simp [hp, Except.map] at hx
  | ok x =>
    obtain ⟨hs, m, d, e, -, e2, -⟩ := h.counts (bump _) cmds x.1 x.2 hp
    simp only [hp, Except.map, Except.ok.injEq, List.all_eq_true] at hx
    cases e1 : outcome (bump _) n (client impl [] cmds) [] with
    | none => simp [e1] at hb
    | some y =>
      obtain ⟨-, e3, -⟩ := (runs_of_outcome e1).unique e
      simp only [e1, Option.any_some, e3, List.any_eq_true] at hb
      obtain ⟨c, hc, hu⟩ := hb
      obtain ⟨a, ha, rfl⟩ := List.mem_iff_getElem.mp hc
      have := e2 (fun s hs => by simpa using hx s hs) a
      rw [Heap.get, List.getElem?_eq_getElem ha] at this
      simp at this
      rw [this] at hu
      simp [Cell.used] at hu

theorem leaky_rejected {L H Op Ret σ : Type} {impl : Impl L H Op Ret} {byRef : Op → Bool} {new : σ} {step : σ → Op → Res (Ret × Effect σ)}
    {size : σ → Nat} (n : Nat) (cmds : List (Cmd Op)) (hx : (pureClient new step [] cmds).map (fun x => x.2.all Option.isNone) = .ok true)
    (hb : (outcome (bump _) n (client impl [] cmds) []).any (fun y => y.2.1.any fun c => c.used) = true) :
    ¬ SoundMemory impl byRef new step size :=
  fun h => leaky_heap_rejected n cmds hx hb h.toSoundHeap

/-- `RedBlackTreeMap` with some operations replaced. -/
def rbWith (f : RBUser Nat Nat Nat Nat → Nat → HRBMap → MapOp Nat Nat Nat → Option (Prog (RLabel Nat Nat) (Option (MapRet Nat Nat) × Effect HRBMap))) :
    Impl (RLabel Nat Nat) HRBMap (RBCall Nat Nat Nat Nat) (Option (MapRet Nat Nat)) :=
  { rbImplU Nat Nat Nat Nat dbg64 with step := fun m p => (f p.1 p.2.1 m p.2.2).getD (rbHStepU dbg64 p.1 p.2.1 m p.2.2) }

/-- `HashTrieMap` of degree 16 with some operations replaced. -/
def htWith (f : HTUser Nat Nat Nat Nat Nat → Nat → HHTMap Nat → MapOp Nat Nat Nat →
      Option (Prog (HLabel Nat Nat) (Option (MapRet Nat Nat) × Effect (HHTMap Nat)))) :
    Impl (HLabel Nat Nat) (HHTMap Nat) (HTCall Nat Nat Nat Nat Nat) (Option (MapRet Nat Nat)) :=
  { htImplX Nat Nat Nat Nat dbg64 0 16 with step := fun m p => (f p.1 p.2.1 m p.2.2).getD (htHStepX dbg64 p.1 p.2.1 m p.2.2) }

/-- C73 for red-black maps. -/
abbrev RBSound (impl : Impl (RLabel Nat Nat) HRBMap (RBCall Nat Nat Nat Nat) (Option (MapRet Nat Nat))) : Prop :=
  SoundMemory impl userByRef RBMap.new (fun m p => m.stepU dbg64 p.1 p.2.1 p.2.2) fun m => 2 * m.size

/-- C73 for hash maps. -/
abbrev HTSoundMem (impl : Impl (HLabel Nat Nat) (HHTMap Nat) (HTCall Nat Nat Nat Nat Nat) (Option (MapRet Nat Nat))) : Prop :=
  SoundMemory impl userByRef (⟨HNode.newEmptyBranch, 0, 16, 0⟩ : HTMap Nat Nat Nat) (fun m p => m.stepX dbg64 p.1 p.2.1 p.2.2)
    fun m => cells m.root

example : RBSound (rbImplU Nat Nat Nat Nat dbg64) := C73_rb_map_sound Nat Nat Nat Nat dbg64
example : HTSoundMem (htImplX Nat Nat Nat Nat dbg64 0 16) :=
  C73_hash_map_sound Nat Nat Nat Nat dbg64 (k := 4) ⟨by decide, by decide, by decide⟩ (by decide) 0

/-- `insert` that does not drop the new map when `Ord` panics. -/
def forgetsCopy := rbWith fun U s m op => match op with
  | .insert k v => some (Prog.bind m.clone fun new_map => Prog.bind (new_map.insertMutU U k v s) fun x =>
      match x.1 with
      | none => .ret (none, .keep)
      | some _ => .ret (some .unit, .fresh x.2))
  | _ => none

-- the copies of the nodes on the way stay in memory
theorem forgetsCopy_rejected : ¬ RBSound forgetsCopy :=
  leaky_rejected 400 [.new, .run 0 (exBomb, 9, .insertMut 1 10), .run 0 (exBomb, 9, .insertMut 2 20), .run 0 (exBomb, 1, .insert 4 40), .discard 0]
    (by decide +kernel) (by decide +kernel)

/-- `insert` that drops the old map instead of the new one when `Ord` panics. -/
def dropsOld := rbWith fun U s m op => match op with
  | .insert k v => some (Prog.bind m.clone fun new_map => Prog.bind (new_map.insertMutU U k v s) fun x =>
      match x.1 with
      | none => Prog.bind m.dropMap fun _ => .ret (none, .keep)
      | some _ => .ret (some .unit, .fresh x.2))
  | _ => none

-- the old map is used after it was freed
theorem dropsOld_rejected : ¬ RBSound dropsOld :=
  faulty_rejected 400 [.new, .run 0 (exBomb, 9, .insertMut 1 10), .run 0 (exBomb, 0, .insert 4 40), .run 0 (exBomb, 9, .get 1), .discard 0]
    (by decide +kernel)

/-- `insert_mut` that puts the old root back when `Ord` panics, as if nothing had been copied. -/
def restoresRoot := rbWith fun U s m op => match op with
  | .insertMut k v => some (Prog.bind (m.insertMutU U k v s) fun x =>
      match x.1 with
      | none => .ret (none, .update m)
      | some _ => .ret (some .unit, .update x.2))
  | _ => none

-- the old root is counted once less, for the handle that has it again
theorem restoresRoot_rejected : ¬ RBSound restoresRoot :=
  faulty_rejected 400 [.new, .run 0 (exBomb, 9, .insertMut 1 10), .run 0 (exBomb, 9, .clone), .run 1 (exBomb, 0, .insertMut 4 40), .discard 0,
    .run 1 (exBomb, 9, .get 1)] (by decide +kernel)

/-- `remove` that drops the new map twice when it panics. -/
def dropsTwice := htWith fun U s m op => match op with
  | .remove q => some (Prog.bind m.clone fun new_map => Prog.bind (new_map.removeMutX dbg64 U q s) fun x =>
      match x.1 with
      | none => Prog.bind x.2.dropMap fun _ => Prog.bind x.2.dropMap fun _ => .ret (none, .keep)
      | some true => .ret (some .unit, .fresh x.2)
      | some false => Prog.bind m.clone fun m' => Prog.bind x.2.dropMap fun _ => .ret (some .unit, .fresh m'))
  | _ => none

-- freed twice
theorem dropsTwice_rejected : ¬ HTSoundMem dropsTwice :=
  faulty_rejected 400 [.new, .run 0 (exHBomb Nat.toUInt64, 9, .insertMut 1 10), .run 0 (exHBomb Nat.toUInt64, 0, .remove 1), .run 0 (exHBomb Nat.toUInt64, 9, .get 1)]
    (by decide +kernel)

/-- `insert_mut` that takes the map apart first and forgets it when it panics, as a version that moves the root out of the map would. -/
def movesRoot := htWith fun U s m op => match op with
  | .insertMut k v => some (Prog.bind (m.insertMutX dbg64 U k v s) fun x =>
      match x.1 with
      | none => Prog.bind (HHTMap.newWithDegree dbg64 0 16) fun m' => .ret (none, .update m')
      | some _ => .ret (some .unit, .update x.2))
  | _ => none

-- what was in the map stays in memory
theorem movesRoot_rejected : ¬ HTSoundMem movesRoot :=
  leaky_rejected 400 [.new, .run 0 (exHBomb Nat.toUInt64, 9, .insertMut 1 10), .run 0 (exHBomb Nat.toUInt64, 0, .insertMut 1 40), .discard 0]
    (by decide +kernel) (by decide +kernel)

/-- `get_mut` that works on a copy which replaces the map at the end, and is not dropped when `Eq` or `Clone` panics. -/
def worksOnCopy := htWith fun U s m op => match op with
  | .getMut q f => some (Prog.bind m.clone fun m' => Prog.bind (m'.getMutX dbg64 U q f s) fun x =>
      match x.1 with
      | none => .ret (none, .update m)
      | some _ => Prog.bind m.dropMap fun _ => .ret (x.1.map .optV, .update x.2))
  | _ => none

theorem worksOnCopy_rejected : ¬ HTSoundMem worksOnCopy :=
  leaky_rejected 400 [.new, .run 0 (exHBomb Nat.toUInt64, 9, .insertMut 1 10), .run 0 (exHBomb Nat.toUInt64, 1, .getMut 1 (· + 1)), .discard 0]
    (by decide +kernel) (by decide +kernel)

/-- `Vector` with `get_mut` replaced. -/
def vecWith (f : VecUser Nat → HVector → Nat → (Nat → Nat) → Prog (VLabel Nat) (Option (RVector.Ret Nat) × Effect HVector)) :
    Impl (VLabel Nat) HVector (VecCall Nat) (Option (RVector.Ret Nat)) :=
  { vecImplU dbg64 Nat 1 with step := fun v p => match p.2 with
    | .getMut i g => f p.1 v i g
    | _ => vecHStepU dbg64 v p }

/-- C73 for vectors. -/
abbrev VecSoundMem (impl : Impl (VLabel Nat) HVector (VecCall Nat) (Option (RVector.Ret Nat))) : Prop :=
  SoundHeap impl vecUByRef (vecCap dbg64 1, ([] : List Nat)) vecStepU (fun s => 2 * s.2.length + Nat.log2 s.2.length + 1)

example : VecSoundMem (vecImplU dbg64 Nat 1) := (C73_vector_sound Nat dbg64 1 (by decide) (by decide)).1

/-- `get_mut` that puts the old root back when `Clone` panics. -/
def vecRestoresRoot := vecWith fun U v i g =>
  Prog.bind (v.modifyU dbg64 U.clone i g) fun o =>
    match o with
    | some (true, w) => .ret (some (.bool true), .update w)
    | some (false, _) => .ret (none, .update v)
    | none => .ret (some (.bool false), .keep)

-- the old root is counted once less, for the handle that has it again
theorem vecRestoresRoot_rejected : ¬ VecSoundMem vecRestoresRoot :=
  faulty_heap_rejected 400 [.new, .run 0 (exVecUser, .extend [10, 20, 30]), .run 0 (exVecUser, .clone), .run 1 (exVecUser, .getMut 2 (· + 5)),
    .discard 0, .run 1 (exVecUser, .get 0)] (by decide +kernel) (by decide +kernel)

/-- `get_mut` that takes the element out of its leaf, and puts the result back when `Clone` is done (for vectors of one leaf). -/
def vecTakesElement := vecWith fun U v i g =>
  if i ≥ v.length then .ret (some (.bool false), .keep)
  else
    Prog.bind (modifyPtr v.root fun c =>
      Prog.bind (lift (vecIndex c.2 i)) fun q =>
      Prog.bind (HNode.readVal q) fun x =>
        match U.clone x with
        | none => Prog.bind (drop q) fun _ => .ret (false, c.1, c.2.eraseIdx i)
        | some y => Prog.bind (modifyPtr q (HNode.modifyVal fun _ => g y)) fun z => .ret (true, c.1, c.2.set i z.2)) fun r =>
    .ret (if r.1 then some (.bool true) else none, .update { v with root := r.2 })

-- the vector has a length that its leaf does not have
theorem vecTakesElement_rejected : ¬ VecSoundMem vecTakesElement :=
  faulty_heap_rejected 400 [.new, .run 0 (exVecUser, .extend [10, 30]), .run 0 (exVecUser, .getMut 1 (· + 5)), .run 0 (exVecUser, .get 1)]
    (by decide +kernel) (by decide +kernel)

/-- `get_mut` that works on a copy which replaces the vector at the end, and is not dropped when `Clone` panics. -/
def vecWorksOnCopy := vecWith fun U v i g =>
  Prog.bind v.clone fun v' => Prog.bind (v'.modifyU dbg64 U.clone i g) fun o =>
    match o with
    | some (true, w) => Prog.bind (drop v.root) fun _ => .ret (some (.bool true), .update w)
    | some (false, _) => .ret (none, .update v)
    | none => Prog.bind (drop v.root) fun _ => .ret (some (.bool false), .keep)

theorem vecWorksOnCopy_rejected : ¬ VecSoundMem vecWorksOnCopy :=
  leaky_heap_rejected 400 [.new, .run 0 (exVecUser, .extend [10, 20, 30]), .run 0 (exVecUser, .getMut 2 (· + 5)), .discard 0]
    (by decide +kernel) (by decide +kernel)

end Rejects
end Props
end Rpds
