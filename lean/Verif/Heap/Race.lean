import Verif.Heap.Depth
/-
The race in `Drop for List` (list/mod.rs:404-420) for lists shared between threads: two threads drop the last two handles
of a list; both `try_unwrap` fail because the other thread still holds the node; then both drop the pointer, and whoever
comes last frees the whole chain recursively, one nested destructor call per node.
-/
set_option autoImplicit false
namespace Rpds
namespace Heap
section
variable {T : Type}

/-- The allocator that never reuses memory. -/
def bump (L : Type) : Allocator L where
  pick h := h.length
  fresh h := by simp [get]

theorem get_put_ne {L : Type} {h : Mem L} {a b : Nat} {c : Cell L} (hab : b ≠ a) : get (put h a c) b = get h b := by
  rw [get_put, if_neg hab]

theorem length_put_end {L : Type} (h : Mem L) (c : Cell L) : put h h.length c = h ++ [c] := by
  induction h with
  | nil => rfl
  | cons d h ih => simp [put, ih]

theorem length_put_lt {L : Type} (h : Mem L) (a : Nat) (c : Cell L) (ha : a < h.length) : (put h a c).length = h.length := by
  induction h generalizing a with
  | nil => simp at ha
  | cons d h ih =>
    cases a with
    | zero => rfl
    | succ a => simp [put, ih a (by simpa using ha)]

theorem get_append_lt {L : Type} (h : Mem L) (c : Cell L) (a : Nat) (ha : a < h.length) : get (h ++ [c]) a = get h a := by
  simp [get, List.getElem?_append_left ha]

theorem get_append_eq {L : Type} (h : Mem L) (c : Cell L) : get (h ++ [c]) h.length = c := by
  simp [get]

/-- The pointers of node number `i` of the chain below. -/
def chainPtrs : Nat → List Addr
  | 0 => [0]
  | i + 1 => [2 * i + 2, 2 * i + 1]

/-- A memory with a list of `k` elements `v`, built by `push_front_mut` with `bump`; node number `i` is at `2i + 1`, its
element at `2i`. -/
structure Chain (v : T) (k : Nat) (h : Mem (LinLabel T)) : Prop where
  length : h.length = 2 * k
  node : ∀ i, i < k → get h (2 * i + 1) = .closed 1 .node (chainPtrs i)
  val : ∀ i, i < k → ∃ c, 0 < c ∧ get h (2 * i) = .closed c (.val v) []

/-- The handle of that list. -/
def chainList (k : Nat) : HList := { head := some (2 * k + 1), last := some 0, length := k + 1 }

theorem chain_first (v : T) :
    ∃ h, Runs (bump (LinLabel T)) (listHStep HList.new (.pushFrontMut v)) [] (.unit, .update (chainList 0)) h 0 ∧
      Chain v 1 h := by
  refine ⟨[.closed 2 (.val v) [], .closed 1 .node [0]], ⟨4, ?_⟩, rfl, ?_, ?_⟩
  · rfl
  · intro i hi
    obtain rfl : i = 0 := by omega
    rfl
  · intro i hi
    obtain rfl : i = 0 := by omega
    exact ⟨2, by omega, rfl⟩

theorem chain_push {v : T} {k : Nat} {h : Mem (LinLabel T)} (hc : Chain v (k + 1) h) :
    ∃ h', Runs (bump (LinLabel T)) (listHStep (chainList k) (.pushFrontMut v)) h
      (.unit, .update (chainList (k + 1))) h' 0 ∧ Chain v (k + 2) h' := by
  have hl := hc.length
  refine ⟨(h ++ [.closed 1 (.val v) []]) ++ [.closed 1 .node (chainPtrs (k + 1))], ⟨2, ?_⟩, by simp [hl]; omega, ?_, ?_⟩
  · have a1 : act (bump (LinLabel T)) (.new (.val v) []) h = .ok (2 * k + 2, h ++ [.closed 1 (.val v) []]) := by
      have : h.length = 2 * k + 2 := by omega
      simp only [act, bump, length_put_end]
      rw [this]
    have a2 : act (bump (LinLabel T)) (.new .node [2 * k + 2, 2 * k + 1]) (h ++ [.closed 1 (.val v) []]) =
        .ok (2 * (k + 1) + 1, (h ++ [.closed 1 (.val v) []]) ++ [.closed 1 .node [2 * k + 2, 2 * k + 1]]) := by
      simp only [act, bump, length_put_end]
      simp; omega
    have e : listHStep (T := T) (chainList k) (.pushFrontMut v) =
        .op (.new (.val v) []) fun a => .op (.new .node (a :: [2 * k + 1])) fun b =>
          .ret (.unit, .update { head := some b, last := some 0, length := k + 1 + 1 }) := by
      rfl
    rw [e]
    simp only [runAlone, Thread.start, Thread.step, a1, a2]
    rfl
  · intro i hi
    rcases Nat.lt_or_ge i (k + 1) with hlt | hge
    · rw [get_append_lt _ _ _ (by simp; omega), get_append_lt _ _ _ (by omega)]
      exact hc.node i hlt
    · obtain rfl : i = k + 1 := by omega
      have : 2 * (k + 1) + 1 = (h ++ [Cell.closed 1 (LinLabel.val v) []]).length := by simp; omega
      rw [this, get_append_eq]
  · intro i hi
    rcases Nat.lt_or_ge i (k + 1) with hlt | hge
    · rw [get_append_lt _ _ _ (by simp; omega), get_append_lt _ _ _ (by omega)]
      exact hc.val i hlt
    · obtain rfl : i = k + 1 := by omega
      refine ⟨1, by omega, ?_⟩
      rw [get_append_lt _ _ _ (by simp; omega)]
      have : 2 * (k + 1) = h.length := by omega
      rw [this, get_append_eq]

/-- The commands that build the list. -/
def pushes (v : T) (n : Nat) : List (Cmd (RList.Op T)) := List.replicate n (.run 0 (.pushFrontMut v))

theorem runs_pushes (v : T) (n k : Nat) {h : Mem (LinLabel T)} (hc : Chain v (k + 1) h) (cmds : List (Cmd (RList.Op T))) :
    ∃ h', Chain v (n + k + 1) h' ∧ ∀ rs hs h'' d,
      Runs (bump _) (client (listImpl T) [some (chainList (n + k))] cmds) h' (rs, hs) h'' d →
      ∃ rs', Runs (bump _) (client (listImpl T) [some (chainList k)] (pushes v n ++ cmds)) h (rs', hs) h'' d := by
  induction n generalizing k h with
  | zero =>
    refine ⟨h, by simpa using hc, ?_⟩
    intro rs hs h'' d hr
    exact ⟨rs, by simpa [pushes] using hr⟩
  | succ n ih =>
    obtain ⟨h1, e1, hc1⟩ := chain_push hc
    obtain ⟨h', hc', hrest⟩ := ih (k + 1) hc1
    refine ⟨h', by rw [show n + 1 + k + 1 = n + (k + 1) + 1 by omega]; exact hc', ?_⟩
    intro rs hs h'' d hr
    obtain ⟨rs', e2⟩ := hrest rs hs h'' d (by rw [show n + (k + 1) = n + 1 + k by omega]; exact hr)
    refine ⟨some .unit :: rs', ?_⟩
    have e3 := Runs.bind (f := fun (y : RList.Ret T × Effect HList) => Prog.bind (client (listImpl T)
      (Effect.applyOpt [some (chainList k)] 0 y.2) (pushes v n ++ cmds)) fun x => .ret (some y.1 :: x.1, x.2)) e1
      (Runs.bind e2 (Runs.ret _ _))
    simp only [Nat.zero_max, Nat.max_zero] at e3
    exact e3

/-- The whole set-up: a list of `n + 1` elements and a clone of it. -/
def raceSetup (v : T) (n : Nat) : List (Cmd (RList.Op T)) := .new :: (pushes v (n + 1) ++ [.run 0 .clone])

/-- A memory with that list, held twice. -/
structure Shared (v : T) (k : Nat) (h : Mem (LinLabel T)) : Prop where
  head : get h (2 * k + 1) = .closed 2 .node (chainPtrs k)
  node : ∀ i, i < k → get h (2 * i + 1) = .closed 1 .node (chainPtrs i)
  val : ∀ i, i ≤ k → ∃ c, 0 < c ∧ get h (2 * i) = .closed c (.val v) []

theorem runs_raceSetup (v : T) (n : Nat) :
    ∃ rs h, Runs (bump _) (client (listImpl T) [] (raceSetup v n)) [] (rs, [some (chainList n), some (chainList n)]) h 0 ∧
      Shared v n h := by
  obtain ⟨h1, e1, hc1⟩ := chain_first v
  obtain ⟨h2, hc2, hrest⟩ := runs_pushes v n 0 hc1 [.run 0 .clone]
  simp only [Nat.add_zero] at hc2 hrest
  obtain ⟨c, hc0, hv0⟩ := hc2.val 0 (by omega)
  have hn := hc2.node n (by omega)
  let h3 := put h2 (2 * n + 1) (.closed 2 .node (chainPtrs n))
  let h4 := put h3 0 (.closed (c + 1) (.val v) [])
  have g3 : get h3 0 = .closed c (.val v) [] := by
    show get (put h2 (2 * n + 1) _) 0 = _
    rw [get_put_ne (by omega)]
    exact hv0
  have eclone : Runs (bump _) (client (listImpl T) [some (chainList n)] [.run 0 .clone]) h2
      ([some .unit], [some (chainList n), some (chainList n)]) h4 0 := by
    have e : client (listImpl T) [some (chainList n)] [.run 0 .clone] =
        .op (.clone (2 * n + 1)) fun _ => .op (.clone 0) fun _ =>
          .ret ([some .unit], [some (chainList n), some (chainList n)]) := rfl
    rw [e]
    refine ⟨2, ?_⟩
    have a1 : act (bump (LinLabel T)) (.clone (2 * n + 1)) h2 = .ok ((), h3) := by simp [act, hn, h3]
    have a2 : act (bump (LinLabel T)) (.clone 0) h3 = .ok ((), h4) := by simp [act, g3, h4]
    simp only [runAlone, Thread.start, Thread.step, a1, a2]
  obtain ⟨rs', e2⟩ := hrest _ _ _ _ eclone
  refine ⟨none :: some .unit :: rs', h4, ?_, ?_, ?_, ?_⟩
  · have e3 := Runs.bind (f := fun (y : RList.Ret T × Effect HList) => Prog.bind (client (listImpl T)
      (Effect.applyOpt [some HList.new] 0 y.2) (pushes v n ++ [Cmd.run 0 RList.Op.clone])) fun x => .ret (some y.1 :: x.1, x.2)) e1
      (Runs.bind e2 (Runs.ret _ _))
    have e4 := Runs.bind (f := fun (l : HList) => Prog.bind (client (listImpl T)
      ([] ++ [some l]) (pushes v (n + 1) ++ [Cmd.run 0 RList.Op.clone])) fun x => .ret (none :: x.1, x.2))
      (Runs.ret HList.new []) (Runs.bind e3 (Runs.ret _ _))
    simp only [Nat.zero_max, Nat.max_zero] at e4
    exact e4
  · show get (put h3 0 _) _ = _
    rw [get_put_ne (by omega)]
    exact get_put_self _ _ _
  · intro i hi
    show get (put h3 0 _) _ = _
    rw [get_put_ne (by omega)]
    show get (put h2 _ _) _ = _
    rw [get_put_ne (by omega)]
    exact hc2.node i (by omega)
  · intro i hi
    by_cases h0 : i = 0
    · subst h0
      exact ⟨c + 1, by omega, get_put_self _ _ _⟩
    · obtain ⟨c', hp, hv⟩ := hc2.val i (by omega)
      refine ⟨c', hp, ?_⟩
      show get (put h3 0 _) _ = _
      rw [get_put_ne (by omega)]
      show get (put h2 _ _) _ = _
      rw [get_put_ne (by omega)]
      exact hv

/-- Freeing a chain nests one level per node. -/
theorem chain_free {α : Type} (A : Allocator (LinLabel T)) (v : T) (i : Nat) : ∀ (h : Mem (LinLabel T)) (d deep : Nat) (ps : List (Nat × Addr))
    (prog : Prog (LinLabel T) α), (∀ j, j ≤ i → get h (2 * j + 1) = .closed 1 .node (chainPtrs j)) →
    (∀ j, j ≤ i → ∃ c, 0 < c ∧ get h (2 * j) = .closed c (.val v) []) →
    ∃ n th h', runAlone A n ⟨(d, 2 * i + 1) :: ps, deep, prog⟩ h = .ok (th, h') ∧ d + i + 1 ≤ th.deepest := by
  induction i with
  | zero =>
    intro h d deep ps prog hn hv
    have h0 := hn 0 (Nat.le_refl 0)
    obtain ⟨c, hc, hv0⟩ := hv 0 (Nat.le_refl 0)
    simp only [Nat.mul_zero, Nat.zero_add] at h0 hv0
    have hv1 : get (put h 1 .free) 0 = .closed c (.val v) [] := by rw [get_put_ne (by omega)]; exact hv0
    obtain ⟨x, s2⟩ : ∃ x, decr 0 (put h 1 .free) = .ok ([], put (put h 1 .free) 0 x) := by
      simp only [decr, hv1]
      by_cases h1 : c = 1
      · exact ⟨.free, by simp [h1]⟩
      · exact ⟨.closed (c - 1) (.val v) [], by simp [h1]⟩
    refine ⟨2, ⟨ps, max (max deep d) (d + 1), prog⟩, put (put h 1 .free) 0 x, ?_, Nat.le_max_right _ _⟩
    simp [runAlone, Thread.step, decr, h0, chainPtrs] at s2 ⊢
    simp [s2]
  | succ i ih =>
    intro h d deep ps prog hn hv
    obtain ⟨c, hc, hv1⟩ := hv (i + 1) (Nat.le_refl _)
    have hn1 := hn (i + 1) (Nat.le_refl _)
    -- the cells of smaller nodes are not touched by freeing this node and its element
    have keep : ∀ (x : Cell (LinLabel T)) (b : Nat), b < 2 * (i + 1) →
        get (put (put h (2 * (i + 1) + 1) .free) (2 * (i + 1)) x) b = get h b := by
      intro x b hb
      rw [get_put_ne (by omega), get_put_ne (by omega)]
    have hv2 : get (put h (2 * (i + 1) + 1) .free) (2 * (i + 1)) = .closed c (.val v) [] := by
      rw [get_put_ne (by omega)]; exact hv1
    have s1 : decr (2 * (i + 1) + 1) h = .ok ([2 * (i + 1), 2 * i + 1], put h (2 * (i + 1) + 1) .free) := by
      simp only [decr, hn1, chainPtrs, if_true]
      rfl
    obtain ⟨x, s2⟩ : ∃ x, decr (2 * (i + 1)) (put h (2 * (i + 1) + 1) .free) =
        .ok ([], put (put h (2 * (i + 1) + 1) .free) (2 * (i + 1)) x) := by
      simp only [decr, hv2]
      by_cases h1 : c = 1
      · exact ⟨.free, by simp [h1]⟩
      · exact ⟨.closed (c - 1) (.val v) [], by simp [h1]⟩
    obtain ⟨n, th, h', e, hd⟩ := ih (put (put h (2 * (i + 1) + 1) .free) (2 * (i + 1)) x) (d + 1)
      (max (max deep d) (d + 1)) ps prog
      (by intro j hj; rw [keep _ _ (by omega)]; exact hn j (by omega))
      (by intro j hj; rw [keep _ _ (by omega)]; exact hv j (by omega))
    refine ⟨n + 2, th, h', ?_, by omega⟩
    simp only [runAlone, Thread.step, s1, s2, List.map_cons, List.map_nil, List.cons_append, List.nil_append]
    exact e

/-- A thread that makes all the steps. -/
theorem runThreads_replicate {L α : Type} (A : Allocator L) (n i : Nat) (ths : List (Thread L α)) (th th' : Thread L α)
    (h h' : Mem L) (hi : ths[i]? = some th) (e : runAlone A n th h = .ok (th', h')) :
    runThreads A (List.replicate n i) ths h = .ok (ths.set i th', h') := by
  induction n generalizing th h ths with
  | zero =>
    simp only [runAlone, Except.ok.injEq, Prod.mk.injEq] at e
    obtain ⟨rfl, rfl⟩ := e
    simp [runThreads, set_self hi]
  | succ n ih =>
    simp only [runAlone] at e
    cases hs : th.step A h with
    | error x => simp [hs] at e
    | ok y =>
      obtain ⟨th1, h1⟩ := y
      simp only [hs] at e
      have hlt : i < ths.length := (List.getElem?_eq_some_iff.1 hi).1
      simp only [List.replicate_succ, runThreads, hi, hs]
      rw [ih (ths.set i th1) th1 h1 (List.getElem?_set_self hlt) e, List.set_set]

/-- Two threads drop the last two handles of a list of `n + 1` elements: for some interleaving destructors nest as deep
as the list is long. -/
theorem race (v : T) (n : Nat) {h : Mem (LinLabel T)} (hs : Shared v n h) :
    ∃ sched ths' h' th, runThreads (bump _) sched
      (threads (listImpl T) id [some (chainList n), some (chainList n)] 0 [[.discard 0], [.discard 1]]) h = .ok (ths', h') ∧
      th ∈ ths' ∧ n + 1 ≤ th.deepest := by
  -- both threads: `try_unwrap` fails, then the pointer is dropped
  let h1 := put h (2 * n + 1) (.closed 1 .node (chainPtrs n))
  have prog : ∀ hs : List (Option HList), ∀ i, hs[i]? = some (some (chainList n)) →
      ∃ K : Option (Content (LinLabel T)) → Prog (LinLabel T) (List (Option (RList.Ret T)) × List (Option HList)), ∃ k,
      client (listImpl T) hs [.discard i] = .op (.tryTake (2 * n + 1)) K ∧ K none = .drop (2 * n + 1) k := by
    intro hs i hi
    simp only [client, hi]
    exact ⟨_, _, rfl, rfl⟩
  obtain ⟨K0, k0, e0, f0⟩ := prog [some (chainList n), none] 0 rfl
  obtain ⟨K1, k1, e1, f1⟩ := prog [none, some (chainList n)] 1 rfl
  have hths : threads (listImpl T) id [some (chainList n), some (chainList n)] 0 [[.discard 0], [.discard 1]] =
      [.start (.op (.tryTake (2 * n + 1)) K0), .start (.op (.tryTake (2 * n + 1)) K1)] := by
    rw [← e0, ← e1]; rfl
  have take : act (bump (LinLabel T)) (.tryTake (2 * n + 1)) h = .ok (none, h) := by simp [act, hs.head]
  have dec1 : decr (2 * n + 1) h = .ok ([], h1) := by simp [decr, hs.head, h1]
  have first : runThreads (bump _) [0, 1, 0, 0, 1]
      [.start (.op (.tryTake (2 * n + 1)) K0), .start (.op (.tryTake (2 * n + 1)) K1)] h =
      .ok ([⟨[], 0, k0⟩, ⟨[(0, 2 * n + 1)], 0, k1⟩], h1) := by
    simp [runThreads, Thread.start, Thread.step, take, f0, f1, dec1]
  obtain ⟨N, th, h', e, hd⟩ := chain_free (bump (LinLabel T)) v n h1 0 0 [] k1
    (by
      intro j hj
      by_cases hjn : j = n
      · subst hjn; exact get_put_self _ _ _
      · show get (put h _ _) _ = _
        rw [get_put_ne (by omega)]
        exact hs.node j (by omega))
    (by
      intro j hj
      obtain ⟨c, hc, hv⟩ := hs.val j hj
      refine ⟨c, hc, ?_⟩
      show get (put h _ _) _ = _
      rw [get_put_ne (by omega)]
      exact hv)
  refine ⟨[0, 1, 0, 0, 1] ++ List.replicate N 1, [⟨[], 0, k0⟩, th], h', th, ?_, by simp, by omega⟩
  rw [hths, runThreads_append, first]
  exact runThreads_replicate _ N 1 _ _ _ _ _ rfl e

end
end Heap
end Rpds
