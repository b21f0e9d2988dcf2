import Verif.Props.HeapCost
import Verif.Heap.SpaceLinear
import Verif.Heap.SpaceVector
import Verif.Heap.SpaceRedBlack
import Verif.Heap.SpaceHashTrie
/-
Versions share their memory (C58): how much an operation adds to the memory in use, and how much a client can have in use.

`live h` counts the cells of `h` that are in use.  `grown new step newCost cost ss cmds` adds up `cost ss s op` over the operations that
the commands `cmds` run on the plain values `ss`.  A clone adds nothing, and a new version of a list, vector or tree adds the cells on one path,
however many elements it has; so all the versions that a client holds together take no more than that for each command.  Keys with the same
hash are in a list in a hash trie, which is copied as a whole, so for hash tries the cost depends on how many of them there are (`crowd`).
-/
set_option autoImplicit false
namespace Rpds
namespace Props
open Heap

section
variable {L H Op Ret σ : Type}

/-- After any commands `cmds`, the commands `more` add at most `grown` cells to the memory in use; and what they use at any time they
got from `cmds` or from `more`. -/
def Shares (impl : Impl L H Op Ret) (new : σ) (step : σ → Op → Res (Ret × Effect σ)) (newCost : Nat)
    (cost : List (Option σ) → σ → Op → Nat) : Prop :=
  ∀ (A : Allocator L) (cmds more : List (Cmd Op)) (rs rs' : List (Option Ret)) (ss ss' : List (Option σ)) (hs hs' : List (Option H))
    (h h' : Mem L) (d d' : Nat),
    pureClient new step [] cmds = .ok (rs, ss) → pureClient new step ss more = .ok (rs', ss') →
    Runs A (client impl [] cmds) [] (rs, hs) h d → Runs A (client impl hs more) h (rs', hs') h' d' →
    live h' ≤ live h + grown new step newCost cost ss more

theorem shares_of_runs {impl : Impl L H Op Ret} {new : σ} {step : σ → Op → Res (Ret × Effect σ)} {R : H → σ → List (Item L) → Prop}
    {newCost : Nat} {cost : List (Option σ) → σ → Op → Nat} {I : H → Prop} (hr : ∀ A, impl.Refines A new step R)
    (hn : ∀ A m x m' d, Runs A impl.new m x m' d → I x ∧ live m' ≤ live m + newCost)
    (hc : ∀ A (hs : List (Option H)) (ss : List (Option σ)) ρ (i : Nat) h s op y x m m' d, Handles R hs ss ρ → (∀ x, some x ∈ hs → I x) →
      Own m ρ → hs[i]? = some (some h) → ss[i]? = some (some s) → step s op = .ok y → Runs A (impl.step h op) m x m' d →
      Effect.Keeps I x.2 ∧ live m' ≤ live m + cost ss s op)
    (hd : ∀ h, Allocs (fun _ _ => True) (impl.drop h) 0) : Shares impl new step newCost cost := by
  intro A cmds more rs rs' ss ss' hs hs' h h' d d' hp hp' hrun hrun'
  obtain ⟨hs1, h1, d1, ρ, e1, hh, ho, hI, -⟩ := live_client (hr A) (hn A) (hc A) hd cmds .nil (by simp) Own.empty hp
  obtain ⟨e2, e3, -⟩ := e1.unique hrun
  cases e2
  cases e3
  obtain ⟨hs2, h2, d2, ρ2, e4, -, -, -, hle⟩ := live_client (hr A) (hn A) (hc A) hd more hh hI ho hp'
  obtain ⟨-, e5, -⟩ := e4.unique hrun'
  cases e5
  exact hle

theorem shares_of_refines {impl : Impl L H Op Ret} {new : σ} {step : σ → Op → Res (Ret × Effect σ)} {R : H → σ → List (Item L) → Prop}
    {newCost : Nat} {cost : List (Option σ) → σ → Op → Nat} {I : H → Prop} (hr : ∀ A, impl.Refines A new step R)
    (hn : Allocs (fun x _ => I x) impl.new newCost)
    (hc : ∀ ss h s ρ op, R h s ρ → I h → Allocs (fun x _ => Effect.Keeps I x.2) (impl.step h op) (cost ss s op))
    (hd : ∀ h, Allocs (fun _ _ => True) (impl.drop h) 0) : Shares impl new step newCost cost := by
  refine shares_of_runs (I := I) hr ?_ ?_ hd
  · intro A m x m' d e
    obtain ⟨n', h1, h2⟩ := hn.runs e
    exact ⟨h1, by omega⟩
  · intro A hs ss ρ i h s op y x m m' d hh hI ho h1 h2 _ e
    rcases hh.get i with ⟨h', s', ρ₁, ρ₂, h3, h4, h5, -, -⟩ | ⟨h3, -⟩
    · rw [h1] at h3; rw [h2] at h4
      cases h3; cases h4
      obtain ⟨n', h6, h7⟩ := (hc ss h s ρ₁ op h5 (hI h (List.mem_of_getElem? h1))).runs e
      exact ⟨h6, by omega⟩
    · exact absurd h1 (h3 h)

/-- All that a client has in use. -/
theorem Shares.total {impl : Impl L H Op Ret} {new : σ} {step : σ → Op → Res (Ret × Effect σ)} {newCost : Nat}
    {cost : List (Option σ) → σ → Op → Nat} (hs : Shares impl new step newCost cost) {A : Allocator L} {cmds : List (Cmd Op)} {rs : List (Option Ret)} {ss : List (Option σ)}
    {hs' : List (Option H)} {h : Mem L} {d : Nat} (hp : pureClient new step [] cmds = .ok (rs, ss))
    (hrun : Runs A (client impl [] cmds) [] (rs, hs') h d) : live h ≤ grown new step newCost cost [] cmds := by
  have := hs A [] cmds [] rs [] ss [] hs' [] h 0 d rfl hp (Runs.ret _ _) hrun
  rwa [show live ([] : Mem L) = 0 from rfl, Nat.zero_add] at this

end

theorem Effect.keeps_true {H : Type} (e : Effect H) : Effect.Keeps (fun _ => True) e := by cases e <;> trivial

/-! ### Lists, stacks and queues -/

/-- C58 for `List`: pushing adds the element and one node, reversing one node per element, everything else adds nothing. -/
theorem C58_list_sharing (T : Type) :
    Shares (listImpl T) ([] : List T) (fun xs op => .ok (Spec.listStep xs op)) 0
      (fun _ xs op =>
        match op with
        | .pushFront _ | .pushFrontMut _ => 2
        | .reverse | .reverseMut => xs.length
        | _ => 0) := by
  refine shares_of_refines (I := fun _ => True) (fun _ => listImpl_refines) trivial ?_ ?_
  · rintro - l xs ρ op ⟨r, h1, h2⟩ -
    have e : l.length = xs.length := by rw [h1.length, h2.length]
    have := (allocs_listHStep l op).imp (R := fun x _ => Effect.Keeps (fun _ => True) x.2) fun _ _ _ => Effect.keeps_true _
    rw [e] at this
    cases op <;> exact this
  · exact fun l => HList.allocs_dropList.imp fun _ _ _ => trivial

/-- C58 for `Stack`. -/
theorem C58_stack_sharing (T : Type) :
    Shares (stackImpl T) ([] : List T) (fun xs op => .ok (Spec.stackStep xs op)) 0
      (fun _ _ op =>
        match op with
        | .push _ | .pushMut _ => 2
        | _ => 0) := by
  refine shares_of_refines (I := fun _ => True) (fun _ => stackImpl_refines) trivial ?_ ?_
  · rintro - l xs ρ op - -
    have := (allocs_stackHStep l op).imp (R := fun x _ => Effect.Keeps (fun _ => True) x.2) fun _ _ _ => Effect.keeps_true _
    cases op <;> exact this
  · exact fun l => HList.allocs_dropList.imp fun _ _ _ => trivial

/-- C58 for `Queue`: `dequeue` may have to reverse the in-list. -/
theorem C58_queue_sharing (T : Type) :
    Shares (queueImpl T) ([] : List T) (fun xs op => .ok (Spec.queueStep xs op)) 0
      (fun _ xs op =>
        match op with
        | .enqueue _ | .enqueueMut _ => 2
        | .dequeue | .dequeueMut => xs.length
        | _ => 0) := by
  refine shares_of_refines (I := fun _ => True) (fun _ => queueImpl_refines) trivial ?_ ?_
  · rintro - q xs ρ op ⟨r, ⟨ρ₁, ρ₂, -, h1, h2, -, -⟩, h3⟩ -
    have e : q.in_list.length ≤ xs.length := by
      have := h3.len
      rw [h1.length]
      simp only [Queue.len, RList.len] at this
      omega
    have := (allocs_queueHStep q op).imp (R := fun x _ => Effect.Keeps (fun _ => True) x.2) fun _ _ _ => Effect.keeps_true _
    refine this.mono ?_
    cases op <;> simp only [queueAllocs] <;> (try split) <;> omega
  · exact fun l => HQueue.allocs_dropQueue.imp fun _ _ _ => trivial

/-! ### Vectors -/

/-- C58 for `Vector` with `bits`: a new version adds one cell for each level, and those of the element. -/
theorem C58_vector_sharing (T : Type) (Ar : Arch) (bits : Nat) (h0 : 0 < bits) (hW : bits < Ar.W) :
    Shares (vecImpl Ar T bits) (vecCap Ar bits, ([] : List T)) Spec.vecStep 1
      (fun _ s op =>
        let levels := Nat.log2 s.2.length / bits
        match op with
        | .pushBack _ | .pushBackMut _ => levels + 3
        | .set _ _ | .setMut _ _ | .dropLast | .dropLastMut | .getMut _ _ | .indexMut _ _ => levels + 2
        | .extend xs => xs.length * (Nat.log2 (s.2.length + xs.length) / bits + 3)
        | _ => 0) := by
  refine shares_of_refines (I := fun v => v.bits = bits) (fun A => vecImpl_refines Ar A h0 hW) ?_ ?_ ?_
  · refine Allocs.bind allocs_lift ?_
    intro _ n h1
    simp only [Uses] at h1
    refine Allocs.bind (allocs_new (by omega)) fun _ _ _ => rfl
  · rintro - hv ⟨cap, xs⟩ ρ op ⟨v, h, ⟨t, rfl, -, -⟩, h2, h3⟩ hb
    have := allocs_vecHStep (Ar := Ar) (by omega) ⟨t.addr, v.bits, v.length⟩ op
    have e : v.length = xs.length := h2.length
    simp only at hb
    rw [hb, e] at this ⊢
    cases op <;> exact this
  · exact fun v => allocs_drop.imp fun _ _ _ => trivial

/-! ### Red-black trees -/

/-- C58 for `RedBlackTreeMap`. -/
theorem C58_rb_map_sharing (K V Q : Type) (Ar : Arch) (o : OrdKeys K Q) (lo : o.Lawful) :
    Shares (rbImpl Ar o) ([] : List (K × V)) (Spec.ordMapStep Ar.W o) 0
      (fun _ l op =>
        match op with
        | .base (.insert _ _) | .base (.insertMut _ _) => 12 * Nat.log2 (l.length + 1) + 3
        | .base (.remove _) | .base (.removeMut _) => 28 * Nat.log2 (l.length + 1) + 8
        | .base (.getMut _ _) => 4 * Nat.log2 (l.length + 1) + 2
        | _ => 0) := by
  refine shares_of_refines (I := fun _ => True) (fun A => rbImpl_refines Ar lo A) trivial ?_ ?_
  · rintro - m l ρ op ⟨m', ⟨⟨h1, h2⟩, -⟩, h3⟩ -
    have := (allocs_rbHStepAll (o := o) (Ar := Ar) m op).imp (R := fun x _ => Effect.Keeps (fun _ => True) x.2) fun _ _ _ => Effect.keeps_true _
    rw [h2, h3.size] at this
    cases op with
    | base op => cases op <;> exact this
    | _ => exact this
  · exact fun m => HRBMap.allocs_dropMap.imp fun _ _ _ => trivial

/-- C58 for `RedBlackTreeSet`. -/
theorem C58_rb_set_sharing (T Q : Type) (Ar : Arch) (o : OrdKeys T Q) (lo : o.Lawful) :
    Shares (rbSetImpl Ar o) ([] : List T) (Spec.ordSetStep Ar.W o) 0
      (fun _ l op =>
        match op with
        | .base (.insert _) | .base (.insertMut _) => 12 * Nat.log2 (l.length + 1) + 3
        | .base (.remove _) | .base (.removeMut _) => 28 * Nat.log2 (l.length + 1) + 8
        | _ => 0) := by
  refine shares_of_refines (I := fun _ => True) (fun A => rbSetImpl_refines Ar lo A) trivial ?_ ?_
  · rintro - m l ρ op ⟨s, ⟨m', ⟨⟨h1, h2⟩, -⟩, h3⟩, rfl⟩ -
    refine Allocs.bind (Q := fun _ _ => True) ?_ fun _ _ _ => Effect.keeps_true _
    have := allocs_rbHStepAll (o := o) (Ar := Ar) m (rbSetOp op)
    rw [h2, h3.size, show (Spec.unitPairs l).length = l.length by simp [Spec.unitPairs]] at this
    cases op with
    | base op => cases op <;> exact this
    | _ => exact this
  · exact fun m => HRBMap.allocs_dropMap.imp fun _ _ _ => trivial

/-! ### Hash tries -/

/-- The size of the largest group of keys with the same hash. -/
def crowd {K : Type} (hash : K → UInt64) (keys : List K) : Nat :=
  (keys.map fun x => keys.countP fun y => hash y == hash x).foldr max 0

/-- The size of the largest group of keys with the same hash in a single map or set of a client. -/
def crowdAll {K : Type} (hash : K → UInt64) (maps : List (List K)) : Nat := (maps.map (crowd hash)).foldr max 0

theorem le_foldr_max {l : List Nat} {x : Nat} (h : x ∈ l) : x ≤ l.foldr max 0 := by
  induction l with
  | nil => cases h
  | cons y l ih =>
    rw [List.foldr_cons]
    rcases List.mem_cons.1 h with rfl | h
    · exact Nat.le_max_left _ _
    · exact Nat.le_trans (ih h) (Nat.le_max_right _ _)

theorem foldr_max_le {l : List Nat} {n : Nat} (h : ∀ x ∈ l, x ≤ n) : l.foldr max 0 ≤ n := by
  induction l with
  | nil => exact Nat.zero_le _
  | cons y l ih => exact Nat.max_le.2 ⟨h y List.mem_cons_self, ih fun x hx => h x (List.mem_cons_of_mem _ hx)⟩

theorem le_crowdAll {K : Type} {hash : K → UInt64} {maps : List (List K)} {keys : List K} (h : keys ∈ maps) {x : K} (hx : x ∈ keys) :
    (keys.countP fun y => hash y == hash x) ≤ crowdAll hash maps :=
  Nat.le_trans (le_foldr_max (List.mem_map_of_mem (f := fun x => keys.countP fun y => hash y == hash x) hx))
    (le_foldr_max (List.mem_map_of_mem (f := crowd hash) h))

section hash
open HT
variable {H : Type}

/-- The lists of colliding entries in the memory of a client are no longer than the largest group of keys with the same hash. -/
theorem small_of_handles {K V Q σ : Type} {Ar : Arch} {o : HashKeys H K Q} {k : Nat} {hasher : H} {keys : σ → List K}
    {R : HHTMap H → σ → List (Item (HLabel K V)) → Prop}
    (hR : ∀ hm s ρ, R hm s ρ → ∃ (m : HTMap H K V) (l : List (K × V)), hm.Is m ρ ∧ m.Rep Ar o k l ∧ keys s = l.map Prod.fst)
    {hs : List (Option (HHTMap H))} {ss : List (Option σ)} {ρ : List (Item (HLabel K V))} (hh : Handles R hs ss ρ)
    (hI : ∀ x, some x ∈ hs → x.hasher = hasher) {m : Mem (HLabel K V)} (ho : Own m ρ) :
    Small cx (crowdAll (o.hashK hasher) ((ss.filterMap id).map keys)) m := by
  have key : ∀ t s, .ptr t ∈ ρ → Sub s t → cx s.label ≤ crowdAll (o.hashK hasher) ((ss.filterMap id).map keys) := by
    intro t s ht hst
    by_cases hx : cx s.label = 0
    · omega
    have : ∃ (hm : HHTMap H) (v : σ) (ρ₁ : List (Item (HLabel K V))), some hm ∈ hs ∧ some v ∈ ss ∧ R hm v ρ₁ ∧ .ptr t ∈ ρ₁ := by
      clear ho hI
      induction hh with
      | nil => cases ht
      | dead _ ih =>
        obtain ⟨hm, v, ρ₁, h1, h2, h3⟩ := ih ht
        exact ⟨hm, v, ρ₁, List.mem_cons_of_mem _ h1, List.mem_cons_of_mem _ h2, h3⟩
      | live hh' _ ih =>
        rcases List.mem_append.1 ht with ht | ht
        · exact ⟨_, _, _, List.mem_cons_self, List.mem_cons_self, hh', ht⟩
        · obtain ⟨hm, v, ρ₁, h1, h2, h3⟩ := ih ht
          exact ⟨hm, v, ρ₁, List.mem_cons_of_mem _ h1, List.mem_cons_of_mem _ h2, h3⟩
    obtain ⟨hm, v, ρ₁, h1, h2, h3, h4⟩ := this
    obtain ⟨m', l, h5, h6, h7⟩ := hR _ _ _ h3
    obtain ⟨p, hp, hle⟩ := cx_le h5 h6 h4 hst hx
    rw [hI _ h1] at hle
    refine Nat.le_trans hle ?_
    have : (l.countP fun q => o.hashK hasher q.1 == o.hashK hasher p.1) =
        (keys v).countP fun y => o.hashK hasher y == o.hashK hasher p.1 := by rw [h7, List.countP_map]; rfl
    rw [this]
    exact le_crowdAll (List.mem_map_of_mem (f := keys) (List.mem_filterMap.2 ⟨some v, h2, rfl⟩)) (by rw [h7]; exact List.mem_map_of_mem hp)
  intro a n l cs hg
  obtain ⟨t, s, h1, h2, -, rfl⟩ := ho.owned hg
  exact key t s h1 h2

/-- C58 for `HashTrieMap` with any lawful keys and any degree (other than 1) the constructor accepts: a new version adds the cells on one
path, and those of a list of colliding entries. -/
theorem C58_hash_map_sharing (K V Q : Type) (Ar : Arch) (o : HashKeys H K Q) (lo : o.Lawful) (hasher : H) (degree : Nat) (h2 : 2 ≤ degree)
    (m : HTMap H K V) (hm : HTMap.newWithDegree Ar hasher degree = .ok m) :
    Shares (htImpl Ar o hasher degree) ([] : List (K × V)) (Spec.finMapStep o) 1
      (fun ss _ op =>
        let levels := 63 / Nat.log2 degree + 1
        let colliding := crowdAll (o.hashK hasher) ((ss.filterMap id).map (List.map Prod.fst))
        match op with
        | .base (.insert _ _) | .base (.insertMut _ _) => 2 * levels + 2 * colliding + 6
        | .base (.remove _) | .base (.removeMut _) => 2 * levels + 2 * colliding + 3
        | .base (.getMut _ _) => levels + 2 * colliding + 8
        | _ => 0) := by
  obtain ⟨k, rfl, c, hW, rfl⟩ := conf_of_new hm h2
  rw [Nat.log2_two_pow]
  refine shares_of_runs (I := fun x => x.hasher = hasher) (fun A => htImpl_refines Ar lo c hW hasher A) ?_ ?_ ?_
  · intro A m x m' d e
    obtain ⟨n', h3, h4⟩ := (HHTMap.allocs_newWithDegree (Ar := Ar) (K := K) (V := V) (hasher := hasher) (degree := 2 ^ k) (Nat.le_refl 1)).runs e
    exact ⟨h3.1, by omega⟩
  · intro A hs ss ρ i h s op y x m m' d hh hI ho h1 h2 _ e
    have hsm := small_of_handles (keys := List.map Prod.fst) (by rintro hm s ρ ⟨m', ⟨h3, -⟩, h4⟩; exact ⟨m', s, h3, h4, rfl⟩) hh hI ho
    rcases hh.get i with ⟨h', s', ρ₁, ρ₂, h3, h4, ⟨m', ⟨h5, -⟩, h6⟩, -, -⟩ | ⟨h3, -⟩
    · rw [h1] at h3; rw [h2] at h4
      cases h3; cases h4
      have hk : h.degree = 2 ^ k := h5.degree.trans h6.degree
      obtain ⟨n', m'', h7, h8⟩ := (allocsU_htHStepAll c h hk op).runs hsm e
      rw [hI h (List.mem_of_getElem? h1)] at h7
      refine ⟨h7, ?_⟩
      refine Nat.le_trans (Nat.le_trans (Nat.le_add_right _ _) h8) (Nat.add_le_add_left ?_ _)
      cases op with
      | base op => cases op <;> exact Nat.le_refl _
      | _ => exact Nat.le_refl _
    · exact absurd h1 (h3 h)
  · exact fun m => HHTMap.allocs_dropMap.imp fun _ _ _ => trivial

/-- C58 for `HashTrieSet`. -/
theorem C58_hash_set_sharing (T Q : Type) (Ar : Arch) (o : HashKeys H T Q) (lo : o.Lawful) (hasher : H) (degree : Nat) (h2 : 2 ≤ degree)
    (m : HTMap H T Unit) (hm : HTMap.newWithDegree Ar hasher degree = .ok m) :
    Shares (htSetImpl Ar o hasher degree) ([] : List T) (Spec.finSetStep o) 1
      (fun ss _ op =>
        let levels := 63 / Nat.log2 degree + 1
        let colliding := crowdAll (o.hashK hasher) (ss.filterMap id)
        match op with
        | .base (.insert _) | .base (.insertMut _) => 2 * levels + 2 * colliding + 6
        | .base (.remove _) | .base (.removeMut _) => 2 * levels + 2 * colliding + 3
        | _ => 0) := by
  obtain ⟨k, rfl, c, hW, rfl⟩ := conf_of_new hm h2
  rw [Nat.log2_two_pow]
  refine shares_of_runs (I := fun x => x.hasher = hasher) (fun A => htSetImpl_refines Ar lo c hW hasher A) ?_ ?_ ?_
  · intro A m x m' d e
    obtain ⟨n', h3, h4⟩ := (HHTMap.allocs_newWithDegree (Ar := Ar) (K := T) (V := Unit) (hasher := hasher) (degree := 2 ^ k) (Nat.le_refl 1)).runs e
    exact ⟨h3.1, by omega⟩
  · intro A hs ss ρ i h s op y x m m' d hh hI ho h1 h2 _ e
    have hsm := small_of_handles (keys := fun l : List T => l)
      (by rintro hm s ρ ⟨_, ⟨m', ⟨h3, -⟩, h4⟩, rfl⟩; exact ⟨m', _, h3, h4, by simp [Spec.unitPairs, Function.comp_def]⟩) hh hI ho
    rw [List.map_id'] at hsm
    rcases hh.get i with ⟨h', s', ρ₁, ρ₂, h3, h4, ⟨_, ⟨m', ⟨h5, -⟩, h6⟩, rfl⟩, -, -⟩ | ⟨h3, -⟩
    · rw [h1] at h3; rw [h2] at h4
      cases h3; cases h4
      have hk : h.degree = 2 ^ k := h5.degree.trans h6.degree
      have key : AllocsU cx (fun r _ _ => Effect.Keeps (fun x : HHTMap H => x.hasher = h.hasher) r.2)
          ((htSetImpl Ar o hasher (2 ^ k)).step h op) (htAllocsAll k (crowdAll (o.hashK hasher) (ss.filterMap id)) (htSetOp op)) _ :=
        AllocsU.bind (allocsU_htHStepAll (o := o) c h hk (htSetOp op)) fun _ _ _ h => h
      obtain ⟨n', m'', h7, h8⟩ := key.runs hsm e
      rw [hI h (List.mem_of_getElem? h1)] at h7
      refine ⟨h7, ?_⟩
      refine Nat.le_trans (Nat.le_trans (Nat.le_add_right _ _) h8) (Nat.add_le_add_left ?_ _)
      cases op with
      | base op => cases op <;> exact Nat.le_refl _
      | _ => exact Nat.le_refl _
    · exact absurd h1 (h3 h)
  · exact fun m => HHTMap.allocs_dropMap.imp fun _ _ _ => trivial

end hash

/-! ### How much all versions take together -/

/-- What all versions together take, if the operations that satisfy `P` add at most one element and cost at most `g size`; `J` is
something that all values satisfy. -/
theorem Shares.versions {L H Op Ret σ : Type} {impl : Impl L H Op Ret} {new : σ} {step : σ → Op → Res (Ret × Effect σ)} {newCost : Nat}
    {cost : List (Option σ) → σ → Op → Nat} (hs : Shares impl new step newCost cost) {P : Op → Prop} {J : σ → Prop} {size : σ → Nat} {g : Nat → Nat}
    (hg : ∀ a b, a ≤ b → g a ≤ g b) (hnew : newCost ≤ g 0) (h0 : size new = 0) (hJ : J new)
    (hJs : ∀ s op r e, J s → step s op = .ok (r, e) → Effect.Keeps J e)
    (hcost : ∀ ss s op, (∀ s, some s ∈ ss → J s) → some s ∈ ss → P op → cost ss s op ≤ g (size s))
    (hsize : ∀ s op r e, P op → step s op = .ok (r, e) → ∀ s', e = .fresh s' ∨ e = .update s' → size s' ≤ size s + 1)
    {A : Allocator L} {cmds : List (Cmd Op)} (hP : ∀ i op, .run i op ∈ cmds → P op) {rs : List (Option Ret)} {ss : List (Option σ)}
    {hs' : List (Option H)} {h : Mem L} {d : Nat} (hp : pureClient new step [] cmds = .ok (rs, ss))
    (hrun : Runs A (client impl [] cmds) [] (rs, hs') h d) : live h ≤ cmds.length * g cmds.length := by
  have h1 := hs.total hp hrun
  have h2 := grown_le hg hnew h0 hJ hJs hcost hsize cmds hP [] 0 (by simp)
  rw [Nat.zero_add] at h2
  omega

/-- C58: all the lists a client holds together take at most two cells for each command, unless it reverses lists. -/
theorem C58_list_versions (T : Type) (A : Allocator (LinLabel T)) (cmds : List (Cmd (RList.Op T)))
    (ho : ∀ i op, .run i op ∈ cmds → op ≠ .reverse ∧ op ≠ .reverseMut) (rs : List (Option (RList.Ret T))) (ss : List (Option (List T)))
    (hs : List (Option HList)) (h : Mem (LinLabel T)) (d : Nat)
    (hp : pureClient ([] : List T) (fun xs op => .ok (Spec.listStep xs op)) [] cmds = .ok (rs, ss))
    (hrun : Runs A (client (listImpl T) [] cmds) [] (rs, hs) h d) : live h ≤ cmds.length * 2 := by
  refine (C58_list_sharing T).versions (g := fun _ => 2) (size := fun _ => 0) (J := fun _ => True) (fun _ _ _ => Nat.le_refl _) (by omega) rfl
    trivial (fun _ _ _ _ _ _ => Effect.keeps_true _) ?_ ?_ ho hp hrun
  · rintro - s op - - ⟨h1, h2⟩
    cases op <;> simp at h1 h2 ⊢
  · intros; omega

/-- C58: so do all the stacks. -/
theorem C58_stack_versions (T : Type) (A : Allocator (LinLabel T)) (cmds : List (Cmd (Stack.Op T))) (rs : List (Option (RList.Ret T)))
    (ss : List (Option (List T))) (hs : List (Option HList)) (h : Mem (LinLabel T)) (d : Nat)
    (hp : pureClient ([] : List T) (fun xs op => .ok (Spec.stackStep xs op)) [] cmds = .ok (rs, ss))
    (hrun : Runs A (client (stackImpl T) [] cmds) [] (rs, hs) h d) : live h ≤ cmds.length * 2 := by
  refine (C58_stack_sharing T).versions (g := fun _ => 2) (size := fun _ => 0) (P := fun _ => True) (J := fun _ => True) (fun _ _ _ => Nat.le_refl _) (by omega)
    rfl trivial (fun _ _ _ _ _ _ => Effect.keeps_true _) ?_ ?_ (fun _ _ _ => trivial) hp hrun
  · intro _ s op _ _ _
    cases op <;> simp
  · intros; omega

/-- C58: all the vectors a client holds together take at most one path for each command, however long they are; `extend` counts as
that many commands. -/
theorem C58_vector_versions (T : Type) (Ar : Arch) (bits : Nat) (h0 : 0 < bits) (hW : bits < Ar.W) (A : Allocator (VLabel T))
    (cmds : List (Cmd (RVector.Op T))) (ho : ∀ i op, .run i op ∈ cmds → ∀ xs, op ≠ .extend xs) (rs : List (Option (RVector.Ret T)))
    (ss : List (Option (Nat × List T))) (hs : List (Option HVector)) (h : Mem (VLabel T)) (d : Nat)
    (hp : pureClient (vecCap Ar bits, ([] : List T)) Spec.vecStep [] cmds = .ok (rs, ss))
    (hrun : Runs A (client (vecImpl Ar T bits) [] cmds) [] (rs, hs) h d) :
    live h ≤ cmds.length * (Nat.log2 cmds.length / bits + 3) := by
  refine (C58_vector_sharing T Ar bits h0 hW).versions (g := fun n => Nat.log2 n / bits + 3) (size := fun s => s.2.length) (J := fun _ => True) ?_
    (by generalize Nat.log2 0 / bits = x; omega) rfl trivial (fun _ _ _ _ _ _ => Effect.keeps_true _) ?_ ?_ ho hp hrun
  · intro a b hab
    exact Nat.add_le_add_right (HVector.levels_mono (b := bits) hab) 3
  · rintro - ⟨cap, xs⟩ op - - hop
    cases op <;> simp at hop ⊢
  · rintro ⟨cap, xs⟩ op r e hop he s' hs'
    cases op <;> simp only [Spec.vecStep] at he <;> (try split at he) <;> cases he <;>
      rcases hs' with hs' | hs' <;> cases hs' <;> simp at hop ⊢ <;> omega

theorem mapStep_size {K V Q : Type} {same : K → K → Bool} {hits : K → Q → Bool} {l l' : List (K × V)} {op : MapOp K V Q}
    (h : (Spec.mapStep same hits l op).2 = .fresh l' ∨ (Spec.mapStep same hits l op).2 = .update l') : l'.length ≤ l.length + 1 := by
  cases op <;> simp only [Spec.mapStep, reduceCtorEq, Effect.fresh.injEq, Effect.update.injEq, or_false, false_or] at h <;> subst h <;>
    (try simp only [Spec.mapInsert, Spec.mapRemove, Spec.mapModify, List.length_cons, List.length_map]) <;>
    first | omega | exact Nat.succ_le_succ (List.length_filter_le _ _) | exact Nat.le_succ_of_le (List.length_filter_le _ _)

/-- C58: all the maps a client holds together take at most logarithmically many cells for each command. -/
theorem C58_rb_map_versions (K V Q : Type) (Ar : Arch) (o : OrdKeys K Q) (lo : o.Lawful) (A : Allocator (RLabel K V))
    (cmds : List (Cmd (RBOp K V Q))) (rs : List (Option (RBRet K V))) (ss : List (Option (List (K × V)))) (hs : List (Option HRBMap))
    (h : Mem (RLabel K V)) (d : Nat) (hp : pureClient ([] : List (K × V)) (Spec.ordMapStep Ar.W o) [] cmds = .ok (rs, ss))
    (hrun : Runs A (client (rbImpl Ar o) [] cmds) [] (rs, hs) h d) :
    live h ≤ cmds.length * (28 * Nat.log2 (cmds.length + 1) + 8) := by
  refine (C58_rb_map_sharing K V Q Ar o lo).versions (g := fun n => 28 * Nat.log2 (n + 1) + 8) (size := List.length) (P := fun _ => True)
    (J := fun _ => True) ?_ (Nat.zero_le _) rfl trivial (fun _ _ _ _ _ _ => Effect.keeps_true _) ?_ ?_ (fun _ _ _ => trivial) hp hrun
  · intro a b hab
    have := log2_mono hab
    omega
  · intro _ l op _ _ _
    cases op with
    | base op => cases op <;> simp only <;> omega
    | _ => simp only; omega
  · intro l op r e _ he l' hl'
    cases op with
    | base op =>
      cases he
      exact mapStep_size hl'
    | _ =>
      simp only [Spec.ordMapStep] at he
      repeat' (split at he)
      all_goals cases he
      all_goals rcases hl' with hl' | hl' <;> cases hl'

/-- C58: so do all the sets. -/
theorem C58_rb_set_versions (T Q : Type) (Ar : Arch) (o : OrdKeys T Q) (lo : o.Lawful) (A : Allocator (RLabel T Unit))
    (cmds : List (Cmd (RBSetOp T Q))) (rs : List (Option (RBSetRet T))) (ss : List (Option (List T))) (hs : List (Option HRBMap))
    (h : Mem (RLabel T Unit)) (d : Nat) (hp : pureClient ([] : List T) (Spec.ordSetStep Ar.W o) [] cmds = .ok (rs, ss))
    (hrun : Runs A (client (rbSetImpl Ar o) [] cmds) [] (rs, hs) h d) :
    live h ≤ cmds.length * (28 * Nat.log2 (cmds.length + 1) + 8) := by
  refine (C58_rb_set_sharing T Q Ar o lo).versions (g := fun n => 28 * Nat.log2 (n + 1) + 8) (size := List.length) (P := fun _ => True)
    (J := fun _ => True) ?_ (Nat.zero_le _) rfl trivial (fun _ _ _ _ _ _ => Effect.keeps_true _) ?_ ?_ (fun _ _ _ => trivial) hp hrun
  · intro a b hab
    have := log2_mono hab
    omega
  · intro _ l op _ _ _
    cases op with
    | base op => cases op <;> simp only <;> omega
    | _ => simp only; omega
  · intro l op r e _ he l' hl'
    cases op with
    | base op =>
      cases he
      cases op <;> simp only [Spec.setStep, reduceCtorEq, Effect.fresh.injEq, Effect.update.injEq, or_false, false_or] at hl' <;> subst hl' <;>
        (try simp only [Spec.setInsert, Spec.setRemove, List.length_cons]) <;>
        first | omega | exact Nat.succ_le_succ (List.length_filter_le _ _) | exact Nat.le_succ_of_le (List.length_filter_le _ _)
    | _ =>
      simp only [Spec.ordSetStep] at he
      repeat' (split at he)
      all_goals cases he
      all_goals rcases hl' with hl' | hl' <;> cases hl'

section hash
open HT
variable {H : Type}

theorem mapStep_distinct {K V Q : Type} {same : K → K → Bool} {hits : K → Q → Bool} (he : Spec.LawfulEquiv same) {l : List (K × V)}
    (hl : Spec.Distinct same l) (op : MapOp K V Q) : Effect.Keeps (Spec.Distinct same) (Spec.mapStep same hits l op).2 := by
  cases op <;> first
    | trivial
    | exact hl
    | exact hl.insert he _ _
    | exact hl.remove _
    | exact hl.modify _ _

theorem crowd_le {K : Type} {same : K → K → Bool} {hash : K → UInt64} {C : Nat}
    (hC : ∀ keys : List K, (keys.Pairwise fun a b => same a b = false) → (∀ a ∈ keys, ∀ b ∈ keys, hash a = hash b) → keys.length ≤ C)
    {keys : List K} (hk : keys.Pairwise fun a b => same a b = false) : crowd hash keys ≤ C := by
  refine foldr_max_le fun n hn => ?_
  obtain ⟨x, -, rfl⟩ := List.mem_map.1 hn
  rw [List.countP_eq_length_filter]
  refine hC _ (hk.filter _) fun a ha b hb => ?_
  have h1 := (List.mem_filter.1 ha).2
  have h2 := (List.mem_filter.1 hb).2
  rw [beq_iff_eq] at h1 h2
  rw [h1, h2]

/-- C58: all the hash maps a client holds together take at most one path for each command, if at most `C` different keys have the same hash. -/
theorem C58_hash_map_versions (K V Q : Type) (Ar : Arch) (o : HashKeys H K Q) (lo : o.Lawful) (hasher : H) (degree : Nat) (h2 : 2 ≤ degree)
    (m : HTMap H K V) (hm : HTMap.newWithDegree Ar hasher degree = .ok m) (C : Nat)
    (hC : ∀ keys : List K, (keys.Pairwise fun a b => o.eqK a b = false) → (∀ a ∈ keys, ∀ b ∈ keys, o.hashK hasher a = o.hashK hasher b) →
      keys.length ≤ C)
    (A : Allocator (HLabel K V)) (cmds : List (Cmd (HTOp K V Q))) (rs : List (Option (HTRet K V))) (ss : List (Option (List (K × V))))
    (hs : List (Option (HHTMap H))) (h : Mem (HLabel K V)) (d : Nat)
    (hp : pureClient ([] : List (K × V)) (Spec.finMapStep o) [] cmds = .ok (rs, ss))
    (hrun : Runs A (client (htImpl Ar o hasher degree) [] cmds) [] (rs, hs) h d) :
    live h ≤ cmds.length * (2 * (63 / Nat.log2 degree + 1) + 2 * C + 7) := by
  refine (C58_hash_map_sharing K V Q Ar o lo hasher degree h2 m hm).versions (g := fun _ => 2 * (63 / Nat.log2 degree + 1) + 2 * C + 7)
    (size := fun _ => 0) (P := fun _ => True) (J := Spec.Distinct o.eqK) (fun _ _ _ => Nat.le_refl _) (by omega) rfl .nil ?_ ?_
    (fun _ _ _ _ _ _ _ _ => Nat.zero_le _) (fun _ _ _ => trivial) hp hrun
  · intro l op r e hl he
    cases op with
    | base op => cases he; exact mapStep_distinct lo.equivK hl op
    | iter n => cases he
    | count p => cases he; trivial
  · intro ss l op hJ _ _
    have hc : crowdAll (o.hashK hasher) ((ss.filterMap id).map (List.map Prod.fst)) ≤ C := by
      refine foldr_max_le fun n hn => ?_
      obtain ⟨keys, hk, rfl⟩ := List.mem_map.1 hn
      obtain ⟨l', hl', rfl⟩ := List.mem_map.1 hk
      obtain ⟨x, hx, h⟩ := List.mem_filterMap.1 hl'
      cases x with
      | none => cases h
      | some l'' =>
        cases h
        exact crowd_le hC (List.pairwise_map.2 (hJ _ hx))
    have hz := Nat.zero_le (63 / Nat.log2 degree)
    cases op with
    | base op => cases op <;> simp only <;> omega
    | _ => simp only; omega

/-- C58: so do all the hash sets. -/
theorem C58_hash_set_versions (T Q : Type) (Ar : Arch) (o : HashKeys H T Q) (lo : o.Lawful) (hasher : H) (degree : Nat) (h2 : 2 ≤ degree)
    (m : HTMap H T Unit) (hm : HTMap.newWithDegree Ar hasher degree = .ok m) (C : Nat)
    (hC : ∀ keys : List T, (keys.Pairwise fun a b => o.eqK a b = false) → (∀ a ∈ keys, ∀ b ∈ keys, o.hashK hasher a = o.hashK hasher b) →
      keys.length ≤ C)
    (A : Allocator (HLabel T Unit)) (cmds : List (Cmd (HTSetOp T Q))) (rs : List (Option (HTSetRet T))) (ss : List (Option (List T)))
    (hs : List (Option (HHTMap H))) (h : Mem (HLabel T Unit)) (d : Nat)
    (hp : pureClient ([] : List T) (Spec.finSetStep o) [] cmds = .ok (rs, ss))
    (hrun : Runs A (client (htSetImpl Ar o hasher degree) [] cmds) [] (rs, hs) h d) :
    live h ≤ cmds.length * (2 * (63 / Nat.log2 degree + 1) + 2 * C + 6) := by
  refine (C58_hash_set_sharing T Q Ar o lo hasher degree h2 m hm).versions (g := fun _ => 2 * (63 / Nat.log2 degree + 1) + 2 * C + 6)
    (size := fun _ => 0) (P := fun _ => True) (J := fun l => l.Pairwise fun a b => o.eqK a b = false) (fun _ _ _ => Nat.le_refl _) (by omega)
    rfl .nil ?_ ?_ (fun _ _ _ _ _ _ _ _ => Nat.zero_le _) (fun _ _ _ => trivial) hp hrun
  · intro l op r e hl he
    have ins : ∀ v, (Spec.setInsert o.eqK l v).Pairwise fun a b => o.eqK a b = false := by
      intro v
      refine .cons (fun x hx => ?_) (hl.filter _)
      cases h' : o.eqK v x with
      | false => rfl
      | true =>
        have := (List.mem_filter.1 hx).2
        rw [lo.equivK.symm _ _ h'] at this
        cases this
    cases op with
    | base op =>
      cases he
      cases op <;> first
        | trivial
        | exact hl
        | exact ins _
        | exact hl.filter _
    | iter n => cases he
    | count p => cases he; trivial
  · intro ss l op hJ _ _
    have hc : crowdAll (o.hashK hasher) (ss.filterMap id) ≤ C := by
      refine foldr_max_le fun n hn => ?_
      obtain ⟨l', hl', rfl⟩ := List.mem_map.1 hn
      obtain ⟨x, hx, h⟩ := List.mem_filterMap.1 hl'
      cases x with
      | none => cases h
      | some l'' =>
        cases h
        exact crowd_le hC (hJ _ hx)
    have hz := Nat.zero_le (63 / Nat.log2 degree)
    cases op with
    | base op => cases op <;> simp only <;> omega
    | _ => simp only; omega

end hash

/-! ### Non-vacuity -/

/-- The memory in use after a client. -/
def inUse {L H Op Ret : Type} (impl : Impl L H Op Ret) (n : Nat) (cmds : List (Cmd Op)) : Option Nat :=
  (outcome (bump L) n (client impl [] cmds) []).map fun r => live r.2.1

-- a clone adds nothing, a push two cells, and a reversal a node per element: here the bound is reached
example : inUse (listImpl Nat) 400 exList3 = some 6 ∧ inUse (listImpl Nat) 400 (exList3 ++ [.run 0 .clone]) = some 6 ∧
    inUse (listImpl Nat) 400 (exList3 ++ [.run 0 .clone, .run 0 (.pushFront 7), .run 0 (.pushFront 8)]) = some 10 ∧
    inUse (listImpl Nat) 400 (exList3 ++ [.run 0 .clone, .run 0 (.pushFront 7), .run 0 (.pushFront 8), .run 0 .reverse]) = some 13 := by
  decide +kernel
-- a version of a vector of eight elements with one of them changed adds four of the fifteen cells; a copy of the whole vector would not do
example : inUse (vecImpl ⟨.debug, 64⟩ Nat 1) 500 (exVecN 8) = some 15 ∧
    inUse (vecImpl ⟨.debug, 64⟩ Nat 1) 500 (exVecN 8 ++ [.run 0 (.set 0 7)]) = some 19 ∧
    inUse (vecImpl ⟨.debug, 64⟩ Nat 1) 500 (exVecN 8 ++ [.run 0 (.set 0 7), .run 0 (.pushBack 9)]) = some 24 ∧
    15 + (Nat.log2 8 / 1 + 2) < 30 := by decide +kernel
-- versions of a map of seven entries with one more or one less
example : inUse (rbImpl ⟨.debug, 64⟩ exOrd) 700 (exRBN 7) = some 14 ∧
    inUse (rbImpl ⟨.debug, 64⟩ exOrd) 700 (exRBN 7 ++ [.run 0 (.base (.insert (100, "") 7))]) = some 19 ∧
    inUse (rbImpl ⟨.debug, 64⟩ exOrd) 700 (exRBN 7 ++ [.run 0 (.base (.remove 0))]) = some 18 ∧
    inUse (rbImpl ⟨.debug, 64⟩ exOrd) 900 (exRBN 7 ++ [.run 0 (.base (.remove 0)), .discard 0, .discard 1, .discard 2]) = some 0 := by
  decide +kernel

open HT
-- versions of a hash map share all but one path; when all keys have the same hash they do not share the list of colliding entries
example : inUse (htImpl ⟨.debug, 64⟩ exKeys 100 64) 900 (exHTN 4) = some 9 ∧
    inUse (htImpl ⟨.debug, 64⟩ exKeys 100 64) 900 (exHTN 4 ++ [.run 0 (.base .clone)]) = some 9 ∧
    inUse (htImpl ⟨.debug, 64⟩ exKeys 100 64) 900 (exHTN 4 ++ [.run 0 (.base (.insert (50, "") 7))]) = some 12 ∧
    inUse (htImpl ⟨.debug, 64⟩ exKeys 100 64) 900 (exHTN 4 ++ [.run 0 (.base (.remove 2))]) = some 10 := by decide +kernel
example : inUse (htImpl ⟨.debug, 64⟩ exKeys 1 64) 1500 (exHTN 3) = some 21 ∧
    inUse (htImpl ⟨.debug, 64⟩ exKeys 1 64) 1500 (exHTN 3 ++ [.run 0 (.base (.insert (50, "") 7))]) = some 42 ∧
    inUse (htImpl ⟨.debug, 64⟩ exKeys 1 64) 1500 (exHTN 5) = some 27 ∧
    inUse (htImpl ⟨.debug, 64⟩ exKeys 1 64) 1500 (exHTN 5 ++ [.run 0 (.base (.insert (50, "") 7))]) = some 52 := by decide +kernel
-- how many of 0, ..., 9 have the same last digit in base three, and in which of two sets
example : crowd (fun n : Nat => UInt64.ofNat (n % 3)) (List.range 10) = 4 ∧
    crowdAll (fun n : Nat => UInt64.ofNat (n % 3)) [List.range 10, [1, 4, 7, 10, 13]] = 5 := by decide +kernel
-- the hypothesis of `C58_hash_map_versions` with `C = 1`: keys that are hashed to themselves
example (keys : List UInt64) (hd : keys.Pairwise fun a b => (a == b) = false) (hs : ∀ a ∈ keys, ∀ b ∈ keys, id a = id b) : keys.length ≤ 1 := by
  match keys, hd, hs with
  | [], _, _ => exact Nat.zero_le _
  | [_], _, _ => exact Nat.le_refl _
  | a :: b :: _, hd, hs =>
    have h1 : a = b := hs a (by simp) b (by simp)
    have := List.rel_of_pairwise_cons hd (a' := b) (by simp)
    simp [h1] at this

end Props
end Rpds
