import Verif.Heap.Space
import Verif.Heap.CostVector
/-
What the operations of `Vector` allocate: one cell for each level of the tree, and the element.
-/
set_option autoImplicit false
namespace Rpds
namespace Heap

section
variable {T : Type} {Ar : Arch} {n bits index : Nat}

namespace HNode

theorem allocs_readVal {p : Addr} : Allocs (Uses T n 0) (readVal p) n := by
  unfold readVal
  alloc_go

theorem allocs_getStep {h : Nat} {sub : Addr → Prog (VLabel T) T} (hs : ∀ p n, Allocs (Uses T n 0) (sub p) n) {p : Addr} :
    Allocs (Uses T n 0) (getStep Ar bits index h sub p) n := by
  refine Allocs.bind allocs_read ?_
  rintro y n' h2
  refine Allocs.bind allocs_lift ?_
  rintro b n2 h4
  split
  · refine Allocs.bind allocs_lift ?_
    rintro q n3 h6
    exact (hs q n3).imp fun _ _ h => by simp only [Uses] at *; omega
  · refine Allocs.bind allocs_lift ?_
    rintro _ n3 h6
    refine Allocs.bind allocs_lift ?_
    rintro q n4 h8
    exact allocs_readVal.imp fun _ _ h => by simp only [Uses] at *; omega
  · exact Allocs.panic

theorem allocs_get (h : Nat) {p : Addr} : Allocs (Uses T n 0) (get Ar bits index h p) n := by
  induction h generalizing p n with
  | zero => exact allocs_getStep fun _ _ => Allocs.panic
  | succ h ih => exact allocs_getStep fun _ _ => ih

theorem allocs_assocStep {v : T} {h a : Nat} {sub : Content (VLabel T) → Prog (VLabel T) (Unit × Content (VLabel T))}
    (h1 : a + 1 ≤ n) (hs : ∀ y n', n ≤ n' + 1 → Allocs (Uses _ n' a) (sub y) n') {y : Content (VLabel T)} :
    Allocs (Uses _ n (a + 1)) (assocStep Ar bits v index h sub y) n := by
  refine Allocs.bind allocs_lift ?_
  rintro b n1 h2
  split
  · alloc_go
  · refine Allocs.bind allocs_lift ?_
    rintro _ n2 h4
    simp only [Uses] at h2 h4
    split
    · refine Allocs.bind (allocs_modifyPtr (a := a) (by omega) ?_) ?_
      · intro y n3 h6
        exact (hs y n3 (by omega)).imp fun _ _ h => by simp only [Uses] at *; omega
      · rintro _ n3 h6
        simp only [Uses] at h6
        exact Allocs.ret' (by omega)
    · refine Allocs.bind (hs _ n2 (by omega)) ?_
      rintro z n3 h6
      simp only [Uses] at h6
      refine Allocs.bind (allocs_new (by omega)) ?_
      rintro _ n4 h8
      simp only [Uses] at h8
      exact Allocs.ret' (by omega)
  · exact Allocs.panic

theorem allocs_assoc {v : T} (h : Nat) {y : Content (VLabel T)} (h1 : h + 1 ≤ n) :
    Allocs (Uses _ n (h + 1)) (assoc Ar bits v index h y) n := by
  induction h generalizing y n with
  | zero => exact allocs_assocStep (a := 0) (by omega) fun _ _ _ => Allocs.panic
  | succ h ih => exact allocs_assocStep (a := h + 1) (by omega) fun _ n' h2 => ih (by omega)

theorem allocs_dropLastStep {a : Nat} {sub : Content (VLabel T) → Prog (VLabel T) (Bool × Content (VLabel T))} (h1 : a + 1 ≤ n)
    (hs : ∀ y n', n ≤ n' + 1 → Allocs (Uses _ n' a) (sub y) n') {y : Content (VLabel T)} :
    Allocs (Uses _ n (a + 1)) (dropLastStep sub y) n := by
  unfold dropLastStep
  split
  · exact Allocs.ret' (by omega)
  · split
    · alloc_go
    · refine Allocs.bind (allocs_modifyPtr (a := a) (by omega) ?_) ?_
      · intro y n3 h6
        exact (hs y n3 (by omega)).imp fun _ _ h => by simp only [Uses] at *; omega
      · rintro _ n3 h6
        alloc_go
    · exact Allocs.panic

theorem allocs_dropLast (h : Nat) {y : Content (VLabel T)} (h1 : h + 1 ≤ n) : Allocs (Uses _ n (h + 1)) (dropLast h y) n := by
  induction h generalizing y n with
  | zero => exact allocs_dropLastStep (a := 0) (by omega) fun _ _ _ => Allocs.panic
  | succ h ih => exact allocs_dropLastStep (a := h + 1) (by omega) fun _ n' h2 => ih (by omega)

theorem allocs_modifyVal {f : T → T} {y : Content (VLabel T)} : Allocs (Uses _ n 0) (modifyVal f y) n := by
  unfold modifyVal
  alloc_go

theorem allocs_modifyStep {f : T → T} {h a : Nat} {sub : Content (VLabel T) → Prog (VLabel T) (Unit × Content (VLabel T))}
    (h1 : a + 1 ≤ n) (hs : ∀ y n', n ≤ n' + 1 → Allocs (Uses _ n' a) (sub y) n') {y : Content (VLabel T)} :
    Allocs (Uses _ n (a + 1)) (modifyStep Ar bits f index h sub y) n := by
  refine Allocs.bind allocs_lift ?_
  rintro b n1 h2
  split
  · refine Allocs.bind allocs_lift ?_
    rintro _ n2 h4
    simp only [Uses] at h2 h4
    refine Allocs.bind (allocs_modifyPtr (a := a) (by omega) ?_) ?_
    · intro y n3 h6
      exact (hs y n3 (by omega)).imp fun _ _ h => by simp only [Uses] at *; omega
    · rintro _ n3 h6
      simp only [Uses] at h6
      exact Allocs.ret' (by omega)
  · refine Allocs.bind allocs_lift ?_
    rintro _ n2 h4
    refine Allocs.bind allocs_lift ?_
    rintro _ n3 h6
    simp only [Uses] at h2 h4 h6
    refine Allocs.bind (allocs_modifyPtr (a := 0) (by omega) ?_) ?_
    · intro y n4 h8
      exact allocs_modifyVal.imp fun _ _ h => by simp only [Uses] at *; omega
    · rintro _ n4 h8
      simp only [Uses] at h8
      exact Allocs.ret' (by omega)
  · exact Allocs.panic

theorem allocs_modify {f : T → T} (h : Nat) {y : Content (VLabel T)} (h1 : h + 1 ≤ n) :
    Allocs (Uses _ n (h + 1)) (modify Ar bits f index h y) n := by
  induction h generalizing y n with
  | zero => exact allocs_modifyStep (a := 0) (by omega) fun _ _ _ => Allocs.panic
  | succ h ih => exact allocs_modifyStep (a := h + 1) (by omega) fun _ n' h2 => ih (by omega)

theorem allocs_viewStep {sub : Addr → Prog (VLabel T) (VNode T)} (hs : ∀ p n, Allocs (Uses _ n 0) (sub p) n) {p : Addr} :
    Allocs (Uses _ n 0) (viewStep sub p) n := by
  refine Allocs.bind allocs_read ?_
  rintro y n1 h1
  split
  · refine Allocs.bind (allocs_forAll (fun _ _ => allocs_readVal) _ _) ?_
    rintro _ n2 h2
    simp only [Uses] at *
    exact Allocs.ret' (by omega)
  · refine Allocs.bind (allocs_forAll hs _ _) ?_
    rintro _ n2 h2
    simp only [Uses] at *
    exact Allocs.ret' (by omega)
  · exact Allocs.panic

theorem allocs_view (h : Nat) {p : Addr} : Allocs (Uses _ n 0) (view h p : Prog (VLabel T) _) n := by
  induction h generalizing p n with
  | zero => exact allocs_viewStep fun _ _ => Allocs.panic
  | succ h ih => exact allocs_viewStep fun _ _ => ih

end HNode

namespace HVector
variable {v : HVector}

theorem allocs_liftHeight (hW : 1 < Ar.W) :
    Allocs (fun h n' => h ≤ levels v.bits v.length ∧ n ≤ n') (lift (v.shape.height Ar) : Prog (VLabel T) _) n := by
  cases e : v.shape.height Ar with
  | error => exact Allocs.panic
  | ok h => exact ⟨Nat.le_trans (height_le hW e) (levels_mono (Nat.sub_le _ _)), by omega⟩

theorem allocs_get : Allocs (Uses (Option T) n 0) (v.get Ar index) n := by
  unfold get
  split
  · alloc_go
  · refine Allocs.bind allocs_lift ?_
    rintro h n' h2
    refine Allocs.bind (HNode.allocs_get h) ?_
    rintro _ n2 h5
    alloc_go

theorem allocs_last : Allocs (Uses (Option T) n 0) (v.last Ar) n := by
  unfold last
  split
  · alloc_go
  · refine Allocs.bind allocs_lift ?_
    rintro i n' h2
    exact allocs_get.imp fun _ _ h => by simp only [Uses] at *; omega

theorem allocs_clone : Allocs (fun r n' => r = v ∧ n ≤ n') (v.clone : Prog (VLabel T) HVector) n := by
  refine Allocs.bind Heap.allocs_clone ?_
  rintro _ n' h2
  simp only [Uses] at h2
  exact ⟨rfl, by omega⟩

/-- `Vector::assoc`; the result has at most one more item. -/
theorem allocs_assoc {y : T} (hW : 1 < Ar.W) (h1 : levels v.bits (v.length - 1) + 2 ≤ n) :
    Allocs (fun r n' => (r.bits = v.bits ∧ r.length ≤ v.length + (if index < v.length then 0 else 1)) ∧
      n ≤ n' + (levels v.bits (v.length - 1) + 2)) (v.assoc Ar index y) n := by
  refine Allocs.bind allocs_lift ?_
  rintro _ n1 h2
  simp only [Uses] at h2
  cases e : v.shape.height Ar with
  | error => exact Allocs.panic
  | ok h =>
    have hl : h ≤ levels v.bits (v.length - 1) := height_le hW e
    refine Allocs.bind (prog := modifyPtr v.root (HNode.assoc Ar v.bits y index h)) (allocs_modifyPtr (a := h + 1) (by omega) ?_) ?_
    · intro y n2 h4
      exact (HNode.allocs_assoc h (by omega)).imp fun _ _ h => by simp only [Uses] at *; omega
    · rintro r n2 h4
      simp only [Uses] at h4
      by_cases hi : index ≥ v.length
      · rw [if_neg (by omega), if_pos hi]
        refine Allocs.bind (Q := fun l n' => l ≤ v.length + 1 ∧ n2 ≤ n') ?_ ?_
        · cases e : Ar.uadd v.length 1 with
          | error => exact Allocs.panic
          | ok l => exact ⟨uadd_le e, by omega⟩
        · rintro l n3 ⟨h6, h7⟩
          exact ⟨⟨rfl, h6⟩, by omega⟩
      · rw [if_neg hi]
        exact ⟨⟨rfl, by simp only; omega⟩, by omega⟩

theorem allocs_setMut {y : T} (hW : 1 < Ar.W) (h1 : levels v.bits v.length + 2 ≤ n) :
    Allocs (fun r n' => r.2.bits = v.bits ∧ n ≤ n' + (levels v.bits v.length + 2)) (v.setMut Ar index y) n := by
  have := levels_mono (b := v.bits) (Nat.sub_le v.length 1)
  unfold setMut
  split
  · exact ⟨rfl, by omega⟩
  · refine Allocs.bind (allocs_assoc hW (by omega)) ?_
    rintro _ n1 ⟨⟨h3, -⟩, h2⟩
    exact ⟨h3, by omega⟩

theorem allocs_set {y : T} (hW : 1 < Ar.W) (h1 : levels v.bits v.length + 2 ≤ n) :
    Allocs (fun r _ => ∀ w, r = some w → w.bits = v.bits) (v.set Ar index y) n := by
  refine Allocs.bind allocs_clone ?_
  rintro _ n1 ⟨rfl, h3⟩
  refine Allocs.bind (allocs_setMut hW (by omega)) ?_
  rintro ⟨b, w⟩ n2 ⟨h4, h5⟩
  cases b with
  | true => rintro _ ⟨⟩; exact h4
  | false =>
    refine Allocs.bind allocs_drop ?_
    rintro _ n3 h8 _ ⟨⟩

theorem allocs_pushBackMut {y : T} (hW : 1 < Ar.W) (h1 : levels v.bits v.length + 3 ≤ n) :
    Allocs (fun r n' => (r.bits = v.bits ∧ r.length ≤ v.length + 1) ∧ n ≤ n' + (levels v.bits v.length + 3))
      (v.pushBackMut Ar y) n := by
  have hm := levels_mono (b := v.bits) (Nat.sub_le v.length 1)
  refine Allocs.bind allocs_lift ?_
  rintro full n1 h3
  simp only [Uses] at h3
  split
  · refine Allocs.bind Heap.allocs_clone ?_
    rintro _ n2 h5
    simp only [Uses] at h5
    refine Allocs.bind (allocs_new (by omega)) ?_
    rintro _ n3 h7
    refine Allocs.bind allocs_drop ?_
    rintro _ n4 h9
    simp only [Uses] at h7 h9
    cases e : Ar.uadd v.length 1 with
    | error => exact Allocs.panic
    | ok l =>
      have hl := uadd_le e
      have hm' : levels v.bits (l - 1) ≤ levels v.bits v.length := levels_mono (by omega)
      refine Allocs.imp (prog := assoc Ar _ v.length y) (allocs_assoc hW (by simp only; omega)) ?_
      rintro r n5 ⟨⟨e1, e2⟩, h11⟩
      simp only at e1 e2 h11
      refine ⟨⟨e1, ?_⟩, by omega⟩
      split at e2
      · omega
      · next hlt =>
        have : l ≤ v.length := by omega
        omega
  · refine Allocs.imp (allocs_assoc hW (by omega)) ?_
    rintro r n5 ⟨⟨e1, e2⟩, h11⟩
    rw [if_neg (by omega)] at e2
    exact ⟨⟨e1, e2⟩, by omega⟩

theorem allocs_dropCompress {h : Nat} {y : Content (VLabel T)} (h1 : h + 1 ≤ n) :
    Allocs (Uses _ n (h + 1)) (dropCompress h y) n := by
  refine Allocs.bind (HNode.allocs_dropLast h h1) ?_
  rintro ⟨b, y⟩ n1 h2
  simp only [Uses] at h2
  dsimp only
  split <;> exact Allocs.ret' (by omega)

theorem allocs_dropLastMut (hW : 1 < Ar.W) (h1 : levels v.bits v.length + 2 ≤ n) :
    Allocs (fun r n' => r.2.bits = v.bits ∧ n ≤ n' + (levels v.bits v.length + 2)) (v.dropLastMut Ar : Prog (VLabel T) _) n := by
  unfold dropLastMut
  split
  · refine Allocs.bind (allocs_liftHeight hW) ?_
    rintro h n1 ⟨h2, h3⟩
    refine Allocs.bind (allocs_modifyPtr (a := h + 1) (by omega) ?_) ?_
    · intro y n2 h4
      exact (allocs_dropCompress (by omega)).imp fun _ _ h => by simp only [Uses] at *; omega
    · rintro r n2 h4
      refine Allocs.bind allocs_lift ?_
      rintro l n3 h6
      simp only [Uses] at h4 h6
      split
      · refine Allocs.bind allocs_drop ?_
        rintro _ n4 h8
        simp only [Uses] at h8
        exact ⟨rfl, by omega⟩
      · exact ⟨rfl, by omega⟩
  · exact ⟨rfl, by omega⟩

theorem allocs_dropLast (hW : 1 < Ar.W) (h1 : levels v.bits v.length + 2 ≤ n) :
    Allocs (fun r _ => ∀ w, r = some w → w.bits = v.bits) (v.dropLast Ar : Prog (VLabel T) _) n := by
  refine Allocs.bind allocs_clone ?_
  rintro _ n1 ⟨rfl, h3⟩
  refine Allocs.bind (allocs_dropLastMut hW (by omega)) ?_
  rintro ⟨b, w⟩ n2 ⟨h4, h5⟩
  cases b with
  | true => rintro _ ⟨⟩; exact h4
  | false =>
    refine Allocs.bind allocs_drop ?_
    rintro _ n3 h8 _ ⟨⟩

theorem allocs_modify {f : T → T} (hW : 1 < Ar.W) (h1 : levels v.bits v.length + 2 ≤ n) :
    Allocs (fun r _ => ∀ w, r = some w → w.bits = v.bits) (v.modify Ar index f) n := by
  unfold modify
  split
  · rintro _ ⟨⟩
  · refine Allocs.bind (allocs_liftHeight hW) ?_
    rintro h n1 ⟨h2, h3⟩
    refine Allocs.bind (allocs_modifyPtr (a := h + 1) (by omega) ?_) ?_
    · intro y n2 h4
      exact (HNode.allocs_modify h (by omega)).imp fun _ _ h => by simp only [Uses] at *; omega
    · rintro r n2 h4 _ ⟨⟩
      rfl

theorem allocs_extend {ys : List T} {a : Nat} (hW : 1 < Ar.W) (ha : levels v.bits (v.length + ys.length) + 3 ≤ a)
    (h1 : ys.length * a ≤ n) : Allocs (fun r _ => r.bits = v.bits) (v.extend Ar ys) n := by
  induction ys generalizing v n with
  | nil => exact rfl
  | cons y ys ih =>
    simp only [List.length_cons, Nat.add_mul, Nat.one_mul] at *
    have hm : levels v.bits v.length ≤ levels v.bits (v.length + (ys.length + 1)) := levels_mono (by omega)
    refine Allocs.bind (allocs_pushBackMut hW (by omega)) ?_
    rintro w n1 ⟨⟨e1, e2⟩, h3⟩
    have hm' : levels w.bits (w.length + ys.length) ≤ levels v.bits (v.length + (ys.length + 1)) := by
      rw [e1]; exact levels_mono (by omega)
    exact (ih (by omega) (by omega)).imp fun _ _ h => by rw [h, e1]

end HVector

open HVector in
/-- What an operation of `Vector` allocates. -/
def vecAllocs (bits length : Nat) : RVector.Op T → Nat
  | .pushBack _ | .pushBackMut _ => levels bits length + 3
  | .set _ _ | .setMut _ _ | .dropLast | .dropLastMut | .getMut _ _ | .indexMut _ _ => levels bits length + 2
  | .extend xs => xs.length * (levels bits (length + xs.length) + 3)
  | _ => 0

theorem allocs_vecHStep (hW : 1 < Ar.W) (v : HVector) (op : RVector.Op T) :
    Allocs (fun x _ => Effect.Keeps (fun w => w.bits = v.bits) x.2) (vecHStep Ar v op) (vecAllocs v.bits v.length op) := by
  cases op <;> simp only [vecAllocs, vecHStep]
  case pushBack y =>
    refine Allocs.bind (Allocs.bind HVector.allocs_clone ?_) (Q := fun w _ => w.bits = v.bits) ?_
    · rintro _ n1 ⟨rfl, h3⟩
      exact (HVector.allocs_pushBackMut hW h3).imp fun _ _ h => h.1.1
    · intro _ _ h; exact h
  case pushBackMut y =>
    refine Allocs.bind (HVector.allocs_pushBackMut hW (Nat.le_refl _)) ?_
    intro _ _ h; exact h.1.1
  case set i y =>
    refine Allocs.bind (HVector.allocs_set hW (Nat.le_refl _)) ?_
    intro _ _ h; split
    · exact h _ rfl
    · trivial
  case setMut i y =>
    refine Allocs.bind (HVector.allocs_setMut hW (Nat.le_refl _)) ?_
    intro _ _ h; exact h.1
  case dropLast =>
    refine Allocs.bind (HVector.allocs_dropLast hW (Nat.le_refl _)) ?_
    intro _ _ h; split
    · exact h _ rfl
    · trivial
  case dropLastMut =>
    refine Allocs.bind (HVector.allocs_dropLastMut hW (Nat.le_refl _)) ?_
    intro _ _ h; exact h.1
  case getMut i f =>
    refine Allocs.bind (HVector.allocs_modify hW (Nat.le_refl _)) ?_
    intro _ _ h; split
    · exact h _ rfl
    · trivial
  case indexMut i f =>
    refine Allocs.bind (HVector.allocs_modify hW (Nat.le_refl _)) ?_
    intro _ _ h; split
    · exact h _ rfl
    · trivial
  case extend xs =>
    refine Allocs.bind (HVector.allocs_extend hW (Nat.le_refl _) (Nat.le_refl _)) ?_
    intro _ _ h; exact h
  case clone =>
    refine Allocs.bind HVector.allocs_clone ?_
    rintro _ _ ⟨rfl, -⟩; exact rfl
  case get i =>
    refine Allocs.bind HVector.allocs_get ?_
    intros; trivial
  case index i =>
    refine Allocs.bind HVector.allocs_get ?_
    intros; split <;> trivial
  case first =>
    refine Allocs.bind HVector.allocs_get ?_
    intros; trivial
  case last =>
    refine Allocs.bind HVector.allocs_last ?_
    intros; trivial
  case len => trivial
  case isEmpty => trivial
  case iter cs =>
    refine Allocs.bind (Q := fun _ _ => True) ?_ ?_
    · refine Allocs.bind allocs_lift ?_
      rintro h n1 -
      refine Allocs.bind (HNode.allocs_view h) ?_
      rintro _ n2 -
      refine Allocs.bind allocs_lift ?_
      rintro _ n3 -
      refine Allocs.bind allocs_lift ?_
      intros; trivial
    · intros; trivial

end
end Heap
end Rpds
