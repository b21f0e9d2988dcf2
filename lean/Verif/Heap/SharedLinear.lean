import Verif.Heap.Shared
import Verif.Heap.Linear
/-
Lent lists, stacks and queues.
-/
set_option autoImplicit false
namespace Rpds
namespace Heap

/-- The methods of `List` that take `&self`. -/
def listByRef {T : Type} : RList.Op T → Bool
  | .pushFrontMut _ | .dropFirstMut | .reverseMut => false
  | _ => true

/-- The methods of `Stack` that take `&self`. -/
def stackByRef {T : Type} : Stack.Op T → Bool
  | .pushMut _ | .popMut => false
  | _ => true

/-- The methods of `Queue` that take `&self`. -/
def queueByRef {T : Type} : Queue.Op T → Bool
  | .enqueueMut _ | .dequeueMut => false
  | _ => true

section
variable {L : Type} {A : Allocator L} {D : Option Nat} {B : List (Item L)}

theorem safeB_cloneOpt {o : Option (ATree L)} (ht : ∀ t, o = some t → .ptr t ∈ B) (ρ : List (Item L)) :
    SafeB A D B (fun _ σ => σ = optPtr o ++ ρ) (cloneOpt (o.map ATree.addr)) ρ := by
  cases o with
  | none => exact SafeB.ret rfl
  | some s => exact safeB_clone (.refl s) (ht s rfl) ρ

namespace HList
variable {T : Type} {nd : L} {dec : ATree L → T → Prop}

theorem readsOnly_readNode (p : Addr) : (readNode p : Prog L _).ReadsOnly := by
  refine (readsOnly_read p).bind ?_
  rintro ⟨l, cs⟩
  match cs with
  | [] => trivial
  | [_] => trivial
  | [_, _] => trivial
  | _ :: _ :: _ :: _ => trivial

theorem readsOnly_first (l : HList) : (l.first : Prog L _).ReadsOnly := by
  unfold first
  split
  · trivial
  · exact (readsOnly_readNode _).bind fun _ => trivial

theorem safeB_clone {l : HList} {r : RList T} {β C : List (Item L)} (h : l.Is nd dec r β) (ρ : List (Item L)) :
    SafeB A D (β ++ C) (fun l' σ => ∃ τ, σ = τ ++ ρ ∧ l'.Is nd dec r.clone τ) l.clone ρ := by
  obtain ⟨th, tl, rfl, rfl, h1, h2⟩ := h
  refine SafeB.bind (safeB_cloneOpt (o := th) (by rintro t rfl; simp) ρ) ?_
  rintro _ _ rfl
  refine SafeB.bind (safeB_cloneOpt (o := tl) (by rintro t rfl; simp) _) ?_
  rintro _ _ rfl
  refine ⟨_, ?_, optPtr th ++ optPtr tl, rfl, th, tl, rfl, rfl, h1, h2⟩
  perm_tac

theorem safeB_dropFirst (hE : ElemOK D dec) {l : HList} {r : RList T} {β : List (Item L)} (h : l.Is nd dec r β)
    (hl : r.head.toList.length = r.length) {o : Option (RList T)} (he : r.dropFirst = .ok o) :
    SafeB A D β (fun x τ => match o with
      | none => x = none ∧ τ = []
      | some r' => ∃ l', x = some l' ∧ l'.Is nd dec r' τ) l.dropFirst [] := by
  have hc := safeB_clone (A := A) (D := D) (C := []) h []
  rw [List.append_nil] at hc
  refine SafeB.bind hc ?_
  rintro l' _ ⟨τ, rfl, h'⟩
  rw [List.append_nil]
  refine Safe.borrowing ?_
  cases hd : r.clone.dropFirstMut with
  | error e => simp [RList.dropFirst, hd] at he
  | ok x =>
    obtain ⟨b, r'⟩ := x
    simp [RList.dropFirst, hd] at he
    refine Safe.bind (safe_dropFirstMut hE h' hd) ?_
    rintro ⟨b', l''⟩ τ ⟨rfl, h''⟩
    simp only at h'' ⊢
    have hlen := length_dropFirstMut (r := r.clone) hl hd
    cases b' with
    | true =>
      simp only [if_true] at he ⊢
      subst he
      exact Safe.ret ⟨l'', rfl, h''⟩
    | false =>
      simp only [Bool.false_eq_true, if_false] at he ⊢
      subst he
      refine Safe.bind (safe_dropList hE h'' hlen.1 (.inr (hlen.2 rfl))) ?_
      rintro _ _ rfl
      exact Safe.ret ⟨rfl, rfl⟩

theorem safeB_readNode {s t tv : ATree L} {tn : Option (ATree L)} {a : Addr} 
    (e : s = .node a nd (tv :: tn.toList)) (hs : Sub s t) (ht : .ptr t ∈ B) (ρ : List (Item L)) :
    SafeB A D B (fun r σ => r = (tv.addr, tn.map ATree.addr) ∧ σ = ρ) (readNode s.addr) ρ := by
  refine SafeB.bind (safeB_read hs ht ρ) ?_
  rintro c σ ⟨rfl, rfl⟩
  subst e
  cases tn <;> exact SafeB.ret ⟨rfl, rfl⟩

theorem safeB_reverseLoop (hE : ElemOK D dec) {t : ATree L} (ht : .ptr t ∈ B) (tn : Option (ATree L)) (next : Link T)
    (hn : IsLink nd dec tn next) (hs : ∀ s, tn = some s → Sub s t) (fuel : Nat) (hf : next.toList.length ≤ fuel) (l : HList)
    (r : RList T) (ρ : List (Item L)) (h : l.Is nd dec r ρ) :
    SafeB A D B (fun l' σ => l'.Is nd dec (next.toList.foldl (fun n v => n.pushFrontPtrMut v) r) σ)
      (reverseLoop nd fuel (tn.map ATree.addr) l) ρ := by
  induction hn generalizing fuel l r ρ with
  | none => cases fuel <;> exact SafeB.ret h
  | @some a tv tn v next hv hn ih =>
    cases fuel with
    | zero => simp [Link.toList] at hf
    | succ fuel =>
      have hsub := hs _ rfl
      refine SafeB.bind (safeB_readNode (s := .node a nd (tv :: tn.toList)) rfl hsub ht ρ) ?_
      rintro c σ ⟨rfl, rfl⟩
      simp only
      refine SafeB.bind (Heap.safeB_clone (s := tv) (t := t) (.kid hsub (by simp [ATree.kids])) ht _) ?_
      rintro _ _ rfl
      refine SafeB.bind (Safe.borrowing (Safe.perm (safe_pushFrontPtrMut hE h hv) (by perm_tac))) ?_
      intro l' τ h'
      refine ih ?_ fuel (by simp [Link.toList] at hf; omega) l' _ τ h'
      rintro s rfl
      exact .kid hsub (by simp [ATree.kids])

theorem safeB_reverse (hE : ElemOK D dec) {l : HList} {r : RList T} {β : List (Item L)} (h : l.Is nd dec r β)
    (hl : r.head.toList.length = r.length) :
    ∃ r', r.reverse = .ok r' ∧ SafeB A D β (fun l' τ => l'.Is nd dec r' τ) (l.reverse nd) [] := by
  refine ⟨_, iterFold_toList _ r.head _ (by omega) _ hl _, ?_⟩
  obtain ⟨th, tl, rfl, rfl, h1, h2⟩ := h
  cases th with
  | none =>
    generalize hr : r.head = hd at *
    cases h1
    cases r.length <;> exact SafeB.ret (is_new nd dec)
  | some t =>
    exact safeB_reverseLoop hE (t := t) (by simp) (some t) _ h1 (by rintro s e; cases e; exact .refl t) r.length (by omega)
      HList.new _ [] (is_new nd dec)

end HList
end

section
variable {T : Type} {A : Allocator (LinLabel T)}

theorem readsOnly_readVal (p : Addr) : (readVal p : Prog (LinLabel T) _).ReadsOnly := by
  refine (readsOnly_read p).bind ?_
  rintro ⟨l, cs⟩
  cases l <;> trivial

theorem readsOnly_readValOpt (o : Option Addr) : (readValOpt o : Prog (LinLabel T) _).ReadsOnly := by
  cases o with
  | none => trivial
  | some p => exact (readsOnly_readVal p).bind fun _ => trivial

theorem readsOnly_viewLink (fuel : Nat) (o : Option Addr) : (viewLink fuel o : Prog (LinLabel T) _).ReadsOnly := by
  induction fuel generalizing o with
  | zero => cases o <;> trivial
  | succ fuel ih =>
    cases o with
    | none => trivial
    | some p =>
      refine (HList.readsOnly_readNode p).bind fun x => ?_
      exact (readsOnly_readVal _).bind fun v => (ih _).bind fun _ => trivial

theorem listImpl_lends : (listImpl T).Lends A (fun xs op => .ok (Spec.listStep xs op)) ListIs listByRef where
  step := by
    intro l xs β op r e h hb he
    have hE : HList.ElemOK none (linDec (T := T)) := linElemOK (within_none 1)
    have hval : ∀ v : T, ∀ a, linDec (.node a (.val v) []) v := fun v a => ⟨rfl, rfl⟩
    have rd : ∀ op : RList.Op T, (Spec.listStep xs op).2 = .keep → (listHStep l op).ReadsOnly →
        SafeB A none β (fun x τ => x.1 = (Spec.listStep xs op).1 ∧ EffNew ListIs x.2 (Spec.listStep xs op).2 τ)
          (listHStep l op) [] := by
      intro op h1 h2
      rw [h1]
      exact listImpl_refines.reads (op := op) h (by simp [← h1]) h2
    simp only [Except.ok.injEq] at he
    obtain ⟨rfl, rfl⟩ := Prod.mk.inj (he : ((Spec.listStep xs op).1, (Spec.listStep xs op).2) = _)
    obtain ⟨r, hi, hr⟩ := h
    have hl : r.head.toList.length = r.length := by rw [hr.head, hr.length]
    have clone := HList.safeB_clone (A := A) (D := none) (C := []) hi []
    simp only [List.append_nil] at clone
    cases op with
    | pushFrontMut v => cases hb
    | dropFirstMut => cases hb
    | reverseMut => cases hb
    | pushFront v =>
      refine SafeB.bind (Q := fun l' τ => l'.Is .node linDec (r.pushFront v) τ) (SafeB.bind clone ?_) ?_
      · rintro l' _ ⟨τ, rfl, h'⟩
        exact (HList.safe_pushFrontMut hE h' (hval v)).borrowing
      · intro l' τ h'
        exact SafeB.ret ⟨rfl, .fresh ⟨_, h', hr.pushFront v⟩⟩
    | dropFirst =>
      cases xs with
      | nil =>
        refine SafeB.bind (HList.safeB_dropFirst hE hi hl (o := none) (by simp [RList.dropFirst, hr.clone.dropFirstMut_nil])) ?_
        rintro x _ ⟨rfl, rfl⟩
        exact SafeB.ret ⟨rfl, .keep⟩
      | cons x xs =>
        obtain ⟨r', h1, h2⟩ := hr.clone.dropFirstMut_cons
        refine SafeB.bind (HList.safeB_dropFirst hE hi hl (o := some r') (by simp [RList.dropFirst, h1])) ?_
        rintro _ τ ⟨l', rfl, h'⟩
        exact SafeB.ret ⟨rfl, .fresh ⟨r', h', h2⟩⟩
    | reverse =>
      obtain ⟨r', h1, h2⟩ := HList.safeB_reverse (A := A) hE hi hl
      obtain ⟨r'', h3, h4⟩ := hr.reverse
      rw [h1] at h3
      cases h3
      refine SafeB.bind h2 ?_
      intro l' τ h'
      exact SafeB.ret ⟨rfl, .fresh ⟨_, h', h4⟩⟩
    | clone =>
      refine SafeB.bind clone ?_
      rintro l' _ ⟨τ, rfl, h'⟩
      exact SafeB.ret ⟨rfl, .fresh ⟨_, h', hr.clone⟩⟩
    | first =>
      exact rd .first rfl ((HList.readsOnly_first l).bind fun _ => (readsOnly_readValOpt _).bind fun _ => trivial)
    | last => exact rd .last rfl ((readsOnly_readValOpt _).bind fun _ => trivial)
    | len => exact rd .len rfl trivial
    | isEmpty => exact rd .isEmpty rfl trivial
    | iter n =>
      refine rd (.iter n) rfl (Prog.ReadsOnly.bind ((readsOnly_viewLink _ _).bind fun _ => ?_) fun _ => trivial)
      split <;> trivial

theorem stackImpl_lends : (stackImpl T).Lends A (fun xs op => .ok (Spec.stackStep xs op)) ListIs stackByRef where
  step := by
    intro l xs β op r e h hb he
    cases op with
    | push v => exact listImpl_lends.step l xs β (.pushFront v) r e h rfl he
    | pushMut v => cases hb
    | pop => exact listImpl_lends.step l xs β .dropFirst r e h rfl he
    | popMut => cases hb
    | clone => exact listImpl_lends.step l xs β .clone r e h rfl he
    | peek => exact listImpl_lends.step l xs β .first r e h rfl he
    | size => exact listImpl_lends.step l xs β .len r e h rfl he
    | isEmpty => exact listImpl_lends.step l xs β .isEmpty r e h rfl he
    | iter n => exact listImpl_lends.step l xs β (.iter n) r e h rfl he

theorem safeB_queueClone {q : HQueue} {r : Queue T} {β : List (Item (LinLabel T))} (h : q.Is r β) :
    SafeB A none β (fun q' τ => q'.Is r.clone τ) q.clone [] := by
  obtain ⟨ρ₁, ρ₂, rfl, h1, h2, h3, h4⟩ := h
  refine SafeB.bind (HList.safeB_clone h1 []) ?_
  rintro l1 _ ⟨τ₁, rfl, h1'⟩
  refine SafeB.bind ((HList.safeB_clone (C := ρ₁) h2 _).more (C := []) (by simpa using List.perm_append_comm)) ?_
  rintro l2 _ ⟨τ₂, rfl, h2'⟩
  refine ⟨_, ?_, τ₁, τ₂, rfl, h1', h2', h3, h4⟩
  rw [List.append_nil]
  exact List.perm_append_comm

theorem queueImpl_lends : (queueImpl T).Lends A (fun xs op => .ok (Spec.queueStep xs op)) QueueIs queueByRef where
  step := by
    intro q xs β op r e h hb he
    have hD : Within none 1 := within_none 1
    have hE : HList.ElemOK none (linDec (T := T)) := linElemOK hD
    have hval : ∀ v : T, ∀ a, linDec (.node a (.val v) []) v := fun v a => ⟨rfl, rfl⟩
    have rd : ∀ op : Queue.Op T, (Spec.queueStep xs op).2 = .keep → (queueHStep q op).ReadsOnly →
        SafeB A none β (fun x τ => x.1 = (Spec.queueStep xs op).1 ∧ EffNew QueueIs x.2 (Spec.queueStep xs op).2 τ)
          (queueHStep q op) [] := by
      intro op h1 h2
      rw [h1]
      exact queueImpl_refines.reads (op := op) h (by simp [← h1]) h2
    have enq : ∀ {q : HQueue} {r : Queue T} {ρ : List (Item (LinLabel T))} (v : T), q.Is r ρ →
        Safe A none (fun q' σ => q'.Is (r.enqueueMut v) σ) (q.enqueueMut v) ρ := by
      rintro q r ρ v ⟨ρ₁, ρ₂, rfl, h1, h2, h3, h4⟩
      refine Safe.bindFrame (F := ρ₂) (HList.safe_pushFrontMut hE h1 (hval v)) (.refl _) ?_
      intro l' τ h'
      refine Safe.ret ⟨τ, ρ₂, rfl, h', h2, ?_, h4⟩
      simp [Queue.enqueueMut, RList.pushFrontMut, RList.pushFrontPtrMut, Link.toList, h3]
    simp only [Except.ok.injEq] at he
    obtain ⟨rfl, rfl⟩ := Prod.mk.inj (he : ((Spec.queueStep xs op).1, (Spec.queueStep xs op).2) = _)
    obtain ⟨r, hi, hr⟩ := h
    cases op with
    | enqueueMut v => cases hb
    | dequeueMut => cases hb
    | enqueue v =>
      refine SafeB.bind (Q := fun q' τ => q'.Is (r.enqueue v) τ) (SafeB.bind (safeB_queueClone hi) ?_) ?_
      · intro q' τ h'
        exact (enq v h').borrowing
      · intro q' τ h'
        exact SafeB.ret ⟨rfl, .fresh ⟨_, h', hr.clone.enqueueMut v⟩⟩
    | dequeue =>
      have main : ∀ b r', r.clone.dequeueMut = .ok (b, r') →
          SafeB A none β (fun x τ => if b then ∃ q', x = some q' ∧ q'.Is r' τ else x = none ∧ τ = []) q.dequeue [] := by
        intro b r' he
        refine SafeB.bind (safeB_queueClone hi) ?_
        intro q' τ h'
        refine Safe.borrowing (Safe.bind (safe_dequeueMut hD h' he) ?_)
        rintro ⟨b', q''⟩ τ ⟨rfl, h'', h3⟩
        cases b' with
        | true => exact Safe.ret ⟨q'', rfl, h''⟩
        | false =>
          refine Safe.bind (safe_dropQueue hD h'' (.inl rfl)) ?_
          rintro _ _ rfl
          exact Safe.ret ⟨rfl, rfl⟩
      cases xs with
      | nil =>
        refine SafeB.bind (main _ _ hr.clone.dequeueMut_nil) ?_
        rintro x _ ⟨rfl, rfl⟩
        exact SafeB.ret ⟨rfl, .keep⟩
      | cons x xs =>
        obtain ⟨r', h1, h2⟩ := hr.clone.dequeueMut_cons
        refine SafeB.bind (main _ _ h1) ?_
        rintro _ τ ⟨q', rfl, h'⟩
        exact SafeB.ret ⟨rfl, .fresh ⟨r', h', h2⟩⟩
    | clone =>
      refine SafeB.bind (safeB_queueClone hi) ?_
      intro q' τ h'
      exact SafeB.ret ⟨rfl, .fresh ⟨_, h', hr.clone⟩⟩
    | peek =>
      refine rd .peek rfl (Prog.ReadsOnly.bind ?_ fun _ => (readsOnly_readValOpt _).bind fun _ => trivial)
      unfold HQueue.peek
      split
      · exact HList.readsOnly_first _
      · trivial
    | len => exact rd .len rfl trivial
    | isEmpty => exact rd .isEmpty rfl trivial
    | iter n =>
      refine rd (.iter n) rfl (Prog.ReadsOnly.bind ((readsOnly_viewLink _ _).bind fun _ => (readsOnly_viewLink _ _).bind fun _ => ?_)
        fun _ => trivial)
      dsimp only
      split <;> trivial

end
end Heap
end Rpds
