import Verif.Source
import Verif.Props.Cross
/-
Property C71: collections are built from sources that are code: item by item, never asking again after the end, and what is left if the source
fails or panics half-way.
-/
set_option autoImplicit false
namespace Rpds.Props
variable {T H K V Q E S σ α γ : Type}

/-! ### C71 -/

/-- Building something from the source `next` in the state `s`, with at most `fuel` calls, comes to `built`: if the source gives the items
`xs` and then ends, the result is `made` of exactly these items, and the source is left as it was after the call that told of the end; if it
fails or panics instead, there is no result and the failure is handed on; and if it does not stop, building goes on. -/
def Gathers (next : σ → Pull E α × σ) (fuel : Nat) (s : σ) (built : Res (Built E γ σ)) (made : List α → γ → Prop) : Prop :=
  (∀ xs s', Feeds next s xs none s' → xs.length < fuel → ∃ c, built = .ok (.over (.ok c) s') ∧ made xs c) ∧
  (∀ xs e s', Feeds next s xs (some e) s' → xs.length < fuel → built = .ok (.over (.error e) s')) ∧
  ((∀ xs k s', Feeds next s xs k s' → fuel ≤ xs.length) → built = .ok .running)

/-- A source that is asked for `fuel` items stops before, or goes on. -/
theorem feeds_or (next : σ → Pull E α × σ) (fuel : Nat) (s : σ) :
    (∃ xs k s', Feeds next s xs k s' ∧ xs.length < fuel) ∨ ∀ xs k s', Feeds next s xs k s' → fuel ≤ xs.length := by
  by_cases h : ∃ xs k s', Feeds next s xs k s' ∧ xs.length < fuel
  · exact .inl h
  · refine .inr fun xs k s' hs => ?_
    by_cases hl : fuel ≤ xs.length
    · exact hl
    · exact absurd ⟨xs, k, s', hs, by omega⟩ h

theorem gathers_loop {β : Type} (next : σ → Pull E α × σ) (I : Nat → β → Prop) (body : β → α → Res β)
    (hb : ∀ n b a, I (n + 1) b → ∃ b', body b a = .ok b' ∧ I n b') (fuel : Nat) (b : β) (hI : I fuel b) (s : σ) (f : β → γ)
    (made : List α → γ → Prop) (hm : ∀ xs b', xs.length < fuel → xs.foldlM body b = .ok b' → made xs (f b')) :
    Gathers next fuel s ((forLoop next body fuel b s).map fun r => r.finish f) made := by
  have hfold : ∀ (xs : List α) n b, xs.length ≤ n → I n b → ∃ b', xs.foldlM body b = .ok b' := by
    intro xs
    induction xs with
    | nil => exact fun _ b _ _ => ⟨b, rfl⟩
    | cons x xs ih =>
      intro n b hn hI
      simp only [List.length_cons] at hn
      obtain ⟨m, rfl⟩ : ∃ m, n = m + 1 := ⟨n - 1, by omega⟩
      obtain ⟨b', e, hI'⟩ := hb m b x hI
      obtain ⟨b'', e'⟩ := ih m b' (by omega) hI'
      exact ⟨b'', by simp only [List.foldlM_cons, e, Res.ok_bind, e']⟩
  refine ⟨fun xs s' h hl => ?_, fun xs e s' h hl => ?_, fun h => ?_⟩
  · obtain ⟨b', e⟩ := hfold xs fuel b (by omega) hI
    rw [h.forLoop body fuel hl b, e]
    exact ⟨f b', rfl, hm xs b' hl e⟩
  · obtain ⟨b', e⟩ := hfold xs fuel b (by omega) hI
    rw [h.forLoop body fuel hl b, e]
    rfl
  · rw [forLoop_running next I body hb fuel b hI s h]
    rfl

theorem foldlM_snoc (xs : List T) (b : List T) : xs.foldlM (m := Except Panic) (fun vec e => pure (vec ++ [e])) b = .ok (b ++ xs) := by
  induction xs generalizing b with
  | nil => simp [pure, Except.pure]
  | cons x xs ih => simp only [List.foldlM_cons, pure, Except.pure, bind, Except.bind] at ih ⊢; rw [ih]; simp

/-- C71.  Lists. -/
theorem C71_list_from_source (next : σ → Pull E T × σ) (fuel : Nat) (s : σ) :
    Gathers next fuel s (RList.fromSource next fuel s) fun xs l => l = RList.fromIter xs ∧ listItems l = .ok xs := by
  have := gathers_loop next (fun _ _ => True) (fun (vec : List T) e => (pure (vec ++ [e]) : Res (List T))) (fun n b a _ => ⟨_, rfl, trivial⟩)
    fuel [] trivial s (fun vec => vec.reverse.foldl (fun list e => list.pushFrontMut e) RList.new)
    (fun xs l => l = RList.fromIter xs ∧ listItems l = .ok xs) (fun xs b' _ e => by
      rw [foldlM_snoc] at e
      cases e
      have h : RList.fromIter xs = ([] ++ xs).reverse.foldl (fun list e => list.pushFrontMut e) RList.new := by
        have : ∀ (xs ys : List T), xs.foldl (fun vec e => vec ++ [e]) ys = ys ++ xs := by
          intro xs
          induction xs with
          | nil => simp
          | cons x xs ih => intro ys; simp [ih]
        simp only [RList.fromIter, this]
      rw [← h]
      exact ⟨rfl, rep_items (RList.rep_fromIter xs)⟩)
  exact this

theorem Gathers.map {δ : Type} {next : σ → Pull E α × σ} {fuel : Nat} {s : σ} {built : Res (Built E γ σ)} {made : List α → γ → Prop}
    (h : Gathers next fuel s built made) (g : γ → δ) (built' : Res (Built E δ σ))
    (h1 : ∀ c s', built = .ok (.over (.ok c) s') → built' = .ok (.over (.ok (g c)) s'))
    (h2 : ∀ e s', built = .ok (.over (.error e) s') → built' = .ok (.over (.error e) s'))
    (h3 : built = .ok .running → built' = .ok .running) (made' : List α → δ → Prop) (hm : ∀ xs c, made xs c → made' xs (g c)) :
    Gathers next fuel s built' made' := by
  obtain ⟨g1, g2, g3⟩ := h
  refine ⟨fun xs s' hs hl => ?_, fun xs e s' hs hl => h2 _ _ (g2 xs e s' hs hl), fun hs => h3 (g3 hs)⟩
  obtain ⟨c, e, hc⟩ := g1 xs s' hs hl
  exact ⟨g c, h1 _ _ e, hm _ _ hc⟩

/-- C71.  Stacks. -/
theorem C71_stack_from_source (next : σ → Pull E T × σ) (fuel : Nat) (s : σ) :
    Gathers next fuel s (Stack.fromSource next fuel s) fun xs c => c = Stack.fromIter xs ∧ stackItems c = .ok xs := by
  refine (C71_list_from_source next fuel s).map (fun l => ({ list := l } : Stack T)) _ ?_ ?_ ?_ _ ?_
  · intro c s' e; simp only [Stack.fromSource, e, Res.ok_bind]; rfl
  · intro c s' e; simp only [Stack.fromSource, e, Res.ok_bind]; rfl
  · intro e; simp only [Stack.fromSource, e, Res.ok_bind]; rfl
  · rintro xs c ⟨rfl, h⟩; exact ⟨rfl, h⟩

/-- C71.  Queues. -/
theorem C71_queue_from_source (next : σ → Pull E T × σ) (fuel : Nat) (s : σ) :
    Gathers next fuel s (Queue.fromSource next fuel s) fun xs c => c = Queue.fromIter xs ∧ queueItems c = .ok xs := by
  refine (C71_list_from_source next fuel s).map (fun l => ({ out_list := l, in_list := RList.new } : Queue T)) _ ?_ ?_ ?_ _ ?_
  · intro c s' e; simp only [Queue.fromSource, e, Res.ok_bind]; rfl
  · intro c s' e; simp only [Queue.fromSource, e, Res.ok_bind]; rfl
  · intro e; simp only [Queue.fromSource, e, Res.ok_bind]; rfl
  · rintro xs c ⟨rfl, h⟩; exact ⟨rfl, rep_qitems (Queue.rep_fromIter xs)⟩

theorem foldlM_extend (A : Arch) (xs : List T) (v : RVector T) : xs.foldlM (fun v e => v.pushBackMut A e) v = v.extend A xs := by
  induction xs generalizing v with
  | nil => rfl
  | cons x xs ih =>
    simp only [List.foldlM_cons, RVector.extend]
    cases v.pushBackMut A x with
    | error e => rfl
    | ok w => exact ih w

/-- For how many more items there is room. -/
def VecRoom (A : Arch) (n : Nat) (v : RVector T) : Prop := ∃ xs h, RVector.Rep A v xs h ∧ xs.length + n ≤ vecCap A v.bits

theorem vecRoom_push (A : Arch) (n : Nat) (v : RVector T) (x : T) (h : VecRoom A (n + 1) v) :
    ∃ w, v.pushBackMut A x = .ok w ∧ VecRoom A n w := by
  obtain ⟨xs, k, r, hc⟩ := h
  obtain ⟨w, k', h1, h2, h3⟩ := r.pushBackMut x (by omega)
  exact ⟨w, h1, xs ++ [x], k', h2, by rw [h3, List.length_append]; simp only [List.length_cons, List.length_nil]; omega⟩

/-- C71.  Vectors. -/
theorem C71_vector_from_source (A : Arch) (hW : RVector.defaultBits < A.W) (next : σ → Pull E T × σ) (fuel : Nat)
    (hf : fuel ≤ vecCap A RVector.defaultBits) (s : σ) :
    Gathers next fuel s (RVector.fromSource A next fuel s) fun xs v => RVector.fromIter A xs = .ok v ∧ vecItems A v = .ok xs := by
  obtain ⟨v, h1, h2, h3⟩ := RVector.new_rep (A := A) (T := T) hW
  have := gathers_loop next (VecRoom A) (fun (v : RVector T) e => v.pushBackMut A e) (fun n v x h => vecRoom_push A n v x h) fuel v
    ⟨[], 0, h2, by rw [h3]; simpa using hf⟩ s id (fun xs v => RVector.fromIter A xs = .ok v ∧ vecItems A v = .ok xs) (fun xs w hl e => by
      rw [foldlM_extend] at e
      obtain ⟨w', k, g1, g2, _⟩ := h2.extend xs (by rw [h3]; simp only [List.length_nil]; omega)
      rw [e] at g1; cases g1
      exact ⟨by simp only [RVector.fromIter, h1, Res.ok_bind]; exact e, rep_vitems g2⟩)
  simp only [RVector.fromSource, h1, Res.ok_bind, RVector.extendFrom]
  exact this

/-- C71.  `extend` on a vector, in place: whatever makes it stop (the end of the source, an error, a panic), the vector is then as if it had
been extended by exactly the items given before, and the source has not been called again. -/
theorem C71_vector_extend (A : Arch) (v : RVector T) (hv : RVector.Reach A v) (next : σ → Pull E T × σ) (fuel : Nat)
    (hf : v.len + fuel ≤ vecCap A v.bits) (s : σ) :
    (∀ xs k s', Feeds next s xs k s' → xs.length < fuel →
      ∃ w old, v.extendFrom A next fuel s = .ok (.left k w s') ∧ v.extend A xs = .ok w ∧ vecItems A v = .ok old ∧ vecItems A w = .ok (old ++ xs)) ∧
    ((∀ xs k s', Feeds next s xs k s' → fuel ≤ xs.length) → v.extendFrom A next fuel s = .ok .running) := by
  obtain ⟨old, h, r⟩ := hv.rep
  have hlen := r.len
  refine ⟨fun xs k s' hs hl => ?_, fun hs => ?_⟩
  · obtain ⟨w, h', g1, g2, _⟩ := r.extend xs (by omega)
    refine ⟨w, old, ?_, g1, rep_vitems r, rep_vitems g2⟩
    rw [RVector.extendFrom, hs.forLoop _ fuel hl, foldlM_extend, g1]
    rfl
  · exact forLoop_running next (VecRoom A) _ (fun n v x h => vecRoom_push A n v x h) fuel v ⟨old, h, r, by omega⟩ s hs

/-- C71.  `get_mut` on a vector when `Clone` of the element may panic or give something else.  Out of bounds nothing happens.  In bounds,
`Clone` is called at most once, for the element at the index, and only if it is shared; if it panics the vector is left as it was, node for
node; otherwise the vector is as after `get_mut` with what `Clone` gave. -/
theorem C71_vector_get_mut (A : Arch) (v : RVector T) (hv : RVector.Reach A v) (clone : S → T → Option T × S) (shared : Bool) (i : Nat)
    (f : T → T) (s : S) :
    ∃ xs, vecItems A v = .ok xs ∧
      (xs[i]? = none → v.modifyU A clone shared i f s = .ok (some false, v, s)) ∧
      (∀ x, xs[i]? = some x → shared = true → ∀ s', clone s x = (none, s') → v.modifyU A clone shared i f s = .ok (none, v, s')) ∧
      (∀ x y s', xs[i]? = some x → (if shared then clone s x = (some y, s') else y = x ∧ s' = s) →
        ∃ w, v.modifyU A clone shared i f s = .ok (some true, w, s') ∧ v.modify A i (fun _ => f y) = .ok (some w) ∧
          vecItems A w = .ok (xs.set i (f y))) := by
  obtain ⟨xs, h, r⟩ := hv.rep
  refine ⟨xs, rep_vitems r, fun hi => ?_, fun x hx hsh s' hc => ?_, fun x y s' hx hy => ?_⟩
  · have : v.length ≤ i := by rw [r.length]; simpa using hi
    simp [RVector.modifyU, this]
  · have hg := r.get i
    rw [hx] at hg
    rw [RVector.modifyU_eq hg, makeMutElem, if_pos hsh, hc]
  · have hg := r.get i
    rw [hx] at hg
    have hm : makeMutElem clone shared x s = (some y, s') := by
      unfold makeMutElem
      cases shared with
      | true => exact hy
      | false => obtain ⟨rfl, rfl⟩ := hy; rfl
    rcases r.modify i (fun _ => f y) with ⟨h1, _⟩ | ⟨w, x', _, h2, h3, _⟩
    · rw [hx] at h1; cases h1
    · refine ⟨w, ?_, h2, rep_vitems h3⟩
      rw [RVector.modifyU_eq hg, hm]
      simp only [h2]
      rfl

theorem foldlM_rbInsert (o : OrdKeys K Q) (xs : List (K × V)) (m : RBMap K V) :
    xs.foldlM (fun m e => m.insertMut o e.1 e.2) m = m.insertAll o xs := by
  induction xs generalizing m with
  | nil => rfl
  | cons x xs ih =>
    simp only [List.foldlM_cons, RBMap.insertAll]
    cases m.insertMut o x.1 x.2 with
    | error e => rfl
    | ok w => exact ih w

/-- C71.  Red-black tree maps. -/
theorem C71_rb_map_from_source (o : OrdKeys K Q) (lo : o.Lawful) (next : σ → Pull E (K × V) × σ) (fuel : Nat) (s : σ) :
    Gathers next fuel s (RBMap.fromSource o next fuel s) fun xs m => RBMap.fromIter o xs = .ok m :=
  gathers_loop next (fun _ m => ∃ l, RBMap.Rep o m l) (fun (m : RBMap K V) e => m.insertMut o e.1 e.2)
    (fun _ m e ⟨_, r⟩ => by obtain ⟨m', h1, h2⟩ := r.insertMut lo e.1 e.2; exact ⟨m', h1, _, h2⟩) fuel RBMap.new ⟨[], RBMap.new_rep⟩ s id _
    (fun xs m _ e => by rw [foldlM_rbInsert] at e; exact e)

theorem foldlM_rbsInsert (o : OrdKeys T Q) (xs : List T) (m : RBSet T) : xs.foldlM (fun m e => m.insertMut o e) m = m.insertAll o xs := by
  induction xs generalizing m with
  | nil => rfl
  | cons x xs ih =>
    simp only [List.foldlM_cons, RBSet.insertAll]
    cases m.insertMut o x with
    | error e => rfl
    | ok w => exact ih w

/-- C71.  Red-black tree sets. -/
theorem C71_rb_set_from_source (o : OrdKeys T Q) (lo : o.Lawful) (next : σ → Pull E T × σ) (fuel : Nat) (s : σ) :
    Gathers next fuel s (RBSet.fromSource o next fuel s) fun xs m => RBSet.fromIter o xs = .ok m :=
  gathers_loop next (fun _ m => ∃ l, RBSet.Rep o m l) (fun (m : RBSet T) e => m.insertMut o e)
    (fun _ m e ⟨_, r⟩ => by obtain ⟨m', h1, h2⟩ := r.insertMut lo e; exact ⟨m', h1, _, h2⟩) fuel RBSet.new ⟨[], RBSet.new_rep⟩ s id _
    (fun xs m _ e => by rw [foldlM_rbsInsert] at e; exact e)

theorem foldlM_htInsert (A : Arch) (o : HashKeys H K Q) (xs : List (K × V)) (m : HTMap H K V) :
    xs.foldlM (fun m e => m.insertMut A o e.1 e.2) m = m.insertAll A o xs := by
  induction xs generalizing m with
  | nil => rfl
  | cons x xs ih =>
    simp only [List.foldlM_cons, HTMap.insertAll]
    cases m.insertMut A o x.1 x.2 with
    | error e => rfl
    | ok w => exact ih w

/-- C71.  Hash trie maps. -/
theorem C71_hash_map_from_source (A : Arch) (hA : HTMap.StdWord A) (o : HashKeys H K Q) (lo : o.Lawful) (hasher : H)
    (next : σ → Pull E (K × V) × σ) (fuel : Nat) (s : σ) :
    Gathers next fuel s (HTMap.fromSource A o hasher next fuel s) fun xs m => HTMap.fromIter A o hasher xs = .ok m := by
  obtain ⟨k, m, h1, h2, _⟩ := HTMap.new_rep (K := K) (V := V) (o := o) hA hasher
  have := gathers_loop next (fun _ m => ∃ l, HTMap.Rep A o k m l) (fun (m : HTMap H K V) e => m.insertMut A o e.1 e.2)
    (fun _ m e ⟨_, r⟩ => by obtain ⟨m', h1, h2, _⟩ := r.insertMut lo e.1 e.2; exact ⟨m', h1, _, h2⟩) fuel m ⟨[], h2⟩ s id
    (fun xs m => HTMap.fromIter A o hasher xs = .ok m)
    (fun xs m' _ e => by rw [foldlM_htInsert] at e; simp only [HTMap.fromIter, h1, Res.ok_bind]; exact e)
  simp only [HTMap.fromSource, h1, Res.ok_bind]
  exact this

theorem foldlM_htsInsert (A : Arch) (o : HashKeys H T Q) (xs : List T) (m : HTSet H T) :
    xs.foldlM (fun m e => m.insertMut A o e) m = m.insertAll A o xs := by
  induction xs generalizing m with
  | nil => rfl
  | cons x xs ih =>
    simp only [List.foldlM_cons, HTSet.insertAll]
    cases m.insertMut A o x with
    | error e => rfl
    | ok w => exact ih w

/-- C71.  Hash trie sets. -/
theorem C71_hash_set_from_source (A : Arch) (hA : HTMap.StdWord A) (o : HashKeys H T Q) (lo : o.Lawful) (hasher : H)
    (next : σ → Pull E T × σ) (fuel : Nat) (s : σ) :
    Gathers next fuel s (HTSet.fromSource A o hasher next fuel s) fun xs m => HTSet.fromIter A o hasher xs = .ok m := by
  obtain ⟨k, m, h1, h2⟩ := HTSet.new_rep (T := T) (o := o) hA hasher
  have := gathers_loop next (fun _ m => ∃ l, HTSet.Rep A o k m l) (fun (m : HTSet H T) e => m.insertMut A o e)
    (fun _ m e ⟨_, r⟩ => by obtain ⟨m', h1, h2, _⟩ := r.insertMut lo e; exact ⟨m', h1, _, h2⟩) fuel m ⟨[], h2⟩ s id
    (fun xs m => HTSet.fromIter A o hasher xs = .ok m)
    (fun xs m' _ e => by rw [foldlM_htsInsert] at e; simp only [HTSet.fromIter, h1, Res.ok_bind]; exact e)
  simp only [HTSet.fromSource, h1, Res.ok_bind]
  exact this

/-! ### Examples -/

/-- A source that follows a script, and may go on after it said that it ended. -/
def exScript {α : Type} : List (Pull String α) → Pull String α × List (Pull String α)
  | [] => (.stop none, [])
  | p :: ps => (p, ps)

/-- What there is to see of a collection that was built. -/
def exSeen {γ δ : Type} (f : γ → Res δ) : Res (Built String γ σ) → Res (Option (Except (Failure String) δ × σ))
  | .error e => .error e
  | .ok .running => .ok none
  | .ok (.over (.ok c) s) => (f c).map fun d => some (.ok d, s)
  | .ok (.over (.error e) s) => .ok (some (.error e, s))

/-- The source of the examples gives two items, then says it ended, and would have a third; and one that fails after two. -/
example : Feeds exScript [.item 1, .item 2, .stop none, .item 3] [1, 2] none [.item 3] ∧
    Feeds exScript [.item 1, .item 2, .stop (some (.error "bad")), .item 3] [1, 2] (some (.error "bad")) [.item 3] :=
  ⟨.item rfl (.item rfl (.stop rfl)), .item rfl (.item rfl (.stop rfl))⟩

set_option synthInstance.maxSize 2000 in
set_option synthInstance.maxHeartbeats 200000 in
example : exSeen listItems (RList.fromSource exScript 9 [.item 1, .item 2, .stop none, .item 3]) = .ok (some (.ok [1, 2], [.item 3])) ∧
    exSeen queueItems (Queue.fromSource exScript 9 [.item 1, .item 2, .stop none, .item 3]) = .ok (some (.ok [1, 2], [.item 3])) ∧
    exSeen stackItems (Stack.fromSource exScript 9 [.item 1, .stop (some .panic), .item 3]) = .ok (some (.error .panic, [.item 3])) ∧
    exSeen (vecItems dbg64) (RVector.fromSource dbg64 exScript 9 [.item 1, .item 2, .stop none, .item 3]) =
      .ok (some (.ok [1, 2], [.item 3])) ∧
    exSeen (vecItems dbg64) (RVector.fromSource dbg64 exScript 9 [.item 1, .stop (some (.error "bad")), .item 3]) =
      .ok (some (.error (.error "bad"), [.item 3])) := by decide +kernel

set_option synthInstance.maxSize 2000 in
set_option synthInstance.maxHeartbeats 200000 in
example : exSeen (rbItems dbg64 exOrd) (RBMap.fromSource exOrd exScript 9 [.item ((2, "b"), 1), .item ((1, "a"), 2), .stop none]) =
      .ok (some (.ok [((1, "a"), 2), ((2, "b"), 1)], [])) ∧
    exSeen (rbItems dbg64 exOrd) (RBMap.fromSource exOrd exScript 9 [.item ((2, "b"), 1), .stop (some .panic)]) =
      .ok (some (.error .panic, [])) ∧
    exSeen mapItems (HTMap.fromSource dbg64 exKeys 0 exScript 9 [.item ((2, "b"), 1), .item ((2, "a"), 2), .stop none, .stop none]) =
      .ok (some (.ok [((2, "a"), 2)], [.stop none])) ∧
    exSeen setItems (HTSet.fromSource dbg64 exKeys 0 exScript 9 [.item (2, "b"), .stop (some .panic)]) = .ok (some (.error .panic, [])) := by
  decide +kernel

/-- An endless source. -/
example : exSeen listItems (RList.fromSource (fun n : Nat => (.item n, n + 1)) 50 0) = .ok none := by decide +kernel

/-- A panic in the middle of `extend`: the vector has the item given before. -/
example : RVector.Reach dbg64 vec5 ∧ vec5.len + 9 ≤ vecCap dbg64 vec5.bits ∧
    (match vec5.extendFrom dbg64 exScript 9 [.item 6, .stop (some .panic), .item 7] with
      | .ok (.left k w s) => (vecItems dbg64 w).map fun xs => (k, xs, s)
      | _ => .error .diverge) = .ok (some .panic, [1, 2, 3, 4, 5, 6], [.item 7]) :=
  ⟨vec5_reach, by decide, by decide +kernel⟩

/-- `Clone` that counts its calls, panics at the number 3, and adds 100 otherwise. -/
def exOddClone (s : Nat) (x : Nat) : Option Nat × Nat := (if x == 3 then none else some (x + 100), s + 1)

example : (([(true, 2), (true, 1), (false, 1), (true, 9)].map fun p =>
      (vec5.modifyU dbg64 exOddClone p.1 p.2 (· + 1) 0).bind fun r => (vecItems dbg64 r.2.1).map fun xs => (r.1, xs, r.2.2)) =
    [.ok (none, [1, 2, 3, 4, 5], 1), .ok (some true, [1, 103, 3, 4, 5], 1), .ok (some true, [1, 3, 3, 4, 5], 0),
      .ok (some false, [1, 2, 3, 4, 5], 0)]) := by decide +kernel
end Rpds.Props
