import Verif.List.Model
/-
Model of `rpds::Stack` (/repo/src/stack/mod.rs), a wrapper around `List`.
-/
set_option autoImplicit false
namespace Rpds

/-- `struct Stack` (stack/mod.rs:91-96). -/
structure Stack (T : Type) where
  list : RList T
  deriving DecidableEq, Repr

namespace Stack
variable {T : Type}

/-- `Stack::new_with_ptr_kind` (stack/mod.rs:119-121), also `new`, `new_sync`, `default`. -/
def new : Stack T := { list := RList.new }

/-- `Stack::peek` (stack/mod.rs:124-126). -/
def peek (s : Stack T) : Option T := s.list.first

/-- `Stack::pop_mut` (stack/mod.rs:135-137). -/
def popMut (s : Stack T) : Res (Bool × Stack T) := do
  let (b, list) ← s.list.dropFirstMut
  pure (b, { list })

/-- `Clone for Stack` (stack/mod.rs:222-224). -/
def clone (s : Stack T) : Stack T := { list := s.list.clone }

/-- `Stack::pop` (stack/mod.rs:129-133). -/
def pop (s : Stack T) : Res (Option (Stack T)) := do
  let (b, new_stack) ← s.clone.popMut
  pure (if b then some new_stack else none)

/-- `Stack::push_mut` (stack/mod.rs:148-150). -/
def pushMut (s : Stack T) (v : T) : Stack T := { list := s.list.pushFrontMut v }

/-- `Stack::push` (stack/mod.rs:140-146). -/
def push (s : Stack T) (v : T) : Stack T := s.clone.pushMut v

/-- `Stack::size` (stack/mod.rs:154-156). -/
def size (s : Stack T) : Nat := s.list.len

/-- `Stack::is_empty` (stack/mod.rs:160-162). -/
def isEmpty (s : Stack T) : Bool := s.list.isEmpty

/-- `Stack::iter` (stack/mod.rs:164-166, 255-257). -/
def iter (s : Stack T) : ListIter T := s.list.iter

/-- `PartialEq for Stack` (stack/mod.rs:183-185). -/
def eq (eqT : T → T → Bool) (a b : Stack T) : Res Bool := a.list.eq eqT b.list

/-- `PartialOrd for Stack` (stack/mod.rs:195-197). -/
def partialCmp (cmp : T → T → Option Ordering) (a b : Stack T) : Res (Option Ordering) := a.list.partialCmp cmp b.list

/-- `Ord for Stack` (stack/mod.rs:204-206). -/
def cmp (cmpT : T → T → Ordering) (a b : Stack T) : Res Ordering := a.list.cmp cmpT b.list

/-- `Hash for Stack` (stack/mod.rs:213-215). -/
def hash {S : Type} (hashUsize : S → Nat → S) (hashT : S → T → S) (s : Stack T) (state : S) : Res S :=
  s.list.hash hashUsize hashT state

/-- `Display for Stack` (stack/mod.rs:231-245). -/
def display (fmt : T → String) (s : Stack T) : Res String := do
  let out ← iterDisplay ListIter.step fmt (s.list.length + 1) s.iter true "Stack("
  pure (out ++ ")")

/-- `FromIterator for Stack` (stack/mod.rs:264-266). -/
def fromIter (items : List T) : Stack T := { list := RList.fromIter items }

/-- `stack!`/`stack_sync!` (stack/mod.rs:24-65). -/
def stackMacro (args : List T) : Stack T := args.foldl (fun s e => s.pushMut e) new

/-- `Serialize for Stack` (stack/mod.rs:280-282). -/
def serialize (s : Stack T) : Res (List T) := s.list.serialize

/-- `Deserialize for Stack` (stack/mod.rs:290-292). -/
def deserialize {E : Type} (seq : List (Except E T)) : Except E (Stack T) := do
  let list ← RList.deserialize seq
  pure { list }

/-- The public operations of `Stack` on one version. -/
inductive Op (T : Type) where
  | push (v : T)
  | pushMut (v : T)
  | pop
  | popMut
  | clone
  | peek
  | size
  | isEmpty
  | iter (n : Nat)

/-- Runs one operation on one version. -/
def step (s : Stack T) : Op T → Res (RList.Ret T × Effect (Stack T))
  | .push v => .ok (.unit, .fresh (s.push v))
  | .pushMut v => .ok (.unit, .update (s.pushMut v))
  | .pop => do
    match ← s.pop with
    | some s' => pure (.bool true, .fresh s')
    | none => pure (.bool false, .keep)
  | .popMut => do
    let (b, s') ← s.popMut
    pure (.bool b, .update s')
  | .clone => .ok (.unit, .fresh s.clone)
  | .peek => .ok (.opt s.peek, .keep)
  | .size => .ok (.nat s.size, .keep)
  | .isEmpty => .ok (.bool s.isEmpty, .keep)
  | .iter n => do
    let cs ← fwCalls ListIter.step ListIter.sizeHint n s.iter
    pure (.calls s.iter.sizeHint cs, .keep)

end Stack
end Rpds
