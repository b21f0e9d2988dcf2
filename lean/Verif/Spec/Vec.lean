import Verif.Vector.Model
/-
Specification of `Vector` on plain sequences with a capacity.
-/
set_option autoImplicit false
namespace Rpds.Spec
open RVector (Op Ret)

/-- What an indexed sequence of at most `cap` items answers.  The state is the pair (`cap`, items); an operation that would make
the sequence longer than `cap` is not specified (error). -/
def vecStep {T : Type} : Nat × List T → Op T → Res (Ret T × Effect (Nat × List T))
  | (cap, xs), .pushBack x => if xs.length < cap then .ok (.unit, .fresh (cap, xs ++ [x])) else .error .overflow
  | (cap, xs), .pushBackMut x => if xs.length < cap then .ok (.unit, .update (cap, xs ++ [x])) else .error .overflow
  | (cap, xs), .set i x => if i < xs.length then .ok (.bool true, .fresh (cap, xs.set i x)) else .ok (.bool false, .keep)
  | (cap, xs), .setMut i x => .ok (.bool (decide (i < xs.length)), .update (cap, xs.set i x))
  | (cap, xs), .dropLast => if xs = [] then .ok (.bool false, .keep) else .ok (.bool true, .fresh (cap, xs.dropLast))
  | (cap, xs), .dropLastMut => .ok (.bool (!xs.isEmpty), .update (cap, xs.dropLast))
  | (cap, xs), .getMut i f => match xs[i]? with
    | some x => .ok (.bool true, .update (cap, xs.set i (f x)))
    | none => .ok (.bool false, .keep)
  | (cap, xs), .indexMut i x => if i < xs.length then .ok (.unit, .update (cap, xs.set i x)) else .ok (.panicked, .keep)
  | (cap, xs), .extend ys =>
    if xs.length + ys.length ≤ cap then .ok (.unit, .update (cap, xs ++ ys)) else .error .overflow
  | (cap, xs), .clone => .ok (.unit, .fresh (cap, xs))
  | (_, xs), .get i => .ok (.opt xs[i]?, .keep)
  | (_, xs), .index i => match xs[i]? with
    | some x => .ok (.opt (some x), .keep)
    | none => .ok (.panicked, .keep)
  | (_, xs), .first => .ok (.opt xs.head?, .keep)
  | (_, xs), .last => .ok (.opt xs.getLast?, .keep)
  | (_, xs), .len => .ok (.nat xs.length, .keep)
  | (_, xs), .isEmpty => .ok (.bool xs.isEmpty, .keep)
  | (_, xs), .iter cs => .ok (.calls xs.length (deRun xs cs), .keep)

end Rpds.Spec
