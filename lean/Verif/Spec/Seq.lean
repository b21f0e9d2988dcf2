import Verif.Spec.Sequence
import Verif.List.Model
/-
Specification of the list-like structures: the operations on a plain `List T`.
-/
set_option autoImplicit false
namespace Rpds.Spec

/-- A plain sequence under the operations of `List`. -/
def listStep {T : Type} (l : List T) : RList.Op T → RList.Ret T × Effect (List T)
  | .pushFront v => (.unit, .fresh (v :: l))
  | .pushFrontMut v => (.unit, .update (v :: l))
  | .dropFirst => match l with
    | [] => (.bool false, .keep)
    | _ :: t => (.bool true, .fresh t)
  | .dropFirstMut => match l with
    | [] => (.bool false, .update [])
    | _ :: t => (.bool true, .update t)
  | .reverse => (.unit, .fresh l.reverse)
  | .reverseMut => (.unit, .update l.reverse)
  | .clone => (.unit, .fresh l)
  | .first => (.opt l.head?, .keep)
  | .last => (.opt l.getLast?, .keep)
  | .len => (.nat l.length, .keep)
  | .isEmpty => (.bool l.isEmpty, .keep)
  | .iter n => (.calls l.length (fwRun l n), .keep)

end Rpds.Spec
