import Verif.Model.Iteration

/-!
What programs with loops over `Indices` objects should do: every loop and every use goes through the labels of the object on its own.
-/

namespace Dsrg

/-- The result of a use, as a function of the labels of the objects. -/
def useMeaning (objs : ObjName → Indices) : Use → Event
  | .len x => .nat (objs x).list.length
  | .getItem x k => match (objs x).list[k]? with | some i => .label i | none => .raised .indexError
  | .contains x i => .bool (decide (i ∈ (objs x).list))
  | .eq x y => Event.ofExcept .bool ((objs x).pyEq (objs y))
  | .lt x y => Event.ofExcept .bool ((objs x).pyLt (objs y))
  | .hash x => .labels (objs x).list
  | .latex x => .text (objs x).latex
  | .countPermutations x y => Event.ofExcept .nat ((objs x).countPermutations (objs y))
  | .first x => match (objs x).list with | [] => .stopIteration | i :: _ => .label i

/-- The observations of a program: the body of a loop runs once for every label, in the order of the list. -/
def LoopProg.meaning (objs : ObjName → Indices) : LoopProg → List Event
  | .skip => []
  | .use u => [useMeaning objs u]
  | .seq a b => a.meaning objs ++ b.meaning objs
  | .loop x body => (objs x).list.flatMap fun i => .item x i :: body.meaning objs

/-- The uses that go through the labels of `x` with an iterator. -/
def Use.goesThrough (x : ObjName) : Use → Prop
  | .hash y => y = x
  | .latex y => y = x
  | .countPermutations y z => y = x ∨ z = x
  | .first y => y = x
  | _ => False

/-- A program that goes through `x`, with a loop or with a use. -/
def LoopProg.GoesThrough (x : ObjName) : LoopProg → Prop
  | .skip => False
  | .use u => u.goesThrough x
  | .seq a b => a.GoesThrough x ∨ b.GoesThrough x
  | .loop y body => y = x ∨ body.GoesThrough x

/-- No loop over an object goes through the same object in its body. -/
def LoopProg.Separate : LoopProg → Prop
  | .skip => True
  | .use _ => True
  | .seq a b => a.Separate ∧ b.Separate
  | .loop x body => ¬ body.GoesThrough x ∧ body.Separate

end Dsrg
