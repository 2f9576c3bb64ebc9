import Verif.Model.Elements

/-!
# Adding under a recursion limit (`foundations/conceptual_item.py`)

`update_qualified_name` is a recursive generator: it nests one call for each container on the way up.  `limit` is the number of
nested calls the interpreter still allows.  The main model (`requalify`) has no such limit.
-/
namespace Rei
open PyM

/-- The qualified-name part of `update`, `conceptual_item.py:63-69`, `:234`, `base_elements.py:109-110`, if at most `limit` calls
of `update_qualified_name` can be nested. -/
def requalifyWithin (limit : Nat) (x : Ref) : PyM Unit := fun h =>
  match nameChain h limit x with
  | none => (.error .recursionError, h)
  | some l => (.ok (), h.mod x fun o => { o with qualName := Str.join '/' l.reverse })

/-- `update`, as `Rei.update`: the time stamp is taken before the name is computed. -/
def updateWithin (limit : Nat) (E : Env) (x : Ref) : PyM Unit := do
  let o ← obj x
  if o.kind.isConceptual then
    updateTimestamp E x
    requalifyWithin limit x
  else requalifyWithin limit x

/-- The loop of `__update_element`, `conceptual_item.py:157-165`. -/
def updateLoopWithin (limit : Nat) (E : Env) : Nat → List Ref → PyM Unit
  | _, [] => pure ()
  | 0, _ :: _ => raise .diverges
  | fuel + 1, x :: q => do
    updateWithin limit E x
    let o ← obj x
    updateLoopWithin limit E fuel (q ++ o.subs.values)

/-- `__update_element`, `conceptual_item.py:157-165`. -/
def updateElementWithin (limit : Nat) (E : Env) (x : Ref) : PyM Unit := fun h => updateLoopWithin limit E (2 ^ h.size) [x] h

/-- `HierarchicalElement.add_element`, `conceptual_item.py:86-114`.  The removal from the previous container (`leaveParent`)
updates an element without container, which needs a single call; it is taken over without limit. -/
def addWithin (limit : Nat) (E : Env) (c x : Ref) : PyM Unit := do
  if x = c then raise .recursiveHierarchy else do
    let o ← obj x
    let oc ← obj c
    if oc.subs.has o.uuid then raise .duplicateElement else do
      modify c fun oc => { oc with subs := oc.subs.set o.uuid x }
      if o.parent = some c then pure () else do
        indexInsert c x
        modify x fun ox => { ox with cid := oc.hist }
        leaveParent E x
        modify x fun ox => { ox with parent := some c }
        let oc ← obj c
        modify x fun ox => { ox with depth := oc.depth + 1 }
        modify c fun oc => { oc with cnt := oc.cnt + 1 }
        modify c fun oc => { oc with hist := oc.hist + 1 }
        updateElementWithin limit E x

end Rei
