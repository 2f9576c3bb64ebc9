import Verif.Spec.Hierarchy

/-!
# Specification of the containment properties (C01-C05)

Every notion here is phrased with the observable attributes `parent`, `uuid`, `id_name`, `cid`,
`cnt_subelements` and with the results of `get_subelements` and `get_element_by_id_name`.
-/
namespace Rei

/-- C01: `x` is yielded by `c.get_subelements(lambda _: True)` exactly when `x.parent is c`, and once. -/
def ContainmentAgrees (h : Heap) : Prop :=
  ∀ c, (∀ x, x ∈ h.subelements c ↔ (h.get x).parent = some c) ∧ (h.subelements c).Nodup

/-- C02: `c.cnt_subelements` is the number of elements yielded. -/
def CountExact (h : Heap) : Prop := ∀ c, (h.get c).cnt = (h.subelements c).length

/-- C03: looking up a name without `/` yields the sub-elements with that `id_name`, in order. -/
def LookupExact (h : Heap) : Prop :=
  ∀ c nm, (h.get c).kind.isConceptual = true → '/' ∉ nm →
    getElementByIdName h c nm =
      .ok ((h.subelements c).filter fun x => decide ((h.get x).idName = nm))

/-- `x` has exactly `n` containers above it, then a root. -/
inductive RootIn (h : Heap) : Ref → Nat → Prop
  | root {x} : (h.get x).parent = none → RootIn h x 0
  | up {x p n} : (h.get x).parent = some p → RootIn h p n → RootIn h x (n + 1)

/-- C05: following `parent` from any element ends at a root. -/
def Forest (h : Heap) : Prop := ∀ x, ∃ n, RootIn h x n

/-- `h'` is a later state of the same program: any well-formed calls, safe or not, in between. -/
inductive Later (E : Env) : Heap → Heap → Prop
  | refl (h) : Later E h h
  | step {h h'} (op : Op) : Later E h h' → op.Valid h' → Later E h (op.after E h')

end Rei
