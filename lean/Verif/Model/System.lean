import Verif.Model.Elements

/-!
# Histories

`Op` lists the calls that create or change objects; `Op.run` executes one.  A history is a list of
calls; it goes on after an exception with whatever state the exception left behind.
-/
namespace Rei
open PyM

/-- One API call. -/
inductive Op
  | mkItem (k : Kind) (idName : Str) (uuid : Bytes) (prog : PName) (clock : Option Clock)
      (parent : Option Ref)
  | mkRelation (uuid : Bytes) (idName : Str) (prog : PName) (endpoint weight : Option Ref) (d : Dir)
      (sv : Option Ref)
  | mkPort (uuid : Bytes) (idName : Str) (prog : PName) (endpoint : Option Ref)
  | mkValue (uuid : Bytes) (idName : Str) (prog : PName) (values : Option (List Rat))
  | mkSemantic (k : SemKind) (uuid : Bytes) (idName : Str) (prog : PName) (attr : Dict Str AttrVal)
  | mkList (l : List Rat)
  | add (c x : Ref)
  | remove (c : Ref) (name : Str) (uuid : Option Bytes) (lim : Option Nat)
  | register (x c : Ref)
  | deregister (x : Ref)
  | connect (n el : Ref)
  | disconnect (n el : Ref)
  | unaryConnect (e n : Ref) (w : Option Ref) (d : Dir) (sv : Option Ref)
  | setClock (x : Ref) (c : Option Clock)
  | setItem (l : Nat) (i : Int) (q : Rat)
  | appendItem (l : Nat) (q : Rat)
  | updateValue (v : Ref) (i : Int) (q : Rat)
  | updateValues (v : Ref) (l : Nat)
  | getValues (v : Ref)
  | addAttr (s : Ref) (k : Str) (a : AttrVal)
  | removeAttr (s : Ref) (k : Str)
  | setSem (r : Ref) (sv : Option Ref)
  | readClock (c : Option Clock)

/-- Forget the result of a call. -/
def PyM.void {α : Type} (m : PyM α) : PyM Unit := do let _ ← m; pure ()

/-- Execute one call; the functions are those of `Hierarchy.lean` and `Elements.lean`
(`setSem` is the assignment to the public attribute of `base_elements.py:91`; `readClock` is
`clock.get_time_ns()`, `clock.py:16-31`, called by a user or a factory). -/
def Op.run (E : Env) : Op → PyM Unit
  | .mkItem k nm u pn ck p => (newConceptual E k nm u pn ck p).void
  | .mkRelation u nm pn ep w d sv => (newRelation u nm pn ep w d sv).void
  | .mkPort u nm pn ep => (newPort u nm pn ep).void
  | .mkValue u nm pn vs => (newValue u nm pn vs).void
  | .mkSemantic k u nm pn at_ => (newSemantic k u nm pn at_).void
  | .mkList l => (newList l).void
  | .add c x => addElement E c x
  | .remove c nm u lim => (removeElement E c nm u lim).void
  | .register x c => Rei.register E x c
  | .deregister x => Rei.deregister E x
  | .connect n el => Rei.connect E n el
  | .disconnect n el => Rei.disconnect E n el
  | .unaryConnect e n w d sv => (Rei.unaryConnect E e n w d sv).void
  | .setClock x c => Rei.setClock x c
  | .setItem l i q => setListItem l i q
  | .appendItem l q => appendListItem l q
  | .updateValue v i q => Rei.updateValue v i q
  | .updateValues v l => Rei.updateValues v l
  | .getValues v => (Rei.getValues v).void
  | .addAttr s k a => addNamedAttribute s k a
  | .removeAttr s k => removeNamedAttribute s k
  | .setSem r sv => modify r fun o => { o with semNode := sv }
  | .readClock c => (Rei.readClock E c).void

/-- The state after a call, whether it returned or raised. -/
def Op.after (E : Env) (op : Op) (h : Heap) : Heap := (op.run E h).2

/-- An optional reference is `None` or an existing object. -/
def okRef (h : Heap) (r : Option Ref) : Prop := ∀ x, r = some x → x < h.size

/-- The call is well-formed in state `h`: the objects passed exist, and methods and constructors
that belong to one class are called on that class. -/
def Op.Valid (h : Heap) : Op → Prop
  | .mkItem k _ _ _ _ p => k.isConceptual = true ∧ okRef h p
  | .mkRelation _ _ _ ep w _ sv => okRef h ep ∧ okRef h w ∧ okRef h sv
  | .mkPort _ _ _ ep => okRef h ep
  | .mkValue _ _ _ _ => True
  | .mkSemantic _ _ _ _ _ => True
  | .mkList _ => True
  | .add c x => c < h.size ∧ x < h.size
  | .remove c _ _ _ => c < h.size
  | .register x c => c < h.size ∧ x < h.size
  | .deregister x => x < h.size
  | .connect n el => n < h.size ∧ el < h.size
  | .disconnect n el => n < h.size ∧ el < h.size
  | .unaryConnect e n w _ sv => e < h.size ∧ n < h.size ∧ okRef h w ∧ okRef h sv
  | .setClock x _ => x < h.size
  | .setItem l _ _ => l < h.nlists
  | .appendItem l _ => l < h.nlists
  | .updateValue v _ _ => v < h.size ∧ (h.get v).kind = .value
  | .updateValues v l => v < h.size ∧ (h.get v).kind = .value ∧ l < h.nlists
  | .getValues v => v < h.size ∧ (h.get v).kind = .value
  | .addAttr s _ _ => s < h.size ∧ ∃ k, (h.get s).kind = .semantic k
  | .removeAttr s _ => s < h.size ∧ ∃ k, (h.get s).kind = .semantic k
  | .setSem r sv => r < h.size ∧ (h.get r).kind = .relation ∧ okRef h sv
  | .readClock _ => True

/-- `a` is a container of `x`, directly or through other containers. -/
inductive Anc (h : Heap) : Ref → Ref → Prop
  | direct {x p} : (h.get x).parent = some p → Anc h p x
  | up {x p a} : (h.get x).parent = some p → Anc h a p → Anc h a x

/-- The container of `x`, if any, is neither an edge nor a relation: an element cannot be moved out of
those (`..._refuted` theorems in `Props/`). -/
def Movable (h : Heap) (x : Ref) : Prop :=
  ∀ p, (h.get x).parent = some p → (h.get p).kind ≠ .edge ∧ (h.get p).kind ≠ .relation

/-- Adding `x` to `c` does not close a containment cycle and does not move `x` out of an edge or a
relation.  Adding `c` to itself and adding a duplicate are not excluded. -/
def AddSafe (h : Heap) (c x : Ref) : Prop := ¬ Anc h x c ∧ Movable h x

/-- The removal is not one of those that are known to corrupt the container: removal from a
relation, removal with a name that differs from the name of the element with that uuid, and removal
by name that is abandoned before the last match or done on an edge. -/
def RemoveSafe (h : Heap) (c : Ref) (name : Str) (uuid : Option Bytes) (lim : Option Nat) : Prop :=
  (h.get c).kind ≠ .relation ∧
  (name ≠ [] →
    match uuid with
    | some u => ∀ x ∈ h.subelements c, (h.get x).uuid = u → (h.get x).idName = name
    | none => (h.get c).kind ≠ .edge ∧
        ∀ k, lim = some k → k = 0 ∨
          ((h.subelements c).filter fun x => (h.get x).idName = name).length ≤ k)

/-- The calls under which the containment properties hold; every class of calls excluded here is
the subject of a refutation theorem. -/
def Op.Safe (h : Heap) : Op → Prop
  | .add c x => AddSafe h c x
  | .register x c => AddSafe h c x
  | .remove c nm u lim => RemoveSafe h c nm u lim
  | .deregister x => ∀ p, (h.get x).parent = some p → (h.get p).kind ≠ .relation
  | .unaryConnect e _ _ _ (some s) => ¬ Anc h s e ∧ s ≠ e ∧ Movable h s
  | .setClock _ c => c ≠ none
  | _ => True

/-- States reached from the empty program state by well-formed calls, with no other restriction. -/
inductive ReachAny (E : Env) : Heap → Prop
  | init : ReachAny E Heap.empty
  | step {h} (op : Op) : ReachAny E h → op.Valid h → ReachAny E (op.after E h)

/-- States reached from the empty program state by well-formed, safe calls. -/
inductive Reach (E : Env) : Heap → Prop
  | init : Reach E Heap.empty
  | step {h} (op : Op) : Reach E h → op.Valid h → op.Safe h → Reach E (op.after E h)

end Rei
