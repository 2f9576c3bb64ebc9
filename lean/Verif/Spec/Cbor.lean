import Verif.Model.Cbor

/-!
# Messages small enough for one item (C124)
-/
namespace Rei

mutual
/-- All integers are between -2^64 and 2^64, and all lengths below 2^64. -/
def Cbor.Fits : Cbor → Prop
  | .int n => -(2 ^ 64 : Int) ≤ n ∧ n < 2 ^ 64
  | .float bits => bits < 2 ^ 64
  | .bytes b => b.length < 2 ^ 64
  | .text s => (utf8 s).length < 2 ^ 64
  | .array l => l.length < 2 ^ 64 ∧ Cbor.FitAll l
/-- The same for every element of a list. -/
def Cbor.FitAll : List Cbor → Prop
  | [] => True
  | x :: l => x.Fits ∧ Cbor.FitAll l
end

/-- NumberCode of which `get` reads back what `put` has written. -/
def NumberCode.Exact (N : NumberCode) (w : Rat) : Prop := N.get (N.put w) = some w ∧ (N.put w).Fits

/-- A message whose lists, names, identifiers and indices are below 2^64 and whose numbers can be written. -/
structure SmallMsg (N : NumberCode) (m : FullMsg) : Prop where
  nodes : m.nodes.length < 2 ^ 64 ∧ ∀ n ∈ m.nodes, n.uuid.length < 2 ^ 64 ∧ (utf8 n.name).length < 2 ^ 64 ∧ n.index < 2 ^ 64 ∧
    (∀ p, n.parent = some p → p.length < 2 ^ 64) ∧ (utf8 n.qual).length < 2 ^ 64
  edges : m.edges.length < 2 ^ 64 ∧ ∀ e ∈ m.edges, e.uuid.length < 2 ^ 64 ∧ (utf8 e.name).length < 2 ^ 64 ∧ e.index < 2 ^ 64 ∧
    e.parent.length < 2 ^ 64 ∧ (utf8 e.qual).length < 2 ^ 64
  rels : m.rels.length < 2 ^ 64 ∧ ∀ r ∈ m.rels, r.uuid.length < 2 ^ 64 ∧ (utf8 r.name).length < 2 ^ 64 ∧
    (utf8 r.qual).length < 2 ^ 64 ∧ r.endpoint.length < 2 ^ 64 ∧ r.edge.length < 2 ^ 64
  vals : m.vals.length < 2 ^ 64 ∧ ∀ v ∈ m.vals, v.uuid.length < 2 ^ 64 ∧ (utf8 v.name).length < 2 ^ 64 ∧ v.index < 2 ^ 64 ∧
    v.parent.length < 2 ^ 64 ∧ (utf8 v.qual).length < 2 ^ 64 ∧ v.values.length < 2 ^ 64 ∧ ∀ w ∈ v.values, N.Exact w
  coo : m.coo.length < 2 ^ 64 ∧ ∀ t ∈ m.coo, t.e < 2 ^ 64 ∧ t.n < 2 ^ 64 ∧ t.m < 2 ^ 64 ∧ N.Exact t.w

/-- The same for a value message. -/
def SmallUpdate (N : NumberCode) (u : List (Nat × List Rat)) : Prop :=
  u.length < 2 ^ 64 ∧ ∀ p ∈ u, p.1 < 2 ^ 64 ∧ p.2.length < 2 ^ 64 ∧ ∀ w ∈ p.2, N.Exact w

/-- Python's integers: whole numbers are written as integers.  (Fractions are not written exactly here; in Python they are
floats.) -/
def wholeNumbers : NumberCode where
  put w := .int w.num
  get
    | .int n => some n
    | _ => none

/-- The number that 64 bits stand for as a float (IEEE 754, binary64); none for infinities and NaN. -/
def floatValue (bits : Nat) : Option Rat :=
  let sign : Int := if bits / 2 ^ 63 % 2 = 1 then -1 else 1
  let e : Nat := bits / 2 ^ 52 % 2 ^ 11
  let m : Nat := bits % 2 ^ 52
  if e = 2047 then none
  else if e = 0 then some ((sign * m : Int) / (2 ^ 1074 : Nat))
  else if e < 1075 then some ((sign * (2 ^ 52 + m : Nat) : Int) / (2 ^ (1075 - e) : Nat))
  else some (sign * (2 ^ 52 + m : Nat) * 2 ^ (e - 1075) : Int)

open Classical in
/-- Python's integers and floats: whole numbers as integers, others as floats of this value if there is one. -/
noncomputable def pythonNumbers : NumberCode where
  put w :=
    if w.den = 1 then .int w.num
    else if k : ∃ b < 2 ^ 64, floatValue b = some w then .float k.choose
    else .array []
  get
    | .int n => some n
    | .float b => floatValue b
    | _ => none

end Rei
