import Verif.Model.Encoding

/-!
# The bytes of messages (`cbor2.dumps`, `cbor2.loads` in `hypergraph/encoding/graph_tensor_icon_cbor.py`)

CBOR (RFC 8949) as far as messages need it: integers below 2^64 in absolute value, floats of 64 bits, byte strings, texts and
arrays of definite length.  `cbor2` is not part of the repository; it is modelled from the RFC.
-/
namespace Rei

/-- A data item.  A float is given by its 64 bits. -/
inductive Cbor where
  | int (n : Int)
  | float (bits : Nat)
  | bytes (b : Bytes)
  | text (s : Str)
  | array (l : List Cbor)

/-- The last `k` bytes of a number, the most significant first. -/
def bigEndian : Nat → Nat → Bytes
  | 0, _ => []
  | k + 1, n => bigEndian k (n / 256) ++ [UInt8.ofNat (n % 256)]

/-- The number that bytes stand for. -/
def bigNumber (b : Bytes) : Nat := b.foldl (fun a x => a * 256 + x.toNat) 0

/-- The initial bytes of an item with a major type and an argument, RFC 8949, 3: always the shortest form. -/
def cborHead (major n : Nat) : Bytes :=
  if n < 24 then [UInt8.ofNat (32 * major + n)]
  else if n < 2 ^ 8 then UInt8.ofNat (32 * major + 24) :: bigEndian 1 n
  else if n < 2 ^ 16 then UInt8.ofNat (32 * major + 25) :: bigEndian 2 n
  else if n < 2 ^ 32 then UInt8.ofNat (32 * major + 26) :: bigEndian 4 n
  else UInt8.ofNat (32 * major + 27) :: bigEndian 8 n

/-- `str.encode('utf-8')`. -/
def utf8 (s : Str) : Bytes := s.flatMap String.utf8EncodeChar

/-- `bytes.decode('utf-8')`; `none` is a `UnicodeDecodeError`. -/
def unUtf8 (b : Bytes) : Option Str := b.toByteArray.utf8Decode?.map Array.toList

mutual
/-- `cbor2.dumps(x)`. -/
def Cbor.dumps : Cbor → Bytes
  | .int n => if 0 ≤ n then cborHead 0 n.toNat else cborHead 1 (-1 - n).toNat
  | .float bits => UInt8.ofNat (32 * 7 + 27) :: bigEndian 8 bits
  | .bytes b => cborHead 2 b.length ++ b
  | .text s => cborHead 3 (utf8 s).length ++ utf8 s
  | .array l => cborHead 4 l.length ++ Cbor.dumpsAll l
/-- The items of an array. -/
def Cbor.dumpsAll : List Cbor → Bytes
  | [] => []
  | x :: l => x.dumps ++ Cbor.dumpsAll l
end

/-- The first `k` bytes and the rest; `none` is a `CBORDecodeEOF`. -/
def takeBytes (k : Nat) (b : Bytes) : Option (Bytes × Bytes) :=
  if b.length < k then none else some (b.take k, b.drop k)

/-- The major type, the additional information and the argument of an item, and the rest.  Indefinite lengths (31) and the
reserved values are `none` (messages have none). -/
def readHead : Bytes → Option (Nat × Nat × Nat × Bytes)
  | [] => none
  | b :: r =>
    let major := b.toNat / 32
    let info := b.toNat % 32
    let long (k : Nat) := (takeBytes k r).map fun p => (major, info, bigNumber p.1, p.2)
    if info < 24 then some (major, info, info, r)
    else if info = 24 then long 1
    else if info = 25 then long 2
    else if info = 26 then long 4
    else if info = 27 then long 8
    else none

/-- `n` items with a given reader. -/
def readMany (rd : Bytes → Option (Cbor × Bytes)) : Nat → Bytes → Option (List Cbor × Bytes)
  | 0, b => some ([], b)
  | n + 1, b =>
    match rd b with
    | none => none
    | some (x, b) => (readMany rd n b).map fun p => (x :: p.1, p.2)

/-- The first item, nested to a depth below the first argument, and the rest; `none` is an exception.  Tags, maps, simple values
and shorter floats are `none` (messages have none). -/
def readItem : Nat → Bytes → Option (Cbor × Bytes)
  | 0, _ => none
  | f + 1, b =>
    match readHead b with
    | none => none
    | some (major, info, n, r) =>
      match major with
      | 0 => some (.int n, r)
      | 1 => some (.int (-1 - n), r)
      | 2 => (takeBytes n r).map fun p => (.bytes p.1, p.2)
      | 3 =>
        match takeBytes n r with
        | none => none
        | some (t, r) => (unUtf8 t).map fun s => (.text s, r)
      | 4 => (readMany (readItem f) n r).map fun p => (.array p.1, p.2)
      | 7 => if info = 27 then some (.float n, r) else none
      | _ => none

/-- `cbor2.loads(b)`: the first item, whatever follows; `none` is an exception.  The recursion limit is not modelled. -/
def Cbor.loads (b : Bytes) : Option Cbor := (readItem (b.length + 1) b).map (·.1)

/-- How numbers that occur as values and weights are put into items.  (Python's integers and floats are both rationals in the
model.) -/
structure NumberCode where
  put : Rat → Cbor
  get : Cbor → Option Rat

/-- `direction.value`, `hypergraph/common_definitions.py:4-7`. -/
def Dir.code : Dir → Int
  | .inwards => 0
  | .outwards => 1
  | .bidirectional => 2

/-- The node tuple, `graph_tensor_icon.py:53-56`. -/
def NodeMsg.item (n : NodeMsg) : Cbor :=
  .array [.bytes n.uuid, .text n.name, .int n.index, match n.parent with | none => .int 0 | some p => .bytes p, .bytes (utf8 n.qual)]

/-- The edge tuple, `graph_tensor_icon.py:58-59`. -/
def EdgeMsg.item (e : EdgeMsg) : Cbor :=
  .array [.bytes e.uuid, .text e.name, .int e.index, .bytes e.parent, .bytes (utf8 e.qual)]

/-- The relation tuple, `graph_tensor_icon.py:77-78`. -/
def RelMsg.item (r : RelMsg) : Cbor :=
  .array [.bytes r.uuid, .text r.name, .text r.qual, .int r.dir.code, .bytes r.endpoint, .bytes r.edge]

/-- The value tuple, `graph_tensor_icon.py:61-63`. -/
def ValMsg.item (N : NumberCode) (v : ValMsg) : Cbor :=
  .array [.bytes v.uuid, .text v.name, .int v.index, .bytes v.parent, .bytes (utf8 v.qual), .array (v.values.map N.put)]

/-- The coordinate of the value tensor, `graph_tensor_icon.py:36`. -/
def Coo.item (N : NumberCode) (t : Coo) : Cbor := .array [.int t.e, .int t.n, .int t.m, N.put t.w]
/-- The coordinate of the outgoing incidences, `graph_tensor_icon.py:38`. -/
def Coo.itemOut (N : NumberCode) (t : Coo) : Cbor := .array [.int t.e, .int t.n, N.put t.w]
/-- The coordinate of the incoming incidences, `graph_tensor_icon.py:39`. -/
def Coo.itemIn (N : NumberCode) (t : Coo) : Cbor := .array [.int t.e, .int t.m, N.put t.w]

/-- `frag` of `full_msg`, `graph_tensor_icon_cbor.py:32-36`. -/
def FullMsg.item (N : NumberCode) (m : FullMsg) : Cbor :=
  .array [.array (m.nodes.map NodeMsg.item), .array (m.edges.map EdgeMsg.item), .array (m.rels.map RelMsg.item),
    .array (m.vals.map (ValMsg.item N)), .array (m.coo.map (Coo.item N)), .array (m.coo.map (Coo.itemOut N)),
    .array (m.coo.map (Coo.itemIn N))]

/-- The argument of `cbor2.dumps` in `msg_value_update`, `graph_tensor_icon.py:87-88`. -/
def updateItem (N : NumberCode) (u : List (Nat × List Rat)) : Cbor :=
  .array (u.map fun p => .array [.int p.1, .array (p.2.map N.put)])

/-- An index. -/
def Cbor.toIndex : Cbor → Option Nat
  | .int n => if 0 ≤ n then some n.toNat else none
  | _ => none

/-- A byte string. -/
def Cbor.toBytes : Cbor → Option Bytes
  | .bytes b => some b
  | _ => none

/-- A text. -/
def Cbor.toText : Cbor → Option Str
  | .text s => some s
  | _ => none

/-- An encoded text, `graph_tensor_icon_cbor.py:59,68`.  (The qualified name of a value node stays encoded in the code, `:78`.) -/
def Cbor.toEncoded : Cbor → Option Str
  | .bytes b => unUtf8 b
  | _ => none

/-- The elements of an array, each read with `f`. -/
def Cbor.toList {α : Type} (f : Cbor → Option α) : Cbor → Option (List α)
  | .array l => l.mapM f
  | _ => none

/-- What `create_graph` reads of a node tuple, `graph_tensor_icon_cbor.py:58-64`. -/
def readNodeMsg : Cbor → Option NodeMsg
  | .array [u, s, i, p, q] => do
    let u ← u.toBytes
    let s ← s.toText
    let i ← i.toIndex
    let p ← match p with
      | .int 0 => some none
      | p => p.toBytes.map some
    let q ← q.toEncoded
    some { uuid := u, name := s, index := i, parent := p, qual := q }
  | _ => none

/-- Of an edge tuple, `:67-70`. -/
def readEdgeMsg : Cbor → Option EdgeMsg
  | .array [u, s, i, p, q] => do
    let u ← u.toBytes
    let s ← s.toText
    let i ← i.toIndex
    let p ← p.toBytes
    let q ← q.toEncoded
    some { uuid := u, name := s, index := i, parent := p, qual := q }
  | _ => none

/-- A direction. -/
def Cbor.toDir : Cbor → Option Dir
  | .int 0 => some .inwards
  | .int 1 => some .outwards
  | .int 2 => some .bidirectional
  | _ => none

/-- Of a relation tuple, `:72-74`. -/
def readRelMsg : Cbor → Option RelMsg
  | .array [u, s, q, d, v, e] => do
    let u ← u.toBytes
    let s ← s.toText
    let q ← q.toText
    let d ← d.toDir
    let v ← v.toBytes
    let e ← e.toBytes
    some { uuid := u, name := s, qual := q, dir := d, endpoint := v, edge := e }
  | _ => none

/-- Of a value tuple, `:77-80`. -/
def readValMsg (N : NumberCode) : Cbor → Option ValMsg
  | .array [u, s, i, p, q, l] => do
    let u ← u.toBytes
    let s ← s.toText
    let i ← i.toIndex
    let p ← p.toBytes
    let q ← q.toEncoded
    let l ← l.toList N.get
    some { uuid := u, name := s, index := i, parent := p, qual := q, values := l }
  | _ => none

/-- What a reader of a message reads of a coordinate of the value tensor. -/
def readCoo (N : NumberCode) : Cbor → Option Coo
  | .array [e, n, m, w] => do
    let e ← e.toIndex
    let n ← n.toIndex
    let m ← m.toIndex
    let w ← N.get w
    some { e := e, n := n, m := m, w := w }
  | _ => none

/-- `frag[0..3]` as `create_graph` reads them, `graph_tensor_icon_cbor.py:48,57,67,72,77`, and the first coordinate list, which it
does not read. -/
def readFullMsg (N : NumberCode) : Cbor → Option FullMsg
  | .array [ns, es, rs, vs, cs, _, _] => do
    let ns ← ns.toList readNodeMsg
    let es ← es.toList readEdgeMsg
    let rs ← rs.toList readRelMsg
    let vs ← vs.toList (readValMsg N)
    let cs ← cs.toList (readCoo N)
    some { nodes := ns, edges := es, rels := rs, vals := vs, coo := cs }
  | _ => none

/-- An update as `from_msg_update_values` reads it, `graph_tensor_icon_cbor.py:43-45`. -/
def readUpdate (N : NumberCode) : Cbor → Option (List (Nat × List Rat)) :=
  Cbor.toList fun
    | .array [i, l] => do
      let i ← i.toIndex
      let l ← l.toList N.get
      some (i, l)
    | _ => none

end Rei
