import Verif.Spec.Cbor
import Verif.Props.Encoding
import Mathlib.Tactic.NormNum

/-!
# C124: messages as bytes
-/
namespace Rei
open Sample

/-! ## Heads -/

theorem bigNumber_append (l : Bytes) (b : UInt8) : bigNumber (l ++ [b]) = bigNumber l * 256 + b.toNat := by
  simp [bigNumber]

theorem bigEndian_length : ∀ (k n : Nat), (bigEndian k n).length = k
  | 0, _ => rfl
  | k + 1, n => by rw [bigEndian, List.length_append, bigEndian_length k]; rfl

theorem bigNumber_bigEndian : ∀ (k n : Nat), n < 256 ^ k → bigNumber (bigEndian k n) = n
  | 0, n, h => by
    have : n = 0 := by simpa using h
    subst this; rfl
  | k + 1, n, h => by
    rw [bigEndian, bigNumber_append, bigNumber_bigEndian k (n / 256) (by
      rw [Nat.div_lt_iff_lt_mul (by norm_num)]; rwa [pow_succ] at h)]
    have : (UInt8.ofNat (n % 256)).toNat = n % 256 := by
      rw [UInt8.toNat_ofNat']; exact Nat.mod_mod_of_dvd _ (by norm_num)
    rw [this]
    omega

theorem takeBytes_append (b r : Bytes) : takeBytes b.length (b ++ r) = some (b, r) := by
  unfold takeBytes
  rw [if_neg (by simp), List.take_left', List.drop_left'] <;> rfl

theorem takeBytes_more {k : Nat} {b t r : Bytes} (e : takeBytes k b = some (t, r)) (s : Bytes) :
    takeBytes k (b ++ s) = some (t, r ++ s) := by
  unfold takeBytes at e ⊢
  by_cases h : b.length < k
  · rw [if_pos h] at e; cases e
  · rw [if_neg h] at e
    rw [if_neg (by rw [List.length_append]; omega)]
    cases e
    rw [List.take_append_of_le_length (by omega), List.drop_append_of_le_length (by omega)]

theorem byte_toNat {n : Nat} (h : n < 256) : (UInt8.ofNat n).toNat = n := by
  rw [UInt8.toNat_ofNat']; exact Nat.mod_eq_of_lt h

theorem readHead_long {major info k n : Nat} (hm : major < 8) (hi : info < 32) (hk : (info = 24 ∧ k = 1) ∨ (info = 25 ∧ k = 2) ∨
    (info = 26 ∧ k = 4) ∨ (info = 27 ∧ k = 8)) (hn : n < 256 ^ k) (r : Bytes) :
    readHead (UInt8.ofNat (32 * major + info) :: bigEndian k n ++ r) = some (major, info, n, r) := by
  have e : (UInt8.ofNat (32 * major + info)).toNat = 32 * major + info := byte_toNat (by omega)
  have e1 : (32 * major + info) / 32 = major := by omega
  have e2 : (32 * major + info) % 32 = info := by omega
  have t := takeBytes_append (bigEndian k n) r
  rw [bigEndian_length] at t
  unfold readHead
  simp only [List.cons_append, e, e1, e2]
  rcases hk with ⟨rfl, rfl⟩ | ⟨rfl, rfl⟩ | ⟨rfl, rfl⟩ | ⟨rfl, rfl⟩ <;> simp [t, bigNumber_bigEndian _ _ hn]

theorem readHead_head {major n : Nat} (hm : major < 8) (hn : n < 2 ^ 64) (r : Bytes) :
    ∃ info, readHead (cborHead major n ++ r) = some (major, info, n, r) := by
  unfold cborHead
  split
  · next h =>
    refine ⟨n, ?_⟩
    have e : (UInt8.ofNat (32 * major + n)).toNat = 32 * major + n := byte_toNat (by omega)
    have e1 : (32 * major + n) / 32 = major := by omega
    have e2 : (32 * major + n) % 32 = n := by omega
    unfold readHead
    simp only [List.cons_append, List.nil_append, e, e1, e2, if_pos h]
  · split
    · next h => exact ⟨24, readHead_long hm (by norm_num) (by norm_num) (by simpa using h) r⟩
    · split
      · next h => exact ⟨25, readHead_long hm (by norm_num) (by norm_num) (by norm_num; omega) r⟩
      · split
        · next h => exact ⟨26, readHead_long hm (by norm_num) (by norm_num) (by norm_num; omega) r⟩
        · exact ⟨27, readHead_long hm (by norm_num) (by norm_num) (by norm_num; omega) r⟩

theorem readHead_more {b r : Bytes} {x y z : Nat} (e : readHead b = some (x, y, z, r)) (s : Bytes) :
    readHead (b ++ s) = some (x, y, z, r ++ s) := by
  cases b with
  | nil => cases e
  | cons a b =>
    unfold readHead at e
    rw [List.cons_append]
    unfold readHead
    simp only at e ⊢
    have long : ∀ k, ((takeBytes k b).map fun p => (a.toNat / 32, a.toNat % 32, bigNumber p.1, p.2)) = some (x, y, z, r) →
        ((takeBytes k (b ++ s)).map fun p => (a.toNat / 32, a.toNat % 32, bigNumber p.1, p.2)) = some (x, y, z, r ++ s) := by
      intro k e
      cases t : takeBytes k b with
      | none => rw [t] at e; cases e
      | some p =>
        rw [t] at e
        rw [takeBytes_more (t := p.1) (r := p.2) t s]
        cases e
        rfl
    by_cases h0 : a.toNat % 32 < 24
    · rw [if_pos h0] at e ⊢; cases e; rfl
    rw [if_neg h0] at e ⊢
    by_cases h1 : a.toNat % 32 = 24
    · rw [if_pos h1] at e ⊢; exact long _ e
    rw [if_neg h1] at e ⊢
    by_cases h2 : a.toNat % 32 = 25
    · rw [if_pos h2] at e ⊢; exact long _ e
    rw [if_neg h2] at e ⊢
    by_cases h3 : a.toNat % 32 = 26
    · rw [if_pos h3] at e ⊢; exact long _ e
    rw [if_neg h3] at e ⊢
    by_cases h4 : a.toNat % 32 = 27
    · rw [if_pos h4] at e ⊢; exact long _ e
    rw [if_neg h4] at e; cases e

/-! ## Items -/

theorem unUtf8_utf8 (s : Str) : unUtf8 (utf8 s) = some s := by
  have := List.utf8Decode?_utf8Encode (l := s)
  unfold unUtf8 utf8
  unfold List.utf8Encode at this
  rw [this]
  simp

theorem readMany_more {rd rd' : Bytes → Option (Cbor × Bytes)} {s : Bytes}
    (H : ∀ b x r, rd b = some (x, r) → rd' (b ++ s) = some (x, r ++ s)) : ∀ (n : Nat) (b : Bytes) (l : List Cbor) (r : Bytes),
    readMany rd n b = some (l, r) → readMany rd' n (b ++ s) = some (l, r ++ s)
  | 0, b, l, r, e => by cases e; rfl
  | n + 1, b, l, r, e => by
    rw [readMany] at e ⊢
    cases k : rd b with
    | none => rw [k] at e; cases e
    | some p =>
      rw [k] at e
      rw [H b p.1 p.2 k]
      simp only at e ⊢
      cases k' : readMany rd n p.2 with
      | none => rw [k'] at e; cases e
      | some q =>
        rw [k'] at e
        rw [readMany_more H n p.2 q.1 q.2 k']
        cases e
        rfl

/-- More bytes behind an item change nothing. -/
theorem readItem_more : ∀ (f f' : Nat), f ≤ f' → ∀ (b : Bytes) (x : Cbor) (r s : Bytes), readItem f b = some (x, r) →
    readItem f' (b ++ s) = some (x, r ++ s)
  | 0, _, _, _, _, _, _, e => by cases e
  | f + 1, 0, h, _, _, _, _, _ => by omega
  | f + 1, f' + 1, h, b, x, r, s, e => by
    rw [readItem] at e ⊢
    cases k : readHead b with
    | none => rw [k] at e; cases e
    | some p =>
      obtain ⟨major, info, n, b'⟩ := p
      rw [k] at e
      rw [readHead_more k s]
      simp only at e ⊢
      have take : ∀ (g : Bytes → Option Cbor),
          (match takeBytes n b' with | none => none | some (t, r) => (g t).map fun s => (s, r)) = some (x, r) →
          (match takeBytes n (b' ++ s) with | none => none | some (t, r) => (g t).map fun s => (s, r)) = some (x, r ++ s) := by
        intro g e
        cases t : takeBytes n b' with
        | none => rw [t] at e; cases e
        | some q =>
          obtain ⟨t', r'⟩ := q
          rw [t] at e
          rw [takeBytes_more t s]
          simp only at e ⊢
          cases u : g t' with
          | none => rw [u] at e; cases e
          | some y => rw [u] at e; cases e; rfl
      match major with
      | 0 => cases e; rfl
      | 1 => cases e; rfl
      | 2 =>
        simp only at e ⊢
        cases t : takeBytes n b' with
        | none => rw [t] at e; cases e
        | some q =>
          obtain ⟨t', r'⟩ := q
          rw [t] at e
          rw [takeBytes_more t s]
          cases e; rfl
      | 3 =>
        simp only at e ⊢
        cases t : takeBytes n b' with
        | none => rw [t] at e; cases e
        | some q =>
          obtain ⟨t', r'⟩ := q
          rw [t] at e
          rw [takeBytes_more t s]
          simp only at e ⊢
          cases u : unUtf8 t' with
          | none => rw [u] at e; cases e
          | some y => rw [u] at e; cases e; rfl
      | 4 =>
        simp only at e ⊢
        cases t : readMany (readItem f) n b' with
        | none => rw [t] at e; cases e
        | some q =>
          rw [t] at e
          rw [readMany_more (rd' := readItem f') (fun b x r e => readItem_more f f' (by omega) b x r s e) n b' q.1 q.2 t]
          cases e; rfl
      | 5 => cases e
      | 6 => cases e
      | 7 =>
        simp only at e ⊢
        by_cases i : info = 27
        · rw [if_pos i] at e ⊢; cases e; rfl
        · rw [if_neg i] at e; cases e
      | n + 8 => cases e

mutual
/-- How deep an item is nested. -/
def Cbor.depth : Cbor → Nat
  | .array l => Cbor.depths l + 1
  | _ => 0
/-- The depth of the deepest of a list. -/
def Cbor.depths : List Cbor → Nat
  | [] => 0
  | x :: l => max x.depth (Cbor.depths l)
end

mutual
theorem readItem_dumps : ∀ (x : Cbor), x.Fits → ∀ (f : Nat), x.depth < f → ∀ r, readItem f (x.dumps ++ r) = some (x, r)
  | .int n, h, f + 1, _, r => by
    rw [Cbor.Fits] at h
    rw [Cbor.dumps]
    by_cases p : 0 ≤ n
    · rw [if_pos p]
      obtain ⟨i, e⟩ := readHead_head (major := 0) (n := n.toNat) (by norm_num) (by omega) r
      rw [readItem, e]
      simp only
      rw [Int.toNat_of_nonneg p]
    · rw [if_neg p]
      obtain ⟨i, e⟩ := readHead_head (major := 1) (n := (-1 - n).toNat) (by norm_num) (by omega) r
      rw [readItem, e]
      simp only
      rw [Int.toNat_of_nonneg (by omega)]
      congr 3
      omega
  | .float b, h, f + 1, _, r => by
    rw [Cbor.Fits] at h
    rw [Cbor.dumps, readItem, readHead_long (k := 8) (by norm_num) (by norm_num) (by norm_num) (by norm_num; omega)]
    rfl
  | .bytes b, h, f + 1, _, r => by
    rw [Cbor.Fits] at h
    rw [Cbor.dumps, List.append_assoc]
    obtain ⟨i, e⟩ := readHead_head (major := 2) (n := b.length) (by norm_num) h (b ++ r)
    rw [readItem, e]
    simp only
    rw [takeBytes_append]
    rfl
  | .text s, h, f + 1, _, r => by
    rw [Cbor.Fits] at h
    rw [Cbor.dumps, List.append_assoc]
    obtain ⟨i, e⟩ := readHead_head (major := 3) (n := (utf8 s).length) (by norm_num) h (utf8 s ++ r)
    rw [readItem, e]
    simp only
    rw [takeBytes_append]
    simp only
    rw [unUtf8_utf8]
    rfl
  | .array l, h, f + 1, d, r => by
    rw [Cbor.Fits] at h
    rw [Cbor.depth] at d
    rw [Cbor.dumps, List.append_assoc]
    obtain ⟨i, e⟩ := readHead_head (major := 4) (n := l.length) (by norm_num) h.1 (Cbor.dumpsAll l ++ r)
    rw [readItem, e]
    simp only
    rw [readMany_dumps l h.2 f (by omega) r]
    rfl
theorem readMany_dumps : ∀ (l : List Cbor), Cbor.FitAll l → ∀ (f : Nat), Cbor.depths l < f → ∀ r,
    readMany (readItem f) l.length (Cbor.dumpsAll l ++ r) = some (l, r)
  | [], _, _, _, r => rfl
  | x :: l, h, f, d, r => by
    rw [Cbor.FitAll] at h
    rw [Cbor.depths] at d
    rw [Cbor.dumpsAll, List.length_cons, readMany, List.append_assoc, readItem_dumps x h.1 f (by omega)]
    simp only
    rw [readMany_dumps l h.2 f (by omega)]
    rfl
end

theorem cborHead_pos (major n : Nat) : 0 < (cborHead major n).length := by
  unfold cborHead
  split <;> [skip; split <;> [skip; split <;> [skip; split]]] <;> simp

mutual
theorem depth_length : ∀ x : Cbor, x.depth ≤ x.dumps.length
  | .int _ => by simp [Cbor.depth]
  | .float _ => by simp [Cbor.depth]
  | .bytes _ => by simp [Cbor.depth]
  | .text _ => by simp [Cbor.depth]
  | .array l => by
    rw [Cbor.depth, Cbor.dumps, List.length_append]
    have := cborHead_pos 4 l.length
    have := depths_length l
    omega
theorem depths_length : ∀ l : List Cbor, Cbor.depths l ≤ (Cbor.dumpsAll l).length
  | [] => by simp [Cbor.depths]
  | x :: l => by
    rw [Cbor.depths, Cbor.dumpsAll, List.length_append]
    have := depth_length x
    have := depths_length l
    omega
end

/-- Items survive being written and read, whatever follows. -/
theorem loads_dumps {x : Cbor} (h : x.Fits) (r : Bytes) : Cbor.loads (x.dumps ++ r) = some x := by
  unfold Cbor.loads
  rw [readItem_dumps x h _ (by
    have := depth_length x
    rw [List.length_append]; omega) r]
  rfl

/-- An item that is cut off cannot be read. -/
theorem loads_cut {x : Cbor} (h : x.Fits) {p s : Bytes} (e : x.dumps = p ++ s) (ne : s ≠ []) : Cbor.loads p = none := by
  unfold Cbor.loads
  cases k : readItem (p.length + 1) p with
  | none => rfl
  | some q =>
    exfalso
    have m := readItem_more (p.length + 1) (x.dumps.length + 1) (by rw [e, List.length_append]; omega) p q.1 q.2 s k
    have := readItem_dumps x h (x.dumps.length + 1) (by have := depth_length x; omega) []
    rw [List.append_nil] at this
    rw [← e, this] at m
    have z : q.2 ++ s = [] := by
      have := congrArg (fun o => o.map Prod.snd) m
      simpa using this.symm
    exact ne (List.append_eq_nil_iff.1 z).2

/-! ## Messages -/

theorem fitAll_map {α : Type} {f : α → Cbor} {l : List α} (h : ∀ a ∈ l, (f a).Fits) : Cbor.FitAll (l.map f) := by
  induction l with
  | nil => rw [List.map_nil, Cbor.FitAll]; trivial
  | cons a l ih =>
    rw [List.map_cons, Cbor.FitAll]
    exact ⟨h a (by simp), ih fun b hb => h b (by simp [hb])⟩

theorem toList_map {α : Type} {f : α → Cbor} {g : Cbor → Option α} {l : List α} (h : ∀ a ∈ l, g (f a) = some a) :
    Cbor.toList g (.array (l.map f)) = some l := by
  unfold Cbor.toList
  simp only
  induction l with
  | nil => rfl
  | cons a l ih =>
    rw [List.map_cons, List.mapM_cons, h a (by simp), ih fun b hb => h b (by simp [hb])]
    rfl

theorem index_fits {n : Nat} (h : n < 2 ^ 64) : (Cbor.int n).Fits := by
  rw [Cbor.Fits]; omega

theorem toIndex_index (n : Nat) : (Cbor.int n).toIndex = some n := by
  unfold Cbor.toIndex
  simp

theorem small_fits {N : NumberCode} {m : FullMsg} (S : SmallMsg N m) : (m.item N).Fits := by
  have nodes := fitAll_map (f := NodeMsg.item) (l := m.nodes) fun n hn => by
    obtain ⟨a, b, c, d, e⟩ := S.nodes.2 n hn
    unfold NodeMsg.item
    cases k : n.parent with
    | none => simp [Cbor.Fits, Cbor.FitAll, a, b, e]; omega
    | some p => simp [Cbor.Fits, Cbor.FitAll, a, b, e, d p k]; omega
  have edges := fitAll_map (f := EdgeMsg.item) (l := m.edges) fun n hn => by
    obtain ⟨a, b, c, d, e⟩ := S.edges.2 n hn
    unfold EdgeMsg.item
    simp [Cbor.Fits, Cbor.FitAll, a, b, d, e]; omega
  have rels := fitAll_map (f := RelMsg.item) (l := m.rels) fun n hn => by
    obtain ⟨a, b, c, d, e⟩ := S.rels.2 n hn
    unfold RelMsg.item
    cases n.dir <;> simp [Cbor.Fits, Cbor.FitAll, a, b, c, d, e, Dir.code]
  have vals := fitAll_map (f := ValMsg.item N) (l := m.vals) fun n hn => by
    obtain ⟨a, b, c, d, e, f, g⟩ := S.vals.2 n hn
    have := fitAll_map (f := N.put) (l := n.values) fun w hw => (g w hw).2
    unfold ValMsg.item
    simp [Cbor.Fits, Cbor.FitAll, a, b, d, e, f, this]; omega
  have coo := fitAll_map (f := Coo.item N) (l := m.coo) fun t ht => by
    obtain ⟨a, b, c, d⟩ := S.coo.2 t ht
    unfold Coo.item
    simp [Cbor.Fits, Cbor.FitAll, d.2]; omega
  have out := fitAll_map (f := Coo.itemOut N) (l := m.coo) fun t ht => by
    obtain ⟨a, b, c, d⟩ := S.coo.2 t ht
    unfold Coo.itemOut
    simp [Cbor.Fits, Cbor.FitAll, d.2]; omega
  have inc := fitAll_map (f := Coo.itemIn N) (l := m.coo) fun t ht => by
    obtain ⟨a, b, c, d⟩ := S.coo.2 t ht
    unfold Coo.itemIn
    simp [Cbor.Fits, Cbor.FitAll, d.2]; omega
  unfold FullMsg.item
  have := S.nodes.1
  have := S.edges.1
  have := S.rels.1
  have := S.vals.1
  have := S.coo.1
  simp only [Cbor.Fits, Cbor.FitAll, List.length_map, nodes, edges, rels, vals, coo, out, inc, List.length_cons, List.length_nil]
  refine ⟨by norm_num, ⟨by assumption, trivial⟩, ⟨by assumption, trivial⟩, ⟨by assumption, trivial⟩, ⟨by assumption, trivial⟩,
    ⟨by assumption, trivial⟩, ⟨by assumption, trivial⟩, ⟨by assumption, trivial⟩, trivial⟩

theorem read_item {N : NumberCode} {m : FullMsg} (S : SmallMsg N m) : readFullMsg N (m.item N) = some m := by
  have nodes := toList_map (f := NodeMsg.item) (g := readNodeMsg) (l := m.nodes) fun n _ => by
    unfold NodeMsg.item readNodeMsg
    obtain ⟨u, s, i, p, q⟩ := n
    cases p <;> simp [Cbor.toBytes, Cbor.toText, toIndex_index, Cbor.toEncoded, unUtf8_utf8, bind, Option.bind]
  have edges := toList_map (f := EdgeMsg.item) (g := readEdgeMsg) (l := m.edges) fun n _ => by
    unfold EdgeMsg.item readEdgeMsg
    simp [Cbor.toBytes, Cbor.toText, toIndex_index, Cbor.toEncoded, unUtf8_utf8, bind, Option.bind]
  have rels := toList_map (f := RelMsg.item) (g := readRelMsg) (l := m.rels) fun n _ => by
    unfold RelMsg.item readRelMsg
    obtain ⟨u, s, q, d, v, e⟩ := n
    cases d <;> simp [Cbor.toBytes, Cbor.toText, Cbor.toDir, Dir.code, bind, Option.bind]
  have vals := toList_map (f := ValMsg.item N) (g := readValMsg N) (l := m.vals) fun n hn => by
    obtain ⟨a, b, c, d, e, f, g⟩ := S.vals.2 n hn
    have := toList_map (f := N.put) (g := N.get) (l := n.values) fun w hw => (g w hw).1
    unfold ValMsg.item readValMsg
    simp [Cbor.toBytes, Cbor.toText, toIndex_index, Cbor.toEncoded, unUtf8_utf8, bind, Option.bind, this]
  have coo := toList_map (f := Coo.item N) (g := readCoo N) (l := m.coo) fun t ht => by
    obtain ⟨a, b, c, d⟩ := S.coo.2 t ht
    unfold Coo.item readCoo
    simp [toIndex_index, d.1, bind, Option.bind]
  unfold readFullMsg FullMsg.item
  simp only [nodes, edges, rels, vals, coo, bind, Option.bind]

/-- **C124.** The bytes of a full message, whatever follows them, are read as the message. -/
theorem C124_message_bytes (N : NumberCode) {m : FullMsg} (S : SmallMsg N m) (r : Bytes) :
    (Cbor.loads ((m.item N).dumps ++ r)).bind (readFullMsg N) = some m := by
  rw [loads_dumps (small_fits S)]
  exact read_item S

/-- **C124.** Different messages have different bytes, and none begins with the bytes of another. -/
theorem C124_different (N : NumberCode) {m m' : FullMsg} (S : SmallMsg N m) (S' : SmallMsg N m') (r : Bytes)
    (e : (m.item N).dumps ++ r = (m'.item N).dumps) : m = m' ∧ r = [] := by
  have a := C124_message_bytes N S r
  rw [e] at a
  have b := C124_message_bytes N S' []
  rw [List.append_nil, a] at b
  cases b
  exact ⟨rfl, by simpa using e⟩

/-- **C124.** A message that is cut off anywhere cannot be read. -/
theorem C124_cut (N : NumberCode) {m : FullMsg} (S : SmallMsg N m) {p s : Bytes} (e : (m.item N).dumps = p ++ s) (ne : s ≠ []) :
    Cbor.loads p = none := loads_cut (small_fits S) e ne

theorem update_fits {N : NumberCode} {u : List (Nat × List Rat)} (S : SmallUpdate N u) : (updateItem N u).Fits := by
  have := fitAll_map (f := fun p : Nat × List Rat => Cbor.array [.int p.1, .array (p.2.map N.put)]) (l := u) fun p hp => by
    obtain ⟨a, b, c⟩ := S.2 p hp
    have := fitAll_map (f := N.put) (l := p.2) fun w hw => (c w hw).2
    simp [Cbor.Fits, Cbor.FitAll, b, this]; omega
  unfold updateItem
  rw [Cbor.Fits]
  exact ⟨by rw [List.length_map]; exact S.1, this⟩

/-- **C124.** The same for the messages of `msg_value_update`. -/
theorem C124_update_bytes (N : NumberCode) {u : List (Nat × List Rat)} (S : SmallUpdate N u) (r : Bytes) :
    (Cbor.loads ((updateItem N u).dumps ++ r)).bind (readUpdate N) = some u ∧
      ∀ p s, (updateItem N u).dumps = p ++ s → s ≠ [] → Cbor.loads p = none := by
  refine ⟨?_, fun p s e ne => loads_cut (update_fits S) e ne⟩
  rw [loads_dumps (update_fits S)]
  unfold readUpdate updateItem
  refine toList_map fun p hp => ?_
  obtain ⟨a, b, c⟩ := S.2 p hp
  have := toList_map (f := N.put) (g := N.get) (l := p.2) fun w hw => (c w hw).1
  simp [toIndex_index, this, bind, Option.bind]

/-- **C124.** A graph sent as bytes: encoding a context that can be sent, reading the bytes in another process and building the
graph gives a copy there, if the message is small enough for its lengths to be written. -/
theorem C124_graph_bytes {E E' : Env} {h b : Heap} (R : Reach E h) (Rb : Reach E' b) (I : Icon)
    (S : Sendable h I.context) (hr : I.rels = []) (coo : List Coo) (J : Icon) {ck : Clock}
    (hck : J.clock = some ck) {budget : Nat} (hb : HomBudget h h.size false budget I.context) (N : NumberCode) :
    ∃ I1 I2 msg, I.updateContext h budget I.context [] = (.ok (), I1, []) ∧ ({ I1 with coo := coo } : Icon).fullMsg h = (.ok msg, I2) ∧
      (SmallMsg N msg → ∃ msg' J' h' φ, (Cbor.loads (msg.item N).dumps).bind (readFullMsg N) = some msg' ∧
        J.createGraph E' msg' b = (.ok (some b.size), J', h') ∧ Reach E' h' ∧ KeepsOld b h' ∧
        Copy h I.context b h' b.size φ) := by
  obtain ⟨I1, I2, J', m, m', msg, h', φ, a, -, c, -, e, -, -, f, g, k, -⟩ := C49_roundtrip_partial R Rb I S hr coo J hck hb
  refine ⟨I1, I2, msg, a, c, fun Sm => ⟨msg, J', h', φ, ?_, e, f, g, k⟩⟩
  have := C124_message_bytes N Sm []
  rwa [List.append_nil] at this

/-- **C124.** Every whole number below 2^64 and every finite float that is not whole is written exactly. -/
theorem C124_numbers {w : Rat} (h : (w.den = 1 ∧ -(2 ^ 64 : Int) ≤ w.num ∧ w.num < 2 ^ 64) ∨
    (w.den ≠ 1 ∧ ∃ b < 2 ^ 64, floatValue b = some w)) : pythonNumbers.Exact w := by
  rcases h with ⟨d, k⟩ | ⟨d, k⟩
  · refine ⟨?_, ?_⟩
    · unfold pythonNumbers
      simp only [if_pos d, Option.some.injEq]
      exact Rat.ext (by simp) (by simp [d])
    · unfold pythonNumbers
      simp only [if_pos d]
      rw [Cbor.Fits]
      exact k
  · refine ⟨?_, ?_⟩
    · unfold pythonNumbers
      simp only [if_neg d, dif_pos k]
      exact k.choose_spec.2
    · unfold pythonNumbers
      simp only [if_neg d, dif_pos k]
      rw [Cbor.Fits]
      exact k.choose_spec.1

namespace Sample

/-- One half, minus three quarters and the smallest positive float. -/
theorem float_sample : floatValue 0x3FE0000000000000 = some (1 / 2) ∧ floatValue 0xBFE8000000000000 = some (-3 / 4) ∧
    floatValue 1 = some (1 / 2 ^ 1074) ∧ floatValue 0x7FF0000000000000 = none := by decide +kernel

example : pythonNumbers.Exact (1 / 2) :=
  C124_numbers (.inr ⟨by decide +kernel, 0x3FE0000000000000, by decide, float_sample.1⟩)

theorem whole_exact {w : Rat} (h : w.den = 1) (k : -(2 ^ 64 : Int) ≤ w.num ∧ w.num < 2 ^ 64) : wholeNumbers.Exact w := by
  refine ⟨?_, by unfold wholeNumbers; rw [Cbor.Fits]; exact k⟩
  unfold wholeNumbers
  simp only [Option.some.injEq]
  exact Rat.ext (by simp) (by simp [h])

/-- The message of a graph with an edge. -/
theorem small_s12 : SmallMsg wholeNumbers (encoded s12 (contextHom s12 0) 0 []) := by
  refine ⟨⟨by decide +kernel, fun n hn => ?_⟩, ⟨by decide +kernel, by decide +kernel⟩, ⟨by decide +kernel, by decide +kernel⟩,
    ⟨by decide +kernel, fun v hv => ?_⟩, ⟨by decide +kernel, fun t ht => by cases ht⟩⟩
  · have all : ∀ n ∈ (encoded s12 (contextHom s12 0) 0 []).nodes, n.uuid.length < 2 ^ 64 ∧ (utf8 n.name).length < 2 ^ 64 ∧
        n.index < 2 ^ 64 ∧ (n.parent.getD []).length < 2 ^ 64 ∧ (utf8 n.qual).length < 2 ^ 64 := by decide +kernel
    obtain ⟨a, b, c, d, e⟩ := all n hn
    exact ⟨a, b, c, fun p hp => by rw [hp] at d; exact d, e⟩
  · have all : ∀ v ∈ (encoded s12 (contextHom s12 0) 0 []).vals, v.uuid.length < 2 ^ 64 ∧ (utf8 v.name).length < 2 ^ 64 ∧
        v.index < 2 ^ 64 ∧ v.parent.length < 2 ^ 64 ∧ (utf8 v.qual).length < 2 ^ 64 ∧ v.values.length < 2 ^ 64 ∧
        ∀ w ∈ v.values, w.den = 1 ∧ -(2 ^ 64 : Int) ≤ w.num ∧ w.num < 2 ^ 64 := by decide +kernel
    obtain ⟨a, b, c, d, e, f, g⟩ := all v hv
    exact ⟨a, b, c, d, e, f, fun w hw => whole_exact (g w hw).1 (g w hw).2⟩

/-- C124 at a graph with an edge, sent as bytes. -/
theorem C124_case : ∃ I1 I2 msg msg' J' h' φ,
    ({ clock := some .dummy, context := 0 } : Icon).updateContext s12 100 0 [] = (.ok (), I1, []) ∧
    ({ I1 with coo := [] } : Icon).fullMsg s12 = (.ok msg, I2) ∧
    (Cbor.loads (msg.item wholeNumbers).dumps).bind (readFullMsg wholeNumbers) = some msg' ∧
    ({ clock := some .local, context := 0 } : Icon).createGraph E0 msg' s12 = (.ok (some s12.size), J', h') ∧
    Copy s12 0 s12 h' s12.size φ := by
  obtain ⟨I1, I2, msg, a, b, H⟩ := C124_graph_bytes reach_s12 reach_s12 { clock := some .dummy, context := 0 } send_s12 rfl []
    { clock := some .local, context := 0 } rfl budget_s12 wholeNumbers
  have e : msg = encoded s12 (contextHom s12 0) 0 [] := by
    have u := updateContext_ok reach_s12 { clock := some .dummy, context := 0 } send_s12.exists_ budget_s12
    have k := a.symm.trans u
    have k1 : I1 = { clock := some .dummy, context := 0, hom := some (contextHom s12 0) } := by
      injection k with _ k
      injection k with k
    obtain ⟨h1, h2, h3⟩ := hom_has send_s12
    have hf := fullMsg_ok reach_s12 send_s12 (I := { ({ clock := some .dummy, context := 0 } : Icon) with
      hom := some (contextHom s12 0), coo := [] }) rfl rfl rfl h1 h2 h3
    rw [k1] at b
    have := b.symm.trans hf
    injection this with x
    injection x
  obtain ⟨msg', J', h', φ, c, d, -, -, f⟩ := H (e ▸ small_s12)
  exact ⟨I1, I2, msg, msg', J', h', φ, a, b, c, d, f⟩

/-- The bytes of some value messages. -/
theorem C124_sample :
    (updateItem wholeNumbers [(0, [1, -2]), (24, [])]).dumps = [130, 130, 0, 130, 1, 33, 130, 24, 24, 128] ∧
    (updateItem wholeNumbers [(256, [70000])]).dumps = [129, 130, 25, 1, 0, 129, 26, 0, 1, 17, 112] ∧
    (Cbor.text ['a', 'é', '字']).dumps = [102, 97, 195, 169, 229, 173, 151] := by decide +kernel

theorem small_update : SmallUpdate wholeNumbers [(0, [1, -2]), (24, [])] := by
  refine ⟨by decide, fun p hp => ?_⟩
  rcases List.mem_cons.1 hp with rfl | hp
  · refine ⟨by decide, by decide, fun w hw => ?_⟩
    rcases List.mem_cons.1 hw with rfl | hw
    · exact whole_exact (by decide) (by decide)
    · obtain rfl : w = -2 := by simpa using hw
      exact whole_exact (by decide) (by decide)
  · obtain rfl : p = (24, []) := by simpa using hp
    exact ⟨by decide, by decide, fun w hw => by cases hw⟩

example := C124_update_bytes wholeNumbers small_update

end Sample

end Rei
