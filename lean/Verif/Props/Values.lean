import Verif.Props.Sample
import Verif.Spec.Values

/-!
# C25–C27: value nodes and attributes
-/
namespace Rei
open PyM

/-! ## Effects of calls on values -/

/-- A call that is not about values leaves all of them alone. -/
theorem calm_of_not_touches (E : Env) (op : Op) (h : Heap) (hv : ¬ op.TouchesValues) :
    Calm h (op.after E h) := by
  by_cases hop : ∃ x c, op = .setClock x c
  · obtain ⟨y, c, rfl⟩ := hop
    have e0 : (Op.setClock y c).after E h = h.mod y fun o => { o with clock := c } := rfl
    rw [e0]
    constructor <;> first | rfl | skip
    iterate 3 (intro z _; simp only [Heap.get_mod]; split <;> (try subst_vars) <;> rfl)
    intro z a b; exact absurd b (Nat.not_lt.2 a)
  · exact (frames_run' E (L := False) op (fun x k e => hop ⟨x, k, e⟩) (.inr hv) h).calm

theorem after_size_kind (E : Env) (op : Op) (h : Heap) :
    h.size ≤ (op.after E h).size ∧ h.nlists ≤ (op.after E h).nlists ∧
    ∀ x < h.size, ((op.after E h).get x).kind = (h.get x).kind := by
  by_cases hop : ∃ x c, op = .setClock x c
  · obtain ⟨y, c, rfl⟩ := hop
    have e0 : (Op.setClock y c).after E h = h.mod y fun o => { o with clock := c } := rfl
    rw [e0]
    refine ⟨Nat.le_refl _, Nat.le_refl _, fun x _ => ?_⟩
    simp only [Heap.get_mod]; split <;> (try subst_vars) <;> rfl
  · have K := (frames_run E op (fun x k e => hop ⟨x, k, e⟩) h).keeps
    exact ⟨K.size, K.nlists, K.kind⟩

/-- The ways a well-formed call can act on value nodes, lists and attributes. -/
inductive ValEffect (h h' : Heap) : Op → Prop
  | calm {op} : (∀ v i q, op ≠ .updateValue v i q) → (∀ v l, op ≠ .updateValues v l) →
      (∀ l i q, op ≠ .setItem l i q) → (∀ l q, op ≠ .appendItem l q) →
      (∀ s k a, op ≠ .addAttr s k a) → (∀ s k, op ≠ .removeAttr s k) → Calm h h' → ValEffect h h' op
  | list {op l} : (op = .mkList l ∨ ∃ v, op = .getValues v ∧ l = h.valuesOf v) →
      h'.get = h.get → h'.size = h.size → h'.nlists = h.nlists + 1 →
      h'.lists = (fun i => if i = h.nlists then l else h.lists i) → ValEffect h h' op
  | value {u nm pn vs o} : h'.size = h.size + 1 → h'.get = (h.set h.size o).get →
      o.kind = .value → o.vals = h.nlists → o.dim = (vs.getD []).length → h'.nlists = h.nlists + 1 →
      h'.lists = (fun i => if i = h.nlists then vs.getD [] else h.lists i) →
      ValEffect h h' (.mkValue u nm pn vs)
  | write {op l} : (∃ i q, op = .setItem l i q) ∨ (∃ v i q, op = .updateValue v i q ∧ l = (h.get v).vals) →
      h'.get = h.get → h'.size = h.size → h'.nlists = h.nlists →
      (∀ j, (h'.lists j).length = (h.lists j).length) → (∀ j, j ≠ l → h'.lists j = h.lists j) →
      ValEffect h h' op
  | append {l q} : h'.get = h.get → h'.size = h.size → h'.nlists = h.nlists →
      h'.lists = (fun j => if j = l then h.lists l ++ [q] else h.lists j) →
      ValEffect h h' (.appendItem l q)
  | vals {v l} : h' = (h.mod v fun o => { o with vals := l }) → ValEffect h h' (.updateValues v l)
  | addA {s k a} : h' = (h.mod s fun o => { o with attrs := o.attrs.set k a }) →
      ValEffect h h' (.addAttr s k a)
  | delA {s k} : h' = (h.mod s fun o => { o with attrs := o.attrs.erase k }) →
      ValEffect h h' (.removeAttr s k)

theorem Heap.mod_id {h : Heap} {x : Ref} {f : Obj → Obj} (e : f (h.get x) = h.get x) :
    h.mod x f = h := by
  unfold Heap.mod Heap.set
  rw [e]
  have : (fun i => if i = x then h.get x else h.get i) = h.get := by
    funext i; split
    · next q => rw [q]
    · rfl
  rw [this]

theorem valEffect (E : Env) {op : Op} {h : Heap} (V : op.Valid h) : ValEffect h (op.after E h) op := by
  cases op
  case mkItem k nm u pn ck p =>
    refine .calm (by simp) (by simp) (by simp) (by simp) (by simp) (by simp)
      (calm_of_not_touches E _ h ?_)
    intro t
    have : k = .value := t
    subst this
    cases V.1
  case mkValue u nm pn vs => exact .value rfl rfl rfl rfl rfl rfl rfl
  case mkList l => exact .list (.inl rfl) rfl rfl rfl rfl
  case getValues v => exact .list (.inr ⟨v, rfl, rfl⟩) rfl rfl rfl rfl
  case setItem l i q =>
    simp only [Op.after, Op.run, setListItem]
    cases pyIndex (h.lists l).length i with
    | none => exact .write (l := l) (.inl ⟨i, q, rfl⟩) rfl rfl rfl (fun _ => rfl) (fun _ _ => rfl)
    | some n =>
      refine .write (l := l) (.inl ⟨i, q, rfl⟩) rfl rfl rfl (fun j => ?_) (fun j hj => ?_)
      · show (if j = l then (h.lists l).set n q else h.lists j).length = _
        split
        · next e => subst e; simp
        · rfl
      · show (if j = l then (h.lists l).set n q else h.lists j) = _
        rw [if_neg hj]
  case appendItem l q => exact .append rfl rfl rfl rfl
  case updateValue v i q =>
    simp only [Op.after, Op.run, Rei.updateValue, obj_bind_run, setListItem]
    cases pyIndex (h.lists (h.get v).vals).length i with
    | none =>
      exact .write (l := (h.get v).vals) (.inr ⟨v, i, q, rfl, rfl⟩) rfl rfl rfl (fun _ => rfl)
        (fun _ _ => rfl)
    | some n =>
      refine .write (l := (h.get v).vals) (.inr ⟨v, i, q, rfl, rfl⟩) rfl rfl rfl (fun j => ?_)
        (fun j hj => ?_)
      · show (if j = (h.get v).vals then (h.lists (h.get v).vals).set n q else h.lists j).length = _
        split
        · next e => subst e; simp
        · rfl
      · show (if j = (h.get v).vals then (h.lists (h.get v).vals).set n q else h.lists j) = _
        rw [if_neg hj]
  case updateValues v l => exact .vals rfl
  case addAttr s k a => exact .addA rfl
  case removeAttr s k =>
    refine .delA ?_
    simp only [Op.after, Op.run, removeNamedAttribute, obj_bind_run]
    split
    · rfl
    · next hn =>
      have : k ∉ (h.get s).attrs.keys := Dict.has_false_iff.1 (by simpa using hn)
      show h = _
      rw [Heap.mod_id]
      rw [Dict.erase_of_not_mem this]
  all_goals
    refine .calm ?_ ?_ ?_ ?_ ?_ ?_ (calm_of_not_touches E _ h fun t => t) <;> simp

/-- Every value node holds a list object that exists. -/
def ValInv (h : Heap) : Prop := ∀ v < h.size, (h.get v).kind = .value → (h.get v).vals < h.nlists

theorem ValInv.after (E : Env) {op : Op} {h : Heap} (V : op.Valid h) (I : ValInv h) :
    ValInv (op.after E h) := by
  have W := valEffect E V
  have K := (after_size_kind E op h).2.2
  revert W K
  generalize op.after E h = h'
  intro W K v hv hk
  cases W with
  | calm _ _ _ _ _ _ C =>
    rw [C.nlists]
    by_cases hl : v < h.size
    · rw [C.vals v hl]; rw [K v hl] at hk; exact I v hl hk
    · exact absurd hk (C.fresh v (Nat.not_lt.1 hl) hv)
  | list _ g s n _ => rw [g] at hk ⊢; rw [s] at hv; rw [n]; exact Nat.lt_succ_of_lt (I v hv hk)
  | value s g k vl d n _ =>
    rw [g] at hk ⊢
    rw [n]
    simp only [Heap.get_set] at hk ⊢
    split at hk
    · next e => rw [if_pos e, vl]; exact Nat.lt_succ_self _
    · next e => rw [if_neg e]; exact Nat.lt_succ_of_lt (I v (by omega) hk)
  | write _ g s n _ _ => rw [g] at hk ⊢; rw [s] at hv; rw [n]; exact I v hv hk
  | append g s n _ => rw [g] at hk ⊢; rw [s] at hv; rw [n]; exact I v hv hk
  | vals e =>
    subst e
    simp only [Heap.get_mod] at hk ⊢
    split at hk
    · next e => subst e; rw [if_pos rfl]; exact V.2.2
    · next e => rw [if_neg e]; exact I v hv hk
  | addA e =>
    subst e
    simp only [Heap.get_mod] at hk ⊢
    split at hk
    · next e => subst e; rw [if_pos rfl]; exact I _ hv hk
    · next e => rw [if_neg e]; exact I v hv hk
  | delA e =>
    subst e
    simp only [Heap.get_mod] at hk ⊢
    split at hk
    · next e => subst e; rw [if_pos rfl]; exact I _ hv hk
    · next e => rw [if_neg e]; exact I v hv hk

theorem ReachAny.valInv {E : Env} {h : Heap} (R : ReachAny E h) : ValInv h := by
  induction R with
  | init => intro v hv; exact absurd hv (Nat.not_lt_zero _)
  | step op _ V ih => exact ih.after E V

/-! ## C25 -/

theorem pyIndex_spec (l : List Rat) (i : Int) :
    pyAt l i = (pyIndex l.length i).bind fun n => l[n]? := by
  unfold pyAt pyIndex
  split
  · split
    · rfl
    · next h0 h1 =>
      have : l.length ≤ i.toNat := by omega
      simp [this]
  · next h0 =>
    split
    · next h1 =>
      have : (-i - 1).toNat < l.length := by omega
      rw [List.getElem?_reverse this]
      have e : l.length - 1 - (-i - 1).toNat = (i + l.length).toNat := by omega
      rw [e]; rfl
    · have : l.length ≤ (-i - 1).toNat := by omega
      rw [List.getElem?_eq_none (by rw [List.length_reverse]; exact this)]
      rfl

theorem pyIndex_some {n : Nat} {i : Int} {k : Nat} (e : pyIndex n i = some k) :
    k < n ∧ (i = k ∨ i = (k : Int) - n) := by
  unfold pyIndex at e
  by_cases h0 : 0 ≤ i
  · rw [if_pos h0] at e
    by_cases h1 : i < n
    · rw [if_pos h1] at e; have := Option.some.inj e; omega
    · rw [if_neg h1] at e; cases e
  · rw [if_neg h0] at e
    by_cases h1 : 0 ≤ i + n
    · rw [if_pos h1] at e; have := Option.some.inj e; omega
    · rw [if_neg h1] at e; cases e

theorem pyIndex_lt {n : Nat} {i : Int} {k : Nat} (e : pyIndex n i = some k) : k < n :=
  (pyIndex_some e).1

theorem pyIndex_same {n : Nat} {i j : Int} {k : Nat} (e : pyIndex n i = some k)
    (e' : pyIndex n j = some k) : SamePosition n i j := by
  have a := pyIndex_some e
  have b := pyIndex_some e'
  unfold SamePosition
  omega

/-- **C25.** `get_value(i)` (and `v[i]`) is Python indexing into the node's values. -/
theorem C25_get (h : Heap) (v : Ref) (i : Int) :
    getValue h v i = match pyAt (h.valuesOf v) i with
      | some q => .ok q
      | none => .error .indexError := by
  rw [pyIndex_spec]
  unfold getValue
  cases pyIndex (h.valuesOf v).length i with
  | none => rfl
  | some n =>
    simp only [Option.bind_some]
    cases (h.valuesOf v)[n]? <;> rfl

/-- **C25.** `update_value(i, q)` (and `v[i] = q`) at an index in range returns; afterwards
`get_value(i)` is `q`, every other position is unchanged, and so is the number of values; no object
and no other list changes. -/
theorem C25_update (h : Heap) (v : Ref) (i : Int) (q q₀ : Rat)
    (hi : pyAt (h.valuesOf v) i = some q₀) :
    (updateValue v i q h).1 = .ok () ∧
    getValue (updateValue v i q h).2 v i = .ok q ∧
    ((updateValue v i q h).2.valuesOf v).length = (h.valuesOf v).length ∧
    (∀ j, ¬ SamePosition (h.valuesOf v).length i j →
      getValue (updateValue v i q h).2 v j = getValue h v j) ∧
    (updateValue v i q h).2.get = h.get ∧
    (∀ l, l ≠ (h.get v).vals → (updateValue v i q h).2.lists l = h.lists l) := by
  rw [pyIndex_spec] at hi
  cases hn : pyIndex (h.valuesOf v).length i with
  | none => rw [hn] at hi; cases hi
  | some n =>
    have hlt := pyIndex_lt hn
    have er : updateValue v i q h = (.ok (), { h with lists := fun j =>
        if j = (h.get v).vals then (h.lists (h.get v).vals).set n q else h.lists j }) := by
      simp only [updateValue, obj_bind_run, setListItem]
      have : pyIndex (h.lists (h.get v).vals).length i = some n := hn
      rw [this]
    rw [er]
    have ev : ({ h with lists := fun j =>
        if j = (h.get v).vals then (h.lists (h.get v).vals).set n q else h.lists j } :
        Heap).valuesOf v = (h.valuesOf v).set n q := by
      show (if (h.get v).vals = (h.get v).vals then _ else _) = _
      rw [if_pos rfl]; rfl
    refine ⟨rfl, ?_, ?_, ?_, rfl, ?_⟩
    · rw [C25_get, ev, pyIndex_spec, List.length_set, hn]
      simp [List.getElem?_set, hlt]
    · rw [ev, List.length_set]
    · intro j hj
      rw [C25_get, C25_get, ev, pyIndex_spec, pyIndex_spec, List.length_set]
      cases hm : pyIndex (h.valuesOf v).length j with
      | none => rfl
      | some m =>
        have : m ≠ n := fun e => hj (pyIndex_same hn (e ▸ hm))
        simp [List.getElem?_set, Ne.symm this]
    · intro l hl
      show (if l = (h.get v).vals then _ else _) = _
      rw [if_neg hl]

/-- **C25.** An index out of range raises `IndexError` and changes nothing. -/
theorem C25_out_of_range (h : Heap) (v : Ref) (i : Int) (q : Rat)
    (hi : pyAt (h.valuesOf v) i = none) : updateValue v i q h = (.error .indexError, h) := by
  rw [pyIndex_spec] at hi
  simp only [updateValue, obj_bind_run, setListItem]
  have : pyIndex (h.lists (h.get v).vals).length i = none := by
    cases hn : pyIndex (h.valuesOf v).length i with
    | none => exact hn
    | some n =>
      rw [hn] at hi
      have := pyIndex_lt hn
      simp only [Option.bind_some, List.getElem?_eq_none_iff] at hi
      omega
  rw [this]

/-- **C25.** `update_values(l)` replaces all values of that node by those of `l`, and those of no other
node. -/
theorem C25_update_values (h : Heap) (v : Ref) (l : Nat) :
    (updateValues v l h).1 = .ok () ∧ (updateValues v l h).2.valuesOf v = h.lists l ∧
    ∀ w, w ≠ v → (updateValues v l h).2.valuesOf w = h.valuesOf w := by
  refine ⟨rfl, ?_, fun w hw => ?_⟩
  · show h.lists ((h.mod v fun o => { o with vals := l }).get v).vals = _
    rw [Heap.get_mod, if_pos rfl]
  · show h.lists ((h.mod v fun o => { o with vals := l }).get w).vals = _
    rw [Heap.get_mod, if_neg hw]; rfl

/-- Only `v` holds the list `l`. -/
def Owns (h : Heap) (v : Ref) (l : Nat) : Prop :=
  v < h.size ∧ (h.get v).kind = .value ∧ (h.get v).vals = l ∧
    ∀ w < h.size, (h.get w).kind = .value → (h.get w).vals = l → w = v

theorem owns_step (E : Env) {op : Op} {h : Heap} {v : Ref} {l : Nat} (V : op.Valid h)
    (O : Owns h v l) (hl : l < h.nlists) (h1 : ¬ op.UsesList l) (h2 : ¬ op.UpdatesNode v) :
    Owns (op.after E h) v l ∧ (op.after E h).lists l = h.lists l := by
  have W := valEffect E V
  have K := after_size_kind E op h
  revert W K
  generalize op.after E h = h'
  intro W K
  obtain ⟨a, b, c, d⟩ := O
  have a' : v < h'.size := Nat.lt_of_lt_of_le a K.1
  have b' : (h'.get v).kind = .value := (K.2.2 v a).trans b
  cases W with
  | calm _ _ _ _ _ _ C =>
    refine ⟨⟨a', b', (C.vals v a).trans c, fun w hw hk hv => ?_⟩, by rw [C.lists]⟩
    by_cases hl : w < h.size
    · exact d w hl (by rw [← K.2.2 w hl]; exact hk) (by rw [← C.vals w hl]; exact hv)
    · exact absurd hk (C.fresh w (Nat.not_lt.1 hl) hw)
  | list _ g s n hls =>
    refine ⟨⟨a', b', by rw [g]; exact c, fun w hw hk hv => ?_⟩, ?_⟩
    · rw [g] at hk hv; rw [s] at hw; exact d w hw hk hv
    · rw [hls]; simp only; rw [if_neg (by omega)]
  | value s g k vl dm n hls =>
    refine ⟨⟨a', b', ?_, fun w hw hk hv => ?_⟩, ?_⟩
    · rw [g, Heap.get_set, if_neg (Nat.ne_of_lt a)]; exact c
    · rw [g, Heap.get_set] at hk hv
      split at hv
      · rw [vl] at hv; omega
      · next e => rw [if_neg e] at hk; exact d w (by omega) hk hv
    · rw [hls]; simp only; rw [if_neg (by omega)]
  | @write _ m hop g s n _ hls =>
    refine ⟨⟨a', b', by rw [g]; exact c, fun w hw hk hv => ?_⟩, ?_⟩
    · rw [g] at hk hv; rw [s] at hw; exact d w hw hk hv
    · apply hls
      rintro rfl
      rcases hop with ⟨i, q, rfl⟩ | ⟨w, i, q, rfl, e⟩
      · exact h1 rfl
      · exact h2 (d w V.1 V.2 e.symm)
  | @append m q g s n hls =>
    refine ⟨⟨a', b', by rw [g]; exact c, fun w hw hk hv => ?_⟩, ?_⟩
    · rw [g] at hk hv; rw [s] at hw; exact d w hw hk hv
    · rw [hls]; simp only; rw [if_neg (fun e => h1 e.symm)]
  | @vals w m e =>
    subst e
    have hw : w ≠ v := h2
    have hm : m ≠ l := h1
    refine ⟨⟨a', b', ?_, fun z hz hk hv => ?_⟩, rfl⟩
    · rw [Heap.get_mod, if_neg (Ne.symm hw)]; exact c
    · simp only [Heap.get_mod] at hk hv
      split at hv
      · exact absurd hv hm
      · next e => rw [if_neg e] at hk; exact d z hz hk hv
  | addA e =>
    subst e
    refine ⟨⟨a', b', ?_, fun z hz hk hv => ?_⟩, rfl⟩
    · rw [Heap.get_mod]; split
      · next e => subst e; exact c
      · exact c
    · simp only [Heap.get_mod] at hk hv
      split at hv
      · next e => subst e; rw [if_pos rfl] at hk; exact d _ hz hk hv
      · next e => rw [if_neg e] at hk; exact d z hz hk hv
  | delA e =>
    subst e
    refine ⟨⟨a', b', ?_, fun z hz hk hv => ?_⟩, rfl⟩
    · rw [Heap.get_mod]; split
      · next e => subst e; exact c
      · exact c
    · simp only [Heap.get_mod] at hk hv
      split at hv
      · next e => subst e; rw [if_pos rfl] at hk; exact d _ hz hk hv
      · next e => rw [if_neg e] at hk; exact d z hz hk hv

/-- No value node holds the list `l`. -/
def Unheld (h : Heap) (l : Nat) : Prop := ∀ w < h.size, (h.get w).kind = .value → (h.get w).vals ≠ l

theorem unheld_step (E : Env) {op : Op} {h : Heap} {l : Nat} (V : op.Valid h)
    (O : Unheld h l) (hl : l < h.nlists) (h1 : ¬ op.UsesList l) :
    Unheld (op.after E h) l ∧ (op.after E h).lists l = h.lists l := by
  have W := valEffect E V
  have K := after_size_kind E op h
  revert W K
  generalize op.after E h = h'
  intro W K
  cases W with
  | calm _ _ _ _ _ _ C =>
    refine ⟨fun w hw hk hv => ?_, by rw [C.lists]⟩
    by_cases hl : w < h.size
    · exact O w hl (by rw [← K.2.2 w hl]; exact hk) (by rw [← C.vals w hl]; exact hv)
    · exact absurd hk (C.fresh w (Nat.not_lt.1 hl) hw)
  | list _ g s n hls =>
    refine ⟨fun w hw hk hv => ?_, ?_⟩
    · rw [g] at hk hv; rw [s] at hw; exact O w hw hk hv
    · rw [hls]; simp only; rw [if_neg (by omega)]
  | value s g k vl dm n hls =>
    refine ⟨fun w hw hk hv => ?_, ?_⟩
    · rw [g, Heap.get_set] at hk hv
      split at hv
      · rw [vl] at hv; omega
      · next e => rw [if_neg e] at hk; exact O w (by omega) hk hv
    · rw [hls]; simp only; rw [if_neg (by omega)]
  | @write _ m hop g s n _ hls =>
    refine ⟨fun w hw hk hv => ?_, ?_⟩
    · rw [g] at hk hv; rw [s] at hw; exact O w hw hk hv
    · apply hls
      rintro rfl
      rcases hop with ⟨i, q, rfl⟩ | ⟨w, i, q, rfl, e⟩
      · exact h1 rfl
      · exact O w V.1 V.2 e.symm
  | @append m q g s n hls =>
    refine ⟨fun w hw hk hv => ?_, ?_⟩
    · rw [g] at hk hv; rw [s] at hw; exact O w hw hk hv
    · rw [hls]; simp only; rw [if_neg (fun e => h1 e.symm)]
  | @vals w m e =>
    subst e
    have hm : m ≠ l := h1
    refine ⟨fun z hz hk hv => ?_, rfl⟩
    · simp only [Heap.get_mod] at hk hv
      split at hv
      · exact absurd hv hm
      · next e => rw [if_neg e] at hk; exact O z hz hk hv
  | addA e =>
    subst e
    refine ⟨fun z hz hk hv => ?_, rfl⟩
    · simp only [Heap.get_mod] at hk hv
      split at hv
      · next e => subst e; rw [if_pos rfl] at hk; exact O _ hz hk hv
      · next e => rw [if_neg e] at hk; exact O z hz hk hv
  | delA e =>
    subst e
    refine ⟨fun z hz hk hv => ?_, rfl⟩
    · simp only [Heap.get_mod] at hk hv
      split at hv
      · next e => subst e; rw [if_pos rfl] at hk; exact O _ hz hk hv
      · next e => rw [if_neg e] at hk; exact O z hz hk hv

/-- **C25.** The constructor copies the list it is given: in every later state the node still has
those values — whatever the caller does with its own list `l₀`, or any other list or node — as long
as the node itself is not updated and its own list object (reachable only through `v.val`) is not
used directly. -/
theorem C25_constructor_snapshot {E : Env} {h h' h'' : Heap} (R : ReachAny E h) (u : Bytes)
    (nm : Str) (pn : PName) (l₀ : Nat) {v : Ref}
    (hv : newValue u nm pn (some (h.lists l₀)) h = (.ok v, h'))
    (hl : LaterBy E (fun op => ¬ op.UpdatesNode v ∧ ¬ op.UsesList (h'.get v).vals) h' h'') :
    h''.valuesOf v = h.lists l₀ ∧ (l₀ < h.nlists → (h'.get v).vals ≠ l₀) := by
  have I := R.valInv
  have hv' : v = h.size := by
    have := congrArg Prod.fst hv
    exact (Except.ok.inj this).symm
  have hh : h' = (newValue u nm pn (some (h.lists l₀)) h).2 := by rw [hv]
  have e1 : (h'.get v).vals = h.nlists := by
    rw [hh, hv']
    show ((Heap.set _ h.size _).get h.size).vals = _
    rw [Heap.get_set, if_pos rfl]
  have ek : (h'.get v).kind = .value := by
    rw [hh, hv']
    show ((Heap.set _ h.size _).get h.size).kind = _
    rw [Heap.get_set, if_pos rfl]
  have e2 : h'.lists h.nlists = h.lists l₀ := by
    rw [hh]
    show (if h.nlists = h.nlists then _ else _) = _
    rw [if_pos rfl]; rfl
  have hn : h'.nlists = h.nlists + 1 := by rw [hh]; rfl
  have hs : h'.size = h.size + 1 := by rw [hh]; rfl
  have O : Owns h' v h.nlists := by
    refine ⟨by omega, ek, e1, fun w hw hk hv => ?_⟩
    by_cases hl : w = v
    · exact hl
    · exfalso
      have : h'.get w = h.get w := by
        rw [hh]
        show (Heap.set _ h.size _).get w = _
        rw [Heap.get_set, if_neg (by rw [← hv']; exact hl)]
      rw [this] at hk hv
      have := I w (by omega) hk
      omega
  refine ⟨?_, fun hl0 e => by omega⟩
  have key : Owns h'' v h.nlists ∧ h''.lists h.nlists = h.lists l₀ ∧ h.nlists < h''.nlists := by
    rw [e1] at hl
    have hln : h.nlists < h'.nlists := by omega
    clear hv hh hn hs e1 ek
    induction hl with
    | refl => exact ⟨O, e2, hln⟩
    | step op _ V hp ih =>
      obtain ⟨a, b, c⟩ := ih
      have := owns_step E V a c hp.2 hp.1
      exact ⟨this.1, this.2.trans b, Nat.lt_of_lt_of_le c (after_size_kind E op _).2.1⟩
  unfold Heap.valuesOf
  rw [key.1.2.2.1]; exact key.2.1

/-- **C25.** `get_values()` returns a new list: whatever is later done to the node (or to any other
list), that list keeps the values it was returned with, unless it is itself written or handed to
`update_values`. -/
theorem C25_get_values_snapshot {E : Env} {h h' h'' : Heap} (R : ReachAny E h) (v : Ref) {l : Nat}
    (hv : getValues v h = (.ok l, h'))
    (hl : LaterBy E (fun op => ¬ op.UsesList l) h' h'') :
    h'.get = h.get ∧ h''.lists l = h.valuesOf v ∧ (∀ w < h.size, (h.get w).kind = .value → (h.get w).vals ≠ l) := by
  have I := R.valInv
  have hv' : l = h.nlists := by
    have := congrArg Prod.fst hv
    exact (Except.ok.inj this).symm
  have hh : h' = (getValues v h).2 := by rw [hv]
  have e2 : h'.lists l = h.valuesOf v := by
    rw [hh, hv']
    show (if h.nlists = h.nlists then _ else _) = _
    rw [if_pos rfl]
  have hn : h'.nlists = h.nlists + 1 := by rw [hh]; rfl
  have hs : h'.size = h.size := by rw [hh]; rfl
  have hg : h'.get = h.get := by rw [hh]; rfl
  have O : Unheld h' l := by
    intro w hw hk e
    rw [hg] at hk e
    have := I w (by omega) hk
    omega
  refine ⟨hg, ?_, fun w hw hk e => by have := I w hw hk; omega⟩
  have key : Unheld h'' l ∧ h''.lists l = h.valuesOf v ∧ l < h''.nlists := by
    have hln : l < h'.nlists := by omega
    clear hv hh hn hs hg
    induction hl with
    | refl => exact ⟨O, e2, hln⟩
    | step op _ V hp ih =>
      obtain ⟨a, b, c⟩ := ih
      have := unheld_step E V a c hp
      exact ⟨this.1, this.2.trans b, Nat.lt_of_lt_of_le c (after_size_kind E op _).2.1⟩
  exact key.2.1

/-! ## C26 -/

/-- The iteration bound is the number of values. -/
def DimInv (h : Heap) : Prop :=
  ∀ v < h.size, (h.get v).kind = .value → (h.get v).dim = (h.valuesOf v).length

theorem DimInv.after (E : Env) {op : Op} {h : Heap} (V : op.Valid h) (I : ValInv h) (D : DimInv h)
    (S : op.KeepsLength h) : DimInv (op.after E h) := by
  have W := valEffect E V
  have K := (after_size_kind E op h).2.2
  revert W K
  generalize op.after E h = h'
  intro W K v hv hk
  unfold Heap.valuesOf
  cases W with
  | calm _ _ _ _ _ _ C =>
    by_cases hl : v < h.size
    · rw [C.vals v hl, C.dim v hl, C.lists]; rw [K v hl] at hk; exact D v hl hk
    · exact absurd hk (C.fresh v (Nat.not_lt.1 hl) hv)
  | list _ g s n hls =>
    rw [g] at hk ⊢; rw [s] at hv
    rw [hls]
    have := I v hv hk
    simp only
    rw [if_neg (by omega)]
    exact D v hv hk
  | @value u nm pn vs o s g k vl d n hls =>
    rw [hls]
    simp only
    by_cases e : v = h.size
    · have eo : h'.get v = o := by rw [g, Heap.get_set, if_pos e]
      rw [eo, if_pos vl, d]
    · have eo : h'.get v = h.get v := by rw [g, Heap.get_set, if_neg e]
      rw [eo] at hk ⊢
      have := I v (by omega) hk
      rw [if_neg (by omega)]
      exact D v (by omega) hk
  | write _ g s n hlen _ => rw [g] at hk ⊢; rw [s] at hv; rw [hlen]; exact D v hv hk
  | append g s n hls =>
    rw [g] at hk ⊢; rw [s] at hv
    rw [hls]
    simp only
    rw [if_neg (S v hv hk)]
    exact D v hv hk
  | @vals w l e =>
    subst e
    simp only [Heap.get_mod] at hk ⊢
    split at hk
    · next e =>
      subst e
      rw [if_pos rfl]
      have := D v hv hk
      have S' : (h.lists l).length = (h.lists (h.get v).vals).length := S
      show (h.get v).dim = (h.lists l).length
      rw [S']; exact this
    · next e => rw [if_neg e]; exact D v hv hk
  | addA e =>
    subst e
    simp only [Heap.get_mod] at hk ⊢
    split at hk
    · next e => subst e; rw [if_pos rfl]; exact D _ hv hk
    · next e => rw [if_neg e]; exact D v hv hk
  | delA e =>
    subst e
    simp only [Heap.get_mod] at hk ⊢
    split at hk
    · next e => subst e; rw [if_pos rfl]; exact D _ hv hk
    · next e => rw [if_neg e]; exact D v hv hk

theorem ReachFixedLength.any {E : Env} {h : Heap} (R : ReachFixedLength E h) : ReachAny E h := by
  induction R with
  | init => exact .init
  | step op _ V _ ih => exact .step op ih V

theorem ReachFixedLength.dimInv {E : Env} {h : Heap} (R : ReachFixedLength E h) : DimInv h := by
  induction R with
  | init => intro v hv; exact absurd hv (Nat.not_lt_zero _)
  | step op R V S ih => exact ih.after E V R.any.valInv S

theorem iterValues_take (h : Heap) (v : Ref) (n : Nat) (hn : n ≤ (h.valuesOf v).length) :
    (List.range n).mapM (fun (i : Nat) => getValue h v (i : Int)) = .ok ((h.valuesOf v).take n) := by
  induction n with
  | zero => rfl
  | succ n ih =>
    rw [List.range_succ, List.mapM_append, ih (by omega)]
    have hg : getValue h v (n : Int) = .ok ((h.valuesOf v)[n]'(by omega)) := by
      rw [C25_get]
      unfold pyAt
      rw [if_pos (Int.natCast_nonneg n), Int.toNat_natCast, List.getElem?_eq_getElem (by omega)]
    simp only [List.mapM_cons, List.mapM_nil, hg]
    show Except.ok ((h.valuesOf v).take n ++ [(h.valuesOf v)[n]'(by omega)]) = _
    rw [List.take_append_getElem]

/-- **C26**, for histories in which no value node changes its number of values: iterating a value
node gives exactly its values. -/
theorem C26_iter_partial {E : Env} {h : Heap} (R : ReachFixedLength E h) {v : Ref} (hv : v < h.size)
    (hk : (h.get v).kind = .value) : iterValues h v = .ok (h.valuesOf v) := by
  unfold iterValues
  rw [R.dimInv v hv hk, iterValues_take h v _ (Nat.le_refl _), List.take_length]

/-- What iteration does in general: the first `dim` values, `IndexError` if there are fewer.
`dim` is the number of values given to the constructor. -/
theorem C26_iter_general (h : Heap) (v : Ref) :
    iterValues h v = if (h.get v).dim ≤ (h.valuesOf v).length
      then .ok ((h.valuesOf v).take (h.get v).dim) else .error .indexError := by
  unfold iterValues
  split
  · next hl => exact iterValues_take h v _ hl
  · next hl =>
    have e : List.range (h.get v).dim = List.range (h.valuesOf v).length ++
        (List.range ((h.get v).dim - (h.valuesOf v).length)).map ((h.valuesOf v).length + ·) := by
      rw [← List.range_add]; congr 1; omega
    rw [e, List.mapM_append, iterValues_take h v _ (Nat.le_refl _)]
    have hpos : 0 < (h.get v).dim - (h.valuesOf v).length := by omega
    obtain ⟨m, hm⟩ := Nat.exists_eq_succ_of_ne_zero (Nat.ne_of_gt hpos)
    rw [hm, List.range_succ_eq_map]
    have hg : getValue h v (((h.valuesOf v).length + 0 : Nat) : Int) = .error .indexError := by
      rw [C25_get]
      unfold pyAt
      rw [if_pos (Int.natCast_nonneg _), Int.toNat_natCast]
      simp
    simp only [List.map_cons, List.mapM_cons, hg]
    rfl

/-! ### C26 is false of the code in general -/

namespace Sample
/-- `v = ValueNode([1,2]); v.update_values([7])`. -/
def v1 : Heap := (Op.mkValue [9] ['v'] (.str ['v']) (some [1, 2])).after E0 Heap.empty
def v2 : Heap := (Op.mkList [7]).after E0 v1
def v3 : Heap := (Op.updateValues 0 1).after E0 v2
/-- `v = ValueNode([1,2]); v.update_values([7,8,9])`. -/
def v2' : Heap := (Op.mkList [7, 8, 9]).after E0 v1
def v3' : Heap := (Op.updateValues 0 1).after E0 v2'
theorem reachAny_v3 : ReachAny E0 v3 :=
  .step _ (.step _ (.step _ .init trivial) trivial)
    (show 0 < v2.size ∧ (v2.get 0).kind = .value ∧ 1 < v2.nlists by decide +kernel)
theorem reachAny_v3' : ReachAny E0 v3' :=
  .step _ (.step _ (.step _ .init trivial) trivial)
    (show 0 < v2'.size ∧ (v2'.get 0).kind = .value ∧ 1 < v2'.nlists by decide +kernel)
end Sample

open Sample in
/-- After `update_values` with a list of another length, iterating the node raises `IndexError` or
drops values. -/
theorem C26_iter_refuted :
    (∃ h, ReachAny E0 h ∧ ∃ v < h.size, (h.get v).kind = .value ∧
      iterValues h v = .error .indexError) ∧
    (∃ h, ReachAny E0 h ∧ ∃ v < h.size, (h.get v).kind = .value ∧
      iterValues h v = .ok [7, 8] ∧ h.valuesOf v = [7, 8, 9]) :=
  ⟨⟨v3, reachAny_v3, 0, by decide +kernel, by decide +kernel, by decide +kernel⟩,
   ⟨v3', reachAny_v3', 0, by decide +kernel, by decide +kernel, by decide +kernel,
    by decide +kernel⟩⟩

/-! ## C27 -/

/-- **C27.** A well-formed call acts on the attributes of a node like the corresponding map update:
`add_named_attribute` sets, `remove_named_attribute` unsets (also when absent), every other call, and
every call on another node, changes nothing. -/
theorem C27_step (E : Env) {op : Op} {h : Heap} (V : op.Valid h) {s : Ref} (hs : s < h.size) (k : Str) :
    getAttribute (op.after E h) s k = attrSpec s (getAttribute h s) op k := by
  have W := valEffect E V
  revert W
  generalize op.after E h = h'
  intro W
  unfold getAttribute
  cases W with
  | calm _ _ _ _ h5 h6 C =>
    rw [C.attrs s hs]
    cases op
    case addAttr => exact absurd rfl (h5 _ _ _)
    case removeAttr => exact absurd rfl (h6 _ _)
    all_goals rfl
  | list e g _ _ _ => rw [g]; rcases e with rfl | ⟨v, rfl, _⟩ <;> rfl
  | value _ g _ _ _ _ _ => rw [g, Heap.get_set, if_neg (Nat.ne_of_lt hs)]; rfl
  | write e g _ _ _ _ => rw [g]; rcases e with ⟨_, _, rfl⟩ | ⟨_, _, _, rfl, _⟩ <;> rfl
  | append g _ _ _ => rw [g]; rfl
  | vals e => subst e; rw [Heap.get_mod]; split <;> (try subst_vars) <;> rfl
  | @addA s' k' a e =>
    subst e
    rw [Heap.get_mod]
    unfold attrSpec
    by_cases e : s = s'
    · subst e
      rw [if_pos rfl]
      simp only [Dict.get?_set, true_and, eq_comm]
    · rw [if_neg e]; simp [Ne.symm e]
  | @delA s' k' e =>
    subst e
    rw [Heap.get_mod]
    unfold attrSpec
    by_cases e : s = s'
    · subst e
      rw [if_pos rfl]
      simp only [Dict.get?_erase, true_and, eq_comm]
    · rw [if_neg e]; simp [Ne.symm e]

/-- **C27.** After any history of well-formed calls the attributes of a node are those of a map on
which the attribute calls were performed in that order. -/
theorem C27_attribute_map (E : Env) {ops : List Op} {h : Heap} (V : ValidOps E ops h) {s : Ref}
    (hs : s < h.size) (k : Str) :
    getAttribute (runOps E ops h) s k = (ops.foldl (attrSpec s) (getAttribute h s)) k := by
  induction ops generalizing h with
  | nil => rfl
  | cons op ops ih =>
    have e : getAttribute (op.after E h) s = attrSpec s (getAttribute h s) op :=
      funext fun k => C27_step E V.1 hs k
    rw [runOps, ih V.2 (Nat.lt_of_lt_of_le hs (after_size_kind E op h).1), e]
    rfl

/-- **C27.** A new node starts with a copy of the dictionary given to its constructor: the node's
attributes are those of the dictionary at that moment, and the call changes no other object. -/
theorem C27_constructor_copies (h : Heap) (kd : SemKind) (u : Bytes) (nm : Str) (pn : PName)
    (attr : Dict Str AttrVal) :
    (newSemantic kd u nm pn attr h).1 = .ok h.size ∧
    (∀ k, getAttribute (newSemantic kd u nm pn attr h).2 h.size k = attr.get? k) ∧
    ∀ x < h.size, (newSemantic kd u nm pn attr h).2.get x = h.get x := by
  refine ⟨rfl, fun k => ?_, fun x hx => ?_⟩
  · show Dict.get? ((Heap.set _ h.size _).get h.size).attrs k = _
    rw [Heap.get_set, if_pos rfl]
  · show (Heap.set _ h.size _).get x = _
    rw [Heap.get_set, if_neg (Nat.ne_of_lt hx)]

/-! ### Instances -/

open Sample

/-- A value node with two values, its first value changed through `-2`, then iterated. -/
example : ReachFixedLength E0 v1 ∧ 0 < v1.size ∧ (v1.get 0).kind = .value ∧
    pyAt (v1.valuesOf 0) (-2) = some 1 ∧
    ((updateValue 0 (-2) 5 v1).2.valuesOf 0) = [5, 2] ∧ pyAt (v1.valuesOf 0) 2 = none :=
  ⟨.step _ .init trivial trivial, by decide +kernel⟩

/-- The caller's list is written after the node was made from it. -/
example : ∃ h h' h'', ReachAny E0 h ∧
    newValue [9] ['v'] (.str ['v']) (some (h.lists 0)) h = (.ok 0, h') ∧
    LaterBy E0 (fun op => ¬ op.UpdatesNode 0 ∧ ¬ op.UsesList (h'.get 0).vals) h' h'' ∧
    h''.lists 0 = [7, 2] ∧ h''.valuesOf 0 = [1, 2] := by
  let h := (Op.mkList [1, 2]).after E0 Heap.empty
  let h' := (newValue [9] ['v'] (.str ['v']) (some (h.lists 0)) h).2
  refine ⟨h, h', (Op.setItem 0 0 7).after E0 h', .step _ .init trivial, rfl, ?_, ?_, ?_⟩
  · refine .step _ (.refl _) ?_ ⟨fun q => q, ?_⟩
    · show 0 < h'.nlists; decide +kernel
    · show ¬ (0 = (h'.get 0).vals); decide +kernel
  · decide +kernel
  · decide +kernel

/-- An attribute set twice and another one removed. -/
example : ∃ h, ReachAny E0 h ∧ 0 < h.size ∧
    ValidOps E0 [.addAttr 0 ['k'] (.num 1), .addAttr 0 ['k'] (.num 2), .removeAttr 0 ['j']] h := by
  refine ⟨(Op.mkSemantic .plain [1] ['s'] (.str ['s']) [(['j'], .num 3)]).after E0 Heap.empty,
    .step _ .init trivial, by decide +kernel, ⟨by decide +kernel, .plain, by decide +kernel⟩,
    ⟨by decide +kernel, .plain, by decide +kernel⟩, ⟨by decide +kernel, .plain, by decide +kernel⟩,
    trivial⟩

end Rei
