import Verif.Spec.Fuzzy
import Verif.Lemmas.ReadFile
import Verif.Lemmas.SampleGraphs

/-!
# Lemmas for C96 (fuzzy systems)
-/
namespace Rei
open PyM

/-- A new element in `p`, and nothing else. -/
structure Put (p : Option Ref) (k : Kind) (nm : Str) (u : Bytes) (h h' : Heap) : Prop where
  created : Created k nm u p h h'
  nlists : h.nlists ≤ h'.nlists
  lists : ∀ l < h.nlists, h'.lists l = h.lists l
  vals : ∀ x < h.size, (h'.get x).vals = (h.get x).vals
  qualName : ∀ x < h.size, (h'.get x).qualName = (h.get x).qualName

theorem Put.contents {p : Option Ref} {k : Kind} {nm : Str} {u : Bytes} {h h' : Heap} (a : Put p k nm u h h') {y : Ref}
    (hy : y < h.size) : h'.subelements y = h.subelements y ++ if p = some y then [h.size] else [] := by
  unfold Heap.subelements
  rw [a.created.subs y hy]
  split
  · simp [Dict.values]
  · simp

theorem Put.empty {p : Option Ref} {k : Kind} {nm : Str} {u : Bytes} {h h' : Heap} (a : Put p k nm u h h') :
    h'.subelements h.size = [] := by
  unfold Heap.subelements
  rw [a.created.subsN]
  rfl

theorem node_put {E : Env} {h : Heap} (R : Reach E h) {F : Factory} (hF : F.clock ≠ none) (nm : Str) {c : Ref} (hc : c < h.size)
    (hk : (h.get c).kind = .node)
    (fresh : ∀ x ∈ h.subelements c, ∀ t, (h.get x).uuid ≠ uidOf E F.name ((h.get c).qualName ++ '/' :: nm) t) :
    ∃ h' t, F.generateNode E nm (some c) h = (.ok h.size, h') ∧ Reach E h' ∧
      Put (some c) .node nm (uidOf E F.name ((h.get c).qualName ++ '/' :: nm) t) h h' := by
  have hpath : h.newPath nm (some c) = (h.get c).qualName ++ '/' :: nm := by
    unfold Heap.newPath
    simp only
    rw [Str.join_cons_cons, Str.join_singleton]
  obtain ⟨res, h1, run1, R1, made⟩ := node_step R hF nm hc (by rw [hk]; simp)
  rcases generateNode_cases R hF (p := some c) (by rintro x ⟨⟩; exact hc) (by rintro q ⟨⟩; rw [hk]; simp) nm with
    ⟨q, hq, hm, _⟩ | ⟨_, h', run, C, R'⟩
  · cases hq
    obtain ⟨x, hx, hu⟩ := (R.good.inv.mem_keys_iff _ _).1 hm
    rw [Factory.uid, hpath] at hu
    exact absurd hu (fresh x hx _)
  · rw [run] at run1
    cases run1
    obtain ⟨-, M⟩ := made _ rfl
    rw [Factory.uid, hpath] at C
    exact ⟨h1, _, run, R1, C, M.later.nlists, M.later.lists, M.later.vals, M.later.qualName⟩

theorem root_put {E : Env} {h : Heap} (R : Reach E h) {F : Factory} (hF : F.clock ≠ none) (nm : Str) :
    ∃ h' u, F.generateNode E nm none h = (.ok h.size, h') ∧ Reach E h' ∧ Put none .node nm u h h' := by
  have D := root_does R hF nm
  rcases generateNode_cases R hF (p := none) (by rintro x ⟨⟩) (by rintro q ⟨⟩) nm with ⟨q, hq, _⟩ | ⟨_, h', run, C, R'⟩
  · cases hq
  · obtain ⟨-, M⟩ := D.2 _ _ run
    exact ⟨h', _, run, R', C, M.later.nlists, M.later.lists, M.later.vals, M.later.qualName⟩

theorem Grown1.created {p : Option Ref} {o : Obj} {h h' : Heap} (g : Grown1 p o h h') (hs : o.subs = []) (hk : o.kind.isHElement = false) :
    Created o.kind o.idName o.uuid p h h' where
  size := g.size
  kindN := by have := congrArg Obj.kind g.new; exact this
  uuidN := by have := congrArg Obj.uuid g.new; exact this
  nameN := by have := congrArg Obj.idName g.new; exact this
  parentN := by have := congrArg Obj.parent g.new; exact this
  subsN := by have := congrArg Obj.subs g.new; exact this.trans hs
  genN := by rw [hk]; simp
  subs y hy := by
    split
    · next e => obtain ⟨i, n, k, sr, e⟩ := g.cont y e; rw [e]
    · next e => rw [g.others y hy e]
  kind y hy := by
    by_cases e : p = some y
    · obtain ⟨i, n, k, sr, e⟩ := g.cont y e; rw [e]
    · rw [g.others y hy e]
  uuid y hy := by
    by_cases e : p = some y
    · obtain ⟨i, n, k, sr, e⟩ := g.cont y e; rw [e]
    · rw [g.others y hy e]
  idName y hy := by
    by_cases e : p = some y
    · obtain ⟨i, n, k, sr, e⟩ := g.cont y e; rw [e]
    · rw [g.others y hy e]
  genCtx y hy := by
    by_cases e : p = some y
    · obtain ⟨i, n, k, sr, e⟩ := g.cont y e; rw [e]
    · rw [g.others y hy e]
  endpoint y hy := by
    by_cases e : p = some y
    · obtain ⟨i, n, k, sr, e⟩ := g.cont y e; rw [e]
    · rw [g.others y hy e]
  direction y hy := by
    by_cases e : p = some y
    · obtain ⟨i, n, k, sr, e⟩ := g.cont y e; rw [e]
    · rw [g.others y hy e]
  weight y hy := by
    by_cases e : p = some y
    · obtain ⟨i, n, k, sr, e⟩ := g.cont y e; rw [e]
    · rw [g.others y hy e]
  parent y hy := by
    by_cases e : p = some y
    · obtain ⟨i, n, k, sr, e⟩ := g.cont y e; rw [e]
    · rw [g.others y hy e]
  named := g.named

theorem value_put {E : Env} {h : Heap} (R : Reach E h) {F : Factory} (hF : F.clock ≠ none) (nm : Str) {p : Ref} (hp : p < h.size)
    (hpk : (h.get p).kind = .node) (vs : List Rat)
    (fresh : ∀ x ∈ h.subelements p, ∀ t, (h.get x).uuid ≠ uidOf E F.name nm t) :
    ∃ h' t, F.createValue E (some p) nm (some vs) h = (.ok h.size, h') ∧ Reach E h' ∧
      Put (some p) .value nm (uidOf E F.name nm t) h h' ∧ h'.valuesOf h.size = vs ∧ (h'.get h.size).vals < h'.nlists := by
  have D := value_does R hF nm hp (by rw [hpk]; simp) vs
  obtain ⟨r1, hu, hu2⟩ := F.generateUid_run (E := E) hF nm h
  have R1 : Reach E { h with reads := r1 } := by rw [hu2]; exact reach_readClock R _
  obtain ⟨r2, t, hs, hs2⟩ := stampedIn_run (E := E) hF nm p { h with reads := r1 }
  have R2 : Reach E { h with reads := r2 } := by
    have := reach_readClock R1 F.clock
    rw [← hs2] at this; exact this
  generalize hpn : PName.tup (Str.join '/' [(h.get p).qualName, nm] ++ '.' :: decimal t) = pn at *
  obtain ⟨h1, e1, G, n1, l1⟩ := new_value (h := { h with reads := r2 }) (F.uid E nm h) nm pn vs
  have R3 := reach_newValue R2 (F.uid E nm h) nm pn (some vs)
  rw [e1] at R3
  replace R3 : Reach E h1 := R3
  replace G := G.reads
  have run : F.createValue E (some p) nm (some vs) h = (do addElement E p h.size; pure h.size : PyM Ref) h1 := by
    unfold Factory.createValue
    rw [bind_ok hu]
    simp only
    rw [bind_ok hs]
    rw [bind_ok e1]
  have hd : F.uid E nm h ∉ (h.get p).subs.keys := by
    intro hm
    obtain ⟨x, hx, hu⟩ := (R.good.inv.mem_keys_iff _ _).1 hm
    exact fresh x hx _ hu
  obtain ⟨h2, ha2, G2⟩ := attach_new (E := E) R3.good.inv rfl G (c := p) hp (by rw [hpk]; simp) hd (by rintro _ ⟨⟩)
  have run2 : F.createValue E (some p) nm (some vs) h = (.ok h.size, h2) := by rw [run, bind_ok ha2]; rfl
  obtain ⟨-, M, v1, v2⟩ := D.2 _ _ run2
  have R4 := D.1
  rw [run2] at R4
  exact ⟨h2, _, run2, R4, ⟨G2.created rfl rfl, M.later.nlists, M.later.lists, M.later.vals, M.later.qualName⟩, v1, v2⟩

/-! ## Nodes with their values -/

/-- A value node and its list. -/
structure ValueOf (h : Heap) (v : Ref) (p : Str × List Rat) : Prop where
  lt : v < h.size
  kind : (h.get v).kind = .value
  name : (h.get v).idName = p.1
  ok : (h.get v).vals < h.nlists
  values : h.valuesOf v = p.2

theorem ValueOf.put {p : Option Ref} {k : Kind} {nm : Str} {u : Bytes} {h h' : Heap} (a : Put p k nm u h h') {v : Ref}
    {q : Str × List Rat} (i : ValueOf h v q) : ValueOf h' v q where
  lt := by have := a.created.size; have := i.lt; omega
  kind := by rw [a.created.kind v i.lt, i.kind]
  name := by rw [a.created.idName v i.lt, i.name]
  ok := by rw [a.vals v i.lt]; exact Nat.lt_of_lt_of_le i.ok a.nlists
  values := by
    have := i.values
    unfold Heap.valuesOf at this ⊢
    rw [a.vals v i.lt, a.lists _ i.ok, this]

/-- A node made by the factory `F` with its values, none of them connected. -/
structure SensorAt (E : Env) (F : Factory) (h : Heap) (n : Ref) (s : Sensor) : Prop where
  lt : n < h.size
  kind : (h.get n).kind = .node
  name : (h.get n).idName = s.name
  gen : (h.get n).genCtx = some s.name
  values : List.Forall₂ (ValueOf h) (h.subelements n) s.values
  uuid : ∀ x ∈ h.subelements n, ∃ t, (h.get x).uuid = uidOf E F.name (h.get x).idName t

theorem SensorAt.put {E : Env} {F : Factory} {p : Option Ref} {k : Kind} {nm : Str} {u : Bytes} {h h' : Heap}
    (a : Put p k nm u h h') (I : Inv h) {n : Ref} {s : Sensor} (i : SensorAt E F h n s) (hp : p ≠ some n) : SensorAt E F h' n s := by
  have e : h'.subelements n = h.subelements n := by rw [a.contents i.lt, if_neg hp, List.append_nil]
  refine ⟨by have := a.created.size; have := i.lt; omega, by rw [a.created.kind n i.lt, i.kind],
    by rw [a.created.idName n i.lt, i.name], by rw [a.created.genCtx n i.lt, i.gen], ?_, ?_⟩
  · rw [e]
    exact i.values.imp fun _ _ => .put a
  · intro x hx
    rw [e] at hx
    have hl := I.lt_of_parent ((I.mem_subelements n x).1 hx)
    obtain ⟨t, ht⟩ := i.uuid x hx
    exact ⟨t, by rw [a.created.uuid x hl, a.created.idName x hl, ht]⟩

/-- What is kept while nodes and values are made: everything outside `D` keeps its contents. -/
structure Kept2 (D : Ref → Prop) (h h' : Heap) : Prop where
  size : h.size ≤ h'.size
  kind : ∀ y < h.size, (h'.get y).kind = (h.get y).kind
  uuid : ∀ y < h.size, (h'.get y).uuid = (h.get y).uuid
  idName : ∀ y < h.size, (h'.get y).idName = (h.get y).idName
  genCtx : ∀ y < h.size, (h'.get y).genCtx = (h.get y).genCtx
  parent : ∀ y < h.size, (h'.get y).parent = (h.get y).parent
  qualName : ∀ y < h.size, (h'.get y).qualName = (h.get y).qualName
  nlists : h.nlists ≤ h'.nlists
  lists : ∀ l < h.nlists, h'.lists l = h.lists l
  vals : ∀ x < h.size, (h'.get x).vals = (h.get x).vals
  contents : ∀ y < h.size, ¬ D y → h'.subelements y = h.subelements y

theorem Put.kept {p : Option Ref} {k : Kind} {nm : Str} {u : Bytes} {h h' : Heap} (a : Put p k nm u h h') {D : Ref → Prop}
    (hD : ∀ q, p = some q → q < h.size → D q) : Kept2 D h h' where
  size := by have := a.created.size; omega
  kind := a.created.kind
  uuid := a.created.uuid
  idName := a.created.idName
  genCtx := a.created.genCtx
  parent := a.created.parent
  qualName := a.qualName
  nlists := a.nlists
  lists := a.lists
  vals := a.vals
  contents y hy hn := by rw [a.contents hy, if_neg (fun e => hn (hD y e hy)), List.append_nil]

theorem Kept2.refl (D : Ref → Prop) (h : Heap) : Kept2 D h h := by constructor <;> intros <;> rfl

theorem Kept2.trans {D : Ref → Prop} {h h1 h2 : Heap} (a : Kept2 D h h1) (b : Kept2 D h1 h2) : Kept2 D h h2 := by
  have s := a.size
  refine ⟨Nat.le_trans a.size b.size, ?_, ?_, ?_, ?_, ?_, ?_, Nat.le_trans a.nlists b.nlists, ?_, ?_, ?_⟩
  · intro y hy; rw [b.kind y (by omega), a.kind y hy]
  · intro y hy; rw [b.uuid y (by omega), a.uuid y hy]
  · intro y hy; rw [b.idName y (by omega), a.idName y hy]
  · intro y hy; rw [b.genCtx y (by omega), a.genCtx y hy]
  · intro y hy; rw [b.parent y (by omega), a.parent y hy]
  · intro y hy; rw [b.qualName y (by omega), a.qualName y hy]
  · intro l hl; rw [b.lists l (Nat.lt_of_lt_of_le hl a.nlists), a.lists l hl]
  · intro y hy; rw [b.vals y (by omega), a.vals y hy]
  · intro y hy hd; rw [b.contents y (by omega) hd, a.contents y hy hd]

theorem Kept2.mono {D D' : Ref → Prop} {h h' : Heap} (a : Kept2 D h h') (i : ∀ y < h.size, D y → D' y) : Kept2 D' h h' :=
  { a with contents := fun y hy hn => a.contents y hy fun d => hn (i y hy d) }

theorem ValueOf.kept {D : Ref → Prop} {h h' : Heap} (a : Kept2 D h h') {v : Ref}
    {q : Str × List Rat} (i : ValueOf h v q) : ValueOf h' v q where
  lt := Nat.lt_of_lt_of_le i.lt a.size
  kind := by rw [a.kind v i.lt, i.kind]
  name := by rw [a.idName v i.lt, i.name]
  ok := by rw [a.vals v i.lt]; exact Nat.lt_of_lt_of_le i.ok a.nlists
  values := by
    have := i.values
    unfold Heap.valuesOf at this ⊢
    rw [a.vals v i.lt, a.lists _ i.ok, this]

theorem SensorAt.kept {E : Env} {F : Factory} {D : Ref → Prop} {h h' : Heap}
    (a : Kept2 D h h') (I : Inv h) {n : Ref} {s : Sensor} (i : SensorAt E F h n s) (hp : ¬ D n) : SensorAt E F h' n s := by
  have e := a.contents n i.lt hp
  refine ⟨Nat.lt_of_lt_of_le i.lt a.size, by rw [a.kind n i.lt, i.kind],
    by rw [a.idName n i.lt, i.name], by rw [a.genCtx n i.lt, i.gen], ?_, ?_⟩
  · rw [e]
    exact i.values.imp fun _ _ => .kept a
  · intro x hx
    rw [e] at hx
    have hl := I.lt_of_parent ((I.mem_subelements n x).1 hx)
    obtain ⟨t, ht⟩ := i.uuid x hx
    exact ⟨t, by rw [a.uuid x hl, a.idName x hl, ht]⟩

/-- The values of a node are made in order. -/
theorem fill_made {E : Env} (inj : Function.Injective E.sha) {F : Factory} (hF : F.clock ≠ none) (vs : List (Str × List Rat))
    {n : Ref} {nm : Str} {done : List (Str × List Rat)} {h : Heap} (R : Reach E h) (i : SensorAt E F h n ⟨nm, done⟩)
    (nd : ((done ++ vs).map Prod.fst).Nodup) :
    ∃ h', F.fillSensor E n vs h = (.ok (), h') ∧ Reach E h' ∧ SensorAt E F h' n ⟨nm, done ++ vs⟩ ∧ Kept2 (· = n) h h' := by
  unfold Factory.fillSensor
  induction vs generalizing done h with
  | nil => exact ⟨h, rfl, R, by simpa using i, .refl _ _⟩
  | cons v vs ih =>
    have names : (h.subelements n).map (fun x => (h.get x).idName) = done.map Prod.fst := by
      have hv := i.values
      generalize h.subelements n = l at hv
      clear i nd ih
      dsimp only at hv
      induction hv with
      | nil => rfl
      | cons a _ ih => rw [List.map_cons, List.map_cons, ih, a.name]
    have hnew : v.1 ∉ done.map Prod.fst := by
      rw [List.map_append, List.nodup_append] at nd
      exact fun hm => nd.2.2 _ hm v.1 (by simp) rfl
    obtain ⟨h1, t, run, R1, P, v1, v2⟩ := value_put R hF v.1 i.lt i.kind v.2 (by
      intro x hx t hu
      obtain ⟨t', ht'⟩ := i.uuid x hx
      rw [ht'] at hu
      have := (uidOf_time inj hu).1
      refine hnew ?_
      rw [← names, ← this]
      exact List.mem_map.2 ⟨x, hx, rfl⟩)
    have K1 : Kept2 (· = n) h h1 := P.kept (by rintro q ⟨⟩ _; rfl)
    have C := P.created
    have hs := C.size
    have e : h1.subelements n = h.subelements n ++ [h.size] := by rw [P.contents i.lt, if_pos rfl]
    have i1 : SensorAt E F h1 n ⟨nm, done ++ [v]⟩ := by
      refine ⟨by have := i.lt; omega, by rw [K1.kind n i.lt, i.kind], by rw [K1.idName n i.lt, i.name],
        by rw [K1.genCtx n i.lt, i.gen], ?_, ?_⟩
      · rw [e]
        exact List.rel_append (i.values.imp fun _ _ => .kept K1) (.cons ⟨by omega, C.kindN, C.nameN, v2, v1⟩ .nil)
      · intro x hx
        rw [e, List.mem_append, List.mem_singleton] at hx
        rcases hx with hx | rfl
        · have hl := R.good.inv.lt_of_parent ((R.good.inv.mem_subelements n x).1 hx)
          obtain ⟨t, ht⟩ := i.uuid x hx
          exact ⟨t, by rw [K1.uuid x hl, K1.idName x hl, ht]⟩
        · exact ⟨t, by rw [C.uuidN, C.nameN]⟩
    obtain ⟨h2, run2, R2, i2, K2⟩ := ih R1 i1 (by simpa using nd)
    refine ⟨h2, ?_, R2, by simpa using i2, K1.trans K2⟩
    rw [forEach_cons, bind_ok (PyM.void_ok run)]
    exact run2

theorem sensor_start {E : Env} {F : Factory} {p : Option Ref} {nm : Str} {u : Bytes} {h h' : Heap} (P : Put p .node nm u h h') :
    SensorAt E F h' h.size ⟨nm, []⟩ where
  lt := by have := P.created.size; omega
  kind := P.created.kindN
  name := P.created.nameN
  gen := P.created.genN rfl
  values := by rw [P.empty]; exact .nil
  uuid := by rw [P.empty]; simp

/-- The group `b` with its inputs. -/
structure GroupAt (E : Env) (F : Factory) (h : Heap) (b : Ref) (ns : List Ref) (ss : List Sensor) : Prop where
  lt : b < h.size
  kind : (h.get b).kind = .node
  contents : h.subelements b = ns
  inputs : List.Forall₂ (SensorAt E F h) ns ss
  uuid : ∀ x ∈ ns, ∃ t, (h.get x).uuid = uidOf E F.name ((h.get b).qualName ++ '/' :: (h.get x).idName) t
  ne : ∀ x ∈ ns, x ≠ b

theorem forall₂_names {E : Env} {F : Factory} {h : Heap} {ns : List Ref} {ss : List Sensor}
    (i : List.Forall₂ (SensorAt E F h) ns ss) : ns.map (fun n => (h.get n).idName) = ss.map Sensor.name := by
  induction i with
  | nil => rfl
  | cons a _ ih => rw [List.map_cons, List.map_cons, ih, a.name]

theorem sensors_kept {E : Env} {F : Factory} {D : Ref → Prop} {h h' : Heap} (a : Kept2 D h h') (I : Inv h) {ns : List Ref}
    {ss : List Sensor} (i : List.Forall₂ (SensorAt E F h) ns ss) (hn : ∀ n ∈ ns, ¬ D n) : List.Forall₂ (SensorAt E F h') ns ss := by
  induction i with
  | nil => exact .nil
  | cons i _ ih => exact .cons (i.kept a I (hn _ (by simp))) (ih (fun n h => hn n (by simp [h])))

theorem GroupAt.kept {E : Env} {F : Factory} {D : Ref → Prop} {h h' : Heap} (a : Kept2 D h h') (I : Inv h) {b : Ref}
    {ns : List Ref} {ss : List Sensor} (g : GroupAt E F h b ns ss) (hb : ¬ D b) (hn : ∀ n ∈ ns, ¬ D n) :
    GroupAt E F h' b ns ss := by
  have hl : ∀ n ∈ ns, n < h.size := fun n hn' => by
    rw [← g.contents] at hn'
    exact I.lt_of_parent ((I.mem_subelements b n).1 hn')
  refine ⟨Nat.lt_of_lt_of_le g.lt a.size, by rw [a.kind b g.lt, g.kind], by rw [a.contents b g.lt hb, g.contents], ?_, ?_, g.ne⟩
  · exact sensors_kept a I g.inputs hn
  · intro x hx
    obtain ⟨t, ht⟩ := g.uuid x hx
    exact ⟨t, by rw [a.uuid x (hl x hx), a.idName x (hl x hx), a.qualName b g.lt, ht]⟩

theorem inputs_made {E : Env} (inj : Function.Injective E.sha) {F : Factory} (hF : F.clock ≠ none) (ss : List Sensor)
    {b : Ref} {ns : List Ref} {done : List Sensor} {h : Heap} (R : Reach E h) (g : GroupAt E F h b ns done)
    (nd : ((done ++ ss).map Sensor.name).Nodup) (hv : ∀ s ∈ ss, (s.values.map Prod.fst).Nodup) :
    ∃ xs h', mapEach ss (F.addSensor E (some b)) h = (.ok xs, h') ∧ Reach E h' ∧ GroupAt E F h' b (ns ++ xs) (done ++ ss) ∧
      Kept2 (· = b) h h' := by
  induction ss generalizing done ns h with
  | nil => exact ⟨[], h, rfl, R, by simpa using g, .refl _ _⟩
  | cons s ss ih =>
    have hnew : s.name ∉ done.map Sensor.name := by
      rw [List.map_append, List.nodup_append] at nd
      exact fun hm => nd.2.2 _ hm s.name (by simp) rfl
    have I := R.good.inv
    have hl : ∀ n ∈ ns, n < h.size := fun n hn' => by
      rw [← g.contents] at hn'
      exact I.lt_of_parent ((I.mem_subelements b n).1 hn')
    obtain ⟨h1, t, run, R1, P⟩ := node_put R hF s.name g.lt g.kind (by
      intro x hx t hu
      rw [g.contents] at hx
      obtain ⟨t', ht'⟩ := g.uuid x hx
      rw [ht'] at hu
      have := (uidOf_time inj hu).1
      rw [List.append_cancel_left_eq] at this
      injection this with _ this
      refine hnew ?_
      rw [← forall₂_names g.inputs, ← this]
      exact List.mem_map.2 ⟨x, hx, rfl⟩)
    have K1 : Kept2 (· = b) h h1 := P.kept (by rintro q ⟨⟩ _; rfl)
    have C := P.created
    have hs := C.size
    obtain ⟨h2, run2, R2, i2, K2⟩ := fill_made inj hF s.values R1 (sensor_start (E := E) (F := F) P)
      (by simpa using hv s (by simp))
    have hb1 : b < h1.size := by have := g.lt; omega
    have hbne : b ≠ h.size := by have := g.lt; omega
    have s2 := K2.size
    have g2 : GroupAt E F h2 b (ns ++ [h.size]) (done ++ [s]) := by
      refine ⟨by omega, by rw [K2.kind b hb1, K1.kind b g.lt, g.kind], ?_, ?_, ?_, ?_⟩
      · rw [K2.contents b hb1 hbne, P.contents g.lt, if_pos rfl, g.contents]
      · refine List.rel_append ?_ (.cons (by simpa using i2) .nil)
        exact sensors_kept K2 R1.good.inv (sensors_kept K1 I g.inputs g.ne) fun n hn => by have := hl n hn; omega
      · intro x hx
        rw [K2.qualName b hb1, K1.qualName b g.lt]
        rw [List.mem_append, List.mem_singleton] at hx
        rcases hx with hx | rfl
        · obtain ⟨t, ht⟩ := g.uuid x hx
          have := hl x hx
          exact ⟨t, by rw [K2.uuid x (by omega), K1.uuid x this, K2.idName x (by omega), K1.idName x this, ht]⟩
        · exact ⟨t, by rw [K2.uuid _ (by omega), K2.idName _ (by omega), C.uuidN, C.nameN]⟩
      · intro x hx
        rw [List.mem_append, List.mem_singleton] at hx
        rcases hx with hx | rfl
        · exact g.ne x hx
        · exact hbne.symm
    obtain ⟨xs, h3, run3, R3, g3, K3⟩ := ih R2 g2 (by simpa using nd) fun s hs => hv s (by simp [hs])
    refine ⟨h.size :: xs, h3, ?_, R3, by simpa using g3, ?_⟩
    · have r : F.addSensor E (some b) s h = (.ok h.size, h2) := by
        unfold Factory.addSensor
        rw [bind_ok run, bind_ok run2]
        rfl
      unfold mapEach
      rw [bind_ok r, bind_ok run3]
      rfl
    · have K12 : Kept2 (· = b) h h2 := by
        refine ⟨by omega, ?_, ?_, ?_, ?_, ?_, ?_, ?_, ?_, ?_, ?_⟩
        · intro y hy; rw [K2.kind y (by omega), K1.kind y hy]
        · intro y hy; rw [K2.uuid y (by omega), K1.uuid y hy]
        · intro y hy; rw [K2.idName y (by omega), K1.idName y hy]
        · intro y hy; rw [K2.genCtx y (by omega), K1.genCtx y hy]
        · intro y hy; rw [K2.parent y (by omega), K1.parent y hy]
        · intro y hy; rw [K2.qualName y (by omega), K1.qualName y hy]
        · exact Nat.le_trans K1.nlists K2.nlists
        · intro l hl; rw [K2.lists l (Nat.lt_of_lt_of_le hl K1.nlists), K1.lists l hl]
        · intro y hy; rw [K2.vals y (by omega), K1.vals y hy]
        · intro y hy hd; rw [K2.contents y (by omega) (by omega), K1.contents y hy hd]
      exact K12.trans K3

end Rei
