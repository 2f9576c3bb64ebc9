import Verif.Spec.Semantics
import Verif.Lemmas.Placed
import Verif.Props.Factory

/-!
# C63: semantic elements
-/
namespace Rei
open PyM

theorem semanticClass_keyword {t : Str} {k : SemKind} : semanticClass t = some k ↔ keyword k = some t := by
  constructor
  · intro h
    unfold semanticClass at h
    repeat' (split at h; · next e => cases h; rw [e]; rfl)
    cases h
  · intro h
    cases k <;> cases h <;> decide

theorem dropWhile_append_blank {a s : Str} (ha : ∀ c ∈ a, isBlank c = true) :
    (a ++ s).dropWhile isBlank = s.dropWhile isBlank := by
  induction a with
  | nil => rfl
  | cons c a ih =>
    rw [List.cons_append, List.dropWhile_cons_of_pos (ha c (by simp))]
    exact ih fun d hd => ha d (by simp [hd])

theorem dropWhile_no_blank {s : Str} (hs : ∀ c ∈ s, isBlank c = false) : s.dropWhile isBlank = s := by
  cases s with
  | nil => rfl
  | cons c s => rw [List.dropWhile_cons_of_neg]; rw [hs c (by simp)]; simp

/-- Stripping the blanks around a word without blanks. -/
theorem strip_word {a s b : Str} (ha : ∀ c ∈ a, isBlank c = true) (hb : ∀ c ∈ b, isBlank c = true)
    (hs : ∀ c ∈ s, isBlank c = false) : strip (a ++ s ++ b) = s := by
  unfold strip
  rw [List.append_assoc, dropWhile_append_blank ha]
  by_cases hn : s = []
  · subst hn
    rw [List.nil_append]
    have : b.dropWhile isBlank = [] := by
      have := dropWhile_append_blank (s := []) hb
      rwa [List.append_nil] at this
    rw [this]; rfl
  · obtain ⟨c, s', rfl⟩ := List.exists_cons_of_ne_nil hn
    rw [List.cons_append, List.dropWhile_cons_of_neg (by rw [hs c (by simp)]; simp), ← List.cons_append,
      List.reverse_append, dropWhile_append_blank (by simpa using hb),
      dropWhile_no_blank (by intro d hd; exact hs d (List.mem_reverse.1 hd)), List.reverse_reverse]

theorem isBlank_toLower (c : Char) : isBlank c.toLower = isBlank c := by
  unfold Char.toLower
  split
  · next h =>
    have h1 : 65 ≤ c.toNat ∧ c.toNat ≤ 90 :=
      ⟨UInt32.le_iff_toNat_le.1 h.1, UInt32.le_iff_toNat_le.1 h.2⟩
    have h2 : isBlank c = false := by
      simp only [isBlank, Bool.or_eq_false_iff, Bool.and_eq_false_iff, beq_eq_false_iff_ne, decide_eq_false_iff_not]
      omega
    rw [h2]
    have h3 : ∀ d : Char, 97 ≤ d.toNat → isBlank d = false := by
      intro d hd
      simp only [isBlank, Bool.or_eq_false_iff, Bool.and_eq_false_iff, beq_eq_false_iff_ne, decide_eq_false_iff_not]
      omega
    apply h3
    simp only [Char.toNat] at h1 ⊢
    rw [UInt32.toNat_add]
    have : ('a'.val - 'A'.val).toNat = 32 := rfl
    omega
  · rfl

theorem toLower_underscore (c : Char) : c.toLower = '_' ↔ c = '_' := by
  constructor
  · intro h
    unfold Char.toLower at h
    split at h
    · next hc =>
      exfalso
      have h1 : 65 ≤ c.toNat ∧ c.toNat ≤ 90 :=
        ⟨UInt32.le_iff_toNat_le.1 hc.1, UInt32.le_iff_toNat_le.1 hc.2⟩
      have := congrArg Char.toNat h
      simp only [Char.toNat] at this h1
      rw [UInt32.toNat_add] at this
      have e1 : ('a'.val - 'A'.val).toNat = 32 := rfl
      have e2 : ('_' : Char).val.toNat = 95 := rfl
      omega
    · exact h
  · rintro rfl; rfl

/-- **C63, spelling.** The type of a semantic element is recognised up to blanks around it, case and
underscores. -/
theorem C63_type_spelling {raw word : Str} (h : Spells raw word) : normaliseType raw = word := by
  obtain ⟨a, s, b, rfl, ha, hb, hs, rfl⟩ := h
  unfold normaliseType
  rw [List.map_append, List.map_append, strip_word]
  · rw [List.filter_map]
    congr 1
    apply List.filter_congr
    intro c _
    simp only [Function.comp, ne_eq, toLower_underscore]
  · simpa [isBlank_toLower] using ha
  · simpa [isBlank_toLower] using hb
  · simpa [isBlank_toLower] using hs

/-- What a new semantic element is made of. -/
structure SemMade (h h' : Heap) (k : SemKind) (name : Str) (u : Bytes) (p : Ref) (attr : Dict Str AttrVal)
    (values : Option AttrVal) : Prop where
  size : h'.size = h.size + 1
  kind : (h'.get h.size).kind = .semantic k
  idName : (h'.get h.size).idName = name
  uuid : (h'.get h.size).uuid = u
  parent : (h'.get h.size).parent = some p
  last : h'.subelements p = h.subelements p ++ [h.size]
  empty : h'.subelements h.size = []
  attrs : ∀ key, getAttribute h' h.size key =
    match values with
    | some v => if key = "values".toList then some v else attr.get? key
    | none => attr.get? key
  named : NamedByPath h' h.size
  others : ∀ y < h.size, y ≠ p → h'.get y = h.get y
  container : (h'.get p).parent = (h.get p).parent ∧ (h'.get p).attrs = (h.get p).attrs ∧
    (h'.get p).kind = (h.get p).kind ∧ (h'.get p).ports = (h.get p).ports ∧
    (h'.get p).qualName = (h.get p).qualName
  lists : ∀ l < h.nlists, h'.lists l = h.lists l

theorem stampedIn_run {E : Env} {F : Factory} (hF : F.clock ≠ none) (nm : Str) (p : Ref) (h : Heap) :
    ∃ r t, F.stampedIn E nm p h = (.ok (.tup (Str.join '/' [(h.get p).qualName, nm] ++ '.' :: decimal t)),
      { h with reads := r }) ∧ ({ h with reads := r } : Heap) = (readClock E F.clock h).2 := by
  obtain ⟨r, hr⟩ := readClock_run (E := E) hF h
  refine ⟨r, clockNow E F.clock h, ?_, by rw [hr]⟩
  unfold Factory.stampedIn
  rw [obj_bind_run, bind_ok hr]
  rfl

/-- The bare object of a semantic element. -/
def semObj (k : SemKind) (u : Bytes) (name : Str) (q : PName) (attr : Dict Str AttrVal) : Obj :=
  { kind := .semantic k, uuid := u, idName := name, progenitor := q, qualName := name, attrs := attr }

/-- What happens up to `add_element`. -/
theorem generateSemantic_start {E : Env} {h : Heap} (R : Reach E h) {F : Factory} (hF : F.clock ≠ none)
    {p : Ref} {raw name : Str} {attr : Dict Str AttrVal} (ha : attr ≠ [])
    (values : Option AttrVal) {k : SemKind} (hk : semanticClass (normaliseType raw) = some k) :
    ∃ r q h1, Reach E h1 ∧ Grown1 none (semObj k (F.uid E name h) name q attr) { h with reads := r } h1 ∧
      h1.lists = h.lists ∧
      F.generateSemantic E raw name p attr values h = (do
        addElement E p h.size
        match values with
        | none => pure h.size
        | some v => do
          addNamedAttribute h.size valuesKey v
          pure h.size) h1 := by
  obtain ⟨r1, hu, hu2⟩ := F.generateUid_run (E := E) hF name h
  have R1 : Reach E { h with reads := r1 } := by rw [hu2]; exact reach_readClock R _
  obtain ⟨r2, t, hs, hs2⟩ := stampedIn_run (E := E) hF name p { h with reads := r1 }
  have R2 : Reach E { h with reads := r2 } := by
    have := reach_readClock R1 F.clock
    rw [← hs2] at this; exact this
  let q : PName := .tup (Str.join '/' [(h.get p).qualName, name] ++ '.' :: decimal t)
  obtain ⟨h1, hn, G⟩ := new_plain (h := { h with reads := r2 }) (o := semObj k (F.uid E name h) name q attr) rfl rfl
  refine ⟨r2, q, h1, ?_, G, ?_, ?_⟩
  · have := Reach.step (E := E) (.mkSemantic k (F.uid E name h) name q attr) R2 trivial trivial
    unfold Op.after at this
    rw [Op.run, void_run] at this
    have e : newSemantic k (F.uid E name h) name q attr { h with reads := r2 } = (.ok h.size, h1) := hn
    rw [e] at this
    exact this
  · rw [alloc_run] at hn
    cases hn
    rfl
  · unfold Factory.generateSemantic
    rw [if_neg ha, bind_ok hu]
    simp only [hk]
    rw [bind_ok hs]
    have e : newSemantic k (F.uid E name h) name q attr { h with reads := r2 } = (.ok h.size, h1) := hn
    rw [bind_ok e]
    rfl

theorem semMade_grown {h h2 : Heap} {r : Nat} {k : SemKind} {u : Bytes} {name : Str} {q : PName}
    {attr : Dict Str AttrVal} {p : Ref} (G : Grown1 (some p) (semObj k u name q attr) { h with reads := r } h2) :
    SemMade h h2 k name u p attr none := by
  obtain ⟨i, c, kk, sr, e⟩ := G.cont p rfl
  have n := G.new
  refine ⟨G.size, ?_, ?_, ?_, ?_, ?_, ?_, ?_, G.named, ?_, ?_, G.lists⟩
  · have := congrArg Obj.kind n; exact this
  · have := congrArg Obj.idName n; exact this
  · have := congrArg Obj.uuid n; exact this
  · have := congrArg Obj.parent n; exact this
  · show Dict.values (h2.get p).subs = _
    rw [e]
    simp [Dict.values, Heap.subelements]
  · have : (h2.get h.size).subs = [] := by have := congrArg Obj.subs n; exact this
    unfold Heap.subelements
    rw [this]; rfl
  · intro key
    have : (h2.get h.size).attrs = attr := by have := congrArg Obj.attrs n; exact this
    unfold getAttribute
    rw [this]
  · intro y hy hne
    exact G.others y hy (by simpa using Ne.symm hne)
  · rw [e]; exact ⟨rfl, rfl, rfl, rfl, rfl⟩

/-- **C63.** With at least one attribute, a known type and a uuid that the parent does not hold yet,
`generate_semantic_element` returns a new element of exactly that class: last in the parent, with the given
name and attributes (and `values` if given), no sub-elements; nothing else changes. -/
theorem C63_semantic_element {E : Env} {h : Heap} (R : Reach E h) {F : Factory} (hF : F.clock ≠ none)
    {p : Ref} (hp : p < h.size) (hpk : (h.get p).kind ≠ .relation) {raw name : Str}
    {attr : Dict Str AttrVal} (ha : attr ≠ []) (values : Option AttrVal) {k : SemKind}
    (hk : keyword k = some (normaliseType raw))
    (hu : ∀ x ∈ h.subelements p, (h.get x).uuid ≠ uidOf E F.name name (clockNow E F.clock h)) :
    ∃ h', F.generateSemantic E raw name p attr values h = (.ok h.size, h') ∧ Reach E h' ∧
      SemMade h h' k name (uidOf E F.name name (clockNow E F.clock h)) p attr values := by
  obtain ⟨r, q, h1, R1, G, -, run⟩ :=
    generateSemantic_start (p := p) (name := name) R hF ha values (semanticClass_keyword.2 hk)
  have hd : uidOf E F.name name (clockNow E F.clock h) ∉ (h.get p).subs.keys := by
    intro hm
    obtain ⟨x, hx, e⟩ := (Inv.mem_keys_iff R.good.inv p _).1 hm
    exact hu x hx e
  have n1 : (h1.get h.size).parent = none := by have := congrArg Obj.parent G.new; exact this
  have n2 : (h1.get h.size).subs = [] := by have := congrArg Obj.subs G.new; exact this
  have s1 : h1.size = h.size + 1 := G.size
  obtain ⟨h2, ha2, G2⟩ := attach_new (E := E) R1.good.inv rfl G (c := p) hp hpk hd (by rintro _ ⟨⟩)
  have R2 : Reach E h2 := by
    have := Reach.step (E := E) (.add p h.size) R1
      ⟨by rw [s1]; omega, by rw [s1]; omega⟩ (addSafe_leaf R1.good.inv n1 n2)
    unfold Op.after at this
    rw [Op.run] at this
    have e : addElement E p h.size h1 = (.ok (), h2) := ha2
    rw [e] at this
    exact this
  have M := semMade_grown G2
  replace ha2 : addElement E p h.size h1 = (.ok (), h2) := ha2
  cases values with
  | none =>
    refine ⟨h2, ?_, R2, M⟩
    rw [run, bind_ok ha2]; rfl
  | some v =>
    let h3 := h2.mod h.size fun o => { o with attrs := o.attrs.set valuesKey v }
    have g : ∀ y, y ≠ h.size → h3.get y = h2.get y := by
      intro y hy; simp [h3, Heap.get_mod, hy]
    have g0 : h3.get h.size = { h2.get h.size with attrs := (h2.get h.size).attrs.set valuesKey v } := by
      simp [h3, Heap.get_mod]
    have hpne : p ≠ h.size := by omega
    refine ⟨h3, ?_, ?_, ?_⟩
    · rw [run, bind_ok ha2]; rfl
    · exact Reach.step (E := E) (.addAttr h.size valuesKey v) R2 ⟨by rw [M.size]; omega, k, M.kind⟩ trivial
    · refine ⟨M.size, ?_, ?_, ?_, ?_, ?_, ?_, ?_, ?_, ?_, ?_, M.lists⟩
      · rw [g0]; exact M.kind
      · rw [g0]; exact M.idName
      · rw [g0]; exact M.uuid
      · rw [g0]; exact M.parent
      · unfold Heap.subelements; rw [g p hpne]; exact M.last
      · unfold Heap.subelements; rw [g0]; exact M.empty
      · intro key
        have := M.attrs key
        unfold getAttribute at this ⊢
        rw [g0, Dict.get?_set]
        by_cases e : key = valuesKey
        · rw [if_pos e.symm]; simp only [valuesKey] at e; simp [e]
        · rw [if_neg (Ne.symm e), this]; simp only [valuesKey] at e; exact (if_neg e).symm
      · obtain ⟨l, hl, e⟩ := M.named
        refine ⟨l, hl.transfer (fun y => ?_) (fun y => ?_), by rw [g0]; exact e⟩
        · by_cases hy : y = h.size
          · subst hy; rw [g0]
          · rw [g y hy]
        · by_cases hy : y = h.size
          · subst hy; rw [g0]
          · rw [g y hy]
      · intro y hy hne
        rw [g y (by omega)]
        exact M.others y hy hne
      · rw [g p hpne]; exact M.container

/-- **C63, refusals.** Without attributes nothing happens at all; with an unknown type only the clock is
read; with a uuid that the parent already holds the call raises and every existing element stays as it was. -/
theorem C63_refused {E : Env} {h : Heap} (R : Reach E h) {F : Factory} (hF : F.clock ≠ none)
    {p : Ref} (hp : p < h.size) (raw name : Str) (attr : Dict Str AttrVal) (values : Option AttrVal) :
    (attr = [] → F.generateSemantic E raw name p attr values h = (.error .insufficientValues, h)) ∧
    (attr ≠ [] → (∀ k, keyword k ≠ some (normaliseType raw)) → ∃ r,
      F.generateSemantic E raw name p attr values h = (.error .invalidSemanticType, { h with reads := r })) ∧
    (attr ≠ [] → (∃ k, keyword k = some (normaliseType raw)) →
      (∃ x ∈ h.subelements p, (h.get x).uuid = uidOf E F.name name (clockNow E F.clock h)) → ∃ h',
      F.generateSemantic E raw name p attr values h = (.error .duplicateElement, h') ∧
      (∀ y < h.size, h'.get y = h.get y) ∧ h'.lists = h.lists ∧
      h'.size = h.size + 1 ∧ (h'.get h.size).parent = none) := by
  refine ⟨?_, ?_, ?_⟩
  · rintro rfl; rfl
  · intro ha hk
    obtain ⟨r1, hu, -⟩ := F.generateUid_run (E := E) hF name h
    refine ⟨r1, ?_⟩
    have : semanticClass (normaliseType raw) = none := by
      cases hc : semanticClass (normaliseType raw) with
      | none => rfl
      | some k => exact absurd (semanticClass_keyword.1 hc) (hk k)
    unfold Factory.generateSemantic
    rw [if_neg ha, bind_ok hu]
    simp only [this]
    rfl
  · rintro ha ⟨k, hk⟩ ⟨x, hx, hxu⟩
    obtain ⟨r, q, h1, R1, G, hl, run⟩ :=
      generateSemantic_start (p := p) (name := name) R hF ha values (semanticClass_keyword.2 hk)
    have hd : uidOf E F.name name (clockNow E F.clock h) ∈ (h.get p).subs.keys :=
      (Inv.mem_keys_iff R.good.inv p _).2 ⟨x, hx, hxu⟩
    have hcp : h1.get p = h.get p := G.others p hp (by simp)
    have e := addElement_refused (h := h1) E (c := p) (x := h.size) (by omega) (by
      have n3 : (h1.get h.size).uuid = F.uid E name h := by have := congrArg Obj.uuid G.new; exact this
      rw [hcp, n3]; exact hd)
    refine ⟨h1, ?_, fun y hy => G.others y hy (by simp), hl, G.size, ?_⟩
    · rw [run, bind_err e]
    · have := congrArg Obj.parent G.new; exact this

/-- The types that the factory knows: `mesh_geometry`, which the language accepts, is not one of them. -/
theorem C63_mesh_refuted : ∀ k, keyword k ≠ some (normaliseType "mesh_geometry".toList) := by
  intro k
  cases k <;> decide

/-- `" Kinematic_Link "` spells `kinematiclink`. -/
example : Spells " Kinematic_Link ".toList "kinematiclink".toList :=
  ⟨[' '], "Kinematic_Link".toList, [' '], by decide, by decide, by decide, by decide, by decide⟩

/-- The hypotheses of `C63_semantic_element` in a concrete case. -/
example : ∃ h', F1.generateSemantic E1 "Cylinder_Geometry".toList ['g'] 0 [("dimensions".toList, .nums [1, 2])]
    (some (.nums [1, 2])) s3 = (.ok 3, h') ∧ Reach E1 h' ∧
      SemMade s3 h' .cylinder ['g'] (uidOf E1 F1.name ['g'] (clockNow E1 F1.clock s3)) 0
        [("dimensions".toList, .nums [1, 2])] (some (.nums [1, 2])) :=
  C63_semantic_element (h := s3) reach_s3 (by decide) (by decide +kernel) (by decide +kernel) (by decide) _ (by decide)
    (by decide +kernel)

/-- A second element with the same name from a factory whose clock stands still. -/
example : ∃ h h' : Heap, Reach E1 h ∧ (F0.generateSemantic E1 "material".toList ['g'] 0 [(['a'], .num 1)] none h) =
    (.error .duplicateElement, h') := by
  obtain ⟨h, _, R, M⟩ := C63_semantic_element (E := E1) (h := s3) (F := F0) (p := 0) (raw := "material".toList)
    (name := ['g']) (attr := [(['a'], .num 1)]) reach_s3 (by decide) (by decide +kernel) (by decide +kernel)
    (by decide) none (k := .material) (by decide) (by decide +kernel)
  obtain ⟨h', e, -⟩ := (C63_refused (F := F0) R (by decide) (p := 0) (by rw [M.size]; omega) "material".toList ['g']
    [(['a'], .num 1)] none).2.2 (by decide) ⟨.material, by decide⟩ ⟨s3.size, by rw [M.last]; simp, by
      rw [M.uuid]; rfl⟩
  exact ⟨h, h', R, e⟩

end Rei
