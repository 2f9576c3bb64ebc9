import Verif.Props.SdfConvert

/-!
# C74, C75: nested graphs
-/
namespace Rei

variable {h : Heap}

theorem connectEl_texts {i o : Ref} {e c pre : Str} {x : Xml} (q : connectEl h i o e c pre = .ok x) :
    x.attr? "name".toList = some (nameIn pre (e ++ ".connect.".toList ++ c)) ∧
    x.childText "child" = some [.str (nameIn pre (e ++ '.' :: c))] := by
  unfold connectEl jointEl at q
  obtain ⟨_, _, q⟩ := ebind_inv q
  obtain ⟨_, _, q⟩ := ebind_inv q
  obtain ⟨_, _, q⟩ := ebind_inv q
  obtain ⟨_, _, q⟩ := ebind_inv q
  cases q
  constructor
  · have : joinPrefix [e, "connect".toList, c] pre = nameIn pre (e ++ ".connect.".toList ++ c) := by
      unfold joinPrefix nameIn
      split
      · simp [Str.join, Str.joinS]
      · simp [Str.join, Str.joinS]
    rw [← this]
    rfl
  · have : joinPrefix [Str.join '.' [e, c]] pre = nameIn pre (e ++ '.' :: c) := by
      rw [joinPrefix_one]
      congr 1
      simp [Str.join, Str.joinS]
    rw [← this]
    rfl

/-- **C74.** At the top level (no prefix) the joint that connects a nested graph through edge `e` has as child exactly
the name under which the base link `c` of the nested graph is exported, and when the pose of that link is relative
to its connection, the frame is exactly that joint (provided the link is named like its node). -/
theorem C74_nested_names_partial {i o c n : Ref} {e : Str} {x y : Xml} (he : e ≠ [])
    (hx : connectEl h i o e (h.get c).idName [] = .ok x) (hy : encodeLink h c ([] ++ e) = .ok y) :
    (∃ nm, y.attr? "name".toList = some nm ∧ x.childText "child" = some [.str nm]) ∧
    (NamedLink h n c → y.frame = some (nameIn ([] ++ e) ("connect.".toList ++ (h.get n).idName)) →
      y.frame = x.attr? "name".toList) := by
  obtain ⟨a, b⟩ := connectEl_texts hx
  constructor
  · refine ⟨_, (encodeLink_name hy).2, ?_⟩
    rw [b]
    unfold nameIn
    rw [if_pos rfl, List.nil_append, if_neg he]
  · rintro ⟨_, _, hn⟩ hf
    rw [hf, a, ← hn]
    unfold nameIn
    rw [List.nil_append, if_neg he, if_pos rfl, List.append_assoc]
    rfl

/-- **C74 fails one level down.** In a graph that is itself nested (prefix not empty) the child of the connecting joint
never is the name of the exported base link, and the frame never is the name of the joint. -/
theorem C74_nested_names_refuted {i o c n : Ref} {e pre : Str} {x y : Xml} (hp : pre ≠ [])
    (hx : connectEl h i o e (h.get c).idName pre = .ok x) (hy : encodeLink h c (pre ++ e) = .ok y) :
    (∀ nm, y.attr? "name".toList = some nm → x.childText "child" ≠ some [.str nm]) ∧
    (NamedLink h n c → y.frame = some (nameIn (pre ++ e) ("connect.".toList ++ (h.get n).idName)) →
      y.frame ≠ x.attr? "name".toList) := by
  obtain ⟨a, b⟩ := connectEl_texts hx
  have hpe : pre ++ e ≠ [] := by simp [hp]
  constructor
  · intro nm hnm hc
    rw [(encodeLink_name hy).2] at hnm
    cases hnm
    rw [b] at hc
    simp only [Option.some.injEq, List.cons.injEq, Tok.str.injEq, and_true] at hc
    have := congrArg List.length hc
    unfold nameIn at this
    rw [if_neg hp, if_neg hpe] at this
    simp at this
  · rintro ⟨_, _, hn⟩ hf hc
    rw [hf, a, Option.some.injEq] at hc
    have := congrArg List.length hc
    unfold nameIn at this
    rw [if_neg hp, if_neg hpe, hn] at this
    simp at this

/-! ## C75 -/

theorem sdf_bind_inv {α β : Type} {x : SdfM α} {f : α → SdfM β} {s : Run} {b : β} {s' : Run}
    (e : (x >>= f) s = (.ok b, s')) : ∃ a s1, x s = (.ok a, s1) ∧ f a s1 = (.ok b, s') := by
  cases hx : x s with
  | mk r s1 =>
    cases r with
    | ok a => exact ⟨a, s1, rfl, by rw [sdf_bind_ok hx] at e; exact e⟩
    | error er => rw [sdf_bind_err hx] at e; cases e

theorem each_inv {α : Type} {f : α → SdfM Unit} {I : Run → Prop} :
    ∀ {l : List α} {s s' : Run}, (∀ x ∈ l, ∀ s s', I s → f x s = (.ok (), s') → I s') → I s → each l f s = (.ok (), s') →
      I s' ∧ ∀ x ∈ l, ∃ t t', I t ∧ f x t = (.ok (), t')
  | [], s, s', _, hs, e => by
    cases e
    exact ⟨hs, fun x hx => by cases hx⟩
  | x :: xs, s, s', hI, hs, e => by
    unfold each at e
    obtain ⟨_, s1, h1, h2⟩ := sdf_bind_inv e
    obtain ⟨a, b⟩ := each_inv (fun y hy => hI y (List.mem_cons_of_mem _ hy)) (hI x (by simp) s s1 hs h1) h2
    refine ⟨a, fun y hy => ?_⟩
    rcases List.mem_cons.1 hy with rfl | hy
    · exact ⟨s, s1, hs, h1⟩
    · exact b y hy

theorem ofExcept_inv {α : Type} {x : Except Err α} {s s' : Run} {a : α} (e : ofExcept x s = (.ok a, s')) :
    x = .ok a ∧ s' = s := by
  unfold ofExcept at e
  cases e
  exact ⟨rfl, rfl⟩

theorem element_shared {W : World} {pre : Str} {x : Ref} {s s' : Run} (e : W.element pre x s = (.ok (), s')) :
    s'.shared = s.shared := by
  unfold World.element at e
  have := congrArg (fun r => r.2.shared) e
  exact this.symm

theorem encode_inv {W : World} {d : Nat} {els : List Ref} {pre : Str} {s s' : Run}
    (e : W.encode (d + 1) els pre s = (.ok (), s')) : ∃ joints s1, s1.shared = s.shared ∧
      relationFactor W.h false (selectionOf W.h els) = .ok joints ∧ each joints (W.pairStep (W.encode d) pre) s1 = (.ok (), s') := by
  unfold World.encode at e
  obtain ⟨_, s1, h1, e1⟩ := sdf_bind_inv e
  obtain ⟨_, s2, h2, e2⟩ := sdf_bind_inv e1
  obtain ⟨js, s3, h3, e3⟩ := sdf_bind_inv e2
  obtain ⟨hj, rfl⟩ := ofExcept_inv h3
  have i1 := (each_inv (I := fun t => t.shared = s.shared) (fun x _ t t' ht q => (element_shared q).trans ht) rfl h1).1
  have i2 := (each_inv (I := fun t => t.shared = s.shared) (fun x _ t t' ht q => (element_shared q).trans ht) i1 h2).1
  exact ⟨js, s3, i2, hj, e3⟩


theorem canonicalLinks_shared {W : World} {g : Ref} {s s' : Run} {cs : List Ref} {E : Env} (F : W.Fair E)
    (hg : g < W.h.size) (hk : Passable (W.h.get g).kind = true) (hs : s.shared = [])
    (e : W.canonicalLinks g s = (.ok cs, s')) : s'.shared = [] := by
  unfold World.canonicalLinks at e
  obtain ⟨ls, js, run, _⟩ := query_run F (W.h.get g).idName hg hk s hs
  rw [sdf_bind_ok run] at e
  obtain ⟨_, s2, h2, e1⟩ := sdf_bind_inv e
  obtain ⟨_, rfl⟩ := ofExcept_inv h2
  cases e1
  exact hs

theorem pop_shared {W : World} {l : List Ref} {s s' : Run} {c : Ref} (e : W.pop l s = (.ok c, s')) : s' = s := by
  unfold World.pop at e
  split at e
  · cases e
  · cases e; rfl

/-- The parts of a normal turn of the loop. -/
theorem pairStep_inv {E : Env} {W : World} (F : W.Fair E) {d : Nat} {pre : Str} {j : Ref × Ref} {s s' : Run}
    (hv : ∀ v, (W.h.get j.2).endpoint = some v → v < W.h.size ∧ Passable (W.h.get v).kind = true)
    (hs : s.shared = []) (e : W.pairStep (W.encode d) pre j s = (.ok (), s')) : ∃ v, (W.h.get j.2).endpoint = some v ∧
      ((W.h.subSemantic .kinGraph v = [] ∧ s'.shared = []) ∨
       (W.h.subSemantic .kinGraph v ≠ [] ∧ ∃ ls js p t, t.shared = [] ∧ ls.Nodup ∧ js.Nodup ∧
        (∀ x, x ∈ ls ↔ Inside W.h v x ∧ (W.h.get x).kind = .semantic .kinLink) ∧
        (∀ x, x ∈ js ↔ Inside W.h v x ∧ (W.h.get x).kind = .semantic .kinJoint) ∧
        W.encode d (ls ++ js) p t = (.ok (), s'))) := by
  unfold World.pairStep at e
  obtain ⟨v, s1, h1, e1⟩ := sdf_bind_inv e
  obtain ⟨h1, rfl⟩ := ofExcept_inv h1
  have hev : (W.h.get j.2).endpoint = some v := by
    unfold endpointOf at h1
    cases hq : (W.h.get j.2).endpoint with
    | none => rw [hq] at h1; cases h1
    | some v' => rw [hq] at h1; cases h1; rfl
  obtain ⟨hvs, hvk⟩ := hv v hev
  refine ⟨v, hev, ?_⟩
  split at e1
  · next hno =>
    left
    refine ⟨hno, ?_⟩
    obtain ⟨x, s2, h2, e2⟩ := sdf_bind_inv e1
    obtain ⟨_, rfl⟩ := ofExcept_inv h2
    unfold addEl at e2
    cases e2
    exact hs
  · next hno =>
    right
    refine ⟨hno, ?_⟩
    obtain ⟨cs, s2, h2, e3⟩ := sdf_bind_inv e1
    have hs2 := canonicalLinks_shared F hvs hvk hs h2
    obtain ⟨c, s3, h3, e4⟩ := sdf_bind_inv e3
    cases pop_shared h3
    obtain ⟨_, s4, h4, e5⟩ := sdf_bind_inv e4
    obtain ⟨_, rfl⟩ := ofExcept_inv h4
    obtain ⟨en, s5, h5, e6⟩ := sdf_bind_inv e5
    obtain ⟨_, rfl⟩ := ofExcept_inv h5
    obtain ⟨x, s6, h6, e7⟩ := sdf_bind_inv e6
    obtain ⟨_, rfl⟩ := ofExcept_inv h6
    obtain ⟨_, s7, h7, e8⟩ := sdf_bind_inv e7
    have hs7 : s7.shared = [] := by
      unfold addEl at h7
      cases h7
      exact hs2
    obtain ⟨ls, js, run, n1, n2, m1, m2⟩ := query_run F (W.h.get j.2).idName hvs hvk s7 hs7
    rw [sdf_bind_ok run] at e8
    exact ⟨ls, js, _, { s7 with uses := s7.uses + 1 }, hs7, n1, n2, m1, m2, e8⟩

theorem mapM_out {α β : Type} {f : α → Except Err β} : ∀ {l : List α} {bs : List β}, l.mapM f = .ok bs →
    ∀ b ∈ bs, ∃ a ∈ l, f a = .ok b
  | [], bs, e, b, hb => by
    rw [List.mapM_nil] at e
    cases e
    cases hb
  | a :: l, bs, e, b, hb => by
    rw [List.mapM_cons] at e
    obtain ⟨b0, h0, e⟩ := ebind_inv e
    obtain ⟨bs', h1, e⟩ := ebind_inv e
    cases e
    rcases List.mem_cons.1 hb with rfl | hb
    · exact ⟨a, by simp, h0⟩
    · obtain ⟨a', ha, q⟩ := mapM_out h1 b hb
      exact ⟨a', List.mem_cons_of_mem _ ha, q⟩

theorem pairUp_out {h : Heap} {loops : Bool} {ins outs : List Ref} {l : List (Ref × Ref)} (e : pairUp h loops ins outs = .ok l) :
    ∀ x ∈ l, x.2 ∈ outs := by
  unfold pairUp at e
  obtain ⟨rows, h1, e⟩ := ebind_inv e
  cases e
  intro x hx
  obtain ⟨row, hr, hx⟩ := List.mem_flatten.1 hx
  obtain ⟨r, hr2, rfl⟩ := List.mem_map.1 hr
  obtain ⟨i, _, q⟩ := mapM_out h1 r hr2
  obtain ⟨c, hc, hx⟩ := List.mem_flatten.1 hx
  obtain ⟨o, ho, q⟩ := mapM_out q c hc
  obtain ⟨b, _, q⟩ := ebind_inv q
  cases q
  split at hx
  · cases List.mem_singleton.1 hx; exact ho
  · cases hx

theorem groupRelations_out {h : Heap} {P : Ref → Prop} : ∀ {rs : List Ref} {d d' : Dict Bytes (List Ref) × Dict Bytes (List Ref)},
    groupRelations h rs d = .ok d' → (∀ r ∈ rs, P r) → (∀ k os, d.2.get? k = some os → ∀ o ∈ os, P o) →
    ∀ k os, d'.2.get? k = some os → ∀ o ∈ os, P o
  | [], d, d', e, _, hd => by
    unfold groupRelations at e
    cases e
    exact hd
  | r :: rs, d, d', e, hr, hd => by
    unfold groupRelations at e
    split at e
    · cases e
    · next p _ =>
      split at e
      · exact groupRelations_out e (fun x hx => hr x (List.mem_cons_of_mem _ hx)) hd
      · refine groupRelations_out e (fun x hx => hr x (List.mem_cons_of_mem _ hx)) ?_
        intro k os hk o ho
        simp only [groupInsert] at hk
        rw [Dict.get?_set] at hk
        split at hk
        · cases hk
          rcases List.mem_append.1 ho with ho | ho
          · cases hg : d.2.get? (h.get p).uuid with
            | none => rw [hg] at ho; cases ho
            | some os' => rw [hg] at ho; exact hd _ os' hg o ho
          · cases List.mem_singleton.1 ho; exact hr r (by simp)
        · exact hd k os hk o ho

theorem pairGroups_out {h : Heap} {loops : Bool} {outs : Dict Bytes (List Ref)} {P : Ref → Prop}
    (hd : ∀ k os, outs.get? k = some os → ∀ o ∈ os, P o) : ∀ {d : Dict Bytes (List Ref)} {l : List (Ref × Ref)},
    pairGroups h loops outs d = .ok l → ∀ x ∈ l, P x.2
  | [], l, e, x, hx => by
    unfold pairGroups at e
    cases e
    cases hx
  | (k, is) :: d, l, e, x, hx => by
    unfold pairGroups at e
    split at e
    · cases e
    · next os hos =>
      obtain ⟨a, ha, e⟩ := ebind_inv e
      obtain ⟨b, hb, e⟩ := ebind_inv e
      cases e
      rcases List.mem_append.1 hx with hx | hx
      · exact hd k os hos _ (pairUp_out ha x hx)
      · exact pairGroups_out hd hb x hx

/-- Only relations are paired. -/
theorem relationFactor_out {h : Heap} {loops : Bool} {sel : List Ref} {l : List (Ref × Ref)} (e : relationFactor h loops sel = .ok l) :
    ∀ x ∈ l, (h.get x.2).kind = .relation := by
  unfold relationFactor at e
  obtain ⟨d, h1, e⟩ := ebind_inv e
  refine pairGroups_out (groupRelations_out (P := fun r => (h.get r).kind = .relation) h1 ?_ ?_) e
  · intro r hr; simpa using (List.mem_filter.1 hr).2
  · intro k os hk; cases hk

theorem encode_shared {E : Env} {W : World} (F : W.Fair E) (L : EndsPassable W.h) : ∀ (d : Nat) (els : List Ref) (pre : Str)
    (s s' : Run), s.shared = [] → W.encode d els pre s = (.ok (), s') → s'.shared = []
  | 0, els, pre, s, s', _, e => by
    unfold World.encode at e
    cases e
  | d + 1, els, pre, s, s', hs, e => by
    obtain ⟨joints, s1, hs1, hj, e⟩ := encode_inv e
    rw [hs] at hs1
    refine (each_inv (I := fun t => t.shared = []) (fun x hx t t' ht q => ?_) hs1 e).1
    have hk := relationFactor_out hj x hx
    obtain ⟨v, hv, h1 | ⟨_, ls, js, p, t2, ht2, _, _, _, _, q⟩⟩ := pairStep_inv F (fun v hv => L _ v hk hv) ht q
    · exact h1.2
    · exact encode_shared F L d _ _ _ _ ht2 q

/-- **C75 is false of the code.** If a joint of the exported elements leads to a graph that itself contains this joint
(and both of its relations), the export never ends normally, however large the stack is. -/
theorem C75_cycle_refuted {E : Env} {W : World} (F : W.Fair E) (L : EndsPassable W.h) {i o v : Ref}
    (hv : (W.h.get o).endpoint = some v) (hg : HasKinGraph W.h v)
    (hin : ∀ ls, (∀ x, x ∈ ls ↔ Inside W.h v x ∧ ((W.h.get x).kind = .semantic .kinLink ∨ (W.h.get x).kind = .semantic .kinJoint)) →
      SoundSelection W.h ls ∧ JointPair W.h ls i o) :
    ∀ (d : Nat) (els : List Ref) (pre : Str) (s : Run), s.shared = [] → SoundSelection W.h els → JointPair W.h els i o →
      ∀ s', W.encode d els pre s ≠ (.ok (), s')
  | 0, els, pre, s, _, _, _, s', e => by
    unfold World.encode at e
    cases e
  | d + 1, els, pre, s, hs, S, P, s', e => by
    obtain ⟨joints, s1, hs1, hj, e1⟩ := encode_inv e
    rw [hs] at hs1
    obtain ⟨l, hl, _, hmem⟩ := C44_pairs S.good false
    rw [hl] at hj
    cases hj
    have hm : (i, o) ∈ joints := by
      rw [hmem]
      simp only [mem_selectionOf, Bool.false_eq_true, or_false]
      exact ⟨P.selIn, P.selOut, P.kindIn, P.kindOut, P.same, P.dirIn, P.dirOut, P.ends⟩
    obtain ⟨t, t', ht, q⟩ := (each_inv (I := fun t => t.shared = []) (fun x hx t t' ht q => by
      obtain ⟨v, _, h1 | ⟨_, ls, js, p, t2, ht2, _, _, _, _, q⟩⟩ :=
        pairStep_inv F (fun v hv => L _ v (relationFactor_out hl x hx) hv) ht q
      · exact h1.2
      · exact encode_shared F L d _ _ _ _ ht2 q) hs1 e1).2 _ hm
    obtain ⟨v', hv', ⟨h1, _⟩ | ⟨_, ls, js, p, t2, ht2, _, _, m1, m2, q⟩⟩ := pairStep_inv F (fun v hv => L _ v P.kindOut hv) ht q
    · rw [hv] at hv'; cases hv'
      exact hasKinGraph_iff.1 hg h1
    · rw [hv] at hv'; cases hv'
      obtain ⟨S', P'⟩ := hin (ls ++ js) (by
        intro x
        rw [List.mem_append, m1, m2]
        tauto)
      exact C75_cycle_refuted F L hv hg hin d _ _ _ ht2 S' P' _ q

end Rei
