import Verif.Spec.App
import Verif.Props.SdfClosedText

/-!
# C108: what the converter writes
-/
namespace Rei
open Sample Cogni

/-! ## Paths -/

theorem dirName_of_slash {p s : Str} (hs : '/' ∉ s) : dirName (p ++ s) = dirName p := by
  unfold dirName
  rw [List.reverse_append, List.dropWhile_append_of_pos]
  intro c hc
  have : c ∈ s := by simpa using hc
  simp only [ne_eq, decide_not, Bool.not_eq_eq_eq_not, Bool.not_true, decide_eq_false_iff_not]
  rintro rfl
  exact hs this

theorem pathJoin_suffix (out n s : Str) (hs : s.head? ≠ some '/') : pathJoin out (n ++ s) = pathJoin out n ++ s := by
  cases n with
  | nil =>
    unfold pathJoin
    rw [List.nil_append, if_neg hs, if_neg (show ¬ ([] : Str).head? = some '/' by simp)]
    split <;> simp
  | cons c n =>
    unfold pathJoin
    rw [List.cons_append, List.head?_cons, List.head?_cons]
    split
    · simp
    · split <;> simp

theorem sdf_noSlash : '/' ∉ ".sdf".toList ∧ '/' ∉ ".load.sh".toList := by decide
theorem sdf_head : (".sdf".toList).head? ≠ some '/' ∧ (".load.sh".toList).head? ≠ some '/' := by decide

/-- The two files are in the same directory. -/
theorem same_dir (out n : Str) : dirName (pathJoin out (n ++ ".sdf".toList)) = dirName (pathJoin out n) ∧
    dirName (pathJoin out (n ++ ".load.sh".toList)) = dirName (pathJoin out n) := by
  rw [pathJoin_suffix _ _ _ sdf_head.1, pathJoin_suffix _ _ _ sdf_head.2, dirName_of_slash sdf_noSlash.1,
    dirName_of_slash sdf_noSlash.2]
  exact ⟨rfl, rfl⟩

theorem dirName_slash (p : Str) : dirName (p ++ ['/']) = p ++ ['/'] := by
  unfold dirName
  simp

theorem dirName_withSlash (out : Str) : dirName (withSlash out) = withSlash out := by
  unfold withSlash
  split
  · next q =>
    rcases q with rfl | q
    · rfl
    · obtain ⟨p, rfl⟩ : ∃ p, out = p ++ ['/'] := by
        obtain ⟨ys, e⟩ := List.getLast?_eq_some_iff.1 q
        exact ⟨ys, e⟩
      exact dirName_slash p
  · exact dirName_slash out

theorem pathJoin_plain {out n : Str} (hn : n.head? ≠ some '/') : pathJoin out n = withSlash out ++ n := by
  unfold pathJoin withSlash
  rw [if_neg hn]
  split <;> simp

theorem head_ne {n : Str} (hn : '/' ∉ n) : n.head? ≠ some '/' := by
  cases n with
  | nil => simp
  | cons c n => simp only [List.head?_cons, ne_eq, Option.some.injEq]; rintro rfl; exact hn (by simp)

theorem ends_ne (a b : Str) : a ++ ".sdf".toList ≠ b ++ ".load.sh".toList := by
  intro e
  have := congrArg List.getLast? e
  rw [List.getLast?_append_of_ne_nil _ (by decide), List.getLast?_append_of_ne_nil _ (by decide)] at this
  revert this; decide

/-! ## Writing -/

theorem Disk.write_ok {D : Disk} {p : Str} {c : Content} (h1 : dirName p ∈ D.dirs) (h2 : p ++ ['/'] ∉ D.dirs) :
    D.write p c = .ok { D with files := D.files.set p c } := by
  unfold Disk.write
  rw [if_neg (not_not.2 h1), if_neg h2]

theorem Disk.write_inv {D D' : Disk} {p : Str} {c : Content} (e : D.write p c = .ok D') :
    dirName p ∈ D.dirs ∧ p ++ ['/'] ∉ D.dirs ∧ D' = { D with files := D.files.set p c } := by
  unfold Disk.write at e
  split at e
  · cases e
  · split at e
    · cases e
    · cases e; exact ⟨not_not.1 ‹_›, ‹_›, rfl⟩

theorem writeResults_ok {out n : Str} {root : Xml} {D : Disk} (h1 : dirName (pathJoin out n) ∈ D.dirs)
    (h2 : pathJoin out n ++ ".sdf/".toList ∉ D.dirs) (h3 : pathJoin out n ++ ".load.sh/".toList ∉ D.dirs) :
    ∃ D', writeResults out n root D = (.ok (), D') ∧ Wrote D D' (pathJoin out n ++ ".sdf".toList) (.document root)
      (pathJoin out n ++ ".load.sh".toList) (.script (loadScript n)) := by
  unfold writeResults
  rw [Disk.write_ok (by rw [(same_dir out n).1]; exact h1)
    (by rw [pathJoin_suffix _ _ _ sdf_head.1, List.append_assoc]; exact h2)]
  simp only
  rw [Disk.write_ok (by rw [(same_dir out n).2]; exact h1)
    (by rw [pathJoin_suffix _ _ _ sdf_head.2, List.append_assoc]; exact h3)]
  rw [pathJoin_suffix _ _ _ sdf_head.1, pathJoin_suffix _ _ _ sdf_head.2]
  refine ⟨_, rfl, rfl, ?_, ?_, ?_⟩
  · simp only
    rw [Dict.get?_set, if_neg (ends_ne _ _).symm, Dict.get?_set_self]
  · exact Dict.get?_set_self ..
  · intro x hp hq
    simp only
    rw [Dict.get?_set, if_neg hq.symm, Dict.get?_set, if_neg hp.symm]

theorem writeResults_fails {out n : Str} {root : Xml} {D D' : Disk} {e : AppErr}
    (hw : writeResults out n root D = (.error e, D')) (h3 : pathJoin out n ++ ".load.sh/".toList ∉ D.dirs) : D' = D := by
  unfold writeResults at hw
  split at hw
  · cases hw; rfl
  · next D1 h1 =>
    obtain ⟨a, -, rfl⟩ := Disk.write_inv h1
    rw [Disk.write_ok (D := { D with files := _ }) (by rw [(same_dir out n).2, ← (same_dir out n).1]; exact a)
      (by rw [pathJoin_suffix _ _ _ sdf_head.2, List.append_assoc]; exact h3)] at hw
    cases hw

theorem writeResults_inv {out n : Str} {root : Xml} {D D' : Disk} (hw : writeResults out n root D = (.ok (), D')) :
    Wrote D D' (pathJoin out n ++ ".sdf".toList) (.document root) (pathJoin out n ++ ".load.sh".toList)
      (.script (loadScript n)) := by
  have hw' := hw
  unfold writeResults at hw'
  split at hw'
  · cases hw'
  · next D1 h1 =>
    obtain ⟨a, b, rfl⟩ := Disk.write_inv h1
    split at hw'
    · cases hw'
    · next D2 h2 =>
      obtain ⟨a', b', -⟩ := Disk.write_inv h2
      rw [pathJoin_suffix _ _ _ sdf_head.1, List.append_assoc] at b
      rw [pathJoin_suffix _ _ _ sdf_head.2, List.append_assoc] at b'
      obtain ⟨D3, e, w⟩ := writeResults_ok (root := root) (by rw [← (same_dir out n).1]; exact a) b b'
      rw [hw] at e
      cases e; exact w

/-! ## Runs -/

section
variable {E : Env} {W : World} {d : Nat} {out : Str} {f : EntityDecl} {D : Disk}

/-- The entity that was read has the name of the file's entity. -/
theorem root_name (R : Reach E W.h) {I : FileIcon} {h' : Heap} {root : Ref}
    (hr : readFile E "cogni_lang_file".toList .local f W.h = (.ok I, h')) (e : I.root = some root) :
    (h'.get root).idName = f.name := by
  obtain ⟨x, w, a, -, -, -, -, -, s, ys, N, -⟩ := C76_file_shown R hr
  rw [e] at a; cases a
  exact N.name

/-- **C108, all or nothing.** Whatever the input file describes: if the program ends with an exception, no file was made or
changed, unless there is a directory with the name of the load script. -/
theorem C108_nothing_partial (R : Reach E W.h) {e : AppErr} {D' : Disk} (run : convertMain E W d out f D = (.error e, D'))
    (hd : pathJoin out f.name ++ ".load.sh/".toList ∉ D.dirs) : D' = D := by
  unfold convertMain at run
  split at run
  · cases run; rfl
  · next I h' hr =>
    split at run
    · cases run; rfl
    · next root he =>
      split at run
      · cases run; rfl
      · rw [root_name R hr he] at run
        exact writeResults_fails run hd

/-- **C108, what is written.** Whatever the input file describes: if the program succeeds, it wrote exactly two files, at
the paths that `os.path.join` makes of the output directory and the name of the entity: the document and the load script. -/
theorem C108_written (R : Reach E W.h) {D' : Disk} (run : convertMain E W d out f D = (.ok (), D')) :
    ∃ root, Wrote D D' (pathJoin out f.name ++ ".sdf".toList) (.document root) (pathJoin out f.name ++ ".load.sh".toList)
      (.script (loadScript f.name)) := by
  unfold convertMain at run
  split at run
  · cases run
  · next I h' hr =>
    split at run
    · cases run
    · next root he =>
      split at run
      · cases run
      · rw [root_name R hr he] at run
        exact ⟨_, writeResults_inv run⟩

/-- **C108, inside the output directory**, for names without slashes. -/
theorem C108_inside_partial (hn : '/' ∉ f.name) :
    pathJoin out f.name ++ ".sdf".toList = withSlash out ++ f.name ++ ".sdf".toList ∧
    pathJoin out f.name ++ ".load.sh".toList = withSlash out ++ f.name ++ ".load.sh".toList ∧
    dirName (pathJoin out f.name ++ ".sdf".toList) = withSlash out ∧
    dirName (pathJoin out f.name ++ ".load.sh".toList) = withSlash out := by
  rw [dirName_of_slash sdf_noSlash.1, dirName_of_slash sdf_noSlash.2, pathJoin_plain (head_ne hn), dirName_of_slash hn,
    dirName_withSlash out]
  exact ⟨rfl, rfl, rfl, rfl⟩

theorem enough_fair (R : Reach E W.h) (hw : W.Enough (readFile E "cogni_lang_file".toList .local f W.h).2.size) :
    ({ W with h := (readFile E "cogni_lang_file".toList .local f W.h).2 } : World).Fair E where
  reach := (C77_reading_is_safe R _ _ f).1
  stack := hw.stack
  order := hw.order
  pop := hw.pop

/-- **C108, for assemblies.** On a text that describes a well-formed file with one graph of links, joints and graphs, as in
C94, the program succeeds, from any state and for every schedule: it writes into the output directory the document with
the model of C94, named after the entity, and the script with the command that loads it, and no other file changes. -/
theorem C108_assembly_partial (hsha : ∀ a b, E.sha a = E.sha b → a = b) (htime : ∀ i j, E.time i = E.time j → i = j)
    (R : Reach E W.h) {s : Str} (rd : ReadsAs s (some f)) (ok : f.wellFormed = true) {g : Str} {body : Items} {ps : Params}
    (B : IsAssembly f g body ps) (hw : W.Enough (readFile E "cogni_lang_file".toList .local f W.h).2.size)
    (C : CanWrite D (withSlash out) f.name) :
    ∃ D' ys bs xs, convertMain E W (d + 2) out f D = (.ok (), D') ∧
      List.Forall₂ (SaysLink [] false ps ⟨[f.name, g], body⟩) body.links ys ∧
      List.Forall₂ (fun p b => SaysPair ps [f.name, g] body.graphs p.1 p.2.1 p.2.2 b) (jointPairs body.joints) bs ∧
      xs.Perm (ys ++ bs.flatten) ∧
      Wrote D D' (withSlash out ++ f.name ++ ".sdf".toList)
        (.document (.el "sdf".toList [("version".toList, "1.7".toList)] []
          [.el "model".toList [("name".toList, f.name)] [] xs]))
        (withSlash out ++ f.name ++ ".load.sh".toList)
        (.script ("ros2 run gazebo_ros spawn_entity.py -entity ".toList ++ f.name ++ " -file ".toList ++ f.name ++
          ".sdf".toList)) ∧
      ∀ c ∈ f.name, (isWordChar c || isDigit c) = true := by
  obtain ⟨I, h', x, e, a, conv⟩ := C94_wellformed hsha htime R "cogni_lang_file".toList ok B
  have F := enough_fair R hw
  rw [e] at F
  obtain ⟨ys, bs, xs, u, f1, f2, p, run⟩ := conv _ d F rfl
  have hn := pathJoin_plain (out := out) (head_ne B.slash.1)
  obtain ⟨D', w, wr⟩ := writeResults_ok (out := out) (n := f.name)
    (root := ({ models := [(f.name, xs)], cache := [] } : Sdf).rootXml) (D := D)
    (by rw [hn, dirName_of_slash B.slash.1, dirName_withSlash out]; exact C.there)
    (by rw [hn]; exact C.sdf) (by rw [hn]; exact C.load)
  refine ⟨D', ys, bs, xs, ?_, f1, f2, p, ?_, (C92_form rd).1.1.2⟩
  · unfold convertMain
    simp only [e, a]
    rw [run, root_name R e a]
    exact w
  · rw [hn] at wr
    exact wr

/-! ## Entities with nothing in them -/

theorem only_entity {h' : Heap} {x s : Ref} {n : Str} (N : IsNode h' x n [n] [s])
    (S : IsSem h' s .cognitiveEntity n [("name".toList, .str n)] []) {i m : Nat} {y : Ref}
    (q : DownTo h' (passes h' (convertStatement h' i)) x m y) : (m = 0 ∧ y = x) ∨ (m = 1 ∧ y = s) := by
  have passes : ∀ a b, b ∈ h'.subelements a → passes h' (convertStatement h' i) b = true → b ∈ h'.parts a := by
    intro a b hb hf
    refine List.mem_filter.2 ⟨hb, decide_eq_true fun hk => ?_⟩
    unfold passes at hf
    rw [hk] at hf
    simp at hf
  induction q with
  | start => exact .inl ⟨rfl, rfl⟩
  | @step m y z q hz fz ih =>
    rcases ih with ⟨rfl, rfl⟩ | ⟨rfl, rfl⟩
    · have := passes _ _ hz fz
      rw [N.parts] at this
      exact .inr ⟨rfl, by simpa using this⟩
    · have := passes _ _ hz fz
      rw [S.parts] at this
      cases this

/-- An entity with nothing in it: only the entity itself is selected. -/
theorem only_selected {h' : Heap} (R : Reach E h') {x s : Ref} {n : Str} (hx : x < h'.size) (N : IsNode h' x n [n] [s])
    (S : IsSem h' s .cognitiveEntity n [("name".toList, .str n)] []) : convertList h' x = [s] := by
  have sel : ∀ i, ∀ y ∈ matchesOf h' (convertQuery h' x i), y = s ∧ SemKind.cognitiveEntity = convertKind i := by
    intro i y hy
    have k := convert_kind hy
    have v := (List.mem_filter.1 hy).1
    unfold visitedBy at v
    have e : y = s := by
      rcases (C28_complete R (show (convertQuery h' x i).start < h'.size from hx) false y).1 v with ⟨e, -⟩ | ⟨m, hm, q⟩
      · rw [show y = x from e, N.kind] at k; cases k
      · rcases only_entity N S q with ⟨rfl, -⟩ | ⟨-, e⟩
        · omega
        · exact e
    subst e
    rw [S.kind] at k
    exact ⟨rfl, by simpa using k⟩
  have e0 : matchesOf h' (convertQuery h' x 0) = [] :=
    List.eq_nil_iff_forall_not_mem.2 fun y hy => by have := (sel 0 y hy).2; cases this
  have e1 : matchesOf h' (convertQuery h' x 1) = [] :=
    List.eq_nil_iff_forall_not_mem.2 fun y hy => by have := (sel 1 y hy).2; cases this
  have hs : s ∈ matchesOf h' (convertQuery h' x 2) := by
    refine List.mem_filter.2 ⟨?_, ?_⟩
    · unfold visitedBy
      refine (C28_complete R (show (convertQuery h' x 2).start < h'.size from hx) false s).2 (.inr ⟨1, le_refl _, .step .start ?_ ?_⟩)
      · have : s ∈ h'.parts x := by rw [N.parts]; simp
        exact (List.mem_filter.1 this).1
      · show passes h' (convertStatement h' 2) s = true
        unfold passes
        rw [S.kind]
        rfl
    · show (match (.ok (decide ((h'.get s).kind = .semantic (convertKind 2))) : Except Err Bool) with
        | .ok true => true
        | _ => false) = true
      rw [decide_eq_true (show (h'.get s).kind = .semantic (convertKind 2) from S.kind)]
  unfold convertList
  rw [e0, e1]
  exact nodup_const ((convert_visited_nodup R hx 2).filter _) hs fun y hy => (sel 2 y hy).1

/-- An entity with nothing in it is converted to an empty model, from any state. -/
theorem empty_converted (hsha : ∀ a b, E.sha a = E.sha b → a = b) (htime : ∀ i j, E.time i = E.time j → i = j)
    (R : Reach E W.h) (n : Str)
    (hw : W.Enough (readFile E "cogni_lang_file".toList .local ⟨n, .nil⟩ W.h).2.size) :
    convertMain E W (d + 1) out ⟨n, .nil⟩ D =
      writeResults out n (.el "sdf".toList [("version".toList, "1.7".toList)] [] [.el "model".toList [("name".toList, n)] [] []]) D := by
  obtain ⟨I, h', x, w, e, a, -, -, -, -, s, ys, N, -, Sm, sh⟩ :=
    C81_wellformed_accepted hsha htime R "cogni_lang_file".toList (f := ⟨n, .nil⟩) rfl
  unfold Shows at sh
  subst sh
  have F := enough_fair R hw
  rw [e] at F
  have hx : x < h'.size := by
    have hs : (h'.get s).parent = some x := by
      have : s ∈ h'.parts x := by rw [N.parts]; simp
      exact (F.reach.good.inv.mem_subelements _ _).1 (List.mem_filter.1 this).1
    exact F.reach.good.inv.parent_lt hs
  have cl := only_selected F.reach hx N Sm
  have none : ∀ (k : SemKind), k ≠ .cognitiveEntity → ∀ l ∈ convertList h' x, (h'.get l).kind ≠ .semantic k := by
    intro k hk l hl
    rw [cl, List.mem_singleton] at hl
    rw [hl, Sm.kind]
    intro e
    exact hk (by simpa using e.symm)
  have nohold : ∀ r, ¬ HoldsSelected h' (convertList h' x) r := by
    rintro r ⟨l, hl, hk, -⟩
    rcases hk with hk | hk
    · exact none .kinLink (by decide) l hl hk
    · exact none .kinJoint (by decide) l hl hk
  have nopair : ∀ i o, ¬ JointPair h' (convertList h' x) i o := fun i o P => nohold i P.selIn
  obtain ⟨ls, ps, js, f1, f2, -, hp, conv⟩ := C73_convert F.reach x s hx N.kind
    (by rw [cl]; unfold ofKind; rw [List.filter_cons_of_pos (by simp [Sm.kind])]; rfl)
    (fun l hl hk => absurd hk (none .kinLink (by decide) l hl))
    ⟨fun r H => absurd H (nohold r), fun r _ _ _ H => absurd H (nohold r), fun i H => absurd H (nohold i)⟩
    ⟨by rw [cl]; simp, fun y hy _ _ ky => by
      rcases ky with ky | ky
      · exact absurd ky (none .kinLink (by decide) y hy)
      · exact absurd ky (none .kinJoint (by decide) y hy)⟩
    (fun i o v P => absurd P (nopair i o)) (fun i o P => absurd P (nopair i o))
  have hl : ofKind h' .kinLink (convertList h' x) = [] := by
    rw [cl]; unfold ofKind; rw [List.filter_cons_of_neg (by simp [Sm.kind])]; rfl
  rw [hl] at f1
  cases f1
  have : ps = [] := List.eq_nil_iff_forall_not_mem.2 fun p hp' => nopair p.1 p.2 ((hp _ _).1 hp')
  subst this
  cases f2
  obtain ⟨xs, px, run⟩ := conv _ d F rfl
  have := px.eq_nil
  subst this
  unfold convertMain
  simp only [e, a]
  rw [run, N.name]
  simp only [Sdf.rootXml, Sm.name, List.map_cons, List.map_nil]

end

/-- **C108 is false for names with slashes.** Every name that begins with a slash is the name of an entity of some file;
converting this file writes the two files wherever the name says, whatever the output directory is, from any state. -/
theorem C108_outside_refuted {n : Str} (hn : IsName n) (sl : n.head? = some '/') :
    (∃ s, ReadsAs s (some ⟨n, .nil⟩)) ∧
    ∀ (E : Env) (W : World) (d : Nat) (out : Str) (D : Disk), (∀ a b, E.sha a = E.sha b → a = b) →
      (∀ i j, E.time i = E.time j → i = j) → Reach E W.h →
      W.Enough (readFile E "cogni_lang_file".toList .local ⟨n, .nil⟩ W.h).2.size →
      dirName n ∈ D.dirs → n ++ ".sdf/".toList ∉ D.dirs → n ++ ".load.sh/".toList ∉ D.dirs →
      ∃ D', convertMain E W (d + 1) out ⟨n, .nil⟩ D = (.ok (), D') ∧
        Wrote D D' (n ++ ".sdf".toList)
          (.document (.el "sdf".toList [("version".toList, "1.7".toList)] []
            [.el "model".toList [("name".toList, n)] [] []]))
          (n ++ ".load.sh".toList) (.script (loadScript n)) := by
  refine ⟨(C92_expressible _).2 ⟨hn, trivial⟩, ?_⟩
  intro E W d out D hsha htime R hw h1 h2 h3
  have e : pathJoin out n = n := by unfold pathJoin; rw [if_pos sl]
  rw [empty_converted hsha htime R n hw]
  obtain ⟨D', w, wr⟩ := writeResults_ok (out := out) (n := n)
    (root := .el "sdf".toList [("version".toList, "1.7".toList)] [] [.el "model".toList [("name".toList, n)] [] []]) (D := D)
    (by rw [e]; exact h1) (by rw [e]; exact h2) (by rw [e]; exact h3)
  rw [e] at wr
  exact ⟨D', w, wr⟩

/-- **C108 is false if there is a directory with the name of the load script.** Every name is the name of an entity of some
file; converting it then fails, and the document stays written. -/
theorem C108_half_refuted {n : Str} (hn : IsName n) :
    (∃ s, ReadsAs s (some ⟨n, .nil⟩)) ∧
    ∀ (E : Env) (W : World) (d : Nat) (out : Str) (D : Disk), (∀ a b, E.sha a = E.sha b → a = b) →
      (∀ i j, E.time i = E.time j → i = j) → Reach E W.h →
      W.Enough (readFile E "cogni_lang_file".toList .local ⟨n, .nil⟩ W.h).2.size →
      dirName (pathJoin out n) ∈ D.dirs → pathJoin out n ++ ".sdf/".toList ∉ D.dirs →
      pathJoin out n ++ ".load.sh/".toList ∈ D.dirs →
      ∃ D' root, convertMain E W (d + 1) out ⟨n, .nil⟩ D = (.error .isDirectory, D') ∧
        D'.files.get? (pathJoin out n ++ ".sdf".toList) = some (.document root) := by
  refine ⟨(C92_expressible _).2 ⟨hn, trivial⟩, ?_⟩
  intro E W d out D hsha htime R hw h1 h2 h3
  rw [empty_converted hsha htime R n hw]
  unfold writeResults
  rw [Disk.write_ok (by rw [(same_dir out n).1]; exact h1)
    (by rw [pathJoin_suffix _ _ _ sdf_head.1, List.append_assoc]; exact h2)]
  simp only
  unfold Disk.write
  simp only
  rw [if_neg (not_not.2 (by rw [(same_dir out n).2]; exact h1)),
    if_pos (by rw [pathJoin_suffix _ _ _ sdf_head.2, List.append_assoc]; exact h3)]
  refine ⟨_, (.el "sdf".toList [("version".toList, "1.7".toList)] [] [.el "model".toList [("name".toList, n)] [] []]), rfl, ?_⟩
  simp only
  rw [pathJoin_suffix _ _ _ sdf_head.1]
  exact Dict.get?_set_self ..

/-! ## Cases -/

/-- A world with nothing in it and enough stack for the objects that are made to read `f`. -/
def freshWorld (f : EntityDecl) : World :=
  ⟨Heap.empty, (readFile E1 "cogni_lang_file".toList .local f Heap.empty).2.size + 1, fun _ => ⟨List.dedup, fun l => l.headD 0⟩⟩

theorem freshWorld_enough (f : EntityDecl) :
    (freshWorld f).Enough (readFile E1 "cogni_lang_file".toList .local f (freshWorld f).h).2.size where
  stack := by unfold freshWorld; simp only; omega
  order _ l := ⟨List.nodup_dedup l, fun _ => List.mem_dedup⟩
  pop _ l h := by
    cases l with
    | nil => exact absurd rfl h
    | cons a l => exact List.mem_cons_self ..

theorem timesDistinct : ∀ i j, E1.time i = E1.time j → i = j := fun i j (e : 5 * i = 5 * j) => by omega

theorem withSlash_out : withSlash "out".toList = "out/".toList := by decide

/-- The program on the text of `examples/example_robotcar.cogni`, writing to the directory `out`. -/
example : ∃ D' ys bs xs, convertMain E1 (freshWorld car) 2 "out".toList car ⟨[[], "out/".toList], []⟩ = (.ok (), D') ∧
    xs.Perm (ys ++ List.flatten bs) ∧
    Wrote ⟨[[], "out/".toList], []⟩ D' ("out/".toList ++ car.name ++ ".sdf".toList)
      (.document (.el "sdf".toList [("version".toList, "1.7".toList)] []
        [.el "model".toList [("name".toList, car.name)] [] xs]))
      ("out/".toList ++ car.name ++ ".load.sh".toList)
      (.script ("ros2 run gazebo_ros spawn_entity.py -entity ".toList ++ car.name ++ " -file ".toList ++ car.name ++
          ".sdf".toList)) := by
  have R : Reach E1 (freshWorld car).h := .init
  have C : CanWrite ⟨[[], "out/".toList], []⟩ (withSlash "out".toList) car.name :=
    ⟨by decide, by decide, by decide⟩
  obtain ⟨D', ys, bs, xs, run, -, -, p, w, -⟩ := C108_assembly_partial (E := E1) (W := freshWorld car) (out := "out".toList) (d := 0) wideSha_injective timesDistinct R car_reads
    examples_wellFormed.2.2.2.1 car_assembly (freshWorld_enough car) C
  rw [withSlash_out] at w
  exact ⟨D', ys, bs, xs, run, p, w⟩

/-- A name of a file outside the output directory. -/
theorem elsewhere_name : IsName "/tmp/x".toList ∧ ("/tmp/x".toList).head? = some '/' := by
  refine ⟨⟨⟨by decide +kernel, by decide +kernel⟩, ?_, by decide +kernel⟩, by decide +kernel⟩
  intro c w e
  have : ("/tmp/x".toList).head? = some c := by rw [e]; rfl
  rw [show ("/tmp/x".toList).head? = some '/' by decide +kernel] at this
  cases this
  decide +kernel

/-- The program with the output directory `out` writes into `/tmp`. -/
example : ∃ s D', ReadsAs s (some ⟨"/tmp/x".toList, .nil⟩) ∧
    convertMain E1 (freshWorld ⟨"/tmp/x".toList, .nil⟩) 1 "out".toList ⟨"/tmp/x".toList, .nil⟩ ⟨["".toList, "out/".toList, "/tmp/".toList], []⟩ = (.ok (), D') ∧
    (D'.files.get? ("/tmp/x".toList ++ ".sdf".toList)).isSome := by
  obtain ⟨⟨s, hs⟩, run⟩ := C108_outside_refuted elsewhere_name.1 elsewhere_name.2
  have R : Reach E1 (freshWorld ⟨"/tmp/x".toList, .nil⟩).h := .init
  have F := freshWorld_enough ⟨"/tmp/x".toList, .nil⟩
  have h1 : dirName "/tmp/x".toList ∈ ["".toList, "out/".toList, "/tmp/".toList] := by decide +kernel
  have h2 : "/tmp/x".toList ++ ".sdf/".toList ∉ ["".toList, "out/".toList, "/tmp/".toList] := by decide +kernel
  have h3 : "/tmp/x".toList ++ ".load.sh/".toList ∉ ["".toList, "out/".toList, "/tmp/".toList] := by decide +kernel
  obtain ⟨D', e, w⟩ := run E1 (freshWorld ⟨"/tmp/x".toList, .nil⟩) 0 "out".toList ⟨["".toList, "out/".toList, "/tmp/".toList], []⟩ wideSha_injective
    timesDistinct R F h1 h2 h3
  exact ⟨s, D', hs, e, by rw [w.first]; exact Option.isSome_some⟩

end Rei
