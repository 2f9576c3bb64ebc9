import Verif.Lemmas.LexSkip
import Verif.Lemmas.GrammarShape
import Verif.Lemmas.GrammarCan
import Verif.Props.GrammarTexts

/-!
# Layout and numerals of CogniLang files
-/
namespace Rei

/-- C90: tokens that are written down with blanks and comments at will are read back as these tokens. -/
theorem C90_layout {ts : List Token} {s : Str} (h : LaidOut ts s) : lex s = ts := lex_laidOut h

/-- C90: two texts that differ only in blanks and comments mean the same. -/
theorem C90_same {ts : List Token} {s s' : Str} (h : LaidOut ts s) (h' : LaidOut ts s') (e : Option EntityDecl) :
    ReadsAs s e ↔ ReadsAs s' e := by
  unfold ReadsAs
  rw [C90_layout h, C90_layout h']

/-- C90: a text means an entity if its tokens, or the first of them, are derived. -/
theorem C90_reads {ts us : List Token} {s : Str} {e : Option EntityDecl} (h : LaidOut (ts ++ us) s)
    (d : Derives cogniLang gEntity e ts) : ReadsAs s e :=
  ⟨ts, by rw [C90_layout h]; exact List.prefix_append .., d⟩

/-- A word or sign as a token. -/
def wordToken (s : String) : Token := ⟨.word s.toList, s.toList⟩

theorem wordToken_written {s : String} (h : literals.contains s.toList = true) : (wordToken s).Written :=
  ⟨rfl, by simpa using h⟩

/-- The name `a` as a token. -/
theorem a_written : (⟨.id, ['a']⟩ : Token).Written := plain_a

/-- Two texts with the same tokens: `entity a{}` and one with comments on three lines. -/
example : LaidOut [wordToken "entity", ⟨.id, ['a']⟩, wordToken "{", wordToken "}"] "entity a{}".toList ∧
    LaidOut [wordToken "entity", ⟨.id, ['a']⟩, wordToken "{", wordToken "}"]
      "/* robot **/entity a\n{ // empty }\n}".toList := by
  have w : ∀ {s : String} {ts r}, literals.contains s.toList = true → (wordToken s).Stops r → LaidOut ts r →
      LaidOut (wordToken s :: ts) (s.toList ++ r) := fun h1 h2 h3 => .token (wordToken_written h1) h2 h3
  have b : ∀ {c : Char} {ts r}, c ∈ [' ', '\t', '\n', '\r'] → LaidOut ts r → LaidOut ts ([c] ++ r) :=
    fun h1 h2 => .skip (.blank _ h1) h2
  have cl : ∀ r, (wordToken "}").Stops r := fun r => .inl (by simp [Token.Closed, wordToken]; decide)
  have op : ∀ r, (wordToken "{").Stops r := fun r => .inl (by simp [Token.Closed, wordToken]; decide)
  have ne : ¬ "//".toList <+: (wordToken "entity").text := by decide
  have na : ¬ "//".toList <+: ['a'] := by decide
  constructor
  · refine w (by decide +kernel) (.inr ⟨?_, fun q => absurd q ne⟩) (b (c := ' ') (by simp)
      (.token (t := ⟨.id, ['a']⟩) a_written (.inr ⟨?_, fun q => absurd q na⟩) (w (by decide +kernel) (op _)
        (w (by decide +kernel) (cl _) .done))))
    · intro c r e; cases e; decide
    · intro c r e; cases e; decide
  · refine .skip (.long " robot *".toList (by decide)) (w (by decide +kernel) (.inr ⟨?_, fun q => absurd q ne⟩)
      (b (c := ' ') (by simp) (.token (t := ⟨.id, ['a']⟩) a_written (.inr ⟨?_, fun q => absurd q na⟩)
      (b (c := '\n') (by simp) (w (by decide +kernel) (op _) (b (c := ' ') (by simp)
      (.skip (.line " empty }".toList (by decide)) (w (by decide +kernel) (cl _) .done))))))))
    · intro c r e; cases e; decide
    · intro c r e; cases e; decide

/-! ## Numerals -/

/-- Every entity has as many closing as opening braces, at least four tokens and no bare numeral. -/
theorem entity_shape {e : Option EntityDecl} {ts : List Token} (d : Derives cogniLang gEntity e ts) :
    surplus (.word "{".toList) (.word "}".toList) ts = 0 ∧ 4 ≤ ts.length ∧ ∀ t ∈ ts, t.cls ≠ .decimals := by
  refine ⟨d.level (by decide) (fun n => by cases n <;> decide +kernel) (by decide +kernel), ?_,
    d.uses (fun n => by cases n <;> decide +kernel) (by decide +kernel)⟩
  obtain ⟨k, d⟩ := d
  have : gEntity.least = 4 := by decide +kernel
  rw [← this]
  exact gEntity.least_lang d

/-- C91: where an entity is not closed yet, a numeral without a sign and a point cannot be read. -/
theorem C91_numeral_refuted {s : Str} {pre post : List Token} {d : Str} (h : lex s = pre ++ ⟨.decimals, d⟩ :: post)
    (op : StillOpen pre) (e : Option EntityDecl) : ¬ ReadsAs s e := by
  rintro ⟨ts, hp, dv⟩
  obtain ⟨h1, h2, h3⟩ := entity_shape dv
  rw [h] at hp
  rcases Nat.lt_or_ge pre.length ts.length with q | q
  · have : pre ++ [⟨.decimals, d⟩] <+: ts :=
      List.prefix_of_prefix_length_le (l₃ := pre ++ ⟨.decimals, d⟩ :: post) ⟨post, by simp⟩ hp (by simp; omega)
    exact h3 ⟨.decimals, d⟩ (this.subset (by simp)) rfl
  · have := op ts (List.prefix_of_prefix_length_le hp (List.prefix_append ..) q) (by omega)
    unfold surplus at h1
    omega

/-- The braces are open: a check. -/
def stillOpen (ts : List Token) : Bool := (List.range (ts.length + 1)).all fun n => n < 3 ||
  (ts.take n).countP (fun t => t.cls = .word "}".toList) < (ts.take n).countP (fun t => t.cls = .word "{".toList)

theorem stillOpen_iff {ts : List Token} (h : stillOpen ts = true) : StillOpen ts := by
  intro q hq h3
  simp only [stillOpen, List.all_eq_true, List.mem_range, Bool.or_eq_true, decide_eq_true_eq] at h
  have := h q.length (by have := hq.length_le; omega)
  rw [← List.prefix_iff_eq_take.1 hq] at this
  omega

set_option maxRecDepth 100000 in
/-- The tokens of `examples/example_robotcar_ambient.cogni` up to the first bare numeral. -/
theorem ambientCar_tokens : ∃ pre d post, lex Cogni.ambientCarText = pre ++ ⟨.decimals, d⟩ :: post ∧ StillOpen pre := by
  have key : ((lex Cogni.ambientCarText).drop 308).head?.map Token.cls = some .decimals ∧
      stillOpen ((lex Cogni.ambientCarText).take 308) = true := by decide +kernel
  generalize lex Cogni.ambientCarText = ts at key
  obtain ⟨k1, k2⟩ := key
  cases q : ts.drop 308 with
  | nil => rw [q] at k1; cases k1
  | cons t post =>
    rw [q] at k1
    obtain ⟨c, d⟩ := t
    cases k1
    exact ⟨ts.take 308, d, post, by rw [← q, List.take_append_drop], stillOpen_iff k2⟩

/-- C91: the example `examples/example_robotcar_ambient.cogni` of the repository (`int width = 1960`) is not in the language. -/
theorem C91_example_refuted (e : Option EntityDecl) : ¬ ReadsAs Cogni.ambientCarText e := by
  obtain ⟨pre, d, post, h, op⟩ := ambientCar_tokens
  exact C91_numeral_refuted h op e

/-- C91, what holds: a negative integer is read as the value of an integer parameter, and so is a number with a point as that
of a `double`. -/
theorem C91_negative_partial {name var num : Token} {ty : String} {s : Str} (h : LaidOut [⟨.word "entity".toList, "entity".toList⟩,
      name, ⟨.word "{".toList, "{".toList⟩, ⟨.word ty.toList, ty.toList⟩, var, ⟨.word "=".toList, "=".toList⟩, num,
      ⟨.word "}".toList, "}".toList⟩] s) (hn : name.cls = .id) (hv : var.cls = .id)
    (k : (ty = "int" ∧ num.cls = .int) ∨ (ty = "double" ∧ num.cls = .float)) :
    ReadsAs s (some { name := name.text, body := .skipped .nil }) := by
  obtain ⟨c, n⟩ := name
  obtain ⟨c', v⟩ := var
  obtain ⟨c'', d⟩ := num
  cases hn
  cases hv
  rw [← List.append_nil [_, _, _, _, _, _, _, _]] at h
  have tk : ∀ (w : String), (kw w).lang (derives cogniLang 0) w.toList [⟨.word w.toList, w.toList⟩] :=
    fun w => ⟨w.toList, rfl, rfl⟩
  have par : gParameters.lang (derives cogniLang 0) () [⟨.word ty.toList, ty.toList⟩, ⟨.id, v⟩, ⟨.word "=".toList, "=".toList⟩,
      ⟨c'', d⟩] := by
    have one : ∀ c : Cls, (Rule.void (kw ty *>. .token .id *>. kw "=" *>. .token c)).lang (derives cogniLang 0) ()
        [⟨.word ty.toList, ty.toList⟩, ⟨.id, v⟩, ⟨.word "=".toList, "=".toList⟩, ⟨c, d⟩] := fun c =>
      ⟨d, ⟨(_, d), ⟨[_], _, rfl, tk ty, ⟨(v, d), ⟨[_], _, rfl, rfl, ⟨(_, d), ⟨[_], _, rfl, tk "=", rfl⟩, rfl⟩⟩, rfl⟩⟩, rfl⟩, rfl⟩
    rcases k with ⟨rfl, rfl⟩ | ⟨rfl, rfl⟩
    · exact .inr (.inl (one .int))
    · exact .inl (one .float)
  refine C90_reads h ⟨0, ?_⟩
  refine ⟨(n, [BodyItem.skipped]), ⟨(_, (n, [BodyItem.skipped])), ⟨[_], _, rfl, tk "entity", [⟨.id, n⟩], _, rfl, rfl,
    ⟨(_, [BodyItem.skipped]), ⟨[_], _, rfl, tk "{", ⟨([BodyItem.skipped], _), ⟨[_, _, _, _], [_], rfl, ⟨[(BodyItem.skipped,
      [⟨.word ty.toList, ty.toList⟩, ⟨.id, v⟩, ⟨.word "=".toList, "=".toList⟩, ⟨c'', d⟩])], rfl, rfl, ?_⟩, tk "}"⟩, rfl⟩⟩, rfl⟩⟩, rfl⟩, rfl⟩
  intro p hp
  rw [List.mem_singleton] at hp
  subst hp
  exact .inr (.inr (.inr (.inr (.inl ⟨(), par, rfl⟩))))

set_option maxRecDepth 10000 in
/-- `int n = -5` is read. -/
example : ReadsAs "entity a { int n = -5 }".toList (some ⟨['a'], .skipped .nil⟩) := .of_parse 2 (by decide +kernel)

set_option maxRecDepth 10000 in
/-- `int n = 5` is not. -/
example (e : Option EntityDecl) : ¬ ReadsAs "entity a { int n = 5 }".toList e :=
  C91_numeral_refuted (pre := [wordToken "entity", ⟨.id, ['a']⟩, wordToken "{", wordToken "int", ⟨.id, ['n']⟩, wordToken "="])
    (d := ['5']) (post := [wordToken "}"]) (by decide +kernel) (stillOpen_iff (by decide +kernel)) e

/-! ## What can be described -/

/-- C92: what a file describes is in form: its names are names, its numbers decimals, its vectors are not empty, its joints
have an end, the ends are of the three types and three directions, and every element is where it may be. -/
theorem C92_form {s : Str} {f : EntityDecl} (h : ReadsAs s (some f)) : f.Form := by
  obtain ⟨ts, ⟨rest, e⟩, k, d⟩ := h
  refine means_entity (bodies_mean k) _ _ d (fun t ht => lex_named s t ?_) f rfl
  rw [← e]
  exact List.mem_append_left _ ht

/-- C92: exactly the descriptions in form are described by files. -/
theorem C92_expressible (f : EntityDecl) : (∃ s, ReadsAs s (some f)) ↔ f.Form := by
  refine ⟨fun ⟨s, h⟩ => C92_form h, fun h => ?_⟩
  obtain ⟨k, ts, d, w⟩ := can_entity h
  obtain ⟨s, hs, -⟩ := laidOut_exists w
  exact ⟨' ' :: s, C90_reads (us := []) (by rwa [List.append_nil]) ⟨k, d⟩⟩

/-- The example files of the repository are in form. -/
example : ∀ f ∈ [Cogni.pendulum, Cogni.twoLinkPendulum, Cogni.kinematicLoop, Cogni.car, Cogni.parameterizedCar], f.Form := by
  intro f hf
  simp only [List.mem_cons, List.not_mem_nil, or_false] at hf
  rcases hf with rfl | rfl | rfl | rfl | rfl
  · exact C92_form Cogni.pendulum_reads
  · exact C92_form Cogni.twoLinkPendulum_reads
  · exact C92_form Cogni.kinematicLoop_reads
  · exact C92_form Cogni.car_reads
  · exact C92_form Cogni.parameterizedCar_reads

/-- A direction that is no arrow cannot be described. -/
example : ¬ ∃ s, ReadsAs s (some ⟨['a'], .joint ⟨['b'], [⟨"fix".toList, "=>".toList, ['c'], none, none⟩]⟩ .nil⟩) := by
  rw [C92_expressible]
  rintro ⟨-, -, ⟨-, -, h⟩, -⟩
  exact absurd (h _ (List.mem_singleton.2 rfl)).2.1 (by decide)

end Rei
