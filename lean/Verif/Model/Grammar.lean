import Verif.Py.Grammar
import Verif.Model.CogniLang

/-!
# The grammar of CogniLang (`framework/cognitive/speclanguage/src/main/antlr4/*.g4`)

The lexer rules as a function from texts to tokens, the parser rules as a grammar whose derivations mean the trees that
`Model/CogniLang.lean` visits.  The parser that ANTLR generates from these files is not in the repository: it is taken to
find a derivation of the tokens if there is one.  Its error recovery is not modelled.
-/
namespace Rei

/-! ## Lexing -/

/-- `[0-9]`, `HypergraphBasicElements.g4:51`. -/
def isDigit (c : Char) : Bool := '0'.val ≤ c.val && c.val ≤ '9'.val

/-- `[a-zA-Z_/]`, `HypergraphBasicElements.g4:52`. -/
def isWordChar (c : Char) : Bool :=
  ('a'.val ≤ c.val && c.val ≤ 'z'.val) || ('A'.val ≤ c.val && c.val ≤ 'Z'.val) || c == '_' || c == '/'

/-- `[a-zA-Z_/'-'0-9]`, `HypergraphBasicElements.g4:55`: the range from `'` to `'` is the quote alone. -/
def isStringChar (c : Char) : Bool := isWordChar c || isDigit c || c == '\''

/-- `[ \t\n\r]`, `HypergraphBasicElements.g4:60`. -/
def isSpaceChar (c : Char) : Bool := c == ' ' || c == '\t' || c == '\n' || c == '\r'

/-- The words and signs in quotes in the parser rules of the five files, and `OUT_DIR`, `IN_DIR`, `BI_DIR`
(`HypergraphBasicElements.g4:44-48`), which ANTLR identifies with the signs they stand for. -/
def literals : List Str := ["ambient", "{", "}", "actuator", "sensor", "ambience", ",", "precision", "accuracy", "variance",
  "at", "->", "<-", "--", "imu", "encoder", "force", "gnss", "visual", "laserarray", "comm", "signal", "stream", "port", ":",
  "(", ")", "entity", "parameters", "=", "[", "]", "d", "r", "kinematic", "root", "link", "@", "inertia", "mass", "material",
  "collision", "cylinder", "polyhedron", "ellipsoid", "mesh", "joint", "fix", "rev", "tr", "mirror", "node", "double", "vec",
  "int", "string", "|", "edge", "pairwise", "single", "full", "union"].map String.toList

/-- How far the text agrees with a class of characters. -/
def spanLen (p : Char → Bool) (s : Str) : Nat := (s.takeWhile p).length

/-- A length of zero is no match. -/
def positive (n : Nat) : Option Nat := if n = 0 then none else some n

/-- The optional sign `[-]?`, `HypergraphBasicElements.g4:53-54`. -/
def signLen : Str → Nat
  | '-' :: _ => 1
  | _ => 0

/-- A word or sign of the grammar. -/
def matchLiteral (l : Str) (s : Str) : Option Nat := if l.isPrefixOf s then some l.length else none

/-- `DECIMALS: [0-9]+`, `HypergraphBasicElements.g4:51`. -/
def matchDecimals (s : Str) : Option Nat := positive (spanLen isDigit s)

/-- `ID: [a-zA-Z_/]+DECIMALS*ID*`, `HypergraphBasicElements.g4:52`: a word character, then word characters and digits. -/
def matchId : Str → Option Nat
  | [] => none
  | c :: s => if isWordChar c then some (1 + spanLen (fun c => isWordChar c || isDigit c) s) else none

/-- `INT: [-]?DECIMALS+`, `HypergraphBasicElements.g4:53`. -/
def matchInt (s : Str) : Option Nat :=
  (matchDecimals (s.drop (signLen s))).map (signLen s + ·)

/-- `FLOAT: [-]?DECIMALS+('.'DECIMALS)+?`, `HypergraphBasicElements.g4:54`: the repetition is not greedy, so there is one
fraction. -/
def matchFloat (s : Str) : Option Nat :=
  match matchInt s with
  | none => none
  | some n =>
    match s.drop n with
    | '.' :: t => (matchDecimals t).map (n + 1 + ·)
    | _ => none

/-- `STRING: '"'[a-zA-Z_/'-'0-9]*'"'`, `HypergraphBasicElements.g4:55`. -/
def matchString : Str → Option Nat
  | '"' :: s =>
    match s.drop (spanLen isStringChar s) with
    | '"' :: _ => some (spanLen isStringChar s + 2)
    | _ => none
  | _ => none

/-- The length of the text up to and including the first line break. -/
def lineLen : Str → Option Nat
  | [] => none
  | c :: s => if c = '\n' then some 1 else (lineLen s).map (1 + ·)

/-- The length of the text up to and including the first end of a long comment. -/
def closeLen : Str → Option Nat
  | [] => none
  | '*' :: '/' :: _ => some 2
  | _ :: s => (closeLen s).map (1 + ·)

/-- `COMMENT: '//' .*? [\n] -> skip`, `HypergraphBasicElements.g4:57`. -/
def matchComment : Str → Option Nat
  | '/' :: '/' :: s => (lineLen s).map (2 + ·)
  | _ => none

/-- `COMMENT_LONG: '/*' .*? '*/' -> skip`, `HypergraphBasicElements.g4:58`. -/
def matchLongComment : Str → Option Nat
  | '/' :: '*' :: s => (closeLen s).map (2 + ·)
  | _ => none

/-- `WS: [ \t\n\r]+ -> skip`, `HypergraphBasicElements.g4:60`. -/
def matchBlank (s : Str) : Option Nat := positive (spanLen isSpaceChar s)

/-- The lexer rules in ANTLR's order: the quoted words and signs, then the rules as they are written; the ones without a
kind of token are skipped. -/
def lexRules : List (Option Cls × (Str → Option Nat)) :=
  literals.map (fun l => (some (.word l), matchLiteral l)) ++
  [(some .decimals, matchDecimals), (some .id, matchId), (some .int, matchInt), (some .float, matchFloat),
    (some .string, matchString), (none, matchComment), (none, matchLongComment), (none, matchBlank)]

/-- The longest match, the earliest of the longest ones. -/
def longest (s : Str) : List (Option Cls × (Str → Option Nat)) → Option (Option Cls × Nat)
  | [] => none
  | (k, m) :: rest =>
    match m s, longest s rest with
    | none, b => b
    | some n, none => some (k, n)
    | some n, some (k', n') => if n < n' then some (k', n') else some (k, n)

/-- The tokens of a text, up to the first character that is in no token. -/
def lexFrom : Nat → Str → List Token
  | 0, _ => []
  | fuel + 1, s =>
    match longest s lexRules with
    | none => []
    | some (some k, n) => ⟨k, s.take n⟩ :: lexFrom fuel (s.drop n)
    | some (none, n) => lexFrom fuel (s.drop n)

/-- The tokens of a text: every match is at least one character long. -/
def lex (s : Str) : List Token := lexFrom s.length s

/-! ## What tokens mean -/

/-- The number that digits write. -/
def digitsValue (s : Str) : Nat := s.foldl (fun n c => 10 * n + (c.toNat - '0'.toNat)) 0

/-- `float(text)` of an `INT` or `FLOAT` token, as the number that is written (`cognilang_file_icon.py:154,156,320`). -/
def numberValue (s : Str) : Rat :=
  let u := s.drop (signLen s)
  let n := spanLen isDigit u
  let frac := u.drop (n + 1)
  (if signLen s = 1 then -1 else 1) * (digitsValue (u.take n ++ frac) : Rat) / (10 ^ frac.length : Nat)

/-! ## The parser rules -/

/-- The rules that are recursive: the bodies of kinematic graphs, ambient graphs and plain nodes. -/
inductive Body
  | kinematic | ambient | node
  deriving DecidableEq

/-- What bodies mean. -/
def Body.Meaning : Body → Type
  | .kinematic => Items
  | .ambient => Items
  | .node => Unit

/-- A rule of the grammar. -/
abbrev CRule := Rule Body.Meaning

/-- A quoted word or sign. -/
def kw (s : String) : CRule Str := .map (fun _ => s.toList) (.token (.word s.toList))

/-- Two rules of which only the second means something. -/
def Rule.after {α β : Type} (r : CRule α) (q : CRule β) : CRule β := .map Prod.snd (.seq r q)

/-- Two rules of which only the first means something. -/
def Rule.before {α β : Type} (r : CRule α) (q : CRule β) : CRule α := .map Prod.fst (.seq r q)

/-- A rule whose meaning is not looked at. -/
def Rule.void {α : Type} (r : CRule α) : CRule Unit := .map (fun _ => ()) r

infixr:60 " *>. " => Rule.after
infixl:61 " .<* " => Rule.before
infixr:55 " ⊹ " => Rule.alt

/-- `ref_: '{' ID '}'`, `HypergraphBasicElements.g4:41`. -/
def gRef : CRule Str := kw "{" *>. .token .id .<* kw "}"

/-- `value: (ref_|FLOAT)`, `HypergraphBasicElements.g4:29`. -/
def gValue : CRule FVal := .map .param gRef ⊹ .map (fun s => .num (numberValue s)) (.token .float)

/-- `float_vector: '[' value ((',')? value)* ']'`, `HypergraphBasicElements.g4:24`. -/
def gVector : CRule (List FVal) :=
  kw "[" *>. .map (fun p => p.1 :: p.2) (.seq gValue (.star (.opt (kw ",") *>. gValue))) .<* kw "]"

/-- `field_float_vector: float_vector|ref_`, `HypergraphBasicElements.g4:16`. -/
def gField : CRule FField := .map .vec gVector ⊹ .map .ref gRef

/-- `graphedge_signature: ID ':'`, `HypergraphBasicElements.g4:33`. -/
def gEdgeName : CRule Str := .token .id .<* kw ":"

/-- `parameters: param_double | param_int | param_string | param_double_vector`, `HypergraphBasicElements.g4:18-22`. -/
def gParameters : CRule Unit :=
  Rule.void (kw "double" *>. .token .id *>. kw "=" *>. .token .float) ⊹
  Rule.void (kw "int" *>. .token .id *>. kw "=" *>. .token .int) ⊹
  Rule.void (kw "string" *>. .token .id *>. kw "=" *>. .token .string) ⊹
  Rule.void (kw "vec" *>. .token .id *>. kw "=" *>. gVector)

/-- `graphedge_relation_optype`, `HypergraphBasicElements.g4:36`. -/
def gOp : CRule Str := kw "pairwise" ⊹ kw "single" ⊹ kw "full" ⊹ kw "union"

/-- `dir: (out_dir OUT_DIR | in_dir IN_DIR | bi_dir BI_DIR)`, `HypergraphBasicElements.g4:42-48`: the sign is written
twice. -/
def gDir : CRule Str := (kw "->" *>. kw "->") ⊹ (kw "<-" *>. kw "<-") ⊹ (kw "--" *>. kw "--")

/-- `graphedge`, `HypergraphBasicElements.g4:32-35`. -/
def gEdge : CRule Unit :=
  let rel := Rule.void (gDir *>. gRef *>. .opt gOp)
  Rule.void (kw "edge" *>. gEdgeName *>. kw "{" *>. rel *>. .star (kw "," *>. rel) *>. kw "}")

/-- `graphnode`, `HypergraphBasicElements.g4:5-8`. -/
def gNode : CRule Unit :=
  Rule.void (kw "node" *>. .token .id *>. .opt (kw "{" *>. .nt .node *>. kw "}"))

/-- `subset_elem*`, `HypergraphBasicElements.g4:7,39`. -/
def gNodeBody : CRule Unit := Rule.void (.star (gNode ⊹ gEdge ⊹ gParameters))

/-- `rotation: (rot_type=('d'|'r'))?(float_vector)`, `GeometryElements.g4:8`. -/
def gRotation : CRule (Option RotMark × List FVal) :=
  .seq (.opt (.map (fun _ => .d) (kw "d") ⊹ .map (fun _ => .r) (kw "r"))) gVector

/-- `rigid_transformation: '[' float_vector (',')? rotation?']'`, `GeometryElements.g4:7`. -/
def gPose : CRule Pose :=
  kw "[" *>. .map (fun p => ⟨p.1, p.2⟩) (.seq gVector (.opt (kw ",") *>. .opt gRotation)) .<* kw "]"

/-- `cylinder_geometry`, ..., `GeometryElements.g4:27-31`. -/
def gGeometry : CRule Geom :=
  .map (.solid .cylinder) (kw "cylinder" *>. .opt (.token .id) *>. gField) ⊹
  .map (.solid .polyhedron) (kw "polyhedron" *>. .opt (.token .id) *>. gField) ⊹
  .map (.solid .mesh) (kw "mesh" *>. .opt (.token .id) *>. gField) ⊹
  .map (.solid .ellipsoid) (kw "ellipsoid" *>. .opt (.token .id) *>. gField) ⊹
  .map .ref gRef

/-- `geometry_body: '{' geometries '}'`, `GeometryElements.g4:25`. -/
def gGeometryBody : CRule Geom := kw "{" *>. gGeometry .<* kw "}"

/-- `visual_node`, `material`, `collision_node`, `GeometryElements.g4:21-23`. -/
def gSolid : CRule SolidDecl :=
  .map (fun p => ⟨true, p.1, p.2.1, p.2.2⟩) (kw "visual" *>. .seq (.opt (.token .id)) (.seq
    (.opt (kw "(" *>. kw "material" *>. .token .id .<* kw ")")) gGeometryBody)) ⊹
  .map (fun p => ⟨false, p.1, none, p.2⟩) (kw "collision" *>. .seq (.opt (.token .id)) gGeometryBody)

/-- `linknode_body`, `inertia_body`, `inertia_vector`, `GeometryElements.g4:16-19`. -/
def gLinkBody : CRule LinkBody :=
  .map (fun p => ⟨numberValue p.1, p.2.1, p.2.2⟩) (kw "{" *>. kw "inertia" *>. kw "{" *>. kw "mass" *>. .seq (.token .float)
    (.seq (.opt (kw "inertia" *>. gField) .<* kw "}") (.star gSolid .<* kw "}")))

/-- `link`, `GeometryElements.g4:15`. -/
def gLink : CRule LinkDecl :=
  .map (fun p => ⟨p.1, p.2.1, p.2.2⟩) (.opt (kw "root") *>. kw "link" *>. .seq (.token .id)
    (.seq (.opt (kw "@" *>. gPose)) (.opt gLinkBody)))

/-- `('->'|'<-'|'--')`, `GeometryElements.g4:35`, `AmbientGraph.g4:32,42`. -/
def gArrow : CRule Str := kw "->" ⊹ kw "<-" ⊹ kw "--"

/-- `joint_relation`, `joint_type`, `GeometryElements.g4:35-36`, `axis`, `HypergraphBasicElements.g4:27`. -/
def gJointRel : CRule JointRel :=
  .map (fun p => ⟨p.1, p.2.1, p.2.2.1, p.2.2.2.1, p.2.2.2.2⟩) (.seq (kw "fix" ⊹ kw "rev" ⊹ kw "tr") (.seq gArrow (.seq gRef
    (.seq (.opt gPose) (.opt (kw "|" *>. gVector))))))

/-- `joint`, `joint_body`, `GeometryElements.g4:33-34`. -/
def gJoint : CRule JointDecl :=
  .map (fun p => ⟨p.1, p.2.1 :: p.2.2⟩) (kw "joint" *>. .seq gEdgeName (.seq gJointRel (.star gJointRel)))

/-- `geometrictemplate`, `GeometryElements.g4:38`. -/
def gTemplate : CRule Unit := Rule.void (gEdgeName *>. gRef *>. gJointRel)

/-- `geometricmirror`, `GeometryElements.g4:40-42`. -/
def gMirror : CRule Unit := Rule.void (kw "mirror" *>. gEdgeName *>. gRef *>. kw "->" *>. gRef)

/-- `sensor_type`, `AmbientGraph.g4:29,35-40`. -/
def gSensorType : CRule Str := kw "imu" ⊹ kw "encoder" ⊹ kw "force" ⊹ kw "gnss" ⊹ kw "visual" ⊹ kw "laserarray"

/-- `communication_connections`, `communication_type`, `AmbientGraph.g4:42-46`, `geom_relation`, `AmbientGraph.g4:31-32`. -/
def gAmbienceRel : CRule Unit :=
  Rule.void (.opt gOp *>. kw "comm" *>. gArrow *>. (kw "signal" ⊹ kw "stream") *>. gRef) ⊹
  Rule.void (kw "at" *>. gArrow *>. gRef *>. .opt gPose)

/-- `ambience_edge`, `ambience_edge_body`, `AmbientGraph.g4:21-22`. -/
def gAmbience : CRule Unit :=
  let body := Rule.void (gAmbienceRel *>. .star gAmbienceRel)
  Rule.void (kw "ambience" *>. gEdgeName *>. body *>. .star (kw "," *>. body))

/-- `port`, `port_signature`, `AmbientGraph.g4:44,48-49`. -/
def gPort : CRule Unit :=
  Rule.void (kw "port" *>. .token .id *>. kw ":" *>. .token .string *>. kw "(" *>. .token .string *>. kw ")" *>. kw "{" *>.
    .star gParameters *>. kw "}")

/-- One element of a body, in the words of `Items`; the values of parameters may be words (`none`). -/
inductive BodyItem
  | kinematic (name : Str) (body : Items)
  | ambient (name : Str) (body : Items)
  | device (name : Str)
  | link (l : LinkDecl)
  | joint (j : JointDecl)
  | params (ps : List (Str × Option Rat))
  | skipped

/-- The elements of a kinematic or ambient body as `Items`; there are no parameters there. -/
def bodyOf : List BodyItem → Items
  | [] => .nil
  | .kinematic n b :: l => .kinematic n b (bodyOf l)
  | .ambient n b :: l => .ambient n b (bodyOf l)
  | .device n :: l => .device n (bodyOf l)
  | .link x :: l => .link x (bodyOf l)
  | .joint x :: l => .joint x (bodyOf l)
  | .params _ :: l => bodyOf l
  | .skipped :: l => .skipped (bodyOf l)

/-- The values of parameters, if all are numbers. -/
def numbersOf : List (Str × Option Rat) → Option (List (Str × Rat))
  | [] => some []
  | (_, none) :: _ => none
  | (n, some q) :: l => (numbersOf l).map ((n, q) :: ·)

/-- The elements of an entity as `Items`; none if a parameter is a word, which `Items` leaves out. -/
def entityOf : List BodyItem → Option Items
  | [] => some .nil
  | .kinematic n b :: l => (entityOf l).map (.kinematic n b)
  | .ambient n b :: l => (entityOf l).map (.ambient n b)
  | .device n :: l => (entityOf l).map (.device n)
  | .link x :: l => (entityOf l).map (.link x)
  | .joint x :: l => (entityOf l).map (.joint x)
  | .params ps :: l =>
    match numbersOf ps with
    | none => none
    | some qs => (entityOf l).map (.params qs)
  | .skipped :: l => (entityOf l).map .skipped

/-- The body of a kinematic graph. -/
def inKinematic : CRule Items := .nt Body.kinematic

/-- The body of an ambient graph. -/
def inAmbient : CRule Items := .nt Body.ambient

/-- `kinematic`, `GeometryElements.g4:10-12`. -/
def gKinematic : CRule BodyItem :=
  .map (fun p => .kinematic p.1 p.2) (kw "kinematic" *>. .seq (.token .id) (kw "{" *>. inKinematic .<* kw "}"))

/-- `link|joint|kinematic|geometrictemplate|geometricoperation`, `GeometryElements.g4:12`. -/
def gKinematicElem : CRule BodyItem :=
  .map .link gLink ⊹ .map .joint gJoint ⊹ gKinematic ⊹ .map (fun _ => .skipped) gTemplate ⊹ .map (fun _ => .skipped) gMirror

/-- `(link|joint|kinematic|geometrictemplate|geometricoperation)*`, `GeometryElements.g4:12`. -/
def gKinematicBody : CRule Items := .map bodyOf (.star gKinematicElem)

/-- `ambient`, `AmbientGraph.g4:6-9`. -/
def gAmbient : CRule BodyItem :=
  .map (fun p => .ambient p.1 p.2) (kw "ambient" *>. .seq (.token .id) (kw "{" *>. inAmbient .<* kw "}"))

/-- `ambient_element`, `actuator`, `sensor`, `AmbientGraph.g4:11-20`. -/
def gAmbientElem : CRule BodyItem :=
  .map .device (kw "actuator" *>. .token .id .<* kw "{" .<* .star gParameters .<* kw "}") ⊹
  .map .device (kw "sensor" *>. .token .id .<* gSensorType .<* kw "{" .<* .star gParameters .<* kw "}") ⊹
  gAmbient ⊹ .map (fun _ => .skipped) gAmbience ⊹ gKinematic ⊹ .map (fun _ => .skipped) gPort

/-- `(ambient_element)*`, `AmbientGraph.g4:9`. -/
def gAmbientBody : CRule Items := .map bodyOf (.star gAmbientElem)

/-- `parametric`, `parameter`, `CogniLang.g4:14-15`. -/
def gParametric : CRule BodyItem :=
  .map .params (kw "parameters" *>. kw "{" *>. .star (.seq (.token .id) (kw "=" *>.
    (.map (fun _ => none) (.token .id) ⊹ .map (fun s => some (numberValue s)) (.token .float) ⊹
      .map (fun s => some (numberValue s)) (.token .int)))) .<* kw "}")

/-- `entity_subset_elem`, `entity_edges`, `entity_nodes`, `CogniLang.g4:7-10`, `template_instantiation`,
`HypergraphTemplates.g4:5-7`. -/
def gEntityElem : CRule BodyItem :=
  .map .joint gJoint ⊹ gAmbient ⊹ gKinematic ⊹ gParametric ⊹ .map (fun _ => .skipped) gParameters ⊹
  .map (fun _ => .skipped) gTemplate ⊹ .map (fun _ => .skipped) gMirror ⊹ .map (fun _ => .skipped) gNode ⊹
  .map (fun _ => .skipped) gEdge

/-- `rootnode: entity`, `entity`, `CogniLang.g4:5,12`.  No end of the file is asked for. -/
def gEntity : CRule (Option EntityDecl) :=
  .map (fun p => (entityOf p.2).map fun b => ⟨p.1, b⟩)
    (kw "entity" *>. .seq (.token .id) (kw "{" *>. .star gEntityElem .<* kw "}"))

/-- The grammar of the bodies. -/
def cogniLang : ∀ b : Body, CRule b.Meaning
  | .kinematic => gKinematicBody
  | .ambient => gAmbientBody
  | .node => gNodeBody

/-- The text of a file is an entity (followed by anything).  ANTLR's parser asks the lexer for tokens as it goes. -/
def ReadsAs (s : Str) (e : Option EntityDecl) : Prop := ∃ ts, ts <+: lex s ∧ Derives cogniLang gEntity e ts

end Rei
