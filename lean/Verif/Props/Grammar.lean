import Verif.Model.Grammar
import Verif.Props.CogniSample

/-!
# The grammar of CogniLang: what a text means
-/
namespace Rei

/-- What the bodies can begin with and be followed by. -/
def cogniTables : Tables Body where
  first
    | .kinematic => (["root", "link", "joint", "kinematic", "mirror"].map fun s => Cls.word s.toList) ++ [.id]
    | .ambient => ["actuator", "sensor", "ambient", "ambience", "kinematic", "port"].map fun s => Cls.word s.toList
    | .node => ["node", "edge", "double", "int", "string", "vec"].map fun s => Cls.word s.toList
  null _ := true
  follow _ := [.word "}".toList]

theorem cogniTables_fits : cogniTables.Fits cogniLang := by
  intro n
  cases n <;> exact ⟨by decide +kernel, by decide +kernel, by decide +kernel⟩

theorem gEntity_ll1 : gEntity.ll1 cogniTables none = true := by decide +kernel

/-- C89: at the start of the same tokens there is at most one entity, with one meaning, whatever follows it. -/
theorem C89_extent {e e' : Option EntityDecl} {ts us rest rest' : List Token} (d : Derives cogniLang gEntity e ts)
    (d' : Derives cogniLang gEntity e' us) (same : ts ++ rest = us ++ rest') : e = e' ∧ ts = us ∧ rest = rest' :=
  cogniTables_fits.unique gEntity gEntity_ll1 d d' same (fun _ _ _ _ h => nomatch h) (fun _ _ _ _ h => nomatch h)

/-- C89: a text means at most one entity. -/
theorem C89_unambiguous {s : Str} {e e' : Option EntityDecl} (d : ReadsAs s e) (d' : ReadsAs s e') : e = e' := by
  obtain ⟨ts, ⟨r, h⟩, d⟩ := d
  obtain ⟨us, ⟨r', h'⟩, d'⟩ := d'
  exact (C89_extent d d' (h.trans h'.symm)).1

/-- The parser reads the text as the entity. -/
theorem ReadsAs.of_parse (k : Nat) {s : Str} {e : Option EntityDecl}
    (h : (gEntity.parse cogniTables (parses cogniLang cogniTables k) (lex s)).map Prod.fst = some e) : ReadsAs s e := by
  obtain ⟨⟨a, rest⟩, q, rfl⟩ := Option.map_eq_some_iff.1 h
  obtain ⟨us, e, d⟩ := Derives.of_parse _ _ _ _ q
  exact ⟨us, ⟨rest, e.symm⟩, d⟩

end Rei
