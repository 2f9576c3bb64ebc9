import Verif.Props.SdfTree
import Verif.Props.RobotKin

/-!
# C86 at a cell with a robot mounted on a table
-/
namespace Rei.Robot
open Rei Rei.Script Rei.Sample

set_option maxRecDepth 100000
attribute [local irreducible] Script.after

theorem size_cell : cell.size = 25 := by decide +kernel
theorem fair_cell : (world cell).Fair E0 := fair reach_cell (by rw [size_cell]; decide)

theorem cell_kinds {x : Ref} (hx : (cell.get x).kind = .semantic .kinLink ∨ (cell.get x).kind = .semantic .kinJoint) :
    x = 4 ∨ x = 8 ∨ x = 10 ∨ x = 12 ∨ x = 13 ∨ x = 19 ∨ x = 20 := by
  have hl : x < cell.size := hx.elim (semantic_lt reach_cell) (semantic_lt reach_cell)
  rw [size_cell] at hl
  have : ∀ x < 25, ((cell.get x).kind = .semantic .kinLink ∨ (cell.get x).kind = .semantic .kinJoint) →
      x = 4 ∨ x = 8 ∨ x = 10 ∨ x = 12 ∨ x = 13 ∨ x = 19 ∨ x = 20 := by decide +kernel
  exact this x hl hx

theorem cell_parents : (cell.get 4).parent = some 3 ∧ (cell.get 8).parent = some 7 ∧ (cell.get 10).parent = some 9 ∧
    (cell.get 12).parent = some 14 ∧ (cell.get 13).parent = some 16 ∧ (cell.get 19).parent = some 21 ∧
    (cell.get 20).parent = some 23 ∧ (cell.get 3).parent = some 1 ∧ (cell.get 1).parent = some 0 ∧
    (cell.get 0).parent = none ∧ (cell.get 21).parent = some 18 ∧ (cell.get 23).parent = some 18 ∧
    (cell.get 18).parent = some 1 ∧ (cell.get 14).parent = some 11 ∧ (cell.get 16).parent = some 11 ∧
    (cell.get 7).parent = some 5 ∧ (cell.get 9).parent = some 5 ∧ (cell.get 5).parent = some 1 := by decide +kernel

theorem cell_ends : (cell.get 14).endpoint = some 7 ∧ (cell.get 16).endpoint = some 9 ∧ (cell.get 21).endpoint = some 3 ∧
    (cell.get 23).endpoint = some 5 := by decide +kernel

theorem inside_up {g x : Ref} (q : Inside cell g x) : x = g ∨ ∃ p, (cell.get x).parent = some p ∧ Inside cell g p := by
  obtain ⟨n, q⟩ := q
  cases q with
  | start => exact .inl rfl
  | step a hy _ => exact .inr ⟨_, ((C01_containment_agrees reach_cell _).1 _).1 hy, _, a⟩

theorem graphs_cell : HasKinGraph cell 1 ∧ HasKinGraph cell 5 ∧ ¬ HasKinGraph cell 3 ∧ ¬ HasKinGraph cell 7 ∧ ¬ HasKinGraph cell 9 :=
  ⟨⟨2, by decide +kernel, by decide +kernel⟩, ⟨6, by decide +kernel, by decide +kernel⟩, not_graph_of (by decide +kernel),
    not_graph_of (by decide +kernel), not_graph_of (by decide +kernel)⟩

/-- The joints of the cell are joints on relations of edges. -/
theorem cell_port {p r e j : Ref} (ok : (cell.get p).endpoint = some r ∧ (cell.get r).kind = .relation ∧
    (cell.subelements r).find? (fun x => decide ((cell.get x).kind = .semantic .kinJoint)) = some j ∧ (cell.get r).parent = some e ∧ (cell.get e).kind = .edge ∧
    (cell.incoming e).all (fun i => ((cell.get i).endpoint).isSome) = true) : JointPort cell p r e j := by
  obtain ⟨a, b, c, d, f, g⟩ := ok
  refine ⟨a, b, ?_, d, f, fun i hi => ?_⟩
  · exact c
  · have := List.all_eq_true.1 g i hi
    intro hn
    rw [hn] at this
    cases this

theorem nearest_of {n g : Ref} (hp : (cell.get n).parent = some g) (hn : ¬ HasKinGraph cell n) (hg : HasKinGraph cell g) :
    IsNearestGraph cell n g := by
  refine ⟨.inr (.direct hp), hg, fun y hy hk => ?_⟩
  rcases within_of hy with rfl | ⟨p, h1, hy⟩
  · exact absurd hk hn
  · rw [hp] at h1; cases h1; exact hy

/-- A link without parts. -/
theorem bare_link {l n p r e j g q : Ref} (hl : (cell.get l).parent = some n)
    (ok : (cell.get n).kind.isHElement = true ∧ cell.subPorts n = [p] ∧ transformsOf cell l = [] ∧ cell.subNodes n = [] ∧
      visualsOf cell n = [] ∧ collisionsOf cell n = [] ∧ cell.subSemantic .inertia n = [])
    (P : JointPort cell p r e j) (N : IsNearestGraph cell n g) (hq : (cell.get g).parent = some q) : ReadableLink cell l n where
  parent := hl
  mechanical := ⟨ok.1, by
    rw [ok.2.1]
    intro p hp; cases List.mem_singleton.1 hp; exact ⟨_, _, _, P⟩, g, q, N, hq⟩
  transforms := by rw [ok.2.2.1]; intro x hx; cases hx
  one := by rw [ok.2.2.2.1]; simp
  visuals := by rw [ok.2.2.2.2.1]; intro x hx; cases hx
  collisions := by rw [ok.2.2.2.2.2.1]; intro x hx; cases hx
  mass := .inl ok.2.2.2.2.2.2

theorem cell_readable {j o : Ref} (ok : (cell.subelements o).find? (fun x => decide ((cell.get x).kind = .semantic .kinJoint)) = some j ∧ getAttribute cell j "axis".toList = none ∧ transformsOf cell j = []) :
    ReadableJoint cell o := by
  refine ⟨j, 0, 0, 1, ok.1, .inl ⟨ok.2.1, rfl, rfl, rfl⟩, ?_⟩
  rw [ok.2.2]
  intro x hx; cases hx

theorem cell_holds {ls : List Ref} {r : Ref} (q : HoldsSelected cell ls r) (hk : (cell.get r).kind = .relation) :
    (12 ∈ ls ∧ r = 14) ∨ (13 ∈ ls ∧ r = 16) ∨ (19 ∈ ls ∧ r = 21) ∨ (20 ∈ ls ∧ r = 23) := by
  obtain ⟨x, hx, kx, hp⟩ := q
  obtain ⟨p1, p2, p3, p4, p5, p6, p7, -⟩ := cell_parents
  rcases cell_kinds kx with rfl | rfl | rfl | rfl | rfl | rfl | rfl
  · rw [p1] at hp; cases hp; exact absurd hk (by decide +kernel)
  · rw [p2] at hp; cases hp; exact absurd hk (by decide +kernel)
  · rw [p3] at hp; cases hp; exact absurd hk (by decide +kernel)
  · rw [p4] at hp; cases hp; exact .inl ⟨hx, rfl⟩
  · rw [p5] at hp; cases hp; exact .inr (.inl ⟨hx, rfl⟩)
  · rw [p6] at hp; cases hp; exact .inr (.inr (.inl ⟨hx, rfl⟩))
  · rw [p7] at hp; cases hp; exact .inr (.inr (.inr ⟨hx, rfl⟩))

/-- Everything inside the robot. -/
theorem inside_robot : AllInside cell 5 [8, 10, 12, 13] := by
  obtain ⟨p4, p8, p10, p12, p13, p19, p20, p3, p1, p0, p21, p23, p18, -⟩ := cell_parents
  refine ⟨by decide, fun x => ⟨fun hx => ?_, fun hx => ?_⟩⟩
  · have i0 : Inside cell 5 5 := ⟨0, .start⟩
    have i7 := inside_step i0 (y := 7) (by decide +kernel) (by decide +kernel)
    have i9 := inside_step i0 (y := 9) (by decide +kernel) (by decide +kernel)
    have i11 := inside_step i0 (y := 11) (by decide +kernel) (by decide +kernel)
    have i14 := inside_step i11 (y := 14) (by decide +kernel) (by decide +kernel)
    have i16 := inside_step i11 (y := 16) (by decide +kernel) (by decide +kernel)
    simp only [List.mem_cons, List.not_mem_nil, or_false] at hx
    rcases hx with rfl | rfl | rfl | rfl
    · exact ⟨inside_step i7 (by decide +kernel) (by decide +kernel), by decide +kernel⟩
    · exact ⟨inside_step i9 (by decide +kernel) (by decide +kernel), by decide +kernel⟩
    · exact ⟨inside_step i14 (by decide +kernel) (by decide +kernel), by decide +kernel⟩
    · exact ⟨inside_step i16 (by decide +kernel) (by decide +kernel), by decide +kernel⟩
  · obtain ⟨hi, hk⟩ := hx
    have o0 : ¬ Inside cell 5 0 := fun q => by
      rcases inside_up q with e | ⟨p, e, q⟩
      · cases e
      · rw [p0] at e; cases e
    have o1 : ¬ Inside cell 5 1 := fun q => by
      rcases inside_up q with e | ⟨p, e, q⟩
      · cases e
      · rw [p1] at e; cases e; exact o0 q
    have o3 : ¬ Inside cell 5 3 := fun q => by
      rcases inside_up q with e | ⟨p, e, q⟩
      · cases e
      · rw [p3] at e; cases e; exact o1 q
    have o18 : ¬ Inside cell 5 18 := fun q => by
      rcases inside_up q with e | ⟨p, e, q⟩
      · cases e
      · rw [p18] at e; cases e; exact o1 q
    have o21 : ¬ Inside cell 5 21 := fun q => by
      rcases inside_up q with e | ⟨p, e, q⟩
      · cases e
      · rw [p21] at e; cases e; exact o18 q
    have o23 : ¬ Inside cell 5 23 := fun q => by
      rcases inside_up q with e | ⟨p, e, q⟩
      · cases e
      · rw [p23] at e; cases e; exact o18 q
    rcases cell_kinds hk with rfl | rfl | rfl | rfl | rfl | rfl | rfl
    · rcases inside_up hi with e | ⟨p, e, q⟩
      · cases e
      · rw [p4] at e; cases e; exact absurd q o3
    · simp
    · simp
    · simp
    · simp
    · rcases inside_up hi with e | ⟨p, e, q⟩
      · cases e
      · rw [p19] at e; cases e; exact absurd q o21
    · rcases inside_up hi with e | ⟨p, e, q⟩
      · cases e
      · rw [p20] at e; cases e; exact absurd q o23

/-- The joints of a selection of the cell that has only the joint of the robot, or only the one that mounts it. -/
theorem cell_pair {ls : List Ref} {i o : Ref} (P : JointPair cell ls i o) : (i = 14 ∧ o = 16) ∨ (i = 21 ∧ o = 23) := by
  have d14 : (cell.get 14).direction = .inwards ∧ (cell.get 21).direction = .inwards ∧ (cell.get 16).direction = .outwards ∧
    (cell.get 23).direction = .outwards := by decide +kernel
  obtain ⟨-, -, -, -, -, -, -, -, -, -, p21, p23, -, p14, p16, -⟩ := cell_parents
  have ho := P.dirOut
  have hi := P.dirIn
  have hs := P.same
  rcases cell_holds P.selIn P.kindIn with ⟨-, rfl⟩ | ⟨-, rfl⟩ | ⟨-, rfl⟩ | ⟨-, rfl⟩
  · rcases cell_holds P.selOut P.kindOut with ⟨-, rfl⟩ | ⟨-, rfl⟩ | ⟨-, rfl⟩ | ⟨-, rfl⟩
    · rw [d14.1] at ho; cases ho
    · exact .inl ⟨rfl, rfl⟩
    · rw [d14.2.1] at ho; cases ho
    · rw [p14, p23] at hs; cases hs
  · exact absurd hi (by rw [d14.2.2.1]; decide)
  · rcases cell_holds P.selOut P.kindOut with ⟨-, rfl⟩ | ⟨-, rfl⟩ | ⟨-, rfl⟩ | ⟨-, rfl⟩
    · rw [d14.1] at ho; cases ho
    · rw [p21, p16] at hs; cases hs
    · rw [d14.2.1] at ho; cases ho
    · exact .inr ⟨rfl, rfl⟩
  · exact absurd hi (by rw [d14.2.2.2]; decide)

theorem cell_sound {ls : List Ref} (h1 : 12 ∈ ls → 13 ∈ ls) (h2 : 19 ∈ ls → 20 ∈ ls) : SoundSelection cell ls := by
  obtain ⟨-, -, -, -, p13, -, p20, -, -, -, p21, p23, -, p14, p16, -⟩ := cell_parents
  refine ⟨fun r q k => ?_, fun r q x y hr hq kr kq hx hy hu => ?_, fun i q k d => ?_⟩
  · rcases cell_holds q k with ⟨-, rfl⟩ | ⟨-, rfl⟩ | ⟨-, rfl⟩ | ⟨-, rfl⟩ <;> decide +kernel
  · have nu : (cell.get 11).uuid ≠ (cell.get 18).uuid := by decide +kernel
    have key : ∀ r z, HoldsSelected cell ls r → (cell.get r).kind = .relation → (cell.get r).parent = some z → z = 11 ∨ z = 18 := by
      intro r z a b c
      rcases cell_holds a b with ⟨-, rfl⟩ | ⟨-, rfl⟩ | ⟨-, rfl⟩ | ⟨-, rfl⟩
      · rw [p14] at c; cases c; exact .inl rfl
      · rw [p16] at c; cases c; exact .inl rfl
      · rw [p21] at c; cases c; exact .inr rfl
      · rw [p23] at c; cases c; exact .inr rfl
    rcases key r x hr kr hx with rfl | rfl <;> rcases key q y hq kq hy with rfl | rfl
    · rfl
    · exact absurd hu nu
    · exact absurd hu.symm nu
    · rfl
  · rcases cell_holds q k with ⟨m, rfl⟩ | ⟨m, rfl⟩ | ⟨m, rfl⟩ | ⟨m, rfl⟩
    · exact ⟨16, ⟨13, h1 m, .inr (by decide +kernel), p13⟩, by decide +kernel, by decide +kernel, by rw [p16, p14]⟩
    · exact ⟨16, ⟨13, m, .inr (by decide +kernel), p13⟩, by decide +kernel, by decide +kernel, rfl⟩
    · exact ⟨23, ⟨20, h2 m, .inr (by decide +kernel), p20⟩, by decide +kernel, by decide +kernel, by rw [p21, p23]⟩
    · exact ⟨23, ⟨20, m, .inr (by decide +kernel), p20⟩, by decide +kernel, by decide +kernel, rfl⟩

theorem cell_links {l : Ref} (hk : (cell.get l).kind = .semantic .kinLink) : ∃ n, ReadableLink cell l n := by
  obtain ⟨g1, g5, g3, g7, g9⟩ := graphs_cell
  obtain ⟨p4, p8, p10, -, -, -, -, p3, p1, -, -, -, -, -, -, p7, p9, p5⟩ := cell_parents
  rcases cell_kinds (.inl hk) with rfl | rfl | rfl | rfl | rfl | rfl | rfl
  · exact ⟨3, bare_link p4 (p := 22) (r := 21) (e := 18) (j := 19) (by decide +kernel) (cell_port (by decide +kernel)) (nearest_of p3 g3 g1) p1⟩
  · exact ⟨7, bare_link p8 (p := 15) (r := 14) (e := 11) (j := 12) (by decide +kernel) (cell_port (by decide +kernel)) (nearest_of p7 g7 g5) p5⟩
  · exact ⟨9, bare_link p10 (p := 17) (r := 16) (e := 11) (j := 13) (by decide +kernel) (cell_port (by decide +kernel)) (nearest_of p9 g9 g5) p5⟩
  all_goals exact absurd hk (by decide +kernel)

theorem cell_leads {ls : List Ref} {v : Ref} (q : LeadsTo cell ls v) : v = 5 ∧ JointPair cell ls 21 23 := by
  obtain ⟨i, o, P, hv, hg⟩ := q
  obtain ⟨-, e16, -, e23⟩ := cell_ends
  rcases cell_pair P with ⟨rfl, rfl⟩ | ⟨rfl, rfl⟩
  · rw [e16] at hv; cases hv; exact absurd hg graphs_cell.2.2.2.2
  · rw [e23] at hv; cases hv; exact ⟨rfl, P⟩

theorem cell_ready {ls : List Ref} (h1 : 12 ∈ ls → 13 ∈ ls) (h2 : 19 ∈ ls → 20 ∈ ls) : ExportReady cell ls where
  links l _ k := cell_links k
  sound := cell_sound h1 h2
  joints i o P := by
    rcases cell_pair P with ⟨rfl, rfl⟩ | ⟨rfl, rfl⟩
    · exact cell_readable (j := 13) (by decide +kernel)
    · exact cell_readable (j := 20) (by decide +kernel)
  placed v _ j _ hj := by
    obtain ⟨-, -, -, p12, p13, p19, p20, -, -, -, p21, p23, -, p14, p16, -⟩ := cell_parents
    have o11 : ∀ x ∈ cell.outgoing 11, (cell.get x).endpoint ≠ none := by decide +kernel
    have o18 : ∀ x ∈ cell.outgoing 18, (cell.get x).endpoint ≠ none := by decide +kernel
    rcases cell_kinds (.inr hj) with rfl | rfl | rfl | rfl | rfl | rfl | rfl
    · exact absurd hj (by decide +kernel)
    · exact absurd hj (by decide +kernel)
    · exact absurd hj (by decide +kernel)
    · exact ⟨14, 11, p12, p14, by decide +kernel, o11⟩
    · exact ⟨16, 11, p13, p16, by decide +kernel, o11⟩
    · exact ⟨21, 18, p19, p21, by decide +kernel, o18⟩
    · exact ⟨23, 18, p20, p23, by decide +kernel, o18⟩
  bases v q := by
    obtain ⟨rfl, -⟩ := cell_leads q
    refine ⟨8, ((inside_robot.2 8).1 (by decide)).1, by decide +kernel, ?_⟩
    rintro j hi hj ⟨r, e, x, u, h1, h2, h3, h4, h5⟩
    obtain ⟨-, p8, -, p12, p13, -, -, -, -, -, -, -, -, p14, p16, -⟩ := cell_parents
    have hm := (inside_robot.2 j).2 ⟨hi, .inr hj⟩
    rw [p8] at h5
    cases h5
    have he : e = 11 := by
      simp only [List.mem_cons, List.not_mem_nil, or_false] at hm
      rcases hm with rfl | rfl | rfl | rfl
      · exact absurd hj (by decide +kernel)
      · exact absurd hj (by decide +kernel)
      · rw [p12] at h1; cases h1; rw [p14] at h2; cases h2; rfl
      · rw [p13] at h1; cases h1; rw [p16] at h2; cases h2; rfl
    subst he
    rw [show cell.outgoing 11 = [16] by decide +kernel] at h3
    cases List.mem_singleton.1 h3
    rw [cell_ends.2.1] at h4
    cases h4
  ends v q := by
    obtain ⟨rfl, -⟩ := cell_leads q
    decide +kernel

theorem robot_end {v' : Ref} : ¬ NestsIn cell 5 v' := by
  rintro ⟨els, A, q⟩
  obtain ⟨-, P⟩ := cell_leads q
  obtain ⟨-, -, -, -, -, p19, p20, -⟩ := cell_parents
  rcases cell_holds P.selIn P.kindIn with ⟨-, e⟩ | ⟨-, e⟩ | ⟨m, -⟩ | ⟨-, e⟩
  · cases e
  · cases e
  · have := (inside_robot.2 19).2 ((A.2 19).1 m)
    revert this; decide
  · cases e

theorem cell_instantiated {ls : List Ref} {v : Ref} (q : Instantiated cell ls v) : v = 5 := by
  induction q with
  | first l => exact (cell_leads l).1
  | deeper _ n ih => subst ih; exact absurd n robot_end

/-- C86 at the cell: exporting the table and the joint that mounts the robot ends, with the complete document; and the
joint leads to the robot. -/
example (d : Nat) (hd : 2 ≤ d) : (∃ xs u, (world cell).encode d [4, 19, 20] [] {} = (.ok (),
      { ({} : Run) with sdf := ({} : Sdf).runEvents (xs.map .element), uses := u }) ∧ Exported cell [4, 19, 20] [] xs) ∧
    LeadsTo cell [4, 19, 20] 5 := by
  obtain ⟨p4, -, -, -, -, p19, p20, -, -, -, p21, p23, -⟩ := cell_parents
  refine ⟨?_, 21, 23, ⟨⟨19, by simp, .inr (by decide +kernel), p19⟩, ⟨20, by simp, .inr (by decide +kernel), p20⟩,
    by decide +kernel, by decide +kernel, by rw [p21, p23], by decide +kernel, by decide +kernel,
    ⟨3, 5, cell_ends.2.2.1, cell_ends.2.2.2, by decide +kernel⟩⟩, cell_ends.2.2.2, graphs_cell.2.1⟩
  obtain ⟨d, rfl⟩ := Nat.exists_eq_add_of_le' hd
  obtain ⟨xs, u, e, ex⟩ := C86_depth fair_cell (els := [4, 19, 20]) (d := d + 2)
    ⟨cell_ready (by simp) (by simp), fun v q => by
      obtain ⟨rfl, -⟩ := cell_leads q
      exact ⟨_, inside_robot, cell_ready (by simp) (by simp), fun v q => absurd ⟨_, inside_robot, q⟩ robot_end⟩⟩ [] {} rfl
  rw [show ofKind (world cell).h .cognitiveEntity [4, 19, 20] = [] by decide +kernel] at e
  exact ⟨xs, u, e, ex⟩

/-- The conditions of the version without a bound on the depth hold as well. -/
example : (∀ v, Instantiated cell [4, 19, 20] v → ∃ ls, AllInside cell v ls ∧ ExportReady cell ls) ∧
    ∀ v, Instantiated cell [4, 19, 20] v → ¬ Relation.TransGen (NestsIn cell) v v :=
  ⟨fun v q => by
      cases cell_instantiated q
      exact ⟨_, inside_robot, cell_ready (by simp) (by simp)⟩,
    fun v q t => by
      cases cell_instantiated q
      obtain ⟨w, n, -⟩ := Relation.TransGen.head'_iff.1 t
      exact robot_end n⟩

end Rei.Robot
