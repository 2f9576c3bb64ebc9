import Verif.Props.CogniNested
import Verif.Props.CogniSdfSample

/-!
# C94 at the robot cars of the repository
-/
namespace Rei
namespace Cogni

set_option maxRecDepth 100000

/-- The wheel of a robot car. -/
def wheelBody (tire : List FVal) : Items :=
  match carBody tire with
  | .kinematic _ b _ => b
  | _ => .nil

/-- Its links. -/
def wBase : LinkDecl := pendulumLink "wheel_base" none 1 "wheel_base_viz" "red" .cylinder [2/100, 5/100]
def wTire (tire : List FVal) : LinkDecl :=
  { name := "tire".toList, pose := some (at_ [0, 0, 2/100]), body := some { mass := 25/10, solids := [
      { visual := true, id := some "wheel_viz".toList, material := some "black".toList, geom := .solid .cylinder (.vec tire) },
      copied false "tire/wheel_viz"] } }
def cBase : LinkDecl := pendulumLink "base_link" (some (at_ [0, 0, 1/10])) 5 "base_link_viz" "white" .polyhedron [3/10, 2/10, 1/10]

theorem car_links (tire : List FVal) : (carBody tire).links = [cBase] := rfl
theorem car_graphs (tire : List FVal) : (carBody tire).graphs = [("wheel".toList, wheelBody tire)] := rfl
theorem wheel_links (tire : List FVal) : (wheelBody tire).links = [wBase, wTire tire] := rfl

theorem car_sound {tire : List FVal} {ps : Params} {P : List Str} (c1 : namesCheck ⟨P, carBody tire⟩ = true) :
    GraphDecl.Sound ps ⟨P, carBody tire⟩ where
  distinct := by
    show ((carBody tire).links.map LinkDecl.name ++ (carBody tire).graphs.map Prod.fst).Nodup
    rw [car_links, car_graphs]
    show ["base_link".toList, "wheel".toList].Nodup
    decide +kernel
  names := names_of_check c1
  links := by
    show ∀ l ∈ (carBody tire).links, l.Sound (carBody tire).links _ _
    rw [car_links]
    intro l hl
    have hm := hl
    rw [List.mem_singleton] at hl
    subst hl
    exact pendulumLink_sound (k := .polyhedron) rfl rfl (by simp) (by rintro p ⟨⟩; decide +kernel) (by decide) hm (by decide +kernel)
  joints := joints_of_check (by
    show ((carBody []).joints.all (jointCheck [cBase] ["wheel".toList])) = true
    decide +kernel)

theorem wheel_sound {tire : List FVal} {ps : Params} {P : List Str} {r h : Rat} (ht : VecMeans ps tire [r, h])
    (c1 : namesCheck ⟨P, wheelBody tire⟩ = true) : GraphDecl.Sound ps ⟨P, wheelBody tire⟩ where
  distinct := by
    show ((wheelBody tire).links.map LinkDecl.name ++ [].map Prod.fst).Nodup
    rw [wheel_links]
    simp only [List.map_cons, List.map_nil, wTire]
    decide +kernel
  names := names_of_check c1
  links := by
    show ∀ l ∈ (wheelBody tire).links, l.Sound (wheelBody tire).links _ _
    rw [wheel_links]
    intro l hl
    have hm := hl
    rw [List.mem_cons, List.mem_cons] at hl
    rcases hl with rfl | rfl | hl
    · exact pendulumLink_sound (k := .cylinder) rfl rfl (by simp) (by rintro p ⟨⟩) (by decide) hm (by decide +kernel)
    · exact shown_sound (k := .cylinder) (sh := .cylinder r h) (viz := "wheel_viz".toList) rfl
        (show "tire/wheel_viz".toList = "tire".toList ++ '/' :: "wheel_viz".toList by decide) ht rfl rfl (by simp)
        (by rintro p ⟨⟩; decide +kernel) (by decide) hm
    · cases hl
  joints := joints_of_check (by
    show ((wheelBody []).joints.all (jointCheck [wBase, wTire []] [])) = true
    decide +kernel)

theorem car_bases {tire : List FVal} : ∃ l ∈ (wheelBody tire).links, IsBase (wheelBody tire).joints l := by
  rw [wheel_links]
  refine ⟨wBase, .head _, ?_⟩
  show IsBase (wheelBody []).joints wBase
  unfold IsBase
  decide +kernel

/-- `examples/example_robotcar.cogni` meets the conditions of C94. -/
theorem car_assembly : IsAssembly car "basic_structure".toList (carBody [.num (85/1000), .num (3/100)]) [] where
  graph := .here rfl
  assembled := by decide +kernel
  world := by decide +kernel
  slash := by decide +kernel
  once := by decide +kernel
  sound := car_sound (by decide +kernel)
  nested := by
    rw [car_graphs]
    intro p hp
    rw [List.mem_singleton] at hp
    subst hp
    exact wheel_sound (.cons (.num _) (.cons (.num _) .nil)) (by decide +kernel)
  bases := by
    rw [car_graphs]
    intro p hp _
    rw [List.mem_singleton] at hp
    subst hp
    exact car_bases

/-- `examples/example_robotcar_w_parameters.cogni` meets the conditions of C94. -/
theorem parameterizedCar_assembly : IsAssembly parameterizedCar "basic_structure".toList
    (carBody [.param "WHEEL_RADIUS".toList, .param "WHEEL_WIDTH".toList])
    [("WHEEL_RADIUS".toList, 85/1000), ("WHEEL_WIDTH".toList, 3/100)] where
  graph := .params (.here rfl)
  assembled := by decide +kernel
  world := by decide +kernel
  slash := by decide +kernel
  once := by decide +kernel
  sound := car_sound (by decide +kernel)
  nested := by
    rw [car_graphs]
    intro p hp
    rw [List.mem_singleton] at hp
    subst hp
    exact wheel_sound (r := 85/1000) (h := 3/100) (.cons (.param _ _ (by decide +kernel)) (.cons (.param _ _ (by decide +kernel)) .nil)) (by decide +kernel)
  bases := by
    rw [car_graphs]
    intro p hp _
    rw [List.mem_singleton] at hp
    subst hp
    exact car_bases

end Cogni

/-- **C94.** A well-formed file under the conditions of `IsAssembly` is read and converted, from any reachable state. -/
theorem C94_wellformed {E : Env} (hsha : ∀ a b, E.sha a = E.sha b → a = b) (htime : ∀ i j, E.time i = E.time j → i = j)
    {h : Heap} (R : Reach E h) (nm : Str) {f : EntityDecl} (ok : f.wellFormed = true) {g : Str} {body : Items} {ps : Params}
    (B : IsAssembly f g body ps) :
    ∃ I h' x, readFile E nm .local f h = (.ok I, h') ∧ I.root = some x ∧
      ∀ (W : World) (d : Nat), W.Fair E → W.h = h' → ∃ ys bs xs u,
        List.Forall₂ (SaysLink [] false ps ⟨[f.name, g], body⟩) body.links ys ∧
        List.Forall₂ (fun p b => SaysPair ps [f.name, g] body.graphs p.1 p.2.1 p.2.2 b) (jointPairs body.joints) bs ∧
        xs.Perm (ys ++ bs.flatten) ∧
        W.convert (d + 2) x {} = (.ok (), { sdf := { models := [(f.name, xs)], cache := [] }, uses := u, shared := [] }) := by
  obtain ⟨I, h', _, _, e, _⟩ := C81_wellformed_accepted hsha htime R nm ok
  obtain ⟨x, a, b⟩ := C94_assembly_to_sdf (fun _ _ => hsha _ _) R e B
  exact ⟨I, h', x, e, a, b⟩

/-- C94 at `examples/example_robotcar.cogni`: one link, four wheels of four elements each. -/
example : ∃ I h' x, readFile E1 "cogni_lang_file".toList .local Cogni.car Heap.empty = (.ok I, h') ∧ I.root = some x ∧
    ∀ (W : World) (d : Nat), W.Fair E1 → W.h = h' → ∃ xs u, xs.length = 17 ∧
      W.convert (d + 2) x {} = (.ok (),
        { sdf := { models := [("simplebot".toList, xs)], cache := [] }, uses := u, shared := [] }) := by
  obtain ⟨I, h', x, a, b, c⟩ := C94_wellformed (E := E1) wideSha_injective
    (fun i j (e : 5 * i = 5 * j) => by omega) .init "cogni_lang_file".toList Cogni.examples_wellFormed.2.2.2.1 Cogni.car_assembly
  refine ⟨I, h', x, a, b, fun W d F e => ?_⟩
  obtain ⟨ys, bs, xs, u, f1, f2, p, r⟩ := c W d F e
  refine ⟨xs, u, ?_, r⟩
  have four : ∀ q ∈ jointPairs (Cogni.carBody [.num (85/1000), .num (3/100)]).joints, ∀ b,
      SaysPair [] [Cogni.car.name, "basic_structure".toList] (Cogni.carBody [.num (85/1000), .num (3/100)]).graphs q.1 q.2.1 q.2.2 b →
      b.length = 4 := by
    intro q hq b X
    have wheel : q.2.2.ref = "wheel".toList := by
      clear X
      revert q
      decide +kernel
    cases X with
    | joint n _ => exact absurd wheel.symm (n _ (.head _))
    | graph hb _ _ _ f1 f2 pm =>
      rw [Cogni.car_graphs, List.mem_singleton] at hb
      obtain ⟨-, rfl⟩ := Prod.mk.inj hb
      rw [List.length_cons, pm.length_eq, List.length_append, ← f1.length_eq, ← f2.length_eq]
      decide +kernel
  have len : bs.flatten.length = 4 * (jointPairs (Cogni.carBody [.num (85/1000), .num (3/100)]).joints).length := by
    generalize jointPairs (Cogni.carBody [.num (85/1000), .num (3/100)]).joints = l at f2 four
    clear p
    induction f2 with
    | nil => rfl
    | cons X _ ih =>
      rw [List.flatten_cons, List.length_append, ih fun q hq => four q (.tail _ hq), four _ (.head _) _ X, List.length_cons]
      omega
  rw [p.length_eq, List.length_append, len, ← f1.length_eq]
  decide +kernel

end Rei
