import Verif.Props.Factory

/-!
# What kinds of objects connecting creates
-/
namespace Rei
open PyM Sample

/-- Whatever exists in `h'` and did not in `h` is a relation or a port. -/
def OnlyLinks (h h' : Heap) : Prop :=
  ∀ y, h.size ≤ y → y < h'.size → (h'.get y).kind = .relation ∨ (h'.get y).kind = .port

theorem OnlyLinks.trans {h h1 h2 : Heap} (a : OnlyLinks h h1) (b : OnlyLinks h1 h2) (K : Keeps h1 h2) : OnlyLinks h h2 := by
  intro y hy hy2
  by_cases q : y < h1.size
  · rw [K.kind y q]; exact a y hy q
  · exact b y (by omega) hy2

theorem unaryConnect_new {E : Env} {h h' : Heap} (R : Reach E h) {e n q : Ref} {w : Option Ref} {d : Dir} (he : e < h.size)
    (hn : n < h.size) (hw : okRef h w) (hk : (h.get e).kind = .edge) (hr : unaryConnect E e n w d none h = (.ok q, h')) :
    OnlyLinks h h' := by
  rcases unaryConnect_cases R (e := e) (n := n) (w := w) (d := d) ⟨he, hn, hw, by rintro x ⟨⟩⟩ hk with
    ⟨_, _, e1, -⟩ | ⟨_, e1, -⟩ | ⟨h0, h1, h2, hget, s0, I0, k0, -, -, -, p0, u0, -, -, C, ⟨e1⟩ | ⟨e1, ea⟩⟩
  · rw [hr] at e1; cases e1
  · rw [hr] at e1; cases e1
  · rw [hr] at e1; cases e1
  · rw [hr] at e1
    cases e1
    have s1 := C.size
    have hp1 : (h1.get h.size).parent = none := by rw [C.parent, if_neg (by omega), p0]
    have S : AddSafe h1 e h.size := by
      refine ⟨not_anc_of_childless C.inv ?_, fun p hp => by rw [hp1] at hp; cases hp⟩
      unfold Heap.subelements
      rw [C.subs h.size (by omega), if_neg (by omega), u0]; rfl
    have hke : (h1.get e).kind = .edge := by rw [C.kind e (by omega), hget e he, hk]
    obtain ⟨h3, m, hh⟩ := addElement_ok C.inv E (c := e) (x := h.size) (by omega) (by omega) S ea
    rcases hh with ⟨-, Q, -⟩ | ⟨k, -⟩
    · intro y hy hy'
      rw [Q.size, m.sim.size, moveH_size] at hy'
      rw [Q.kind, m.sim.kind, moveH_kind]
      by_cases q : y = h.size
      · rw [q, C.kind _ (by omega), k0]; exact .inl rfl
      · have : y = h0.size := by omega
        rw [this, C.kindP]; exact .inr rfl
    · rw [hke] at k; cases k

theorem connectAll_new {E : Env} {e : Ref} (ls : List Link) {h h' : Heap} (R : Reach E h) (he : e < h.size)
    (hk : (h.get e).kind = .edge) (ok : ∀ l ∈ ls, l.sem = none ∧ okRef h l.weight ∧ l.node < h.size)
    (hr : connectAll E e ls h = (.ok (), h')) : OnlyLinks h h' := by
  induction ls generalizing h with
  | nil =>
    cases hr
    intro y a b
    omega
  | cons l ls ih =>
    unfold connectAll at hr ih
    rw [forEach_cons] at hr
    cases hu : unaryConnect E e l.node l.weight l.dir l.sem h with
    | mk res h1 =>
    cases res with
    | error er => rw [bind_err (PyM.void_err hu)] at hr; cases hr
    | ok q =>
    rw [bind_ok (PyM.void_ok hu)] at hr
    obtain ⟨a, b, c⟩ := ok l (by simp)
    obtain ⟨R1, -⟩ := unaryConnect_rels R he hk (linkOk c b a) hu
    have K1 := (frames_unaryConnect (L := False) E e l.node l.weight l.dir l.sem h).keeps
    rw [hu] at K1
    have hsz : h.size ≤ h1.size := K1.size
    rw [a] at hu
    have ok1 : ∀ l ∈ ls, l.sem = none ∧ okRef h1 l.weight ∧ l.node < h1.size := by
      intro l' hl'
      obtain ⟨a, b, c⟩ := ok l' (by simp [hl'])
      exact ⟨a, fun x hx => by have := b x hx; omega, by omega⟩
    have hk1 : (h1.get e).kind = .edge := by rw [K1.kind e he, hk]
    have nosem : ls.filterMap Link.sem = [] := List.filterMap_eq_nil_iff.2 fun l hl => (ok1 l hl).1
    obtain ⟨-, qs, A⟩ := connectAll_rels ls R1 (by omega) hk1 (fun l hl => linkOk (ok1 l hl).2.2 (ok1 l hl).2.1 (ok1 l hl).1)
      (by rw [nosem]; exact List.nodup_nil) hr
    exact (unaryConnect_new R he c b hk hu).trans (ih R1 (by omega) hk1 ok1 hr) A.keeps

end Rei
