import Verif.Lemmas.MoveFields

/-!
# Removal by name
-/
namespace Rei
open PyM

/-- Put the name index of `c` for `nm` back in line with the sub-elements. -/
def fixH (h : Heap) (c : Ref) (nm : Str) : Heap :=
  h.mod c fun o => { o with index := (o.index.set nm
    (o.subs.filter fun q => decide ((h.get q.2).idName = nm))) }

/-- `vs` leave `c` one after the other. -/
def detachAllH (h : Heap) (c : Ref) : List Ref → Heap
  | [] => h
  | v :: vs => detachAllH (detachH h c v) c vs

/-- The sub-elements of `c` named `nm`, in order. -/
def named (h : Heap) (c : Ref) (nm : Str) : List Ref :=
  Dict.values ((h.get c).subs.filter fun q => decide ((h.get q.2).idName = nm))

theorem named_eq (h : Heap) (c : Ref) (nm : Str) :
    named h c nm = (h.subelements c).filter fun x => decide ((h.get x).idName = nm) := by
  unfold named Heap.subelements Dict.values
  rw [List.filter_map]; rfl

theorem Sim.fixH {D : Ref → Prop} {a b : Heap} (p : Sim D a b) (c : Ref) (nm : Str) :
    Sim D (fixH a c nm) (fixH b c nm) := by
  unfold Rei.fixH
  have : (fun q : Bytes × Ref => decide ((b.get q.2).idName = nm)) =
      fun q => decide ((a.get q.2).idName = nm) := by
    funext q; rw [p.idName]
  rw [this]
  exact p.mod c (fun _ _ _ => rfl)

theorem Sim.detachH {D : Ref → Prop} {a b : Heap} (p : Sim D a b) {c x : Ref} (hcx : c ≠ x) :
    Sim D (detachH a c x) (detachH b c x) := by
  have e : ∀ (h : Heap), Rei.detachH h c x =
      (h.mod c fun o => { o with
          subs := (o.subs.erase (h.get x).uuid)
          index := (o.index.set (h.get x).idName
            (((o.index.get? (h.get x).idName).getD []).erase (h.get x).uuid))
          cnt := o.cnt - 1 }).mod x fun o => { o with parent := none } := by
    intro h
    unfold Rei.detachH detachObj Heap.mod Heap.set
    simp only [if_neg (Ne.symm hcx)]
  rw [e, e, p.uuid, p.idName]
  exact (p.mod c (fun _ _ _ => rfl)).mod x (fun _ _ _ => rfl)

theorem Sim.detachAllH {D : Ref → Prop} {c : Ref} {vs : List Ref} (hc : ∀ v ∈ vs, c ≠ v)
    {a b : Heap} (p : Sim D a b) : Sim D (detachAllH a c vs) (detachAllH b c vs) := by
  induction vs generalizing a b with
  | nil => exact p
  | cons v vs ih =>
    exact ih (fun w hw => hc w (List.mem_cons_of_mem _ hw))
      (p.detachH (hc v (List.mem_cons_self ..)))

theorem fixH_get (h : Heap) (c : Ref) (nm : Str) (y : Ref) : (fixH h c nm).get y =
    if y = c then { h.get c with index := ((h.get c).index.set nm
      ((h.get c).subs.filter fun q => decide ((h.get q.2).idName = nm))) } else h.get y := rfl

theorem fixH_proj {α : Type} (π : Obj → α) (h1 : ∀ o i, π { o with index := i } = π o) (h : Heap)
    (c : Ref) (nm : Str) (y : Ref) : π ((fixH h c nm).get y) = π (h.get y) := by
  rw [fixH_get]; split
  · next e => subst e; exact h1 _ _
  · rfl

theorem values_erase_head {d : Dict Bytes Ref} {u : Bytes} {v : Ref}
    (hn : (Dict.keys ((u, v) :: d)).Nodup) : Dict.erase ((u, v) :: d) u = d := by
  rw [Dict.keys_cons, List.nodup_cons] at hn
  have h1 : Dict.erase ((u, v) :: d) u = Dict.erase d u := by simp [Dict.erase]
  rw [h1, Dict.erase_of_not_mem hn.1]

/-- What the consumer of a generator sees when it takes `lim` of the results `vs`. -/
def takeLim (lim : Option Nat) (vs : List Ref) : List Ref :=
  match lim with
  | none => vs
  | some k => vs.take k

theorem take_lim_cons {v : Ref} {vs : List Ref} {lim : Option Nat} (hlim : lim ≠ some 0) :
    takeLim lim (v :: vs) = v :: takeLim (lim.map (· - 1)) vs := by
  cases lim with
  | none => rfl
  | some k =>
    cases k with
    | zero => exact absurd rfl hlim
    | succ k => simp [takeLim]

theorem removeNamed_run {E : Env} (vs : List Ref) (lim : Option Nat) (h : Heap) (c : Ref) (nm : Str)
    (I : Inv (fixH h c nm)) (hidx : (h.get c).index.get? nm = some [])
    (hvs : named h c nm = vs) :
    ∃ h', removeNamed E c vs lim h = (.ok (takeLim lim vs), h') ∧
      Sim (· ∈ takeLim lim vs) (detachAllH (fixH h c nm) c (takeLim lim vs)) (fixH h' c nm) ∧
      Inv (fixH h' c nm) ∧
      (h'.get c).index.get? nm = some [] ∧ named h' c nm = vs.drop (takeLim lim vs).length ∧
      (∀ v ∈ takeLim lim vs, (h'.get v).qualName = (h.get v).idName) ∧ h.reads ≤ h'.reads ∧
      ∀ y, (h'.get y).idName = (h.get y).idName := by
  induction vs generalizing lim h with
  | nil =>
    have ht : takeLim lim [] = [] := by unfold takeLim; split <;> simp
    rw [ht]
    refine ⟨h, ?_, .refl _ _, I, hidx, by simpa using hvs, by simp, Nat.le_refl _, fun _ => rfl⟩
    simp only [removeNamed, pure_run]
  | cons v vs ih =>
    by_cases hlim : lim = some 0
    · subst hlim
      have ht : takeLim (some 0) (v :: vs) = [] := rfl
      rw [ht]
      refine ⟨h, ?_, .refl _ _, I, hidx, by simpa using hvs, by simp, Nat.le_refl _, fun _ => rfl⟩
      simp only [removeNamed, if_true, pure_run]
    · have ht : takeLim lim (v :: vs) = v :: takeLim (lim.map (· - 1)) vs := take_lim_cons hlim
      -- `v` is a sub-element of `c` named `nm`
      have hpf : ∀ y, ((fixH h c nm).get y).parent = (h.get y).parent :=
        fixH_proj (·.parent) (fun _ _ => rfl) h c nm
      have huf : ∀ y, ((fixH h c nm).get y).uuid = (h.get y).uuid :=
        fixH_proj (·.uuid) (fun _ _ => rfl) h c nm
      have hnf : ∀ y, ((fixH h c nm).get y).idName = (h.get y).idName :=
        fixH_proj (·.idName) (fun _ _ => rfl) h c nm
      have hsf : ∀ y, ((fixH h c nm).get y).subs = (h.get y).subs :=
        fixH_proj (·.subs) (fun _ _ => rfl) h c nm
      have hkf : ∀ y, ((fixH h c nm).get y).kind = (h.get y).kind :=
        fixH_proj (·.kind) (fun _ _ => rfl) h c nm
      have hcf : ∀ y, ((fixH h c nm).get y).clock = (h.get y).clock :=
        fixH_proj (·.clock) (fun _ _ => rfl) h c nm
      have hv : v ∈ named h c nm := by rw [hvs]; exact List.mem_cons_self ..
      rw [named_eq, List.mem_filter] at hv
      have hvn : (h.get v).idName = nm := by simpa using hv.2
      have hvp : (h.get v).parent = some c := by
        have := (I.mem_subelements c v).1 (by rw [hsf]; exact hv.1)
        rwa [hpf] at this
      have hvp' : ((fixH h c nm).get v).parent = some c := by rw [hpf]; exact hvp
      have hcv : c ≠ v := SInv.parent_ne I hvp'
      have hget : (h.get c).subs.get? (h.get v).uuid = some v := by
        have := (SInv.get?_subs I c ((fixH h c nm).get v).uuid v).2 ⟨hvp', rfl⟩
        change ((fixH h c nm).get c).subs.get? ((fixH h c nm).get v).uuid = some v at this
        rwa [hsf, huf] at this
      have hvlt := I.lt_of_parent hvp'
      have hsz : (fixH h c nm).size = h.size := rfl
      generalize hh1 : (h.mod c fun o => { o with subs := (o.subs.erase (h.get v).uuid) }) = h1
      have hv1 : h1.get v = h.get v := by rw [← hh1]; simp [Ne.symm hcv]
      obtain ⟨h2, hrel, hsim, hq, hrd⟩ := release_run (E := E) (h := h1) (p := c) (x := v) hcv
        (by rw [← hh1]; exact Nat.lt_of_le_of_lt (Nat.zero_le _) hvlt)
        (by rw [hv1, ← hkf, ← hcf]; exact I.clocked hvlt)
      rw [hv1] at hq
      -- the state after one round, put in line, is the detached heap
      have hround : Sim (· = v) (detachH (fixH h c nm) c v) (fixH h2 c nm) := by
        refine (hsim.fixH c nm).get_mod_ext (by rw [← hh1]; rfl) (by rw [← hh1]; rfl)
          (by rw [← hh1]; rfl) ?_
        intro y
        have hidn : ∀ z, (((h1.mod v fun o => { o with parent := none }).mod c
            fun o => { o with cnt := o.cnt - 1 }).get z).idName = (h.get z).idName := by
          intro z
          rw [← hh1]
          by_cases e1 : z = c
          · subst e1; simp [hcv]
          · by_cases e2 : z = v
            · subst e2; simp [e1]
            · simp [e1, e2]
        rw [fixH_get]
        simp only [hidn]
        unfold detachH detachObj
        simp only [Heap.get_set, fixH_get]
        by_cases e2 : y = v
        · subst e2
          rw [← hh1]
          simp [Ne.symm hcv]
        · by_cases e1 : y = c
          · subst e1
            rw [← hh1]
            simp [e2, Ne.symm hcv, hvn, Dict.set_set, erase_filter_comm]
          · rw [← hh1]
            simp [e1, e2]
      have I2 : Inv (fixH h2 c nm) := hround.inv (I.detachH hvp')
      have hc2 : h2.get c = { (h.get c) with
          subs := ((h.get c).subs.erase (h.get v).uuid), cnt := (h.get c).cnt - 1 } := by
        rw [hsim.same c hcv, ← hh1]; simp [hcv]
      have hid2 : ∀ y, (h2.get y).idName = (h.get y).idName := by
        intro y
        rw [hsim.idName, ← hh1]
        by_cases e1 : y = c
        · subst e1; simp [hcv]
        · by_cases e2 : y = v
          · subst e2; simp [e1]
          · simp [e1, e2]
      have hnamed2 : named h2 c nm = vs := by
        unfold named at hvs ⊢
        rw [hc2]
        simp only [hid2]
        rw [← erase_filter_comm]
        have hnd : (Dict.keys ((h.get c).subs.filter
            fun q => decide ((h.get q.2).idName = nm))).Nodup := by
          have := I.nodup c
          change (Dict.keys ((fixH h c nm).get c).subs).Nodup at this
          rw [hsf] at this
          exact this.sublist (List.Sublist.map _ List.filter_sublist)
        generalize hd : (h.get c).subs.filter (fun q => decide ((h.get q.2).idName = nm)) = d at *
        cases d with
        | nil => simp at hvs
        | cons q d =>
          obtain ⟨u, w⟩ := q
          rw [Dict.values_cons] at hvs
          injection hvs with hw hvs
          simp only at hw
          subst hw
          have hm : (u, w) ∈ (h.get c).subs := by
            have : (u, w) ∈ (h.get c).subs.filter (fun q => decide ((h.get q.2).idName = nm)) := by
              rw [hd]; exact List.mem_cons_self ..
            exact (List.mem_filter.1 this).1
          have hu : (h.get w).uuid = u := by
            have := (I.mem c u w).1 (by
              show (u, w) ∈ ((fixH h c nm).get c).subs
              rw [hsf]; exact hm)
            rw [← huf]; exact this.2
          rw [hu, values_erase_head hnd]; exact hvs
      obtain ⟨h', hrun, hsim', I', hidx', hnm', hqn', hrd', hid'⟩ := ih (lim.map (· - 1)) h2 I2
        (by rw [hc2]; exact hidx) hnamed2
      rw [ht]
      refine ⟨h', ?_, ?_, I', hidx', ?_, ?_, ?_, ?_⟩
      · simp only [removeNamed, if_neg hlim, obj_bind_run]
        rw [bind_ok (popSub_run hget), hh1, bind_ok hrel, bind_ok hrun, pure_run]
      · show Sim _ (detachAllH (detachH (fixH h c nm) c v) c _) _
        have hne : ∀ w ∈ takeLim (lim.map (· - 1)) vs, c ≠ w := by
          intro w hw
          have hw' : w ∈ vs := by
            unfold takeLim at hw
            split at hw
            · exact hw
            · exact List.mem_of_mem_take hw
          rw [← hnamed2, named_eq, List.mem_filter] at hw'
          have := (I2.mem_subelements c w).1 (by
            rw [show ((fixH h2 c nm).get c).subs = (h2.get c).subs from
              fixH_proj (·.subs) (fun _ _ => rfl) h2 c nm c]
            exact hw'.1)
          exact SInv.parent_ne I2 this
        refine Sim.trans ((hround.mono ?_).detachAllH hne) (hsim'.mono ?_)
        · rintro y rfl; exact List.mem_cons_self ..
        · intro y hy; exact List.mem_cons_of_mem _ hy
      · rw [hnm']; simp
      · intro w hw
        rcases List.mem_cons.1 hw with rfl | hw
        · by_cases hw' : w ∈ takeLim (lim.map (· - 1)) vs
          · rw [hqn' w hw', hid2]
          · have hz : ∀ (us : List Ref) (hh : Heap), w ∉ us → w ≠ c →
                (detachAllH hh c us).get w = hh.get w := by
              intro us
              induction us with
              | nil => intro hh _ _; rfl
              | cons a us ihu =>
                intro hh hm hwc
                rw [List.mem_cons, not_or] at hm
                show (detachAllH (detachH hh c a) c us).get w = _
                rw [ihu _ hm.2 hwc]
                unfold detachH
                simp [hm.1, hwc]
            have e1 := hsim'.same w hw'
            rw [hz _ _ hw' (Ne.symm hcv), fixH_get, fixH_get, if_neg (Ne.symm hcv),
              if_neg (Ne.symm hcv)] at e1
            rw [e1, hq]
        · rw [hqn' w hw, hid2]
      · have : h1.reads = h.reads := by rw [← hh1]; rfl
        omega
      · intro y; rw [hid', hid2]

/-- When all results are taken the index is in line again. -/
theorem fixH_done {h : Heap} {c : Ref} {nm : Str} (hidx : (h.get c).index.get? nm = some [])
    (hn : named h c nm = []) (y : Ref) : (fixH h c nm).get y = h.get y := by
  rw [fixH_get]; split
  · next e =>
    subst e
    have : ((h.get y).subs.filter fun q => decide ((h.get q.2).idName = nm)) = [] := by
      unfold named Dict.values at hn
      exact List.map_eq_nil_iff.1 hn
    rw [this, Dict.set_get hidx]
  · rfl

/-- Setting the index entry to empty and putting it back in line is the identity. -/
theorem fixH_start {h : Heap} (I : Inv h) {c : Ref} {nm : Str} {d : Dict Bytes Ref}
    (hidx : (h.get c).index.get? nm = some d) :
    (∀ y, (fixH (h.mod c fun o => { o with index := (o.index.set nm []) }) c nm).get y = h.get y) ∧
    named (h.mod c fun o => { o with index := (o.index.set nm []) }) c nm = named h c nm ∧
    d.values = named h c nm := by
  have hid : ∀ z, ((h.mod c fun o => { o with index := (o.index.set nm []) }).get z).idName =
      (h.get z).idName := by
    intro z; simp only [Heap.get_mod]; split
    · next e => subst e; rfl
    · rfl
  have hi := I.index c nm
  change ((h.get c).index.get? nm).getD [] =
    (h.get c).subs.filter (fun q => decide ((h.get q.2).idName = nm)) at hi
  rw [hidx, Option.getD_some] at hi
  refine ⟨?_, ?_, ?_⟩
  · intro y
    rw [fixH_get]
    simp only [hid]
    by_cases e : y = c
    · subst e
      simp only [Heap.get_mod, if_true, ← hi, Dict.set_set, Dict.set_get hidx]
    · simp [e]
  · unfold named
    simp only [hid]
    simp
  · unfold named; rw [← hi]

end Rei
