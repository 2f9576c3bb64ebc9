/-!
# Python `dict`

Python dictionaries keep insertion order (language guarantee since 3.7).  They are modelled as
association lists: assigning to a present key keeps its position, assigning to a new key appends,
`pop` deletes.  This file models no repository code; it is the model of the Python built-in used by
every module (`_sub_elements`, `_index_elements_by_name`, `_ports`, ... in
`framework_python/rei/foundations/conceptual_item.py:51-53` and
`framework_python/rei/hypergraph/base_elements.py:39,132`).
-/
namespace Rei

/-- Insertion-ordered dictionary. -/
abbrev Dict (κ : Type) (α : Type) := List (κ × α)

namespace Dict
variable {κ α : Type} [DecidableEq κ]

/-- `d[k]` if present (Python raises `KeyError` otherwise; callers of this model do so). -/
def get? (d : Dict κ α) (k : κ) : Option α :=
  match d with
  | [] => none
  | (k', v) :: d => if k' = k then some v else get? d k

/-- `k in d`. -/
def has (d : Dict κ α) (k : κ) : Bool := (get? d k).isSome

/-- `d[k] = v`. -/
def set (d : Dict κ α) (k : κ) (v : α) : Dict κ α :=
  match d with
  | [] => [(k, v)]
  | (k', v') :: d => if k' = k then (k, v) :: d else (k', v') :: set d k v

/-- `d.pop(k)` without the returned value, for a present key; identity for an absent key
(callers check presence first, because Python raises `KeyError`). -/
def erase (d : Dict κ α) (k : κ) : Dict κ α := d.filter (fun p => decide (p.1 ≠ k))

/-- `list(d.values())`. -/
def values (d : Dict κ α) : List α := d.map Prod.snd

/-- `list(d.keys())`. -/
def keys (d : Dict κ α) : List κ := d.map Prod.fst

omit [DecidableEq κ] in
@[simp] theorem values_nil : values ([] : Dict κ α) = [] := rfl
omit [DecidableEq κ] in
@[simp] theorem keys_nil : keys ([] : Dict κ α) = [] := rfl
omit [DecidableEq κ] in
@[simp] theorem values_append (d e : Dict κ α) : values (d ++ e) = values d ++ values e := by
  simp [values]
omit [DecidableEq κ] in
@[simp] theorem keys_append (d e : Dict κ α) : keys (d ++ e) = keys d ++ keys e := by
  simp [keys]
omit [DecidableEq κ] in
@[simp] theorem values_cons (p : κ × α) (e : Dict κ α) : values (p :: e) = p.2 :: values e := rfl
omit [DecidableEq κ] in
@[simp] theorem keys_cons (p : κ × α) (e : Dict κ α) : keys (p :: e) = p.1 :: keys e := rfl

@[simp] theorem get?_nil (k : κ) : get? ([] : Dict κ α) k = none := rfl

theorem get?_cons (p : κ × α) (d : Dict κ α) (k : κ) :
    get? (p :: d) k = if p.1 = k then some p.2 else get? d k := rfl

theorem get?_eq_none_iff {d : Dict κ α} {k : κ} : get? d k = none ↔ k ∉ keys d := by
  induction d with
  | nil => simp
  | cons p d ih =>
    rw [get?_cons]
    split
    · next h => simp [h]
    · next h => simp [ih, Ne.symm h]

theorem get?_isSome_iff {d : Dict κ α} {k : κ} : (get? d k).isSome ↔ k ∈ keys d := by
  cases h : get? d k with
  | none => simpa using get?_eq_none_iff.1 h
  | some v =>
    simp only [Option.isSome_some, true_iff]
    apply Classical.byContradiction
    intro hk
    rw [get?_eq_none_iff.2 hk] at h
    cases h

theorem has_iff {d : Dict κ α} {k : κ} : has d k = true ↔ k ∈ keys d := get?_isSome_iff

theorem has_false_iff {d : Dict κ α} {k : κ} : has d k = false ↔ k ∉ keys d := by
  rw [← has_iff]; simp

theorem mem_of_get? {d : Dict κ α} {k : κ} {v : α} (h : get? d k = some v) : (k, v) ∈ d := by
  induction d with
  | nil => simp at h
  | cons p d ih =>
    rw [get?_cons] at h
    split at h
    · next hk => cases h; cases p; simp_all
    · exact List.mem_cons_of_mem _ (ih h)

theorem get?_of_mem {d : Dict κ α} (hn : (keys d).Nodup) {k : κ} {v : α} (h : (k, v) ∈ d) :
    get? d k = some v := by
  induction d with
  | nil => simp at h
  | cons p d ih =>
    rw [keys_cons, List.nodup_cons] at hn
    rw [get?_cons]
    rcases List.mem_cons.1 h with h | h
    · subst h; simp
    · have : k ∈ keys d := List.mem_map.2 ⟨_, h, rfl⟩
      rw [if_neg (fun (e : p.1 = k) => hn.1 (e ▸ this))]
      exact ih hn.2 h

theorem get?_iff_mem {d : Dict κ α} (hn : (keys d).Nodup) {k : κ} {v : α} :
    get? d k = some v ↔ (k, v) ∈ d := ⟨mem_of_get?, get?_of_mem hn⟩

theorem set_of_not_mem {d : Dict κ α} {k : κ} (v : α) (h : k ∉ keys d) :
    set d k v = d ++ [(k, v)] := by
  induction d with
  | nil => rfl
  | cons p d ih =>
    obtain ⟨k', v'⟩ := p
    simp only [keys_cons, List.mem_cons, not_or] at h
    simp [set, Ne.symm h.1, ih h.2]

theorem get?_set (d : Dict κ α) (k j : κ) (v : α) :
    get? (set d k v) j = if k = j then some v else get? d j := by
  induction d with
  | nil => simp [set, get?_cons]
  | cons p d ih =>
    obtain ⟨k', v'⟩ := p
    simp only [set]
    split
    · next h =>
      subst h
      simp only [get?_cons]
      split <;> rfl
    · next h =>
      simp only [get?_cons, ih]
      split
      · next h1 => subst h1; rw [if_neg (Ne.symm h)]
      · rfl

@[simp] theorem get?_set_self (d : Dict κ α) (k : κ) (v : α) : get? (set d k v) k = some v := by
  simp [get?_set]

theorem set_set (d : Dict κ α) (k : κ) (v w : α) : set (set d k v) k w = set d k w := by
  induction d with
  | nil => simp [set]
  | cons p d ih =>
    obtain ⟨k', v'⟩ := p
    simp only [set]
    split
    · next h => subst h; simp [set]
    · next h => simp [set, h, ih]

theorem set_get {d : Dict κ α} {k : κ} {v : α} (h : get? d k = some v) : set d k v = d := by
  induction d with
  | nil => cases h
  | cons p d ih =>
    obtain ⟨k', v'⟩ := p
    rw [get?_cons] at h
    simp only [set]
    by_cases hk : k' = k
    · subst hk; simp at h; simp [h]
    · simp only [hk, if_false] at h ⊢; rw [ih h]

theorem keys_set (d : Dict κ α) (k : κ) (v : α) :
    keys (set d k v) = if k ∈ keys d then keys d else keys d ++ [k] := by
  induction d with
  | nil => simp [set]
  | cons p d ih =>
    obtain ⟨k', v'⟩ := p
    simp only [set]
    split
    · next h => subst h; simp
    · next h =>
      simp only [keys_cons, ih, List.mem_cons]
      have : k ≠ k' := Ne.symm h
      simp only [this, false_or]
      split <;> simp

theorem nodup_set {d : Dict κ α} (k : κ) (v : α) (h : (keys d).Nodup) :
    (keys (set d k v)).Nodup := by
  rw [keys_set]
  split
  · exact h
  · next hk =>
    rw [List.nodup_append]
    refine ⟨h, by simp, ?_⟩
    intro a ha b hb
    simp at hb; subst hb
    intro e; exact hk (e ▸ ha)

omit [DecidableEq κ] in
theorem mem_keys_of_mem {d : Dict κ α} {p : κ × α} (h : p ∈ d) : p.1 ∈ keys d :=
  List.mem_map.2 ⟨p, h, rfl⟩

omit [DecidableEq κ] in
theorem mem_values_of_mem {d : Dict κ α} {p : κ × α} (h : p ∈ d) : p.2 ∈ values d :=
  List.mem_map.2 ⟨p, h, rfl⟩

theorem keys_erase (d : Dict κ α) (k : κ) :
    keys (erase d k) = (keys d).filter (fun j => decide (j ≠ k)) := by
  induction d with
  | nil => rfl
  | cons p d ih =>
    simp only [erase, keys_cons, List.filter_cons] at *
    split <;> simp_all

theorem nodup_erase {d : Dict κ α} (k : κ) (h : (keys d).Nodup) : (keys (erase d k)).Nodup := by
  rw [keys_erase]; exact h.filter _

theorem erase_of_not_mem {d : Dict κ α} {k : κ} (h : k ∉ keys d) : erase d k = d := by
  unfold erase
  rw [List.filter_eq_self]
  intro p hp
  simp only [decide_eq_true_eq]
  intro e
  exact h (e ▸ mem_keys_of_mem hp)

theorem get?_erase (d : Dict κ α) (k j : κ) :
    get? (erase d k) j = if k = j then none else get? d j := by
  induction d with
  | nil => simp [erase]
  | cons p d ih =>
    simp only [erase, List.filter_cons] at *
    split
    · next h =>
      simp only [decide_eq_true_eq] at h
      rw [get?_cons, get?_cons, ih]
      split
      · next h1 => subst h1; rw [if_neg (Ne.symm h)]
      · rfl
    · next h =>
      simp only [decide_eq_true_eq, Decidable.not_not] at h
      rw [ih, get?_cons, h]
      split <;> rfl

theorem erase_append (d e : Dict κ α) (k : κ) : erase (d ++ e) k = erase d k ++ erase e k := by
  simp [erase]

theorem mem_erase {d : Dict κ α} {k : κ} {p : κ × α} : p ∈ erase d k ↔ p ∈ d ∧ p.1 ≠ k := by
  simp [erase]

/-- Removing one present key shortens the dictionary by one. -/
theorem length_erase {d : Dict κ α} (hn : (keys d).Nodup) {k : κ} (h : k ∈ keys d) :
    (erase d k).length + 1 = d.length := by
  induction d with
  | nil => simp at h
  | cons p d ih =>
    rw [keys_cons, List.nodup_cons] at hn
    by_cases hp : p.1 = k
    · have hk : k ∉ keys d := hp ▸ hn.1
      have := erase_of_not_mem hk
      simp only [erase] at this ⊢
      rw [List.filter_cons_of_neg (by simp [hp]), this]; rfl
    · have hk : k ∈ keys d := by
        rcases List.mem_cons.1 h with h | h
        · exact absurd h.symm hp
        · exact h
      have := ih hn.2 hk
      simp only [erase] at this ⊢
      rw [List.filter_cons_of_pos (by simp [hp])]
      simp only [List.length_cons, this]

end Dict
end Rei
