import Verif.Spec.Grammar

/-!
# What can be read off a grammar: the kinds of tokens in use, the balance of braces, the least length
-/
namespace Rei

variable {N : Type} {T : N → Type}

/-- The rule mentions the kind of token. -/
def Rule.uses (c : Cls) : {α : Type} → Rule T α → Bool
  | _, .token c' => c == c'
  | _, .nt _ => false
  | _, .eps _ => false
  | _, .map _ r => r.uses c
  | _, .seq r q => r.uses c || q.uses c
  | _, .alt r q => r.uses c || q.uses c
  | _, .opt r => r.uses c
  | _, .star r => r.uses c

theorem Rule.uses_lang {c : Cls} {J : ∀ n, Lang (T n)} (h : ∀ n a ts, J n a ts → ∀ t ∈ ts, t.cls ≠ c) : ∀ {α : Type} (r : Rule T α)
    {a ts}, r.uses c = false → r.lang J a ts → ∀ t ∈ ts, t.cls ≠ c := by
  intro α r
  induction r with
  | token c' =>
    rintro a ts hu rfl t ht
    rw [List.mem_singleton] at ht
    subst ht
    simp only [Rule.uses, beq_eq_false_iff_ne, ne_eq] at hu
    exact fun e => hu e.symm
  | nt n => exact fun _ q => h n _ _ q
  | eps a => rintro b ts _ ⟨-, rfl⟩ t ht; cases ht
  | map f r ih => rintro b ts hu ⟨a, q, -⟩; exact ih hu q
  | seq r q ih1 ih2 =>
    rintro b ts hu ⟨u, v, rfl, q1, q2⟩ t ht
    simp only [Rule.uses, Bool.or_eq_false_iff] at hu
    rcases List.mem_append.1 ht with ht | ht
    · exact ih1 hu.1 q1 t ht
    · exact ih2 hu.2 q2 t ht
  | alt r q ih1 ih2 =>
    rintro b ts hu z t ht
    simp only [Rule.uses, Bool.or_eq_false_iff] at hu
    rcases z with z | z
    · exact ih1 hu.1 z t ht
    · exact ih2 hu.2 z t ht
  | opt r ih =>
    rintro b ts hu z t ht
    rcases z with ⟨-, rfl⟩ | ⟨a, -, z⟩
    · cases ht
    · exact ih hu z t ht
  | star r ih =>
    rintro b ts hu ⟨ps, -, rfl, z⟩ t ht
    obtain ⟨l, hl, ht⟩ := List.mem_flatten.1 ht
    obtain ⟨p, hp, rfl⟩ := List.mem_map.1 hl
    exact ih hu (z p hp) t ht

theorem Derives.uses {c : Cls} {G : ∀ n, Rule T (T n)} (hG : ∀ n, (G n).uses c = false) {α : Type} {r : Rule T α}
    (hr : r.uses c = false) {a : α} {ts : List Token} (d : Derives G r a ts) : ∀ t ∈ ts, t.cls ≠ c := by
  obtain ⟨k, d⟩ := d
  refine r.uses_lang ?_ hr d
  clear d
  induction k with
  | zero => intro n a ts q; cases q
  | succ k ih => exact fun n a ts q => (G n).uses_lang ih (hG n) q

/-- The difference of two kinds of tokens, if it is the same in all derivations. -/
def Rule.level (o c : Cls) : {α : Type} → Rule T α → Option Int
  | _, .token c' => some (if c' = o then 1 else if c' = c then -1 else 0)
  | _, .nt _ => some 0
  | _, .eps _ => some 0
  | _, .map _ r => r.level o c
  | _, .seq r q => match r.level o c, q.level o c with
    | some x, some y => some (x + y)
    | _, _ => none
  | _, .alt r q => if r.level o c = q.level o c then r.level o c else none
  | _, .opt r => if r.level o c = some 0 then some 0 else none
  | _, .star r => if r.level o c = some 0 then some 0 else none

/-- How many more of the first kind. -/
def surplus (o c : Cls) (ts : List Token) : Int :=
  ((ts.countP fun t => t.cls = o : Nat) : Int) - ((ts.countP fun t => t.cls = c : Nat) : Int)

theorem surplus_append (o c : Cls) (ts us : List Token) : surplus o c (ts ++ us) = surplus o c ts + surplus o c us := by
  unfold surplus
  rw [List.countP_append, List.countP_append]
  omega

theorem Rule.level_lang {o c : Cls} (hoc : o ≠ c) {J : ∀ n, Lang (T n)} (h : ∀ n a ts, J n a ts → surplus o c ts = 0) :
    ∀ {α : Type} (r : Rule T α) {a ts x}, r.level o c = some x → r.lang J a ts → surplus o c ts = x := by
  intro α r
  induction r with
  | token c' =>
    rintro a ts x hu rfl
    simp only [Rule.level, Option.some.injEq] at hu
    subst hu
    unfold surplus
    by_cases h1 : c' = o
    · subst h1
      simp [List.countP_cons, hoc]
    · by_cases h2 : c' = c
      · subst h2
        simp [List.countP_cons, h1]
      · simp [List.countP_cons, h1, h2]
  | nt n => rintro a ts x hu q; cases hu; exact h n _ _ q
  | eps a => rintro b ts x hu ⟨-, rfl⟩; cases hu; rfl
  | map f r ih => rintro b ts x hu ⟨a, q, -⟩; exact ih hu q
  | seq r q ih1 ih2 =>
    rintro b ts x hu ⟨u, v, rfl, q1, q2⟩
    simp only [Rule.level] at hu
    split at hu
    · next x1 y1 e1 e2 =>
      cases hu
      rw [surplus_append, ih1 e1 q1, ih2 e2 q2]
    · cases hu
  | alt r q ih1 ih2 =>
    rintro b ts x hu z
    simp only [Rule.level] at hu
    split at hu
    · next e =>
      rcases z with z | z
      · exact ih1 hu z
      · exact ih2 (e ▸ hu) z
    · cases hu
  | opt r ih =>
    rintro b ts x hu z
    simp only [Rule.level] at hu
    split at hu
    · next e =>
      cases hu
      rcases z with ⟨-, rfl⟩ | ⟨a, -, z⟩
      · rfl
      · exact ih e z
    · cases hu
  | star r ih =>
    rintro b ts x hu ⟨ps, -, rfl, z⟩
    simp only [Rule.level] at hu
    split at hu
    · next e =>
      cases hu
      clear b
      induction ps with
      | nil => rfl
      | cons p ps ih2 =>
        rw [List.map_cons, List.flatten_cons, surplus_append, ih e (z p (by simp)), ih2 fun q hq => z q (by simp [hq])]
        rfl
    · cases hu

theorem Derives.level {o c : Cls} (hoc : o ≠ c) {G : ∀ n, Rule T (T n)} (hG : ∀ n, (G n).level o c = some 0) {α : Type}
    {r : Rule T α} {x : Int} (hr : r.level o c = some x) {a : α} {ts : List Token} (d : Derives G r a ts) :
    surplus o c ts = x := by
  obtain ⟨k, d⟩ := d
  refine r.level_lang hoc ?_ hr d
  clear d
  induction k with
  | zero => intro n a ts q; cases q
  | succ k ih => exact fun n a ts q => (G n).level_lang hoc ih (hG n) q

/-- The least number of tokens. -/
def Rule.least : {α : Type} → Rule T α → Nat
  | _, .token _ => 1
  | _, .nt _ => 0
  | _, .eps _ => 0
  | _, .map _ r => r.least
  | _, .seq r q => r.least + q.least
  | _, .alt r q => min r.least q.least
  | _, .opt _ => 0
  | _, .star _ => 0

theorem Rule.least_lang {J : ∀ n, Lang (T n)} : ∀ {α : Type} (r : Rule T α) {a ts}, r.lang J a ts → r.least ≤ ts.length := by
  intro α r
  induction r with
  | token c' => rintro a ts rfl; exact Nat.le_refl _
  | nt n => exact fun _ => Nat.zero_le _
  | eps a => exact fun _ => Nat.zero_le _
  | map f r ih => rintro b ts ⟨a, q, -⟩; exact ih q
  | seq r q ih1 ih2 =>
    rintro b ts ⟨u, v, rfl, q1, q2⟩
    have := ih1 q1
    have := ih2 q2
    simp only [Rule.least, List.length_append]
    omega
  | alt r q ih1 ih2 =>
    rintro b ts z
    simp only [Rule.least]
    rcases z with z | z
    · have := ih1 z; omega
    · have := ih2 z; omega
  | opt r ih => exact fun _ => Nat.zero_le _
  | star r ih => exact fun _ => Nat.zero_le _

end Rei
