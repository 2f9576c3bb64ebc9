import Verif.Py.Str

/-!
# Grammars over tokens: what they derive, and a parser

A small language of grammar rules in extended Backus-Naur form.  `Rule.lang` says what a rule derives; `Rule.parse` is a
predictive parser with one token of lookahead, used in proofs and examples.
-/
namespace Rei

/-- The kinds of tokens. -/
inductive Cls
  | word (s : Str)
  | id | decimals | int | float | string
  deriving DecidableEq

/-- A token: its kind and its text. -/
structure Token where
  cls : Cls
  text : Str
  deriving DecidableEq

/-- A rule of a grammar with the nonterminals `N`, whose derivations mean elements of `α`. -/
inductive Rule {N : Type} (T : N → Type) : Type → Type 1
  | token (c : Cls) : Rule T Str
  | nt (n : N) : Rule T (T n)
  | eps {α : Type} (a : α) : Rule T α
  | map {α β : Type} (f : α → β) (r : Rule T α) : Rule T β
  | seq {α β : Type} (r : Rule T α) (q : Rule T β) : Rule T (α × β)
  | alt {α : Type} (r q : Rule T α) : Rule T α
  | opt {α : Type} (r : Rule T α) : Rule T (Option α)
  | star {α : Type} (r : Rule T α) : Rule T (List α)

/-- What is derived, with what meaning. -/
abbrev Lang (α : Type) := α → List Token → Prop

variable {N : Type} {T : N → Type}

/-- What a rule derives, if the nonterminals derive `I`. -/
def Rule.lang (I : ∀ n, Lang (T n)) : {α : Type} → Rule T α → Lang α
  | _, .token c => fun s ts => ts = [⟨c, s⟩]
  | _, .nt n => I n
  | _, .eps a => fun b ts => b = a ∧ ts = []
  | _, .map f r => fun b ts => ∃ a, r.lang I a ts ∧ b = f a
  | _, .seq r q => fun p ts => ∃ u v, ts = u ++ v ∧ r.lang I p.1 u ∧ q.lang I p.2 v
  | _, .alt r q => fun a ts => r.lang I a ts ∨ q.lang I a ts
  | _, .opt r => fun o ts => (o = none ∧ ts = []) ∨ ∃ a, o = some a ∧ r.lang I a ts
  | _, .star r => fun l ts => ∃ ps : List (_ × List Token), l = ps.map Prod.fst ∧ ts = (ps.map Prod.snd).flatten ∧
      ∀ p ∈ ps, r.lang I p.1 p.2

/-- What the nonterminals derive with derivations of that depth. -/
def derives (G : ∀ n, Rule T (T n)) : Nat → ∀ n, Lang (T n)
  | 0, _ => fun _ _ => False
  | k + 1, n => (G n).lang (derives G k)

/-- The rule `r` of the grammar `G` derives `ts`, with the meaning `a`. -/
def Derives (G : ∀ n, Rule T (T n)) {α : Type} (r : Rule T α) (a : α) (ts : List Token) : Prop :=
  ∃ k, r.lang (derives G k) a ts

/-! ## Lookahead -/

/-- For every nonterminal, the kinds of tokens it can begin with, whether it can be empty, and what can follow it. -/
structure Tables (N : Type) where
  first : N → List Cls
  null : N → Bool
  follow : N → List Cls

/-- Can the rule derive nothing? -/
def Rule.null (tb : Tables N) : {α : Type} → Rule T α → Bool
  | _, .token _ => false
  | _, .nt n => tb.null n
  | _, .eps _ => true
  | _, .map _ r => r.null tb
  | _, .seq r q => r.null tb && q.null tb
  | _, .alt r q => r.null tb || q.null tb
  | _, .opt _ => true
  | _, .star _ => true

/-- What the rule can begin with. -/
def Rule.first (tb : Tables N) : {α : Type} → Rule T α → List Cls
  | _, .token c => [c]
  | _, .nt n => tb.first n
  | _, .eps _ => []
  | _, .map _ r => r.first tb
  | _, .seq r q => r.first tb ++ if r.null tb then q.first tb else []
  | _, .alt r q => r.first tb ++ q.first tb
  | _, .opt r => r.first tb
  | _, .star r => r.first tb

/-- What may follow: a list of kinds of tokens, or anything. -/
abbrev Follow := Option (List Cls)

/-- A kind of token in the list that is allowed to follow. -/
def Follow.allows (F : Follow) (c : Cls) : Prop := ∀ l, F = some l → c ∈ l

/-- No kind in the list is allowed to follow. -/
def Follow.disjoint (F : Follow) (l : List Cls) : Bool :=
  match F with
  | none => l.isEmpty
  | some f => l.all fun c => !f.contains c

/-- The rule can be parsed with one token of lookahead. -/
def Rule.ll1 (tb : Tables N) : {α : Type} → Rule T α → Follow → Bool
  | _, .token _, _ => true
  | _, .nt n, F => match F with
    | none => false
    | some f => f.all fun c => (tb.follow n).contains c
  | _, .eps _, _ => true
  | _, .map _ r, F => r.ll1 tb F
  | _, .seq r q, F => r.ll1 tb (if q.null tb then F.map (q.first tb ++ ·) else some (q.first tb)) && q.ll1 tb F
  | _, .alt r q, F => r.ll1 tb F && q.ll1 tb F && !r.null tb && (r.first tb).all (fun c => !(q.first tb).contains c) &&
      (!q.null tb || F.disjoint (r.first tb))
  | _, .opt r, F => r.ll1 tb F && !r.null tb && F.disjoint (r.first tb)
  | _, .star r, F => r.ll1 tb (F.map (r.first tb ++ ·)) && !r.null tb && F.disjoint (r.first tb)

/-- A parser: reads a prefix. -/
abbrev Parser (α : Type) := List Token → Option (α × List Token)

/-- Parse as many as begin here. -/
def many {α : Type} (starts : List Cls) (p : Parser α) : Nat → Parser (List α)
  | _, [] => some ([], [])
  | 0, ts => some ([], ts)
  | k + 1, t :: ts => if starts.contains t.cls then
      match p (t :: ts) with
      | none => none
      | some (a, rest) => (many starts p k rest).map fun q => (a :: q.1, q.2)
    else some ([], t :: ts)

/-- The next token is of one of these kinds. -/
def peek (starts : List Cls) : List Token → Bool
  | [] => false
  | t :: _ => starts.contains t.cls

/-- The parser of a rule. -/
def Rule.parse (tb : Tables N) (I : ∀ n, Parser (T n)) : {α : Type} → Rule T α → Parser α
  | _, .token c => fun
    | [] => none
    | t :: ts => if t.cls = c then some (t.text, ts) else none
  | _, .nt n => I n
  | _, .eps a => fun ts => some (a, ts)
  | _, .map f r => fun ts => (r.parse tb I ts).map fun q => (f q.1, q.2)
  | _, .seq r q => fun ts =>
    match r.parse tb I ts with
    | none => none
    | some (a, us) => (q.parse tb I us).map fun x => ((a, x.1), x.2)
  | _, .alt r q => fun ts => if peek (r.first tb) ts then r.parse tb I ts else q.parse tb I ts
  | _, .opt r => fun ts => if peek (r.first tb) ts then (r.parse tb I ts).map fun q => (some q.1, q.2) else some (none, ts)
  | _, .star r => fun ts => many (r.first tb) (r.parse tb I) ts.length ts

/-- The parsers of the nonterminals. -/
def parses (G : ∀ n, Rule T (T n)) (tb : Tables N) : Nat → ∀ n, Parser (T n)
  | 0, _ => fun _ => none
  | k + 1, n => (G n).parse tb (parses G tb k)

/-! ## Soundness -/

/-- Whatever the parser reads is derived. -/
def Sound {α : Type} (p : Parser α) (L : Lang α) : Prop :=
  ∀ ts a rest, p ts = some (a, rest) → ∃ us, ts = us ++ rest ∧ L a us

theorem many_sound {α : Type} {starts : List Cls} {p : Parser α} {L : Lang α} (hp : Sound p L) (k : Nat) :
    Sound (many starts p k) fun l ts => ∃ ps : List (α × List Token), l = ps.map Prod.fst ∧ ts = (ps.map Prod.snd).flatten ∧
      ∀ p ∈ ps, L p.1 p.2 := by
  induction k with
  | zero =>
    intro ts a rest e
    cases ts <;> cases e <;> exact ⟨[], rfl, [], rfl, rfl, by simp⟩
  | succ k ih =>
    intro ts a rest e
    cases ts with
    | nil => cases e; exact ⟨[], rfl, [], rfl, rfl, by simp⟩
    | cons t ts =>
      unfold many at e
      split at e
      · cases hx : p (t :: ts) with
        | none => rw [hx] at e; cases e
        | some x =>
          obtain ⟨a1, r1⟩ := x
          rw [hx] at e
          simp only [Option.map_eq_some_iff] at e
          obtain ⟨⟨q1, q2⟩, e1, e2⟩ := e
          cases e2
          obtain ⟨us, h1, h2⟩ := hp _ _ _ hx
          obtain ⟨vs, h3, ps, h4, h5, h6⟩ := ih _ _ _ e1
          refine ⟨us ++ vs, by rw [h1, h3, List.append_assoc], (a1, us) :: ps, ?_, ?_, ?_⟩
          · rw [h4]; rfl
          · rw [h5]; rfl
          · intro p hp
            rcases List.mem_cons.1 hp with rfl | hp
            · exact h2
            · exact h6 p hp
      · cases e
        exact ⟨[], rfl, [], rfl, rfl, by simp⟩

theorem Rule.parse_sound (tb : Tables N) {I : ∀ n, Parser (T n)} {J : ∀ n, Lang (T n)} (h : ∀ n, Sound (I n) (J n)) :
    ∀ {α : Type} (r : Rule T α), Sound (r.parse tb I) (r.lang J) := by
  intro α r
  induction r with
  | token c =>
    intro ts a rest e
    cases ts with
    | nil => cases e
    | cons t ts =>
      simp only [Rule.parse] at e
      split at e
      · rename_i hc
        cases e
        exact ⟨[t], rfl, by cases hc; rfl⟩
      · cases e
  | nt n => exact h n
  | eps a =>
    intro ts b rest e
    cases e
    exact ⟨[], rfl, rfl, rfl⟩
  | map f r ih =>
    intro ts b rest e
    simp only [Rule.parse, Option.map_eq_some_iff] at e
    obtain ⟨⟨a, r'⟩, e1, e2⟩ := e
    cases e2
    obtain ⟨us, h1, h2⟩ := ih _ _ _ e1
    exact ⟨us, h1, a, h2, rfl⟩
  | seq r q ih1 ih2 =>
    intro ts b rest e
    simp only [Rule.parse] at e
    split at e
    · cases e
    · rename_i a us e1
      simp only [Option.map_eq_some_iff] at e
      obtain ⟨⟨c, r'⟩, e2, e3⟩ := e
      cases e3
      obtain ⟨u, h1, h2⟩ := ih1 _ _ _ e1
      obtain ⟨v, h3, h4⟩ := ih2 _ _ _ e2
      exact ⟨u ++ v, by rw [h1, h3, List.append_assoc], u, v, rfl, h2, h4⟩
  | alt r q ih1 ih2 =>
    intro ts b rest e
    simp only [Rule.parse] at e
    split at e
    · obtain ⟨u, h1, h2⟩ := ih1 _ _ _ e
      exact ⟨u, h1, .inl h2⟩
    · obtain ⟨u, h1, h2⟩ := ih2 _ _ _ e
      exact ⟨u, h1, .inr h2⟩
  | opt r ih =>
    intro ts b rest e
    simp only [Rule.parse] at e
    split at e
    · simp only [Option.map_eq_some_iff] at e
      obtain ⟨⟨a, r'⟩, e1, e2⟩ := e
      cases e2
      obtain ⟨us, h1, h2⟩ := ih _ _ _ e1
      exact ⟨us, h1, .inr ⟨a, rfl, h2⟩⟩
    · cases e
      exact ⟨[], rfl, .inl ⟨rfl, rfl⟩⟩
  | star r ih => exact fun ts => many_sound ih _ ts

theorem parses_sound (G : ∀ n, Rule T (T n)) (tb : Tables N) (k : Nat) (n : N) : Sound (parses G tb k n) (derives G k n) := by
  induction k generalizing n with
  | zero => intro ts a rest e; cases e
  | succ k ih => exact (G n).parse_sound tb ih

/-- Whatever is parsed is derived. -/
theorem Derives.of_parse (G : ∀ n, Rule T (T n)) (tb : Tables N) (k : Nat) {α : Type} (r : Rule T α) {ts : List Token} {a : α}
    {rest : List Token} (e : r.parse tb (parses G tb k) ts = some (a, rest)) : ∃ us, ts = us ++ rest ∧ Derives G r a us := by
  obtain ⟨us, h1, h2⟩ := r.parse_sound tb (parses_sound G tb k) _ _ _ e
  exact ⟨us, h1, k, h2⟩

/-! ## Completeness -/

/-- The tables are right for what the nonterminals derive. -/
def Tables.Right (tb : Tables N) (J : ∀ n, Lang (T n)) : Prop :=
  ∀ n a ts, J n a ts → (ts = [] → tb.null n = true) ∧ ∀ t us, ts = t :: us → t.cls ∈ tb.first n

theorem Rule.first_right {tb : Tables N} {J : ∀ n, Lang (T n)} (h : tb.Right J) : ∀ {α : Type} (r : Rule T α) {a : α} {ts},
    r.lang J a ts → (ts = [] → r.null tb = true) ∧ ∀ t us, ts = t :: us → t.cls ∈ r.first tb := by
  intro α r
  induction r with
  | token c =>
    rintro a ts rfl
    exact ⟨fun e => (by cases e), fun t us e => by cases e; simp [Rule.first]⟩
  | nt n => exact fun q => h n _ _ q
  | eps a =>
    rintro b ts ⟨-, rfl⟩
    exact ⟨fun _ => rfl, fun _ _ e => by cases e⟩
  | map f r ih =>
    rintro b ts ⟨a, q, rfl⟩
    exact ih q
  | seq r q ih1 ih2 =>
    rintro b ts ⟨u, v, rfl, q1, q2⟩
    constructor
    · intro e
      obtain ⟨rfl, rfl⟩ := List.append_eq_nil_iff.1 e
      simp only [Rule.null, Bool.and_eq_true]
      exact ⟨(ih1 q1).1 rfl, (ih2 q2).1 rfl⟩
    · intro t us e
      simp only [Rule.first, List.mem_append]
      cases u with
      | nil =>
        right
        rw [if_pos ((ih1 q1).1 rfl)]
        exact (ih2 q2).2 t us e
      | cons t' u =>
        cases e
        exact .inl ((ih1 q1).2 _ _ rfl)
  | alt r q ih1 ih2 =>
    rintro a ts (q | q)
    · exact ⟨fun e => by simp [Rule.null, (ih1 q).1 e], fun t us e => List.mem_append_left _ ((ih1 q).2 t us e)⟩
    · exact ⟨fun e => by simp [Rule.null, (ih2 q).1 e], fun t us e => List.mem_append_right _ ((ih2 q).2 t us e)⟩
  | opt r ih =>
    rintro a ts (⟨-, rfl⟩ | ⟨a, -, q⟩)
    · exact ⟨fun _ => rfl, fun _ _ e => by cases e⟩
    · exact ⟨fun _ => rfl, (ih q).2⟩
  | star r ih =>
    rintro a ts ⟨ps, -, rfl, q⟩
    refine ⟨fun _ => rfl, ?_⟩
    induction ps with
    | nil => intro t us e; cases e
    | cons p ps ih' =>
      intro t us e
      obtain ⟨x, w⟩ := p
      cases w with
      | nil => exact ih' (fun p hp => q p (by simp [hp])) t us e
      | cons t' w =>
        cases e
        exact (ih (q _ (List.mem_cons_self))).2 _ _ rfl

/-- The next token, if there is one, is allowed. -/
def Follow.Next (F : Follow) (rest : List Token) : Prop := ∀ t us, rest = t :: us → F.allows t.cls

/-- Whatever is derived, is read, if what follows is allowed. -/
def Complete {α : Type} (p : Parser α) (L : Lang α) (F : Follow) : Prop :=
  ∀ a ts rest, L a ts → F.Next rest → p (ts ++ rest) = some (a, rest)

theorem peek_of {l : List Cls} {t : Token} {us rest : List Token} (h : t.cls ∈ l) : peek l ((t :: us) ++ rest) = true := by
  simp [peek, h]

theorem not_peek {F : Follow} {l : List Cls} (hd : F.disjoint l = true) {rest : List Token} (h : F.Next rest) :
    peek l rest = false := by
  cases rest with
  | nil => rfl
  | cons t us =>
    have ha := h t us rfl
    unfold Follow.disjoint at hd
    unfold peek
    cases F with
    | none =>
      simp only [List.isEmpty_iff] at hd
      rw [hd]; rfl
    | some f =>
      have hm := ha f rfl
      simp only [List.all_eq_true] at hd
      refine Bool.eq_false_iff.2 fun q => ?_
      simp only [List.contains_eq_mem, decide_eq_true_eq] at q
      have := hd _ q
      simp [hm] at this

theorem many_complete {α : Type} {starts : List Cls} {p : Parser α} {L : Lang α} {F : Follow}
    (hp : Complete p L (F.map (starts ++ ·))) (hs : ∀ a ts, L a ts → ∃ t us, ts = t :: us ∧ t.cls ∈ starts)
    (hd : F.disjoint starts = true) (k : Nat) (ps : List (α × List Token)) (hL : ∀ p ∈ ps, L p.1 p.2)
    {rest : List Token} (hr : F.Next rest) (hk : ((ps.map Prod.snd).flatten).length ≤ k) :
    many starts p k ((ps.map Prod.snd).flatten ++ rest) = some (ps.map Prod.fst, rest) := by
  induction ps generalizing k with
  | nil =>
    have := not_peek hd hr
    cases rest with
    | nil => cases k <;> rfl
    | cons t us =>
      cases k with
      | zero => rfl
      | succ k =>
        simp only [List.map_nil, List.flatten_nil, List.nil_append, many]
        simp only [peek] at this
        rw [if_neg (by rw [this]; simp)]
  | cons x ps ih =>
    obtain ⟨a, ts⟩ := x
    obtain ⟨t, us, rfl, hc⟩ := hs a ts (hL _ (List.mem_cons_self))
    simp only [List.map_cons, List.flatten_cons, List.length_append, List.length_cons] at hk ⊢
    obtain ⟨k, rfl⟩ : ∃ k', k = k' + 1 := ⟨k - 1, by omega⟩
    have hnext : Follow.Next (F.map (starts ++ ·)) ((ps.map Prod.snd).flatten ++ rest) := by
      intro t' us' e l hl
      obtain ⟨f, hf, rfl⟩ := Option.map_eq_some_iff.1 hl
      rw [List.mem_append]
      cases hw : (ps.map Prod.snd).flatten with
      | nil =>
        rw [hw] at e
        exact .inr (hr t' us' e f hf)
      | cons t2 w =>
        left
        rw [hw] at e
        cases e
        clear ih hk
        induction ps with
        | nil => cases hw
        | cons y ps ih' =>
          obtain ⟨t3, us3, e3, hc3⟩ := hs y.1 y.2 (hL _ (by simp))
          rw [List.map_cons, List.flatten_cons, e3] at hw
          cases hw
          exact hc3
    rw [List.append_assoc, List.cons_append]
    unfold many
    have hpa := hp a (t :: us) ((ps.map Prod.snd).flatten ++ rest) (hL _ (List.mem_cons_self)) hnext
    rw [List.cons_append] at hpa
    rw [if_pos (by simpa using hc), hpa]
    simp only
    rw [ih k (fun p hp => hL p (by simp [hp])) (by omega)]
    rfl

theorem Rule.parse_complete {tb : Tables N} {I : ∀ n, Parser (T n)} {J : ∀ n, Lang (T n)} (hR : tb.Right J)
    (h : ∀ n, Complete (I n) (J n) (some (tb.follow n))) :
    ∀ {α : Type} (r : Rule T α) (F : Follow), r.ll1 tb F = true → Complete (r.parse tb I) (r.lang J) F := by
  intro α r
  induction r with
  | token c =>
    rintro F - a ts rest rfl hF
    simp [Rule.parse]
  | nt n =>
    intro F hl a ts rest q hF
    refine h n a ts rest q fun t us e l hl' => ?_
    cases hl'
    simp only [Rule.ll1] at hl
    cases F with
    | none => cases hl
    | some f =>
      simp only [List.all_eq_true, List.contains_eq_mem, decide_eq_true_eq] at hl
      exact hl _ (hF t us e f rfl)
  | eps a =>
    rintro F - b ts rest ⟨rfl, rfl⟩ hF
    rfl
  | map f r ih =>
    rintro F hl b ts rest ⟨a, q, rfl⟩ hF
    simp only [Rule.parse, ih F hl a ts rest q hF]
    rfl
  | seq r q ih1 ih2 =>
    rintro F hl b ts rest ⟨u, v, rfl, q1, q2⟩ hF
    simp only [Rule.ll1, Bool.and_eq_true] at hl
    have fq := q.first_right hR q2
    have hn : Follow.Next (if q.null tb then F.map (q.first tb ++ ·) else some (q.first tb)) (v ++ rest) := by
      intro t us e l hl'
      cases v with
      | nil =>
        rw [if_pos (fq.1 rfl)] at hl'
        obtain ⟨f, hf, rfl⟩ := Option.map_eq_some_iff.1 hl'
        exact List.mem_append_right _ (hF t us e f hf)
      | cons t' v =>
        cases e
        have := fq.2 _ _ rfl
        split at hl'
        · obtain ⟨f, hf, rfl⟩ := Option.map_eq_some_iff.1 hl'
          exact List.mem_append_left _ this
        · cases hl'; exact this
    have e1 := ih1 _ hl.1 b.1 u (v ++ rest) q1 hn
    have e2 := ih2 F hl.2 b.2 v rest q2 hF
    simp only [Rule.parse, List.append_assoc, e1, e2]
    rfl
  | alt r q ih1 ih2 =>
    rintro F hl a ts rest hq hF
    simp only [Rule.ll1, Bool.and_eq_true, Bool.or_eq_true, Bool.not_eq_true', List.all_eq_true] at hl
    obtain ⟨⟨⟨⟨l1, l2⟩, nr⟩, dj⟩, dn⟩ := hl
    simp only [Rule.parse]
    rcases hq with hq | hq
    · have fr := r.first_right hR hq
      cases ts with
      | nil => rw [fr.1 rfl] at nr; cases nr
      | cons t us =>
        rw [if_pos (peek_of (fr.2 _ _ rfl))]
        exact ih1 F l1 a _ rest hq hF
    · have fq := q.first_right hR hq
      have hp : peek (r.first tb) (ts ++ rest) = false := by
        cases ts with
        | nil =>
          have hn := fq.1 rfl
          rcases dn with dn | dn
          · rw [hn] at dn; cases dn
          · exact not_peek dn hF
        | cons t us =>
          have := fq.2 _ _ rfl
          refine Bool.eq_false_iff.2 fun z => ?_
          simp only [peek, List.cons_append, List.contains_eq_mem, decide_eq_true_eq] at z
          have := dj _ z
          simp_all
      rw [hp]
      exact ih2 F l2 a _ rest hq hF
  | opt r ih =>
    rintro F hl a ts rest hq hF
    simp only [Rule.ll1, Bool.and_eq_true, Bool.not_eq_true'] at hl
    obtain ⟨⟨l1, nr⟩, dj⟩ := hl
    simp only [Rule.parse]
    rcases hq with ⟨rfl, rfl⟩ | ⟨b, rfl, hq⟩
    · rw [List.nil_append, not_peek dj hF]
      rfl
    · have fr := r.first_right hR hq
      cases ts with
      | nil => rw [fr.1 rfl] at nr; cases nr
      | cons t us =>
        rw [if_pos (peek_of (fr.2 _ _ rfl)), ih F l1 b _ rest hq hF]
        rfl
  | star r ih =>
    rintro F hl a ts rest ⟨ps, rfl, rfl, hq⟩ hF
    simp only [Rule.ll1, Bool.and_eq_true, Bool.not_eq_true'] at hl
    obtain ⟨⟨l1, nr⟩, dj⟩ := hl
    simp only [Rule.parse]
    refine many_complete (ih _ l1) ?_ dj _ ps hq hF (by simp)
    intro a ts q
    have fr := r.first_right hR q
    cases ts with
    | nil => rw [fr.1 rfl] at nr; cases nr
    | cons t us => exact ⟨t, us, rfl, fr.2 _ _ rfl⟩

/-- The tables fit the grammar, and it can be parsed with one token of lookahead. -/
def Tables.Fits (tb : Tables N) (G : ∀ n, Rule T (T n)) : Prop :=
  ∀ n, ((G n).first tb).all (fun c => (tb.first n).contains c) = true ∧ ((G n).null tb = true → tb.null n = true) ∧
    (G n).ll1 tb (some (tb.follow n)) = true

theorem Tables.Fits.right {tb : Tables N} {G : ∀ n, Rule T (T n)} (h : tb.Fits G) (k : Nat) : tb.Right (derives G k) := by
  induction k with
  | zero => intro n a ts q; cases q
  | succ k ih =>
    intro n a ts q
    have := (G n).first_right ih q
    refine ⟨fun e => (h n).2.1 (this.1 e), fun t us e => ?_⟩
    have hf := (h n).1
    simp only [List.all_eq_true, List.contains_eq_mem, decide_eq_true_eq] at hf
    exact hf _ (this.2 t us e)

theorem Tables.Fits.complete {tb : Tables N} {G : ∀ n, Rule T (T n)} (h : tb.Fits G) (k : Nat) (n : N) :
    Complete (parses G tb k n) (derives G k n) (some (tb.follow n)) := by
  induction k generalizing n with
  | zero => intro a ts rest q; cases q
  | succ k ih => exact (G n).parse_complete (h.right k) ih _ (h n).2.2

theorem lang_mono {J K : ∀ n, Lang (T n)} (h : ∀ n a ts, J n a ts → K n a ts) : ∀ {α : Type} (r : Rule T α) {a : α} {ts},
    r.lang J a ts → r.lang K a ts := by
  intro α r
  induction r with
  | token c => exact fun q => q
  | nt n => exact fun q => h n _ _ q
  | eps a => exact fun q => q
  | map f r ih => rintro b ts ⟨a, q, rfl⟩; exact ⟨a, ih q, rfl⟩
  | seq r q ih1 ih2 => rintro b ts ⟨u, v, rfl, q1, q2⟩; exact ⟨u, v, rfl, ih1 q1, ih2 q2⟩
  | alt r q ih1 ih2 => exact fun z => z.imp ih1 ih2
  | opt r ih => exact fun z => z.imp id fun ⟨a, e, q⟩ => ⟨a, e, ih q⟩
  | star r ih => rintro a ts ⟨ps, e, e', q⟩; exact ⟨ps, e, e', fun p hp => ih (q p hp)⟩

theorem derives_mono (G : ∀ n, Rule T (T n)) {k l : Nat} (h : k ≤ l) (n : N) (a : T n) (ts : List Token)
    (q : derives G k n a ts) : derives G l n a ts := by
  induction k generalizing l n a ts with
  | zero => cases q
  | succ k ih =>
    obtain ⟨l, rfl⟩ : ∃ l', l = l' + 1 := ⟨l - 1, by omega⟩
    exact lang_mono (fun n a ts q => ih (by omega) n a ts q) (G n) q

/-- In a grammar with fitting tables, two derivations that begin the same text agree in extent and meaning. -/
theorem Tables.Fits.unique {tb : Tables N} {G : ∀ n, Rule T (T n)} (h : tb.Fits G) {α : Type} (r : Rule T α) {F : Follow}
    (hr : r.ll1 tb F = true) {a b : α} {ts us rest rest' : List Token} (da : Derives G r a ts) (db : Derives G r b us)
    (e : ts ++ rest = us ++ rest') (hF : F.Next rest) (hF' : F.Next rest') : a = b ∧ ts = us ∧ rest = rest' := by
  obtain ⟨k, da⟩ := da
  obtain ⟨l, db⟩ := db
  have da := lang_mono (derives_mono G (Nat.le_max_left k l)) r da
  have db := lang_mono (derives_mono G (Nat.le_max_right k l)) r db
  have ea := r.parse_complete (h.right _) (h.complete (max k l)) F hr a ts rest da hF
  have eb := r.parse_complete (h.right _) (h.complete (max k l)) F hr b us rest' db hF'
  rw [e, eb] at ea
  cases ea
  exact ⟨rfl, List.append_cancel_right e, rfl⟩

end Rei
