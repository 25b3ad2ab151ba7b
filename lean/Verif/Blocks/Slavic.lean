import Verif.Py.Sort

/-!
# Property C226: verb phrases of Slavic languages

Sources: `udapi/block/msf/phrase.py:33-73`, `udapi/block/msf/slavic/past.py:23-190`, `conditional.py:11-81`, `present.py:11-85`, `imperative.py:11-72`, `infinitive.py:11-81` and
`future.py:11-175`. For a word with its children a block gives the phrases it writes: tense and mood if they are passed to `write_node_info`, and the groups of children whose numbers are listed
in `Phrase`. The other attributes (person, number, voice, aspect, form, polarity, reflexivity, gender, animacy) are not modelled.
-/

namespace Verif.Blocks.Slavic
open Verif.Py

inductive Ud | aux | expl | cop | conj | other
deriving DecidableEq
inductive Up | verb | adj | aux | part | adp | other
deriving DecidableEq
inductive Tense | none | pres | past | imp | pqp | fut | other
deriving DecidableEq
inductive Mood | none | ind | imp | cnd | other
deriving DecidableEq
inductive Vf | none | fin | part | partRes | inf | conv | sup | other
deriving DecidableEq

/-- A word. `auxCnd`: the relation is `aux:cnd`. `hteti`: the lemma is that of the Serbian and Croatian auxiliary, `kje`: that of the Macedonian and Bulgarian one. -/
structure W where
  ord : Nat
  ud : Ud
  auxCnd : Bool
  plainCop : Bool    -- the relation is cop without subtype
  upos : Up
  tense : Tense
  mood : Mood
  vf : Vf
  neg : Bool         -- Polarity=Neg
  reflex : Bool      -- Reflex=Yes
  pass : Bool        -- Voice=Pass
  zero : Bool        -- Person=0
  hteti : Bool
  kje : Bool
deriving DecidableEq

structure Phrase where
  tense : Option Tense
  mood : Option Mood
  groups : List (W → Bool)

/-- `[node.ord] + …`, sorted -/
def ords (n : W) (cs : List W) (p : Phrase) : List Nat := pySort (fun a b => decide (a ≤ b)) (n.ord :: p.groups.flatMap fun g => (cs.filter g).map W.ord)

def isPast : Tense → Bool
  | .past | .imp | .pqp => true
  | _ => false

def reflG (x : W) : Bool := x.reflex && decide (x.ud = .expl)
def negG (x : W) : Bool := x.neg && decide (x.upos = .part)
def prepG (x : W) : Bool := decide (x.upos = .adp)
def auxT (t : Tense) (x : W) : Bool := decide (x.ud = .aux) && decide (x.tense = t)
def auxPast (x : W) : Bool := decide (x.ud = .aux) && isPast x.tense
def auxAny (x : W) : Bool := decide (x.ud = .aux)
def copPast (x : W) : Bool := decide (x.ud = .cop) && isPast x.tense
def cnd (x : W) : Bool := decide (x.mood = .cnd) || x.auxCnd
def isPart (v : Vf) : Bool := decide (v = .part) || decide (v = .partRes)

/-- `Past.process_node`: the phrase for Person=0, then one of the four others -/
def past (n : W) (cs : List W) : List Phrase :=
  (if n.zero then [⟨some n.tense, some n.mood, [reflG, negG]⟩] else []) ++
  (if isPart n.vf && decide (n.upos = .verb) && !n.pass then
    (if cs.any (fun x => cnd x && decide (x.ud ≠ .conj)) then []
     else [⟨some (if n.tense = .imp then .imp else if n.tense = .pqp then .pqp else .past), some .ind, [auxT .pres, reflG, negG, auxPast]⟩])
   else if isPast n.tense && decide (n.upos = .verb) && decide (n.vf ≠ .conv) then
    (if cs.any auxAny then [] else [⟨some n.tense, some .ind, [reflG, negG]⟩])
   else if decide (n.upos = .adj) && n.pass && !cs.any copPast then
    (if cs.any cnd then [] else match cs.filter auxPast with
      | [] => []
      | a :: _ => [⟨some a.tense, some .ind, [auxPast, auxT .pres, negG]⟩])
   else
    match cs.filter copPast with
    | [] => []
    | c :: _ => if cs.any cnd then [] else [⟨some c.tense, some .ind, [auxT .pres, copPast, prepG, negG, reflG]⟩])

/-- `Conditional.process_node` -/
def conditional (n : W) (cs : List W) : List Phrase :=
  if (isPart n.vf || decide (n.vf = .fin)) && (cs.any cnd && !cs.any fun x => decide (x.ud = .cop)) then
    [⟨none, some .cnd, [fun x => decide (x.ud = .aux) || decide (x.mood = .cnd), reflG, negG]⟩]
  else if (cs.any fun x => decide (x.ud = .cop) && (decide (x.vf = .part) || decide (x.vf = .fin))) && cs.any cnd then
    [⟨none, some .cnd, [fun x => (decide (x.ud = .aux) || decide (x.mood = .cnd)) && decide (x.ud ≠ .cop), fun x => decide (x.ud = .cop) && (decide (x.vf = .part) || decide (x.vf = .fin)),
      negG, prepG, reflG]⟩]
  else []

/-- `Present.process_node` -/
def present (n : W) (cs : List W) : List Phrase :=
  if decide (n.tense = .pres) && decide (n.upos = .verb) && decide (n.vf = .fin) && !(cs.any fun x => decide (x.upos = .aux) && (x.kje || decide (x.mood = .cnd))) then
    [⟨some .pres, some .ind, [reflG, negG]⟩]
  else if decide (n.upos = .adj) && n.pass && (cs.any fun x => auxT .pres x && !x.hteti) && !(cs.any fun x => decide (x.ud = .aux) && decide (x.tense ≠ .pres)) then
    [⟨some .pres, some .ind, [fun x => auxT .pres x && !x.hteti, negG]⟩]
  else if (cs.any fun x => decide (x.ud = .cop) && decide (x.tense = .pres)) && !(cs.any fun x => decide (x.upos = .aux) && decide (x.tense ≠ .pres)) then
    [⟨some .pres, some .ind, [fun x => decide (x.ud = .cop) && decide (x.tense = .pres), fun x => decide (x.ud = .aux) && decide (x.mood = .ind) && decide (x.tense = .pres), prepG, negG, reflG]⟩]
  else []

/-- `Imperative.process_node` -/
def imperative (n : W) (cs : List W) : List Phrase :=
  if decide (n.mood = .imp) && decide (n.upos = .verb) then [⟨none, some .imp, [reflG, negG]⟩]
  else if decide (n.upos = .adj) && n.pass && (cs.any fun x => decide (x.ud = .aux) && decide (x.mood = .imp)) then
    [⟨none, some .imp, [fun x => decide (x.ud = .aux) && decide (x.mood = .imp), negG]⟩]
  else if cs.any fun x => decide (x.ud = .cop) && decide (x.mood = .imp) then
    [⟨none, some .imp, [fun x => decide (x.ud = .cop) && decide (x.mood = .imp), prepG, negG, reflG]⟩]
  else []

def supine (n : W) : List Phrase := if n.vf = .sup then [⟨none, none, [reflG, negG]⟩] else []

/-- `Infinitive.process_node` -/
def infinitive (n : W) (cs : List W) : List Phrase :=
  if decide (n.vf = .inf) && decide (n.upos = .verb) && !cs.any auxAny then [⟨none, none, [reflG, negG]⟩]
  else if decide (n.upos = .adj) && n.pass && (cs.any fun x => auxAny x && decide (x.vf = .inf)) && !(cs.any fun x => auxAny x && decide (x.vf ≠ .inf)) then
    [⟨none, none, [fun x => auxAny x && decide (x.vf = .inf), negG, reflG]⟩]
  else
    (if (cs.any fun x => decide (x.ud = .cop) && decide (x.vf = .inf)) && !cs.any auxAny then [⟨none, none, [fun x => decide (x.ud = .cop) && decide (x.vf = .inf), prepG, negG, reflG]⟩] else []) ++
    supine n

def futCop (cs : List W) : List Phrase :=
  if cs.any fun x => decide (x.ud = .cop) && decide (x.tense = .fut) then
    [⟨some .fut, some .ind, [fun x => decide (x.ud = .cop) && decide (x.tense = .fut), fun x => auxAny x && decide (x.mood = .ind), prepG, negG, reflG]⟩]
  else []

/-- `Future.process_node` -/
def future (n : W) (cs : List W) : List Phrase :=
  if decide (n.upos ≠ .aux) && (cs.any fun x => auxT .pres x && x.hteti) then
    [⟨some .fut, some .ind, [reflG, negG, auxAny, W.plainCop] ++ if cs.any W.plainCop then [prepG] else []⟩]
  else if decide (n.tense = .pres) && cs.any W.kje then [⟨some .fut, some .ind, [reflG, negG, W.kje]⟩]
  else if (decide (n.upos = .verb) || decide (n.upos = .adj)) && cs.any (auxT .fut) then [⟨some .fut, some .ind, [auxT .fut, reflG, negG]⟩]
  else if (decide (n.upos = .verb) || decide (n.upos = .adj)) && decide (n.tense = .fut) then [⟨some .fut, some .ind, [reflG, negG]⟩]
  else futCop cs

def everything (n : W) (cs : List W) : List Phrase := past n cs ++ conditional n cs ++ present n cs ++ imperative n cs ++ infinitive n cs ++ future n cs

/-- What is listed is in ascending order, contains the word itself, and else numbers of its children. -/
theorem C226_ords (n : W) (cs : List W) (p : Phrase) :
    (ords n cs p).Pairwise (· ≤ ·) ∧ n.ord ∈ ords n cs p ∧ ∀ o ∈ ords n cs p, o = n.ord ∨ ∃ c ∈ cs, o = c.ord := by
  refine ⟨?_, ?_, ?_⟩
  · exact (pySort_pairwise (le := fun a b : Nat => decide (a ≤ b)) (by intro a b c; simp; omega) (by intro a b; simp; omega) _).imp (by intro a b h; simpa using h)
  · unfold ords; rw [mem_pySort]; exact List.mem_cons_self ..
  · intro o ho
    unfold ords at ho
    rw [mem_pySort, List.mem_cons, List.mem_flatMap] at ho
    rcases ho with h | ⟨g, _, h⟩
    · exact Or.inl h
    · obtain ⟨c, hc, rfl⟩ := List.mem_map.mp h
      exact Or.inr ⟨c, (List.mem_filter.mp hc).1, rfl⟩

/-- Groups that no child shares. -/
def Disjoint (cs : List W) (gs : List (W → Bool)) : Prop := gs.Pairwise fun g h => ∀ c ∈ cs, ¬(g c = true ∧ h c = true)

theorem once_of_disjoint {n : W} {cs : List W} {p : Phrase} (hd : (n.ord :: cs.map W.ord).Nodup) (h : Disjoint cs p.groups) : (ords n cs p).Nodup := by
  unfold ords
  rw [(pySort_perm _ _).nodup_iff]
  rw [List.nodup_cons] at hd
  have hinj : ∀ a ∈ cs, ∀ b ∈ cs, a.ord = b.ord → a = b := by
    have : ∀ l : List W, (l.map W.ord).Nodup → ∀ a ∈ l, ∀ b ∈ l, a.ord = b.ord → a = b := by
      intro l
      induction l with
      | nil => intro _ a ha; cases ha
      | cons x xs ih =>
        intro hn a ha b hb e
        rw [List.map_cons, List.nodup_cons] at hn
        rcases List.mem_cons.mp ha with rfl | ha
        · rcases List.mem_cons.mp hb with rfl | hb
          · rfl
          · exact absurd (List.mem_map.mpr ⟨b, hb, e.symm⟩) hn.1
        · rcases List.mem_cons.mp hb with g | hb
          · exact absurd (List.mem_map.mpr ⟨a, ha, by rw [e, g]⟩) hn.1
          · exact ih hn.2 a ha b hb e
    exact this cs hd.2
  rw [List.nodup_cons]
  constructor
  · intro k
    rw [List.mem_flatMap] at k
    obtain ⟨g, _, k⟩ := k
    obtain ⟨c, hc, e⟩ := List.mem_map.mp k
    exact hd.1 (List.mem_map.mpr ⟨c, (List.mem_filter.mp hc).1, e⟩)
  · have : ∀ gs : List (W → Bool), Disjoint cs gs → (gs.flatMap fun g => (cs.filter g).map W.ord).Nodup := by
      intro gs
      induction gs with
      | nil => intro _; simp
      | cons g gs ih =>
        intro hg
        unfold Disjoint at hg
        rw [List.pairwise_cons] at hg
        rw [List.flatMap_cons, List.nodup_append]
        refine ⟨?_, ih hg.2, ?_⟩
        · exact (List.Sublist.map _ List.filter_sublist).nodup hd.2
        · intro a ha b hb e
          subst e
          obtain ⟨c, hc, e1⟩ := List.mem_map.mp ha
          rw [List.mem_flatMap] at hb
          obtain ⟨g', hg', hb⟩ := hb
          obtain ⟨c', hc', e2⟩ := List.mem_map.mp hb
          rw [List.mem_filter] at hc hc'
          have : c = c' := hinj c hc.1 c' hc'.1 (e1.trans e2.symm)
          subst this
          exact hg.1 g' hg' c hc.1 ⟨hc.2, hc'.2⟩
    exact this p.groups h

/-- Children as the guidelines of UD have them: particles and prepositions are neither auxiliaries nor copulas nor reflexives and not in the conditional, auxiliaries of the future are no particles; the conditional is
not expressed by a reflexive. -/
@[reducible] def Proper (x : W) : Prop :=
  ((x.upos = .part ∨ x.upos = .adp) → x.ud ≠ .aux ∧ x.ud ≠ .cop ∧ x.ud ≠ .expl ∧ x.mood ≠ .cnd ∧ x.kje = false) ∧ (x.ud = .expl → x.mood ≠ .cnd ∧ x.kje = false) ∧ (x.plainCop = true → x.ud = .cop)

def Apart (g h : W → Bool) : Prop := ∀ c, Proper c → ¬(g c = true ∧ h c = true)

macro "apart" : tactic => `(tactic| (
  simp only [List.pairwise_cons, List.mem_cons, List.not_mem_nil, or_false, forall_eq_or_imp, forall_eq, false_implies, implies_true, List.Pairwise.nil, and_true]
  (repeat' constructor)
  all_goals
    intro c hc hg
    simp only [Proper, reflG, negG, prepG, auxT, auxPast, auxAny, copPast, Bool.and_eq_true, Bool.or_eq_true, decide_eq_true_eq] at hc hg
    grind [isPast]))

theorem past_groups (n : W) (cs : List W) (p : Phrase) (h : p ∈ past n cs) : p.groups.Pairwise Apart := by
  have e : p.groups = [reflG, negG] ∨ p.groups = [auxT .pres, reflG, negG, auxPast] ∨ p.groups = [auxPast, auxT .pres, negG] ∨ p.groups = [auxT .pres, copPast, prepG, negG, reflG] := by
    unfold past at h
    rw [List.mem_append] at h
    rcases h with h | h
    · grind
    · (repeat' split at h) <;> simp only [List.mem_singleton, List.not_mem_nil] at h <;> subst h <;> simp
  rcases e with e | e | e | e <;> rw [e] <;> apart

theorem conditional_groups (n : W) (cs : List W) (p : Phrase) (h : p ∈ conditional n cs) : p.groups.Pairwise Apart := by
  have e : p.groups = [fun x => decide (x.ud = .aux) || decide (x.mood = .cnd), reflG, negG] ∨ p.groups = [fun x => (decide (x.ud = .aux) || decide (x.mood = .cnd)) && decide (x.ud ≠ .cop), fun x => decide (x.ud = .cop) && (decide (x.vf = .part) || decide (x.vf = .fin)), negG, prepG, reflG] := by
    unfold conditional at h
    grind
  rcases e with e | e <;> rw [e] <;> apart

theorem present_groups (n : W) (cs : List W) (p : Phrase) (h : p ∈ present n cs) : p.groups.Pairwise Apart := by
  have e : p.groups = [reflG, negG] ∨ p.groups = [fun x => auxT .pres x && !x.hteti, negG] ∨ p.groups = [fun x => decide (x.ud = .cop) && decide (x.tense = .pres), fun x => decide (x.ud = .aux) && decide (x.mood = .ind) && decide (x.tense = .pres), prepG, negG, reflG] := by
    unfold present at h
    grind
  rcases e with e | e | e <;> rw [e] <;> apart

theorem imperative_groups (n : W) (cs : List W) (p : Phrase) (h : p ∈ imperative n cs) : p.groups.Pairwise Apart := by
  have e : p.groups = [reflG, negG] ∨ p.groups = [fun x => decide (x.ud = .aux) && decide (x.mood = .imp), negG] ∨ p.groups = [fun x => decide (x.ud = .cop) && decide (x.mood = .imp), prepG, negG, reflG] := by
    unfold imperative at h
    grind
  rcases e with e | e | e <;> rw [e] <;> apart

theorem infinitive_groups (n : W) (cs : List W) (p : Phrase) (h : p ∈ infinitive n cs) : p.groups.Pairwise Apart := by
  have e : p.groups = [reflG, negG] ∨ p.groups = [fun x => auxAny x && decide (x.vf = .inf), negG, reflG] ∨ p.groups = [fun x => decide (x.ud = .cop) && decide (x.vf = .inf), prepG, negG, reflG] := by
    unfold infinitive at h
    unfold supine at h
    grind
  rcases e with e | e | e <;> rw [e] <;> apart

theorem future_groups (n : W) (cs : List W) (p : Phrase) (h : p ∈ future n cs) : p.groups.Pairwise Apart := by
  have e : p.groups = [reflG, negG, auxAny, W.plainCop] ∨ p.groups = [reflG, negG, auxAny, W.plainCop, prepG] ∨ p.groups = [reflG, negG, W.kje] ∨ p.groups = [auxT .fut, reflG, negG] ∨ p.groups = [reflG, negG] ∨ p.groups = [fun x => decide (x.ud = .cop) && decide (x.tense = .fut), fun x => auxAny x && decide (x.mood = .ind), prepG, negG, reflG] := by
    unfold future at h
    unfold futCop at h
    grind
  rcases e with e | e | e | e | e | e <;> rw [e] <;> apart

/-- With such children nothing is listed twice by any of the blocks. -/
theorem C226_once_partial (n : W) (cs : List W) (hd : (n.ord :: cs.map W.ord).Nodup) (hp : ∀ c ∈ cs, Proper c) : ∀ p ∈ everything n cs, (ords n cs p).Nodup := by
  intro p hpe
  refine once_of_disjoint hd ?_
  have key : ∀ gs : List (W → Bool), gs.Pairwise Apart → Disjoint cs gs :=
    fun gs h => h.imp fun {g h'} k c hc => k c (hp c hc)
  have hgoal : p.groups.Pairwise Apart := by
    simp only [everything, List.mem_append] at hpe
    rcases hpe with ((((h | h) | h) | h) | h) | h
    · exact past_groups n cs p h
    · exact conditional_groups n cs p h
    · exact present_groups n cs p h
    · exact imperative_groups n cs p h
    · exact infinitive_groups n cs p h
    · exact future_groups n cs p h
  exact key _ hgoal

/-- What MISC says about tense and mood after some phrases have been written one after another. -/
def final (ps : List Phrase) : Option Tense × Option Mood := ps.foldl (fun s p => (p.tense.or s.1, p.mood.or s.2)) (none, none)

/-- A verb or passive found by Past is not found by Conditional, for participles, passives and copulas; if conditional auxiliaries are no conjuncts. -/
theorem C226_past_or_conditional_partial (n : W) (cs : List W) (hz : n.zero = false) (hb : isPart n.vf = true ∧ n.pass = false ∨ isPast n.tense = false ∨ n.upos ≠ .verb ∨ n.vf = .conv)
    (hc : ∀ c ∈ cs, cnd c = true → c.ud ≠ .conj) : past n cs = [] ∨ conditional n cs = [] := by
  by_cases hk : cs.any cnd = true
  · left
    have h1 : cs.any (fun x => cnd x && decide (x.ud ≠ .conj)) = true := by
      rw [List.any_eq_true] at hk ⊢
      obtain ⟨c, hc1, hc2⟩ := hk
      exact ⟨c, hc1, by simp [hc2, hc c hc1 hc2]⟩
    unfold past
    rw [hz]
    simp only [Bool.false_eq_true, if_false, List.nil_append]
    split
    · rfl
    · rename_i hn1
      split
      · rename_i hn2
        exfalso
        simp only [Bool.and_eq_true, decide_eq_true_eq, Bool.not_eq_true'] at hn1 hn2
        rcases hb with ⟨b1, b2⟩ | b | b | b
        · exact hn1 ⟨⟨b1, hn2.1.2⟩, b2⟩
        · rw [b] at hn2; cases hn2.1.1
        · exact b hn2.1.2
        · exact hn2.2 b
      · split
        · rfl
        · split <;> rfl
  · right
    have hk' : cs.any cnd = false := by simpa using hk
    unfold conditional
    simp [hk']

/-- A finite verb in the past with a conditional conjunction (a child in the conditional that is no auxiliary) ends with both, tense and conditional mood. -/
theorem C226_conjunction_violated (n : W) (cs : List W) (c : W) (hz : n.zero = false) (hf : n.vf = .fin) (hu : n.upos = .verb) (ht : isPast n.tense = true)
    (ha : ∀ x ∈ cs, x.ud ≠ .aux ∧ x.ud ≠ .cop) (hc : c ∈ cs) (hm : c.mood = .cnd) :
    past n cs ≠ [] ∧ conditional n cs ≠ [] ∧ final (past n cs ++ conditional n cs) = (some n.tense, some .cnd) := by
  have h1 : cs.any auxAny = false := by
    rw [List.any_eq_false]; intro x hx; simp [auxAny, (ha x hx).1]
  have h2 : (cs.any fun x => decide (x.ud = .cop)) = false := by
    rw [List.any_eq_false]; intro x hx; simp [(ha x hx).2]
  have h3 : cs.any cnd = true := List.any_eq_true.mpr ⟨c, hc, by simp [cnd, hm]⟩
  have e1 : past n cs = [⟨some n.tense, some .ind, [reflG, negG]⟩] := by
    unfold past
    simp [hz, hf, isPart, ht, hu, h1]
  have e2 : ∃ g, conditional n cs = [⟨none, some .cnd, g⟩] := by
    unfold conditional
    rw [if_pos (by simp only [h3, h2, hf]; rfl)]
    exact ⟨_, rfl⟩
  obtain ⟨g, e2⟩ := e2
  rw [e1, e2]
  exact ⟨by simp, by simp, rfl⟩

/-- A verb in the present with the Serbian or Croatian auxiliary of the future is found by Present and by Future. -/
theorem C226_hteti_violated (n : W) (cs : List W) (c : W) (hf : n.vf = .fin) (hu : n.upos = .verb) (ht : n.tense = .pres) (hno : ∀ x ∈ cs, x.kje = false ∧ x.mood ≠ .cnd) (hc : c ∈ cs)
    (h : c.ud = .aux ∧ c.tense = .pres ∧ c.hteti = true) : present n cs ≠ [] ∧ future n cs ≠ [] := by
  constructor
  · unfold present
    have : (cs.any fun x => decide (x.upos = .aux) && (x.kje || decide (x.mood = .cnd))) = false := by
      rw [List.any_eq_false]; intro x hx; simp [(hno x hx).1, (hno x hx).2]
    simp [ht, hu, hf, this]
  · unfold future
    have : (cs.any fun x => auxT .pres x && x.hteti) = true := List.any_eq_true.mpr ⟨c, hc, by simp [auxT, h.1, h.2.1, h.2.2]⟩
    simp [hu, this]

/-- A negative particle that is an auxiliary is listed twice, for instance with a participle. -/
theorem C226_twice_violated (n c : W) (h : isPart n.vf = true ∧ n.upos = .verb ∧ n.pass = false ∧ n.zero = false) (h1 : c.ud = .aux ∧ c.tense = .pres ∧ c.upos = .part ∧ c.neg = true)
    (h2 : cnd c = false) : ∃ p ∈ past n [c], (ords n [c] p).count c.ord ≥ 2 := by
  have e1 : past n [c] = [⟨some (if n.tense = .imp then .imp else if n.tense = .pqp then .pqp else .past), some .ind, [auxT .pres, reflG, negG, auxPast]⟩] := by
    unfold past
    simp [h.1, h.2.1, h.2.2.1, h.2.2.2, h2]
  rw [e1]
  refine ⟨_, List.mem_singleton.mpr rfl, ?_⟩
  unfold ords
  rw [(pySort_perm _ _).count_eq]
  simp [auxT, reflG, negG, auxPast, isPast, h1.1, h1.2.1, h1.2.2.1, h1.2.2.2, List.filter_cons]
  simp [List.count_cons]

def plain : W := ⟨0, .other, false, false, .other, .none, .none, .none, false, false, false, false, false, false⟩
/-- "nedělal jsem": participle with auxiliary and negative particle -/
def exN : W := { plain with ord := 3, upos := .verb, vf := .part, tense := .past }
def exCs : List W := [{ plain with ord := 1, ud := .other, upos := .part, neg := true }, { plain with ord := 4, ud := .aux, upos := .aux, tense := .pres }]

example : (past exN exCs).map (ords exN exCs) = [[1, 3, 4]] ∧ (conditional exN exCs).length = 0 := by decide +kernel
example : ∀ c ∈ exCs, Proper c := by decide
example : final (past { exN with vf := .fin } [{ plain with mood := .cnd }] ++ conditional { exN with vf := .fin } [{ plain with mood := .cnd }]) = (some .past, some .cnd) := by decide

end Verif.Blocks.Slavic
