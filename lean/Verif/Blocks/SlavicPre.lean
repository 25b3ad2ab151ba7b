import Verif.Py.Str

/-!
# Property C229: msf.slavic.Preprocessor makes the annotation uniform

Source: `udapi/block/msf/slavic/preprocessor.py:12-71`. The words are numbers with their annotation; `cs` gives the children of a word in their order. The lemmas tested for are flags: `kje` for the
auxiliaries of the Macedonian and Bulgarian future, `mi` for the Macedonian pronoun.
-/

namespace Verif.Blocks.SlavicPre

inductive Up | verb | adj | aux | other
deriving DecidableEq
inductive Voice | none | act | pass | other
deriving DecidableEq
inductive Mood | none | cnd | sub | other
deriving DecidableEq
inductive Pol | none | pos | neg
deriving DecidableEq
inductive Tense | none | pres | fut | other
deriving DecidableEq
inductive Gender | femNeut | femMasc | other (n : Nat)
deriving DecidableEq
inductive Rel | auxCnd | pv | explPass | impers | iobj | nsubj | conj | other
deriving DecidableEq

structure W where
  upos : Up
  fin : Bool      -- VerbForm=Fin
  voice : Voice
  cas : Bool      -- there is a Case
  rel : Rel
  mood : Mood
  pol : Pol
  tense : Tense
  gender : Gender
  number : Nat
  reflex : Bool
  kje : Bool
  mi : Bool
  prs : Bool
deriving DecidableEq

def voiceOf (w : W) : Voice := if (w.upos = .verb ∨ (w.upos = .aux ∧ w.fin = true)) ∧ w.voice = .none then .act else w.voice
def uposOf (w : W) : Up := if w.upos = .verb ∧ w.cas = true then .adj else w.upos
def moodOf (w : W) : Mood := if w.rel = .auxCnd then .cnd else w.mood
def polOf (w : W) : Pol := if w.pol = .pos then .none else w.pol

/-- Lines 15-30 -/
def before (w : W) : W := { w with voice := voiceOf w, upos := uposOf w, mood := moodOf w, pol := polOf w }

def upd (s : Nat → W) (x : Nat) (w : W) : Nat → W := fun y => if y = x then w else s y

def single : List Nat → Option Nat
  | [a] => some a
  | _ => none

/-- The one auxiliary of the future (lines 35-37) -/
def futAux (cs : Nat → List Nat) (s : Nat → W) (x : Nat) : Option Nat := if (s x).tense = .pres then single ((cs x).filter fun c => (s c).kje) else none

def toFut (w : W) : W := { w with tense := .fut }

/-- Lines 35-38 -/
def future (cs : Nat → List Nat) (s : Nat → W) (x : Nat) : Nat → W := fun y => if futAux cs s x = some y then toFut (s y) else s y

def doubtful (g : Gender) : Bool := decide (g = .femNeut) || decide (g = .femMasc)

def lone (cs : Nat → List Nat) (s : Nat → W) (m : Nat) : Bool := !(cs m).any fun c => decide ((s c).rel = .conj)

/-- The one subject, if it is not coordinated and its gender is needed (lines 41-47) -/
def subject (cs : Nat → List Nat) (s : Nat → W) (x : Nat) : Option Nat :=
  if doubtful (s x).gender then (single ((cs x).filter fun c => decide ((s c).rel = .nsubj))).filter (lone cs s) else none

def agree (w : W) : Option W → W
  | some m => { w with gender := m.gender, number := m.number }
  | none => w

/-- Lines 41-49 -/
def gender (cs : Nat → List Nat) (s : Nat → W) (x : Nat) : Nat → W := upd s x (agree (s x) ((subject cs s x).map s))

def isExpl (r : Rel) : Bool := decide (r = .pv) || decide (r = .explPass) || decide (r = .impers)
def uposLate (w : W) : Up := if w.upos = .verb ∧ w.voice = .pass then .adj else w.upos
def relLate (w : W) : Rel := if w.rel = .pv ∧ w.mi = true ∧ w.prs = true then .iobj else w.rel
def moodLate (w : W) : Mood := if w.mood = .sub then .cnd else w.mood

/-- Lines 52-67 -/
def after (w : W) : W := { w with upos := uposLate w, reflex := w.reflex || isExpl w.rel, rel := relLate w, mood := moodLate w }

/-- `process_node` -/
def step (cs : Nat → List Nat) (s : Nat → W) (x : Nat) : Nat → W :=
  let s1 := upd s x (before (s x))
  let s2 := gender cs (future cs s1 x) x
  upd s2 x (after (s2 x))

def block (cs : Nat → List Nat) (ws : List Nat) (s : Nat → W) : Nat → W := ws.foldl (step cs) s

/-! ## C229 -/

/-- What the block promises of a word, apart from tense and gender. -/
def Clean (w : W) : Prop :=
  (w.upos = .verb → w.cas = false ∧ w.voice ≠ .none ∧ w.voice ≠ .pass) ∧ (w.upos = .aux → w.fin = true → w.voice ≠ .none) ∧ w.pol ≠ .pos ∧ w.mood ≠ .sub ∧
  (w.rel = .auxCnd → w.mood = .cnd) ∧ (isExpl w.rel = true → w.reflex = true) ∧ ¬ (w.rel = .pv ∧ w.mi = true ∧ w.prs = true)

/-- The same but for tense, gender and number. -/
def Same (v w : W) : Prop := ∃ t g n, v = { w with tense := t, gender := g, number := n }

theorem Same.refl (w : W) : Same w w := ⟨w.tense, w.gender, w.number, rfl⟩

theorem Same.trans {u v w : W} (h1 : Same u v) (h2 : Same v w) : Same u w := by
  obtain ⟨t, g, n, rfl⟩ := h1
  obtain ⟨t', g', n', rfl⟩ := h2
  exact ⟨t, g, n, rfl⟩

theorem Same.clean {v w : W} (h : Same v w) (hc : Clean w) : Clean v := by
  obtain ⟨t, g, n, rfl⟩ := h
  exact hc

theorem single_iff {l : List Nat} {a : Nat} : single l = some a ↔ l = [a] := by
  match l with
  | [] => simp [single]
  | [b] => simp [single]
  | b :: c :: l => simp [single]

theorem future_same (cs : Nat → List Nat) (s : Nat → W) (x y : Nat) : Same (future cs s x y) (s y) := by
  unfold future
  split
  · exact ⟨.fut, (s y).gender, (s y).number, rfl⟩
  · exact Same.refl _

theorem agree_same (w : W) (m : Option W) : Same (agree w m) w := by
  cases m with
  | none => exact Same.refl _
  | some m => exact ⟨w.tense, m.gender, m.number, rfl⟩

theorem gender_same (cs : Nat → List Nat) (s : Nat → W) (x y : Nat) : Same (gender cs s x y) (s y) := by
  unfold gender upd
  split
  · next e => subst e; exact agree_same _ _
  · exact Same.refl _

theorem gender_tense (cs : Nat → List Nat) (s : Nat → W) (x y : Nat) : (gender cs s x y).tense = (s y).tense := by
  unfold gender upd
  split
  · next e => subst e; cases (subject cs s y).map s <;> rfl
  · rfl

theorem after_before_clean (w v : W) (h : Same v (before w)) : Clean (after v) := by
  obtain ⟨t, g, n, rfl⟩ := h
  obtain ⟨upos, fin, voice, cas, rel, mood, pol, tense, gender, number, reflex, kje, mi, prs⟩ := w
  refine ⟨?_, ?_, ?_, ?_, ?_, ?_, ?_⟩
  · cases upos <;> cases cas <;> cases voice <;> simp [after, before, uposLate, uposOf, voiceOf]
  · cases upos <;> cases cas <;> cases voice <;> cases fin <;> simp [after, before, uposLate, uposOf, voiceOf]
  · cases pol <;> simp [after, before, polOf]
  · cases rel <;> cases mood <;> simp [after, before, moodLate, moodOf]
  · cases rel <;> cases mood <;> cases mi <;> cases prs <;> simp [after, before, moodLate, moodOf, relLate]
  · cases rel <;> cases mi <;> cases prs <;> simp [after, before, relLate, isExpl]
  · cases rel <;> cases mi <;> cases prs <;> simp [after, before, relLate]

theorem upd_self (s : Nat → W) (x : Nat) (w : W) : upd s x w x = w := by simp [upd]
theorem upd_ne (s : Nat → W) {x y : Nat} (w : W) (h : y ≠ x) : upd s x w y = s y := by simp [upd, h]

theorem step_at (cs : Nat → List Nat) (s : Nat → W) (x : Nat) : ∃ v, Same v (before (s x)) ∧ step cs s x x = after v ∧ v = gender cs (future cs (upd s x (before (s x))) x) x x := by
  refine ⟨_, ?_, by unfold step; exact upd_self .., rfl⟩
  refine (gender_same cs _ x x).trans ((future_same cs _ x x).trans ?_)
  rw [upd_self]
  exact Same.refl _

theorem step_self (cs : Nat → List Nat) (s : Nat → W) (x : Nat) : Clean (step cs s x x) := by
  obtain ⟨v, h, e, _⟩ := step_at cs s x
  rw [e]
  exact after_before_clean (s x) v h

theorem step_ne (cs : Nat → List Nat) (s : Nat → W) (x y : Nat) (h : y ≠ x) : step cs s x y = future cs (upd s x (before (s x))) x y := by
  unfold step
  rw [upd_ne _ _ h]
  unfold gender
  rw [upd_ne _ _ h]

theorem step_other (cs : Nat → List Nat) (s : Nat → W) (x y : Nat) (h : y ≠ x) : Same (step cs s x y) (s y) := by
  rw [step_ne cs s x y h]
  refine (future_same cs _ x y).trans ?_
  rw [upd_ne _ _ h]
  exact Same.refl _

theorem block_clean (cs : Nat → List Nat) : ∀ (ws : List Nat) (s : Nat → W) (y : Nat), (y ∈ ws ∨ Clean (s y)) → Clean (block cs ws s y)
  | [], _, _, h => h.resolve_left (by simp)
  | x :: ws, s, y, h => by
    refine block_clean cs ws (step cs s x) y ?_
    by_cases hy : y = x
    · subst hy; exact Or.inr (step_self cs s y)
    · rcases h with h | h
      · exact Or.inl ((List.mem_cons.mp h).resolve_left hy)
      · exact Or.inr ((step_other cs s x y hy).clean h)

/-- After the block no verb has a case, is passive or lacks a voice, no finite auxiliary lacks a voice, there is no Polarity=Pos and no Mood=Sub, `aux:cnd` has the conditional mood and reflexive
`expl` are marked so. -/
theorem C229_clean (cs : Nat → List Nat) (ws : List Nat) (s : Nat → W) : ∀ x ∈ ws, Clean (block cs ws s x) := fun x hx => block_clean cs ws s x (Or.inl hx)

theorem future_gender (cs : Nat → List Nat) (s : Nat → W) (x y : Nat) : (future cs s x y).gender = (s y).gender ∧ (future cs s x y).number = (s y).number := by
  unfold future
  split <;> exact ⟨rfl, rfl⟩

theorem step_sure (cs : Nat → List Nat) (s : Nat → W) (x y : Nat) (hd : doubtful (s y).gender = false) : (step cs s x y).gender = (s y).gender ∧ (step cs s x y).number = (s y).number := by
  by_cases h : y = x
  · subst h
    obtain ⟨v, _, e, ev⟩ := step_at cs s y
    have hf := future_gender cs (upd s y (before (s y))) y y
    rw [upd_self] at hf
    have hf' : (future cs (upd s y (before (s y))) y y).gender = (s y).gender ∧ (future cs (upd s y (before (s y))) y y).number = (s y).number := hf
    have hg : gender cs (future cs (upd s y (before (s y))) y) y y = future cs (upd s y (before (s y))) y y := by
      unfold gender
      rw [upd_self]
      unfold subject
      rw [if_neg (by rw [hf'.1, hd]; simp)]
      rfl
    rw [e, ev, hg]
    exact hf'
  · rw [step_ne cs s x y h]
    have := future_gender cs (upd s x (before (s x))) x y
    rw [upd_ne _ _ h] at this
    exact this

/-- Genders that are not doubtful stay as they are, and so do their numbers. -/
theorem C229_gender (cs : Nat → List Nat) : ∀ (ws : List Nat) (s : Nat → W) (y : Nat), doubtful (s y).gender = false →
    (block cs ws s y).gender = (s y).gender ∧ (block cs ws s y).number = (s y).number
  | [], _, _, _ => ⟨rfl, rfl⟩
  | x :: ws, s, y, hd => by
    obtain ⟨h1, h2⟩ := step_sure cs s x y hd
    obtain ⟨h3, h4⟩ := C229_gender cs ws (step cs s x) y (by rw [h1]; exact hd)
    exact ⟨h3.trans h1, h4.trans h2⟩

theorem before_at (s : Nat → W) (x y : Nat) : (upd s x (before (s x)) y).tense = (s y).tense ∧ (upd s x (before (s x)) y).kje = (s y).kje := by
  unfold upd
  split
  · next e => subst e; exact ⟨rfl, rfl⟩
  · exact ⟨rfl, rfl⟩

theorem step_future (cs : Nat → List Nat) (s : Nat → W) (x y : Nat) : (step cs s x y).tense = (future cs (upd s x (before (s x))) x y).tense := by
  by_cases h : y = x
  · subst h
    obtain ⟨v, _, e, ev⟩ := step_at cs s y
    rw [e, show (after v).tense = v.tense from rfl, ev, gender_tense]
  · rw [step_ne cs s x y h]

theorem step_tense (cs : Nat → List Nat) (s : Nat → W) (x y : Nat) : (step cs s x y).tense = (s y).tense ∨ ((s y).kje = true ∧ (step cs s x y).tense = .fut) := by
  rw [step_future]
  unfold future
  split
  · next e =>
    refine Or.inr ⟨?_, rfl⟩
    unfold futAux at e
    split at e
    · have := single_iff.mp e
      have hm : y ∈ (cs x).filter fun c => (upd s x (before (s x)) c).kje := by rw [this]; simp
      rw [← (before_at s x y).2]
      exact (List.mem_filter.mp hm).2
    · cases e
  · exact Or.inl (before_at s x y).1

theorem step_kje (cs : Nat → List Nat) (s : Nat → W) (x y : Nat) : (step cs s x y).kje = (s y).kje := by
  by_cases h : y = x
  · subst h
    obtain ⟨v, ⟨_, _, _, hv⟩, e, _⟩ := step_at cs s y
    rw [e, hv]
    rfl
  · obtain ⟨_, _, _, e⟩ := step_other cs s x y h
    rw [e]

theorem step_cause (cs : Nat → List Nat) (s : Nat → W) (x y : Nat) (h : (step cs s x y).tense ≠ (s y).tense) : (s x).tense = .pres ∧ (cs x).filter (fun c => (s c).kje) = [y] := by
  rw [step_future] at h
  unfold future at h
  split at h
  · next e =>
    unfold futAux at e
    split at e
    · next hp =>
      rw [upd_self] at hp
      refine ⟨hp, ?_⟩
      rw [← single_iff.mp e]
      congr 1
      funext c
      rw [(before_at s x c).2]
    · cases e
  · exact absurd (before_at s x y).1 h

/-- The tense of a word stays or becomes Fut, the latter only for the single auxiliary of the future below a word with Tense=Pres. -/
theorem C229_tense (cs : Nat → List Nat) : ∀ (ws : List Nat) (s : Nat → W) (y : Nat), (block cs ws s y).tense = (s y).tense ∨
    ((block cs ws s y).tense = .fut ∧ ∃ x ∈ ws, (s x).tense = .pres ∧ (cs x).filter (fun c => (s c).kje) = [y])
  | [], _, _ => Or.inl rfl
  | x :: ws, s, y => by
    rcases C229_tense cs ws (step cs s x) y with h | ⟨h, z, hz, hp, hf⟩
    · by_cases g : (step cs s x y).tense = (s y).tense
      · exact Or.inl (h.trans g)
      · obtain ⟨c1, c2⟩ := step_cause cs s x y g
        refine Or.inr ⟨?_, x, List.mem_cons_self .., c1, c2⟩
        rcases step_tense cs s x y with k | ⟨_, k⟩
        · exact absurd k g
        · exact h.trans k
    · refine Or.inr ⟨h, z, List.mem_cons_of_mem _ hz, ?_, ?_⟩
      · rcases step_tense cs s x z with k | ⟨_, k⟩
        · rw [← k]; exact hp
        · rw [k] at hp; cases hp
      · rw [← hf]; congr 1; funext c; rw [step_kje]

/-- All that can become different from `w` to `v`, apart from tense, gender and number. -/
def Only (v w : W) : Prop :=
  (v.voice = w.voice ∨ (w.voice = .none ∧ v.voice = .act ∧ (w.upos = .verb ∨ (w.upos = .aux ∧ w.fin = true)))) ∧
  (v.upos = w.upos ∨ (w.upos = .verb ∧ v.upos = .adj ∧ (w.cas = true ∨ w.voice = .pass))) ∧
  (v.rel = w.rel ∨ (w.rel = .pv ∧ w.mi = true ∧ w.prs = true ∧ v.rel = .iobj)) ∧
  (v.reflex = w.reflex ∨ (isExpl w.rel = true ∧ v.reflex = true)) ∧
  (v.pol = w.pol ∨ (w.pol = .pos ∧ v.pol = .none)) ∧
  (v.mood = w.mood ∨ (v.mood = .cnd ∧ (w.mood = .sub ∨ w.rel = .auxCnd))) ∧
  v.cas = w.cas ∧ v.fin = w.fin ∧ v.mi = w.mi ∧ v.prs = w.prs ∧ v.kje = w.kje

theorem Same.only {v w : W} (h : Same v w) : Only v w := by
  obtain ⟨t, g, n, rfl⟩ := h
  exact ⟨Or.inl rfl, Or.inl rfl, Or.inl rfl, Or.inl rfl, Or.inl rfl, Or.inl rfl, rfl, rfl, rfl, rfl, rfl⟩

theorem Only.trans {u v w : W} (h1 : Only u v) (h2 : Only v w) : Only u w := by
  unfold Only at *
  simp only [isExpl, Bool.or_eq_true, decide_eq_true_eq] at *
  grind

theorem before_only (w : W) : Only (before w) w := by
  unfold Only before voiceOf uposOf moodOf polOf
  simp only [and_true]
  grind

theorem after_only (w : W) : Only (after w) w := by
  unfold Only after uposLate relLate moodLate
  simp only [and_true]
  grind

theorem step_only (cs : Nat → List Nat) (s : Nat → W) (x y : Nat) : Only (step cs s x y) (s y) := by
  by_cases h : y = x
  · subst h
    obtain ⟨v, hv, e, _⟩ := step_at cs s y
    rw [e]
    exact (after_only v).trans (hv.only.trans (before_only (s y)))
  · exact (step_other cs s x y h).only

/-- Nothing else becomes different: voices are only filled in, only verbs with a case or in the passive become adjectives, only the pronoun named changes its relation, only reflexive `expl` get
Reflex=Yes, only Polarity=Pos is removed and only Mood=Sub and `aux:cnd` get Mood=Cnd. -/
theorem C229_only (cs : Nat → List Nat) : ∀ (ws : List Nat) (s : Nat → W) (y : Nat), Only (block cs ws s y) (s y)
  | [], _, _ => (Same.refl _).only
  | x :: ws, s, y => (C229_only cs ws (step cs s x) y).trans (step_only cs s x y)

theorem block_kje (cs : Nat → List Nat) : ∀ (ws : List Nat) (s : Nat → W) (y : Nat), (block cs ws s y).kje = (s y).kje
  | [], _, _ => rfl
  | x :: ws, s, y => (block_kje cs ws (step cs s x) y).trans (step_kje cs s x y)

/-- For every word in the present tense with exactly one auxiliary of the future, that has Tense=Fut. -/
def Marked (cs : Nat → List Nat) (s : Nat → W) (x : Nat) : Prop := ∀ a, (s x).tense = .pres → (cs x).filter (fun c => (s c).kje) = [a] → (s a).tense = .fut

theorem marked_self (cs : Nat → List Nat) (s : Nat → W) (x : Nat) : Marked cs (step cs s x) x := by
  intro a hp hf
  have hf' : ((cs x).filter fun c => (upd s x (before (s x)) c).kje) = [a] := by
    rw [← hf]
    congr 1
    funext c
    rw [step_kje, (before_at s x c).2]
  rw [step_future] at hp ⊢
  have hx : (upd s x (before (s x)) x).tense = .pres := by
    unfold future at hp
    split at hp
    · cases hp
    · exact hp
  unfold future futAux
  rw [if_pos hx, single_iff.mpr hf', if_pos rfl]
  rfl

theorem marked_other (cs : Nat → List Nat) (s : Nat → W) (x y : Nat) (h : Marked cs s y) : Marked cs (step cs s x) y := by
  intro a hp hf
  have hf' : ((cs y).filter fun c => (s c).kje) = [a] := by
    rw [← hf]; congr 1; funext c; rw [step_kje]
  have hp' : (s y).tense = .pres := by
    rcases step_tense cs s x y with g | ⟨_, g⟩
    · rw [← g]; exact hp
    · rw [g] at hp; cases hp
  rcases step_tense cs s x a with g | ⟨_, g⟩
  · rw [g]; exact h a hp' hf'
  · exact g

/-- After the block, every word visited with Tense=Pres and exactly one auxiliary of the future has it with Tense=Fut. -/
theorem C229_future (cs : Nat → List Nat) : ∀ (ws : List Nat) (s : Nat → W) (y : Nat), (y ∈ ws ∨ Marked cs s y) → Marked cs (block cs ws s) y
  | [], _, _, h => h.resolve_left (by simp)
  | x :: ws, s, y, h => by
    refine C229_future cs ws (step cs s x) y ?_
    by_cases hy : y = x
    · subst hy; exact Or.inr (marked_self cs s y)
    · rcases h with h | h
      · exact Or.inl ((List.mem_cons.mp h).resolve_left hy)
      · exact Or.inr (marked_other cs s x y h)

theorem before_clean {w : W} (h : Clean w) : before w = w := by
  obtain ⟨upos, fin, voice, cas, rel, mood, pol, tense, gender, number, reflex, kje, mi, prs⟩ := w
  obtain ⟨h1, h2, h3, h4, h5, h6, h7⟩ := h
  simp only at h1 h2 h3 h4 h5 h6 h7
  simp only [before, voiceOf, uposOf, moodOf, polOf, W.mk.injEq, and_true, true_and]
  refine ⟨?_, ?_, ?_, ?_⟩
  · split
    · next g => exact absurd g.2 (h1 g.1 |>.1 |> fun k => by rw [k]; simp)
    · rfl
  · split
    · next g =>
      rcases g with ⟨g | g, k⟩
      · exact absurd k (h1 g).2.1
      · exact absurd k (h2 g.1 g.2)
    · rfl
  · split
    · next g => exact (h5 g).symm
    · rfl
  · split
    · next g => exact absurd g h3
    · rfl

theorem after_clean {w : W} (h : Clean w) : after w = w := by
  obtain ⟨upos, fin, voice, cas, rel, mood, pol, tense, gender, number, reflex, kje, mi, prs⟩ := w
  obtain ⟨h1, h2, h3, h4, h5, h6, h7⟩ := h
  simp only at h1 h2 h3 h4 h5 h6 h7
  simp only [after, uposLate, relLate, moodLate, W.mk.injEq, and_true, true_and]
  refine ⟨?_, ?_, ?_, ?_⟩
  · split
    · next g => exact absurd g.2 (h1 g.1).2.2
    · rfl
  · rw [if_neg h7]
  · rw [if_neg h4]
  · cases reflex with
    | true => rfl
    | false =>
      cases hx : isExpl rel with
      | false => rfl
      | true => exact absurd (h6 hx) (by simp)

theorem upd_same (s : Nat → W) (x : Nat) : upd s x (s x) = s := by
  funext y
  unfold upd
  split
  · next e => rw [e]
  · rfl

theorem step_idle {cs : Nat → List Nat} {s : Nat → W} {x : Nat} (hc : Clean (s x)) (hm : Marked cs s x) (hd : doubtful (s x).gender = false) : step cs s x = s := by
  have hf : future cs s x = s := by
    funext y
    unfold future
    split
    · next e =>
      unfold futAux at e
      split at e
      · next hp =>
        have := hm y hp (single_iff.mp e)
        unfold toFut
        rw [← this]
      · cases e
    · rfl
  have hg : gender cs s x = s := by
    unfold gender subject
    rw [if_neg (by rw [hd]; simp)]
    exact upd_same s x
  unfold step
  simp only [before_clean hc, upd_same, hf, hg, after_clean hc]

theorem block_idle {cs : Nat → List Nat} {s : Nat → W} : ∀ (ws : List Nat), (∀ x ∈ ws, Clean (s x) ∧ Marked cs s x ∧ doubtful (s x).gender = false) → block cs ws s = s
  | [], _ => rfl
  | x :: ws, h => by
    obtain ⟨h1, h2, h3⟩ := h x (List.mem_cons_self ..)
    show block cs ws (step cs s x) = s
    rw [step_idle h1 h2 h3]
    exact block_idle ws fun y hy => h y (List.mem_cons_of_mem _ hy)

/-- If no gender is doubtful, a second run changes nothing. -/
theorem C229_twice_partial (cs : Nat → List Nat) (ws : List Nat) (s : Nat → W) (hd : ∀ x ∈ ws, doubtful (s x).gender = false) : block cs ws (block cs ws s) = block cs ws s :=
  block_idle ws fun x hx => ⟨C229_clean cs ws s x hx, C229_future cs ws s x (Or.inl hx), by rw [(C229_gender cs ws s x (hd x hx)).1]; exact hd x hx⟩

/-- A verb with a doubtful gender before its subject takes over the doubtful gender of the subject, and what the subject gets afterwards only in a second run. -/
theorem C229_gender_violated : ∃ (cs : Nat → List Nat) (ws : List Nat) (s : Nat → W), block cs ws (block cs ws s) ≠ block cs ws s := by
  let w : W := ⟨.verb, true, .act, false, .other, .none, .none, .none, .femNeut, 0, false, false, false, false⟩
  refine ⟨fun x => if x = 1 then [2] else if x = 2 then [3] else [], [1, 2, 3],
    fun x => if x = 1 then w else if x = 2 then { w with rel := .nsubj } else { w with rel := .nsubj, gender := .other 7 }, ?_⟩
  intro h
  have := congrArg (fun f => (f 1).gender) h
  revert this
  decide

/-- The Macedonian pronoun annotated as `expl:pv` becomes `iobj`, but Reflex=Yes, which was added only for `expl`, stays on it; so it is for every such word. -/
theorem C229_reflex_violated (cs : Nat → List Nat) (s : Nat → W) (x : Nat) (h1 : (s x).rel = .pv) (h2 : (s x).mi = true) (h3 : (s x).prs = true) :
    (step cs s x x).rel = .iobj ∧ (step cs s x x).reflex = true := by
  obtain ⟨v, ⟨t, g, n, rfl⟩, e, _⟩ := step_at cs s x
  rw [e]
  simp [after, relLate, before, h1, h2, h3, isExpl]

/-! ## Examples -/

def exW : W := ⟨.verb, true, .none, false, .other, .none, .pos, .pres, .other 0, 0, false, false, false, false⟩

/-- A verb in the present tense with an auxiliary of the future -/
example : let t := block (fun x => if x = 2 then [1] else []) [1, 2] (fun x => if x = 1 then { exW with upos := .aux, kje := true, fin := false, tense := .none } else exW)
    ((t 1).tense, (t 2).tense, (t 2).voice, (t 1).pol) = (.fut, .pres, .act, .none) := by decide
example : (block (fun _ => []) [1] (fun _ => { exW with voice := .pass }) 1).upos = .adj := by decide

end Verif.Blocks.SlavicPre
