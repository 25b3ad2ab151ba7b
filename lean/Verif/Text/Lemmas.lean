import Verif.Py.Str

/-!
# Property C224: missing lemmas are filled in

Sources: `udapi/block/ud/lemmatize.py:8-44`, `udapi/block/ud/zh/lemmatize.py:8-85` and `udapi/block/ud/yue/lemmatize.py:8-47`. Lower-casing and the dictionaries of zh and yue are parameters.
Feats are a function from names to values, empty for none; so is what the blocks leave. Forms contain no line break. The error for an unknown value of `rewrite` is not modelled.
-/

namespace Verif.Text.Lemmas
open Verif.Py

inductive U
  | punct | sym | adp | cconj | sconj | part | intj | x | adv | verb | aux | noun | propn | adj | pron | det | num | none
deriving DecidableEq

inductive F
  | degree | polarity | verbForm | number | case | gender | typo | mood
deriving DecidableEq

structure W where
  form : Str
  lemma : Str
  upos : U
  feats : F → Str

def us : Str := ['_']
def pos : Str := ['P', 'o', 's']
def sing : Str := ['S', 'i', 'n', 'g']
def nom : Str := ['N', 'o', 'm']
def masc : Str := ['M', 'a', 's', 'c']
def inf : Str := ['I', 'n', 'f']
def yes : Str := ['Y', 'e', 's']
def neg : Str := ['N', 'e', 'g']
def int : Str := ['I', 'n', 't']

/-- `lemma == '' or lemma == '_' and form != '_' and feats['Typo'] != 'Yes'`; `and` binds more tightly than `or`. -/
def missing (w : W) : Bool := decide (w.lemma = []) || (decide (w.lemma = us) && decide (w.form ≠ us) && decide (w.feats .typo ≠ yes))

/-- `re.match(r'^(v)?$', node.feats[f])` -/
def opt (w : W) (f : F) (v : Str) : Bool := decide (w.feats f = []) || decide (w.feats f = v)

def closed : U → Bool
  | .punct | .sym | .adp | .cconj | .sconj | .part | .intj | .x => true
  | _ => false

/-- The new lemma in lines 19-44 of ud.Lemmatize, if one of the rules applies. -/
def rule (lower : Str → Str) (w : W) : Option Str :=
  if closed w.upos then some (lower w.form)
  else if w.upos = .adv && opt w .degree pos && opt w .polarity pos then some (lower w.form)
  else if (w.upos = .verb || w.upos = .aux) && decide (w.feats .verbForm = inf) && opt w .polarity pos then some (lower w.form)
  else if w.upos = .noun && opt w .number sing && opt w .case nom && opt w .polarity pos then some (lower w.form)
  else if w.upos = .propn && opt w .number sing && opt w .case nom && opt w .polarity pos then some w.form
  else if w.upos = .adj && opt w .gender masc && opt w .number sing && opt w .case nom && opt w .degree pos && opt w .polarity pos then some (lower w.form)
  else if (w.upos = .adj || w.upos = .pron || w.upos = .det) && opt w .gender masc && opt w .number sing && opt w .case nom then some (lower w.form)
  else if w.upos = .num && opt w .gender masc && opt w .case nom then some (lower w.form)
  else none

/-- `ud.Lemmatize.process_node` -/
def lemmatize (lower : Str → Str) (w : W) : W :=
  if missing w then match rule lower w with
    | some l => { w with lemma := l }
    | none => w
  else w

/-- The lemma in the dictionary, or else the form. -/
def look (dict : Str → Option Str) (f : Str) : Str := match dict f with
  | some l => l
  | none => f

/-- `ud.yue.Lemmatize.process_node` -/
def yue (dict : Str → Option Str) (w : W) : W :=
  if missing w then { w with lemma := look dict w.form } else w

inductive Rewrite
  | empty | form | all
deriving DecidableEq

def isNeg (c : Char) : Bool := c == '不' || c == '没' || c == '沒' || c == '未'
def isCop (c : Char) : Bool := c == '是' || c == '爲' || c == '為' || c == '为'

/-- `^([不没沒未])(.+)$`: group 2 -/
def m1 : Str → Option Str
  | c :: d :: r => if isNeg c then some (d :: r) else none
  | _ => none

/-- `^(.+)([不没沒未])\1$`: group 1, which must be the first half -/
def m2 (f : Str) : Option Str :=
  match f.drop (f.length / 2) with
  | c :: r => if r ≠ [] ∧ f.take (f.length / 2) = r ∧ isNeg c = true then some r else none
  | [] => none

def setF (g : F → Str) (f : F) (v : Str) : F → Str := fun k => if k = f then v else g k

/-- Lines 69-81 of zh: the first copula in the form -/
def zhCop (w : W) : W := match w.form.find? isCop with
  | some c => { w with lemma := [if c = '爲' then '為' else c] }
  | none => w

def zhVerb (w : W) : W := match m1 w.form with
  | some l => { w with lemma := l, feats := setF w.feats .polarity neg }
  | none => match m2 w.form with
    | some l => { w with lemma := l, feats := setF w.feats .mood int }
    | none => zhCop w

/-- Is the word left alone (lines 47-50)? -/
def zhSkip (rw : Rewrite) (w : W) : Bool := match rw with
  | .empty => !missing w
  | .form => !(decide (w.lemma = w.form) || missing w)
  | .all => false

/-- `ud.zh.Lemmatize.process_node` -/
def zh (rw : Rewrite) (dict : Str → Option Str) (w : W) : W :=
  if zhSkip rw w then w
  else if w.upos = .aux ∨ w.upos = .verb then zhVerb w
  else { w with lemma := look dict w.form }

/-- Lemmas other than the empty one and "_" stay: with all three blocks, for zh unless `rewrite` says otherwise (with `form`, if the lemma differs from the form). Forms, tags and, but for zh, features stay
anyway. -/
theorem C224_kept (lower : Str → Str) (dict : Str → Option Str) (w : W) (h1 : w.lemma ≠ []) (h2 : w.lemma ≠ us) :
    lemmatize lower w = w ∧ yue dict w = w ∧ zh .empty dict w = w ∧ (w.lemma ≠ w.form → zh .form dict w = w) := by
  have hm : missing w = false := by simp [missing, h1, h2]
  refine ⟨by simp [lemmatize, hm], by simp [yue, hm], by simp [zh, zhSkip, hm], ?_⟩
  intro h3
  simp [zh, zhSkip, hm, h3]

/-- Words whose lemma is "_" and which are typos or have the form "_" are left alone. -/
theorem C224_typo_kept_partial (lower : Str → Str) (dict : Str → Option Str) (w : W) (h : w.lemma = us) (ht : w.feats .typo = yes ∨ w.form = us) :
    lemmatize lower w = w ∧ yue dict w = w ∧ zh .empty dict w = w := by
  have hm : missing w = false := by
    rcases ht with ht | ht <;> simp [missing, h, ht, us]
  exact ⟨by simp [lemmatize, hm], by simp [yue, hm], by simp [zh, zhSkip, hm]⟩

/-- Typos with an empty lemma are not: a typo of a closed class gets its form as lemma. -/
theorem C224_typo_violated (lower : Str → Str) (w : W) (h : w.lemma = []) (_ : w.feats .typo = yes) (hu : closed w.upos = true) : (lemmatize lower w).lemma = lower w.form := by
  simp [lemmatize, missing, h, rule, hu]

/-- The basic forms as the comments give them. -/
inductive Basic (w : W) : Prop
  | closed (h : closed w.upos = true)
  | adv (h : w.upos = .adv) (h1 : w.feats .degree = [] ∨ w.feats .degree = pos) (h2 : w.feats .polarity = [] ∨ w.feats .polarity = pos)
  | verb (h : w.upos = .verb ∨ w.upos = .aux) (h1 : w.feats .verbForm = inf) (h2 : w.feats .polarity = [] ∨ w.feats .polarity = pos)
  | noun (h : w.upos = .noun ∨ w.upos = .propn) (h1 : w.feats .number = [] ∨ w.feats .number = sing) (h2 : w.feats .case = [] ∨ w.feats .case = nom)
      (h3 : w.feats .polarity = [] ∨ w.feats .polarity = pos)
  | adj (h : w.upos = .adj) (h1 : w.feats .gender = [] ∨ w.feats .gender = masc) (h2 : w.feats .number = [] ∨ w.feats .number = sing) (h3 : w.feats .case = [] ∨ w.feats .case = nom)
      (h4 : w.feats .degree = [] ∨ w.feats .degree = pos) (h5 : w.feats .polarity = [] ∨ w.feats .polarity = pos)
  | pron (h : w.upos = .pron ∨ w.upos = .det) (h1 : w.feats .gender = [] ∨ w.feats .gender = masc) (h2 : w.feats .number = [] ∨ w.feats .number = sing)
      (h3 : w.feats .case = [] ∨ w.feats .case = nom)
  | num (h : w.upos = .num) (h1 : w.feats .gender = [] ∨ w.feats .gender = masc) (h2 : w.feats .case = [] ∨ w.feats .case = nom)

theorem opt_iff (w : W) (f : F) (v : Str) : opt w f v = true ↔ w.feats f = [] ∨ w.feats f = v := by simp [opt]

/-- Words other than adjectives without lemma get one exactly if they are basic forms: the form, in lower case unless it is a proper noun. -/
theorem C224_rules_partial (lower : Str → Str) (w : W) (hm : missing w = true) (ha : w.upos ≠ .adj) :
    (Basic w → (lemmatize lower w).lemma = if w.upos = .propn then w.form else lower w.form) ∧ (¬Basic w → (lemmatize lower w) = w) := by
  have hiff : (rule lower w = some (if w.upos = .propn then w.form else lower w.form) ∧ Basic w) ∨ (rule lower w = none ∧ ¬Basic w) := by
    by_cases hb : Basic w
    · left
      refine ⟨?_, hb⟩
      cases hb with
      | closed h =>
        have : w.upos ≠ .propn := by intro e; rw [e] at h; cases h
        simp [rule, h, this]
      | adv h h1 h2 => simp [rule, h, closed, (opt_iff w _ _).mpr h1, (opt_iff w _ _).mpr h2]
      | verb h h1 h2 => rcases h with h | h <;> simp [rule, h, closed, h1, (opt_iff w _ _).mpr h2]
      | noun h h1 h2 h3 => rcases h with h | h <;> simp [rule, h, closed, (opt_iff w _ _).mpr h1, (opt_iff w _ _).mpr h2, (opt_iff w _ _).mpr h3]
      | adj h => exact absurd h ha
      | pron h h1 h2 h3 => rcases h with h | h <;> simp [rule, h, closed, (opt_iff w _ _).mpr h1, (opt_iff w _ _).mpr h2, (opt_iff w _ _).mpr h3]
      | num h h1 h2 => simp [rule, h, closed, (opt_iff w _ _).mpr h1, (opt_iff w _ _).mpr h2]
    · right
      refine ⟨?_, hb⟩
      unfold rule
      rw [if_neg fun h => hb (.closed h)]
      rw [if_neg, if_neg, if_neg, if_neg, if_neg, if_neg, if_neg]
      · intro h; simp only [Bool.and_eq_true, decide_eq_true_eq, opt_iff] at h; exact hb (.num h.1.1 h.1.2 h.2)
      · intro h; simp only [Bool.and_eq_true, Bool.or_eq_true, decide_eq_true_eq, opt_iff] at h
        rcases h.1.1.1 with (k | k) | k
        · exact ha k
        · exact hb (.pron (Or.inl k) h.1.1.2 h.1.2 h.2)
        · exact hb (.pron (Or.inr k) h.1.1.2 h.1.2 h.2)
      · intro h; simp only [Bool.and_eq_true, decide_eq_true_eq, opt_iff] at h; exact ha h.1.1.1.1.1
      · intro h; simp only [Bool.and_eq_true, decide_eq_true_eq, opt_iff] at h; exact hb (.noun (Or.inr h.1.1.1) h.1.1.2 h.1.2 h.2)
      · intro h; simp only [Bool.and_eq_true, decide_eq_true_eq, opt_iff] at h; exact hb (.noun (Or.inl h.1.1.1) h.1.1.2 h.1.2 h.2)
      · intro h; simp only [Bool.and_eq_true, Bool.or_eq_true, decide_eq_true_eq, opt_iff] at h; exact hb (.verb h.1.1 h.1.2 h.2)
      · intro h; simp only [Bool.and_eq_true, decide_eq_true_eq, opt_iff] at h; exact hb (.adv h.1.1 h.1.2 h.2)
  unfold lemmatize
  rw [if_pos hm]
  rcases hiff with ⟨h, hb⟩ | ⟨h, hb⟩
  · rw [h]; exact ⟨fun _ => rfl, fun k => absurd hb k⟩
  · rw [h]; exact ⟨fun k => absurd k hb, fun _ => rfl⟩

/-- Adjectives in the masculine nominative singular get their form as lemma in any degree and polarity, because the next rule takes them up again. -/
theorem C224_degree_violated (lower : Str → Str) (w : W) (hm : missing w = true) (hu : w.upos = .adj) (h1 : w.feats .gender = [] ∨ w.feats .gender = masc)
    (h2 : w.feats .number = [] ∨ w.feats .number = sing) (h3 : w.feats .case = [] ∨ w.feats .case = nom) : (lemmatize lower w).lemma = lower w.form := by
  have : rule lower w = some (lower w.form) := by
    simp [rule, hu, closed, (opt_iff w _ _).mpr h1, (opt_iff w _ _).mpr h2, (opt_iff w _ _).mpr h3]
  simp [lemmatize, hm, this]

theorem rule_lemma (lower : Str → Str) (w : W) (l : Str) : rule lower { w with lemma := l } = rule lower w := rfl

/-- A second run of any of the blocks changes nothing. -/
theorem C224_twice (lower : Str → Str) (dict : Str → Option Str) (rw : Rewrite) (w : W) :
    lemmatize lower (lemmatize lower w) = lemmatize lower w ∧ yue dict (yue dict w) = yue dict w ∧ zh rw dict (zh rw dict w) = zh rw dict w := by
  refine ⟨?_, ?_, ?_⟩
  · cases hm : missing w with
    | false => simp [lemmatize, hm]
    | true =>
      cases hr : rule lower w with
      | none => simp [lemmatize, hm, hr]
      | some l =>
        have h1 : lemmatize lower w = { w with lemma := l } := by simp [lemmatize, hm, hr]
        rw [h1]
        unfold lemmatize
        rw [rule_lemma, hr]
        simp
  · cases hm : missing w with
    | false => simp [yue, hm]
    | true => simp [yue, hm]
  · cases hs : zhSkip rw w with
    | true => simp [zh, hs]
    | false =>
      by_cases hu : w.upos = .aux ∨ w.upos = .verb
      · have h1 : zh rw dict w = zhVerb w := by simp [zh, hs, hu]
        rw [h1]
        have hform : (zhVerb w).form = w.form ∧ (zhVerb w).upos = w.upos := by
          unfold zhVerb zhCop
          split
          · exact ⟨rfl, rfl⟩
          · split
            · exact ⟨rfl, rfl⟩
            · split
              · exact ⟨rfl, rfl⟩
              · exact ⟨rfl, rfl⟩
        have h2 : zhVerb (zhVerb w) = zhVerb w := by
          have hset : ∀ (g : F → Str) f v, setF (setF g f v) f v = setF g f v := by
            intro g f v; funext k; unfold setF; split <;> rfl
          cases e1 : m1 w.form with
          | some l => simp [zhVerb, e1, hset]
          | none =>
            cases e2 : m2 w.form with
            | some l => simp [zhVerb, e1, e2, hset]
            | none =>
              cases e3 : w.form.find? isCop with
              | some c => simp [zhVerb, e1, e2, zhCop, e3]
              | none => simp [zhVerb, e1, e2, zhCop, e3]
        unfold zh
        split
        · rfl
        · rw [if_pos (by rw [hform.2]; exact hu), h2]
      · have h1 : zh rw dict w = { w with lemma := look dict w.form } := by simp [zh, hs, hu]
        rw [h1]
        unfold zh
        split
        · rfl
        · rfl

/-- Chinese: a negated verb gets the rest as lemma and `Polarity=Neg`; a doubled one (V-not-V) gets V and `Mood=Int`. -/
theorem C224_negated (rw : Rewrite) (dict : Str → Option Str) (w : W) (c : Char) (v : Str) (hv : v ≠ []) (hc : isNeg c = true) (hs : zhSkip rw w = false)
    (hu : w.upos = .aux ∨ w.upos = .verb) :
    (w.form = c :: v → (zh rw dict w).lemma = v ∧ (zh rw dict w).feats .polarity = neg) ∧
    (w.form = v ++ c :: v → (∀ d, v.head? = some d → isNeg d = false) → (zh rw dict w).lemma = v ∧ (zh rw dict w).feats .mood = int) := by
  have h1 : zh rw dict w = zhVerb w := by simp [zh, hs, hu]
  rw [h1]
  constructor
  · intro hf
    have : m1 w.form = some v := by
      rw [hf]
      cases v with
      | nil => exact absurd rfl hv
      | cons d r => simp [m1, hc]
    simp [zhVerb, this, setF]
  · intro hf hd
    have e1 : m1 w.form = none := by
      rw [hf]
      cases v with
      | nil => exact absurd rfl hv
      | cons d r =>
        have := hd d rfl
        cases r with
        | nil => simp [m1, this]
        | cons => simp [m1, this]
    have e2 : m2 w.form = some v := by
      rw [hf]
      have hl : (v ++ c :: v).length / 2 = v.length := by simp; omega
      unfold m2
      rw [hl]
      simp [hv, hc]
    simp [zhVerb, e1, e2, setF]

/-- Chinese: `Polarity=Neg` is added only to verbs that begin with a negation, and `Mood=Int` only to doubled ones; the lemma is then the verb. -/
theorem C224_features (rw : Rewrite) (dict : Str → Option Str) (w : W) :
    ((zh rw dict w).feats .polarity ≠ w.feats .polarity → ∃ c, isNeg c = true ∧ w.form = c :: (zh rw dict w).lemma) ∧
    ((zh rw dict w).feats .mood ≠ w.feats .mood → ∃ c, isNeg c = true ∧ w.form = (zh rw dict w).lemma ++ c :: (zh rw dict w).lemma) := by
  have hv : ((zhVerb w).feats .polarity ≠ w.feats .polarity → ∃ c, isNeg c = true ∧ w.form = c :: (zhVerb w).lemma) ∧
      ((zhVerb w).feats .mood ≠ w.feats .mood → ∃ c, isNeg c = true ∧ w.form = (zhVerb w).lemma ++ c :: (zhVerb w).lemma) := by
    cases e1 : m1 w.form with
    | some l =>
      have : ∃ c, isNeg c = true ∧ w.form = c :: l := by
        rcases hf : w.form with _ | ⟨c, _ | ⟨d, r⟩⟩
        · rw [hf] at e1; cases e1
        · rw [hf] at e1; cases e1
        · rw [hf] at e1
          simp only [m1] at e1
          by_cases g : isNeg c = true
          · rw [if_pos g] at e1; injection e1 with e1; exact ⟨c, g, by rw [e1]⟩
          · rw [if_neg g] at e1; cases e1
      simp only [zhVerb, e1, setF]
      exact ⟨fun _ => this, fun k => by simp at k⟩
    | none =>
      cases e2 : m2 w.form with
      | some l =>
        have : ∃ c, isNeg c = true ∧ w.form = l ++ c :: l := by
          unfold m2 at e2
          split at e2
          · rename_i c r hd
            split at e2
            · rename_i g
              injection e2 with e2
              refine ⟨c, g.2.2, ?_⟩
              rw [← e2]
              have := List.take_append_drop (w.form.length / 2) w.form
              rw [hd, g.2.1] at this
              exact this.symm
            · cases e2
          · cases e2
        simp only [zhVerb, e1, e2, setF]
        exact ⟨fun k => by simp at k, fun _ => this⟩
      | none =>
        have : (zhCop w).feats = w.feats := by unfold zhCop; split <;> rfl
        simp only [zhVerb, e1, e2, this]
        exact ⟨fun k => absurd rfl k, fun k => absurd rfl k⟩
  have hsame : zh rw dict w = zhVerb w ∨ (zh rw dict w).feats = w.feats := by
    unfold zh
    split
    · exact Or.inr rfl
    · split
      · exact Or.inl rfl
      · exact Or.inr rfl
  rcases hsame with h | h
  · rw [h]; exact hv
  · rw [h]; exact ⟨fun k => absurd rfl k, fun k => absurd rfl k⟩

/-- Chinese: other verbs stay without lemma. -/
theorem C224_verbs_violated (rw : Rewrite) (dict : Str → Option Str) (w : W) (hu : w.upos = .aux ∨ w.upos = .verb) (h : ∀ c ∈ w.form, isNeg c = false ∧ isCop c = false) :
    zh rw dict w = w := by
  have e1 : m1 w.form = none := by
    rcases hf : w.form with _ | ⟨c, _ | ⟨d, r⟩⟩
    · rfl
    · rfl
    · have := (h c (by rw [hf]; simp)).1
      simp [m1, this]
  have e2 : m2 w.form = none := by
    unfold m2
    split
    · rename_i c r hd
      have := (h c (List.mem_of_mem_drop (by rw [hd]; simp))).1
      simp [this]
    · rfl
  have e3 : w.form.find? isCop = none := by
    rw [List.find?_eq_none]
    intro c hc
    simp [(h c hc).2]
  cases hs : zhSkip rw w with
  | true => simp [zh, hs]
  | false => simp [zh, hs, hu, zhVerb, e1, e2, zhCop, e3]

/-- Chinese and Cantonese words that are no verbs get the lemma of the dictionary, or else their form. -/
theorem C224_dictionary (rw : Rewrite) (dict : Str → Option Str) (w : W) (hm : missing w = true) :
    ((∀ l, dict w.form = some l → (yue dict w).lemma = l) ∧ (dict w.form = none → (yue dict w).lemma = w.form)) ∧
    (w.upos ≠ .aux → w.upos ≠ .verb → (∀ l, dict w.form = some l → (zh rw dict w).lemma = l) ∧ (dict w.form = none → (zh rw dict w).lemma = w.form)) := by
  have hs : zhSkip rw w = false := by cases rw <;> simp [zhSkip, hm]
  refine ⟨⟨fun l hl => by simp [yue, look, hm, hl], fun hl => by simp [yue, look, hm, hl]⟩, ?_⟩
  intro h1 h2
  exact ⟨fun l hl => by simp [zh, look, hs, h1, h2, hl], fun hl => by simp [zh, look, hs, h1, h2, hl]⟩

def exF : F → Str := fun _ => []
example : (lemmatize (fun s => s.map Char.toLower) ⟨['H', 'e'], us, .pron, exF⟩).lemma = ['h', 'e'] := by decide
example : (lemmatize (fun s => s.map Char.toLower) ⟨['G', 'o', 'e', 's'], us, .verb, exF⟩).lemma = us := by decide
example : (zh .empty (fun _ => none) ⟨['要', '不', '要'], us, .verb, exF⟩).lemma = ['要'] ∧ (zh .empty (fun _ => none) ⟨['吃'], us, .verb, exF⟩).lemma = us := by decide
example : missing ⟨['不', '是'], us, .aux, exF⟩ = true ∧ (zh .empty (fun _ => none) ⟨['不', '是'], us, .aux, exF⟩).lemma = ['是'] := by decide

end Verif.Text.Lemmas
