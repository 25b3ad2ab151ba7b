import Verif.Py.Sort
import Verif.Py.Text
import Verif.DualDict.Bugs

/-!
# Property C173: ud.MarkBugs (udapi/block/ud/markbugs.py)

A sentence is the list of its words; word `i` is named by its number from 1, the root is 0. Whether a word is non-projective or causes a gap is given with the word (these are in `Tree/Nonproj.lean`).
`alpha` is `str.isalpha` for characters, `keep` tells which messages pass the parameters `tests` and `skip`. Words have a DEPREL.
-/

namespace Verif.Blocks.MarkBugs
open Verif.Py

def sAux : Str := ['a', 'u', 'x']
def sFixed : Str := ['f', 'i', 'x', 'e', 'd']
def sGoeswith : Str := ['g', 'o', 'e', 's', 'w', 'i', 't', 'h']
def sList : Str := ['l', 'i', 's', 't']
def sFlat : Str := ['f', 'l', 'a', 't']
def sConj : Str := ['c', 'o', 'n', 'j']
def sAppos : Str := ['a', 'p', 'p', 'o', 's']
def sCop : Str := ['c', 'o', 'p']
def sMark : Str := ['m', 'a', 'r', 'k']
def sDet : Str := ['d', 'e', 't']
def sPunct : Str := ['p', 'u', 'n', 'c', 't']
def sClf : Str := ['c', 'l', 'f']
def sCase : Str := ['c', 'a', 's', 'e']
def sCc : Str := ['c', 'c']
def sAdvmod : Str := ['a', 'd', 'v', 'm', 'o', 'd']
def sObj : Str := ['o', 'b', 'j']
def sSubj : Str := ['s', 'u', 'b', 'j']
def sOuter : Str := ['o', 'u', 't', 'e', 'r']
def sRoot : Str := ['r', 'o', 'o', 't']
def sRootRel : Str := ['<', 'R', 'O', 'O', 'T', '>']
def tAUX : Str := ['A', 'U', 'X']
def tPRON : Str := ['P', 'R', 'O', 'N']
def tDET : Str := ['D', 'E', 'T']
def tPUNCT : Str := ['P', 'U', 'N', 'C', 'T']
def tNUM : Str := ['N', 'U', 'M']
def tVERB : Str := ['V', 'E', 'R', 'B']
def tSYM : Str := ['S', 'Y', 'M']
def mPronType : Str := ['P', 'r', 'o', 'n', 'T', 'y', 'p', 'e']
def mNumType : Str := ['N', 'u', 'm', 'T', 'y', 'p', 'e']
def mVerbForm : Str := ['V', 'e', 'r', 'b', 'F', 'o', 'r', 'm']
def mMood : Str := ['M', 'o', 'o', 'd']
def mFin : Str := ['F', 'i', 'n']
def mChain : Str := ['-', 'c', 'h', 'a', 'i', 'n']
def mRightHeaded : Str := ['-', 'r', 'i', 'g', 'h', 't', 'h', 'e', 'a', 'd', 'e', 'd']
def mCopUpos : Str := ['c', 'o', 'p', '-', 'u', 'p', 'o', 's']
def mMarkUpos : Str := ['m', 'a', 'r', 'k', '-', 'u', 'p', 'o', 's']
def mDetUpos : Str := ['d', 'e', 't', '-', 'u', 'p', 'o', 's']
def mPunctUpos : Str := ['p', 'u', 'n', 'c', 't', '-', 'u', 'p', 'o', 's']
def mNo : Str := ['n', 'o', '-']
def mFinUpos : Str := ['f', 'i', 'n', 'v', 'e', 'r', 'b', '-', 'u', 'p', 'o', 's']
def mFinMood : Str := ['f', 'i', 'n', 'v', 'e', 'r', 'b', '-', 'm', 'o', 'o', 'd']
def mMultiSubj : Str := ['m', 'u', 'l', 't', 'i', '-', 's', 'u', 'b', 'j']
def mMultiObj : Str := ['m', 'u', 'l', 't', 'i', '-', 'o', 'b', 'j']
def mChild : Str := ['-', 'c', 'h', 'i', 'l', 'd']
def mGoesGap : Str := ['g', 'o', 'e', 's', 'w', 'i', 't', 'h', '-', 'g', 'a', 'p']
def mGoesSpace : Str := ['g', 'o', 'e', 's', 'w', 'i', 't', 'h', '-', 's', 'p', 'a', 'c', 'e']
def mSymAlpha : Str := ['s', 'y', 'm', '-', 'a', 'l', 'p', 'h', 'a']
def mPunctAlpha : Str := ['p', 'u', 'n', 'c', 't', '-', 'a', 'l', 'p', 'h', 'a']
def mPunctDeprel : Str := ['p', 'u', 'n', 'c', 't', '-', 'd', 'e', 'p', 'r', 'e', 'l']
def mNonproj : Str := ['p', 'u', 'n', 'c', 't', '-', 'n', 'o', 'n', 'p', 'r', 'o', 'j']
def mNonprojGap : Str := ['p', 'u', 'n', 'c', 't', '-', 'n', 'o', 'n', 'p', 'r', 'o', 'j', '-', 'g', 'a', 'p']
def mCopMany : Str := ['c', 'o', 'p', '-', 'm', 'a', 'n', 'y', '-', 'l', 'e', 'm', 'm', 'a', 's']
def sLangId : Str := ['i', 'd']
def sLangJv : Str := ['j', 'v']
def sLangTl : Str := ['t', 'l']
def sLangHil : Str := ['h', 'i', 'l']
def sLangIfb : Str := ['i', 'f', 'b']

structure Node where
  form : Str
  lemma : Str
  upos : Str
  deprel : Str
  /-- The value of a feature, empty if there is none -/
  feats : Str → Str
  parent : Nat
  /-- `SpaceAfter=No` -/
  noSpace : Bool
  nonproj : Bool
  gap : Bool

structure Sent where
  words : List Node
  /-- `root.is_nonprojective_gap()` -/
  rootGap : Bool
  zone : Str

/-- The root (root.py:21-28) -/
def rootNode (t : Sent) : Node := ⟨[], [], [], sRootRel, fun _ => [], 0, false, false, t.rootGap⟩

def Sent.at (t : Sent) (i : Nat) : Node := if i = 0 then rootNode t else t.words.getD (i - 1) (rootNode t)

/-- `node.udeprel` (node.py:139-144) -/
def udep (d : Str) : Str := (splitOnce ':' d).1

/-- `node.sdeprel` (node.py:155-167) -/
def sdep (d : Str) : Str := ((splitOnce ':' d).2).getD []

def Sent.rel (t : Sent) (i : Nat) : Str := udep (t.at i).deprel

def Sent.children (t : Sent) (i : Nat) : List Nat := (List.range' 1 t.words.length).filter (fun j => (t.at j).parent == i)

/-- `m in s` for strings -/
def isIn (m : Str) : Str → Bool
  | [] => m == []
  | c :: s => m.isPrefixOf (c :: s) || isIn m s

def one (c : Bool) (m : Nat × Str) : List (Nat × Str) := if c then [m] else []

def chainDeps : List Str := [sAux, sFixed, sGoeswith, sList]
def headDeps : List Str := [sFlat, sFixed, sConj, sAppos, sGoeswith, sList]
def funcDeps : List Str := [sAux, sCop, sMark, sClf, sCase]
def okUnder : List Str := [sConj, sCc, sPunct, sFixed, sGoeswith, sAdvmod]
def punctDeps : List Str := [sPunct, sFixed, sGoeswith, sRoot]
def noVerbForm : List Str := [sLangId, sLangJv, sLangTl, sLangHil, sLangIfb]

/-- `REQUIRED_FEATURE_FOR_UPOS` (markbugs.py:31-36) -/
def required : List (Str × Str) := [(tPRON, mPronType), (tDET, mPronType), (tNUM, mNumType), (tVERB, mVerbForm)]

/-- The required features (markbugs.py:117-122) -/
def features (t : Sent) (i : Nat) : List (Nat × Str) :=
  (required.filter (fun r => (t.at i).upos == r.1 && (t.at i).feats r.2 == [] && (r.2 != mVerbForm || !noVerbForm.contains (splitOnce '_' t.zone).1))).map (fun r => (i, mNo ++ r.2))

/-- The words of a `goeswith` relation (markbugs.py:162-170) -/
def goes (t : Sent) (i : Nat) : List (Nat × Str) :=
  if t.rel i = sGoeswith ∧ (t.at i).parent < i then
    let span := List.range' (t.at i).parent (i - (t.at i).parent)
    match span.tail.find? (fun n => t.rel n != sGoeswith) with
    | some n => [(n, mGoesGap)]
    | none => (span.filter (fun n => (t.at n).noSpace)).map (fun n => (n, mGoesSpace))
  else []

/-- `process_node` (markbugs.py:83-190): what is logged, in this order, with the word it is logged at -/
def messages (alpha : Char → Bool) (t : Sent) (i : Nat) : List (Nat × Str) :=
  let w := t.at i
  let p := t.at w.parent
  let u := t.rel i
  (chainDeps.filter (fun d => u == d && t.rel w.parent == d)).map (fun d => (i, d ++ mChain)) ++
  (headDeps.filter (fun d => u == d && decide (i < w.parent))).map (fun d => (i, d ++ mRightHeaded)) ++
  one (u == sCop && !([tAUX, tPRON].contains w.upos)) (i, mCopUpos) ++
  one (u == sMark && w.upos == tPRON) (i, mMarkUpos) ++
  one (u == sDet && !([tDET, tPRON].contains w.upos)) (i, mDetUpos) ++
  one (u == sPunct && w.upos != tPUNCT) (i, mPunctUpos) ++
  features t i ++
  one (w.feats mVerbForm == mFin && !([tVERB, tAUX].contains w.upos)) (i, mFinUpos) ++
  one (w.feats mVerbForm == mFin && w.feats mMood == []) (i, mFinMood) ++
  one (decide (((t.children i).filter (fun j => isIn sSubj (t.rel j) && sdep (t.at j).deprel != sOuter)).length > 1)) (i, mMultiSubj) ++
  one (decide (((t.children i).filter (fun j => t.rel j == sObj)).length > 1)) (i, mMultiObj) ++
  one (funcDeps.contains (t.rel w.parent) && !okUnder.contains u) (i, p.deprel ++ mChild) ++
  goes t i ++
  one (w.upos == tSYM && w.form != [] && w.form.all alpha) (i, mSymAlpha) ++
  one (w.upos == tPUNCT && w.form.any alpha) (i, mPunctAlpha) ++
  one (w.upos == tPUNCT && !punctDeps.contains u) (i, mPunctDeprel) ++
  one (w.upos == tPUNCT && w.nonproj) (i, mNonproj) ++
  one (w.upos == tPUNCT && w.gap && !p.gap) (i, mNonprojGap)

/-- All words of a sentence -/
def sentMessages (alpha : Char → Bool) (t : Sent) : List (Nat × Str) := (List.range' 1 t.words.length).flatMap (messages alpha t)

/-- `node.lemma if node.lemma != '_' else form` (markbugs.py:188) -/
def copLemma (w : Node) : Str := if w.lemma ≠ ['_'] then w.lemma else w.form

/-- A word of the document: the number of the sentence and of the word -/
abbrev Id := Nat × Nat

/-- The words with the relation `cop` in a document (markbugs.py:187-190), with their lemmas -/
def copsFrom : Nat → List Sent → List (Str × Id)
  | _, [] => []
  | s, t :: ts => ((List.range' 1 t.words.length).filter (fun i => t.rel i == sCop)).map (fun i => (copLemma (t.at i), s, i)) ++ copsFrom (s + 1) ts

def count (l : Str) (cs : List (Str × Id)) : Nat := (cs.filter (fun c => c.1 == l)).length

/-- The keys of a `Counter`, in the order in which they were inserted -/
def keys (acc : List Str) : List (Str × Id) → List Str
  | [] => acc
  | c :: cs => keys (if c.1 ∈ acc then acc else acc ++ [c.1]) cs

/-- `self.cop_count.most_common()` -/
def mostCommon (cs : List (Str × Id)) : List Str := pySort (fun a b => decide (count b cs ≤ count a cs)) (keys [] cs)

/-- The words reported because of their lemmas (markbugs.py:193-196) -/
def copMessages (max : Nat) (cs : List (Str × Id)) : List (Id × Str) :=
  ((mostCommon cs).drop max).flatMap (fun l => (cs.filter (fun c => c.1 == l)).map (fun c => (c.2, mCopMany)))

def docMessagesFrom (alpha : Char → Bool) : Nat → List Sent → List (Id × Str)
  | _, [] => []
  | s, t :: ts => (sentMessages alpha t).map (fun m => ((s, m.1), m.2)) ++ docMessagesFrom alpha (s + 1) ts

/-- All messages of a document -/
def docMessages (alpha : Char → Bool) (max : Nat) (ts : List Sent) : List (Id × Str) := docMessagesFrom alpha 0 ts ++ copMessages max (copsFrom 0 ts)

/-- `node.misc['Bug']` after a message (markbugs.py:75-79) -/
def logOne (bug m : Str) : Str := if bug = [] then m else if isIn m bug then bug else bug ++ ',' :: m

/-- `self.log` for all messages (markbugs.py:68-80): `Bug` of the words and `self.stats` -/
def logAll (keep : Str → Bool) : (Id → Str) × (Str → Nat) → List (Id × Str) → (Id → Str) × (Str → Nat)
  | s, [] => s
  | s, m :: ms =>
    if keep m.2 then logAll keep (fun x => if x = m.1 then logOne (s.1 x) m.2 else s.1 x, fun k => if k = m.2 then s.2 k + 1 else s.2 k) ms
    else logAll keep s ms

/-- The block -/
def block (alpha : Char → Bool) (keep : Str → Bool) (max : Nat) (ts : List Sent) (bug : Id → Str) : (Id → Str) × (Str → Nat) :=
  logAll keep (bug, fun _ => 0) (docMessages alpha max ts)

/-! ## Specification -/

/-- What the tests ask of a sentence -/
structure Clean (alpha : Char → Bool) (t : Sent) : Prop where
  chain : ∀ i, 1 ≤ i → i ≤ t.words.length → t.rel i ∈ chainDeps → t.rel (t.at i).parent ≠ t.rel i
  headed : ∀ i, 1 ≤ i → i ≤ t.words.length → t.rel i ∈ headDeps → (t.at i).parent ≤ i
  cop : ∀ i, 1 ≤ i → i ≤ t.words.length → t.rel i = sCop → (t.at i).upos = tAUX ∨ (t.at i).upos = tPRON
  mark : ∀ i, 1 ≤ i → i ≤ t.words.length → t.rel i = sMark → (t.at i).upos ≠ tPRON
  det : ∀ i, 1 ≤ i → i ≤ t.words.length → t.rel i = sDet → (t.at i).upos = tDET ∨ (t.at i).upos = tPRON
  punct : ∀ i, 1 ≤ i → i ≤ t.words.length → t.rel i = sPunct → (t.at i).upos = tPUNCT
  pron : ∀ i, 1 ≤ i → i ≤ t.words.length → (t.at i).upos = tPRON ∨ (t.at i).upos = tDET → (t.at i).feats mPronType ≠ []
  num : ∀ i, 1 ≤ i → i ≤ t.words.length → (t.at i).upos = tNUM → (t.at i).feats mNumType ≠ []
  verb : ∀ i, 1 ≤ i → i ≤ t.words.length → (t.at i).upos = tVERB → (t.at i).feats mVerbForm ≠ [] ∨ (splitOnce '_' t.zone).1 ∈ noVerbForm
  fin : ∀ i, 1 ≤ i → i ≤ t.words.length → (t.at i).feats mVerbForm = mFin → ((t.at i).upos = tVERB ∨ (t.at i).upos = tAUX) ∧ (t.at i).feats mMood ≠ []
  /-- A word does not have two subjects other than outer ones. -/
  subj : ∀ i, 1 ≤ i → i ≤ t.words.length → ∀ j k, 1 ≤ j → j < k → k ≤ t.words.length → (t.at j).parent = i → (t.at k).parent = i →
    sSubj <:+: t.rel j ∧ sdep (t.at j).deprel ≠ sOuter → ¬ (sSubj <:+: t.rel k ∧ sdep (t.at k).deprel ≠ sOuter)
  obj : ∀ i, 1 ≤ i → i ≤ t.words.length → ∀ j k, 1 ≤ j → j < k → k ≤ t.words.length → (t.at j).parent = i → (t.at k).parent = i → t.rel j = sObj → t.rel k ≠ sObj
  func : ∀ i, 1 ≤ i → i ≤ t.words.length → t.rel (t.at i).parent ∈ funcDeps → t.rel i ∈ okUnder
  /-- Between the first part and a part of a word written with spaces are only parts of it, and there are spaces after them. -/
  goes : ∀ i, 1 ≤ i → i ≤ t.words.length → t.rel i = sGoeswith → ∀ n, (t.at i).parent ≤ n → n < i → (n ≠ (t.at i).parent → t.rel n = sGoeswith) ∧ (t.at n).noSpace = false
  sym : ∀ i, 1 ≤ i → i ≤ t.words.length → (t.at i).upos = tSYM → (t.at i).form = [] ∨ ∃ c ∈ (t.at i).form, alpha c = false
  alpha : ∀ i, 1 ≤ i → i ≤ t.words.length → (t.at i).upos = tPUNCT → ∀ c ∈ (t.at i).form, alpha c = false
  punctDep : ∀ i, 1 ≤ i → i ≤ t.words.length → (t.at i).upos = tPUNCT → t.rel i ∈ punctDeps
  nonproj : ∀ i, 1 ≤ i → i ≤ t.words.length → (t.at i).upos = tPUNCT → (t.at i).nonproj = false
  gap : ∀ i, 1 ≤ i → i ≤ t.words.length → (t.at i).upos = tPUNCT → (t.at i).gap = true → (t.at (t.at i).parent).gap = true

/-! ## Lemmas -/

theorem isIn_iff {m s : Str} : isIn m s = true ↔ m <:+: s := by
  induction s with
  | nil => simp [isIn]
  | cons c s ih => simp only [isIn, Bool.or_eq_true, ih, List.isPrefixOf_iff_prefix, List.infix_cons_iff]

theorem one_nil {c : Bool} {m : Nat × Str} : one c m = [] ↔ c = false := by
  unfold one
  cases c <;> simp

theorem goes_nil {t : Sent} {i : Nat} : goes t i = [] ↔ (t.rel i = sGoeswith → ∀ n, (t.at i).parent ≤ n → n < i → (n ≠ (t.at i).parent → t.rel n = sGoeswith) ∧ (t.at n).noSpace = false) := by
  unfold goes
  by_cases h : t.rel i = sGoeswith ∧ (t.at i).parent < i
  · rw [if_pos h]
    obtain ⟨k, hk⟩ : ∃ k, i - (t.at i).parent = k + 1 := ⟨i - (t.at i).parent - 1, by omega⟩
    have htail : (List.range' (t.at i).parent (i - (t.at i).parent)).tail = List.range' ((t.at i).parent + 1) k := by
      rw [hk, List.range'_succ, List.tail_cons]
    dsimp only
    rw [htail]
    cases hf : (List.range' ((t.at i).parent + 1) k).find? (fun n => t.rel n != sGoeswith) with
    | some n =>
      refine ⟨fun e => (by cases e), fun e => ?_⟩
      have hn := List.mem_of_find?_eq_some hf
      have hp := List.find?_some hf
      rw [List.mem_range'_1] at hn
      have := (e h.1 n (by omega) (by omega)).1 (by omega)
      rw [this] at hp
      simp at hp
    | none =>
      rw [List.find?_eq_none] at hf
      dsimp only
      rw [List.map_eq_nil_iff, List.filter_eq_nil_iff]
      constructor
      · intro e _ n h1 h2
        refine ⟨fun hne => ?_, ?_⟩
        · have := hf n (by rw [List.mem_range'_1]; omega)
          simpa using this
        · have := e n (by rw [List.mem_range'_1]; omega)
          simpa using this
      · intro e n hn
        rw [List.mem_range'_1] at hn
        have := (e h.1 n (by omega) (by omega)).2
        simp [this]
  · rw [if_neg h]
    refine ⟨fun _ hr n h1 h2 => ?_, fun _ => rfl⟩
    exact absurd ⟨hr, by omega⟩ h

theorem features_nil {t : Sent} {i : Nat} : features t i = [] ↔ ((t.at i).upos = tPRON ∨ (t.at i).upos = tDET → (t.at i).feats mPronType ≠ []) ∧ ((t.at i).upos = tNUM → (t.at i).feats mNumType ≠ []) ∧
    ((t.at i).upos = tVERB → (t.at i).feats mVerbForm ≠ [] ∨ (splitOnce '_' t.zone).1 ∈ noVerbForm) := by
  have h1 : mPronType ≠ mVerbForm := by decide
  have h2 : mNumType ≠ mVerbForm := by decide
  unfold features
  rw [List.map_eq_nil_iff, List.filter_eq_nil_iff]
  simp only [required, List.mem_cons, List.not_mem_nil, or_false, forall_eq_or_imp, forall_eq, Bool.and_eq_true, beq_iff_eq, Bool.or_eq_true, bne_iff_ne, Bool.not_eq_true']
  simp only [ne_eq, h1, h2, not_false_eq_true, true_or, and_true, not_true_eq_false, false_or, not_and]
  constructor
  · rintro ⟨a, b, c, d⟩
    refine ⟨fun h => h.elim a b, c, fun h => ?_⟩
    by_cases hf : (t.at i).feats mVerbForm = []
    · right
      have := d ⟨h, hf⟩
      simpa using this
    · exact Or.inl hf
  · rintro ⟨a, b, c⟩
    refine ⟨fun h => a (Or.inl h), fun h => a (Or.inr h), b, fun h hf => ?_⟩
    rcases c h.1 with h' | h'
    · exact h' h.2
    · rw [List.contains_eq_mem, decide_eq_false_iff_not] at hf
      exact hf h'

theorem filter_deps_nil {ds : List Str} {u : Str} {c : Str → Bool} {f : Str → Nat × Str} : (ds.filter (fun d => u == d && c d)).map f = [] ↔ (u ∈ ds → c u = false) := by
  rw [List.map_eq_nil_iff, List.filter_eq_nil_iff]
  constructor
  · intro h hu
    have := h u hu
    simpa using this
  · intro h d hd he
    simp only [Bool.and_eq_true, beq_iff_eq] at he
    obtain ⟨rfl, he⟩ := he
    rw [h hd] at he
    cases he

theorem messages_nil {alpha : Char → Bool} {t : Sent} {i : Nat} : messages alpha t i = [] ↔
    (t.rel i ∈ chainDeps → t.rel (t.at i).parent ≠ t.rel i) ∧ (t.rel i ∈ headDeps → (t.at i).parent ≤ i) ∧
    (t.rel i = sCop → (t.at i).upos = tAUX ∨ (t.at i).upos = tPRON) ∧ (t.rel i = sMark → (t.at i).upos ≠ tPRON) ∧
    (t.rel i = sDet → (t.at i).upos = tDET ∨ (t.at i).upos = tPRON) ∧ (t.rel i = sPunct → (t.at i).upos = tPUNCT) ∧
    ((t.at i).upos = tPRON ∨ (t.at i).upos = tDET → (t.at i).feats mPronType ≠ []) ∧ ((t.at i).upos = tNUM → (t.at i).feats mNumType ≠ []) ∧
    ((t.at i).upos = tVERB → (t.at i).feats mVerbForm ≠ [] ∨ (splitOnce '_' t.zone).1 ∈ noVerbForm) ∧
    ((t.at i).feats mVerbForm = mFin → ((t.at i).upos = tVERB ∨ (t.at i).upos = tAUX) ∧ (t.at i).feats mMood ≠ []) ∧
    ((t.children i).filter (fun j => isIn sSubj (t.rel j) && sdep (t.at j).deprel != sOuter)).length ≤ 1 ∧ ((t.children i).filter (fun j => t.rel j == sObj)).length ≤ 1 ∧
    (t.rel (t.at i).parent ∈ funcDeps → t.rel i ∈ okUnder) ∧
    (t.rel i = sGoeswith → ∀ n, (t.at i).parent ≤ n → n < i → (n ≠ (t.at i).parent → t.rel n = sGoeswith) ∧ (t.at n).noSpace = false) ∧
    ((t.at i).upos = tSYM → (t.at i).form = [] ∨ ∃ c ∈ (t.at i).form, alpha c = false) ∧ ((t.at i).upos = tPUNCT → ∀ c ∈ (t.at i).form, alpha c = false) ∧
    ((t.at i).upos = tPUNCT → t.rel i ∈ punctDeps) ∧ ((t.at i).upos = tPUNCT → (t.at i).nonproj = false) ∧
    ((t.at i).upos = tPUNCT → (t.at i).gap = true → (t.at (t.at i).parent).gap = true) := by
  unfold messages
  dsimp only
  simp only [List.append_eq_nil_iff, filter_deps_nil, one_nil, features_nil, goes_nil]
  simp only [and_assoc]
  have b : ∀ {a c : Bool}, (a && c) = false ↔ (a = true → c = false) := by intro a c; cases a <;> cases c <;> simp
  simp only [b]
  simp only [beq_iff_eq, beq_eq_false_iff_ne, ne_eq, decide_eq_false_iff_not, Nat.not_lt, Bool.not_eq_false', List.contains_iff_mem, List.mem_cons, List.not_mem_nil, or_false, bne_eq_false_iff_eq,
    bne_iff_ne, List.all_eq_false, List.any_eq_false, Bool.not_eq_true, gt_iff_lt, Nat.not_lt, Bool.and_eq_true]
  constructor
  · rintro ⟨h1, h2, h3, h4, h5, h6, h7, h8, h9, h10, h11, h12, h13, h14, h15, h16, h17, h18, h19, h20⟩
    refine ⟨h1, h2, h3, h4, h5, h6, h7, h8, h9, fun h => ⟨h10 h, h11 h⟩, h12, h13, h14, h15, fun h => ?_, h17, h18, h19, fun h g => h20 ⟨h, g⟩⟩
    by_cases hf : (t.at i).form = []
    · exact Or.inl hf
    · exact Or.inr (h16 ⟨h, hf⟩)
  · rintro ⟨h1, h2, h3, h4, h5, h6, h7, h8, h9, h10, h12, h13, h14, h15, h16, h17, h18, h19, h20⟩
    exact ⟨h1, h2, h3, h4, h5, h6, h7, h8, h9, fun h => (h10 h).1, fun h => (h10 h).2, h12, h13, h14, h15, fun h => (h16 h.1).resolve_left h.2, h17, h18, h19, fun h => h20 h.1 h.2⟩

theorem two_of {P : Nat → Bool} : ∀ (n a : Nat), ((List.range' a n).filter P).length ≤ 1 ↔ ∀ j k, a ≤ j → j < k → k < a + n → P j = true → ¬ P k = true
  | 0, a => by simp; intro j k h1 h2 h3; omega
  | n + 1, a => by
    rw [List.range'_succ, List.filter_cons]
    have ih := two_of (P := P) n (a + 1)
    by_cases hP : P a = true
    · rw [if_pos hP, List.length_cons]
      have hz : ((List.range' (a + 1) n).filter P).length + 1 ≤ 1 ↔ ∀ k, a + 1 ≤ k → k < a + 1 + n → ¬ P k = true := by
        rw [show ∀ x : Nat, x + 1 ≤ 1 ↔ x = 0 by intro x; omega, List.length_eq_zero_iff, List.filter_eq_nil_iff]
        simp only [List.mem_range'_1, and_imp]
      rw [hz]
      constructor
      · intro h j k h1 h2 h3 _
        exact h k (by omega) (by omega)
      · intro h k h1 h2
        exact h a k (Nat.le_refl _) (by omega) (by omega) hP
    · rw [if_neg hP, ih]
      constructor
      · intro h j k h1 h2 h3 h4
        refine h j k ?_ h2 (by omega) h4
        rcases Nat.lt_or_eq_of_le h1 with h | h
        · omega
        · exact absurd (h ▸ h4) hP
      · intro h j k h1 h2 h3
        exact h j k (by omega) h2 (by omega)

theorem subj_two {t : Sent} {i : Nat} : ((t.children i).filter (fun j => isIn sSubj (t.rel j) && sdep (t.at j).deprel != sOuter)).length ≤ 1 ↔
    ∀ j k, 1 ≤ j → j < k → k ≤ t.words.length → (t.at j).parent = i → (t.at k).parent = i →
      sSubj <:+: t.rel j ∧ sdep (t.at j).deprel ≠ sOuter → ¬ (sSubj <:+: t.rel k ∧ sdep (t.at k).deprel ≠ sOuter) := by
  unfold Sent.children
  rw [List.filter_filter, two_of]
  simp only [Bool.and_eq_true, bne_iff_ne, beq_iff_eq, isIn_iff]
  constructor
  · intro h j k h1 h2 h3 h4 h5 h6 h7
    exact h j k h1 h2 (by omega) ⟨h6, h4⟩ ⟨h7, h5⟩
  · intro h j k h1 h2 h3 h4 h5
    exact h j k h1 h2 (by omega) h4.2 h5.2 h4.1 h5.1

theorem obj_two {t : Sent} {i : Nat} : ((t.children i).filter (fun j => t.rel j == sObj)).length ≤ 1 ↔
    ∀ j k, 1 ≤ j → j < k → k ≤ t.words.length → (t.at j).parent = i → (t.at k).parent = i → t.rel j = sObj → t.rel k ≠ sObj := by
  unfold Sent.children
  rw [List.filter_filter, two_of]
  simp only [Bool.and_eq_true, beq_iff_eq]
  constructor
  · intro h j k h1 h2 h3 h4 h5 h6 h7
    exact h j k h1 h2 (by omega) ⟨h6, h4⟩ ⟨h7, h5⟩
  · intro h j k h1 h2 h3 h4 h5
    exact h j k h1 h2 (by omega) h4.2 h5.2 h4.1 h5.1

/-- The items of `Bug` -/
def items (bug : Str) : List Str := if bug = [] then [] else split ',' bug

theorem split_cons_other {c x : Char} {s : Str} (h : x ≠ c) : ∃ p ps, split c s = p :: ps ∧ split c (x :: s) = (x :: p) :: ps := by
  obtain ⟨p, ps, e⟩ := List.exists_cons_of_ne_nil (split_ne_nil c s)
  exact ⟨p, ps, e, by rw [split, if_neg h, e]⟩

theorem split_prefix {c : Char} : ∀ {m s : Str}, c ∉ m → m <+: s → ∃ p ∈ split c s, m <+: p
  | [], s, _, _ => by
    obtain ⟨p, ps, e⟩ := List.exists_cons_of_ne_nil (split_ne_nil c s)
    exact ⟨p, by rw [e]; exact List.mem_cons_self, List.nil_prefix⟩
  | a :: m, s, hm, h => by
    suffices ∀ (m s : Str), c ∉ m → m <+: s → ∃ p ps, split c s = p :: ps ∧ m <+: p by
      obtain ⟨p, ps, e, h⟩ := this (a :: m) s hm h
      exact ⟨p, by rw [e]; exact List.mem_cons_self, h⟩
    intro m
    induction m with
    | nil =>
      intro s _ _
      obtain ⟨p, ps, e⟩ := List.exists_cons_of_ne_nil (split_ne_nil c s)
      exact ⟨p, ps, e, List.nil_prefix⟩
    | cons a m ih =>
      intro s hm h
      obtain ⟨r, rfl⟩ := h
      have ha : a ≠ c := fun e => hm (by rw [e]; exact List.mem_cons_self)
      obtain ⟨p, ps, e1, e2⟩ := split_cons_other (s := m ++ r) ha
      obtain ⟨p', ps', e', h'⟩ := ih (m ++ r) (fun e => hm (List.mem_cons_of_mem _ e)) (List.prefix_append _ _)
      rw [e1] at e'
      cases e'
      exact ⟨a :: p, ps, e2, List.cons_prefix_cons.2 ⟨rfl, h'⟩⟩

theorem split_infix {c : Char} {m : Str} (hm : c ∉ m) : ∀ {s : Str}, m <:+: s → ∃ p ∈ split c s, m <:+: p
  | [], h => ⟨[], by simp [split], h⟩
  | x :: s, h => by
    rcases List.infix_cons_iff.1 h with h | h
    · obtain ⟨p, hp, h⟩ := split_prefix hm h
      exact ⟨p, hp, h.isInfix⟩
    · obtain ⟨p, hp, h⟩ := split_infix hm h
      by_cases hx : x = c
      · exact ⟨p, by rw [split, if_pos hx]; exact List.mem_cons_of_mem _ hp, h⟩
      · obtain ⟨q, qs, e1, e2⟩ := split_cons_other (s := s) hx
        rw [e1] at hp
        rcases List.mem_cons.1 hp with rfl | hp
        · exact ⟨x :: p, by rw [e2]; exact List.mem_cons_self, h.trans (List.suffix_cons x p).isInfix⟩
        · exact ⟨p, by rw [e2]; exact List.mem_cons_of_mem _ hp, h⟩

theorem split_snoc {c : Char} {m : Str} (hm : c ∉ m) : ∀ (s : Str), split c (s ++ c :: m) = split c s ++ [m]
  | [] => by simp [split, split_of_not_mem hm]
  | x :: s => by
    have ih := split_snoc hm s
    by_cases hx : x = c
    · simp [split, hx, ih]
    · obtain ⟨q, qs, e1, e2⟩ := split_cons_other (s := s) hx
      obtain ⟨q', qs', e1', e2'⟩ := split_cons_other (s := s ++ c :: m) hx
      rw [List.cons_append, e2', e2]
      rw [ih, e1] at e1'
      cases e1'
      rfl

theorem items_logOne {bug m : Str} (hm : ',' ∉ m) (h0 : m ≠ []) : items (logOne bug m) = if bug ≠ [] ∧ m <:+: bug then items bug else items bug ++ [m] := by
  unfold logOne
  by_cases hb : bug = []
  · rw [if_pos hb, if_neg (fun h => h.1 hb)]
    simp [items, hb, h0, split_of_not_mem hm]
  · rw [if_neg hb]
    by_cases hi : isIn m bug = true
    · rw [if_pos hi, if_pos ⟨hb, isIn_iff.1 hi⟩]
    · rw [if_neg hi, if_neg (fun h => hi (isIn_iff.2 h.2))]
      unfold items
      rw [if_neg (by simp), if_neg hb, split_snoc hm]

theorem prefix_logOne (bug m : Str) : bug <+: logOne bug m := by
  unfold logOne
  split
  · rename_i h; rw [h]; exact List.nil_prefix
  · split
    · exact List.prefix_refl _
    · exact List.prefix_append _ _

theorem infix_logOne (bug m : Str) : m <:+: logOne bug m := by
  unfold logOne
  split
  · exact List.infix_refl _
  · split
    · rename_i h; exact isIn_iff.1 h
    · exact ⟨bug ++ [','], [], by simp⟩

theorem prefix_fold : ∀ (ms : List Str) (bug : Str), bug <+: ms.foldl logOne bug
  | [], _ => List.prefix_refl _
  | m :: ms, bug => (prefix_logOne bug m).trans (prefix_fold ms _)

theorem infix_fold : ∀ (ms : List Str) (bug : Str), ∀ m ∈ ms, m <:+: ms.foldl logOne bug
  | [], _, _, h => nomatch h
  | x :: ms, bug, m, h => by
    rcases List.mem_cons.1 h with rfl | h
    · exact (infix_logOne bug m).trans (prefix_fold ms _).isInfix
    · exact infix_fold ms _ m h

theorem items_fold : ∀ (ms : List Str) (bug : Str), (∀ m ∈ ms, ',' ∉ m ∧ m ≠ []) → ∀ b ∈ items (ms.foldl logOne bug), b ∈ items bug ∨ b ∈ ms
  | [], _, _, _, hb => Or.inl hb
  | m :: ms, bug, h, b, hb => by
    rcases items_fold ms _ (fun x hx => h x (List.mem_cons_of_mem _ hx)) b hb with h1 | h1
    · rw [items_logOne (h m List.mem_cons_self).1 (h m List.mem_cons_self).2] at h1
      split at h1
      · exact Or.inl h1
      · rcases List.mem_append.1 h1 with h1 | h1
        · exact Or.inl h1
        · exact Or.inr (by rw [List.mem_singleton.1 h1]; exact List.mem_cons_self)
    · exact Or.inr (List.mem_cons_of_mem _ h1)

theorem items_mono : ∀ (ms : List Str) (bug : Str), (∀ m ∈ ms, ',' ∉ m ∧ m ≠ []) → items bug <+: items (ms.foldl logOne bug)
  | [], _, _ => List.prefix_refl _
  | m :: ms, bug, h => by
    refine List.IsPrefix.trans ?_ (items_mono ms _ (fun x hx => h x (List.mem_cons_of_mem _ hx)))
    rw [items_logOne (h m List.mem_cons_self).1 (h m List.mem_cons_self).2]
    split
    · exact List.prefix_refl _
    · exact List.prefix_append _ _

theorem items_exact : ∀ (ms : List Str) (bug : Str), (∀ m ∈ ms, ',' ∉ m ∧ m ≠ []) → (∀ m ∈ ms, ∀ a, a ∈ items bug ∨ a ∈ ms → m <:+: a → m = a) → ∀ m ∈ ms, m ∈ items (ms.foldl logOne bug)
  | [], _, _, _, _, hm => nomatch hm
  | x :: ms, bug, h, hc, m, hm => by
    have hx := h x List.mem_cons_self
    have hx' : x ∈ items (logOne bug x) := by
      rw [items_logOne hx.1 hx.2]
      split
      · rename_i hi
        obtain ⟨p, hp, hip⟩ := split_infix hx.1 hi.2
        have hp' : p ∈ items bug := by unfold items; rw [if_neg hi.1]; exact hp
        have e := hc x List.mem_cons_self p (Or.inl hp') hip
        rw [e]
        exact hp'
      · simp
    rcases List.mem_cons.1 hm with rfl | hm
    · exact (items_mono ms _ (fun y hy => h y (List.mem_cons_of_mem _ hy))).subset hx'
    · refine items_exact ms _ (fun y hy => h y (List.mem_cons_of_mem _ hy)) (fun y hy a ha hya => ?_) m hm
      refine hc y (List.mem_cons_of_mem _ hy) a ?_ hya
      rcases ha with ha | ha
      · rcases items_fold [x] bug (fun z hz => by rw [List.mem_singleton.1 hz]; exact hx) a ha with h1 | h1
        · exact Or.inl h1
        · exact Or.inr (by rw [List.mem_singleton.1 h1]; exact List.mem_cons_self)
      · exact Or.inr (List.mem_cons_of_mem _ ha)

theorem fold_again : ∀ (ms : List Str) (bug : Str), (∀ m ∈ ms, m <:+: bug) → ms.foldl logOne bug = bug
  | [], _, _ => rfl
  | m :: ms, bug, h => by
    have e : logOne bug m = bug := by
      have hm := h m List.mem_cons_self
      unfold logOne
      split
      · rename_i hb; rw [hb] at hm; rw [hb]; exact List.infix_nil.1 hm
      · rw [if_pos (isIn_iff.2 hm)]
    rw [List.foldl_cons, e]
    exact fold_again ms bug (fun x hx => h x (List.mem_cons_of_mem _ hx))

theorem items_nodup : ∀ (ms : List Str) (bug : Str), (∀ m ∈ ms, ',' ∉ m ∧ m ≠ []) → (items bug).Nodup → (items (ms.foldl logOne bug)).Nodup
  | [], _, _, h => h
  | m :: ms, bug, h, hn => by
    refine items_nodup ms _ (fun x hx => h x (List.mem_cons_of_mem _ hx)) ?_
    rw [items_logOne (h m List.mem_cons_self).1 (h m List.mem_cons_self).2]
    split
    · exact hn
    · rename_i hi
      rw [List.nodup_append]
      refine ⟨hn, by simp, fun a ha b hb e => ?_⟩
      rw [List.mem_singleton] at hb
      subst hb e
      refine hi ?_
      unfold items at ha
      split at ha
      · cases ha
      · rename_i h0
        refine ⟨h0, ?_⟩
        have := join_split ',' bug
        rw [← this]
        obtain ⟨l1, l2, e⟩ := List.append_of_mem ha
        rw [e]
        clear hi e this
        induction l1 with
        | nil =>
          cases l2 with
          | nil => exact List.infix_refl _
          | cons b l => simp only [List.nil_append, join]; exact ⟨[], [','] ++ join [','] (b :: l), by simp⟩
        | cons b l1 ih =>
          have : ∃ y ys, l1 ++ a :: l2 = y :: ys := by cases l1 with
            | nil => exact ⟨_, _, rfl⟩
            | cons y ys => exact ⟨_, _, rfl⟩
          obtain ⟨y, ys, e⟩ := this
          rw [List.cons_append, e]
          rw [e] at ih
          simp only [join]
          exact ih.trans ⟨b ++ [','], [], by simp⟩

/-- The messages at a word that pass the parameters -/
def kept (keep : Str → Bool) (ms : List (Id × Str)) (x : Id) : List Str := (ms.filter (fun m => decide (m.1 = x) && keep m.2)).map (·.2)

theorem logAll_at (keep : Str → Bool) : ∀ (ms : List (Id × Str)) (s : (Id → Str) × (Str → Nat)) (x : Id), (logAll keep s ms).1 x = (kept keep ms x).foldl logOne (s.1 x)
  | [], _, _ => rfl
  | m :: ms, s, x => by
    rw [logAll]
    by_cases hk : keep m.2 = true
    · rw [if_pos hk, logAll_at keep ms]
      by_cases hx : x = m.1
      · subst hx
        simp [kept, hk]
      · have hx' : ¬ m.1 = x := fun e => hx e.symm
        simp [kept, hk, hx, hx']
    · rw [if_neg hk, logAll_at keep ms]
      simp [kept, hk]

theorem logAll_stats (keep : Str → Bool) : ∀ (ms : List (Id × Str)) (s : (Id → Str) × (Str → Nat)) (k : Str),
    (logAll keep s ms).2 k = s.2 k + (ms.filter (fun m => keep m.2 && decide (m.2 = k))).length
  | [], _, _ => rfl
  | m :: ms, s, k => by
    rw [logAll]
    by_cases hk : keep m.2 = true
    · rw [if_pos hk, logAll_stats keep ms]
      by_cases hx : k = m.2
      · subst hx
        simp [hk]
        omega
      · have hx' : ¬ m.2 = k := fun e => hx e.symm
        simp [hk, hx, hx']
    · rw [if_neg hk, logAll_stats keep ms]
      simp [hk]

/-! ## Property C173 -/

/-- **C173 (the tests)** Nothing is reported in a sentence exactly if it is as the tests ask. -/
theorem C173_clean (alpha : Char → Bool) (t : Sent) : sentMessages alpha t = [] ↔ Clean alpha t := by
  unfold sentMessages
  rw [List.flatMap_eq_nil_iff]
  have hm : ∀ i, i ∈ List.range' 1 t.words.length ↔ 1 ≤ i ∧ i ≤ t.words.length := by
    intro i
    rw [List.mem_range'_1]
    omega
  simp only [hm, messages_nil, subj_two, obj_two]
  constructor
  · intro h
    exact ⟨fun i a b => (h i ⟨a, b⟩).1, fun i a b => (h i ⟨a, b⟩).2.1, fun i a b => (h i ⟨a, b⟩).2.2.1, fun i a b => (h i ⟨a, b⟩).2.2.2.1, fun i a b => (h i ⟨a, b⟩).2.2.2.2.1,
      fun i a b => (h i ⟨a, b⟩).2.2.2.2.2.1, fun i a b => (h i ⟨a, b⟩).2.2.2.2.2.2.1, fun i a b => (h i ⟨a, b⟩).2.2.2.2.2.2.2.1, fun i a b => (h i ⟨a, b⟩).2.2.2.2.2.2.2.2.1,
      fun i a b => (h i ⟨a, b⟩).2.2.2.2.2.2.2.2.2.1, fun i a b => (h i ⟨a, b⟩).2.2.2.2.2.2.2.2.2.2.1, fun i a b => (h i ⟨a, b⟩).2.2.2.2.2.2.2.2.2.2.2.1,
      fun i a b => (h i ⟨a, b⟩).2.2.2.2.2.2.2.2.2.2.2.2.1, fun i a b => (h i ⟨a, b⟩).2.2.2.2.2.2.2.2.2.2.2.2.2.1, fun i a b => (h i ⟨a, b⟩).2.2.2.2.2.2.2.2.2.2.2.2.2.2.1,
      fun i a b => (h i ⟨a, b⟩).2.2.2.2.2.2.2.2.2.2.2.2.2.2.2.1, fun i a b => (h i ⟨a, b⟩).2.2.2.2.2.2.2.2.2.2.2.2.2.2.2.2.1,
      fun i a b => (h i ⟨a, b⟩).2.2.2.2.2.2.2.2.2.2.2.2.2.2.2.2.2.1, fun i a b => (h i ⟨a, b⟩).2.2.2.2.2.2.2.2.2.2.2.2.2.2.2.2.2.2⟩
  · rintro ⟨h1, h2, h3, h4, h5, h6, h7, h8, h9, h10, h12, h13, h14, h15, h16, h17, h18, h19, h20⟩ i ⟨a, b⟩
    exact ⟨h1 i a b, h2 i a b, h3 i a b, h4 i a b, h5 i a b, h6 i a b, h7 i a b, h8 i a b, h9 i a b, h10 i a b, h12 i a b, h13 i a b, h14 i a b, h15 i a b, h16 i a b, h17 i a b, h18 i a b,
      h19 i a b, h20 i a b⟩

/-- **C173 (marks)** `Bug` begins with what it was; its items are those it had and messages that passed the parameters for this word; each such message is somewhere in it, and is an item if no
such message is part of another item. -/
theorem C173_marks (alpha : Char → Bool) (keep : Str → Bool) (max : Nat) (ts : List Sent) (bug : Id → Str) (x : Id)
    (hm : ∀ m ∈ kept keep (docMessages alpha max ts) x, ',' ∉ m ∧ m ≠ []) :
    bug x <+: (block alpha keep max ts bug).1 x ∧ (∀ b ∈ items ((block alpha keep max ts bug).1 x), b ∈ items (bug x) ∨ b ∈ kept keep (docMessages alpha max ts) x) ∧
      (∀ m ∈ kept keep (docMessages alpha max ts) x, m <:+: (block alpha keep max ts bug).1 x) ∧
      ((∀ m ∈ kept keep (docMessages alpha max ts) x, ∀ a, a ∈ items (bug x) ∨ a ∈ kept keep (docMessages alpha max ts) x → m <:+: a → m = a) →
        ∀ m ∈ kept keep (docMessages alpha max ts) x, m ∈ items ((block alpha keep max ts bug).1 x)) := by
  unfold block
  rw [logAll_at]
  exact ⟨prefix_fold _ _, items_fold _ _ hm, infix_fold _ _, items_exact _ _ hm⟩

/-- **C173 (again)** A second run changes nothing and counts the same. -/
theorem C173_again (alpha : Char → Bool) (keep : Str → Bool) (max : Nat) (ts : List Sent) (bug : Id → Str) :
    block alpha keep max ts (block alpha keep max ts bug).1 = block alpha keep max ts bug := by
  have h1 : ∀ x, (block alpha keep max ts (block alpha keep max ts bug).1).1 x = (block alpha keep max ts bug).1 x := by
    intro x
    unfold block
    rw [logAll_at]
    refine fold_again _ _ ?_
    rw [logAll_at]
    exact infix_fold _ _
  have h2 : ∀ k, (block alpha keep max ts (block alpha keep max ts bug).1).2 k = (block alpha keep max ts bug).2 k := by
    intro k
    unfold block
    rw [logAll_stats, logAll_stats]
  exact Prod.ext (funext h1) (funext h2)

/-- **C173 (statistics)** Messages are counted as often as they are logged. -/
theorem C173_stats (alpha : Char → Bool) (keep : Str → Bool) (max : Nat) (ts : List Sent) (bug : Id → Str) (k : Str) :
    (block alpha keep max ts bug).2 k = if keep k = true then ((docMessages alpha max ts).map (·.2)).count k else 0 := by
  unfold block
  rw [logAll_stats, Nat.zero_add]
  split
  · rename_i hk
    induction docMessages alpha max ts with
    | nil => rfl
    | cons m ms ih =>
      rw [List.map_cons, List.count_cons, List.filter_cons]
      by_cases e : m.2 = k
      · simp [e, hk, ih]
      · simp [e, ih]
  · rename_i hk
    rw [List.length_eq_zero_iff, List.filter_eq_nil_iff]
    intro m _ h
    simp only [Bool.and_eq_true, decide_eq_true_eq] at h
    rw [h.2] at h
    exact hk h.1

theorem mem_keys : ∀ (cs : List (Str × Id)) (acc : List Str) (l : Str), l ∈ keys acc cs ↔ l ∈ acc ∨ ∃ c ∈ cs, c.1 = l
  | [], acc, l => by simp [keys]
  | c :: cs, acc, l => by
    rw [keys, mem_keys cs]
    by_cases h : c.1 ∈ acc
    · rw [if_pos h]
      constructor
      · rintro (h1 | ⟨d, hd, e⟩)
        · exact Or.inl h1
        · exact Or.inr ⟨d, List.mem_cons_of_mem _ hd, e⟩
      · rintro (h1 | ⟨d, hd, e⟩)
        · exact Or.inl h1
        · rcases List.mem_cons.1 hd with rfl | hd
          · exact Or.inl (e ▸ h)
          · exact Or.inr ⟨d, hd, e⟩
    · rw [if_neg h, List.mem_append, List.mem_singleton]
      constructor
      · rintro ((h1 | h1) | ⟨d, hd, e⟩)
        · exact Or.inl h1
        · exact Or.inr ⟨c, List.mem_cons_self, h1.symm⟩
        · exact Or.inr ⟨d, List.mem_cons_of_mem _ hd, e⟩
      · rintro (h1 | ⟨d, hd, e⟩)
        · exact Or.inl (Or.inl h1)
        · rcases List.mem_cons.1 hd with rfl | hd
          · exact Or.inl (Or.inr e.symm)
          · exact Or.inr ⟨d, hd, e⟩

theorem nodup_keys : ∀ (cs : List (Str × Id)) (acc : List Str), acc.Nodup → (keys acc cs).Nodup
  | [], _, h => h
  | c :: cs, acc, h => by
    rw [keys]
    refine nodup_keys cs _ ?_
    split
    · exact h
    · rename_i hc
      rw [List.nodup_append]
      exact ⟨h, by simp, fun a ha b hb e => hc (by rw [List.mem_singleton] at hb; rw [← hb, ← e]; exact ha)⟩

/-- **C173 (lemmas of copulas)** All copulas are reported but those with the `max` most frequent lemmas, and with all lemmas if there are at most `max`. -/
theorem C173_cop (max : Nat) (cs : List (Str × Id)) (hd : (cs.map (·.2)).Nodup) : ∃ top : List Str, top.Nodup ∧ (∀ l ∈ top, ∃ c ∈ cs, c.1 = l) ∧ top.length ≤ max ∧
    (top.length = max ∨ ∀ c ∈ cs, c.1 ∈ top) ∧ (∀ l ∈ top, ∀ c ∈ cs, c.1 ∉ top → count c.1 cs ≤ count l cs) ∧ ∀ c ∈ cs, (c.2, mCopMany) ∈ copMessages max cs ↔ c.1 ∉ top := by
  have hperm : (mostCommon cs).Perm (keys [] cs) := pySort_perm _ _
  have hnd : (mostCommon cs).Nodup := hperm.nodup_iff.2 (nodup_keys cs [] List.nodup_nil)
  have hmem : ∀ l, l ∈ mostCommon cs ↔ ∃ c ∈ cs, c.1 = l := by
    intro l
    rw [hperm.mem_iff, mem_keys]
    simp
  have hsort : (mostCommon cs).Pairwise (fun a b => decide (count b cs ≤ count a cs) = true) := by
    refine pySort_pairwise (fun a b c h1 h2 => ?_) (fun a b => ?_) _
    · simp only [decide_eq_true_eq] at *
      omega
    · simp only [decide_eq_true_eq]
      omega
  have hcut : mostCommon cs = (mostCommon cs).take max ++ (mostCommon cs).drop max := (List.take_append_drop max _).symm
  have hnot : ∀ l, l ∈ mostCommon cs → (l ∈ (mostCommon cs).drop max ↔ l ∉ (mostCommon cs).take max) := by
    intro l hl
    rw [hcut, List.nodup_append] at hnd
    constructor
    · intro h1 h2
      exact hnd.2.2 l h2 l h1 rfl
    · intro h1
      rw [hcut] at hl
      exact (List.mem_append.1 hl).resolve_left h1
  refine ⟨(mostCommon cs).take max, hnd.sublist (List.take_sublist _ _), fun l hl => (hmem l).1 (List.mem_of_mem_take hl), by rw [List.length_take]; omega, ?_, ?_, ?_⟩
  · by_cases h : max ≤ (mostCommon cs).length
    · exact Or.inl (by rw [List.length_take]; omega)
    · refine Or.inr (fun c hc => ?_)
      rw [List.take_of_length_le (by omega)]
      exact (hmem _).2 ⟨c, hc, rfl⟩
  · intro l hl c hc hnc
    have hc' := (hnot c.1 ((hmem _).2 ⟨c, hc, rfl⟩)).2 hnc
    rw [hcut, List.pairwise_append] at hsort
    simpa using hsort.2.2 l hl c.1 hc'
  · intro c hc
    rw [← hnot c.1 ((hmem _).2 ⟨c, hc, rfl⟩)]
    unfold copMessages
    rw [List.mem_flatMap]
    constructor
    · rintro ⟨l, hl, h⟩
      obtain ⟨d, hdm, e⟩ := List.mem_map.1 h
      obtain ⟨hdc, hdl⟩ := List.mem_filter.1 hdm
      have e1 : d.2 = c.2 := (Prod.mk.inj e).1
      have : d = c := by
        clear hcut hnot hsort hmem hnd hperm hl h hdm
        induction cs with
        | nil => cases hc
        | cons a cs ih =>
          rw [List.map_cons] at hd
          have hd := List.nodup_cons.1 hd
          rcases List.mem_cons.1 hc with rfl | hc
          · rcases List.mem_cons.1 hdc with rfl | hdc
            · rfl
            · exact absurd (List.mem_map.2 ⟨d, hdc, e1⟩) hd.1
          · rcases List.mem_cons.1 hdc with rfl | hdc
            · exact (hd.1 (List.mem_map.2 ⟨c, ‹c ∈ cs›, e1.symm⟩)).elim
            · exact ih hd.2 hc hdc
      rw [← this, show d.1 = l by simpa using hdl]
      exact hl
    · intro h
      exact ⟨c.1, h, List.mem_map.2 ⟨c, List.mem_filter.2 ⟨hc, by simp⟩, rfl⟩⟩

/-- The copulas of a document have different names. -/
theorem C173_cop_ids (ts : List Sent) : ((copsFrom 0 ts).map (·.2)).Nodup := by
  suffices ∀ (ts : List Sent) (s : Nat), ((copsFrom s ts).map (·.2)).Nodup ∧ ∀ c ∈ copsFrom s ts, s ≤ c.2.1 from (this ts 0).1
  intro ts
  induction ts with
  | nil => intro s; exact ⟨List.nodup_nil, fun c hc => nomatch hc⟩
  | cons t ts ih =>
    intro s
    obtain ⟨h1, h2⟩ := ih (s + 1)
    rw [copsFrom]
    refine ⟨?_, ?_⟩
    · rw [List.map_append, List.map_map, List.nodup_append]
      refine ⟨?_, h1, ?_⟩
      · have : ((List.range' 1 t.words.length).filter (fun i => t.rel i == sCop)).Nodup := (List.nodup_range' (step := 1)).sublist List.filter_sublist
        exact List.Pairwise.map _ (fun a b hab e => hab (Prod.mk.inj e).2) this
      · intro a ha b hb e
        obtain ⟨i, _, rfl⟩ := List.mem_map.1 ha
        obtain ⟨c, hc, rfl⟩ := List.mem_map.1 hb
        have := h2 c hc
        rw [← e] at this
        simp at this
        omega
    · intro c hc
      rcases List.mem_append.1 hc with hc | hc
      · obtain ⟨i, _, rfl⟩ := List.mem_map.1 hc
        exact Nat.le_refl _
      · exact Nat.le_of_succ_le (h2 c hc)

/-- The messages that do not contain a DEPREL -/
def fixedMessages : List Str :=
  chainDeps.map (· ++ mChain) ++ headDeps.map (· ++ mRightHeaded) ++ [mCopUpos, mMarkUpos, mDetUpos, mPunctUpos, mNo ++ mPronType, mNo ++ mNumType, mNo ++ mVerbForm, mFinUpos, mFinMood, mMultiSubj,
    mMultiObj, mGoesGap, mGoesSpace, mSymAlpha, mPunctAlpha, mPunctDeprel, mNonproj, mNonprojGap, mCopMany]

/-- **C173 (messages)** The only message that is part of another one is `punct-nonproj`. -/
theorem C173_messages : ∀ a ∈ fixedMessages, ∀ b ∈ fixedMessages, isIn a b = true → a = b ∨ (a = mNonproj ∧ b = mNonprojGap) := by decide +kernel

/-- **C173 (substrings, violated)** `punct-nonproj` is not added to a word that has `punct-nonproj-gap`. -/
theorem C173_substring_violated {bug : Str} (h : mNonprojGap <:+: bug) : logOne bug mNonproj = bug := by
  have h1 : mNonproj <:+: bug := List.IsInfix.trans (by rw [← isIn_iff]; decide +kernel) h
  exact fold_again [mNonproj] bug (fun m hm => by rw [List.mem_singleton.1 hm]; exact h1)

theorem goes_space {t : Sent} {p g : Nat} (hg : t.rel g = sGoeswith) (hp : (t.at g).parent = p) (hpg : p < g) (hb : ∀ n, p < n → n < g → t.rel n = sGoeswith) (hs : (t.at p).noSpace = true) :
    (p, mGoesSpace) ∈ goes t g := by
  unfold goes
  rw [if_pos ⟨hg, by rw [hp]; exact hpg⟩, hp]
  obtain ⟨k, hk⟩ : ∃ k, g - p = k + 1 := ⟨g - p - 1, by omega⟩
  have hf : (List.range' p (g - p)).tail.find? (fun n => t.rel n != sGoeswith) = none := by
    rw [hk, List.range'_succ, List.tail_cons, List.find?_eq_none]
    intro n hn
    rw [List.mem_range'_1] at hn
    simp [hb n (by omega) (by omega)]
  dsimp only
  rw [hf]
  exact List.mem_map.2 ⟨p, List.mem_filter.2 ⟨by rw [List.mem_range'_1]; omega, hs⟩, rfl⟩

theorem sublist_flatMap {α β : Type} (f : α → List β) {l m : List α} (h : l.Sublist m) : (l.flatMap f).Sublist (m.flatMap f) := by
  induction h with
  | slnil => exact List.Sublist.refl _
  | cons a _ ih => rw [List.flatMap_cons]; exact ih.trans (List.sublist_append_right _ _)
  | cons_cons a _ ih => rw [List.flatMap_cons, List.flatMap_cons]; exact (List.Sublist.refl _).append ih

/-- **C173 (statistics, violated)** The statistics do not tell how many words are marked: if a word is written in three parts and there is no space after the first one, this is counted twice,
but the word has each mark once. -/
theorem C173_stats_violated {alpha : Char → Bool} {max : Nat} {t : Sent} {p g h : Nat} (hg : t.rel g = sGoeswith) (hh : t.rel h = sGoeswith) (hp : (t.at g).parent = p) (hq : (t.at h).parent = p)
    (h1 : p < g) (h2 : g < h) (h3 : h ≤ t.words.length) (hb : ∀ n, p < n → n < h → t.rel n = sGoeswith) (hs : (t.at p).noSpace = true)
    (hm : ∀ m ∈ kept (fun _ => true) (docMessages alpha max [t]) (0, p), ',' ∉ m ∧ m ≠ []) :
    2 ≤ (block alpha (fun _ => true) max [t] (fun _ => [])).2 mGoesSpace ∧ (items ((block alpha (fun _ => true) max [t] (fun _ => [])).1 (0, p))).count mGoesSpace ≤ 1 := by
  refine ⟨?_, ?_⟩
  · rw [C173_stats, if_pos rfl]
    have m1 := goes_space hg hp h1 (fun n a b => hb n a (by omega)) hs
    have m2 := goes_space hh hq (by omega) hb hs
    have sub : ∀ i, (goes t i).Sublist (messages alpha t i) := by
      intro i
      unfold messages
      dsimp only
      refine List.Sublist.trans ?_ (List.sublist_append_left _ _)
      refine List.Sublist.trans ?_ (List.sublist_append_left _ _)
      refine List.Sublist.trans ?_ (List.sublist_append_left _ _)
      refine List.Sublist.trans ?_ (List.sublist_append_left _ _)
      refine List.Sublist.trans ?_ (List.sublist_append_left _ _)
      exact List.sublist_append_right _ _
    have cnt : ∀ i, (p, mGoesSpace) ∈ goes t i → 1 ≤ ((messages alpha t i).map (·.2)).count mGoesSpace := by
      intro i hi
      exact List.count_pos_iff.2 (List.mem_map.2 ⟨_, (sub i).subset hi, rfl⟩)
    have hsub : ([g, h].flatMap (messages alpha t)).Sublist (sentMessages alpha t) := by
      unfold sentMessages
      have : [g, h].Sublist (List.range' 1 t.words.length) := by
        have e : List.range' 1 t.words.length = List.range' 1 (g - 1) ++ (g :: (List.range' (g + 1) (h - g - 1) ++ h :: List.range' (h + 1) (t.words.length - h))) := by
          have e1 : t.words.length = (g - 1) + (1 + ((h - g - 1) + (1 + (t.words.length - h)))) := by omega
          rw [e1, ← List.range'_append_1, ← List.range'_append_1, ← List.range'_append_1, ← List.range'_append_1]
          have a1 : 1 + (g - 1) = g := by omega
          have a2 : g + 1 + (h - g - 1) = h := by omega
          have a3 : (g - 1) + (1 + ((h - g - 1) + (1 + (t.words.length - h)))) - h = t.words.length - h := by omega
          rw [a1, a2, a3]
          simp
        rw [e]
        refine List.Sublist.trans ?_ (List.sublist_append_right _ _)
        refine List.Sublist.cons_cons g ?_
        refine List.Sublist.trans ?_ (List.sublist_append_right _ _)
        exact List.Sublist.cons_cons h (List.nil_sublist _)
      exact sublist_flatMap _ this
    have hc := (hsub.map (fun m : Nat × Str => m.2)).count_le mGoesSpace
    have c1 := cnt g m1
    have c2 := cnt h m2
    simp only [List.flatMap_cons, List.flatMap_nil, List.append_nil, List.map_append, List.count_append] at hc
    have hd : ((docMessages alpha max [t]).map (·.2)).count mGoesSpace ≥ ((sentMessages alpha t).map (·.2)).count mGoesSpace := by
      unfold docMessages
      rw [List.map_append, List.count_append]
      simp only [docMessagesFrom, List.append_nil, List.map_map, Function.comp_def]
      omega
    omega
  · have : (items ((block alpha (fun _ => true) max [t] (fun _ => [])).1 (0, p))).Nodup := by
      unfold block
      rw [logAll_at]
      exact items_nodup _ _ hm (by simp [items])
    exact List.nodup_iff_count.1 this _

/-- **C173 (punctuation that depends on the root, violated)** Punctuation that depends on the root and causes a gap is not reported if `is_nonprojective_gap` is true for the root, which it is in all
trees in which a word other than the last one depends on a word (`C20_root_gap_violated`). -/
theorem C173_root_gap_violated (alpha : Char → Bool) {t : Sent} (h : t.rootGap = true) {i : Nat} (hi : (t.at i).parent = 0) : (i, mNonprojGap) ∉ messages alpha t i := by
  intro hm
  unfold messages at hm
  dsimp only at hm
  have hp : (t.at (t.at i).parent).gap = true := by rw [hi]; exact h
  have hr : t.rel (t.at i).parent = sRootRel := by rw [hi]; rfl
  have o : ∀ {c : Bool} {m : Str}, m ≠ mNonprojGap → (i, mNonprojGap) ∉ one c (i, m) := by
    intro c m hne hx
    unfold one at hx
    split at hx
    · exact hne (Prod.mk.inj (List.mem_singleton.1 hx)).2.symm
    · cases hx
  have hf : funcDeps.contains (t.rel (t.at i).parent) = false := by rw [hr]; decide
  simp only [List.mem_append] at hm
  rcases hm with (((((((((((((((((hm | hm) | hm) | hm) | hm) | hm) | hm) | hm) | hm) | hm) | hm) | hm) | hm) | hm) | hm) | hm) | hm) | hm)
  · obtain ⟨d, hd, e⟩ := List.mem_map.1 hm
    have hd := (List.mem_filter.1 hd).1
    have : ∀ d ∈ chainDeps, d ++ mChain ≠ mNonprojGap := by decide
    exact this d hd (Prod.mk.inj e).2
  · obtain ⟨d, hd, e⟩ := List.mem_map.1 hm
    have hd := (List.mem_filter.1 hd).1
    have : ∀ d ∈ headDeps, d ++ mRightHeaded ≠ mNonprojGap := by decide
    exact this d hd (Prod.mk.inj e).2
  · exact o (by decide) hm
  · exact o (by decide) hm
  · exact o (by decide) hm
  · exact o (by decide) hm
  · obtain ⟨r, hd, e⟩ := List.mem_map.1 hm
    have hd := (List.mem_filter.1 hd).1
    have : ∀ r ∈ required, mNo ++ r.2 ≠ mNonprojGap := by decide
    exact this r hd (Prod.mk.inj e).2
  · exact o (by decide) hm
  · exact o (by decide) hm
  · exact o (by decide) hm
  · exact o (by decide) hm
  · rw [hf] at hm; cases hm
  · unfold goes at hm
    split at hm
    · dsimp only at hm
      split at hm
      · have := (Prod.mk.inj (List.mem_singleton.1 hm)).2
        revert this; decide
      · obtain ⟨n, _, e⟩ := List.mem_map.1 hm
        have := (Prod.mk.inj e).2
        revert this; decide
    · cases hm
  · exact o (by decide) hm
  · exact o (by decide) hm
  · exact o (by decide) hm
  · exact o (by decide) hm
  · rw [hp] at hm
    simp [one] at hm

/-- **C173 (other blocks, violated)** `ud.MarkFeatsBugs` and `util.MarkMwtBugsAtNodes` separate items by plus signs: what `ud.MarkBugs` writes is one item for them, so that a bug that is there is added again. -/
theorem C173_plus_violated {d : DualDict.Dict} {a b : Str} (h : DualDict.lookup d DualDict.Bugs.kBug = some (.str (logOne a b))) (ha : a ≠ []) (hb : ¬ b <:+: a) (hpa : '+' ∉ a) (hpb : '+' ∉ b) :
    DualDict.Bugs.bugsOf d = some [a ++ ',' :: b] ∧ DualDict.Bugs.add [a ++ ',' :: b] a = [a ++ ',' :: b, a] := by
  have e : logOne a b = a ++ ',' :: b := by
    unfold logOne
    rw [if_neg ha, if_neg (fun h => hb (isIn_iff.1 h))]
  rw [e] at h
  obtain ⟨c, r, rfl⟩ := List.exists_cons_of_ne_nil ha
  refine ⟨?_, ?_⟩
  · unfold DualDict.Bugs.bugsOf
    rw [h]
    simp only [List.cons_append]
    rw [← List.cons_append, split_of_not_mem]
    intro hm
    rcases List.mem_append.1 hm with hm | hm
    · exact hpa hm
    · rcases List.mem_cons.1 hm with hm | hm
      · revert hm; decide
      · exact hpb hm
  · unfold DualDict.Bugs.add
    rw [if_neg]
    · rfl
    · intro hm
      have := congrArg List.length (List.mem_singleton.1 hm)
      simp at this

/-! ## Examples -/

def exNode (upos deprel : Str) (parent : Nat) : Node := ⟨['x'], ['_'], upos, deprel, fun _ => ['y'], parent, false, false, false⟩

example : sentMessages (fun _ => true) ⟨[exNode tDET sDet 2, exNode ['N'] sRoot 0, exNode tPUNCT sPunct 2], false, []⟩ = [(3, mPunctAlpha)] := by decide +kernel
example : Clean (fun _ => false) ⟨[exNode tDET sDet 2, exNode ['N'] sRoot 0, exNode tPUNCT sPunct 2], false, []⟩ := (C173_clean _ _).1 (by decide +kernel)
example : items ((block (fun _ => true) (fun _ => true) 0 [⟨[exNode ['X'] sCop 2, exNode ['N'] (sAux ++ [':', 'a']) 0, exNode ['N'] sDet 2], false, []⟩] (fun _ => [])).1 (0, 3)) =
    [mDetUpos, sAux ++ [':', 'a'] ++ mChild] := by decide +kernel
example : copMessages 1 [(['b'], 0, 1), (['a'], 0, 2), (['b'], 1, 3)] = [((0, 2), mCopMany)] := by decide +kernel

end Verif.Blocks.MarkBugs
