import Verif.Conllu.MetaProps

/-!
# Property C140: `ud.SetTranslation`

Source: `udapi/block/ud/settranslation.py`. `tree.comment` is a string; the writer prints its non-empty lines.
-/

namespace Verif.Conllu.Translation
open Verif.Py Verif.Conllu Verif.Conllu.Meta

def kEn : Str := ['t', 'e', 'x', 't', '_', 'e', 'n']
def lEn : Str := [' ', 't', 'e', 'x', 't', '_', 'e', 'n', ' ', '=', ' ']

/-- `re.match(r'\s*text_en\s*=', line)` (settranslation.py:49) -/
def isEn (line : Str) : Bool :=
  match after kEn (skipWs line) with
  | none => false
  | some r => (skipWs r).head? == some '='

/-- The loop that looks for the first line with a translation, and the assignment (settranslation.py:46-56). -/
def place (ov : Bool) (new : Str) : List Str → List Str
  | [] => [new]
  | c :: cs => if isEn c then (if ov then new :: cs else c :: cs) else c :: place ov new cs

/-- The new value of `tree.comment` (settranslation.py:43-57); `tr` is the line of the file, with its line break. -/
def setTr (ov : Bool) (tr comment : Str) : Str :=
  join ['\n'] (place ov (lEn ++ tr) (if comment = [] then [] else split '\n' comment))

/-- `process_tree` for one tree after the other (settranslation.py:39-59); `i` is `self.iline`. -/
def run (ov : Bool) (trlines : List Str) : Nat → List Str → List Str
  | _, [] => []
  | i, c :: cs =>
    match trlines[i]? with
    | some tr => setTr ov tr c :: run ov trlines (i + 1) cs
    | none => c :: run ov trlines i cs

/-! ## What it should do -/

/-- The comment lines of a tree, as the writer prints them. -/
def shown (comment : Str) : List Str := (splitlines [] comment).filter (fun l => decide (l ≠ []))

/-- The line is a comment `text_en = …`, with any white space. -/
def IsEn (line : Str) : Prop :=
  ∃ a b rest : Str, line = a ++ kEn ++ b ++ '=' :: rest ∧ (∀ c ∈ a, isWs c = true) ∧ (∀ c ∈ b, isWs c = true)

/-- The lines `ls` with the translation `t`: it is appended if there was none; an old one is replaced if `ov`, and kept otherwise. -/
def Translated (ov : Bool) (t : Str) (ls ls' : List Str) : Prop :=
  ((∀ l ∈ ls, ¬ IsEn l) → ls' = ls ++ [lEn ++ t]) ∧
  (∀ a old b, ls = a ++ old :: b → (∀ l ∈ a, ¬ IsEn l) → IsEn old →
    ls' = if ov then a ++ (lEn ++ t) :: b else ls)

/-! ## Proofs -/

theorem splitlines_nl (cur x : Str) : splitlines cur ('\n' :: x) = cur.reverse :: splitlines [] x := by
  simpa using splitlines_line (l := []) (by simp) cur x

theorem splitlines_break {ch : Char} (hch : isBreak ch = true) (b : Str) : ∀ (a cur : Str),
    (splitlines cur (a ++ ch :: b)).filter (fun l => decide (l ≠ [])) =
      (splitlines cur a).filter (fun l => decide (l ≠ [])) ++ shown b := by
  intro a
  have hnil : ∀ cur : Str, (splitlines cur (ch :: b)).filter (fun l => decide (l ≠ [])) =
      (if cur = [] then [] else [cur.reverse]).filter (fun l => decide (l ≠ [])) ++ shown b := by
    intro cur
    rw [splitlines]
    split
    · next h =>
      obtain ⟨_, h2⟩ := h
      cases b with
      | nil => cases h2
      | cons d b =>
        have : d = '\n' := by simpa using h2
        subst this
        unfold shown
        rw [splitlines_nl, splitlines_nl]
        by_cases hc : cur = []
        · subst hc
          simp
        · simp [hc]
    · unfold shown
      by_cases hc : cur = []
      · subst hc
        simp
      · simp [hc]
  induction a with
  | nil =>
    intro cur
    rw [List.nil_append, hnil, splitlines]
  | cons d a ih =>
    intro cur
    rw [List.cons_append, splitlines, splitlines]
    by_cases hd : d = '\r' ∧ (a ++ ch :: b).head? = some '\n'
    · rw [if_pos hd]
      by_cases ha : a = []
      · subst ha
        obtain ⟨rfl, _⟩ := hd
        have hcr : ¬ ('\r' = '\r' ∧ ([] : Str).head? = some '\n') := by decide
        rw [List.nil_append, hnil, if_neg hcr, if_pos (show isBreak '\r' = true by decide), splitlines, if_pos rfl]
        by_cases hc : cur = []
        · subst hc
          simp
        · simp [hc]
      · have : d = '\r' ∧ a.head? = some '\n' := by
          refine ⟨hd.1, ?_⟩
          have := hd.2
          cases a with
          | nil => exact absurd rfl ha
          | cons x a => simpa using this
        rw [if_pos this]
        exact ih cur
    · rw [if_neg hd]
      have hd' : ¬ (d = '\r' ∧ a.head? = some '\n') := by
        rintro ⟨h1, h2⟩
        refine hd ⟨h1, ?_⟩
        cases a with
        | nil => cases h2
        | cons x a => simpa using h2
      rw [if_neg hd']
      by_cases hb : isBreak d = true
      · rw [if_pos hb, if_pos hb, List.filter_cons, List.filter_cons]
        split
        · rw [ih]
          rfl
        · rw [ih]
      · rw [if_neg hb, if_neg hb]
        exact ih _

/-- A line break separates the lines. -/
theorem shown_break {ch : Char} (hch : isBreak ch = true) (a b : Str) : shown (a ++ ch :: b) = shown a ++ shown b :=
  splitlines_break hch b a []

theorem splitlines_whole {l : Str} (h : ∀ c ∈ l, isBreak c = false) : ∀ cur : Str,
    splitlines cur l = if cur.reverse ++ l = [] then [] else [cur.reverse ++ l] := by
  induction l with
  | nil =>
    intro cur
    rw [splitlines]
    simp
  | cons c l ih =>
    intro cur
    have hc := h c List.mem_cons_self
    rw [splitlines, if_neg, if_neg (by simp [hc]), ih (fun d hd => h d (List.mem_cons_of_mem _ hd))]
    · simp
    · rintro ⟨rfl, _⟩
      exact absurd hc (by decide)

/-- A text without line breaks is one line. -/
theorem shown_line {l : Str} (h : ∀ c ∈ l, isBreak c = false) : shown l = if l = [] then [] else [l] := by
  unfold shown
  rw [splitlines_whole h]
  by_cases hl : l = []
  · simp [hl]
  · simp [hl]

theorem shown_join (ps : List Str) : shown (join ['\n'] ps) = ps.flatMap shown := by
  induction ps with
  | nil => rfl
  | cons p ps ih =>
    cases ps with
    | nil => simp [join]
    | cons q ps =>
      rw [join, List.append_assoc]
      show shown (p ++ '\n' :: join ['\n'] (q :: ps)) = _
      rw [shown_break (by decide), ih]
      rfl

theorem shown_split (c : Str) : shown c = (split '\n' c).flatMap shown := by
  rw [← shown_join, join_split]

/-- Lines without other line breaks. -/
theorem flatMap_shown {ps : List Str} (h : ∀ p ∈ ps, ∀ c ∈ p, isBreak c = false) :
    ps.flatMap shown = ps.filter (fun l => decide (l ≠ [])) := by
  induction ps with
  | nil => rfl
  | cons p ps ih =>
    rw [List.flatMap_cons, ih (fun q hq => h q (List.mem_cons_of_mem _ hq)), shown_line (h p (List.mem_cons_self ..)), List.filter_cons]
    by_cases hp : p = []
    · simp [hp]
    · simp [hp]

theorem after_iff (p s r : Str) : after p s = some r ↔ s = p ++ r := by
  induction p generalizing s with
  | nil => simp [after, eq_comm]
  | cons c p ih =>
    cases s with
    | nil => simp [after]
    | cons d s =>
      rw [after]
      by_cases h : c = d
      · rw [if_pos h, ih, h]
        simp
      · rw [if_neg h]
        simp [Ne.symm h]

theorem skipWs_split (s : Str) : ∃ a, s = a ++ skipWs s ∧ ∀ c ∈ a, isWs c = true :=
  ⟨s.takeWhile isWs, List.takeWhile_append_dropWhile.symm, fun c hc => List.all_eq_true.1 List.all_takeWhile c hc⟩

theorem skipWs_append {a : Str} (ha : ∀ c ∈ a, isWs c = true) {d : Char} (hd : isWs d = false) (s : Str) :
    skipWs (a ++ d :: s) = d :: s := by
  unfold skipWs
  induction a with
  | nil => simp [hd]
  | cons c a ih => simpa [ha c (List.mem_cons_self ..)] using ih (fun x hx => ha x (List.mem_cons_of_mem _ hx))

theorem isEn_iff (line : Str) : isEn line = true ↔ IsEn line := by
  unfold isEn IsEn
  constructor
  · intro h
    cases hr : after kEn (skipWs line) with
    | none => rw [hr] at h; cases h
    | some r =>
      rw [hr] at h
      obtain ⟨a, ha, ha'⟩ := skipWs_split line
      obtain ⟨b, hb, hb'⟩ := skipWs_split r
      rw [after_iff] at hr
      have hh : (skipWs r).head? = some '=' := by simpa using h
      cases hs : skipWs r with
      | nil => rw [hs] at hh; cases hh
      | cons x rest =>
        rw [hs] at hh hb
        have : x = '=' := by simpa using hh
        subst this
        refine ⟨a, b, rest, ?_, ha', hb'⟩
        rw [ha, hr, hb]
        simp
  · rintro ⟨a, b, rest, rfl, ha, hb⟩
    have h1 : skipWs (a ++ kEn ++ b ++ '=' :: rest) = kEn ++ (b ++ '=' :: rest) := by
      rw [show a ++ kEn ++ b ++ '=' :: rest = a ++ 't' :: (kEn.tail ++ (b ++ '=' :: rest)) by simp [kEn],
        skipWs_append ha (by decide)]
      rfl
    rw [h1, (after_iff kEn _ _).2 rfl]
    simp only
    rw [skipWs_append hb (by decide)]
    rfl

theorem not_isEn (line : Str) : isEn line = false ↔ ¬ IsEn line := by
  rw [← isEn_iff]
  simp

theorem isEn_nil : isEn [] = false := rfl

theorem mem_join {c d : Char} {p : Str} (hd : d ∈ p) : ∀ {ps : List Str}, p ∈ ps → d ∈ join [c] ps := by
  intro ps
  induction ps with
  | nil => intro h; cases h
  | cons q ps ih =>
    intro h
    cases ps with
    | nil =>
      rw [List.mem_singleton] at h
      subst h
      exact hd
    | cons r ps =>
      rw [join]
      rcases List.mem_cons.1 h with h | h
      · subst h
        simp [hd]
      · exact List.mem_append_right _ (ih h)

/-- The pieces between newlines have no line breaks if there are no others. -/
theorem pieces_ok {c : Str} (h : ∀ d ∈ c, isBreak d = true → d = '\n') :
    ∀ p ∈ split '\n' c, ∀ d ∈ p, isBreak d = false := by
  intro p hp d hd
  cases hb : isBreak d with
  | false => rfl
  | true =>
    have hmem : d ∈ c := by
      rw [← join_split '\n' c]
      exact mem_join hd hp
    have := h d hmem hb
    subst this
    exact absurd hd (not_mem_split _ _ p hp)

/-- The lines after `place`, for any way `sh` in which the new text is shown. -/
theorem place_shown (ov : Bool) (new : Str) : ∀ ps : List Str, (∀ p ∈ ps, ∀ c ∈ p, isBreak c = false) →
    ((∀ l ∈ ps, isEn l = false) → (place ov new ps).flatMap shown = ps.filter (fun l => decide (l ≠ [])) ++ shown new) ∧
    (∀ a old b, ps.filter (fun l => decide (l ≠ [])) = a ++ old :: b → (∀ l ∈ a, isEn l = false) → isEn old = true →
      (place ov new ps).flatMap shown = if ov then a ++ (shown new ++ b) else a ++ old :: b) := by
  intro ps
  induction ps with
  | nil =>
    intro _
    refine ⟨fun _ => by simp [place], fun a old b h => ?_⟩
    simp at h
  | cons p ps ih =>
    intro hps
    have hps' : ∀ q ∈ ps, ∀ c ∈ q, isBreak c = false := fun q hq => hps q (List.mem_cons_of_mem _ hq)
    obtain ⟨ih1, ih2⟩ := ih hps'
    have hsp := shown_line (hps p (List.mem_cons_self ..))
    constructor
    · intro hn
      rw [place, if_neg (by simp [hn p (List.mem_cons_self ..)]), List.flatMap_cons, ih1 (fun l hl => hn l (List.mem_cons_of_mem _ hl)),
        List.filter_cons, hsp]
      by_cases hp : p = []
      · simp [hp]
      · simp [hp]
    · intro a old b he ha ho
      by_cases hp : p = []
      · subst hp
        rw [List.filter_cons_of_neg (by simp)] at he
        rw [place, if_neg (by simp [isEn_nil]), List.flatMap_cons, ih2 a old b he ha ho]
        rfl
      · rw [List.filter_cons_of_pos (by simpa using hp)] at he
        cases a with
        | nil =>
          rw [List.nil_append] at he
          injection he with h1 h2
          subst h1
          rw [place, if_pos ho]
          cases ov with
          | true =>
            show (new :: ps).flatMap shown = [] ++ (shown new ++ b)
            rw [List.flatMap_cons, flatMap_shown hps', h2]
            rfl
          | false =>
            show (p :: ps).flatMap shown = [] ++ p :: b
            rw [List.flatMap_cons, flatMap_shown hps', h2, hsp, if_neg hp]
            rfl
        | cons x a =>
          rw [List.cons_append] at he
          injection he with h1 h2
          subst h1
          rw [place, if_neg (by simp [ha p (List.mem_cons_self ..)]), List.flatMap_cons,
            ih2 a old b h2 (fun l hl => ha l (List.mem_cons_of_mem _ hl)) ho, hsp, if_neg hp]
          cases ov <;> rfl

theorem pieces_shown {c : Str} (h : ∀ d ∈ c, isBreak d = true → d = '\n') :
    (if c = [] then [] else split '\n' c).filter (fun l => decide (l ≠ [])) = shown c ∧
    (∀ p ∈ (if c = [] then [] else split '\n' c), ∀ d ∈ p, isBreak d = false) := by
  by_cases hc : c = []
  · subst hc
    exact ⟨rfl, fun p hp => (by cases hp)⟩
  · rw [if_neg hc]
    exact ⟨by rw [shown_split, flatMap_shown (pieces_ok h)], pieces_ok h⟩

theorem run_get (ov : Bool) (tr : List Str) : ∀ (cs : List Str) (i k : Nat), i ≤ tr.length →
    (run ov tr i cs)[k]? = cs[k]?.map (fun c => match tr[i + k]? with | some t => setTr ov t c | none => c) := by
  intro cs
  induction cs with
  | nil => intro i k _; simp [run]
  | cons c cs ih =>
    intro i k hi
    rw [run]
    by_cases h : i < tr.length
    · rw [List.getElem?_eq_getElem h]
      cases k with
      | zero => simp [List.getElem?_eq_getElem h]
      | succ k =>
        simp only [List.getElem?_cons_succ]
        rw [ih (i + 1) k h, show i + 1 + k = i + (k + 1) by omega]
    · rw [List.getElem?_eq_none (l := tr) (show tr.length ≤ i by omega)]
      cases k with
      | zero => simp [List.getElem?_eq_none (show tr.length ≤ i by omega)]
      | succ k =>
        simp only [List.getElem?_cons_succ]
        rw [ih i k hi]
        congr 1
        funext c
        rw [List.getElem?_eq_none (by omega), List.getElem?_eq_none (by omega)]

theorem lEn_ok : ∀ c ∈ lEn, isBreak c = false := by decide

/-- The `k`-th sentence gets the `k`-th line of the file as its translation: the comments it had are printed as before, then `# text_en = …`.
An existing translation is replaced if `overwrite` is set and kept otherwise. Sentences after the last line stay as they are. (Assumed:
neither the comments nor the line contain line breaks other than newlines.) -/
theorem C140_translation_partial (ov : Bool) (tr cs : List Str) (k : Nat) {c : Str} (hc : cs[k]? = some c)
    (hb : ∀ d ∈ c, isBreak d = true → d = '\n') :
    (∀ t, (tr[k]? = some (t ++ ['\n']) ∨ tr[k]? = some t) → (∀ d ∈ t, isBreak d = false) →
      ∃ c', (run ov tr 0 cs)[k]? = some c' ∧ Translated ov t (shown c) (shown c')) ∧
    (tr.length ≤ k → (run ov tr 0 cs)[k]? = some c) ∧ (run ov tr 0 cs).length = cs.length := by
  have hrun := run_get ov tr cs 0 k (Nat.zero_le _)
  rw [hc, Nat.zero_add] at hrun
  obtain ⟨hp1, hp2⟩ := pieces_shown hb
  refine ⟨?_, ?_, ?_⟩
  · intro t ht htb
    have key : ∀ x : Str, shown (lEn ++ x) = [lEn ++ t] → tr[k]? = some x →
        ∃ c', (run ov tr 0 cs)[k]? = some c' ∧ Translated ov t (shown c) (shown c') := by
      intro x hx hk
      rw [hk] at hrun
      refine ⟨_, hrun, ?_, ?_⟩
      · intro hn
        have hn : ∀ l ∈ shown c, isEn l = false := fun l hl => (not_isEn l).2 (hn l hl)
        unfold setTr
        rw [shown_join]
        have := (place_shown ov (lEn ++ x) _ hp2).1 (by
          intro l hl
          by_cases h0 : l = []
          · rw [h0]
            rfl
          · exact hn l (by rw [← hp1]; exact List.mem_filter.2 ⟨hl, by simpa using h0⟩))
        rw [this, hp1, hx]
      · intro a old b he ha ho
        replace ha : ∀ l ∈ a, isEn l = false := fun l hl => (not_isEn l).2 (ha l hl)
        replace ho := (isEn_iff old).2 ho
        unfold setTr
        rw [shown_join, (place_shown ov (lEn ++ x) _ hp2).2 a old b (by rw [hp1, he]) ha ho, hx, he]
        rfl
    have hline : ∀ d ∈ lEn ++ t, isBreak d = false := by
      intro d hd
      rcases List.mem_append.1 hd with h | h
      · exact lEn_ok d h
      · exact htb d h
    have hone : shown (lEn ++ t) = [lEn ++ t] := by rw [shown_line hline, if_neg (by simp [lEn])]
    rcases ht with ht | ht
    · refine key _ ?_ ht
      rw [← List.append_assoc, shown_break (by decide), hone]
      rfl
    · exact key _ hone ht
  · intro hk
    rw [hrun, List.getElem?_eq_none hk]
    rfl
  · have hlen : ∀ (cs : List Str) (i : Nat), (run ov tr i cs).length = cs.length := by
      intro cs
      induction cs with
      | nil => intro i; rfl
      | cons c cs ih =>
        intro i
        rw [run]
        cases tr[i]? <;> simp [ih]
    exact hlen cs 0

/-- A line of the file may contain another line break, such as U+2028 (reading the file does not split the line there). Then the comment that is
printed ends before it, and the rest becomes a comment of its own. -/
theorem C140_break_violated (ov : Bool) {c a b : Str} {ch : Char} (hb : ∀ d ∈ c, isBreak d = true → d = '\n') (hn : ∀ l ∈ shown c, ¬ IsEn l)
    (hch : isBreak ch = true) (ha : ∀ d ∈ a, isBreak d = false) (hbb : ∀ d ∈ b, isBreak d = false) (hne : b ≠ []) :
    shown (setTr ov (a ++ ch :: b ++ ['\n']) c) = shown c ++ [lEn ++ a, b] := by
  obtain ⟨hp1, hp2⟩ := pieces_shown hb
  unfold setTr
  rw [shown_join]
  have := (place_shown ov (lEn ++ (a ++ ch :: b ++ ['\n'])) _ hp2).1 (by
    intro l hl
    by_cases h0 : l = []
    · rw [h0]
      rfl
    · exact (not_isEn l).2 (hn l (by rw [← hp1]; exact List.mem_filter.2 ⟨hl, by simpa using h0⟩)))
  rw [this, hp1]
  have hline : ∀ d ∈ lEn ++ a, isBreak d = false := by
    intro d hd
    rcases List.mem_append.1 hd with h | h
    · exact lEn_ok d h
    · exact ha d h
  rw [show lEn ++ (a ++ ch :: b ++ ['\n']) = (lEn ++ a) ++ ch :: (b ++ ['\n']) by simp, shown_break hch,
    show b ++ ['\n'] = b ++ '\n' :: [] from rfl, shown_break (by decide), shown_line hline, shown_line hbb, if_neg (by simp [lEn]), if_neg hne]
  rfl

example : run false [['h', 'i', '\n']] 0 [[' ', 'x', '\n'], [' ', 'y', '\n']] =
    [[' ', 'x', '\n', '\n'] ++ lEn ++ ['h', 'i', '\n'], [' ', 'y', '\n']] := by decide +kernel

example : shown ([' ', 'x', '\n', '\n'] ++ lEn ++ ['h', 'i', '\n']) = [[' ', 'x'], lEn ++ ['h', 'i']] := by decide +kernel

example : run true [['h', 'i']] 0 [[' ', 't', 'e', 'x', 't', '_', 'e', 'n', '=', 'a', '\n']] = [lEn ++ ['h', 'i', '\n']] := by decide +kernel

end Verif.Conllu.Translation
