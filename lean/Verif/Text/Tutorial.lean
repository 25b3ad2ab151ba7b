import Verif.Text.GoogleMerge
import Verif.Blocks.GoogleSwap
import Verif.Text.SpaceAfter

/-!
# Properties C218, C219, C220: deleting commas, a right chain, a dot after an abbreviation

Sources: `udapi/block/tutorial/removecommas.py`, `udapi/block/tutorial/parse.py`, `udapi/block/ud/bg/removedotafterabbr.py`. Sentences and their text are as in
`Verif/Text/GoogleMerge.lean` (no multiword tokens; where it matters the last spaces are stripped), trees are parent functions on 1, 2, ..., `n` with 0 for the technical root. What `remove` does to the
children of a deleted word is not modelled here.
-/

namespace Verif.Text.Tutorial
open Verif.Py Verif.Text.GoogleMerge

/-! ## tutorial.RemoveCommas -/

def isComma (w : W) : Bool := decide (w.form = [','])

/-- `del node.prev_node.misc['SpaceAfter']` for a deleted node that was number `i` (from 0): its `ord` stays `i + 1`, so the node before it is number `i - 1`, or the technical root. -/
def prevSpace (cur : List W) : Nat → List W
  | 0 => cur
  | i + 1 => cur.modify i fun w => { w with no := false }

/-- Lines 9-12: `k` words still to visit, the next one is number `i` of the words left. -/
def commaLoop : Nat → Nat → List W → List W
  | 0, _, cur => cur
  | k + 1, i, cur => match cur[i]? with
    | none => cur
    | some w => if isComma w then commaLoop k i (prevSpace (cur.eraseIdx i) i) else commaLoop k (i + 1) cur

def removeCommas (ws : List W) : List W := commaLoop ws.length 0 ws

def startsComma : List W → Bool
  | [] => false
  | w :: _ => isComma w

theorem starts_cons (w : W) (ws : List W) : startsComma (w :: ws) = isComma w := rfl

def clean : List W → List W
  | [] => []
  | w :: ws => if isComma w then clean ws else ⟨w.form, w.no && !startsComma ws⟩ :: clean ws

theorem modify_at (d ws : List W) (w : W) (f : W → W) : (d ++ w :: ws).modify d.length f = d ++ f w :: ws := by
  induction d with
  | nil => rfl
  | cons x d ih => simpa using ih

theorem erase_at (d ws : List W) (w : W) : (d ++ w :: ws).eraseIdx d.length = d ++ ws := by
  induction d with
  | nil => rfl
  | cons x d ih => simpa using ih

theorem prev_append (d ws : List W) : prevSpace (d ++ ws) d.length = prevSpace d d.length ++ ws ∧ (prevSpace d d.length).length = d.length ∧
    prevSpace (prevSpace d d.length) d.length = prevSpace d d.length := by
  rcases List.eq_nil_or_concat d with rfl | ⟨l, w, rfl⟩
  · exact ⟨rfl, rfl, rfl⟩
  · have hl : (l.concat w).length = l.length + 1 := by simp
    have e0 : ∀ v r, prevSpace (l ++ v :: r) (l.length + 1) = l ++ { v with no := false } :: r := fun v r => modify_at l r v _
    have e1 := e0 w []
    rw [hl, List.concat_eq_append, e1, List.append_assoc, List.append_assoc, List.singleton_append, List.singleton_append, e0 w ws, e0]
    exact ⟨rfl, by simp, rfl⟩

theorem commaLoop_eq : ∀ (rest done : List W), commaLoop rest.length done.length (done ++ rest) =
    (if startsComma rest then prevSpace done done.length else done) ++ clean rest
  | [], done => by simp [commaLoop, startsComma, clean]
  | w :: ws, done => by
    have hget : (done ++ w :: ws)[done.length]? = some w := by simp
    rw [List.length_cons, commaLoop, hget]
    simp only []
    by_cases hc : isComma w = true
    · rw [if_pos hc, erase_at]
      obtain ⟨h1, h2, h3⟩ := prev_append done ws
      rw [h1]
      have ih := commaLoop_eq ws (prevSpace done done.length)
      rw [h2] at ih
      rw [ih, h3]
      simp only [starts_cons, hc, if_true, clean, ite_self]
    · rw [if_neg hc]
      have ih := commaLoop_eq ws (done ++ [w])
      rw [List.length_append, List.length_singleton, List.append_assoc, List.singleton_append] at ih
      rw [ih]
      have e : prevSpace (done ++ [w]) (done.length + 1) = done ++ [{ w with no := false }] := modify_at done [] w _
      rw [e]
      simp only [starts_cons, clean, if_neg hc]
      cases startsComma ws <;> simp [hc]

theorem removeCommas_eq (ws : List W) : removeCommas ws = clean ws := by
  have := commaLoop_eq ws []
  unfold removeCommas
  rw [List.nil_append] at this
  rw [List.length_nil] at this
  rw [this]
  simp [prevSpace]

/-- The block keeps the other words in their order; a word has "SpaceAfter=No" afterwards exactly if it had it and no comma came directly after it. -/
theorem C218_words (ws : List W) :
    removeCommas ws = (ws.zip (ws.tail.map isComma ++ [false])).filterMap fun p => if isComma p.1 then none else some ⟨p.1.form, p.1.no && !p.2⟩ := by
  rw [removeCommas_eq]
  induction ws with
  | nil => rfl
  | cons w ws ih =>
    have hz : ((w :: ws).zip ((w :: ws).tail.map isComma ++ [false])) = (w, startsComma ws) :: ws.zip (ws.tail.map isComma ++ [false]) := by
      cases ws with
      | nil => rfl
      | cons v ws => rfl
    rw [hz, List.filterMap_cons, clean, ih]
    by_cases hc : isComma w = true
    · simp [hc]
    · simp [hc]

/-- The full claim: the text afterwards is the text before without the commas. -/
def TextKept (ws : List W) : Prop := text (removeCommas ws) = ws.flatMap fun w => if isComma w then (if w.no then [] else [' ']) else wordText w

/-- It holds if every comma is written directly after a word and followed by a space. -/
theorem C218_text_partial (ws : List W) (hs : ∀ w ∈ ws, isComma w = true → w.no = false) (hb : ∀ pre a b post, ws = pre ++ a :: b :: post → isComma b = true → isComma a = false ∧ a.no = true)
    (hf : startsComma ws = false) : TextKept ws := by
  have main : ∀ ws : List W, (∀ w ∈ ws, isComma w = true → w.no = false) → (∀ pre a b post, ws = pre ++ a :: b :: post → isComma b = true → isComma a = false ∧ a.no = true) →
      (if startsComma ws then [' '] else []) ++ text (clean ws) = ws.flatMap fun w => if isComma w then (if w.no then [] else [' ']) else wordText w := by
    intro ws
    induction ws with
    | nil => intro _ _; rfl
    | cons w ws ih =>
      intro g1 g2
      have ih' := ih (fun x hx => g1 x (List.mem_cons_of_mem _ hx)) (fun pre a b post e => g2 (w :: pre) a b post (by rw [e]; rfl))
      have next : startsComma ws = true → isComma w = false ∧ w.no = true := by
        intro h
        cases ws with
        | nil => cases h
        | cons v vs => exact g2 [] w v vs rfl h
      rw [List.flatMap_cons, ← ih']
      by_cases hc : isComma w = true
      · have hn : startsComma ws = false := by
          cases e : startsComma ws with
          | false => rfl
          | true => rw [(next e).1] at hc; cases hc
        simp [starts_cons, clean, hc, hn, g1 w (List.mem_cons_self ..) hc]
      · simp only [starts_cons, clean, if_neg hc]
        cases e : startsComma ws with
        | false => simp [text, wordText, hc]
        | true => simp [text, wordText, hc, (next e).2]
  have := main ws hs hb
  rw [hf] at this
  unfold TextKept
  rw [removeCommas_eq]
  simpa using this

theorem clean_append : ∀ (pre r : List W), (∀ w ∈ pre, isComma w = false) → startsComma r = false → clean (pre ++ r) = pre ++ clean r
  | [], _, _, _ => rfl
  | w :: pre, r, h, hr => by
    have hw := h w (List.mem_cons_self ..)
    have hs : startsComma (pre ++ r) = false := by
      cases pre with
      | nil => exact hr
      | cons v pre => exact h v (List.mem_cons_of_mem _ (List.mem_cons_self ..))
    rw [List.cons_append, clean, hs, clean_append pre r (fun x hx => h x (List.mem_cons_of_mem _ hx)) hr]
    simp [hw]

theorem clean_none {ws : List W} (h : ∀ w ∈ ws, isComma w = false) : clean ws = ws := by
  have := clean_append ws [] h rfl
  simpa [clean] using this

/-- For every comma with no space on either side, as in numbers: a space is put in its place. -/
theorem C218_glued_violated (pre post : List W) (a c : W) (hp : ∀ w ∈ pre ++ a :: post, isComma w = false) (hc : isComma c = true) (ha : a.no = true) (hcn : c.no = true) :
    text (removeCommas (pre ++ a :: c :: post)) = text pre ++ a.form ++ ' ' :: text post ∧ ¬ TextKept (pre ++ a :: c :: post) := by
  have hac : isComma a = false := hp a (by simp)
  have e : text (removeCommas (pre ++ a :: c :: post)) = text pre ++ a.form ++ ' ' :: text post := by
    rw [removeCommas_eq, clean_append pre (a :: c :: post) (fun w hw => hp w (List.mem_append_left _ hw)) hac, clean, clean, clean_none (fun w hw => hp w (by simp [hw]))]
    simp [hac, hc, starts_cons, text, wordText]
  refine ⟨e, ?_⟩
  unfold TextKept
  rw [e]
  intro h
  have same : ∀ l : List W, (∀ w ∈ l, isComma w = false) → (l.flatMap fun w => if isComma w then (if w.no then [] else [' ']) else wordText w) = text l := by
    intro l
    induction l with
    | nil => intro _; rfl
    | cons w l ih => intro g; rw [List.flatMap_cons, ih (fun x hx => g x (List.mem_cons_of_mem _ hx))]; simp [g w (List.mem_cons_self ..), text]
  rw [List.flatMap_append, List.flatMap_cons, List.flatMap_cons, same pre (fun w hw => hp w (List.mem_append_left _ hw)), same post (fun w hw => hp w (by simp [hw]))] at h
  have := congrArg List.length h
  simp [hac, hc, hcn, wordText, ha] at this

/-- "a, b" and "1,2" -/
example : removeCommas [⟨['a'], true⟩, ⟨[','], false⟩, ⟨['b'], false⟩] = [⟨['a'], false⟩, ⟨['b'], false⟩] ∧
    text (removeCommas [⟨['1'], true⟩, ⟨[','], true⟩, ⟨['2'], false⟩]) = ['1', ' ', '2', ' '] ∧
    removeCommas [⟨[','], false⟩, ⟨['a'], true⟩, ⟨[','], true⟩, ⟨[','], false⟩] = [⟨['a'], false⟩] := by decide

/-! ## tutorial.Parse -/

/-- Lines 31-33 for the word `i`, which has a next word: `none` is the exception of the `parent` setter. -/
def chainStep (n : Nat) (par : Nat → Nat) (i : Nat) : Option (Nat → Nat) := if above par n (i + 1) i then none else some (upd par i (i + 1))

/-- The block on a sentence of `n` words: all but the last have a next word. -/
def parse (n : Nat) (par : Nat → Nat) : Option (Nat → Nat) := Verif.Blocks.GoogleSwap.loop (chainStep n) (List.range' 1 (n - 1)) par

/-- The relations afterwards. -/
def parseRel {R : Type} (n : Nat) (root : R) (rel : Nat → R) : Nat → R := fun x => if 1 ≤ x ∧ x < n then root else rel x

def chainTo (i : Nat) (par : Nat → Nat) : Nat → Nat := fun y => if 1 ≤ y ∧ y < i then y + 1 else par y

theorem upd_chain (i : Nat) (par : Nat → Nat) (hi : 1 ≤ i) : upd (chainTo i par) i (i + 1) = chainTo (i + 1) par := by
  funext y
  unfold upd chainTo
  by_cases h : y = i
  · rw [if_pos h, if_pos (by omega), h]
  · rw [if_neg h]
    by_cases g : 1 ≤ y ∧ y < i
    · rw [if_pos g, if_pos (by omega)]
    · rw [if_neg g, if_neg (by omega)]

theorem chain_iter (i : Nat) (par : Nat → Nat) : ∀ (d p : Nat), 1 ≤ p → p + d ≤ i → iter (chainTo i par) d p = p + d
  | 0, _, _, _ => rfl
  | d + 1, p, hp, h => by
    rw [iter, show chainTo i par p = p + 1 by unfold chainTo; rw [if_pos (by omega)], chain_iter i par d (p + 1) (by omega) (by omega)]
    omega

theorem parse_ok (n : Nat) (par : Nat → Nat) (h0 : par 0 = 0) (hc : ∀ x, x ≤ n → par x ≤ n) (h : ∀ x, 1 ≤ x → x ≤ n → par x = 0 ∨ x < par x) :
    ∀ (k i : Nat), 1 ≤ i → i + k ≤ n → Verif.Blocks.GoogleSwap.loop (chainStep n) (List.range' i k) (chainTo i par) = some (chainTo (i + k) par)
  | 0, _, _, _ => rfl
  | k + 1, i, hi, hk => by
    have inv : ∀ (m y : Nat), (y = 0 ∨ (i < y ∧ y ≤ n)) → (iter (chainTo i par) m y = 0 ∨ (i < iter (chainTo i par) m y ∧ iter (chainTo i par) m y ≤ n)) := by
      intro m
      induction m with
      | zero => intro y hy; exact hy
      | succ m ih =>
        intro y hy
        refine ih _ ?_
        have e : chainTo i par y = par y := by unfold chainTo; rw [if_neg (by omega)]
        rw [e]
        rcases hy with rfl | ⟨g1, g2⟩
        · exact Or.inl h0
        · have := hc y g2
          rcases h y (by omega) g2 with g | g
          · exact Or.inl g
          · exact Or.inr ⟨by omega, this⟩
    have hno : above (chainTo i par) n (i + 1) i = false := by
      cases e : above (chainTo i par) n (i + 1) i with
      | false => rfl
      | true =>
        obtain ⟨m, _, hm⟩ := (above_iff _ _ _ _).mp e
        rcases inv m (i + 1) (Or.inr ⟨by omega, by omega⟩) with g | g <;> omega
    rw [List.range'_succ, Verif.Blocks.GoogleSwap.loop, chainStep, hno]
    simp only [Bool.false_eq_true, if_false, Option.bind_some]
    rw [upd_chain i par hi, parse_ok n par h0 hc h k (i + 1) (by omega) (by omega)]
    congr 2; omega

theorem parse_fails (n : Nat) (par : Nat → Nat) (x : Nat) (hx : 0 < par x ∧ par x < x) (hxn : x ≤ n) :
    ∀ (k i : Nat), 1 ≤ i → i < x → x ≤ i + k → Verif.Blocks.GoogleSwap.loop (chainStep n) (List.range' i k) (chainTo i par) = none
  | 0, i, _, h1, h2 => by omega
  | k + 1, i, hi, h1, h2 => by
    rw [List.range'_succ, Verif.Blocks.GoogleSwap.loop, chainStep]
    cases e : above (chainTo i par) n (i + 1) i with
    | true => rfl
    | false =>
      simp only [Bool.false_eq_true, if_false, Option.bind_some]
      rw [upd_chain i par hi]
      by_cases hxi : x = i + 1
      · exfalso
        have hstep : chainTo i par (i + 1) = par x := by unfold chainTo; rw [if_neg (by omega), hxi]
        have : iter (chainTo i par) (i - par x + 1) (i + 1) = i := by
          rw [iter, hstep, chain_iter i par (i - par x) (par x) (by omega) (by omega)]
          omega
        have : above (chainTo i par) n (i + 1) i = true := (above_iff _ _ _ _).mpr ⟨i - par x + 1, by omega, this⟩
        rw [e] at this
        cases this
      · exact parse_fails n par x hx hxn k (i + 1) (by omega) (by omega) (by omega)

theorem chainTo_one (par : Nat → Nat) : chainTo 1 par = par := by
  funext y
  unfold chainTo
  rw [if_neg (by omega)]

/-- The block ends without an exception exactly if no word hangs on an earlier word; then every word but the last hangs on the next one and the last one on the technical root. -/
theorem C219_exactly (n : Nat) (par : Nat → Nat) (hn : 1 ≤ n) (h0 : par 0 = 0) (hc : ∀ x, x ≤ n → par x ≤ n) (hself : ∀ x, 1 ≤ x → par x ≠ x) :
    ((parse n par).isSome = true ↔ ∀ x, 1 ≤ x → x ≤ n → par x = 0 ∨ x < par x) ∧
    ∀ par', parse n par = some par' → (∀ x, 1 ≤ x → x < n → par' x = x + 1) ∧ par' n = 0 := by
  have ok : (∀ x, 1 ≤ x → x ≤ n → par x = 0 ∨ x < par x) → parse n par = some (chainTo n par) := by
    intro h
    have := parse_ok n par h0 hc h (n - 1) 1 (Nat.le_refl _) (by omega)
    rw [chainTo_one, show 1 + (n - 1) = n by omega] at this
    exact this
  have bad : ¬ (∀ x, 1 ≤ x → x ≤ n → par x = 0 ∨ x < par x) → parse n par = none := by
    intro h
    refine Classical.byContradiction fun hne => h fun x h1 h2 => ?_
    refine Classical.byContradiction fun hx => hne ?_
    have := hself x h1
    have hpos : 0 < par x ∧ par x < x := by omega
    have := parse_fails n par x hpos h2 (n - 1) 1 (Nat.le_refl _) (by omega) (by omega)
    rw [chainTo_one] at this
    exact this
  by_cases h : ∀ x, 1 ≤ x → x ≤ n → par x = 0 ∨ x < par x
  · rw [ok h]
    refine ⟨⟨fun _ => h, fun _ => rfl⟩, ?_⟩
    intro par' e
    injection e with e
    subst e
    refine ⟨fun x g1 g2 => by unfold chainTo; rw [if_pos ⟨g1, g2⟩], ?_⟩
    unfold chainTo
    rw [if_neg (by omega)]
    have := hc n (Nat.le_refl _)
    rcases h n hn (Nat.le_refl _) with g | g
    · exact g
    · omega
  · rw [bad h]
    exact ⟨⟨(fun g => by cases g), fun g => absurd g h⟩, fun _ e => by cases e⟩

/-- A flat tree (after transform.Flatten, as in the usage given) is always parsed. -/
theorem C219_flat (n : Nat) (hn : 1 ≤ n) : ∃ par', parse n (fun _ => 0) = some par' ∧ (∀ x, 1 ≤ x → x < n → par' x = x + 1) ∧ par' n = 0 := by
  have h := C219_exactly n (fun _ => 0) hn rfl (fun _ _ => Nat.zero_le _) (fun x h e => by omega)
  have hs := h.1.mpr fun _ _ _ => Or.inl rfl
  obtain ⟨par', e⟩ := Option.isSome_iff_exists.mp hs
  exact ⟨par', e, h.2 par' e⟩

/-- For every sentence of at least two words: the relation `root` is given to words that do not hang on the technical root, namely all but the last; the last one keeps its relation. -/
theorem C219_root_violated {R : Type} (n : Nat) (root : R) (rel : Nat → R) (par par' : Nat → Nat) (hn : 2 ≤ n) (h0 : par 0 = 0) (hc : ∀ x, x ≤ n → par x ≤ n) (hself : ∀ x, 1 ≤ x → par x ≠ x)
    (h : parse n par = some par') : ¬ (∀ x, 1 ≤ x → x ≤ n → (parseRel n root rel x = root ↔ par' x = 0)) ∧ parseRel n root rel n = rel n := by
  refine ⟨fun g => ?_, by unfold parseRel; rw [if_neg (by omega)]⟩
  have h1 := ((C219_exactly n par (by omega) h0 hc hself).2 par' h).1 1 (Nat.le_refl _) (by omega)
  have := (g 1 (Nat.le_refl _) (by omega)).mp (by unfold parseRel; rw [if_pos (by omega)])
  omega

example : (parse 3 (fun _ => 0)).map (fun f => [f 1, f 2, f 3]) = some [2, 3, 0] ∧ (parse 3 (fun x => if x = 3 then 1 else 0)).isNone = true := by decide

/-! ## ud.bg.RemoveDotAfterAbbr -/

/-- Lines 33-37: the words of the sentence afterwards; `t` is `root.text`, `[]` for none. -/
def dot (t : Str) (ws : List W) : List W :=
  match ws.reverse with
  | l :: s :: r =>
    if l.form = ['.'] ∧ ['.'].isSuffixOf s.form = true ∧ t ≠ [] ∧ ¬(['.', '.'].isSuffixOf t = true ∨ ['.', ' ', '.'].isSuffixOf t = true) then (s :: r).reverse else ws
  | _ => ws

def full (ws : List W) : Str := rstrip (text ws)

theorem dot_eq (t : Str) (pre : List W) (s l : W) : dot t (pre ++ [s, l]) =
    if l.form = ['.'] ∧ ['.'].isSuffixOf s.form = true ∧ t ≠ [] ∧ ¬(['.', '.'].isSuffixOf t = true ∨ ['.', ' ', '.'].isSuffixOf t = true) then pre ++ [s] else pre ++ [s, l] := by
  unfold dot
  have : (pre ++ [s, l]).reverse = l :: s :: pre.reverse := by simp
  rw [this]
  simp

theorem rstrip_dot (a : Str) (no : Bool) : rstrip (a ++ '.' :: (if no then [] else [' '])) = a ++ ['.'] := by
  have h : isWs '.' = false := by decide
  have h' : isWs ' ' = true := by decide
  cases no <;> simp [rstrip, h, h']

/-- If the text of the sentence agrees with its words, the block does nothing. -/
theorem C220_consistent (ws : List W) : dot (full ws) ws = ws := by
  rcases List.eq_nil_or_concat ws with rfl | ⟨l1, l, rfl⟩
  · rfl
  · rcases List.eq_nil_or_concat l1 with rfl | ⟨pre, s, rfl⟩
    · rfl
    · have e : (pre.concat s).concat l = pre ++ [s, l] := by simp
      rw [e, dot_eq]
      rw [if_neg]
      rintro ⟨h1, h2, _, h4⟩
      apply h4
      obtain ⟨f, hf⟩ := List.isSuffixOf_iff_suffix.mp h2
      have ht : full (pre ++ [s, l]) = text pre ++ f ++ '.' :: (if s.no then [] else [' ']) ++ ['.'] := by
        unfold full
        have : text (pre ++ [s, l]) = (text pre ++ f ++ '.' :: (if s.no then [] else [' '])) ++ '.' :: (if l.no then [] else [' ']) := by
          simp [text, wordText, ← hf, h1]
        rw [this, rstrip_dot]
      rw [ht]
      cases s.no with
      | true => exact Or.inl (List.isSuffixOf_iff_suffix.mpr ⟨text pre ++ f, by simp⟩)
      | false => exact Or.inr (List.isSuffixOf_iff_suffix.mpr ⟨text pre ++ f, by simp⟩)

/-- The full claim: if the text has one dot less than the words, the last dot is deleted, so that they agree. -/
def Repaired (pre : List W) (s l : W) : Prop := dot (full (pre ++ [s])) (pre ++ [s, l]) = pre ++ [s]

/-- It holds if the abbreviation has something before its dot, which is not a dot or a space. -/
theorem C220_repaired_partial (pre : List W) (s l : W) (f : Str) (c : Char) (hl : l.form = ['.']) (hs : s.form = f ++ [c, '.']) (h1 : c ≠ '.') (h2 : c ≠ ' ') : Repaired pre s l := by
  unfold Repaired
  have ht : full (pre ++ [s]) = (text pre ++ f ++ [c]) ++ ['.'] := by
    unfold full
    have : text (pre ++ [s]) = (text pre ++ f ++ [c]) ++ '.' :: (if s.no then [] else [' ']) := by simp [text, wordText, hs]
    rw [this, rstrip_dot]
  rw [dot_eq, ht, if_pos]
  refine ⟨hl, List.isSuffixOf_iff_suffix.mpr ⟨f ++ [c], by simp [hs]⟩, by simp, ?_⟩
  rintro (g | g)
  · obtain ⟨z, hz⟩ := List.isSuffixOf_iff_suffix.mp g
    have : z ++ ['.'] = text pre ++ f ++ [c] := List.append_cancel_right (bs := ['.']) (by simpa using hz)
    have := (List.append_inj' this rfl).2
    simp at this
    exact h1 this.symm
  · obtain ⟨z, hz⟩ := List.isSuffixOf_iff_suffix.mp g
    have : z ++ ['.'] ++ [' '] = text pre ++ f ++ [c] := List.append_cancel_right (bs := ['.']) (by simpa using hz)
    have := (List.append_inj' this rfl).2
    simp at this
    exact h2 this.symm

/-- For every sentence in which the form before the last dot ends with two dots (an ellipsis): the text ends with two dots although one is missing, and nothing is deleted. -/
theorem C220_ellipsis_violated (pre : List W) (s l : W) (f : Str) (hs : s.form = f ++ ['.', '.']) : ¬ Repaired pre s l := by
  unfold Repaired
  have ht : full (pre ++ [s]) = (text pre ++ f ++ ['.']) ++ ['.'] := by
    unfold full
    have : text (pre ++ [s]) = (text pre ++ f ++ ['.']) ++ '.' :: (if s.no then [] else [' ']) := by simp [text, wordText, hs]
    rw [this, rstrip_dot]
  rw [dot_eq, ht, if_neg]
  · intro h
    have := congrArg List.length h
    simp at this
  · rintro ⟨_, _, _, h⟩
    exact h (Or.inl (List.isSuffixOf_iff_suffix.mpr ⟨text pre ++ f, by simp⟩))

example : dot ['x', ' ', 'g', '.'] [⟨['x'], false⟩, ⟨['g', '.'], false⟩, ⟨['.'], false⟩] = [⟨['x'], false⟩, ⟨['g', '.'], false⟩] ∧
    dot ['g', '.', ' ', '.'] [⟨['g', '.'], false⟩, ⟨['.'], false⟩] = [⟨['g', '.'], false⟩, ⟨['.'], false⟩] ∧
    dot ['.', '.', '.'] [⟨['.', '.', '.'], false⟩, ⟨['.'], false⟩] = [⟨['.', '.', '.'], false⟩, ⟨['.'], false⟩] := by decide

end Verif.Text.Tutorial
