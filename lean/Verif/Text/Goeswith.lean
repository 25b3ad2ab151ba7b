import Verif.Text.SplitUnder
import Verif.Text.ComplyLay

/-!
# Property C133: ud.GoeswithFromText (udapi/block/ud/goeswithfromtext.py)

A tree is the list of its tokens (`token_descendants`, root.py:232-260): words outside of multi-word tokens, and multi-word tokens
with their words. `compute_text` is that of C84: the forms of the tokens. New nodes are moved to their place as in property C14.
`lower` is `str.lower`. Left out: nodes without form, trees without text, the warnings.
-/

namespace Verif.Text.Goeswith
open Verif.Py Verif.DualDict Verif.Text.AddMwt
open Verif.DualDict.Spec (Map)
open Verif.Text.SplitUnder (setLast)
open Verif.Text.Comply (normal single_normal single_last single_mem)
open Verif.Run (wsSplit)

inductive Item
  | word (w : Wd)
  | mwt (form : Str) (misc : Map) (words : List Wd)

def Item.form : Item → Str
  | .word w => w.form
  | .mwt f _ _ => f

def Item.misc : Item → Map
  | .word w => w.misc
  | .mwt _ m _ => m

/-- `token.misc['SpaceAfter'] = v`; `none` is `del` -/
def Item.space (v : Option Val) : Item → Item
  | .word w => .word { w with misc := put w.misc sa v }
  | .mwt f m ws => .mwt f (put m sa v) ws

/-- `s.replace(' ', '')` -/
def nos (s : Str) : Str := s.filter (· != ' ')

/-- `compute_text()` (node.py:840-872, C84) -/
def compute (l : List Item) : Str := rstrip (detok (l.map (fun i => (i.form, noSpace i.misc))))

/-- `'No'` -/
def no : Option Val := some (.str ['N', 'o'])
/-- `'goeswith'` -/
def goeswith : Str := ['g', 'o', 'e', 's', 'w', 'i', 't', 'h']

/-- `while text[:n].replace(' ', '') != nospace_form: n += 1; assert n <= len(text)` (goeswithfromtext.py:78-80), at most `fuel`
rounds; `none` is an `AssertionError`. -/
def rawLen (nf text : Str) : Nat → Nat → Option Nat
  | 0, n => if nos (text.take n) = nf then some n else none
  | fuel + 1, n => if nos (text.take n) = nf then some n else rawLen nf text fuel (n + 1)

inductive GErr
  | assertion | attribute
  deriving DecidableEq

/-- `node.create_child(form=token, ...)` (goeswithfromtext.py:91-92); the `i`-th new node. -/
def newWd (keep : Bool) (next : Nat) (w : Wd) (i : Nat) (f : Str) : Wd :=
  { id := next + i, parent := w.id, form := f, lemma := if keep then none else some f, upos := w.upos, xpos := w.xpos,
    deprel := some goeswith }

/-- The body of the loop (goeswithfromtext.py:66-100): the tokens instead of the given one, the rest of the text, of the text without
spaces, and the next new id. Multi-word tokens have no lemma and no method `create_child`. -/
def goStep (keep : Bool) (lower : Str → Str) (text ns : Str) (next : Nat) (it : Item) : Except GErr (List Item × Str × Str × Nat) :=
  let nf := nos it.form
  if it.form <+: text then
    let t := text.drop it.form.length
    if t = [] ∨ startsWs t = true then .ok ([it.space none], lstrip t, ns.drop nf.length, next)
    else .ok ([it.space no], t, ns.drop nf.length, next)
  else if nf <+: ns then
    match rawLen nf text (text.length - nf.length) nf.length with
    | none => .error .assertion
    | some k =>
      let t := text.drop k
      let toks := split ' ' (text.take k)
      match it with
      | .mwt _ m ws =>
        if keep = true ∧ toks.tail = [] then
          if t = [] ∨ startsWs t = true then .ok ([.mwt (toks.headD []) (put m sa none) ws], lstrip t, ns.drop nf.length, next)
          else .ok ([.mwt (toks.headD []) (put m sa no) ws], t, ns.drop nf.length, next)
        else .error .attribute
      | .word w =>
        let w' := { w with form := toks.headD [], lemma := if keep then w.lemma else some (lower (toks.headD [])), misc := put w.misc sa none }
        let new := toks.tail.mapIdx (newWd keep next w)
        if t = [] ∨ startsWs t = true then .ok ((w' :: new).map .word, lstrip t, ns.drop nf.length, next + new.length)
        else .ok ((setLast (w' :: new)).map .word, t, ns.drop nf.length, next + new.length)
  else .error .assertion

/-- The loop over the tokens. -/
def goLoop (keep : Bool) (lower : Str → Str) : Str → Str → Nat → List Item → Except GErr (List Item)
  | _, _, _, [] => .ok []
  | text, ns, next, it :: l =>
    match goStep keep lower text ns next it with
    | .error e => .error e
    | .ok (g, t, n, next) =>
      match goLoop keep lower t n next l with
      | .error e => .error e
      | .ok out => .ok (g ++ out)

/-- `process_tree` (goeswithfromtext.py:50-102) -/
def process (keep : Bool) (lower : Str → Str) (text : Str) (next : Nat) (l : List Item) : Except GErr (List Item) :=
  if text = compute l then .ok l
  else if nos text ≠ nos (compute l) then .ok l
  else goLoop keep lower (normal text) (nos text) next l

/-! ## What it should do -/

/-- The characters other than spaces are those of the forms. -/
def Matches (text : Str) (l : List Item) : Prop := nos text = l.flatMap (fun i => nos i.form)

/-- The only white space is the space. -/
def Plain (s : Str) : Prop := ∀ c ∈ s, isWs c = true → c = ' '

/-- The words `g` are the word `w` written with spaces; the ids of new nodes are not below `n`. -/
structure Written (keep : Bool) (lower : Str → Str) (n : Nat) (w : Wd) (g : List Wd) : Prop where
  /-- the forms are the parts of the form -/
  forms : g.flatMap (·.form) = w.form.filter (· != ' ')
  filled : ∀ x ∈ g, x.form ≠ [] ∧ ' ' ∉ x.form
  /-- the first one is the node itself -/
  first : ∃ h r, g = h :: r ∧ h.id = w.id ∧ h.parent = w.parent ∧ h.upos = w.upos ∧ h.xpos = w.xpos ∧ h.deprel = w.deprel ∧
    h.feats = w.feats ∧ (∀ k, k ≠ sa → h.misc k = w.misc k) ∧ h.lemma = (if keep then w.lemma else some (lower h.form))
  /-- the other ones are below it -/
  others : ∀ x ∈ g.tail, n ≤ x.id ∧ x.parent = w.id ∧ x.upos = w.upos ∧ x.xpos = w.xpos ∧
    x.deprel = some ['g', 'o', 'e', 's', 'w', 'i', 't', 'h'] ∧ x.lemma = (if keep then none else some x.form) ∧ ∀ k, k ≠ sa → x.misc k = none

/-- The token differs from the other one at most in `SpaceAfter` (and multi-word tokens in spaces in the form). -/
def SameTok : Item → Item → Prop
  | .word w, .word w' => ∃ m, w' = { w with misc := m } ∧ ∀ k, k ≠ sa → m k = w.misc k
  | .mwt f m ws, .mwt f' m' ws' => nos f' = nos f ∧ ws' = ws ∧ ∀ k, k ≠ sa → m' k = m k
  | _, _ => False

/-- The tokens in their order, some words written with spaces. -/
inductive Result (keep : Bool) (lower : Str → Str) (n : Nat) : List Item → List Item → Prop
  | nil : Result keep lower n [] []
  | same {i i' : Item} {l l' : List Item} (h : SameTok i i') (r : Result keep lower n l l') : Result keep lower n (i :: l) (i' :: l')
  | parts {w : Wd} {g : List Wd} {l l' : List Item} (h : Written keep lower n w g) (r : Result keep lower n l l') :
      Result keep lower n (.word w :: l) (g.map .word ++ l')

/-! ## Proofs -/

theorem isWs_sp : isWs ' ' = true := by decide

theorem noSpace_put_no (m : Map) : noSpace (put m sa no) = true := by
  simp [noSpace, put, no, truthy]

theorem nos_append (a b : Str) : nos (a ++ b) = nos a ++ nos b := List.filter_append ..

theorem nos_length_le (s : Str) : (nos s).length ≤ s.length := List.length_filter_le ..

theorem rawLen_some {nf text : Str} : ∀ {fuel n k : Nat}, rawLen nf text fuel n = some k →
    nos (text.take k) = nf ∧ n ≤ k ∧ ∀ j, n ≤ j → j < k → nos (text.take j) ≠ nf
  | 0, n, k, h => by
    unfold rawLen at h
    split at h
    · next he => cases h; exact ⟨he, Nat.le_refl _, fun j h1 h2 => by omega⟩
    · cases h
  | fuel + 1, n, k, h => by
    unfold rawLen at h
    split at h
    · next he => cases h; exact ⟨he, Nat.le_refl _, fun j h1 h2 => by omega⟩
    · next he =>
      obtain ⟨h1, h2, h3⟩ := rawLen_some h
      refine ⟨h1, by omega, fun j hj hk => ?_⟩
      by_cases hjn : j = n
      · rw [hjn]; exact he
      · exact h3 j (by omega) hk

theorem rawLen_total {nf text : Str} {k : Nat} (hk : nos (text.take k) = nf) :
    ∀ {fuel n : Nat}, n ≤ k → k ≤ n + fuel → ∃ j, rawLen nf text fuel n = some j
  | 0, n, h1, h2 => by
    have : k = n := by omega
    subst this
    exact ⟨k, by simp [rawLen, hk]⟩
  | fuel + 1, n, h1, h2 => by
    unfold rawLen
    split
    · exact ⟨_, rfl⟩
    · next he =>
      have : k ≠ n := fun e => he (e ▸ hk)
      exact rawLen_total hk (by omega) (by omega)

theorem prefix_nos : ∀ (text nf : Str), nf <+: nos text → ∃ k, k ≤ text.length ∧ nos (text.take k) = nf
  | [], nf, h => ⟨0, Nat.le_refl _, by
      have : nf = [] := List.prefix_nil.1 h
      rw [this]; rfl⟩
  | c :: text, nf, h => by
    by_cases hc : c = ' '
    · subst hc
      obtain ⟨k, h1, h2⟩ := prefix_nos text nf h
      exact ⟨k + 1, by simp; omega, h2⟩
    · have e : nos (c :: text) = c :: nos text := List.filter_cons_of_pos (by simp [hc])
      rw [e] at h
      cases nf with
      | nil => exact ⟨0, Nat.zero_le _, rfl⟩
      | cons d nf =>
        rw [List.cons_prefix_cons] at h
        obtain ⟨k, h1, h2⟩ := prefix_nos text nf h.2
        refine ⟨k + 1, by simp; omega, ?_⟩
        rw [List.take_succ_cons]
        show List.filter _ _ = _
        rw [List.filter_cons_of_pos (by simp [hc])]
        rw [h.1]
        exact congrArg _ h2

theorem lstrip_of_not {t : Str} (h : startsWs t = false) : lstrip t = t := by
  unfold lstrip
  cases t with
  | nil => rfl
  | cons c t => exact List.dropWhile_cons_of_neg (by simpa [startsWs] using h)

/-- After a token: the text is empty, or goes on after one space, or goes on. -/
theorem rest_cases {a t : Str} (h : Single (a ++ t)) :
    t = [] ∨ (∃ u, t = ' ' :: u ∧ lstrip t = u ∧ u ≠ [] ∧ startsWs u = false ∧ Single u ∧ startsWs t = true) ∨
      (t ≠ [] ∧ startsWs t = false ∧ Single t) := by
  have hs := h.suffix
  cases t with
  | nil => exact .inl rfl
  | cons c u =>
    cases hc : isWs c with
    | false => exact .inr (.inr ⟨by simp, hc, hs⟩)
    | true =>
      obtain ⟨rfl, d, b, rfl, hd⟩ := hs [] c u rfl hc
      refine .inr (.inl ⟨d :: b, rfl, ?_, by simp, hd, ?_, hc⟩)
      · show List.dropWhile _ _ = _
        rw [List.dropWhile_cons_of_pos isWs_sp, List.dropWhile_cons_of_neg (by simp [hd])]
      · exact Single.suffix (a := [' ']) hs

theorem nos_ne_nil {t : Str} (h1 : t ≠ []) (h2 : startsWs t = false) : nos t ≠ [] := by
  cases t with
  | nil => exact absurd rfl h1
  | cons c t =>
    have : c ≠ ' ' := by
      rintro rfl
      rw [show startsWs (' ' :: t) = isWs ' ' from rfl, isWs_sp] at h2
      cases h2
    unfold nos
    rw [List.filter_cons_of_pos (by simp [this])]
    simp

/-- The text of a token: its form, then a space or not. -/
theorem detok_one (i : Str × Bool) : detok [i] = if i.2 then i.1 else i.1 ++ [' '] := by
  unfold detok; simp

theorem detok_cons (i : Str × Bool) (l : List (Str × Bool)) : detok (i :: l) = detok [i] ++ detok l := by
  unfold detok; simp

/-- The words of a divided form, with spaces between them. -/
theorem detok_words : ∀ (g : List Wd) (b : Bool), g ≠ [] → g.map (fun x => noSpace x.misc) = List.replicate (g.length - 1) false ++ [b] →
    detok (g.map (fun x => (x.form, noSpace x.misc))) = if b then join [' '] (g.map (·.form)) else join [' '] (g.map (·.form)) ++ [' ']
  | [], _, h, _ => absurd rfl h
  | [x], b, _, h => by
    have : noSpace x.misc = b := by simpa using h
    simp only [List.map_cons, List.map_nil, detok_one, this, join]
  | x :: y :: r, b, _, h => by
    simp only [List.map_cons, List.length_cons, Nat.add_sub_cancel, List.replicate_succ, List.cons_append, List.cons.injEq] at h
    have ih := detok_words (y :: r) b (by simp) (by simpa using h.2)
    rw [List.map_cons, detok_cons, ih, detok_one]
    simp only [h.1, Bool.false_eq_true, if_false, List.map_cons, join]
    cases b <;> simp

theorem setLast_first (w : Wd) (l : List Wd) : ∃ h r, setLast (w :: l) = h :: r ∧ h.id = w.id ∧ h.parent = w.parent ∧ h.upos = w.upos ∧
    h.xpos = w.xpos ∧ h.deprel = w.deprel ∧ h.feats = w.feats ∧ (∀ k, k ≠ sa → h.misc k = w.misc k) ∧ h.lemma = w.lemma ∧ h.form = w.form ∧
    ∀ x ∈ r, ∃ y ∈ l, x.id = y.id ∧ x.parent = y.parent ∧ x.upos = y.upos ∧ x.xpos = y.xpos ∧ x.deprel = y.deprel ∧ x.lemma = y.lemma ∧
      x.form = y.form ∧ ∀ k, k ≠ sa → x.misc k = y.misc k := by
  have hput : ∀ (m : Map) (v : Option Val) (k : Str), k ≠ sa → put m sa v k = m k := fun m v k hk => if_neg hk
  cases l with
  | nil => exact ⟨_, [], rfl, rfl, rfl, rfl, rfl, rfl, rfl, fun k hk => hput _ _ k hk, rfl, rfl, fun x hx => by cases hx⟩
  | cons a l =>
    refine ⟨w, setLast (a :: l), by rw [setLast]; simp, rfl, rfl, rfl, rfl, rfl, rfl, fun _ _ => rfl, rfl, rfl, ?_⟩
    intro x hx
    obtain ⟨y, hy, e | e⟩ := SplitUnder.setLast_mem hx
    · exact ⟨y, hy, by subst e; exact ⟨rfl, rfl, rfl, rfl, rfl, rfl, rfl, fun _ _ => rfl⟩⟩
    · exact ⟨y, hy, by subst e; exact ⟨rfl, rfl, rfl, rfl, rfl, rfl, rfl, fun k hk => hput _ _ k hk⟩⟩

theorem setLast_flags (l : List Wd) (hl : ∀ w ∈ l, noSpace w.misc = false) (hne : l ≠ []) :
    (setLast l).map (fun x => noSpace x.misc) = List.replicate (l.length - 1) false ++ [true] := by
  rcases List.eq_nil_or_concat l with rfl | ⟨l', w, e⟩
  · exact absurd rfl hne
  · rw [List.concat_eq_append] at e
    subst e
    rw [SplitUnder.setLast_concat, List.map_append]
    have : l'.map (fun x => noSpace x.misc) = List.replicate l'.length false := by
      rw [List.eq_replicate_iff]
      refine ⟨by simp, fun b hb => ?_⟩
      obtain ⟨x, hx, rfl⟩ := List.mem_map.1 hb
      exact hl x (List.mem_append_left _ hx)
    rw [this]
    simp [noSpace, put, truthy]

theorem flags_false (l : List Wd) (hl : ∀ w ∈ l, noSpace w.misc = false) (hne : l ≠ []) :
    l.map (fun x => noSpace x.misc) = List.replicate (l.length - 1) false ++ [false] := by
  have h1 : l.map (fun x => noSpace x.misc) = List.replicate l.length false := by
    rw [List.eq_replicate_iff]
    refine ⟨by simp, fun b hb => ?_⟩
    obtain ⟨x, hx, rfl⟩ := List.mem_map.1 hb
    exact hl x hx
  rw [h1, ← List.replicate_succ']
  congr 1
  have : l.length ≠ 0 := by simpa using hne
  omega

theorem join_append : ∀ (A B : List Str), A ≠ [] → B ≠ [] → join [' '] (A ++ B) = join [' '] A ++ ' ' :: join [' '] B
  | [], _, h, _ => absurd rfl h
  | [a], [], _, h => absurd rfl h
  | [a], b :: B, _, _ => by simp [join]
  | a :: a' :: A, B, _, h => by
    have ih := join_append (a' :: A) B (by simp) h
    rw [List.cons_append, List.cons_append] at *
    simp only [join]
    rw [ih]
    simp

/-- The pieces of a text without double spaces and without spaces at the ends are not empty. -/
theorem split_filled {s : Str} (h : s ≠ []) (h0 : s.head? ≠ some ' ') (hl : s.getLast? ≠ some ' ')
    (hd : ∀ a b, s ≠ a ++ ' ' :: ' ' :: b) : ∀ p ∈ split ' ' s, p ≠ [] := by
  rintro p hp rfl
  obtain ⟨A, B, e⟩ := List.append_of_mem hp
  have hj := join_split ' ' s
  rw [e] at hj
  by_cases hA : A = []
  · subst hA
    by_cases hB : B = []
    · subst hB
      exact h hj.symm
    · rw [List.nil_append, show ([] : Str) :: B = [[]] ++ B from rfl, join_append [[]] B (by simp) hB] at hj
      rw [← hj] at h0
      exact h0 rfl
  · rw [join_append A _ hA (by simp)] at hj
    by_cases hB : B = []
    · subst hB
      rw [← hj] at hl
      simp [join] at hl
    · rw [show ([] : Str) :: B = [[]] ++ B from rfl, join_append [[]] B (by simp) hB] at hj
      exact hd _ _ hj.symm

theorem flatMap_split (s : Str) : (split ' ' s).flatMap id = nos s := by
  conv => rhs; rw [← join_split ' ' s]
  have key : ∀ ps : List Str, (∀ p ∈ ps, ' ' ∉ p) → ps.flatMap id = nos (join [' '] ps) := by
    have hn : ∀ p : Str, ' ' ∉ p → nos p = p := by
      intro p hp
      refine List.filter_eq_self.2 (fun c hc => ?_)
      have : c ≠ ' ' := fun e => hp (e ▸ hc)
      simp [this]
    intro ps
    induction ps with
    | nil => intro _; rfl
    | cons a ps ih =>
      intro h
      have ha := hn a (h a (List.mem_cons_self ..))
      have ih := ih (fun p hp => h p (List.mem_cons_of_mem _ hp))
      cases ps with
      | nil => simp [join, ha]
      | cons b ps =>
        rw [List.flatMap_cons, ih]
        simp only [join, nos_append, ha, id]
        rw [show nos [' '] = [] from rfl]
        simp
  exact key _ (not_mem_split ' ' s)

/-- What the loop knows: the rest of the text and of the tokens. -/
structure St (text : Str) (l : List Item) : Prop where
  single : Single text
  start : startsWs text = false
  chars : nos text = l.flatMap (fun i => nos i.form)
  filled : ∀ i ∈ l, nos i.form ≠ []

theorem head_of_start {t : Str} (h : startsWs t = false) : t.head? ≠ some ' ' := by
  cases t with
  | nil => simp
  | cons c t =>
    intro e
    have : c = ' ' := by simpa using e
    rw [this, show startsWs (' ' :: t) = isWs ' ' from rfl, isWs_sp] at h
    cases h

/-- One token: the rest is again as expected, and the text of the token is the part of the text. -/
theorem step_spec {keep : Bool} {lower : Str → Str} {text : Str} {next : Nat} {it : Item} {l : List Item} (st : St text (it :: l)) :
    (∃ f m ws, it = .mwt f m ws ∧ goStep keep lower text (nos text) next it = .error .attribute) ∨
    ∃ g t, goStep keep lower text (nos text) next it = .ok (g, t, nos t, next + (g.length - 1)) ∧ St t l ∧ g ≠ [] ∧
      ((t = [] ∧ detok (g.map (fun i => (i.form, noSpace i.misc))) = text ++ [' ']) ∨
       (t ≠ [] ∧ detok (g.map (fun i => (i.form, noSpace i.misc))) ++ t = text)) ∧
      ((∃ i', g = [i'] ∧ SameTok it i') ∨ ∃ w g', it = .word w ∧ g = g'.map .word ∧ Written keep lower next w g') := by
  obtain ⟨hs, h0, hc, hf⟩ := st
  rw [List.flatMap_cons] at hc
  have hfl : ∀ i ∈ l, nos i.form ≠ [] := fun i hi => hf i (List.mem_cons_of_mem _ hi)
  have hput : ∀ (m : Map) (v : Option Val) (k : Str), k ≠ sa → put m sa v k = m k := fun m v k hk => if_neg hk
  have hsame : ∀ v, SameTok it (it.space v) := by
    intro v
    cases it with
    | word w => exact ⟨_, rfl, fun k hk => hput _ _ k hk⟩
    | mwt f m ws => exact ⟨rfl, rfl, fun k hk => hput _ _ k hk⟩
  have hform : ∀ v, (it.space v).form = it.form := by intro v; cases it <;> rfl
  have hns : ∀ v, noSpace (it.space v).misc = noSpace (put it.misc sa v) := by intro v; cases it <;> rfl
  by_cases hp : it.form <+: text
  · right
    obtain ⟨t, ht⟩ := hp
    have hd : text.drop it.form.length = t := by rw [← ht]; simp
    have hdn : (nos text).drop (nos it.form).length = nos t := by rw [← ht, nos_append]; simp
    have hct : nos t = l.flatMap (fun i => nos i.form) := by
      rw [← ht, nos_append] at hc
      exact List.append_cancel_left hc
    rw [← ht] at hs
    unfold goStep
    simp only
    rw [if_pos ⟨t, ht⟩, hd, hdn]
    rcases rest_cases hs with rfl | ⟨u, rfl, hu, hun, hus, hu1, hts⟩ | ⟨h1, h2, h3⟩
    · rw [if_pos (.inl rfl)]
      refine ⟨_, [], rfl, ⟨single_nil, rfl, hct, hfl⟩, by simp, .inl ⟨rfl, ?_⟩, .inl ⟨_, rfl, hsame _⟩⟩
      simp only [List.map_cons, List.map_nil, detok_one, hform, hns, noSpace_put_sa]
      rw [← ht]
      simp
    · rw [if_pos (.inr hts), hu]
      have hnu : nos (' ' :: u) = nos u := rfl
      refine ⟨_, u, by rw [hnu]; rfl, ⟨hu1, hus, by rw [← hnu]; exact hct, hfl⟩, by simp, .inr ⟨hun, ?_⟩, .inl ⟨_, rfl, hsame _⟩⟩
      simp only [List.map_cons, List.map_nil, detok_one, hform, hns, noSpace_put_sa]
      rw [← ht]
      simp
    · rw [if_neg (by simp [h1, h2])]
      refine ⟨_, t, rfl, ⟨h3, h2, hct, hfl⟩, by simp, .inr ⟨h1, ?_⟩, .inl ⟨_, rfl, hsame _⟩⟩
      simp only [List.map_cons, List.map_nil, detok_one, hform, hns, noSpace_put_no]
      rw [← ht]
      simp
  · have hpn : nos it.form <+: nos text := ⟨_, hc.symm⟩
    obtain ⟨k0, hk0, hk0e⟩ := prefix_nos text (nos it.form) hpn
    have hle : (nos it.form).length ≤ k0 := by
      rw [← hk0e]
      exact Nat.le_trans (nos_length_le _) (List.length_take_le ..)
    obtain ⟨k, hk⟩ := rawLen_total hk0e (fuel := text.length - (nos it.form).length) hle (by omega)
    obtain ⟨hke, hkl, hkm⟩ := rawLen_some hk
    -- the raw form
    have hraw : text.take k ≠ [] := by
      intro e
      rw [e] at hke
      exact hf it (List.mem_cons_self ..) hke.symm
    have hta : text.take k ++ text.drop k = text := List.take_append_drop k text
    have hklen : k ≤ text.length := by
      apply Nat.le_of_not_lt
      intro hlt
      have h1 : (nos it.form).length ≤ text.length := by
        rw [← hke]
        exact Nat.le_trans (nos_length_le _) (by simp; omega)
      refine hkm text.length h1 hlt ?_
      rw [List.take_length, ← List.take_of_length_le (Nat.le_of_lt hlt), hke]
    have hrlast : (text.take k).getLast? ≠ some ' ' := by
      intro e
      obtain ⟨a, ha⟩ := List.getLast?_eq_some_iff.1 e
      have hal : a.length + 1 = k := by
        have := congrArg List.length ha
        simp at this
        omega
      have hta' : text.take a.length = a := by
        have : (text.take k).take a.length = a := by rw [ha]; simp
        rwa [List.take_take, Nat.min_eq_left (by omega)] at this
      have hna : nos a = nos it.form := by
        rw [← hke, ha, nos_append]
        simp [nos]
      have hge : (nos it.form).length ≤ a.length := by
        rw [← hna]
        exact nos_length_le a
      exact hkm a.length hge (by omega) (by rw [hta']; exact hna)
    have hrhead : (text.take k).head? ≠ some ' ' := by
      have := head_of_start h0
      intro e
      apply this
      cases hx : text.take k with
      | nil => exact absurd hx hraw
      | cons c r =>
        rw [hx] at e
        rw [← hta, hx]
        exact e
    have hrd : ∀ a b, text.take k ≠ a ++ ' ' :: ' ' :: b := by
      intro a b e
      have : text = a ++ ' ' :: (' ' :: b ++ text.drop k) := by
        conv => lhs; rw [← hta, e]
        simp
      obtain ⟨_, d, b', e1, e2⟩ := hs a ' ' _ this isWs_sp
      rw [List.cons_append] at e1
      injection e1 with e1 _
      rw [← e1, isWs_sp] at e2
      cases e2
    have hfilled := split_filled hraw hrhead hrlast hrd
    have hbare := not_mem_split ' ' (text.take k)
    have hjoin := join_split ' ' (text.take k)
    have hflat := flatMap_split (text.take k)
    rw [hke] at hflat
    have hdn : (nos text).drop (nos it.form).length = nos (text.drop k) := by
      conv => lhs; rw [← hta, nos_append, hke]
      simp
    have hct : nos (text.drop k) = l.flatMap (fun i => nos i.form) := by
      rw [← hta, nos_append, hke] at hc
      exact List.append_cancel_left hc
    have hs' : Single (text.take k ++ text.drop k) := by rw [hta]; exact hs
    obtain ⟨p0, ps, hsp⟩ : ∃ p0 ps, split ' ' (text.take k) = p0 :: ps := by
      cases hx : split ' ' (text.take k) with
      | nil => exact absurd hx (split_ne_nil ' ' _)
      | cons p0 ps => exact ⟨p0, ps, rfl⟩
    rw [hsp] at hjoin hflat hfilled hbare
    cases it with
    | mwt f m ws =>
      unfold goStep
      simp only [hk, hsp, List.tail_cons, List.headD_cons]
      rw [if_neg hp, if_pos hpn]
      by_cases hkeep : keep = true ∧ ps = []
      · right
        rw [if_pos hkeep, hdn]
        obtain ⟨_, rfl⟩ := hkeep
        have hp0 : p0 = text.take k := by simpa [join] using hjoin
        have hst : ∀ v, SameTok (.mwt f m ws) (.mwt p0 (put m sa v) ws) := fun v =>
          ⟨by rw [hp0, hke]; rfl, rfl, fun k hk => hput _ _ k hk⟩
        rcases rest_cases hs' with h1 | ⟨u, h1, hu, hun, hus, hu1, hts⟩ | ⟨h1, h2, h3⟩
        · rw [h1, if_pos (.inl rfl)]
          refine ⟨_, [], rfl, ⟨single_nil, rfl, by rw [← h1]; exact hct, hfl⟩, by simp, .inl ⟨rfl, ?_⟩, .inl ⟨_, rfl, hst _⟩⟩
          rw [h1, List.append_nil] at hta
          simp only [List.map_cons, List.map_nil, detok_one, Item.form, Item.misc, noSpace_put_sa, hp0, hta]
          simp
        · rw [if_pos (.inr hts), hu]
          have hnu : nos (text.drop k) = nos u := by rw [h1]; rfl
          refine ⟨_, u, by rw [hnu]; rfl, ⟨hu1, hus, by rw [← hnu]; exact hct, hfl⟩, by simp, .inr ⟨hun, ?_⟩, .inl ⟨_, rfl, hst _⟩⟩
          simp only [List.map_cons, List.map_nil, detok_one, Item.form, Item.misc, noSpace_put_sa, hp0]
          conv => rhs; rw [← hta, h1]
          simp
        · rw [if_neg (by simp [h1, h2])]
          refine ⟨_, _, rfl, ⟨h3, h2, hct, hfl⟩, by simp, .inr ⟨h1, ?_⟩, .inl ⟨_, rfl, hst _⟩⟩
          simp only [List.map_cons, List.map_nil, detok_one, Item.form, Item.misc, noSpace_put_no, hp0]
          exact hta
      · left
        rw [if_neg hkeep]
        exact ⟨f, m, ws, rfl, rfl⟩
    | word w =>
      right
      unfold goStep
      simp only [hk, hsp, List.tail_cons, List.headD_cons]
      rw [if_neg hp, if_pos hpn, hdn]
      have hforms : (ps.mapIdx (newWd keep next w)).map (·.form) = ps := by
        exact List.ext_getElem? (fun i => by rw [List.getElem?_map, List.getElem?_mapIdx]; cases ps[i]? <;> rfl)
      have hnew : ∀ x ∈ ps.mapIdx (newWd keep next w), next ≤ x.id ∧ x.parent = w.id ∧ x.upos = w.upos ∧ x.xpos = w.xpos ∧
          x.deprel = some goeswith ∧ x.lemma = (if keep then none else some x.form) ∧ x.misc = fun _ => none := by
        intro x hx
        obtain ⟨i, hi, rfl⟩ := List.mem_mapIdx.1 hx
        exact ⟨Nat.le_add_right .., rfl, rfl, rfl, rfl, rfl, rfl⟩
      generalize ps.mapIdx (newWd keep next w) = new at hforms hnew ⊢
      generalize hw' : ({ w with form := p0, lemma := if keep = true then w.lemma else some (lower p0), misc := put w.misc sa none } : Wd) = w'
      have hwm : noSpace w'.misc = false := by rw [← hw']; exact noSpace_put_sa _
      have hgf : (w' :: new).map (·.form) = p0 :: ps := by rw [List.map_cons, hforms, ← hw']
      have hgall : ∀ x ∈ w' :: new, noSpace x.misc = false := by
        intro x hx
        rcases List.mem_cons.1 hx with rfl | hx
        · exact hwm
        · rw [(hnew x hx).2.2.2.2.2.2]; rfl
      have hflags := flags_false (w' :: new) hgall (by simp)
      have hflags' := setLast_flags (w' :: new) hgall (by simp)
      have hlen : (setLast (w' :: new)).length = (w' :: new).length := SplitUnder.setLast_length _
      have hforms' : (setLast (w' :: new)).map (·.form) = p0 :: ps := by
        rw [SplitUnder.setLast_map (·.form) (fun _ _ => rfl), hgf]
      have hwritten : Written keep lower next w (w' :: new) := by
        refine ⟨?_, ?_, ⟨w', new, rfl, ?_⟩, ?_⟩
        · rw [List.flatMap_def, hgf]
          rw [List.flatMap_id] at hflat
          exact hflat
        · intro x hx
          have : x.form ∈ p0 :: ps := by rw [← hgf]; exact List.mem_map_of_mem hx
          exact ⟨hfilled _ this, hbare _ this⟩
        · subst hw'
          exact ⟨rfl, rfl, rfl, rfl, rfl, rfl, fun k hk => hput _ _ k hk, rfl⟩
        · intro x hx
          obtain ⟨a1, a2, a3, a4, a5, a6, a7⟩ := hnew x hx
          exact ⟨a1, a2, a3, a4, a5, a6, fun k _ => by rw [a7]⟩
      have hwritten' : Written keep lower next w (setLast (w' :: new)) := by
        obtain ⟨h, r, e, b1, b2, b3, b4, b5, b6, b7, b8, b9, b10⟩ := setLast_first w' new
        refine ⟨?_, ?_, ⟨h, r, e, ?_⟩, ?_⟩
        · rw [List.flatMap_def, hforms']
          rw [List.flatMap_id] at hflat
          exact hflat
        · intro x hx
          have : x.form ∈ p0 :: ps := by rw [← hforms']; exact List.mem_map_of_mem hx
          exact ⟨hfilled _ this, hbare _ this⟩
        · subst hw'
          exact ⟨b1, b2, b3, b4, b5, b6, fun k hk => (b7 k hk).trans (hput _ _ k hk), by rw [b8, b9]⟩
        · intro x hx
          rw [e] at hx
          obtain ⟨y, hy, c1, c2, c3, c4, c5, c6, c7, c8⟩ := b10 x hx
          obtain ⟨a1, a2, a3, a4, a5, a6, a7⟩ := hnew y hy
          exact ⟨by rw [c1]; exact a1, c2.trans a2, c3.trans a3, c4.trans a4, c5.trans a5, by rw [c6, a6, c7], fun k hk => by rw [c8 k hk, a7]⟩
      have hdt : detok (((w' :: new).map Item.word).map (fun i => (i.form, noSpace i.misc))) = text.take k ++ [' '] := by
        rw [List.map_map]
        have := detok_words (w' :: new) false (by simp) hflags
        rw [hgf, hjoin] at this
        exact this
      have hdt' : detok (((setLast (w' :: new)).map Item.word).map (fun i => (i.form, noSpace i.misc))) = text.take k := by
        rw [List.map_map]
        have := detok_words (setLast (w' :: new)) true (by intro e; rw [e] at hlen; simp at hlen) (by rw [hlen]; exact hflags')
        rw [hforms', hjoin] at this
        exact this
      rcases rest_cases hs' with h1 | ⟨u, h1, hu, hun, hus, hu1, hts⟩ | ⟨h1, h2, h3⟩
      · rw [h1, if_pos (.inl rfl)]
        refine ⟨_, [], by simp [lstrip], ⟨single_nil, rfl, by rw [← h1]; exact hct, hfl⟩, by simp, .inl ⟨rfl, ?_⟩, .inr ⟨w, _, rfl, rfl, hwritten⟩⟩
        rw [h1, List.append_nil] at hta
        rw [hdt, hta]
      · rw [if_pos (.inr hts), hu]
        have hnu : nos (text.drop k) = nos u := by rw [h1]; rfl
        refine ⟨_, u, by rw [hnu]; simp, ⟨hu1, hus, by rw [← hnu]; exact hct, hfl⟩, by simp, .inr ⟨hun, ?_⟩, .inr ⟨w, _, rfl, rfl, hwritten⟩⟩
        rw [hdt]
        conv => rhs; rw [← hta, h1]
        simp
      · rw [if_neg (by simp [h1, h2])]
        refine ⟨_, _, by simp [hlen], ⟨h3, h2, hct, hfl⟩, ?_, .inr ⟨h1, ?_⟩, .inr ⟨w, _, rfl, rfl, hwritten'⟩⟩
        · intro e
          rw [List.map_eq_nil_iff] at e
          rw [e] at hlen
          simp at hlen
        · rw [hdt', hta]

theorem Result.weaken {keep : Bool} {lower : Str → Str} {n m : Nat} (hnm : m ≤ n) {l l' : List Item} (r : Result keep lower n l l') :
    Result keep lower m l l' := by
  induction r with
  | nil => exact .nil
  | same h _ ih => exact .same h ih
  | parts h _ ih =>
    refine .parts ⟨h.forms, h.filled, h.first, fun x hx => ?_⟩ ih
    obtain ⟨a1, a2⟩ := h.others x hx
    exact ⟨Nat.le_trans hnm a1, a2⟩

/-- The whole loop. -/
theorem loop_spec {keep : Bool} {lower : Str → Str} : ∀ (l : List Item) (text : Str) (next : Nat), St text l →
    (goLoop keep lower text (nos text) next l = .error .attribute ∧ ∃ f m ws, Item.mwt f m ws ∈ l) ∨
    ∃ out, goLoop keep lower text (nos text) next l = .ok out ∧ Result keep lower next l out ∧
      detok (out.map (fun i => (i.form, noSpace i.misc))) = if l = [] then [] else text ++ [' ']
  | [], text, next, st => .inr ⟨[], rfl, .nil, rfl⟩
  | it :: l, text, next, st => by
    rcases step_spec (keep := keep) (lower := lower) (next := next) st with ⟨f, m, ws, rfl, e⟩ | ⟨g, t, e, st', hg, hd, hr⟩
    · left
      refine ⟨?_, f, m, ws, List.mem_cons_self ..⟩
      unfold goLoop
      rw [e]
    · rcases loop_spec l t (next + (g.length - 1)) st' with ⟨e', f, m, ws, hm⟩ | ⟨out, e', r', d'⟩
      · left
        refine ⟨?_, f, m, ws, List.mem_cons_of_mem _ hm⟩
        unfold goLoop
        rw [e]
        simp only
        rw [e']
      · right
        refine ⟨g ++ out, ?_, ?_, ?_⟩
        · unfold goLoop
          rw [e]
          simp only
          rw [e']
        · have r1 := r'.weaken (m := next) (Nat.le_add_right ..)
          rcases hr with ⟨i', rfl, hs⟩ | ⟨w, g', rfl, rfl, hw⟩
          · exact .same hs r1
          · exact .parts hw r1
        · rw [List.map_append, JoinMwt.detok_append, d', if_neg (List.cons_ne_nil it l)]
          rcases hd with ⟨rfl, hd⟩ | ⟨ht, hd⟩
          · have hl : l = [] := by
              cases l with
              | nil => rfl
              | cons j l =>
                have h1 := st'.chars
                rw [List.flatMap_cons] at h1
                have h2 := st'.filled j (List.mem_cons_self ..)
                have h3 : nos ([] : Str) = [] := rfl
                rw [h3] at h1
                exact absurd (List.append_eq_nil_iff.1 h1.symm).1 h2
            rw [hd, if_pos hl]
            simp
          · have hl : l ≠ [] := by
              rintro rfl
              exact nos_ne_nil ht st'.start st'.chars
            rw [if_neg hl, ← List.append_assoc, hd]

theorem nos_rstrip {s : Str} (h : Plain s) : nos (rstrip s) = nos s := by
  unfold rstrip
  have key : ∀ s : Str, Plain s → (s.dropWhile isWs).filter (· != ' ') = s.filter (· != ' ') := by
    intro s
    induction s with
    | nil => intro _; rfl
    | cons c s ih =>
      intro h
      by_cases hc : isWs c = true
      · rw [List.dropWhile_cons_of_pos hc, ih (fun d hd => h d (List.mem_cons_of_mem _ hd)), h c (List.mem_cons_self ..) hc]
        rfl
      · rw [List.dropWhile_cons_of_neg hc]
  unfold nos
  rw [List.filter_reverse, key _ (fun c hc => h c (List.mem_reverse.1 hc)), List.filter_reverse, List.reverse_reverse]

theorem nos_compute {l : List Item} (h : ∀ i ∈ l, Plain i.form) : nos (compute l) = l.flatMap (fun i => nos i.form) := by
  unfold compute
  have hp : Plain (detok (l.map (fun i => (i.form, noSpace i.misc)))) := by
    intro c hc hw
    unfold detok at hc
    rw [List.flatMap_map, List.mem_flatMap] at hc
    obtain ⟨i, hi, hc⟩ := hc
    cases hb : noSpace i.misc with
    | true => rw [hb] at hc; exact h i hi c hc hw
    | false =>
      rw [hb] at hc
      rcases List.mem_append.1 hc with hc | hc
      · exact h i hi c hc hw
      · exact List.mem_singleton.1 hc
  rw [nos_rstrip hp]
  clear h hp
  induction l with
  | nil => rfl
  | cons i l ih =>
    rw [List.map_cons, detok_cons, nos_append, ih, List.flatMap_cons, detok_one]
    cases noSpace i.misc with
    | true => rfl
    | false =>
      simp only [Bool.false_eq_true, if_false, nos_append]
      simp [nos]

theorem nos_normal {s : Str} (h : Plain s) : nos (normal s) = nos s := by
  have key : ∀ (s acc : Str), Plain s → ' ' ∉ acc → nos (join [' '] (Verif.Run.wsSplitAux acc s)) = acc.reverse ++ nos s := by
    have hn : ∀ p : Str, ' ' ∉ p → nos p = p := by
      intro p hp
      refine List.filter_eq_self.2 (fun c hc => ?_)
      have : c ≠ ' ' := fun e => hp (e ▸ hc)
      simp [this]
    have hj : ∀ (a : Str) (l : List Str), ' ' ∉ a → nos (join [' '] (a :: l)) = a ++ nos (join [' '] l) := by
      intro a l ha
      cases l with
      | nil => simp [join, hn a ha, show nos ([] : Str) = [] from rfl]
      | cons b l =>
        simp only [join, nos_append, hn a ha]
        simp [nos]
    intro s
    induction s with
    | nil =>
      intro acc _ ha
      unfold Verif.Run.wsSplitAux
      by_cases e : acc = []
      · subst e; rfl
      · rw [if_neg e, hj _ _ (by simpa using ha)]
        rfl
    | cons c s ih =>
      intro acc h ha
      have h' : Plain s := fun d hd => h d (List.mem_cons_of_mem _ hd)
      unfold Verif.Run.wsSplitAux
      by_cases hc : isWs c = true
      · have hcs := h c (List.mem_cons_self ..) hc
        have hns : nos (c :: s) = nos s := by rw [hcs]; rfl
        rw [if_pos hc, hns]
        by_cases e : acc = []
        · subst e
          rw [if_pos rfl]
          exact ih [] h' (by simp)
        · rw [if_neg e, hj _ _ (by simpa using ha), ih [] h' (by simp)]
          rfl
      · rw [if_neg hc]
        have hcs : c ≠ ' ' := by
          rintro rfl
          exact hc isWs_sp
        have hns : nos (c :: s) = c :: nos s := List.filter_cons_of_pos (by simp [hcs])
        rw [ih (c :: acc) h' (by simp [ha, Ne.symm hcs]), hns]
        simp
  exact key s [] h (by simp)

theorem process_spec {keep : Bool} {lower : Str → Str} {text : Str} {next : Nat} {l : List Item} (ht : Plain text)
    (hf : ∀ i ∈ l, Plain i.form ∧ ∃ c ∈ i.form, c ≠ ' ') (hm : Matches text l) (hne : text ≠ compute l) :
    (process keep lower text next l = .error .attribute ∧ ∃ f m ws, Item.mwt f m ws ∈ l) ∨
    ∃ out, process keep lower text next l = .ok out ∧ Result keep lower next l out ∧ compute out = normal text := by
  have hnc := nos_compute (fun i hi => (hf i hi).1)
  have st : St (normal text) l := by
    refine ⟨(single_normal text).1, (single_normal text).2, by rw [nos_normal ht]; exact hm, ?_⟩
    intro i hi
    obtain ⟨c, hc, hcs⟩ := (hf i hi).2
    have : c ∈ nos i.form := List.mem_filter.2 ⟨hc, by simp [hcs]⟩
    exact List.ne_nil_of_mem this
  have hp : process keep lower text next l = goLoop keep lower (normal text) (nos (normal text)) next l := by
    unfold process
    rw [if_neg hne, if_neg (by rw [hnc]; exact fun hx => hx hm), nos_normal ht]
  rw [hp]
  rcases loop_spec (keep := keep) (lower := lower) l (normal text) next st with h | ⟨out, e, r, d⟩
  · exact .inl h
  · right
    refine ⟨out, e, r, ?_⟩
    unfold compute
    rw [d]
    by_cases hl : l = []
    · rw [if_pos hl]
      have : normal text = [] := by
        apply Classical.byContradiction
        intro hn
        have h1 := nos_ne_nil hn st.start
        rw [st.chars, hl] at h1
        exact h1 rfl
      rw [this]
      rfl
    · rw [if_neg hl]
      exact rstrip_single st.single (fun c hc => by rw [List.mem_singleton.1 hc]; exact isWs_sp)

/-- A token with other white space in its form ends in an exception. -/
theorem loop_ws {keep : Bool} {lower : Str → Str} {c : Char} (hc : isWs c = true) (hcs : c ≠ ' ') :
    ∀ (l : List Item) (text ns : Str) (next : Nat), Plain text → (∃ i ∈ l, c ∈ i.form) → ∃ e, goLoop keep lower text ns next l = .error e
  | [], _, _, _, _, h => by obtain ⟨i, hi, _⟩ := h; cases hi
  | it :: l, text, ns, next, hp, h => by
    by_cases hit : c ∈ it.form
    · have hct : c ∉ text := fun hm => hcs (hp c hm hc)
      have h1 : ¬ it.form <+: text := fun hpre => hct (hpre.subset hit)
      have h2 : rawLen (nos it.form) text (text.length - (nos it.form).length) (nos it.form).length = none := by
        cases hr : rawLen (nos it.form) text (text.length - (nos it.form).length) (nos it.form).length with
        | none => rfl
        | some k =>
          have := (rawLen_some hr).1
          have hm : c ∈ nos it.form := List.mem_filter.2 ⟨hit, by simp [hcs]⟩
          rw [← this] at hm
          exact absurd (List.mem_of_mem_take (List.mem_filter.1 hm).1) hct
      refine ⟨.assertion, ?_⟩
      unfold goLoop goStep
      simp only [h2]
      rw [if_neg h1]
      by_cases h3 : nos it.form <+: ns
      · rw [if_pos h3]
      · rw [if_neg h3]
    · obtain ⟨i, hi, hci⟩ := h
      have hil : i ∈ l := by
        rcases List.mem_cons.1 hi with rfl | h
        · exact absurd hci hit
        · exact h
      have hdrop : ∀ k, Plain (text.drop k) := fun k d hd => hp d (List.mem_of_mem_drop hd)
      have hlst : ∀ k, Plain (lstrip (text.drop k)) := fun k d hd => hdrop k d ((List.dropWhile_suffix _).subset hd)
      unfold goLoop
      cases hst : goStep keep lower text ns next it with
      | error e => exact ⟨e, rfl⟩
      | ok q =>
        obtain ⟨g, t, n, nx⟩ := q
        have hpt : Plain t := by
          unfold goStep at hst
          simp only at hst
          repeat' split at hst
          all_goals first
            | (cases hst; done)
            | (injection hst with e; simp only [Prod.mk.injEq] at e; rw [← e.2.1]; first | exact hlst _ | exact hdrop _)
        obtain ⟨e, he⟩ := loop_ws (keep := keep) (lower := lower) hc hcs l t n nx hpt ⟨i, hil, hci⟩
        exact ⟨e, by simp only [he]⟩

/-- No space at the ends, no two spaces together. -/
def Clean (s : Str) : Prop := s.head? ≠ some ' ' ∧ s.getLast? ≠ some ' ' ∧ ∀ a b, s ≠ a ++ ' ' :: ' ' :: b

theorem single_of_clean {s : Str} (hp : Plain s) (h : Clean s) : Single s ∧ startsWs s = false := by
  constructor
  · intro a c b e hc
    have hcs : c = ' ' := hp c (by rw [e]; simp) hc
    subst hcs
    refine ⟨rfl, ?_⟩
    cases b with
    | nil => exact absurd (by rw [e]; simp) h.2.1
    | cons d b =>
      refine ⟨d, b, rfl, ?_⟩
      cases hd : isWs d with
      | false => rfl
      | true =>
        have : d = ' ' := hp d (by rw [e]; simp) hd
        subst this
        exact absurd e (h.2.2 a b)
  · cases s with
    | nil => rfl
    | cons c s =>
      cases hc : isWs c with
      | false => exact hc
      | true =>
        have : c = ' ' := hp c (List.mem_cons_self ..) hc
        subst this
        exact absurd rfl h.1

section Props
variable {keep : Bool} {lower : Str → Str} {text : Str} {next : Nat} {l : List Item}

/-- If the text consists of the forms of the tokens up to spaces (which are the only white space), then after the block `compute_text`
gives the text up to the number of spaces between words, and the text itself if it has no double spaces and no
spaces at its ends. The only exception is `AttributeError`, and only if there are multi-word tokens. -/
theorem C133_text_partial (ht : Plain text) (hf : ∀ i ∈ l, Plain i.form ∧ ∃ c ∈ i.form, c ≠ ' ') (hm : Matches text l) :
    (process keep lower text next l = .error .attribute ∧ ∃ f m ws, Item.mwt f m ws ∈ l) ∨
    ∃ out, process keep lower text next l = .ok out ∧ wsSplit (compute out) = wsSplit text ∧ (Clean text → compute out = text) := by
  by_cases hne : text = compute l
  · exact .inr ⟨l, by unfold process; rw [if_pos hne], by rw [← hne], fun _ => hne.symm⟩
  · rcases process_spec (keep := keep) (lower := lower) (next := next) ht hf hm hne with h | ⟨out, e, _, d⟩
    · exact .inl h
    · refine .inr ⟨out, e, ?_, fun hc => ?_⟩
      · rw [d]
        exact Verif.Run.wsSplit_join _ (Verif.Text.Comply.wsSplit_forms text)
      · rw [d]
        obtain ⟨h1, h2⟩ := single_of_clean ht hc
        exact join_wsSplit h1 h2

/-- Each token stays, up to `SpaceAfter`, or it is a word that is divided: the parts together are the form, the first one is the node
itself, the other ones are new nodes below it with the same UPOS and XPOS and the relation goeswith. -/
theorem C133_words (ht : Plain text) (hf : ∀ i ∈ l, Plain i.form ∧ ∃ c ∈ i.form, c ≠ ' ') (hm : Matches text l) {out : List Item}
    (h : process keep lower text next l = .ok out) : out = l ∨ Result keep lower next l out := by
  by_cases hne : text = compute l
  · unfold process at h
    rw [if_pos hne] at h
    injection h with h
    exact .inl h.symm
  · rcases process_spec (keep := keep) (lower := lower) (next := next) ht hf hm hne with ⟨e, _⟩ | ⟨out', e, r, _⟩
    · rw [e] at h; cases h
    · rw [e] at h
      injection h with h
      exact .inr (h ▸ r)

/-- A tree whose text differs in more than spaces is not changed. -/
theorem C133_mismatch (h : nos text ≠ nos (compute l)) : process keep lower text next l = .ok l := by
  unfold process
  by_cases hne : text = compute l
  · rw [if_pos hne]
  · rw [if_neg hne, if_pos h]

/-- Sentences with multi-word tokens: if the first token is one and the text has a space in it, `AttributeError`. -/
theorem C133_mwt_violated {f : Str} {m : Map} {ws : List Wd} (ht : Plain text) (hl : ∀ i ∈ Item.mwt f m ws :: l, Plain i.form ∧ ∃ c ∈ i.form, c ≠ ' ')
    (hm : Matches text (.mwt f m ws :: l)) (hf : ¬ f <+: normal text) (hne : text ≠ compute (.mwt f m ws :: l)) :
    process false lower text next (.mwt f m ws :: l) = .error .attribute := by
  have hnc := nos_compute (fun i hi => (hl i hi).1)
  have st : St (normal text) (.mwt f m ws :: l) := by
    refine ⟨(single_normal text).1, (single_normal text).2, by rw [nos_normal ht]; exact hm, ?_⟩
    intro i hi
    obtain ⟨c, hc, hcs⟩ := (hl i hi).2
    have : c ∈ nos i.form := List.mem_filter.2 ⟨hc, by simp [hcs]⟩
    exact List.ne_nil_of_mem this
  unfold process
  rw [if_neg hne, if_neg (by rw [hnc]; exact fun hx => hx hm), ← nos_normal ht]
  unfold goLoop
  have hg : goStep false lower (normal text) (nos (normal text)) next (.mwt f m ws) = .error .attribute := by
    have hc := st.chars
    rw [List.flatMap_cons] at hc
    have hpn : nos (Item.mwt f m ws).form <+: nos (normal text) := ⟨_, hc.symm⟩
    obtain ⟨k0, hk0, hk0e⟩ := prefix_nos (normal text) _ hpn
    have hle : (nos (Item.mwt f m ws).form).length ≤ k0 := by
      rw [← hk0e]
      exact Nat.le_trans (nos_length_le _) (List.length_take_le ..)
    obtain ⟨k, hk⟩ := rawLen_total hk0e (fuel := (normal text).length - (nos (Item.mwt f m ws).form).length) hle (by omega)
    unfold goStep
    simp only [hk]
    rw [if_neg (show ¬ (Item.mwt f m ws).form <+: normal text from hf), if_pos hpn]
    simp
  rw [hg]

/-- Forms with other white space (for instance no-break spaces): an exception, whenever the texts differ in spaces. -/
theorem C133_space_violated {c : Char} (hc : isWs c = true) (hcs : c ≠ ' ') {i : Item} (hi : i ∈ l) (hci : c ∈ i.form)
    (hne : text ≠ compute l) (hm : nos text = nos (compute l)) : ∃ e, process keep lower text next l = .error e := by
  unfold process
  rw [if_neg hne, if_neg (by simpa using hm)]
  exact loop_ws hc hcs l _ _ _ (fun d hd hw => single_mem (single_normal text).1 hd hw) ⟨i, hi, hci⟩

end Props

/-- Text "a b, c": the first word "ab" is divided. -/
example : (process false id ['a', ' ', 'b', ',', ' ', 'c'] 7
      [.word { id := 1, parent := 0, form := ['a', 'b'], upos := some ['X'] }, .word { id := 2, parent := 1, form := [','] },
        .word { id := 3, parent := 1, form := ['c'] }]).toOption.map (fun l => l.map (fun i => (i.form, noSpace i.misc))) =
    some [(['a'], false), (['b'], true), ([','], false), (['c'], false)] := by decide +kernel

example : (process false id ['a', ' ', 'b', ' ', 'c'] 7
      [.word { id := 1, parent := 0, form := ['a', 'b'] }, .word { id := 2, parent := 1, form := ['c'] }]).toOption.map
        (fun l => l.map (fun i => match i with | .word w => (w.id, w.parent) | .mwt .. => (0, 0))) =
    some [(1, 0), (7, 1), (2, 1)] := by decide +kernel

example : (process false id ['a', ' ', 'b'] 7 [.mwt ['a', 'b'] (fun _ => none) []]).toOption.isNone = true ∧
    (process true id ['a', ' ', 'b', ' ', 'c', '\u00a0', 'd'] 7
      [.word { id := 1, parent := 0, form := ['a', 'b'] }, .word { id := 2, parent := 0, form := ['c', '\u00a0', 'd'] }]).toOption.isNone = true := by
  decide +kernel

end Verif.Text.Goeswith
