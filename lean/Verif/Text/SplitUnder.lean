import Verif.Text.JoinMwt

/-!
# Property C131: ud.SplitUnderscoreTokens (udapi/block/ud/splitunderscoretokens.py)

The trees of `Verif.Text.AddMwt`; new nodes are moved to their place as in property C14. `none` is an `AttributeError` (a node
without lemma).
-/

namespace Verif.Text.SplitUnder
open Verif.Py Verif.DualDict Verif.Text.AddMwt
open Verif.DualDict.Spec (Map)
open Verif.Text.JoinMwt (Free locate_at locate_total detok_append)

/-- The parameters of the block; `lemmaForm` is `lemma == 'form'`. -/
structure Opts where
  deprel : Option Str
  default : Str
  lemmaForm : Bool

/-- `'PROPN'` -/
def propn : Str := ['P', 'R', 'O', 'P', 'N']
/-- `'flat'` -/
def flat : Str := ['f', 'l', 'a', 't']
/-- `'fixed'` -/
def fixed : Str := ['f', 'i', 'x', 'e', 'd']
/-- The closed classes (splitunderscoretokens.py:86). -/
def closed : List Str := [['A', 'D', 'P'], ['A', 'U', 'X'], ['C', 'C', 'O', 'N', 'J'], ['D', 'E', 'T'], ['P', 'A', 'R', 'T'], ['P', 'R', 'O', 'N'],
  ['S', 'C', 'O', 'N', 'J']]

/-- `deprel_for(node)` (splitunderscoretokens.py:68-90) -/
def deprelFor (o : Opts) (upos : Option Str) : Str :=
  match o.deprel with
  | some (c :: d) => c :: d
  | _ => if upos = some propn then flat else if (upos.any (· ∈ closed)) then fixed else o.default

/-- `last_node.misc['SpaceAfter'] = 'No'` for the last of the new nodes -/
def setLast : List Wd → List Wd
  | [] => []
  | [w] => [{ w with misc := put w.misc sa (some (.str ['N', 'o'])) }]
  | w :: r => w :: setLast r

/-- The node and the new nodes after it (splitunderscoretokens.py:44-65); `next` is the id of the next new node. -/
def splitWord (o : Opts) (next : Nat) (w : Wd) : Option (List Wd) :=
  if w.form ≠ ['_'] ∧ '_' ∈ w.form then
    let forms := split '_' w.form
    match (if o.lemmaForm then some w.form else w.lemma) with
    | none => none
    | some lem =>
      let lemmas := split '_' lem
      if forms.length ≠ lemmas.length then some [w]
      else
        let new := (forms.tail.zip lemmas.tail).mapIdx (fun i p =>
          ({ id := next + i, parent := w.id, form := p.1, lemma := some p.2, upos := w.upos, xpos := w.xpos,
             deprel := some (deprelFor o w.upos) } : Wd))
        let w' := { w with form := forms.headD [], lemma := some (lemmas.headD []) }
        if noSpace w.misc then some ({ w' with misc := put w.misc sa none } :: setLast new) else some (w' :: new)
  else some [w]

/-- `process_node(node)` -/
def splitAt (o : Opts) (s : Sent) (v : Nat) : Option Sent :=
  (locate v s.ws).bind fun (pre, w, post) =>
  (splitWord o s.next w).map fun g => { s with ws := pre ++ (g ++ post), next := s.next + (g.length - 1) }

/-- `process_tree` (core/block.py:55-62): the nodes that the tree has at the beginning. -/
def run (o : Opts) (s : Sent) : Option Sent := (s.ws.map (·.id)).foldlM (splitAt o) s

/-! ## What it should do -/

/-- The lemma that is divided. -/
def Opts.lemmaOf (o : Opts) (w : Wd) : Option Str := if o.lemmaForm then some w.form else w.lemma

/-- The word is to be divided: it has underscores and is not just one, and its lemma has the same number of underscores. -/
def Due (o : Opts) (w : Wd) : Prop :=
  w.form ≠ ['_'] ∧ '_' ∈ w.form ∧ ∃ l, o.lemmaOf w = some l ∧ l.count '_' = w.form.count '_'

/-- The documented deprel of the new nodes: the parameter `deprel`; otherwise `flat` for proper names, `fixed` for closed classes, and the
default. -/
def Deprel (o : Opts) (w : Wd) (d : Str) : Prop :=
  (∀ p, o.deprel = some p → p ≠ [] → d = p) ∧
  (o.deprel = none ∨ o.deprel = some [] →
    (w.upos = some ['P', 'R', 'O', 'P', 'N'] → d = ['f', 'l', 'a', 't']) ∧
    (∀ u, w.upos = some u → u ∈ closed → d = ['f', 'i', 'x', 'e', 'd']) ∧
    (w.upos ≠ some ['P', 'R', 'O', 'P', 'N'] → (∀ u, w.upos = some u → u ∉ closed) → d = o.default))

/-- The words `g` are the parts of the word `w`; the ids of new nodes are not below `n`. -/
structure Parts (o : Opts) (n : Nat) (w : Wd) (g : List Wd) : Prop where
  /-- the forms are the parts of the form between underscores -/
  forms : join ['_'] (g.map (·.form)) = w.form
  bare : ∀ x ∈ g, '_' ∉ x.form
  /-- so are the lemmas -/
  lemmas : ∃ ls, g.map (·.lemma) = ls.map some ∧ o.lemmaOf w = some (join ['_'] ls) ∧ ∀ l ∈ ls, '_' ∉ l
  /-- the first part is the node itself -/
  first : ∃ h, g.head? = some h ∧ h.id = w.id ∧ h.parent = w.parent ∧ h.upos = w.upos ∧ h.xpos = w.xpos ∧ h.deprel = w.deprel ∧
    h.feats = w.feats ∧ ∀ k, k ≠ sa → h.misc k = w.misc k
  /-- the other parts are below it -/
  others : ∀ x ∈ g.tail, n ≤ x.id ∧ x.parent = w.id ∧ x.upos = w.upos ∧ x.xpos = w.xpos ∧ (∃ d, x.deprel = some d ∧ Deprel o w d) ∧ ∀ k, k ≠ sa → x.misc k = none
  /-- only after the last part there is no space if there was none after the word -/
  space : g.map (fun x => noSpace x.misc) = List.replicate (g.length - 1) false ++ [noSpace w.misc]

/-- The words are divided, in their order. -/
inductive Splits (o : Opts) (n : Nat) : List Wd → List Wd → Prop
  | nil : Splits o n [] []
  | keep {w : Wd} {ws ws' : List Wd} (hd : ¬ Due o w) (h : Splits o n ws ws') : Splits o n (w :: ws) (w :: ws')
  | part {w : Wd} {g ws ws' : List Wd} (hd : Due o w) (hg : Parts o n w g) (h : Splits o n ws ws') : Splits o n (w :: ws) (g ++ ws')

open Classical in
/-- The word with spaces instead of underscores, if it is to be divided. -/
noncomputable def spaced (o : Opts) (w : Wd) : Wd :=
  if Due o w then { w with form := w.form.map (fun c => if c = '_' then ' ' else c) } else w

/-! ## Proofs -/

theorem split_length (c : Char) : ∀ s : Str, (split c s).length = s.count c + 1
  | [] => rfl
  | x :: xs => by
    have ih := split_length c xs
    unfold split
    by_cases hx : x = c
    · rw [if_pos hx, hx, List.count_cons_self, List.length_cons, ih]
    · rw [if_neg hx, List.count_cons_of_ne hx, ← ih]
      cases h : split c xs with
      | nil => exact absurd h (split_ne_nil c xs)
      | cons p ps => rfl

theorem setLast_concat (l : List Wd) (w : Wd) : setLast (l ++ [w]) = l ++ [{ w with misc := put w.misc sa (some (.str ['N', 'o'])) }] := by
  induction l with
  | nil => rfl
  | cons x l ih =>
    cases l with
    | nil => rfl
    | cons y l => rw [List.cons_append, List.cons_append, setLast, ← List.cons_append, ih]; simp; simp

theorem setLast_map {α : Type} (f : Wd → α) (hf : ∀ w m, f { w with misc := m } = f w) : ∀ l : List Wd, (setLast l).map f = l.map f
  | [] => rfl
  | [w] => by simp [setLast, hf]
  | w :: x :: r => by
    rw [setLast, List.map_cons, setLast_map f hf (x :: r), ← List.map_cons]
    intro h; cases h

theorem setLast_length (l : List Wd) : (setLast l).length = l.length := by
  have := congrArg List.length (setLast_map (·.id) (fun _ _ => rfl) l)
  simpa using this

theorem setLast_mem {l : List Wd} {x : Wd} (h : x ∈ setLast l) : ∃ y ∈ l, x = y ∨ x = { y with misc := put y.misc sa (some (.str ['N', 'o'])) } := by
  rcases List.eq_nil_or_concat l with rfl | ⟨l', w, e⟩
  · cases h
  · rw [List.concat_eq_append] at e
    subst e
    rw [setLast_concat] at h
    rcases List.mem_append.1 h with h | h
    · exact ⟨x, List.mem_append_left _ h, .inl rfl⟩
    · exact ⟨w, by simp, .inr (List.mem_singleton.1 h)⟩

theorem noSpace_none : noSpace (fun _ => none) = false := rfl

theorem setLast_space (l : List Wd) (hl : ∀ w ∈ l, w.misc = fun _ => none) (hne : l ≠ []) :
    (setLast l).map (fun x => noSpace x.misc) = List.replicate (l.length - 1) false ++ [true] := by
  rcases List.eq_nil_or_concat l with rfl | ⟨l', w, e⟩
  · exact absurd rfl hne
  · rw [List.concat_eq_append] at e
    subst e
    rw [setLast_concat, List.map_append, List.map_cons, List.map_nil]
    congr 1
    · rw [show (l' ++ [w]).length - 1 = l'.length by simp]
      refine List.eq_replicate_iff.2 ⟨by simp, ?_⟩
      intro b hb
      obtain ⟨x, hx, rfl⟩ := List.mem_map.1 hb
      rw [hl x (List.mem_append_left _ hx)]
      rfl

theorem splitWord_keep {o : Opts} {n : Nat} {w : Wd} {g : List Wd} (hd : ¬ Due o w) (h : splitWord o n w = some g) : g = [w] := by
  unfold splitWord at h
  split at h
  · rename_i hc
    simp only at h
    change (match o.lemmaOf w with | none => none | some lem => _) = some g at h
    cases hl : o.lemmaOf w with
    | none => rw [hl] at h; cases h
    | some lem =>
      rw [hl] at h
      simp only at h
      rw [if_pos] at h
      · exact (Option.some.inj h).symm
      · rw [split_length, split_length]
        intro e
        exact hd ⟨hc.1, hc.2, lem, hl, by omega⟩
  · exact (Option.some.inj h).symm

/-- The new nodes. -/
def news (o : Opts) (n : Nat) (w : Wd) (fs ls : List Str) : List Wd :=
  (fs.zip ls).mapIdx (fun i p =>
    ({ id := n + i, parent := w.id, form := p.1, lemma := some p.2, upos := w.upos, xpos := w.xpos, deprel := some (deprelFor o w.upos) } : Wd))

theorem news_form {o : Opts} {n : Nat} {w : Wd} {fs ls : List Str} (h : fs.length = ls.length) : (news o n w fs ls).map (·.form) = fs := by
  unfold news
  refine List.ext_getElem (by simp; omega) ?_
  intro i h1 h2
  simp

theorem news_lemma {o : Opts} {n : Nat} {w : Wd} {fs ls : List Str} (h : fs.length = ls.length) :
    (news o n w fs ls).map (·.lemma) = ls.map some := by
  unfold news
  refine List.ext_getElem (by simp; omega) ?_
  intro i h1 h2
  simp

theorem news_id {o : Opts} {n : Nat} {w : Wd} {fs ls : List Str} (h : fs.length = ls.length) :
    (news o n w fs ls).map (·.id) = List.range' n fs.length := by
  unfold news
  refine List.ext_getElem (by simp; omega) ?_
  intro i h1 h2
  simp

theorem news_mem {o : Opts} {n : Nat} {w x : Wd} {fs ls : List Str} (h : x ∈ news o n w fs ls) :
    n ≤ x.id ∧ x.parent = w.id ∧ x.upos = w.upos ∧ x.xpos = w.xpos ∧ x.deprel = some (deprelFor o w.upos) ∧ x.misc = fun _ => none := by
  unfold news at h
  obtain ⟨i, p, _, rfl⟩ := mapIdx_mem h
  exact ⟨Nat.le_add_right .., rfl, rfl, rfl, rfl, rfl⟩

theorem splitWord_due {o : Opts} {n : Nat} {w : Wd} {g : List Wd} (hd : Due o w) (h : splitWord o n w = some g) :
    ∃ f fs l ls h t, g = h :: t ∧ split '_' w.form = f :: fs ∧ o.lemmaOf w = some (join ['_'] (l :: ls)) ∧ (∀ x ∈ l :: ls, '_' ∉ x) ∧
      fs.length = ls.length ∧ fs ≠ [] ∧
      h = { w with form := f, lemma := some l, misc := if noSpace w.misc then put w.misc sa none else w.misc } ∧
      t = if noSpace w.misc then setLast (news o n w fs ls) else news o n w fs ls := by
  obtain ⟨h1, h2, lem, hl, hc⟩ := hd
  unfold splitWord at h
  rw [if_pos ⟨h1, h2⟩] at h
  simp only at h
  change (match o.lemmaOf w with | none => none | some lem => _) = some g at h
  rw [hl] at h
  simp only at h
  have hlen : (split '_' w.form).length = (split '_' lem).length := by rw [split_length, split_length, hc]
  rw [if_neg (fun hh => hh hlen)] at h
  cases hf : split '_' w.form with
  | nil => exact absurd hf (split_ne_nil _ _)
  | cons f fs =>
    cases hs : split '_' lem with
    | nil => exact absurd hs (split_ne_nil _ _)
    | cons l ls =>
      rw [hf, hs] at h hlen
      refine ⟨f, fs, l, ls, { w with form := f, lemma := some l, misc := if noSpace w.misc then put w.misc sa none else w.misc },
        if noSpace w.misc then setLast (news o n w fs ls) else news o n w fs ls, ?_, rfl, ?_, ?_, by simpa using hlen, ?_, rfl, rfl⟩
      · by_cases hn : noSpace w.misc = true
        · rw [if_pos hn, if_pos hn]
          rw [if_pos hn] at h
          exact (Option.some.inj h).symm
        · rw [if_neg hn, if_neg hn]
          rw [if_neg hn] at h
          exact (Option.some.inj h).symm
      · rw [hl, ← hs, join_split]
      · rw [← hs]; exact not_mem_split '_' lem
      · intro e
        have := split_length '_' w.form
        rw [hf, e] at this
        have hpos := List.count_pos_iff.2 h2
        simp at this
        omega

theorem deprelFor_spec (o : Opts) (w : Wd) : Deprel o w (deprelFor o w.upos) := by
  constructor
  · intro p hp hne
    unfold deprelFor
    rw [hp]
    cases p with
    | nil => exact absurd rfl hne
    | cons => rfl
  · intro h
    have e : deprelFor o w.upos = if w.upos = some propn then flat else if (w.upos.any (· ∈ closed)) then fixed else o.default := by
      unfold deprelFor
      rcases h with h | h <;> rw [h]
    rw [e]
    refine ⟨fun h => if_pos h, ?_, ?_⟩
    · intro u hu hc
      rw [hu, if_neg, if_pos (by simpa using hc)]
      · rfl
      · intro h
        cases h
        exact absurd hc (by decide)
    · intro h1 h2
      rw [if_neg (show ¬ w.upos = some propn from h1), if_neg]
      cases hu : w.upos with
      | none => simp
      | some u => simpa using h2 u hu

theorem splitWord_parts {o : Opts} {n : Nat} {w : Wd} {g : List Wd} (hd : Due o w) (h : splitWord o n w = some g) : Parts o n w g := by
  obtain ⟨f, fs, l, ls, hh, t, rfl, e1, e2, e3, e4, e5, e6, e7⟩ := splitWord_due hd h
  have hform : t.map (·.form) = fs := by
    rw [e7]
    split
    · rw [setLast_map _ (fun _ _ => rfl)]; exact news_form e4
    · exact news_form e4
  have hlem : t.map (·.lemma) = ls.map some := by
    rw [e7]
    split
    · rw [setLast_map _ (fun _ _ => rfl)]; exact news_lemma e4
    · exact news_lemma e4
  have hfs : (hh :: t).map (·.form) = f :: fs := by rw [List.map_cons, hform, e6]
  refine ⟨?_, ?_, ⟨l :: ls, by rw [List.map_cons, hlem, e6]; rfl, e2, e3⟩, ⟨hh, rfl, ?_⟩, ?_, ?_⟩
  · rw [hfs, ← e1, join_split]
  · intro x hx
    refine not_mem_split '_' w.form x.form ?_
    rw [e1, ← hfs]
    exact List.mem_map_of_mem hx
  · rw [e6]
    refine ⟨rfl, rfl, rfl, rfl, rfl, rfl, ?_⟩
    intro k hk
    simp only
    split
    · exact put_other hk
    · rfl
  · intro x hx
    have hx : x ∈ t := hx
    rw [e7] at hx
    split at hx
    · obtain ⟨y, hy, rfl | rfl⟩ := setLast_mem hx
      · obtain ⟨k0, k1, k2, k3, k4, k5⟩ := news_mem hy
        exact ⟨k0, k1, k2, k3, ⟨_, k4, deprelFor_spec o w⟩, fun k _ => by rw [k5]⟩
      · obtain ⟨k0, k1, k2, k3, k4, k5⟩ := news_mem hy
        exact ⟨k0, k1, k2, k3, ⟨_, k4, deprelFor_spec o w⟩, fun k hk => by rw [show ({ y with misc := put y.misc sa (some (.str ['N', 'o'])) } : Wd).misc k = y.misc k from put_other hk, k5]⟩
    · obtain ⟨k0, k1, k2, k3, k4, k5⟩ := news_mem hx
      exact ⟨k0, k1, k2, k3, ⟨_, k4, deprelFor_spec o w⟩, fun k _ => by rw [k5]⟩
  · have hlen : (news o n w fs ls).length = fs.length := by
      have := congrArg List.length (news_form (o := o) (n := n) (w := w) e4)
      simpa using this
    have hne : news o n w fs ls ≠ [] := by
      intro e
      rw [e] at hlen
      exact e5 (List.length_eq_zero_iff.1 hlen.symm)
    have hmisc : ∀ x ∈ news o n w fs ls, x.misc = fun _ => none := fun x hx => (news_mem hx).2.2.2.2.2
    obtain ⟨j, hj⟩ : ∃ j, fs.length = j + 1 := by
      cases fs with
      | nil => exact absurd rfl e5
      | cons => exact ⟨_, rfl⟩
    by_cases hn : noSpace w.misc = true
    · rw [if_pos hn] at e7
      have hh' : noSpace hh.misc = false := by
        rw [e6]
        simp only
        rw [if_pos hn]
        exact noSpace_put_sa _
      rw [List.map_cons, hh', e7, setLast_space _ hmisc hne, List.length_cons, setLast_length, hlen, hn, hj]
      rfl
    · rw [if_neg hn] at e7
      have hn' : noSpace w.misc = false := by simpa using hn
      have hh' : noSpace hh.misc = false := by
        rw [e6]
        simp only
        rw [if_neg hn]
        exact hn'
      rw [List.map_cons, hh', e7, List.length_cons, hlen, hn', hj]
      have : (news o n w fs ls).map (fun x => noSpace x.misc) = List.replicate (j + 1) false := by
        refine List.eq_replicate_iff.2 ⟨by rw [List.length_map, hlen, hj], ?_⟩
        intro b hb
        obtain ⟨x, hx, rfl⟩ := List.mem_map.1 hb
        rw [hmisc x hx]
        rfl
      rw [this, show j + 1 + 1 - 1 = j + 1 by omega]
      rw [← List.replicate_succ' (n := j + 1)]
      rfl

theorem splitWord_ids {o : Opts} {n : Nat} {w : Wd} {g : List Wd} (h : splitWord o n w = some g) :
    g.map (·.id) = w.id :: List.range' n (g.length - 1) := by
  by_cases hd : Due o w
  · obtain ⟨f, fs, l, ls, hh, t, rfl, e1, e2, e3, e4, e5, e6, e7⟩ := splitWord_due hd h
    have hid : t.map (·.id) = List.range' n fs.length := by
      rw [e7]
      split
      · rw [setLast_map _ (fun _ _ => rfl)]; exact news_id e4
      · exact news_id e4
    have hlen : t.length = fs.length := by simpa using congrArg List.length hid
    rw [List.map_cons, hid, e6, List.length_cons, hlen]
    rfl
  · rw [splitWord_keep hd h]; rfl

theorem splitWord_splits {o : Opts} {n : Nat} {w : Wd} {g ws ws' : List Wd} (h : splitWord o n w = some g) {n' : Nat} (hn : n' ≤ n) (hs : Splits o n' ws ws') :
    Splits o n' (w :: ws) (g ++ ws') := by
  by_cases hd : Due o w
  · have hp := splitWord_parts hd h
    exact .part hd { hp with others := fun x hx => ⟨Nat.le_trans hn (hp.others x hx).1, (hp.others x hx).2⟩ } hs
  · rw [splitWord_keep hd h]; exact .keep hd hs

theorem Splits.mono {o : Opts} {n n' : Nat} {ws ws' : List Wd} (hn : n' ≤ n) (h : Splits o n ws ws') : Splits o n' ws ws' := by
  induction h with
  | nil => exact .nil
  | keep hd _ ih => exact .keep hd ih
  | part hd hp _ ih => exact .part hd { hp with others := fun x hx => ⟨Nat.le_trans hn (hp.others x hx).1, (hp.others x hx).2⟩ } ih

theorem Splits.ids {o : Opts} {n : Nat} {ws ws' : List Wd} (h : Splits o n ws ws') : ∀ x ∈ ws.map (·.id), x ∈ ws'.map (·.id) := by
  induction h with
  | nil => intro x hx; exact hx
  | keep _ _ ih =>
    intro x hx
    rcases List.mem_cons.1 hx with h | h
    · rw [h]; exact List.mem_cons_self ..
    · exact List.mem_cons_of_mem _ (ih x h)
  | part _ hg _ ih =>
    intro x hx
    rw [List.map_append]
    rcases List.mem_cons.1 hx with h | h
    · obtain ⟨y, hy, hid, _⟩ := hg.first
      rw [h, show (fun x : Wd => x.id) _ = _ from hid.symm]
      exact List.mem_append_left _ (List.mem_map_of_mem (List.mem_of_head? hy))
    · exact List.mem_append_right _ (ih x h)

theorem loop {o : Opts} {m : List Tk} : ∀ (R P : List Wd) (n : Nat) {s' : Sent}, ((P ++ R).map (·.id)).Nodup → (∀ w ∈ P ++ R, w.id < n) →
    (R.map (·.id)).foldlM (splitAt o) ⟨P ++ R, m, n⟩ = some s' →
    ∃ R', s'.ws = P ++ R' ∧ s'.mwts = m ∧ Splits o n R R' ∧ n ≤ s'.next ∧ (s'.ws.map (·.id)).Nodup ∧ (∀ w ∈ s'.ws, w.id < s'.next) ∧
      ∀ w ∈ R', w.id ∈ R.map (·.id) ∨ n ≤ w.id
  | [], P, n, s', hn, hf, h => by
    cases h
    exact ⟨[], rfl, rfl, .nil, Nat.le_refl _, hn, hf, by simp⟩
  | w :: R, P, n, s', hn, hf, h => by
    rw [List.map_cons, List.foldlM_cons] at h
    obtain ⟨s1, h1, h⟩ := Option.bind_eq_some_iff.1 h
    have hP : ∀ y ∈ P, y.id ≠ w.id := by
      intro y hy e
      rw [List.map_append, List.nodup_append] at hn
      exact hn.2.2 y.id (List.mem_map_of_mem hy) w.id (by simp) e
    unfold splitAt at h1
    rw [show ({ ws := P ++ w :: R, mwts := m, next := n } : Sent).ws = P ++ w :: R from rfl, locate_at hP rfl] at h1
    simp only [Option.bind_some] at h1
    obtain ⟨g, hg, e⟩ := Option.map_eq_some_iff.1 h1
    subst e
    have hids := splitWord_ids hg
    have h' : (R.map (·.id)).foldlM (splitAt o) ⟨(P ++ g) ++ R, m, n + (g.length - 1)⟩ = some s' := by
      rw [List.append_assoc]; exact h
    have hlt : ∀ y ∈ P ++ g ++ R, y.id < n + (g.length - 1) := by
      intro y hy
      rcases List.mem_append.1 hy with hy | hy
      · rcases List.mem_append.1 hy with hy | hy
        · exact Nat.lt_add_right _ (hf y (List.mem_append_left _ hy))
        · have : y.id ∈ g.map (·.id) := List.mem_map_of_mem hy
          rw [hids] at this
          rcases List.mem_cons.1 this with h | h
          · rw [h]; exact Nat.lt_add_right _ (hf w (by simp))
          · exact (List.mem_range'_1.1 h).2
      · exact Nat.lt_add_right _ (hf y (by simp [hy]))
    have hnd : ((P ++ g ++ R).map (·.id)).Nodup := by
      have := nodup_new (P := P.map (·.id)) (Q := R.map (·.id)) (v := w.id) (n := n) (k := 0) (j := g.length - 1)
        (by rw [← List.map_cons, ← List.map_append]; exact hn) (by
          intro x hx
          rw [← List.map_cons, ← List.map_append] at hx
          obtain ⟨y, hy, rfl⟩ := List.mem_map.1 hx
          exact hf y hy)
      rw [List.map_append, List.map_append, hids]
      simpa using this
    obtain ⟨R', r1, r2, r3, r4, r5, r6, r7⟩ := loop R (P ++ g) _ hnd hlt h'
    refine ⟨g ++ R', by rw [r1, List.append_assoc], r2, splitWord_splits hg (Nat.le_refl _) (r3.mono (by omega)), by omega, r5, r6, ?_⟩
    intro y hy
    rcases List.mem_append.1 hy with hy | hy
    · have : y.id ∈ g.map (·.id) := List.mem_map_of_mem hy
      rw [hids] at this
      rcases List.mem_cons.1 this with h | h
      · exact .inl (by rw [h]; simp)
      · exact .inr (List.mem_range'_1.1 h).1
    · rcases r7 y hy with h | h
      · exact .inl (List.mem_cons_of_mem _ h)
      · exact .inr (by omega)

/-- C131: for every tree and every option: each word that is to be divided is replaced by its parts, all other words stay, and the
multi-word tokens as well. All nodes are different. -/
theorem C131_words {o : Opts} {s s' : Sent} (hw : Wf s) (h : run o s = some s') :
    Splits o s.next s.ws s'.ws ∧ s'.mwts = s.mwts ∧ Wf s' := by
  have := loop (o := o) (m := s.mwts) s.ws [] s.next hw.nodup hw.fresh h
  obtain ⟨R', r1, r2, r3, r4, r5, r6, r7⟩ := this
  have r1 : s'.ws = R' := r1
  refine ⟨by rw [r1]; exact r3, r2, r5, r6, ?_⟩
  rw [r2, r1]
  intro t ht x hx
  exact r3.ids x (hw.words t ht x hx)

/-! ### The text -/

theorem detok_parts (b : Bool) : ∀ (g : List Wd), g ≠ [] → (∀ x ∈ g, '_' ∉ x.form) →
    g.map (fun x => noSpace x.misc) = List.replicate (g.length - 1) false ++ [b] →
    detok (g.map (fun x => (x.form, noSpace x.misc))) = detok [((join ['_'] (g.map (·.form))).map (fun c => if c = '_' then ' ' else c), b)]
  | [], h, _, _ => absurd rfl h
  | [x], _, hb, hs => by
    have e : noSpace x.misc = b := by simpa using hs
    have e2 : x.form.map (fun c => if c = '_' then ' ' else c) = x.form := by
      conv => rhs; rw [← List.map_id x.form]
      refine List.map_congr_left (fun c hc => if_neg ?_)
      rintro rfl
      exact hb x (List.mem_cons_self ..) hc
    simp only [List.map_cons, List.map_nil, join, e2, e]
  | x :: y :: r, _, hb, hs => by
    have hs' : noSpace x.misc :: (y :: r).map (fun x => noSpace x.misc) = false :: (List.replicate ((y :: r).length - 1) false ++ [b]) := hs
    have h1 := (List.cons.inj hs').1
    have ih := detok_parts b (y :: r) (by simp) (fun z hz => hb z (List.mem_cons_of_mem _ hz)) (List.cons.inj hs').2
    have e2 : x.form.map (fun c => if c = '_' then ' ' else c) = x.form := by
      conv => rhs; rw [← List.map_id x.form]
      refine List.map_congr_left (fun c hc => if_neg ?_)
      rintro rfl
      exact hb x (List.mem_cons_self ..) hc
    have e3 : detok ((x :: y :: r).map (fun x => (x.form, noSpace x.misc))) =
        x.form ++ [' '] ++ detok ((y :: r).map (fun x => (x.form, noSpace x.misc))) := by
      unfold detok
      rw [List.map_cons, List.flatMap_cons, h1]
      rfl
    have e4 : join ['_'] ((x :: y :: r).map (·.form)) = x.form ++ ['_'] ++ join ['_'] ((y :: r).map (·.form)) := rfl
    rw [e3, e4, ih, List.map_append, List.map_append, e2]
    unfold detok
    simp only [List.flatMap_cons, List.flatMap_nil, List.append_nil, List.map_cons, List.map_nil, if_true]
    cases b <;> simp [List.append_assoc]

theorem spaced_keep {o : Opts} {w : Wd} (h : ¬ Due o w) : spaced o w = w := by
  unfold spaced; rw [if_neg h]

theorem spaced_due {o : Opts} {w : Wd} (h : Due o w) : spaced o w = { w with form := w.form.map (fun c => if c = '_' then ' ' else c) } := by
  unfold spaced; rw [if_pos h]

theorem spaced_id (o : Opts) (w : Wd) : (spaced o w).id = w.id := by
  unfold spaced; split <;> rfl

theorem splits_prefix {o : Opts} {n : Nat} : ∀ {g ws ws' : List Wd}, (∀ w ∈ g, ¬ Due o w) → Splits o n (g ++ ws) ws' →
    ∃ ws'', ws' = g ++ ws'' ∧ Splits o n ws ws''
  | [], _, ws', _, h => ⟨ws', rfl, h⟩
  | w :: g, ws, ws', hg, h => by
    cases h with
    | keep _ h =>
      obtain ⟨ws'', e, h⟩ := splits_prefix (fun x hx => hg x (List.mem_cons_of_mem _ hx)) h
      exact ⟨ws'', by rw [e]; rfl, h⟩
    | part hd => exact absurd hd (hg w (List.mem_cons_self ..))

theorem tiles_free {m : List Tk} {ws : List Wd} {l : List (Str × Bool)} (h : Tiles m ws l) : ∀ (g : List Wd), (∀ w ∈ g, Free m w) →
    Tiles m (g ++ ws) (g.map (fun x => (x.form, noSpace x.misc)) ++ l)
  | [], _ => h
  | w :: g, hg => .word (hg w (List.mem_cons_self ..)) (tiles_free h g (fun x hx => hg x (List.mem_cons_of_mem _ hx)))

theorem tiles_splits {o : Opts} {m : List Tk} {n : Nat} (hn : ∀ t ∈ m, ∀ x ∈ t.words, x < n) {ws : List Wd} {l : List (Str × Bool)}
    (h : Tiles m ws l) : ∀ {ws' : List Wd}, Splits o n ws ws' → (∀ w ∈ ws, Due o w → Free m w) →
    ∃ l' l'', Tiles m ws' l' ∧ Tiles m (ws.map (spaced o)) l'' ∧ detok l' = detok l'' := by
  induction h with
  | nil =>
    intro ws' hs _
    cases hs
    exact ⟨[], [], .nil, .nil, rfl⟩
  | @word w ws l hw _ ih =>
    intro ws' hs hf
    cases hs with
    | keep hd hs =>
      obtain ⟨l', l'', h1, h2, h3⟩ := ih hs (fun x hx => hf x (List.mem_cons_of_mem _ hx))
      refine ⟨_, (w.form, noSpace w.misc) :: l'', .word hw h1, ?_, ?_⟩
      · rw [List.map_cons, spaced_keep hd]
        exact .word hw h2
      · rw [show (w.form, noSpace w.misc) :: l' = [(w.form, noSpace w.misc)] ++ l' from rfl, detok_append, h3, ← detok_append]
        rfl
    | @part _ g _ ws'' hd hp hs =>
      obtain ⟨l', l'', h1, h2, h3⟩ := ih hs (fun x hx => hf x (List.mem_cons_of_mem _ hx))
      obtain ⟨y, hy, hid, _⟩ := hp.first
      have hg : ∀ x ∈ g, Free m x := by
        intro x hx
        cases g with
        | nil => cases hx
        | cons z g =>
          cases hy
          rcases List.mem_cons.1 hx with h | h
          · intro t ht
            rw [h, hid]
            exact hw t ht
          · intro t ht hi
            have h1 := (hp.others x h).1
            have h2 := hn t ht x.id hi
            omega
      refine ⟨_, (w.form.map (fun c => if c = '_' then ' ' else c), noSpace w.misc) :: l'', tiles_free h1 g hg, ?_, ?_⟩
      · rw [List.map_cons, spaced_due hd]
        exact .word (w := { w with form := _ }) hw h2
      · have hne : g ≠ [] := by rintro rfl; cases hy
        rw [detok_append, h3, detok_parts (noSpace w.misc) g hne hp.bare hp.space, hp.forms, ← detok_append]
        rfl
  | @mwt t g ws l ht hg hne hu _ ih =>
    intro ws' hs hf
    have hd : ∀ w ∈ g, ¬ Due o w := by
      intro w hw hd
      refine hf w (List.mem_append_left _ hw) hd t ht ?_
      rw [← hg]
      exact List.mem_map_of_mem hw
    obtain ⟨ws'', e, hs2⟩ := splits_prefix hd hs
    subst e
    obtain ⟨l', l'', h1, h2, h3⟩ := ih hs2 (fun x hx => hf x (List.mem_append_right _ hx))
    refine ⟨(t.form, noSpace t.misc) :: l', (t.form, noSpace t.misc) :: l'', .mwt ht hg hne hu h1, ?_, ?_⟩
    · have : g.map (spaced o) = g := by
        conv => rhs; rw [← List.map_id g]
        exact List.map_congr_left (fun w hw => spaced_keep (hd w hw))
      rw [List.map_append, this]
      exact .mwt ht hg hne hu h2
    · rw [show (t.form, noSpace t.misc) :: l' = [(t.form, noSpace t.misc)] ++ l' from rfl, detok_append, h3, ← detok_append]
      rfl

/-- C131 (partial): the text afterwards is the text of the tree with spaces instead of the underscores of the divided words, if no
divided word belongs to a multi-word token. Missing: the words of multi-word tokens, see `C131_mwt_violated`. -/
theorem C131_text_partial {o : Opts} {s s' : Sent} {l : List (Str × Bool)} (hw : Wf s) (ht : Tiles s.mwts s.ws l)
    (hf : ∀ w ∈ s.ws, Due o w → Free s.mwts w) (h : run o s = some s') :
    computeText true s'.toTree = computeText true { s with ws := s.ws.map (spaced o) : Sent }.toTree := by
  obtain ⟨h1, h2, h3⟩ := C131_words hw h
  have hlt : ∀ t ∈ s.mwts, ∀ x ∈ t.words, x < s.next := by
    intro t ht x hx
    obtain ⟨y, hy, rfl⟩ := List.mem_map.1 (hw.words t ht x hx)
    exact hw.fresh y hy
  obtain ⟨l', l'', t1, t2, t3⟩ := tiles_splits hlt ht h1 hf
  rw [← h2] at t1
  have hn : (({ s with ws := s.ws.map (spaced o) } : Sent).ws.map (·.id)).Nodup := by
    show ((s.ws.map (spaced o)).map (·.id)).Nodup
    rw [List.map_map, show ((·.id) ∘ spaced o : Wd → Nat) = (·.id) from funext (fun w => spaced_id o w)]
    exact hw.nodup
  rw [C84_text, C84_text, tiles_tokens h3.nodup t1, tiles_tokens hn t2, t3]

theorem splits_at {o : Opts} {n : Nat} {ws ws' : List Wd} (h : Splits o n ws ws') {w : Wd} (hw : w ∈ ws) (hd : Due o w) :
    ∃ A g B, ws' = A ++ (g ++ B) ∧ Parts o n w g := by
  induction h with
  | nil => cases hw
  | @keep v ws ws' hv _ ih =>
    rcases List.mem_cons.1 hw with h | h
    · rw [h] at hd; exact absurd hd hv
    · obtain ⟨A, g, B, e, hp⟩ := ih h
      exact ⟨v :: A, g, B, by rw [e]; rfl, hp⟩
  | @part v g' ws ws' _ hg _ ih =>
    rcases List.mem_cons.1 hw with h | h
    · subst h; exact ⟨[], g', ws', rfl, hg⟩
    · obtain ⟨A, g, B, e, hp⟩ := ih h
      exact ⟨g' ++ A, g, B, by rw [e, List.append_assoc], hp⟩

theorem parts_two {o : Opts} {n : Nat} {w : Wd} {g : List Wd} (hd : Due o w) (hp : Parts o n w g) : ∃ h x r, g = h :: x :: r := by
  match g, hp with
  | [], hp => obtain ⟨_, h, _⟩ := hp.first; cases h
  | [x], hp =>
    have := hp.forms
    have hb := hp.bare x (List.mem_cons_self ..)
    rw [show join ['_'] ([x].map (·.form)) = x.form from rfl] at this
    rw [this] at hb
    exact absurd hd.2.1 hb
  | h :: x :: r, _ => exact ⟨h, x, r, rfl⟩

/-- C131 is violated for every divided word of a multi-word token: the next part belongs to no multi-word token, and if the word is not the
last one of its token, the words of the token are no longer next to each other (the words cannot be divided into tokens). -/
theorem C131_mwt_violated {o : Opts} {s s' : Sent} (hw : Wf s) (h : run o s = some s') {w : Wd} (hm : w ∈ s.ws) (hd : Due o w) {t : Tk}
    (ht : t ∈ s.mwts) (hi : w.id ∈ t.words) :
    (∃ A y x B, s'.ws = A ++ y :: x :: B ∧ y.id = w.id ∧ x.parent = w.id ∧ Free s'.mwts x) ∧
    (t.words.getLast? ≠ some w.id → ¬ ∃ l, Tiles s'.mwts s'.ws l) := by
  obtain ⟨h1, h2, h3⟩ := C131_words hw h
  obtain ⟨A, g, B, e, hp⟩ := splits_at h1 hm hd
  obtain ⟨y, x, r, rfl⟩ := parts_two hd hp
  have hy : y.id = w.id := by
    obtain ⟨z, hz, hid, _⟩ := hp.first
    cases hz
    exact hid
  have hx := hp.others x (List.mem_cons_self ..)
  have hfree : Free s'.mwts x := by
    rw [h2]
    intro t' ht' hi'
    obtain ⟨v, hv, e⟩ := List.mem_map.1 (hw.words t' ht' x.id hi')
    have := hw.fresh v hv
    have := hx.1
    omega
  refine ⟨⟨A, y, x, r ++ B, e, hy, hx.2.1, hfree⟩, ?_⟩
  rintro hlast ⟨l, hl⟩
  rw [e] at hl
  obtain ⟨p1, g1, g2, p2, _, _, e1, e2, e3, _⟩ := hl.at_mwt (pre := A) (o := y) (post := x :: (r ++ B)) rfl (by rw [h2]; exact ht)
    (by rw [hy]; exact hi)
  cases g2 with
  | nil =>
    refine hlast ?_
    rw [← e3, ← hy]
    simp
  | cons z g2 =>
    have : z = x := (List.cons.inj e2).1.symm
    subst this
    refine hfree t (by rw [h2]; exact ht) ?_
    rw [← e3]
    simp

/-- C131: an exception is raised only for a node with underscores and without lemma. -/
theorem C131_errors {o : Opts} {n : Nat} {w : Wd} :
    splitWord o n w = none ↔ w.form ≠ ['_'] ∧ '_' ∈ w.form ∧ o.lemmaForm = false ∧ w.lemma = none := by
  unfold splitWord
  by_cases hc : w.form ≠ ['_'] ∧ '_' ∈ w.form
  · rw [if_pos hc]
    simp only
    cases hl : o.lemmaForm with
    | true =>
      simp only [if_true]
      constructor
      · intro h
        split at h
        · cases h
        · split at h <;> cases h
      · intro h; exact absurd h.2.2.1 (by simp)
    | false =>
      simp only [Bool.false_eq_true, if_false]
      cases hm : w.lemma with
      | none => exact ⟨fun _ => ⟨hc.1, hc.2, trivial, rfl⟩, fun _ => rfl⟩
      | some lem =>
        simp only
        constructor
        · intro h
          split at h
          · cases h
          · split at h <;> cases h
        · intro h; exact absurd h.2.2.2 (by simp)
  · rw [if_neg hc]
    constructor
    · intro h; cases h
    · intro h; exact absurd ⟨h.1, h.2.1⟩ hc

/-! ## Examples -/

section Examples

def exOpts : Opts := ⟨none, flat, false⟩

/-- `A_b_c` without a space before `.` -/
def exSent : Sent where
  ws := [
    { id := 1, parent := 0, form := ['A', '_', 'b', '_', 'c'], lemma := some ['a', '_', 'b', '_', 'c'], upos := some propn,
      misc := fun k => if k = sa then some (.str ['N', 'o']) else none },
    { id := 2, parent := 1, form := ['.'], lemma := some ['.'] }]
  mwts := []
  next := 3

example : (run exOpts exSent).map (fun s => s.ws.map (fun w => (w.id, w.parent, w.form))) = some [(1, 0, ['A']), (3, 1, ['b']), (4, 1, ['c']), (2, 1, ['.'])] := by decide +kernel

example : (run exOpts exSent).map (fun s => s.ws.map (·.deprel)) = some [none, some flat, some flat, none] := by decide +kernel

example : (run exOpts exSent).map (fun s => computeText true s.toTree) = some ['A', ' ', 'b', ' ', 'c', '.'] := by decide +kernel

/-- A word of a multi-word token: the new word is written a second time. -/
example : (run exOpts { exSent with mwts := [⟨[1, 2], ['A', '_', 'b', '_', 'c', '.'], fun _ => none⟩] }).map (fun s => computeText true s.toTree) =
    some ['A', '_', 'b', '_', 'c', '.', ' ', 'b', ' ', 'c'] := by decide +kernel

end Examples

end Verif.Text.SplitUnder
