import Verif.DualDict.Lemmas

/-!
# Property C162: lists of bugs in MISC (udapi/block/util/markmwtbugsatnodes.py, udapi/block/ud/markfeatsbugs.py)

The method `bug` is the same in both blocks. `misc` and `feats` are dictionaries as in `Model.lean`; an exception is `none`. Values in MISC that are neither
strings nor `True` are taken to be true in Python (so `1` but not `0`); for them `split` does not exist.
-/

namespace Verif.DualDict.Bugs
open Verif.Py Verif.DualDict

def kBug : Str := ['B', 'u', 'g']

/-- `misc[k] = v` for a string (dualdict.py:66-73) -/
def setStr (d : Dict) (k v : Str) : Dict := if v = [] then erase d k else insert d k (.str v)

/-- The list `bugs` before the addition (markmwtbugsatnodes.py:15-17, markfeatsbugs.py:15-17) -/
def bugsOf (d : Dict) : Option (List Str) :=
  match lookup d kBug with
  | none => some []
  | some (.str []) => some []
  | some (.str s) => some (split '+' s)
  | some _ => none

/-- `if not bugstring in bugs: bugs.append(bugstring)` -/
def add (bs : List Str) (b : Str) : List Str := if b ∈ bs then bs else bs ++ [b]

/-- `bug(node, bugstring)` (markmwtbugsatnodes.py:14-20, markfeatsbugs.py:14-20) -/
def bug (d : Dict) (b : Str) : Option Dict :=
  match bugsOf d with
  | none => none
  | some bs => some (setStr d kBug (join ['+'] (add bs b)))

/-- `MarkMwtBugsAtNodes.process_node` (markmwtbugsatnodes.py:22-25); `mwt` is the MISC of the multi-word token of the node, if there is one. With the value `True`
(an attribute `Bug` without a value) `join` fails. -/
def mwtNode (mwt : Option Dict) (d : Dict) : Option Dict :=
  match mwt with
  | none => some d
  | some m =>
    match lookup m kBug with
    | none => some d
    | some (.str []) => some d
    | some (.str b) => bug d b
    | some _ => none

def bugs : Dict → List Str → Option Dict
  | d, [] => some d
  | d, b :: l => match bug d b with
    | none => none
    | some d' => bugs d' l

def wFeat : Str := ['F', 'e', 'a', 't']
def wValue : Str := ['V', 'a', 'l', 'u', 'e']
def wNotAllowed : Str := ['N', 'o', 't', 'A', 'l', 'l', 'o', 'w', 'e', 'd']
def wMissing : Str := ['M', 'i', 's', 's', 'i', 'n', 'g']

/-- The loop of `check_allowed_features` (markfeatsbugs.py:29-34); `allowed` is a dictionary of lists. `'Value' + True` fails. -/
def allowedLoop (allowed : Str → Option (List Str)) : Dict → Dict → Option Dict
  | [], d => some d
  | (f, v) :: fs, d =>
    match allowed f with
    | none => match bug d (wFeat ++ f ++ wNotAllowed) with
      | none => none
      | some d' => allowedLoop allowed fs d'
    | some vs =>
      match v with
      | .str s => if s ∈ vs then allowedLoop allowed fs d else
        match bug d (wFeat ++ f ++ wValue ++ s ++ wNotAllowed) with
        | none => none
        | some d' => allowedLoop allowed fs d'
      | _ => none

/-- The loop of `check_required_features` (markfeatsbugs.py:40-42) -/
def requiredLoop (feats : Dict) : List Str → Dict → Option Dict
  | [], d => some d
  | f :: fs, d =>
    if f ∈ feats.map (·.1) then requiredLoop feats fs d else
      match bug d (wFeat ++ f ++ wMissing) with
      | none => none
      | some d' => requiredLoop feats fs d'

/-! ## Lemmas -/

/-- What can be an item of the list of bugs -/
def Plain (b : Str) : Prop := b ≠ [] ∧ '+' ∉ b

theorem bugsOf_plus {d : Dict} {bs : List Str} (h : bugsOf d = some bs) : ∀ p ∈ bs, '+' ∉ p := by
  unfold bugsOf at h
  split at h
  · cases h; intro p hp; cases hp
  · cases h; intro p hp; cases hp
  · cases h; exact not_mem_split '+' _
  · cases h

theorem bugsOf_ne {d : Dict} {bs : List Str} (h : bugsOf d = some bs) : bs ≠ [[]] := by
  unfold bugsOf at h
  split at h
  · cases h; simp
  · cases h; simp
  · rename_i s hne hl
    cases h
    intro hc
    have := join_split '+' s
    rw [hc] at this
    exact hne (by rw [← this]; rfl)
  · cases h

theorem join_ne_nil {bs : List Str} (h0 : bs ≠ []) (h1 : bs ≠ [[]]) : join ['+'] bs ≠ [] := by
  intro h
  rcases join_eq_nil (sep := ['+']) (by simp) h with g | g
  · exact h0 g
  · exact h1 g

theorem lookup_setStr {d : Dict} {k v : Str} (hv : v ≠ []) (k' : Str) : lookup (setStr d k v) k' = if k' = k then some (.str v) else lookup d k' := by
  unfold setStr
  rw [if_neg hv, lookup_insert]

theorem bugsOf_set {d : Dict} {bs : List Str} (h0 : bs ≠ []) (h1 : bs ≠ [[]]) (hp : ∀ p ∈ bs, '+' ∉ p) :
    bugsOf (setStr d kBug (join ['+'] bs)) = some bs := by
  have hj := join_ne_nil h0 h1
  unfold bugsOf
  rw [lookup_setStr hj, if_pos rfl]
  split
  · rename_i h; cases h
  · rename_i h; injection h with h; injection h with h; exact absurd h hj
  · rename_i h; injection h with h; injection h with h; rw [← h, split_join h0 hp]
  · rename_i h1 h2 h3; injection h3 with h3; subst h3; exact absurd rfl (h2 _)

theorem mem_add {bs : List Str} {b x : Str} : x ∈ add bs b ↔ x ∈ bs ∨ x = b := by
  unfold add
  split
  · rename_i h
    exact ⟨.inl, fun g => g.elim id (fun e => e ▸ h)⟩
  · simp

theorem prefix_add (bs : List Str) (b : Str) : bs <+: add bs b := by
  unfold add
  split
  · exact List.prefix_refl _
  · exact List.prefix_append _ _

theorem nodup_add {bs : List Str} {b : Str} (h : bs.Nodup) : (add bs b).Nodup := by
  unfold add
  split
  · exact h
  · rename_i hb
    rw [List.nodup_append]
    exact ⟨h, by simp, fun x hx y hy e => hb (by rw [List.mem_singleton.1 hy] at e; exact e ▸ hx)⟩

/-- One plain bug is added to the list. -/
theorem bug_plain {d : Dict} {bs : List Str} {b : Str} (h : bugsOf d = some bs) (hb : Plain b) :
    ∃ d', bug d b = some d' ∧ bugsOf d' = some (add bs b) ∧ ∀ k, k ≠ kBug → lookup d' k = lookup d k := by
  have h0 : add bs b ≠ [] := by
    intro hc
    have : b ∈ add bs b := mem_add.2 (.inr rfl)
    rw [hc] at this; cases this
  have h1 : add bs b ≠ [[]] := by
    intro hc
    have : b ∈ add bs b := mem_add.2 (.inr rfl)
    rw [hc, List.mem_singleton] at this
    exact hb.1 this
  have hp : ∀ p ∈ add bs b, '+' ∉ p := by
    intro p hp
    rcases mem_add.1 hp with g | g
    · exact bugsOf_plus h p g
    · exact g ▸ hb.2
  refine ⟨setStr d kBug (join ['+'] (add bs b)), by unfold bug; rw [h], bugsOf_set h0 h1 hp, fun k hk => ?_⟩
  rw [lookup_setStr (join_ne_nil h0 h1), if_neg hk]

/-- Several plain bugs are added to the list. -/
theorem bugs_plain : ∀ (l : List Str) {d : Dict} {bs : List Str}, bugsOf d = some bs → (∀ b ∈ l, Plain b) →
    ∃ d' bs', bugs d l = some d' ∧ bugsOf d' = some bs' ∧ (∀ x, x ∈ bs' ↔ x ∈ bs ∨ x ∈ l) ∧ bs <+: bs' ∧ (bs.Nodup → bs'.Nodup) ∧
      (∀ k, k ≠ kBug → lookup d' k = lookup d k) ∧ (l = [] → d' = d) ∧ ((∀ b ∈ l, b ∈ bs) → bs' = bs)
  | [], d, bs, h, _ => ⟨d, bs, rfl, h, fun x => ⟨.inl, fun g => g.elim id (fun e => nomatch e)⟩, List.prefix_refl _, id, fun _ _ => rfl, fun _ => rfl, fun _ => rfl⟩
  | b :: l, d, bs, h, hl => by
    obtain ⟨d1, e1, g1, k1⟩ := bug_plain h (hl b List.mem_cons_self)
    obtain ⟨d2, bs2, e2, g2, m2, p2, n2, k2, _, s2⟩ := bugs_plain l g1 (fun x hx => hl x (List.mem_cons_of_mem _ hx))
    refine ⟨d2, bs2, by rw [bugs, e1]; exact e2, g2, fun x => ?_, (prefix_add bs b).trans p2, fun hn => n2 (nodup_add hn), fun k hk => (k2 k hk).trans (k1 k hk),
      (fun hc => by cases hc), fun ha => ?_⟩
    · rw [m2, mem_add, List.mem_cons, or_assoc]
    · have : add bs b = bs := if_pos (ha b List.mem_cons_self)
      rw [s2 (fun x hx => mem_add.2 (.inl (ha x (List.mem_cons_of_mem _ hx)))), this]

/-- The bugs found by `check_allowed_features` -/
def notAllowed (allowed : Str → Option (List Str)) (feats : List (Str × Str)) : List Str :=
  feats.filterMap (fun p => match allowed p.1 with
    | none => some (wFeat ++ p.1 ++ wNotAllowed)
    | some vs => if p.2 ∈ vs then none else some (wFeat ++ p.1 ++ wValue ++ p.2 ++ wNotAllowed))

theorem allowedLoop_eq (allowed : Str → Option (List Str)) : ∀ (fs : List (Str × Str)) (d : Dict),
    allowedLoop allowed (fs.map (fun p => (p.1, .str p.2))) d = bugs d (notAllowed allowed fs)
  | [], d => rfl
  | (f, v) :: fs, d => by
    have ih := allowedLoop_eq allowed fs
    unfold notAllowed
    rw [List.map_cons, List.filterMap_cons]
    simp only [allowedLoop]
    cases ha : allowed f with
    | none =>
      simp only [bugs]
      cases bug d (wFeat ++ f ++ wNotAllowed) with
      | none => rfl
      | some d' => exact ih d'
    | some vs =>
      by_cases hv : v ∈ vs
      · simp only [hv, if_true]
        exact ih d
      · simp only [hv, if_false, bugs]
        cases bug d (wFeat ++ f ++ wValue ++ v ++ wNotAllowed) with
        | none => rfl
        | some d' => exact ih d'

theorem requiredLoop_eq (feats : Dict) : ∀ (fs : List Str) (d : Dict),
    requiredLoop feats fs d = bugs d ((fs.filter (fun f => decide (f ∉ feats.map (·.1)))).map (fun f => wFeat ++ f ++ wMissing))
  | [], d => rfl
  | f :: fs, d => by
    have ih := requiredLoop_eq feats fs
    rw [List.filter_cons, requiredLoop]
    by_cases hf : f ∈ feats.map (·.1)
    · rw [if_pos hf, if_neg (by simpa using hf)]
      exact ih d
    · rw [if_neg hf, if_pos (by simpa using hf), List.map_cons]
      simp only [bugs]
      cases bug d (wFeat ++ f ++ wMissing) with
      | none => rfl
      | some d' => exact ih d'

/-! ## Theorems -/

/-- **C162, one bug.** If the list of bugs can be read, the bug is in the list afterwards, after the bugs that were there; nothing is duplicated, and no other attribute
changes. A bug that was in the list changes nothing in it. -/
theorem C162_bug {d : Dict} {bs : List Str} {b : Str} (h : bugsOf d = some bs) (hb : Plain b) :
    ∃ d' bs', bug d b = some d' ∧ bugsOf d' = some bs' ∧ bs <+: bs' ∧ (∀ x, x ∈ bs' ↔ x ∈ bs ∨ x = b) ∧ (bs.Nodup → bs'.Nodup) ∧ (b ∈ bs → bs' = bs) ∧
      ∀ k, k ≠ kBug → lookup d' k = lookup d k := by
  obtain ⟨d', h1, h2, h3⟩ := bug_plain h hb
  exact ⟨d', _, h1, h2, prefix_add _ _, fun x => mem_add, nodup_add, fun hm => if_pos hm, h3⟩

/-- **C162, allowed features.** If all features have values and neither names nor values have a `+`, then `check_allowed_features` adds to the list of bugs exactly those of
the features that are not allowed and of the allowed features whose values are not. -/
theorem C162_allowed (allowed : Str → Option (List Str)) (feats : List (Str × Str)) (hf : ∀ p ∈ feats, '+' ∉ p.1 ∧ '+' ∉ p.2) {d : Dict} {bs : List Str} (h : bugsOf d = some bs) :
    ∃ d' bs', allowedLoop allowed (feats.map (fun p => (p.1, .str p.2))) d = some d' ∧ bugsOf d' = some bs' ∧ bs <+: bs' ∧ (bs.Nodup → bs'.Nodup) ∧
      (∀ x, x ∈ bs' ↔ x ∈ bs ∨ ∃ p ∈ feats, (allowed p.1 = none ∧ x = wFeat ++ p.1 ++ wNotAllowed) ∨
        ∃ vs, allowed p.1 = some vs ∧ p.2 ∉ vs ∧ x = wFeat ++ p.1 ++ wValue ++ p.2 ++ wNotAllowed) ∧
      (∀ k, k ≠ kBug → lookup d' k = lookup d k) ∧
      ((∀ p ∈ feats, ∃ vs, allowed p.1 = some vs ∧ p.2 ∈ vs) → d' = d) := by
  have hmem : ∀ x, x ∈ notAllowed allowed feats ↔ ∃ p ∈ feats, (allowed p.1 = none ∧ x = wFeat ++ p.1 ++ wNotAllowed) ∨
        ∃ vs, allowed p.1 = some vs ∧ p.2 ∉ vs ∧ x = wFeat ++ p.1 ++ wValue ++ p.2 ++ wNotAllowed := by
    intro x
    unfold notAllowed
    rw [List.mem_filterMap]
    constructor
    · rintro ⟨p, hp, he⟩
      refine ⟨p, hp, ?_⟩
      split at he
      · rename_i hn; injection he with he; exact .inl ⟨hn, he.symm⟩
      · rename_i vs hs
        split at he
        · cases he
        · rename_i hv; injection he with he; exact .inr ⟨vs, hs, hv, he.symm⟩
    · rintro ⟨p, hp, (⟨h1, h2⟩ | ⟨vs, h1, h2, h3⟩)⟩
      · exact ⟨p, hp, by rw [h1, h2]⟩
      · exact ⟨p, hp, by rw [h1, h3]; simp [h2]⟩
  have hplain : ∀ b ∈ notAllowed allowed feats, Plain b := by
    intro b hb
    obtain ⟨p, hp, (⟨_, rfl⟩ | ⟨_, _, _, rfl⟩)⟩ := (hmem b).1 hb
    · exact ⟨by simp [wFeat], by simp [wFeat, wNotAllowed, (hf p hp).1]⟩
    · exact ⟨by simp [wFeat], by simp [wFeat, wNotAllowed, wValue, (hf p hp).1, (hf p hp).2]⟩
  obtain ⟨d', bs', e1, e2, e3, e4, e5, e6, e7, _⟩ := bugs_plain (notAllowed allowed feats) h hplain
  refine ⟨d', bs', by rw [allowedLoop_eq]; exact e1, e2, e4, e5, fun x => by rw [e3, hmem], e6, fun ha => e7 ?_⟩
  refine List.eq_nil_iff_forall_not_mem.2 (fun x hx => ?_)
  obtain ⟨p, hp, (⟨h1, _⟩ | ⟨vs, h1, h2, _⟩)⟩ := (hmem x).1 hx
  · obtain ⟨vs, h3, _⟩ := ha p hp; rw [h1] at h3; cases h3
  · obtain ⟨vs', h3, h4⟩ := ha p hp; rw [h1] at h3; cases h3; exact h2 h4

/-- **C162, required features.** `check_required_features` adds exactly the bugs of the required features that the word does not have. -/
theorem C162_required (feats : Dict) (required : List Str) (hf : ∀ f ∈ required, '+' ∉ f) {d : Dict} {bs : List Str} (h : bugsOf d = some bs) :
    ∃ d' bs', requiredLoop feats required d = some d' ∧ bugsOf d' = some bs' ∧ bs <+: bs' ∧ (bs.Nodup → bs'.Nodup) ∧
      (∀ x, x ∈ bs' ↔ x ∈ bs ∨ ∃ f ∈ required, lookup feats f = none ∧ x = wFeat ++ f ++ wMissing) ∧ (∀ k, k ≠ kBug → lookup d' k = lookup d k) := by
  have hplain : ∀ b ∈ (required.filter (fun f => decide (f ∉ feats.map (·.1)))).map (fun f => wFeat ++ f ++ wMissing), Plain b := by
    intro b hb
    obtain ⟨f, hff, rfl⟩ := List.mem_map.1 hb
    exact ⟨by simp [wFeat], by simp [wFeat, wMissing, hf f (List.mem_filter.1 hff).1]⟩
  obtain ⟨d', bs', e1, e2, e3, e4, e5, e6, _, _⟩ := bugs_plain _ h hplain
  refine ⟨d', bs', by rw [requiredLoop_eq]; exact e1, e2, e4, e5, fun x => ?_, e6⟩
  rw [e3, List.mem_map]
  constructor
  · rintro (g | ⟨f, hff, rfl⟩)
    · exact .inl g
    · obtain ⟨h1, h2⟩ := List.mem_filter.1 hff
      exact .inr ⟨f, h1, (lookup_none_iff feats f).2 (of_decide_eq_true h2), rfl⟩
  · rintro (g | ⟨f, h1, h2, rfl⟩)
    · exact .inl g
    · exact .inr ⟨f, List.mem_filter.2 ⟨h1, decide_eq_true ((lookup_none_iff feats f).1 h2)⟩, rfl⟩

/-- **C162, repetition.** Adding the same plain bugs again does not change the list of bugs. -/
theorem C162_again {l : List Str} (hl : ∀ b ∈ l, Plain b) {d d' : Dict} (h : bugs d l = some d') {bs : List Str} (h0 : bugsOf d = some bs) :
    ∃ d'', bugs d' l = some d'' ∧ bugsOf d'' = bugsOf d' := by
  obtain ⟨d1, bs1, e1, e2, e3, _⟩ := bugs_plain l h0 hl
  rw [h] at e1
  cases e1
  obtain ⟨d2, bs2, f1, f2, _, _, _, _, _, f8⟩ := bugs_plain l e2 hl
  exact ⟨d2, f1, by rw [f2, e2, f8 (fun b hb => (e3 b).2 (.inr hb))]⟩

/-- **C162, multi-word tokens.** A node outside multi-word tokens, or in one without bugs, is unchanged; otherwise the bug of the token is added. -/
theorem C162_mwt (m d : Dict) : mwtNode none d = some d ∧ (lookup m kBug = none → mwtNode (some m) d = some d) ∧
    ∀ b, b ≠ [] → lookup m kBug = some (.str b) → mwtNode (some m) d = bug d b := by
  refine ⟨rfl, fun h => by simp only [mwtNode, h], fun b hb h => ?_⟩
  cases b with
  | nil => exact absurd rfl hb
  | cons c b => simp only [mwtNode, h]

/-- **C162 violated (several bugs).** If the list of bugs of a multi-word token has two items or more, it is appended to the list of the node each time the block is used, even if
the node has all these bugs. -/
theorem C162_several_violated (m d : Dict) {b : Str} (hm : lookup m kBug = some (.str b)) (hb : '+' ∈ b) :
    (∀ s, s ≠ [] → lookup d kBug = some (.str s) → ∃ d', mwtNode (some m) d = some d' ∧ lookup d' kBug = some (.str (s ++ '+' :: b))) ∧
    (lookup d kBug = none → ∃ d' d'', mwtNode (some m) d = some d' ∧ lookup d' kBug = some (.str b) ∧
      mwtNode (some m) d' = some d'' ∧ lookup d'' kBug = some (.str (b ++ '+' :: b))) := by
  have hne : b ≠ [] := by rintro rfl; cases hb
  have key : ∀ (d : Dict) s, s ≠ [] → lookup d kBug = some (.str s) → ∃ d', mwtNode (some m) d = some d' ∧ lookup d' kBug = some (.str (s ++ '+' :: b)) := by
    intro d s hs hl
    have h1 : bugsOf d = some (split '+' s) := by
      unfold bugsOf
      rw [hl]
      cases s with
      | nil => exact absurd rfl hs
      | cons c s => rfl
    have h2 : b ∉ split '+' s := fun h => not_mem_split '+' s b h hb
    have h3 : join ['+'] (add (split '+' s) b) = s ++ '+' :: b := by
      unfold add
      rw [if_neg h2]
      have : ∀ l : List Str, l ≠ [] → join ['+'] (l ++ [b]) = join ['+'] l ++ '+' :: b := by
        intro l
        induction l with
        | nil => intro h; exact absurd rfl h
        | cons x l ih =>
          intro _
          cases l with
          | nil => simp [join]
          | cons y l =>
            have := ih (by simp)
            simp only [List.cons_append, join] at this ⊢
            rw [this]
            simp
      rw [this _ (split_ne_nil _ _), join_split]
    refine ⟨setStr d kBug (join ['+'] (add (split '+' s) b)), ?_, ?_⟩
    · rw [(C162_mwt m d).2.2 b hne hm, bug, h1]
    · rw [lookup_setStr (by rw [h3]; simp), if_pos rfl, h3]
  refine ⟨key d, fun hl => ?_⟩
  have h1 : bugsOf d = some [] := by unfold bugsOf; rw [hl]
  have h2 : mwtNode (some m) d = some (setStr d kBug b) := by
    rw [(C162_mwt m d).2.2 b hne hm, bug, h1]
    rfl
  have h3 : lookup (setStr d kBug b) kBug = some (.str b) := by rw [lookup_setStr hne, if_pos rfl]
  obtain ⟨d'', h4, h5⟩ := key (setStr d kBug b) b hne h3
  exact ⟨_, d'', h2, h3, h4, h5⟩

/-- **C162 violated (bugs without a text).** If a node has the attribute `Bug` without a value, or its multi-word token has it, the blocks fail. -/
theorem C162_bare_violated (m d : Dict) {b : Str} (hb : b ≠ []) : (lookup m kBug = some .tru → mwtNode (some m) d = none) ∧
    (lookup d kBug = some .tru → lookup m kBug = some (.str b) → mwtNode (some m) d = none) := by
  refine ⟨fun h => by simp only [mwtNode, h], fun h1 h2 => ?_⟩
  rw [(C162_mwt m d).2.2 b hb h2, bug, bugsOf, h1]

/-! ## Examples -/

def exD : Dict := [(kBug, .str ['x', '+', 'y']), (['G'], .str ['1'])]

example : bug exD ['z'] = some [(kBug, .str ['x', '+', 'y', '+', 'z']), (['G'], .str ['1'])] := by decide
example : bug exD ['y'] = some exD := by decide
example : bugsOf exD = some [['x'], ['y']] := by decide
/-- `x+y` is not an item of the list. -/
example : mwtNode (some [(kBug, .str ['x', '+', 'y'])]) exD = some [(kBug, .str ['x', '+', 'y', '+', 'x', '+', 'y']), (['G'], .str ['1'])] := by decide
example : allowedLoop (fun f => if f = ['C'] then some [['N'], ['G']] else none) [(['C'], .str ['N']), (['T'], .str ['P'])] [] =
    some [(kBug, .str (wFeat ++ ['T'] ++ wNotAllowed))] := by decide
example : requiredLoop [(['C'], .str ['N'])] [['C'], ['T']] [] = some [(kBug, .str (wFeat ++ ['T'] ++ wMissing))] := by decide

end Verif.DualDict.Bugs
