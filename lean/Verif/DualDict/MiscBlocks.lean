import Verif.DualDict.Lemmas

/-!
# Property C163: blocks that change MISC attributes (udapi/block/corefud/removemisc.py, concatmentionmisc.py, udapi/block/util/mark.py)

MISC is a dictionary as in `Model.lean`. `\d` of the regular expressions is any set of characters without brackets (parameter `dig`), and the Python expression
evaluated by util.Mark is any predicate on nodes. An exception is `none`.
-/

namespace Verif.DualDict.MiscBlocks
open Verif.Py Verif.DualDict

/-- `\[\d+\]` at the beginning of a string: the matched text and the rest -/
def index (dig : Char → Bool) : Str → Option (Str × Str)
  | '[' :: r =>
    if r.takeWhile dig = [] then none else
      match r.dropWhile dig with
      | ']' :: rest => some ('[' :: (r.takeWhile dig ++ [']']), rest)
      | _ => none
  | _ => none

/-- `re.sub(r'\[\d+\]', r'', s)`, after skipping the characters of a match -/
def noIndex (dig : Char → Bool) : Nat → Str → Str
  | _, [] => []
  | k + 1, _ :: s => noIndex dig k s
  | 0, c :: s =>
    match index dig (c :: s) with
    | some (i, _) => noIndex dig (i.length - 1) s
    | none => c :: noIndex dig 0 s

/-- corefud.RemoveMisc on a node (removemisc.py:13-17); `attrs` is `attrnames.split(',')` -/
def removeLoop (dig : Char → Bool) (attrs : List Str) : List Str → Dict → Dict
  | [], d => d
  | k :: ks, d => removeLoop dig attrs ks (if noIndex dig 0 k ∈ attrs then erase d k else d)

def remove (dig : Char → Bool) (attrs : List Str) (d : Dict) : Dict := removeLoop dig attrs (d.map (·.1)) d

def wMM : Str := ['M', 'e', 'n', 't', 'i', 'o', 'n', 'M', 'i', 's', 'c']

/-- `re.match('MentionMisc_([^[]+)((\[\d+\])?)', attrname)`: the two groups (concatmentionmisc.py:11-14) -/
def parse (dig : Char → Bool) (k : Str) : Option (Str × Str) :=
  if wMM.isPrefixOf k then
    match k.drop wMM.length with
    | '_' :: r =>
      if r.takeWhile (· ≠ '[') = [] then none
      else some (r.takeWhile (· ≠ '['), match index dig (r.dropWhile (· ≠ '[')) with
        | some (i, _) => i
        | none => [])
    | _ => none
  else none

/-- One attribute (concatmentionmisc.py:11-23) -/
def concatOne (dig : Char → Bool) (d : Dict) (k : Str) : Option Dict :=
  match parse dig k with
  | none => some d
  | some (inner, idx) =>
    match (lookup d k).getD (.str []) with
    | .str v =>
      match lookup d (wMM ++ idx) with
      | none => some (erase (insert d (wMM ++ idx) (.str (inner ++ ':' :: escapeComma v))) k)
      | some (.str o) => some (erase (insert d (wMM ++ idx) (.str (o ++ ',' :: (inner ++ ':' :: escapeComma v)))) k)
      | some _ => none
    | _ => none

def concatLoop (dig : Char → Bool) : List Str → Dict → Option Dict
  | [], d => some d
  | k :: ks, d => match concatOne dig d k with
    | none => none
    | some d' => concatLoop dig ks d'

/-- corefud.ConcatMentionMisc on a node (concatmentionmisc.py:9-23) -/
def concat (dig : Char → Bool) (d : Dict) : Option Dict := concatLoop dig (d.map (·.1)) d

def wToDo : Str := ['T', 'o', 'D', 'o']
def wBug : Str := ['B', 'u', 'g']

/-- util.Mark on a node (mark.py:44-51); `v` is the mark, not empty and not `None` -/
def markNode (attr : Str) (v : Val) (add sel : Bool) (d : Dict) : Dict :=
  if sel then insert d attr v else if !add then erase (erase (erase d attr) wToDo) wBug else d

/-! ## RemoveMisc -/

theorem noIndex_plain (dig : Char → Bool) : ∀ (b s : Str), '[' ∉ b → noIndex dig 0 (b ++ s) = b ++ noIndex dig 0 s
  | [], _, _ => rfl
  | c :: b, s, h => by
    rw [List.mem_cons, not_or] at h
    have hi : index dig (c :: (b ++ s)) = none := by
      unfold index
      split
      · rename_i r e; injection e with e _; exact absurd e.symm h.1
      · rfl
    rw [List.cons_append, noIndex, hi]
    simp only [noIndex_plain dig b s h.2, List.cons_append]

theorem noIndex_skip (dig : Char → Bool) : ∀ (l s : Str), noIndex dig l.length (l ++ s) = noIndex dig 0 s
  | [], _ => rfl
  | _ :: l, s => noIndex_skip dig l s

theorem takeWhile_stop {p : Char → Bool} : ∀ {l : Str} {c : Char} {s : Str}, (∀ x ∈ l, p x = true) → p c = false →
    (l ++ c :: s).takeWhile p = l ∧ (l ++ c :: s).dropWhile p = c :: s
  | [], c, s, _, hc => by simp [hc]
  | x :: l, c, s, h, hc => by
    have ih := takeWhile_stop (l := l) (s := s) (fun y hy => h y (List.mem_cons_of_mem _ hy)) hc
    have hx := h x List.mem_cons_self
    simp only [List.cons_append, List.takeWhile_cons, List.dropWhile_cons, hx, if_true]
    exact ⟨by rw [ih.1], ih.2⟩

theorem while_all {p : Char → Bool} : ∀ {l : Str}, (∀ x ∈ l, p x = true) → l.takeWhile p = l ∧ l.dropWhile p = []
  | [], _ => ⟨rfl, rfl⟩
  | x :: l, h => by
    have ih := while_all (l := l) (fun y hy => h y (List.mem_cons_of_mem _ hy))
    rw [List.takeWhile_cons, List.dropWhile_cons, h x List.mem_cons_self, if_pos rfl, if_pos rfl]
    exact ⟨by rw [ih.1], ih.2⟩

theorem index_match {dig : Char → Bool} (hd : dig ']' = false) {ds s : Str} (h0 : ds ≠ []) (h : ∀ c ∈ ds, dig c = true) :
    index dig ('[' :: (ds ++ ']' :: s)) = some ('[' :: (ds ++ [']']), s) := by
  obtain ⟨h1, h2⟩ := takeWhile_stop (s := s) h hd
  simp only [index, h1, h2, if_neg h0]

theorem noIndex_index {dig : Char → Bool} (hd : dig ']' = false) {ds s : Str} (h0 : ds ≠ []) (h : ∀ c ∈ ds, dig c = true) :
    noIndex dig 0 ('[' :: (ds ++ ']' :: s)) = noIndex dig 0 s := by
  rw [noIndex, index_match hd h0 h]
  have := noIndex_skip dig (ds ++ [']']) s
  rw [List.append_assoc] at this
  exact this

theorem removeLoop_lookup (dig : Char → Bool) (attrs : List Str) : ∀ (ks : List Str) {d : Dict}, NodupKeys d →
    (∀ k, lookup (removeLoop dig attrs ks d) k = if k ∈ ks ∧ noIndex dig 0 k ∈ attrs then none else lookup d k) ∧ (removeLoop dig attrs ks d).Sublist d
  | [], d, _ => ⟨fun k => by simp [removeLoop], List.Sublist.refl _⟩
  | a :: ks, d, hn => by
    have hn' : NodupKeys (if noIndex dig 0 a ∈ attrs then erase d a else d) := by
      split
      · exact nodup_erase hn a
      · exact hn
    obtain ⟨h1, h2⟩ := removeLoop_lookup dig attrs ks hn'
    refine ⟨fun k => ?_, ?_⟩
    · rw [removeLoop, h1 k]
      by_cases hk : k ∈ ks ∧ noIndex dig 0 k ∈ attrs
      · rw [if_pos hk, if_pos ⟨List.mem_cons_of_mem _ hk.1, hk.2⟩]
      · rw [if_neg hk]
        by_cases ha : noIndex dig 0 a ∈ attrs
        · rw [if_pos ha, lookup_erase hn]
          by_cases e : k = a
          · rw [if_pos e, if_pos ⟨by rw [e]; exact List.mem_cons_self, by rw [e]; exact ha⟩]
          · rw [if_neg e, if_neg]
            rintro ⟨g1, g2⟩
            rcases List.mem_cons.1 g1 with g | g
            · exact e g
            · exact hk ⟨g, g2⟩
        · rw [if_neg ha, if_neg]
          rintro ⟨g1, g2⟩
          rcases List.mem_cons.1 g1 with g | g
          · rw [g] at g2; exact ha g2
          · exact hk ⟨g, g2⟩
    · rw [removeLoop]
      refine h2.trans ?_
      split
      · exact erase_sublist d a
      · exact List.Sublist.refl _

/-- **C163, corefud.RemoveMisc.** Exactly the attributes are removed whose names without indices are given; the others keep their values and their order. -/
theorem C163_remove (dig : Char → Bool) (attrs : List Str) {d : Dict} (hn : NodupKeys d) :
    (∀ k, lookup (remove dig attrs d) k = if noIndex dig 0 k ∈ attrs then none else lookup d k) ∧ (remove dig attrs d).Sublist d := by
  obtain ⟨h1, h2⟩ := removeLoop_lookup dig attrs (d.map (·.1)) hn
  refine ⟨fun k => ?_, h2⟩
  rw [remove, h1 k]
  by_cases hk : noIndex dig 0 k ∈ attrs
  · rw [if_pos hk]
    by_cases hm : k ∈ d.map (·.1)
    · rw [if_pos ⟨hm, hk⟩]
    · rw [if_neg (fun g => hm g.1), (lookup_none_iff d k).2 hm]
  · rw [if_neg (fun g => hk g.2), if_neg hk]

/-- **C163, indices.** The name of an attribute without brackets is its name without indices, and so it is with one index at its end. -/
theorem C163_index {dig : Char → Bool} (hd : dig ']' = false) {b ds : Str} (hb : '[' ∉ b) (h0 : ds ≠ []) (h : ∀ c ∈ ds, dig c = true) :
    noIndex dig 0 b = b ∧ noIndex dig 0 (b ++ '[' :: (ds ++ [']'])) = b := by
  constructor
  · have := noIndex_plain dig b [] hb
    rwa [List.append_nil, show noIndex dig 0 [] = [] from rfl, List.append_nil] at this
  · rw [noIndex_plain dig b _ hb, noIndex_index (s := []) hd h0 h, show noIndex dig 0 [] = [] from rfl, List.append_nil]

theorem takeWhile_all {p : Char → Bool} : ∀ (l : Str), ∀ x ∈ l.takeWhile p, p x = true
  | [], x, h => by cases h
  | a :: l, x, h => by
    rw [List.takeWhile_cons] at h
    split at h
    · rename_i ha
      rcases List.mem_cons.1 h with rfl | h
      · exact ha
      · exact takeWhile_all l x h
    · cases h

theorem index_sound {dig : Char → Bool} {s i r : Str} (h : index dig s = some (i, r)) : ∃ ds, ds ≠ [] ∧ (∀ c ∈ ds, dig c = true) ∧ i = '[' :: (ds ++ [']']) ∧ s = i ++ r := by
  unfold index at h
  split at h
  · rename_i t
    split at h
    · cases h
    · rename_i hne
      split at h
      · rename_i rest hr
        injection h with h; injection h with h1 h2
        refine ⟨t.takeWhile dig, hne, takeWhile_all t, h1.symm, ?_⟩
        rw [← h1, ← h2, List.cons_append, List.append_assoc]
        show '[' :: t = '[' :: (t.takeWhile dig ++ ']' :: rest)
        rw [← hr, List.takeWhile_append_dropWhile]
      · cases h
  · cases h

/-- **C163, names without indices.** A name in which no brackets enclose digits is not changed. -/
theorem C163_no_index {dig : Char → Bool} : ∀ (s : Str), (∀ a ds b, s = a ++ '[' :: (ds ++ ']' :: b) → ds = [] ∨ ∃ c ∈ ds, dig c = false) → noIndex dig 0 s = s
  | [], _ => rfl
  | c :: s, h => by
    have ih := C163_no_index s (fun a ds b e => h (c :: a) ds b (by rw [e]; rfl))
    cases hi : index dig (c :: s) with
    | none => rw [noIndex, hi]; simp only [ih]
    | some q =>
      obtain ⟨ds, h1, h2, h3, h4⟩ := index_sound (i := q.1) (r := q.2) hi
      rcases h [] ds q.2 (by rw [h4, h3]; simp) with g | ⟨x, hx, g⟩
      · exact absurd g h1
      · rw [h2 x hx] at g; cases g

/-! ## ConcatMentionMisc -/

/-- The texts that go to the attribute `k` -/
def pieces (dig : Char → Bool) (k : Str) (ps : Dict) : List Str :=
  ps.filterMap (fun p => match parse dig p.1, p.2 with
    | some (inner, idx), .str v => if wMM ++ idx = k then some (inner ++ ':' :: escapeComma v) else none
    | _, _ => none)

/-- The text of an attribute as a list of one text, if there is one -/
def oldText (d : Dict) (k : Str) : List Str :=
  match lookup d k with
  | some (.str o) => [o]
  | _ => []

/-- All attributes whose names begin with `MentionMisc` have texts. -/
def Texts (d : Dict) : Prop := ∀ k v, lookup d k = some v → wMM <+: k → ∃ s, v = .str s

theorem parse_prefix {dig : Char → Bool} {k inner idx : Str} (h : parse dig k = some (inner, idx)) : wMM <+: k := by
  unfold parse at h
  split at h
  · rename_i hp; exact List.isPrefixOf_iff_prefix.1 hp
  · cases h

theorem index_head {dig : Char → Bool} {s i r : Str} (h : index dig s = some (i, r)) : ∃ t, i = '[' :: t := by
  unfold index at h
  split at h
  · split at h
    · cases h
    · split at h
      · injection h with h; injection h with h _; exact ⟨_, h.symm⟩
      · cases h
  · cases h

theorem parse_idx {dig : Char → Bool} {k inner idx : Str} (h : parse dig k = some (inner, idx)) : idx = [] ∨ ∃ t, idx = '[' :: t := by
  unfold parse at h
  split at h
  · split at h
    · split at h
      · cases h
      · injection h with h
        injection h with _ h
        split at h
        · rename_i i r hi
          obtain ⟨t, ht⟩ := index_head hi
          exact .inr ⟨t, h ▸ ht⟩
        · exact .inl h.symm
    · cases h
  · cases h

theorem parse_target {dig : Char → Bool} {idx : Str} (h : idx = [] ∨ ∃ t, idx = '[' :: t) : parse dig (wMM ++ idx) = none := by
  unfold parse
  split
  · rw [List.drop_left]
    rcases h with rfl | ⟨t, rfl⟩ <;> rfl
  · rfl

theorem texts_insert {d : Dict} (h : Texts d) (k s : Str) : Texts (insert d k (.str s)) := by
  intro k' v hv hp
  rw [lookup_insert] at hv
  split at hv
  · injection hv with hv; exact ⟨s, hv.symm⟩
  · exact h k' v hv hp

theorem texts_erase {d : Dict} (hn : NodupKeys d) (h : Texts d) (k : Str) : Texts (erase d k) := by
  intro k' v hv hp
  rw [lookup_erase hn] at hv
  split at hv
  · cases hv
  · exact h k' v hv hp

theorem join_snoc (o x : Str) : ∀ ps : List Str, join [','] ((o ++ ',' :: x) :: ps) = join [','] (o :: x :: ps)
  | [] => by simp [join]
  | p :: ps => by simp [join]

/-- One attribute is moved. -/
theorem concatOne_spec {dig : Char → Bool} {d : Dict} (hn : NodupKeys d) (ht : Texts d) {k inner idx : Str} {v : Val} (hp : parse dig k = some (inner, idx))
    (hv : lookup d k = some v) : ∃ s d', v = .str s ∧ concatOne dig d k = some d' ∧ NodupKeys d' ∧ Texts d' ∧
      ∀ j, lookup d' j = if j = k then none else if j = wMM ++ idx then some (.str (join [','] (oldText d j ++ [inner ++ ':' :: escapeComma s]))) else lookup d j := by
  obtain ⟨s, rfl⟩ := ht k v hv (parse_prefix hp)
  have hne : wMM ++ idx ≠ k := by
    intro e
    have := parse_target (dig := dig) (parse_idx hp)
    rw [e, hp] at this; cases this
  have key : ∀ x, NodupKeys (erase (insert d (wMM ++ idx) (.str x)) k) ∧ Texts (erase (insert d (wMM ++ idx) (.str x)) k) ∧
      ∀ j, lookup (erase (insert d (wMM ++ idx) (.str x)) k) j = if j = k then none else if j = wMM ++ idx then some (.str x) else lookup d j := by
    intro x
    have hn' := nodup_insert hn (wMM ++ idx) (.str x)
    refine ⟨nodup_erase hn' k, texts_erase hn' (texts_insert ht _ _) k, fun j => ?_⟩
    rw [lookup_erase hn', lookup_insert]
  cases hf : lookup d (wMM ++ idx) with
  | none =>
    obtain ⟨k1, k2, k3⟩ := key (inner ++ ':' :: escapeComma s)
    refine ⟨s, _, rfl, by simp only [concatOne, hp, hv, Option.getD_some, hf], k1, k2, fun j => ?_⟩
    rw [k3 j]
    by_cases e : j = wMM ++ idx
    · have : oldText d j = [] := by unfold oldText; rw [e, hf]
      rw [this]
      rfl
    · rw [if_neg e, if_neg e]
  | some w =>
    obtain ⟨o, rfl⟩ := ht _ w hf (List.prefix_append _ _)
    obtain ⟨k1, k2, k3⟩ := key (o ++ ',' :: (inner ++ ':' :: escapeComma s))
    refine ⟨s, _, rfl, by simp only [concatOne, hp, hv, Option.getD_some, hf], k1, k2, fun j => ?_⟩
    rw [k3 j]
    by_cases e : j = wMM ++ idx
    · have : oldText d j = [o] := by unfold oldText; rw [e, hf]
      rw [this]
      simp [join]
    · rw [if_neg e, if_neg e]

theorem concatLoop_spec (dig : Char → Bool) : ∀ (ps : Dict) {d : Dict}, NodupKeys d → Texts d → NodupKeys ps →
    (∀ p ∈ ps, (parse dig p.1).isSome → lookup d p.1 = some p.2) →
    ∃ d', concatLoop dig (ps.map (·.1)) d = some d' ∧ ∀ k, lookup d' k =
      if (parse dig k).isSome then (if k ∈ ps.map (·.1) then none else lookup d k)
      else if pieces dig k ps = [] then lookup d k else some (.str (join [','] (oldText d k ++ pieces dig k ps)))
  | [], d, _, _, _, _ => ⟨d, rfl, fun k => by simp [pieces]⟩
  | (a, v) :: ps, d, hn, ht, hps, hl => by
    have hps' : a ∉ ps.map (·.1) ∧ NodupKeys ps := List.nodup_cons.1 hps
    cases hp : parse dig a with
    | none =>
      obtain ⟨d', h1, h2⟩ := concatLoop_spec dig ps hn ht hps'.2 (fun p hp => hl p (List.mem_cons_of_mem _ hp))
      refine ⟨d', by simp only [List.map_cons, concatLoop, concatOne, hp]; exact h1, fun k => ?_⟩
      have hpc : pieces dig k ((a, v) :: ps) = pieces dig k ps := by unfold pieces; rw [List.filterMap_cons, hp]
      rw [h2 k, hpc]
      by_cases hk : (parse dig k).isSome
      · rw [if_pos hk, if_pos hk]
        have : k ≠ a := by rintro rfl; rw [hp] at hk; cases hk
        simp only [List.map_cons, List.mem_cons, this, false_or]
      · rw [if_neg hk, if_neg hk]
    | some q =>
      obtain ⟨inner, idx⟩ := q
      obtain ⟨s, d1, rfl, e1, n1, t1, l1⟩ := concatOne_spec hn ht hp (hl _ List.mem_cons_self (by rw [hp]; rfl))
      have htar := parse_target (dig := dig) (parse_idx hp)
      obtain ⟨d', h1, h2⟩ := concatLoop_spec dig ps n1 t1 hps'.2 (fun p hpp hsome => by
        have hpa : p.1 ≠ a := fun e => hps'.1 (e ▸ List.mem_map.2 ⟨p, hpp, rfl⟩)
        have hpt : p.1 ≠ wMM ++ idx := fun e => by rw [e, htar] at hsome; cases hsome
        rw [l1, if_neg hpa, if_neg hpt]
        exact hl p (List.mem_cons_of_mem _ hpp) hsome)
      refine ⟨d', by simp only [List.map_cons, concatLoop, e1]; exact h1, fun k => ?_⟩
      have hpc : pieces dig k ((a, .str s) :: ps) = if wMM ++ idx = k then (inner ++ ':' :: escapeComma s) :: pieces dig k ps else pieces dig k ps := by
        unfold pieces
        rw [List.filterMap_cons, hp]
        dsimp only
        by_cases e : wMM ++ idx = k
        · rw [if_pos e, if_pos e]
        · rw [if_neg e, if_neg e]
      rw [h2 k]
      by_cases hk : (parse dig k).isSome
      · rw [if_pos hk, if_pos hk, l1 k]
        have hkt : k ≠ wMM ++ idx := fun e => by rw [e, htar] at hk; cases hk
        rw [if_neg hkt, List.map_cons]
        by_cases e : k = a
        · rw [if_pos e, if_pos (show k ∈ a :: ps.map (·.1) by rw [e]; exact List.mem_cons_self)]
          split <;> rfl
        · rw [if_neg e]
          simp only [List.mem_cons, e, false_or]
      · rw [if_neg hk, if_neg hk, hpc]
        have hka : k ≠ a := by rintro rfl; rw [hp] at hk; exact hk rfl
        by_cases e : k = wMM ++ idx
        · have hl1 : lookup d1 k = some (.str (join [','] (oldText d k ++ [inner ++ ':' :: escapeComma s]))) := by rw [l1, if_neg hka, if_pos e]
          have ho1 : oldText d1 k = [join [','] (oldText d k ++ [inner ++ ':' :: escapeComma s])] := by rw [oldText, hl1]
          rw [if_pos e.symm, if_neg (fun h => List.cons_ne_nil _ _ h : ¬ (inner ++ ':' :: escapeComma s) :: pieces dig k ps = []), ho1, hl1]
          have hot : oldText d k = [] ∨ ∃ o, oldText d k = [o] := by
            unfold oldText
            split
            · exact .inr ⟨_, rfl⟩
            · exact .inl rfl
          split
          · rename_i hnil; rw [hnil]
          · rcases hot with h0 | ⟨o, h0⟩
            · rw [h0]; rfl
            · rw [h0]
              congr 2
              have : join [','] ([o] ++ [inner ++ ':' :: escapeComma s]) = o ++ ',' :: (inner ++ ':' :: escapeComma s) := by simp [join]
              rw [this]
              exact join_snoc _ _ _
        · have hl1 : lookup d1 k = lookup d k := by rw [l1, if_neg hka, if_neg e]
          have ho1 : oldText d1 k = oldText d k := by unfold oldText; rw [hl1]
          rw [if_neg (show ¬ wMM ++ idx = k from fun h => e h.symm), hl1, ho1]

/-- **C163, the names.** `MentionMisc_`, a text without brackets and perhaps an index -/
theorem C163_names {dig : Char → Bool} (hd : dig ']' = false) {inner ds : Str} (hi : inner ≠ []) (hb : '[' ∉ inner) (h0 : ds ≠ []) (h : ∀ c ∈ ds, dig c = true) :
    parse dig (wMM ++ '_' :: inner) = some (inner, []) ∧
    parse dig (wMM ++ '_' :: (inner ++ '[' :: (ds ++ [']']))) = some (inner, '[' :: (ds ++ [']'])) := by
  have hp : ∀ s, wMM.isPrefixOf (wMM ++ s) = true := fun s => List.isPrefixOf_iff_prefix.2 (List.prefix_append _ _)
  have hall : ∀ x ∈ inner, (decide (x ≠ '[')) = true := fun x hx => decide_eq_true (fun e => hb (e ▸ hx))
  constructor
  · have h1 : inner.takeWhile (fun x => decide (x ≠ '[')) = inner := (while_all hall).1
    have h2 : inner.dropWhile (fun x => decide (x ≠ '[')) = [] := (while_all hall).2
    unfold parse
    rw [if_pos (hp _), List.drop_left]
    simp only [h1, h2, if_neg hi]
    rfl
  · obtain ⟨h1, h2⟩ := takeWhile_stop (p := fun x => decide (x ≠ '[')) (c := '[') (s := ds ++ [']']) hall (by decide)
    unfold parse
    rw [if_pos (hp _), List.drop_left]
    simp only [h1, h2, if_neg hi, index_match (s := []) hd h0 h]

/-- **C163, only these names.** A name that is recognized begins with `MentionMisc_`, a non-empty text without an opening bracket and the index. -/
theorem C163_names_only {dig : Char → Bool} {k inner idx : Str} (h : parse dig k = some (inner, idx)) :
    inner ≠ [] ∧ '[' ∉ inner ∧ (idx = [] ∨ ∃ ds, ds ≠ [] ∧ (∀ c ∈ ds, dig c = true) ∧ idx = '[' :: (ds ++ [']'])) ∧ ∃ rest, k = wMM ++ '_' :: (inner ++ idx ++ rest) := by
  obtain ⟨t, rfl⟩ := parse_prefix h
  unfold parse at h
  rw [if_pos (List.isPrefixOf_iff_prefix.2 (List.prefix_append _ _)), List.drop_left] at h
  split at h
  · rename_i r
    split at h
    · cases h
    · rename_i hne
      injection h with h
      injection h with h1 h2
      have hb : '[' ∉ inner := fun hm => by
        rw [← h1] at hm
        have := takeWhile_all r _ hm
        simp at this
      have hr : r = inner ++ r.dropWhile (fun x => decide (x ≠ '[')) := by rw [← h1, List.takeWhile_append_dropWhile]
      refine ⟨h1 ▸ hne, hb, ?_⟩
      cases hi : index dig (r.dropWhile (fun x => decide (x ≠ '['))) with
      | none =>
        rw [hi] at h2
        exact ⟨.inl h2.symm, r.dropWhile (fun x => decide (x ≠ '[')), by rw [← h2]; simp only [List.append_nil]; rw [← hr]⟩
      | some q =>
        rw [hi] at h2
        obtain ⟨ds, g1, g2, g3, g4⟩ := index_sound (i := q.1) (r := q.2) hi
        have h2 : q.1 = idx := h2
        exact ⟨.inr ⟨ds, g1, g2, h2 ▸ g3⟩, q.2, by rw [← h2, List.append_assoc, ← g4, ← hr]⟩
  · cases h

/-- **C163, corefud.ConcatMentionMisc.** The attributes `MentionMisc_...` disappear; their texts are appended, in their order, to the text of `MentionMisc` with the
same index, each after a comma, unless it is the first, and with its name. No other attribute changes. -/
theorem C163_concat (dig : Char → Bool) {d : Dict} (hn : NodupKeys d) (ht : Texts d) :
    ∃ d', concat dig d = some d' ∧ ∀ k, ((parse dig k).isSome → lookup d' k = none) ∧
      ((parse dig k) = none → pieces dig k d = [] → lookup d' k = lookup d k) ∧
      ((parse dig k) = none → pieces dig k d ≠ [] → lookup d' k = some (.str (join [','] (oldText d k ++ pieces dig k d)))) := by
  have hl : ∀ p ∈ d, lookup d p.1 = some p.2 := by
    clear ht
    induction d with
    | nil => intro p hp; cases hp
    | cons q d ih =>
      obtain ⟨a, v⟩ := q
      have hn' : a ∉ d.map (·.1) ∧ NodupKeys d := List.nodup_cons.1 hn
      intro p hp
      rcases List.mem_cons.1 hp with rfl | hp
      · simp [lookup]
      · have : a ≠ p.1 := fun e => hn'.1 (e ▸ List.mem_map.2 ⟨p, hp, rfl⟩)
        rw [lookup, if_neg this]
        exact ih hn'.2 p hp
  obtain ⟨d', h1, h2⟩ := concatLoop_spec dig d hn ht hn (fun p hp _ => hl p hp)
  refine ⟨d', h1, fun k => ⟨fun hk => ?_, fun hk h0 => ?_, fun hk h0 => ?_⟩⟩
  · rw [h2 k, if_pos hk]
    split
    · rfl
    · rename_i hm; exact (lookup_none_iff d k).2 hm
  · rw [h2 k, hk, if_neg (by simp), if_pos h0]
  · rw [h2 k, hk, if_neg (by simp), if_neg h0]

theorem escape_no_comma : ∀ s : Str, ',' ∉ escapeComma s
  | [] => by simp [escapeComma]
  | c :: s => by
    have ih := escape_no_comma s
    unfold escapeComma
    split
    · simp [ih]
    · rename_i h
      rw [List.mem_cons, not_or]
      exact ⟨fun e => h e.symm, ih⟩

/-- **C163, reading back.** If there was no attribute `k` and the names have no commas, then the text of `k` splits at the commas into the texts that were moved there. -/
theorem C163_split (dig : Char → Bool) {d d' : Dict} (hn : NodupKeys d) (ht : Texts d) (h : concat dig d = some d') {k : Str} (hk : parse dig k = none)
    (h0 : lookup d k = none) (hp : pieces dig k d ≠ []) (hc : ∀ p ∈ d, ',' ∉ p.1) : ∃ s, lookup d' k = some (.str s) ∧ split ',' s = pieces dig k d := by
  obtain ⟨d'', h1, h2⟩ := C163_concat dig hn ht
  rw [h] at h1
  cases h1
  have ho : oldText d k = [] := by unfold oldText; rw [h0]
  refine ⟨_, (h2 k).2.2 hk hp, ?_⟩
  rw [ho, List.nil_append]
  refine split_join hp (fun x hx => ?_)
  obtain ⟨q, hq, he⟩ := List.mem_filterMap.1 hx
  have hin : ∀ inner idx, parse dig q.1 = some (inner, idx) → ',' ∉ inner := by
    intro inner idx hpp hm
    refine hc q hq ?_
    unfold parse at hpp
    split at hpp
    · split at hpp
      · rename_i r hr
        split at hpp
        · cases hpp
        · injection hpp with hpp
          injection hpp with hpp _
          rw [← hpp] at hm
          have h3 : ',' ∈ r := List.takeWhile_sublist _ |>.subset hm
          exact List.mem_of_mem_drop (hr ▸ List.mem_cons_of_mem _ h3)
      · cases hpp
    · cases hpp
  split at he
  · rename_i inner idx v hpp hv
    split at he
    · injection he with he
      rw [← he, List.mem_append, List.mem_cons]
      rintro (g | g | g)
      · exact hin inner idx hpp g
      · revert g; decide
      · exact escape_no_comma _ g
    · cases he
  · cases he

theorem escape_append : ∀ a b : Str, escapeComma (a ++ b) = escapeComma a ++ escapeComma b
  | [], _ => rfl
  | c :: a, b => by
    rw [List.cons_append, escapeComma, escapeComma, escape_append a b]
    split <;> rfl

/-- **C163 violated (escapes).** A comma of a text and the characters `%2C` become the same, so that the texts cannot be read back. -/
theorem C163_escape_violated (dig : Char → Bool) (a s t : Str) (ha : a ≠ []) (hb : '[' ∉ a) :
    concat dig [(wMM ++ '_' :: a, .str (s ++ ',' :: t))] = concat dig [(wMM ++ '_' :: a, .str (s ++ '%' :: '2' :: 'C' :: t))] := by
  have he : escapeComma (s ++ ',' :: t) = escapeComma (s ++ '%' :: '2' :: 'C' :: t) := by
    rw [escape_append, escape_append]
    rfl
  have hall : ∀ x ∈ a, (decide (x ≠ '[')) = true := fun x hx => decide_eq_true (fun e => hb (e ▸ hx))
  have hp : parse dig (wMM ++ '_' :: a) = some (a, []) := by
    have h1 : a.takeWhile (fun x => decide (x ≠ '[')) = a := (while_all hall).1
    have h2 : a.dropWhile (fun x => decide (x ≠ '[')) = [] := (while_all hall).2
    unfold parse
    rw [if_pos (List.isPrefixOf_iff_prefix.2 (List.prefix_append _ _)), List.drop_left]
    simp only [h1, h2, if_neg ha]
    rfl
  have hne : ¬ (wMM ++ '_' :: a = wMM ++ []) := by
    rw [List.append_nil]
    intro h
    have := congrArg List.length h
    rw [List.length_append, List.length_cons] at this
    omega
  have hne' : ¬ (wMM ++ [] = wMM ++ '_' :: a) := fun h => hne h.symm
  simp only [concat, List.map_cons, List.map_nil, concatLoop, concatOne, hp, lookup, if_true, Option.getD_some, if_neg hne, insert, erase, he]

/-- **C163 violated (attributes without values).** If an attribute `MentionMisc_...` has no value, the block fails. -/
theorem C163_bare_violated (dig : Char → Bool) (d : Dict) {k : Str} (hk : (parse dig k).isSome) (h : lookup d k = some .tru) : concatOne dig d k = none := by
  cases hp : parse dig k with
  | none => rw [hp] at hk; cases hk
  | some q => simp only [concatOne, hp, h, Option.getD_some]

/-! ## util.Mark -/

/-- **C163, util.Mark.** A selected node gets the mark and keeps its other attributes; another node is unchanged, or with `add=0` loses the attribute of the mark, `ToDo` and
`Bug` and keeps the others. -/
theorem C163_mark {d : Dict} (hn : NodupKeys d) (attr : Str) (v : Val) (k : Str) :
    (∀ add, lookup (markNode attr v add true d) k = if k = attr then some v else lookup d k) ∧ markNode attr v true false d = d ∧
    lookup (markNode attr v false false d) k = if k = attr ∨ k = wToDo ∨ k = wBug then none else lookup d k := by
  refine ⟨fun add => ?_, rfl, ?_⟩
  · unfold markNode; rw [if_pos rfl, lookup_insert]
  · unfold markNode
    simp only [Bool.false_eq_true, if_false, Bool.not_false, if_true]
    rw [lookup_erase (nodup_erase (nodup_erase hn attr) wToDo), lookup_erase (nodup_erase hn attr), lookup_erase hn]
    by_cases h1 : k = wBug
    · simp [h1]
    · by_cases h2 : k = wToDo
      · simp [h2]
      · by_cases h3 : k = attr
        · simp [h3]
        · simp [h1, h2, h3]

/-! ## Examples -/

def exDig (c : Char) : Bool := 48 ≤ c.toNat && c.toNat ≤ 57

example : noIndex exDig 0 ['A', '[', '1', '2', ']'] = ['A'] := by decide
example : noIndex exDig 0 ['A', '[', ']', '[', '3', ']', 'b'] = ['A', '[', ']', 'b'] := by decide
example : remove exDig [['A']] [(['A', '[', '1', ']'], .str ['x']), (['B'], .tru), (['A'], .str ['y'])] = [(['B'], .tru)] := by decide
example : concat exDig [(wMM ++ ['_', 'a', '[', '1', ']'], .str ['x', ',', 'y']), (['B'], .tru), (wMM ++ ['_', 'b', '[', '1', ']'], .str ['z'])] =
    some [(['B'], .tru), (wMM ++ ['[', '1', ']'], .str ['a', ':', 'x', '%', '2', 'C', 'y', ',', 'b', ':', 'z'])] := by decide
example : markNode ['M'] (.obj ['1']) false true [(wBug, .str ['x'])] = [(wBug, .str ['x']), (['M'], .obj ['1'])] := by decide
example : markNode ['M'] (.obj ['1']) false false [(wBug, .str ['x']), (['C'], .tru), (['M'], .str ['2'])] = [(['C'], .tru)] := by decide

end Verif.DualDict.MiscBlocks
