import Verif.DualDict.LemmasText

/-!
# Property C139: `ud.AddPunctType`

Source: `udapi/block/ud/addpuncttype.py`. The features of a word are a `DualDict` object.
-/

namespace Verif.DualDict.PunctType
open Verif.Py Verif.DualDict

def vBrck : Str := ['B', 'r', 'c', 'k']
def vPeri : Str := ['P', 'e', 'r', 'i']
def vElip : Str := ['E', 'l', 'i', 'p']
def vComm : Str := ['C', 'o', 'm', 'm']
def vSemi : Str := ['S', 'e', 'm', 'i']
def vColo : Str := ['C', 'o', 'l', 'o']
def vExcl : Str := ['E', 'x', 'c', 'l']
def vQest : Str := ['Q', 'e', 's', 't']
def vDash : Str := ['D', 'a', 's', 'h']
def vQuot : Str := ['Q', 'u', 'o', 't']
def vIni : Str := ['I', 'n', 'i']
def vFin : Str := ['F', 'i', 'n']

/-- `PUNCT_TYPES` (addpuncttype.py:13-53) -/
def types : List (Str × Str) :=
  [(['('], vBrck), ([')'], vBrck), (['['], vBrck), ([']'], vBrck), (['{'], vBrck), (['}'], vBrck), (['.'], vPeri),
   (['.', '.', '.'], vElip), (['…'], vElip), ([','], vComm), ([';'], vSemi), ([':'], vColo), (['!'], vExcl), (['¡'], vExcl),
   (['?'], vQest), (['¿'], vQest), (['/'], vColo), (['-'], vDash), (['–'], vDash), (['—'], vDash), (['"'], vQuot),
   (['\''], vQuot), (['`'], vQuot), (['“'], vQuot), (['”'], vQuot), (['„'], vQuot), (['‘'], vQuot), (['’'], vQuot),
   (['‚'], vQuot), (['«'], vQuot), (['»'], vQuot), (['‹'], vQuot), (['›'], vQuot), (['《'], vQuot), (['》'], vQuot),
   (['「'], vQuot), (['」'], vQuot), (['『'], vQuot), (['』'], vQuot)]

/-- `PUNCT_SIDES` (addpuncttype.py:55-72) -/
def sides : List (Str × Str) :=
  [(['('], vIni), ([')'], vFin), (['['], vIni), ([']'], vFin), (['{'], vIni), (['}'], vFin), (['¡'], vIni), (['!'], vFin),
   (['¿'], vIni), (['?'], vFin), (['《'], vIni), (['》'], vFin), (['「'], vIni), (['」'], vFin), (['『'], vIni), (['』'], vFin)]

def kType : Str := ['P', 'u', 'n', 'c', 't', 'T', 'y', 'p', 'e']
def kSide : Str := ['P', 'u', 'n', 'c', 't', 'S', 'i', 'd', 'e']
def pPunct : Str := ['P', 'U', 'N', 'C', 'T']

/-- `form in table` and `table[form]` -/
def tableGet (table : List (Str × Str)) (form : Str) : Option Str := (table.find? (fun p => p.1 = form)).map (·.2)

/-- `feats[key] = table[form]` if the form is in the table, otherwise `feats[key] = ''` -/
def setFrom (table : List (Str × Str)) (form key : Str) (s : State) : State :=
  match tableGet table form with
  | some v => (setItem dd s key (some (.str v))).1
  | none => (setItem dd s key (some (.str []))).1

/-- `process_node` (addpuncttype.py:78-91); `s` is `node.feats`. -/
def addType (upos : Option Str) (form : Str) (s : State) : State :=
  if upos ≠ some pPunct then
    (setItem dd (setItem dd s kType (some (.str []))).1 kSide (some (.str []))).1
  else setFrom sides form kSide (setFrom types form kType s)

/-! ## What it should do -/

/-- The value of a feature. -/
def feat (s : State) (k : Str) : Option Val := lookup (abs dd s) k

/-- Brackets and other marks that occur in pairs: opening and closing. -/
def pairs : List (Str × Str) :=
  [(['('], [')']), (['['], [']']), (['{'], ['}']), (['¡'], ['!']), (['¿'], ['?']), (['《'], ['》']), (['「'], ['」']), (['『'], ['』'])]

/-! ## Proofs -/

theorem insert_same {d : Dict} {k : Str} {v : Val} (h : lookup d k = some v) : insert d k v = d := by
  induction d with
  | nil => cases h
  | cons p d ih =>
    obtain ⟨k', v'⟩ := p
    unfold lookup at h
    unfold insert
    by_cases hk : k' = k
    · rw [if_pos hk] at h ⊢
      injection h with h
      rw [h]
    · rw [if_neg hk] at h ⊢
      rw [ih h]

/-- The value that is assigned. -/
def value (upos : Option Str) (table : List (Str × Str)) (form : Str) : Option Str :=
  if upos = some pPunct then tableGet table form else none

/-- One assignment on the mapping. -/
def put (d : Dict) (k : Str) : Option Str → Dict
  | some v => insert d k (.str v)
  | none => erase d k

theorem setItem_val (s : State) (k : Str) {v : Str} (hv : v ≠ []) :
    (setItem dd s k (some (.str v))).1 = ⟨none, insert (abs dd s) k (.str v)⟩ := by
  unfold setItem
  have : ¬ Val.str v = Val.str [] := fun e => hv (Val.str.inj e)
  simp only [this, if_false]
  rfl

theorem setItem_del (s : State) (k : Str) : (setItem dd s k (some (.str []))).1 = ⟨none, erase (abs dd s) k⟩ := by
  unfold setItem
  simp only [if_true, delItem]
  have hd : deserialize dd ⟨none, (deserialize dd s).dict⟩ = ⟨none, abs dd s⟩ := by
    unfold abs
    cases (deserialize dd s).dict <;> rfl
  rw [show ({ deserialize dd s with string := none } : State) = ⟨none, (deserialize dd s).dict⟩ from rfl, hd]
  cases h : lookup (abs dd s) k with
  | some _ => rfl
  | none =>
    simp only
    rw [erase_of_lookup_none h]

theorem types_ne : ∀ p ∈ types, p.2 ≠ [] := by decide
theorem sides_ne : ∀ p ∈ sides, p.2 ≠ [] := by decide

theorem tableGet_mem {table : List (Str × Str)} {form v : Str} (h : tableGet table form = some v) : (form, v) ∈ table := by
  unfold tableGet at h
  obtain ⟨p, hp, rfl⟩ := Option.map_eq_some_iff.1 h
  have h1 := List.find?_some hp
  have : p.1 = form := by simpa using h1
  rw [← this]
  exact List.mem_of_find?_eq_some hp

theorem setFrom_eq {table : List (Str × Str)} (ht : ∀ p ∈ table, p.2 ≠ []) (form key : Str) (s : State) :
    setFrom table form key s = ⟨none, put (abs dd s) key (tableGet table form)⟩ := by
  unfold setFrom
  cases h : tableGet table form with
  | some v => exact setItem_val s key (ht _ (tableGet_mem h))
  | none => exact setItem_del s key

theorem addType_eq (upos : Option Str) (form : Str) (s : State) :
    addType upos form s = ⟨none, put (put (abs dd s) kType (value upos types form)) kSide (value upos sides form)⟩ := by
  unfold addType value
  by_cases h : upos = some pPunct
  · rw [if_neg (by simpa using h), if_pos h, if_pos h, setFrom_eq sides_ne, setFrom_eq types_ne, abs_of_string_none]
  · rw [if_pos (by simpa using h), if_neg h, if_neg h, setItem_del, setItem_del, abs_of_string_none]
    rfl

theorem put_nodup {d : Dict} (h : NodupKeys d) (k : Str) (v : Option Str) : NodupKeys (put d k v) := by
  cases v with
  | some v => exact nodup_insert h k _
  | none => exact nodup_erase h k

theorem lookup_put {d : Dict} (h : NodupKeys d) (k : Str) (v : Option Str) (k' : Str) :
    lookup (put d k v) k' = if k' = k then v.map Val.str else lookup d k' := by
  cases v with
  | some v => exact lookup_insert d k _ k'
  | none => exact lookup_erase h k k'

theorem put_same {d : Dict} {k : Str} {v : Option Str} (h : lookup d k = v.map Val.str) : put d k v = d := by
  cases v with
  | some v => exact insert_same h
  | none => exact erase_of_lookup_none h

section Props
variable (upos : Option Str) (form : Str) {s : State}

/-- After the block a word has the features PunctType and PunctSide exactly if it is punctuation and its form is in the table, with the
values of the tables. All other features are as before. -/
theorem C139_features (hs : NodupKeys s.dict) :
    (∀ v, feat (addType upos form s) kType = some v ↔ ∃ t, v = .str t ∧ upos = some pPunct ∧ (form, t) ∈ types) ∧
    (∀ v, feat (addType upos form s) kSide = some v ↔ ∃ t, v = .str t ∧ upos = some pPunct ∧ (form, t) ∈ sides) ∧
    (∀ k, k ≠ kType → k ≠ kSide → feat (addType upos form s) k = feat s k) := by
  have hn := abs_nodup_aux dd hs
  have hn1 := put_nodup hn kType (value upos types form)
  have hne : kType ≠ kSide := by decide
  have hval : ∀ table : List (Str × Str), (∀ p ∈ table, tableGet table p.1 = some p.2) → ∀ v,
      (value upos table form).map Val.str = some v ↔ ∃ t, v = .str t ∧ upos = some pPunct ∧ (form, t) ∈ table := by
    intro table ht v
    unfold value
    by_cases hu : upos = some pPunct
    · rw [if_pos hu]
      constructor
      · intro e
        obtain ⟨t, h1, h2⟩ := Option.map_eq_some_iff.1 e
        exact ⟨t, h2.symm, hu, tableGet_mem h1⟩
      · rintro ⟨t, rfl, -, hm⟩
        rw [ht _ hm]
        rfl
    · rw [if_neg hu]
      exact ⟨fun e => (by cases e), fun ⟨_, _, h, _⟩ => absurd h hu⟩
  unfold feat
  rw [addType_eq, abs_of_string_none]
  refine ⟨fun v => ?_, fun v => ?_, fun k h1 h2 => ?_⟩
  · rw [lookup_put hn1, if_neg hne, lookup_put hn, if_pos rfl]
    exact hval types (by decide) v
  · rw [lookup_put hn1, if_pos rfl]
    exact hval sides (by decide) v
  · rw [lookup_put hn1, if_neg h2, lookup_put hn, if_neg h1]

/-- A word with a side has a type. The two members of a pair have the same type and opposite sides. -/
theorem C139_pairs (hs : NodupKeys s.dict) :
    (∀ v, feat (addType upos form s) kSide = some v → ∃ t, feat (addType upos form s) kType = some t) ∧
    (∀ a b, (a, b) ∈ pairs → upos = some pPunct → ∃ t,
      feat (addType upos a s) kType = some t ∧ feat (addType upos b s) kType = some t ∧
      feat (addType upos a s) kSide = some (.str vIni) ∧ feat (addType upos b s) kSide = some (.str vFin)) := by
  constructor
  · intro v hv
    obtain ⟨t, -, hu, hm⟩ := ((C139_features upos form hs).2.1 v).1 hv
    have key : ∀ p ∈ sides, ∃ q ∈ types, q.1 = p.1 := by decide
    obtain ⟨q, hq, e⟩ := key _ hm
    exact ⟨.str q.2, ((C139_features upos form hs).1 _).2 ⟨q.2, rfl, hu, by rw [← show q.1 = form from e]; exact hq⟩⟩
  · intro a b hab hu
    have key : ∀ p ∈ pairs, ∃ q ∈ types, q.1 = p.1 ∧ (p.2, q.2) ∈ types ∧ (p.1, vIni) ∈ sides ∧ (p.2, vFin) ∈ sides := by decide
    obtain ⟨q, hq, e, h2, h3, h4⟩ := key _ hab
    refine ⟨.str q.2, ?_, ?_, ?_, ?_⟩
    · exact ((C139_features upos a hs).1 _).2 ⟨q.2, rfl, hu, by rw [← show q.1 = a from e]; exact hq⟩
    · exact ((C139_features upos b hs).1 _).2 ⟨q.2, rfl, hu, h2⟩
    · exact ((C139_features upos a hs).2.1 _).2 ⟨vIni, rfl, hu, h3⟩
    · exact ((C139_features upos b hs).2.1 _).2 ⟨vFin, rfl, hu, h4⟩

/-- A second run changes nothing. -/
theorem C139_again (hs : NodupKeys s.dict) : addType upos form (addType upos form s) = addType upos form s := by
  have hn := abs_nodup_aux dd hs
  have hn1 := put_nodup hn kType (value upos types form)
  have hne : kType ≠ kSide := by decide
  rw [addType_eq upos form s, addType_eq, abs_of_string_none]
  rw [put_same (k := kType) (by rw [lookup_put hn1, if_neg hne, lookup_put hn, if_pos rfl])]
  rw [put_same (by rw [lookup_put hn1, if_pos rfl])]

/-- The text of FEATS is always computed anew, even for words which get and lose nothing. -/
theorem C139_text_partial (lower : Str → Str) : shown dd lower (addType upos form s) = serialize dd lower (abs dd (addType upos form s)) := by
  rw [addType_eq, abs_of_string_none]
  rfl

/-- So the features of a word that is not punctuation may be written in another order than before. -/
theorem C139_order_violated (lower : Str → Str) (ha : lower ['a'] = ['a']) (hb : lower ['b'] = ['b']) (hu : upos ≠ some pPunct) :
    let t : Str := ['b', '=', '1', '|', 'a', '=', '2']
    shown dd lower ⟨some t, []⟩ = t ∧ shown dd lower (addType upos form ⟨some t, []⟩) = ['a', '=', '2', '|', 'b', '=', '1'] := by
  refine ⟨rfl, ?_⟩
  rw [addType_eq]
  unfold value
  rw [if_neg hu, if_neg hu]
  have : put (put (abs dd ⟨some ['b', '=', '1', '|', 'a', '=', '2'], []⟩) kType none) kSide none =
      [(['b'], .str ['1']), (['a'], .str ['2'])] := by decide
  rw [this]
  have hle : itemLe lower (['b'], .str ['1']) (['a'], .str ['2']) = false := by
    unfold itemLe
    rw [ha, hb]
    decide
  simp only [shown, serialize, pySort, insertBy, hle]
  decide

/-- Punctuation with a form that is not in the tables loses its features: existing values are not only overwritten. -/
theorem C139_lost_violated (hs : NodupKeys s.dict) (hf : ∀ t, (form, t) ∉ types) : feat (addType upos form s) kType = none := by
  cases h : feat (addType upos form s) kType with
  | none => rfl
  | some v =>
    obtain ⟨t, -, -, hm⟩ := ((C139_features upos form hs).1 v).1 h
    exact absurd hm (hf t)

end Props

example : (addType (some pPunct) ['('] ⟨some ['X', '=', '1'], []⟩) =
    ⟨none, [(['X'], .str ['1']), (kType, .str vBrck), (kSide, .str vIni)]⟩ := by decide

example : (addType (some pPunct) ['-', '-'] ⟨none, [(kType, .str vDash), (['X'], .str ['1'])]⟩) = ⟨none, [(['X'], .str ['1'])]⟩ := by decide

end Verif.DualDict.PunctType
