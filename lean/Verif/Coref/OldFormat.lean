import Verif.DualDict.Lemmas
import Verif.Coref.Entity

/-!
# Property C170: coreference in the old format (udapi/block/write/oldcorefud.py, udapi/block/read/oldcorefud.py)

MISC is a dictionary (C04 to C07 speak of the class `DualDict`). A mention is given by the texts that are written for it; the text of a span is treated in `Span.lean`.
Old attributes whose values are no texts (`ClusterId` without `=`) are not modelled. The pattern `\d` is for ASCII digits.
-/

namespace Verif.Coref.OldFormat
open Verif.Py Verif.DualDict Verif.Coref

def nEntity : Str := ['E', 'n', 't', 'i', 't', 'y']
def nSplit : Str := ['S', 'p', 'l', 'i', 't']
def nBridge : Str := ['B', 'r', 'i', 'd', 'g', 'e']
def nCid : Str := ['C', 'l', 'u', 's', 't', 'e', 'r', 'I', 'd']
def nSpan : Str := ['M', 'e', 'n', 't', 'i', 'o', 'n', 'S', 'p', 'a', 'n']
def nType : Str := ['C', 'l', 'u', 's', 't', 'e', 'r', 'T', 'y', 'p', 'e']
def nBridging : Str := ['B', 'r', 'i', 'd', 'g', 'i', 'n', 'g']
def nAnte : Str := ['S', 'p', 'l', 'i', 't', 'A', 'n', 't', 'e']
def nMM : Str := ['M', 'e', 'n', 't', 'i', 'o', 'n', 'M', 'i', 's', 'c']

/-- `attrs` of the reader (read/oldcorefud.py:107) -/
def attrsR : List Str := [nCid, nSpan, nType, nBridging, nAnte, nMM]

/-- `attrs` of the writer (write/oldcorefud.py:13) -/
def attrsW : List Str := nEntity :: nSplit :: nBridge :: attrsR

def dig (c : Char) : Bool := 48 ≤ c.toNat && c.toNat ≤ 57

/-- `(\[\d+\])?$` -/
def isIndex : Str → Bool
  | [] => true
  | '[' :: r => decide (r.takeWhile dig ≠ []) && decide (r.dropWhile dig = [']'])
  | _ => false

/-- `any(re.match(attr + r'(\[\d+\])?$', key) for attr in attrs)` -/
def isOld (as : List Str) (k : Str) : Bool := as.any (fun a => a.isPrefixOf k && isIndex (k.drop a.length))

/-- Deletion of the old attributes (write/oldcorefud.py:14-17, read/oldcorefud.py:108-111) -/
def clear (as : List Str) (d : Dict) : Dict := (d.map (·.1)).foldl (fun d k => if isOld as k then erase d k else d) d

/-- `misc[k]` -/
def get (d : Dict) (k : Str) : Str :=
  match lookup d k with
  | some (.str s) => s
  | _ => []

/-- `misc[k] = v`; an empty text deletes the key (dualdict.py:66-72). -/
def set (d : Dict) (k v : Str) : Dict := if v = [] then erase d k else insert d k (.str v)

/-- The texts of a mention and its entity; the empty text for nothing -/
structure Ment where
  eid : Str
  span : Str
  etype : Str
  bridging : Str
  split : Str
  misc : Str
  deriving DecidableEq

/-- `index_str` -/
def sfx (i : Nat) : Str := if i = 0 then [] else '[' :: (natStr i ++ [']'])

/-- Writing the attributes with an index (write/oldcorefud.py:47-56) -/
def writeAt (d : Dict) (x : Str) (m : Ment) : Dict :=
  let d := set d (nCid ++ x) m.eid
  let d := set d (nSpan ++ x) m.span
  let d := set d (nType ++ x) m.etype
  let d := if m.bridging ≠ [] then set d (nBridging ++ x) m.bridging else d
  let d := if m.split ≠ [] then set d (nAnte ++ x) m.split else d
  if m.misc ≠ [] then set d (nMM ++ x) m.misc else d

/-- The index `[1]` is added to the attributes of the first mention (write/oldcorefud.py:34-38). -/
def move : List Str → Dict → Dict
  | [], d => d
  | a :: as, d => move as (if get d a ≠ [] then erase (set d (a ++ sfx 1) (get d a)) a else d)

/-- The search for a free index (write/oldcorefud.py:41-44); `none`: more than `fuel` rounds -/
def firstFree (d : Dict) : Nat → Nat → Option Nat
  | 0, _ => none
  | fuel + 1, i => if get d (nCid ++ sfx i) ≠ [] then firstFree d fuel (i + 1) else some i

/-- One mention (write/oldcorefud.py:32-56) in MISC of its head -/
def put (d : Dict) (m : Ment) : Option Dict :=
  if get d nCid ≠ [] then some (writeAt (move attrsW d) (sfx 2) m)
  else
    match firstFree d (d.length + 1) 1 with
    | none => none
    | some i => some (writeAt d (if i = 1 then [] else sfx i) m)

/-- The loops over entities and mentions (write/oldcorefud.py:30-56): mentions with their heads, MISC of each node -/
def putAll : (Nat → Dict) → List (Nat × Ment) → Option (Nat → Dict)
  | f, [] => some f
  | f, p :: ps =>
    match put (f p.1) p.2 with
    | none => none
    | some d => putAll (fun y => if y = p.1 then d else f y) ps

/-- `write.OldCorefUD` before printing: MISC of all nodes. `glob`: is there `global.Entity` in `doc.meta`? If not, line 18 raises `KeyError` (`none`). -/
def writeDoc (glob : Bool) (f : Nat → Dict) (ms : List (Nat × Ment)) : Option (Nat → Dict) := if glob then putAll (fun x => clear attrsW (f x)) ms else none

/-- `orig2new` as pairs; `new2orig` has the same pairs. -/
abbrev St := List (Str × Str)

/-- `s.replace('-', r)` -/
def dehyphen (r : Str) : Str → Str
  | [] => []
  | c :: s => if c = '-' then r ++ dehyphen r s else c :: dehyphen r s

/-- The search for a free id (read/oldcorefud.py:27-30) -/
def freeId (st : St) (base : Str) : Nat → Nat → Str → Option Str
  | 0, _, _ => none
  | fuel + 1, counter, new => if new ∈ st.map (·.2) then freeId st base fuel (counter + 1) (base ++ natStr (counter + 1)) else some new

/-- `_fix_id` (read/oldcorefud.py:22-34) -/
def fixId (r : Str) (st : St) (cid : Str) : Option (St × Str) :=
  if cid = [] ∨ '-' ∉ cid then some (st, cid)
  else
    match st.find? (fun p => p.1 = cid) with
    | some p => some (st, p.2)
    | none =>
      match freeId st (dehyphen r cid) (st.length + 1) 1 (dehyphen r cid) with
      | none => none
      | some new => some (st ++ [(cid, new)], new)

/-- The loop over the mentions of a node (read/oldcorefud.py:47-98), without the interpretation of the texts -/
def readLoop (r : Str) (d : Dict) : Nat → Nat → St → Option (St × List Ment)
  | 0, _, _ => none
  | fuel + 1, i, st =>
    match fixId r st (get d (nCid ++ sfx i)) with
    | none => none
    | some (st, e) =>
      if e = [] then some (st, [])
      else
        match readLoop r d fuel (i + 1) st with
        | none => none
        | some (st, ms) =>
          some (st, ⟨e, get d (nSpan ++ sfx i), get d (nType ++ sfx i), get d (nBridging ++ sfx i), get d (nAnte ++ sfx i), get d (nMM ++ sfx i)⟩ :: ms)

/-- All mentions of a node (read/oldcorefud.py:41-98) -/
def readNode (r : Str) (st : St) (d : Dict) : Option (St × List Ment) := readLoop r d (d.length + 2) (if get d nCid = [] then 1 else 0) st

/-- `','.join(f'{l.target.eid}:{l.relation}' for l in ...)` (write/oldcorefud.py:51) -/
def showLinks (ls : List (Str × Str)) : Str := join [','] (ls.map (fun l => l.1 ++ ':' :: l.2))

/-- The loop over the links (read/oldcorefud.py:63-70); `none` if a link has not two parts -/
def readLinks (r : Str) : St → List Str → Option (St × List (Str × Str))
  | st, [] => some (st, [])
  | st, l :: ls =>
    match Py.split ':' l with
    | [t, rel] =>
      match fixId r st t with
      | none => none
      | some (st, t) =>
        match readLinks r st ls with
        | none => none
        | some (st, rest) => some (st, (t, rel) :: rest)
    | _ => none

def readBridging (r : Str) (st : St) (s : Str) : Option (St × List (Str × Str)) := readLinks r st (Py.split ',' s)

/-- The ids of split antecedents (read/oldcorefud.py:77), without `_fix_id` -/
def readAnte (s : Str) : List Str := Py.split ',' (s.map (fun c => if c = '+' then ',' else c))

/-- `s.replace('%2D', '-')` (write/oldcorefud.py:56) -/
def toHyphen : Str → Str
  | [] => []
  | '%' :: '2' :: 'D' :: s => '-' :: toHyphen s
  | c :: s => c :: toHyphen s

/-- `s.replace(c, t)` for a character -/
def rep (c : Char) (t : Str) : Str → Str
  | [] => []
  | x :: s => if x = c then t ++ rep c t s else x :: rep c t s

/-- What is read from `MentionMisc` (read/oldcorefud.py:93-94) -/
def readMisc (s : Str) : Str := rep ')' ['%', '2', '9'] (rep '(' ['%', '2', '8'] (rep '-' ['%', '2', 'D'] (rep ' ' [','] s)))

/-- `_fix_id` for ids one after another -/
def fixAll (r : Str) : St → List Str → Option (St × List Str)
  | st, [] => some (st, [])
  | st, c :: cs =>
    match fixId r st c with
    | none => none
    | some (st, e) =>
      match fixAll r st cs with
      | none => none
      | some (st, es) => some (st, e :: es)

/-! ## Lemmas -/

theorem lookupE {d : Dict} (h : NodupKeys d) (k k' : Str) : lookup (erase d k) k' = if k = k' then none else lookup d k' := by
  rw [lookup_erase h]
  by_cases e : k = k'
  · rw [if_pos e, if_pos e.symm]
  · rw [if_neg e, if_neg (Ne.symm e)]

theorem lookupI (d : Dict) (k : Str) (v : Val) (k' : Str) : lookup (insert d k v) k' = if k = k' then some v else lookup d k' := by
  rw [lookup_insert]
  by_cases e : k = k'
  · rw [if_pos e, if_pos e.symm]
  · rw [if_neg e, if_neg (Ne.symm e)]

theorem get_none {d : Dict} {k : Str} (h : lookup d k = none) : get d k = [] := by unfold get; rw [h]

theorem get_some {d : Dict} {k s : Str} (h : lookup d k = some (.str s)) : get d k = s := by unfold get; rw [h]

theorem lookup_set {d : Dict} (h : NodupKeys d) (k v k' : Str) : lookup (set d k v) k' = if k = k' then (if v = [] then none else some (.str v)) else lookup d k' := by
  unfold set
  by_cases hv : v = []
  · rw [if_pos hv, lookupE h, if_pos hv]
  · rw [if_neg hv, lookupI, if_neg hv]

theorem nodup_set {d : Dict} (h : NodupKeys d) (k v : Str) : NodupKeys (set d k v) := by
  unfold set; split
  · exact nodup_erase h k
  · exact nodup_insert h k _

theorem get_set {d : Dict} (h : NodupKeys d) (k v k' : Str) : get (set d k v) k' = if k = k' then v else get d k' := by
  unfold get
  rw [lookup_set h]
  by_cases hk : k = k'
  · rw [if_pos hk, if_pos hk]
    by_cases hv : v = []
    · rw [if_pos hv, hv]
    · rw [if_neg hv]
  · rw [if_neg hk, if_neg hk]

theorem get_congr {d e : Dict} {k : Str} (h : lookup d k = lookup e k) : get d k = get e k := by
  unfold get; rw [h]

theorem lookup_clear_aux (as : List Str) : ∀ (ks : List Str) {d : Dict}, NodupKeys d → NodupKeys (ks.foldl (fun d k => if isOld as k then erase d k else d) d) ∧
    ∀ k, lookup (ks.foldl (fun d k => if isOld as k then erase d k else d) d) k = if isOld as k = true ∧ k ∈ ks then none else lookup d k
  | [], d, h => ⟨h, fun k => by simp⟩
  | x :: ks, d, h => by
    rw [List.foldl_cons]
    by_cases hx : isOld as x = true
    · rw [if_pos hx]
      obtain ⟨h1, h2⟩ := lookup_clear_aux as ks (nodup_erase h x)
      refine ⟨h1, fun k => ?_⟩
      rw [h2, lookupE h]
      by_cases hk : x = k
      · subst hk
        simp [hx]
      · rw [if_neg hk]
        have : k ∈ x :: ks ↔ k ∈ ks := by simp [Ne.symm hk]
        simp only [this]
    · rw [if_neg hx]
      obtain ⟨h1, h2⟩ := lookup_clear_aux as ks h
      refine ⟨h1, fun k => ?_⟩
      rw [h2]
      by_cases hk : x = k
      · subst hk
        rw [if_neg (fun e => hx e.1), if_neg (fun e => hx e.1)]
      · have : k ∈ x :: ks ↔ k ∈ ks := by simp [Ne.symm hk]
        simp only [this]

theorem nodup_clear (as : List Str) {d : Dict} (h : NodupKeys d) : NodupKeys (clear as d) := (lookup_clear_aux as _ h).1

theorem lookup_clear (as : List Str) {d : Dict} (h : NodupKeys d) (k : Str) : lookup (clear as d) k = if isOld as k then none else lookup d k := by
  unfold clear
  rw [(lookup_clear_aux as _ h).2]
  by_cases hk : isOld as k = true
  · rw [if_pos hk]
    by_cases hm : k ∈ d.map (·.1)
    · rw [if_pos ⟨hk, hm⟩]
    · rw [if_neg (fun e => hm e.2)]; exact (lookup_none_iff d k).2 hm
  · rw [if_neg hk, if_neg (fun e => hk e.1)]

theorem nmc {x c : Char} {s : Str} (h : x ∉ c :: s) : x ≠ c ∧ x ∉ s := ⟨fun e => h (e ▸ List.mem_cons_self), fun e => h (List.mem_cons_of_mem _ e)⟩

theorem tw_all {p : Char → Bool} : ∀ (l : Str), ∀ x ∈ l.takeWhile p, p x = true
  | [], x, h => by cases h
  | c :: l, x, h => by
    rw [List.takeWhile_cons] at h
    split at h
    · rcases List.mem_cons.1 h with rfl | h
      · assumption
      · exact tw_all l x h
    · cases h

theorem sfx_idx {i : Nat} (h : i ≠ 0) : sfx i = '[' :: (natStr i ++ [']']) := by unfold sfx; rw [if_neg h]

theorem dig_nat (n : Nat) : ∀ c ∈ natStr n, dig c = true := by
  intro c hc
  have := natStr_digits n c hc
  simp [dig, this.1, this.2]

theorem span_stop {p : Char → Bool} {c : Char} {s : Str} (hc : p c = false) : ∀ {l : Str}, (∀ x ∈ l, p x = true) → (l ++ c :: s).takeWhile p = l ∧ (l ++ c :: s).dropWhile p = c :: s
  | [], _ => by simp [hc]
  | x :: l, h => by
    obtain ⟨h1, h2⟩ := span_stop hc (l := l) (s := s) (fun y hy => h y (List.mem_cons_of_mem _ hy))
    have hx := h x List.mem_cons_self
    simp [hx, h1, h2]

theorem isIndex_sfx (i : Nat) : isIndex (sfx i) = true := by
  by_cases h : i = 0
  · subst h; rfl
  · rw [sfx_idx h]
    obtain ⟨h1, h2⟩ := span_stop (p := dig) (c := ']') (s := []) (by decide) (dig_nat i)
    simp only [isIndex, h1, h2]
    simp [natStr_ne_nil]

theorem isOld_sfx {as : List Str} {a : Str} (h : a ∈ as) (i : Nat) : isOld as (a ++ sfx i) = true := by
  unfold isOld
  rw [List.any_eq_true]
  refine ⟨a, h, ?_⟩
  rw [List.drop_left, isIndex_sfx, Bool.and_true, List.isPrefixOf_iff_prefix]
  exact List.prefix_append a _

theorem isOld_mono {k : Str} (h : isOld attrsR k = true) : isOld attrsW k = true := by
  unfold isOld at h ⊢
  rw [List.any_eq_true] at h ⊢
  obtain ⟨a, ha, h⟩ := h
  exact ⟨a, by simp [attrsW, ha], h⟩

theorem no_bracket {a : Str} (h : a ∈ attrsW) : '[' ∉ a := by
  revert a
  decide

theorem key_inj {a b : Str} (ha : '[' ∉ a) (hb : '[' ∉ b) {i j : Nat} (h : a ++ sfx i = b ++ sfx j) : a = b ∧ i = j := by
  have h0 : ∀ {a b : Str} {i j : Nat}, '[' ∉ a → '[' ∉ b → a ++ sfx i = b ++ sfx j → i = 0 → a = b ∧ i = j := by
    intro a b i j ha hb h hi
    subst hi
    rw [show sfx 0 = [] from rfl, List.append_nil] at h
    by_cases hj : j = 0
    · subst hj; rw [show sfx 0 = [] from rfl, List.append_nil] at h; exact ⟨h, rfl⟩
    · rw [sfx_idx hj] at h; rw [h] at ha; exact absurd (by simp) ha
  by_cases hi : i = 0
  · exact h0 ha hb h hi
  · by_cases hj : j = 0
    · obtain ⟨e1, e2⟩ := h0 hb ha h.symm hj
      exact ⟨e1.symm, e2.symm⟩
    · rw [sfx_idx hi, sfx_idx hj] at h
      have s1 := splitOnce_append ha (natStr i ++ [']'])
      have s2 := splitOnce_append hb (natStr j ++ [']'])
      rw [h, s2] at s1
      have e1 := (Prod.mk.inj s1).1
      have e2 := Option.some.inj (Prod.mk.inj s1).2
      exact ⟨e1.symm, (natStr_inj (List.append_cancel_right e2)).symm⟩

/-- The text of an attribute -/
def field (a : Str) (m : Ment) : Str :=
  if a = nCid then m.eid else if a = nSpan then m.span else if a = nType then m.etype else if a = nBridging then m.bridging else if a = nAnte then m.split else if a = nMM then m.misc else []

theorem nodup_writeAt {d : Dict} (h : NodupKeys d) (x : Str) (m : Ment) : NodupKeys (writeAt d x m) := by
  unfold writeAt
  have h3 := nodup_set (nodup_set (nodup_set h (nCid ++ x) m.eid) (nSpan ++ x) m.span) (nType ++ x) m.etype
  dsimp only
  split <;> split <;> split <;> first | exact h3 | exact nodup_set h3 _ _ | exact nodup_set (nodup_set h3 _ _) _ _ | exact nodup_set (nodup_set (nodup_set h3 _ _) _ _) _ _

theorem get_setIf {d : Dict} (h : NodupKeys d) {k v : Str} (he : get d k = []) (k' : Str) : get (if v ≠ [] then set d k v else d) k' = if k = k' then v else get d k' := by
  by_cases hv : v = []
  · rw [if_neg (fun e => e hv)]
    by_cases hk : k = k'
    · rw [if_pos hk, hv, ← hk, he]
    · rw [if_neg hk]
  · rw [if_pos hv, get_set h]

theorem lookup_setIf {d : Dict} (h : NodupKeys d) {k v k' : Str} (hk : k ≠ k') : lookup (if v ≠ [] then set d k v else d) k' = lookup d k' := by
  split
  · rw [lookup_set h, if_neg hk]
  · rfl

theorem nodup_setIf {d : Dict} (h : NodupKeys d) (k v : Str) : NodupKeys (if v ≠ [] then set d k v else d) := by
  split
  · exact nodup_set h _ _
  · exact h

theorem get_writeAt {d : Dict} (h : NodupKeys d) (x : Str) (m : Ment) (he : ∀ a ∈ attrsR, get d (a ++ x) = []) : ∀ a ∈ attrsR, get (writeAt d x m) (a ++ x) = field a m := by
  have n1 := nodup_set h (nCid ++ x) m.eid
  have n2 := nodup_set n1 (nSpan ++ x) m.span
  have n3 := nodup_set n2 (nType ++ x) m.etype
  have g3 : ∀ k, get (set (set (set d (nCid ++ x) m.eid) (nSpan ++ x) m.span) (nType ++ x) m.etype) k =
      if nType ++ x = k then m.etype else if nSpan ++ x = k then m.span else if nCid ++ x = k then m.eid else get d k := by
    intro k; rw [get_set n2, get_set n1, get_set h]
  have c : ∀ a b : Str, (a ++ x = b ++ x) = (a = b) := fun a b => propext ⟨fun e => List.append_cancel_right e, fun e => by rw [e]⟩
  have n4 := nodup_setIf n3 (nBridging ++ x) m.bridging
  have g4 := fun k' => get_setIf n3 (k := nBridging ++ x) (v := m.bridging) (by
    rw [g3]; simp only [c]; rw [if_neg (by decide), if_neg (by decide), if_neg (by decide)]; exact he _ (by decide)) k'
  have n5 := nodup_setIf n4 (nAnte ++ x) m.split
  have g5 := fun k' => get_setIf n4 (k := nAnte ++ x) (v := m.split) (by
    rw [g4, g3]; simp only [c]; rw [if_neg (by decide), if_neg (by decide), if_neg (by decide), if_neg (by decide)]; exact he _ (by decide)) k'
  have g6 := fun k' => get_setIf n5 (k := nMM ++ x) (v := m.misc) (by
    rw [g5, g4, g3]; simp only [c]; rw [if_neg (by decide), if_neg (by decide), if_neg (by decide), if_neg (by decide), if_neg (by decide)]; exact he _ (by decide)) k'
  intro a ha
  unfold writeAt
  dsimp only
  rw [g6, g5, g4, g3]
  simp only [c]
  simp only [attrsR, List.mem_cons, List.not_mem_nil, or_false] at ha
  rcases ha with rfl | rfl | rfl | rfl | rfl | rfl <;> simp [field, nCid, nSpan, nType, nBridging, nAnte, nMM]

theorem lookup_writeAt {d : Dict} (h : NodupKeys d) (x : Str) (m : Ment) {k : Str} (hk : ∀ a ∈ attrsR, k ≠ a ++ x) : lookup (writeAt d x m) k = lookup d k := by
  have n1 := nodup_set h (nCid ++ x) m.eid
  have n2 := nodup_set n1 (nSpan ++ x) m.span
  have n3 := nodup_set n2 (nType ++ x) m.etype
  have n4 := nodup_setIf n3 (nBridging ++ x) m.bridging
  have n5 := nodup_setIf n4 (nAnte ++ x) m.split
  unfold writeAt
  dsimp only
  rw [lookup_setIf n5 (Ne.symm (hk nMM (by decide))), lookup_setIf n4 (Ne.symm (hk nAnte (by decide))), lookup_setIf n3 (Ne.symm (hk nBridging (by decide))),
    lookup_set n2, if_neg (Ne.symm (hk nType (by decide))), lookup_set n1, if_neg (Ne.symm (hk nSpan (by decide))), lookup_set h, if_neg (Ne.symm (hk nCid (by decide)))]

theorem move_spec : ∀ (as : List Str) {d : Dict}, NodupKeys d → as.Nodup → (∀ a ∈ as, '[' ∉ a) → (∀ a ∈ as, get d (a ++ sfx 1) = []) →
    NodupKeys (move as d) ∧ (∀ a ∈ as, get (move as d) a = [] ∧ get (move as d) (a ++ sfx 1) = get d a) ∧
      ∀ k, (∀ a ∈ as, k ≠ a ∧ (get d a ≠ [] → k ≠ a ++ sfx 1)) → lookup (move as d) k = lookup d k
  | [], d, h, _, _, _ => ⟨h, fun _ ha => absurd ha List.not_mem_nil, fun _ _ => rfl⟩
  | b :: as, d, h, hd, hb, he => by
    rw [move]
    have hd' := List.nodup_cons.1 hd
    have hbb := hb b List.mem_cons_self
    have hne : ∀ c ∈ as, c ≠ b ∧ c ++ sfx 1 ≠ b ++ sfx 1 ∧ c ≠ b ++ sfx 1 ∧ c ++ sfx 1 ≠ b := by
      intro c hc
      have hcb : c ≠ b := fun e => hd'.1 (e ▸ hc)
      have hcn := hb c (List.mem_cons_of_mem _ hc)
      refine ⟨hcb, fun e => hcb (List.append_cancel_right e), fun e => ?_, fun e => ?_⟩
      · have : c ++ sfx 0 = b ++ sfx 1 := by rw [show sfx 0 = [] from rfl, List.append_nil]; exact e
        exact absurd (key_inj hcn hbb this).2 (by decide)
      · have : c ++ sfx 1 = b ++ sfx 0 := by rw [show sfx 0 = [] from rfl, List.append_nil]; exact e
        exact absurd (key_inj hcn hbb this).2 (by decide)
    have hself : b ++ sfx 1 ≠ b := by
      intro e
      have : b ++ sfx 1 = b ++ sfx 0 := by rw [show sfx 0 = [] from rfl, List.append_nil]; exact e
      exact absurd (key_inj hbb hbb this).2 (by decide)
    by_cases hg : get d b = []
    · rw [if_neg (fun e => e hg)]
      obtain ⟨i1, i2, i3⟩ := move_spec as h hd'.2 (fun c hc => hb c (List.mem_cons_of_mem _ hc)) (fun c hc => he c (List.mem_cons_of_mem _ hc))
      refine ⟨i1, fun c hc => ?_, fun k hk => i3 k (fun c hc => hk c (List.mem_cons_of_mem _ hc))⟩
      rcases List.mem_cons.1 hc with rfl | hc
      · have e1 := get_congr (i3 c (fun x hx => ⟨(hne x hx).1.symm, fun _ => (hne x hx).2.2.2.symm⟩))
        have e2 := get_congr (i3 (c ++ sfx 1) (fun x hx => ⟨(hne x hx).2.2.1.symm, fun _ => (hne x hx).2.1.symm⟩))
        rw [e1, e2, he c List.mem_cons_self, hg]
        exact ⟨rfl, rfl⟩
      · exact i2 c hc
    · rw [if_pos hg]
      have n1 := nodup_set h (b ++ sfx 1) (get d b)
      have n2 := nodup_erase n1 b
      have hl : ∀ k, lookup (erase (set d (b ++ sfx 1) (get d b)) b) k = if b = k then none else if b ++ sfx 1 = k then some (.str (get d b)) else lookup d k := by
        intro k; rw [lookupE n1, lookup_set h, if_neg hg]
      have hgc : ∀ c ∈ as, get (erase (set d (b ++ sfx 1) (get d b)) b) c = get d c := by
        intro c hc; apply get_congr; rw [hl, if_neg (hne c hc).1.symm, if_neg (hne c hc).2.2.1.symm]
      obtain ⟨i1, i2, i3⟩ := move_spec as n2 hd'.2 (fun c hc => hb c (List.mem_cons_of_mem _ hc)) (fun c hc => by
        rw [← he c (List.mem_cons_of_mem _ hc)]
        apply get_congr
        rw [hl, if_neg (hne c hc).2.2.2.symm, if_neg (hne c hc).2.1.symm])
      refine ⟨i1, fun c hc => ?_, fun k hk => ?_⟩
      · rcases List.mem_cons.1 hc with rfl | hc
        · have e1 := get_congr (i3 c (fun x hx => ⟨(hne x hx).1.symm, fun _ => (hne x hx).2.2.2.symm⟩))
          have e2 := get_congr (i3 (c ++ sfx 1) (fun x hx => ⟨(hne x hx).2.2.1.symm, fun _ => (hne x hx).2.1.symm⟩))
          rw [e1, e2]
          refine ⟨?_, ?_⟩
          · apply get_none; rw [hl, if_pos rfl]
          · apply get_some; rw [hl, if_neg hself.symm, if_pos rfl]
        · rw [← hgc c hc]; exact i2 c hc
      · rw [i3 k (fun c hc => by rw [hgc c hc]; exact hk c (List.mem_cons_of_mem _ hc)), hl, if_neg (hk b List.mem_cons_self).1.symm, if_neg ((hk b List.mem_cons_self).2 hg).symm]

theorem move_absent : ∀ (as : List Str) {d : Dict}, NodupKeys d → as.Nodup → (∀ a ∈ as, '[' ∉ a) → (∀ a ∈ as, get d (a ++ sfx 1) = []) → ∀ k, lookup d k = none → (∀ a ∈ as, k ≠ a ++ sfx 1) →
    lookup (move as d) k = none
  | [], _, _, _, _, _, k, hk, _ => hk
  | b :: as, d, h, hd, hb, he, k, hk, hne => by
    rw [move]
    have hd' := List.nodup_cons.1 hd
    split
    · have n1 := nodup_set h (b ++ sfx 1) (get d b)
      refine move_absent as (nodup_erase n1 b) hd'.2 (fun c hc => hb c (List.mem_cons_of_mem _ hc)) (fun c hc => ?_) k ?_ (fun c hc => hne c (List.mem_cons_of_mem _ hc))
      · rw [← he c (List.mem_cons_of_mem _ hc)]
        apply get_congr
        rw [lookupE n1, lookup_set h]
        have hbb := hb b List.mem_cons_self
        have hcn := hb c (List.mem_cons_of_mem _ hc)
        rw [if_neg (fun e => by
          have : b ++ sfx 0 = c ++ sfx 1 := by rw [show sfx 0 = [] from rfl, List.append_nil]; exact e
          exact absurd (key_inj hbb hcn this).2 (by decide)), if_neg (fun e => hd'.1 (by rw [List.append_cancel_right e]; exact hc))]
      · rw [lookupE n1, lookup_set h, if_neg (hne b List.mem_cons_self).symm, hk]
        split <;> rfl
    · exact move_absent as h hd'.2 (fun c hc => hb c (List.mem_cons_of_mem _ hc)) (fun c hc => he c (List.mem_cons_of_mem _ hc)) k hk (fun c hc => hne c (List.mem_cons_of_mem _ hc))

/-- The name in a key -/
def name (k : Str) : Str := (splitOnce '[' k).1

theorem name_sfx {a : Str} (ha : '[' ∉ a) (i : Nat) : name (a ++ sfx i) = a := by
  unfold name
  by_cases hi : i = 0
  · subst hi; rw [show sfx 0 = [] from rfl, List.append_nil, splitOnce_of_not_mem ha]
  · rw [sfx_idx hi, splitOnce_append ha]

theorem isOld_name {as : List Str} (hb : ∀ a ∈ as, '[' ∉ a) {k : Str} (h : isOld as k = true) : name k ∈ as := by
  unfold isOld at h
  rw [List.any_eq_true] at h
  obtain ⟨a, ha, h⟩ := h
  rw [Bool.and_eq_true, List.isPrefixOf_iff_prefix] at h
  obtain ⟨⟨t, rfl⟩, h2⟩ := h
  rw [List.drop_left] at h2
  unfold name
  cases t with
  | nil => rw [List.append_nil, splitOnce_of_not_mem (hb a ha)]; exact ha
  | cons c t =>
    by_cases hc : c = '['
    · subst hc; rw [splitOnce_append (hb a ha)]; exact ha
    · simp only [isIndex] at h2
      split at h2
      · rename_i h; cases h
      · rename_i h; exact absurd (List.cons.inj h).1 hc
      · cases h2

theorem R_sub_W {a : Str} (h : a ∈ attrsR) : a ∈ attrsW := by simp [attrsW, h]

/-- The mention whose attributes have the index `i`, if there are `n` mentions -/
def slot (n i : Nat) : Option Nat := if n ≤ 1 then (if i = 0 then some 0 else none) else (if i = 0 then none else some (i - 1))

def val (a : Str) (i : Nat) (ms : List Ment) : Str := (((slot ms.length i).bind (fun j => ms[j]?)).map (field a)).getD []

/-- MISC with the attributes of `ms` -/
structure Inv (d0 d : Dict) (ms : List Ment) : Prop where
  nodup : NodupKeys d
  other : ∀ k, isOld attrsW k = false → lookup d k = lookup d0 k
  gone : ∀ k, isOld attrsW k = true → isOld attrsR k = false → lookup d k = none
  vals : ∀ a ∈ attrsR, ∀ i, get d (a ++ sfx i) = val a i ms

theorem inv_clear {d : Dict} (h : NodupKeys d) : Inv d (clear attrsW d) [] where
  nodup := nodup_clear _ h
  other := fun k hk => by rw [lookup_clear _ h, hk]; rfl
  gone := fun k hk _ => by rw [lookup_clear _ h, if_pos hk]
  vals := fun a ha i => by
    rw [get_none (by rw [lookup_clear _ h, if_pos (isOld_sfx (R_sub_W ha) i)])]
    unfold val
    cases slot ([] : List Ment).length i <;> rfl

theorem field_cid (m : Ment) : field nCid m = m.eid := rfl

/-- The index of the first mention -/
def start (n : Nat) : Nat := if n = 1 then 0 else 1

theorem val_start (a : Str) (ms : List Ment) (j : Nat) : val a (start ms.length + j) ms = ((ms[j]?).map (field a)).getD [] := by
  unfold val start slot
  by_cases h : ms.length = 1
  · rw [if_pos h, h, if_pos (Nat.le_refl 1), Nat.zero_add]
    by_cases hj : j = 0
    · subst hj; rfl
    · rw [if_neg hj]
      have : ms[j]? = none := List.getElem?_eq_none (by omega)
      rw [this]; rfl
  · rw [if_neg h]
    by_cases h0 : ms.length ≤ 1
    · rw [if_pos h0, if_neg (by omega)]
      have : ms[j]? = none := List.getElem?_eq_none (by omega)
      rw [this]; rfl
    · rw [if_neg h0, if_neg (by omega), Nat.add_sub_cancel_left]
      rfl

theorem inv_len {d0 d : Dict} {ms : List Ment} (h : Inv d0 d ms) (he : ∀ m ∈ ms, m.eid ≠ []) : ms.length ≤ d.length := by
  have := length_le_of_subset (l := (List.range ms.length).map (fun j => nCid ++ sfx (start ms.length + j))) (m := d.map (·.1)) (by
    rw [List.nodup_iff_pairwise_ne, List.pairwise_map]
    refine List.Pairwise.imp ?_ (List.nodup_range (n := ms.length))
    intro a b hab e
    have := (key_inj (no_bracket (by decide)) (no_bracket (by decide)) e).2
    omega) (by
    intro k hk
    obtain ⟨j, hj, rfl⟩ := List.mem_map.1 hk
    rw [List.mem_range] at hj
    rw [mem_keys_iff]
    cases hl : lookup d (nCid ++ sfx (start ms.length + j)) with
    | some v => rfl
    | none =>
      have h1 := get_none hl
      rw [h.vals nCid (by decide), val_start, List.getElem?_eq_getElem hj] at h1
      exact absurd h1 (he _ (List.getElem_mem hj)))
  simpa using this

theorem firstFree_spec {d : Dict} {n : Nat} (h1 : ∀ j, 1 ≤ j → j ≤ n → get d (nCid ++ sfx j) ≠ []) (h2 : get d (nCid ++ sfx (n + 1)) = []) :
    ∀ (fuel i : Nat), 1 ≤ i → i ≤ n + 1 → n + 1 < i + fuel → firstFree d fuel i = some (n + 1) := by
  intro fuel
  induction fuel with
  | zero => intro i _ _ _; omega
  | succ fuel ih =>
    intro i hi hn hf
    unfold firstFree
    by_cases he : i = n + 1
    · subst he; rw [if_neg (fun e => e h2)]
    · rw [if_pos (h1 i hi (by omega))]
      exact ih (i + 1) (by omega) (by omega) (by omega)

/-- Writing at a free index -/
theorem inv_write {d0 d : Dict} (hn : NodupKeys d) (ho : ∀ k, isOld attrsW k = false → lookup d k = lookup d0 k)
    (hg : ∀ k, isOld attrsW k = true → isOld attrsR k = false → lookup d k = none) {t : Nat} (m : Ment) (he : ∀ a ∈ attrsR, get d (a ++ sfx t) = []) {ms : List Ment}
    (hv : ∀ a ∈ attrsR, ∀ i, (if i = t then field a m else get d (a ++ sfx i)) = val a i ms) : Inv d0 (writeAt d (sfx t) m) ms where
  nodup := nodup_writeAt hn _ _
  other := fun k hk => by
    rw [lookup_writeAt hn _ _ (fun a ha e => by rw [e, isOld_sfx (R_sub_W ha)] at hk; cases hk)]
    exact ho k hk
  gone := fun k hk hk' => by
    rw [lookup_writeAt hn _ _ (fun a ha e => by rw [e, isOld_sfx ha] at hk'; cases hk')]
    exact hg k hk hk'
  vals := fun a ha i => by
    rw [← hv a ha i]
    by_cases hi : i = t
    · subst hi; rw [if_pos rfl]; exact get_writeAt hn _ _ he a ha
    · rw [if_neg hi]
      apply get_congr
      apply lookup_writeAt hn
      intro b hb e
      exact hi (key_inj (no_bracket (R_sub_W ha)) (no_bracket (R_sub_W hb)) e).2

theorem put_inv {d0 d : Dict} {ms : List Ment} (h : Inv d0 d ms) (he : ∀ m ∈ ms, m.eid ≠ []) (m : Ment) : ∃ d', put d m = some d' ∧ Inv d0 d' (ms ++ [m]) := by
  have hc0 : get d nCid = val nCid 0 ms := by
    have := h.vals nCid (by decide) 0
    rwa [show sfx 0 = [] from rfl, List.append_nil] at this
  unfold put
  match ms, h, he, hc0 with
  | [], h, he, hc0 =>
    have hc : get d nCid = [] := hc0
    have h1 : get d (nCid ++ sfx 1) = [] := h.vals nCid (by decide) 1
    rw [if_neg (fun e => e hc)]
    have : firstFree d (d.length + 1) 1 = some 1 := by rw [firstFree, if_neg (fun e => e h1)]
    rw [this]
    dsimp only
    rw [if_pos rfl]
    refine ⟨_, rfl, ?_⟩
    have := inv_write (t := 0) (ms := [m]) h.nodup h.other h.gone m (fun a ha => h.vals a ha 0) (fun a ha i => by
      by_cases hi : i = 0
      · subst hi; rw [if_pos rfl]; rfl
      · rw [if_neg hi, h.vals a ha i]; unfold val slot; simp [hi])
    exact this
  | [m0], h, he, hc0 =>
    have hc : get d nCid ≠ [] := by
      rw [hc0]; exact he m0 List.mem_cons_self
    rw [if_pos hc]
    refine ⟨_, rfl, ?_⟩
    have hnR : ∀ a ∈ attrsW, a ∉ attrsR → ∀ i, lookup d (a ++ sfx i) = none := by
      intro a ha hr i
      apply h.gone _ (isOld_sfx ha i)
      cases ho : isOld attrsR (a ++ sfx i) with
      | false => rfl
      | true =>
        have := isOld_name (fun a ha => no_bracket (R_sub_W ha)) ho
        rw [name_sfx (no_bracket ha)] at this
        exact absurd this hr
    have he1 : ∀ a ∈ attrsW, get d (a ++ sfx 1) = [] := by
      intro a ha
      by_cases hr : a ∈ attrsR
      · rw [h.vals a hr]; rfl
      · exact get_none (hnR a ha hr 1)
    obtain ⟨m1, m2, m3⟩ := move_spec attrsW h.nodup (by decide) (fun a ha => no_bracket ha) he1
    have hz : ∀ a : Str, a ++ sfx 0 = a := fun a => by rw [show sfx 0 = [] from rfl, List.append_nil]
    refine inv_write (t := 2) m1 (fun k hk => ?_) (fun k hk hk' => ?_) m (fun a ha => ?_) (fun a ha i => ?_)
    · rw [m3 k (fun a ha => ⟨fun e => ?_, fun _ e => ?_⟩)]
      · exact h.other k hk
      · rw [e, ← hz a, isOld_sfx ha] at hk; cases hk
      · rw [e, isOld_sfx ha] at hk; cases hk
    · by_cases hm : ∃ a ∈ attrsW, k = a
      · obtain ⟨a, ha, rfl⟩ := hm
        have hr : k ∉ attrsR := fun hr => by
          have := isOld_sfx hr 0
          rw [hz, hk'] at this; cases this
        have h0 := hnR k ha hr 0
        rw [hz] at h0
        cases hl : lookup (move attrsW d) k with
        | none => rfl
        | some v =>
          exact absurd hl (by
            rw [move_absent attrsW h.nodup (by decide) (fun a ha => no_bracket ha) he1 k h0 (fun a ha e => by
              have : k ++ sfx 0 = a ++ sfx 1 := by rw [hz]; exact e
              exact absurd (key_inj (no_bracket ‹k ∈ attrsW›) (no_bracket ha) this).2 (by decide))]
            exact fun e => by cases e)
      · rw [m3 k (fun a ha => ⟨fun e => hm ⟨a, ha, e⟩, fun hg e => ?_⟩)]
        · exact h.gone k hk hk'
        · by_cases hr : a ∈ attrsR
          · rw [e, isOld_sfx hr] at hk'; cases hk'
          · have := hnR a ha hr 0
            rw [hz] at this
            exact hg (get_none this)
    · rw [get_congr (m3 (a ++ sfx 2) (fun b hb => ⟨fun e => ?_, fun _ e => ?_⟩)), h.vals a ha]
      · rfl
      · have : a ++ sfx 2 = b ++ sfx 0 := by rw [hz]; exact e
        exact absurd (key_inj (no_bracket (R_sub_W ha)) (no_bracket hb) this).2 (by decide)
      · exact absurd (key_inj (no_bracket (R_sub_W ha)) (no_bracket hb) e).2 (by decide)
    · by_cases h2 : i = 2
      · subst h2; rw [if_pos rfl]; rfl
      · rw [if_neg h2]
        by_cases h0 : i = 0
        · subst h0; rw [hz, (m2 a (R_sub_W ha)).1]; rfl
        · by_cases h1 : i = 1
          · subst h1
            have := h.vals a ha 0
            rw [hz] at this
            rw [(m2 a (R_sub_W ha)).2, this]; rfl
          · rw [get_congr (m3 (a ++ sfx i) (fun b hb => ⟨fun e => ?_, fun _ e => ?_⟩)), h.vals a ha]
            · unfold val slot
              have : ([m0, m] : List Ment)[i - 1]? = none := List.getElem?_eq_none (by simp; omega)
              simp [h0]
              rw [this]; rfl
            · have : a ++ sfx i = b ++ sfx 0 := by rw [hz]; exact e
              exact h0 (key_inj (no_bracket (R_sub_W ha)) (no_bracket hb) this).2
            · exact h1 (key_inj (no_bracket (R_sub_W ha)) (no_bracket hb) e).2
  | m0 :: m1 :: ms, h, he, hc0 =>
    have hc : get d nCid = [] := hc0
    rw [if_neg (fun e => e hc)]
    have hlen := inv_len h he
    have hs : start (m0 :: m1 :: ms).length = 1 := by unfold start; rw [if_neg (by simp)]
    have hv : ∀ a ∈ attrsR, ∀ j, get d (a ++ sfx (1 + j)) = (((m0 :: m1 :: ms)[j]?).map (field a)).getD [] := by
      intro a ha j
      rw [h.vals a ha, ← hs, val_start]
    have hff : firstFree d (d.length + 1) 1 = some ((m0 :: m1 :: ms).length + 1) := by
      refine firstFree_spec (fun j h1 h2 => ?_) ?_ _ 1 (Nat.le_refl 1) (by omega) (by omega)
      · have hj : j - 1 < (m0 :: m1 :: ms).length := by omega
        have := hv nCid (by decide) (j - 1)
        rw [show 1 + (j - 1) = j by omega, List.getElem?_eq_getElem hj] at this
        rw [this]
        exact he _ (List.getElem_mem hj)
      · rw [Nat.add_comm, hv nCid (by decide), List.getElem?_eq_none (Nat.le_refl _)]; rfl
    rw [hff]
    dsimp only
    rw [if_neg (by simp)]
    refine ⟨_, rfl, inv_write h.nodup h.other h.gone m (fun a ha => ?_) (fun a ha i => ?_)⟩
    · rw [Nat.add_comm, hv a ha, List.getElem?_eq_none (Nat.le_refl _)]; rfl
    · by_cases hi : i = (m0 :: m1 :: ms).length + 1
      · rw [if_pos hi, hi]
        unfold val slot
        rw [if_neg (by simp), if_neg (by simp), Nat.add_sub_cancel]
        simp
      · rw [if_neg hi]
        by_cases h0 : i = 0
        · subst h0; rw [h.vals a ha]; unfold val slot; simp
        · have := hv a ha (i - 1)
          rw [show 1 + (i - 1) = i by omega] at this
          rw [this]
          unfold val slot
          rw [if_neg (by simp), if_neg h0]
          have e : ((m0 :: m1 :: ms) ++ [m])[i - 1]? = (m0 :: m1 :: ms)[i - 1]? := by
            by_cases hl : i - 1 < (m0 :: m1 :: ms).length
            · exact List.getElem?_append_left hl
            · rw [List.getElem?_eq_none (by simp at hl hi ⊢; omega), List.getElem?_eq_none (by omega)]
          dsimp only [Option.bind_some]
          rw [e]

/-- The mentions with the head `x` -/
def here (x : Nat) (ms : List (Nat × Ment)) : List Ment := (ms.filter (fun p => p.1 = x)).map (·.2)

theorem putAll_inv {g : Nat → Dict} : ∀ (ms done : List (Nat × Ment)) {f : Nat → Dict}, (∀ x, Inv (g x) (f x) (here x done)) → (∀ p ∈ done, p.2.eid ≠ []) → (∀ p ∈ ms, p.2.eid ≠ []) →
    ∃ f', putAll f ms = some f' ∧ ∀ x, Inv (g x) (f' x) (here x (done ++ ms))
  | [], done, f, h, _, _ => ⟨f, rfl, by rw [List.append_nil]; exact h⟩
  | p :: ms, done, f, h, hd, hm => by
    have hh : ∀ m ∈ here p.1 done, m.eid ≠ [] := by
      intro m hm
      obtain ⟨q, hq, rfl⟩ := List.mem_map.1 hm
      exact hd q (List.mem_filter.1 hq).1
    obtain ⟨d', h1, h2⟩ := put_inv (h p.1) hh p.2
    rw [putAll, h1]
    dsimp only
    obtain ⟨f', g1, g2⟩ := putAll_inv ms (done ++ [p]) (f := fun y => if y = p.1 then d' else f y) (fun x => by
      have hf : here x (done ++ [p]) = here x done ++ (if p.1 = x then [p.2] else []) := by
        unfold here
        rw [List.filter_append, List.map_append, List.filter_cons]
        by_cases e : p.1 = x <;> simp [e]
      rw [hf]
      by_cases e : x = p.1
      · subst e; rw [if_pos rfl, if_pos rfl]; exact h2
      · rw [if_neg e, if_neg (Ne.symm e), List.append_nil]; exact h x) (fun q hq => by
      rcases List.mem_append.1 hq with hq | hq
      · exact hd q hq
      · rw [List.mem_singleton.1 hq]; exact hm p List.mem_cons_self) (fun q hq => hm q (List.mem_cons_of_mem _ hq))
    refine ⟨f', g1, ?_⟩
    rw [List.append_assoc] at g2
    exact g2

theorem fixId_plain (r : Str) (st : St) {e : Str} (h : '-' ∉ e) : fixId r st e = some (st, e) := by
  unfold fixId; rw [if_pos (.inr h)]

theorem field_all (m : Ment) : (⟨field nCid m, field nSpan m, field nType m, field nBridging m, field nAnte m, field nMM m⟩ : Ment) = m := by
  simp [field, nCid, nSpan, nType, nBridging, nAnte, nMM]

theorem readLoop_inv {d0 d : Dict} {ms : List Ment} (h : Inv d0 d ms) (he : ∀ m ∈ ms, m.eid ≠ [] ∧ '-' ∉ m.eid) (r : Str) (st : St) :
    ∀ (fuel j : Nat), j ≤ ms.length → ms.length < j + fuel → readLoop r d fuel (start ms.length + j) st = some (st, ms.drop j) := by
  intro fuel
  induction fuel with
  | zero => intro j _ _; omega
  | succ fuel ih =>
    intro j hj hf
    have hv : ∀ a ∈ attrsR, get d (a ++ sfx (start ms.length + j)) = ((ms[j]?).map (field a)).getD [] := fun a ha => by rw [h.vals a ha, val_start]
    rw [readLoop]
    simp only [hv nCid (by decide), hv nSpan (by decide), hv nType (by decide), hv nBridging (by decide), hv nAnte (by decide), hv nMM (by decide)]
    by_cases hl : j = ms.length
    · subst hl
      rw [List.getElem?_eq_none (Nat.le_refl _), List.drop_length]
      rfl
    · have hl' : j < ms.length := by omega
      have hm := he _ (List.getElem_mem hl')
      rw [List.getElem?_eq_getElem hl']
      dsimp only [Option.map_some, Option.getD_some]
      rw [fixId_plain r st (by rw [field_cid]; exact hm.2)]
      dsimp only
      rw [if_neg (by rw [field_cid]; exact hm.1), Nat.add_assoc, ih (j + 1) (by omega) (by omega)]
      dsimp only
      rw [field_all, List.drop_eq_getElem_cons hl']

/-! ## Property C170 -/

/-- **C170 (round trip)** After `write.OldCorefUD` each node has the attributes from which `read.OldCorefUD` gets the texts of all mentions with this head, in the same order, however many
there are; the other attributes in MISC stay as they were. -/
theorem C170_roundtrip {f : Nat → Dict} (hn : ∀ x, NodupKeys (f x)) {ms : List (Nat × Ment)} (he : ∀ p ∈ ms, p.2.eid ≠ [] ∧ '-' ∉ p.2.eid) :
    ∃ g, writeDoc true f ms = some g ∧ ∀ x, (∀ r st, readNode r st (g x) = some (st, (ms.filter (fun p => p.1 = x)).map (·.2))) ∧
      ∀ k, lookup (clear attrsR (g x)) k = if isOld attrsW k then none else lookup (f x) k := by
  obtain ⟨g, h1, h2⟩ := putAll_inv (g := f) ms [] (f := fun x => clear attrsW (f x)) (fun x => inv_clear (hn x)) (fun p hp => absurd hp List.not_mem_nil) (fun p hp => (he p hp).1)
  refine ⟨g, by unfold writeDoc; rw [if_pos rfl, h1], fun x => ⟨fun r st => ?_, fun k => ?_⟩⟩
  · have hi := h2 x
    rw [List.nil_append] at hi
    have heh : ∀ m ∈ here x ms, m.eid ≠ [] ∧ '-' ∉ m.eid := by
      intro m hm
      obtain ⟨q, hq, rfl⟩ := List.mem_map.1 hm
      exact he q (List.mem_filter.1 hq).1
    have hl := inv_len hi (fun m hm => (heh m hm).1)
    have hs : (if get (g x) nCid = [] then 1 else 0) = start (here x ms).length := by
      have hc := hi.vals nCid (by decide) 0
      rw [show sfx 0 = [] from rfl, List.append_nil] at hc
      rw [hc]
      unfold start val slot
      cases hh : here x ms with
      | nil => rfl
      | cons m t =>
        cases t with
        | nil =>
          rw [hh] at heh
          exact if_neg (show ¬ m.eid = [] from (heh m List.mem_cons_self).1)
        | cons m' t => simp
    unfold readNode
    rw [hs]
    have := readLoop_inv hi heh r st ((g x).length + 2) 0 (Nat.zero_le _) (by omega)
    rw [Nat.add_zero, List.drop_zero] at this
    exact this
  · have hi := h2 x
    rw [lookup_clear _ hi.nodup]
    by_cases hR : isOld attrsR k = true
    · rw [if_pos hR, if_pos (isOld_mono hR)]
    · rw [if_neg hR]
      by_cases hW : isOld attrsW k = true
      · rw [if_pos hW]
        exact hi.gone k hW (by simpa using hR)
      · rw [if_neg hW]
        exact hi.other k (by simpa using hW)

/-- **C170 (which attributes are deleted)** Those with one of the names, alone or with a number in brackets -/
theorem C170_old (as : List Str) (k : Str) : isOld as k = true ↔ ∃ a ∈ as, k = a ∨ ∃ ds, ds ≠ [] ∧ (∀ c ∈ ds, 48 ≤ c.toNat ∧ c.toNat ≤ 57) ∧ k = a ++ '[' :: (ds ++ [']']) := by
  have hdig : ∀ c, dig c = true ↔ 48 ≤ c.toNat ∧ c.toNat ≤ 57 := by intro c; simp [dig]
  unfold isOld
  rw [List.any_eq_true]
  constructor
  · rintro ⟨a, ha, h⟩
    rw [Bool.and_eq_true, List.isPrefixOf_iff_prefix] at h
    obtain ⟨⟨t, rfl⟩, h2⟩ := h
    rw [List.drop_left] at h2
    refine ⟨a, ha, ?_⟩
    cases t with
    | nil => exact .inl (List.append_nil a)
    | cons c t =>
      by_cases hc : c = '['
      · subst hc
        simp only [isIndex, Bool.and_eq_true, decide_eq_true_eq] at h2
        refine .inr ⟨t.takeWhile dig, h2.1, fun c hc => (hdig c).1 (tw_all _ c hc), ?_⟩
        rw [← h2.2, List.takeWhile_append_dropWhile]
      · simp only [isIndex] at h2
        split at h2
        · rename_i h; cases h
        · rename_i h; exact absurd (List.cons.inj h).1 hc
        · cases h2
  · rintro ⟨a, ha, rfl | ⟨ds, h0, h1, rfl⟩⟩
    · refine ⟨k, ha, ?_⟩
      rw [List.drop_length, Bool.and_eq_true, List.isPrefixOf_iff_prefix]
      exact ⟨List.prefix_refl k, rfl⟩
    · refine ⟨a, ha, ?_⟩
      rw [List.drop_left, Bool.and_eq_true, List.isPrefixOf_iff_prefix]
      refine ⟨List.prefix_append _ _, ?_⟩
      obtain ⟨e1, e2⟩ := span_stop (p := dig) (c := ']') (s := []) (by decide) (fun c hc => (hdig c).2 (h1 c hc))
      simp only [isIndex, e1, e2]
      simp [h0]

/-- **C170 (documents without coreference, violated)** If there is no `global.Entity`, the writer fails, though it only warns of such documents. -/
theorem C170_meta_violated (f : Nat → Dict) (ms : List (Nat × Ment)) : writeDoc false f ms = none := rfl

/-! ### Ids -/

def cand (base : Str) (n : Nat) : Str := if n ≤ 1 then base else base ++ natStr n

theorem cand_inj {base : Str} {i j : Nat} (hi : 1 ≤ i) (hj : 1 ≤ j) (h : cand base i = cand base j) : i = j := by
  unfold cand at h
  by_cases h1 : i ≤ 1
  · rw [if_pos h1] at h
    by_cases h2 : j ≤ 1
    · omega
    · rw [if_neg h2] at h
      have := congrArg List.length h
      rw [List.length_append] at this
      exact absurd (List.eq_nil_of_length_eq_zero (by omega)) (natStr_ne_nil j)
  · rw [if_neg h1] at h
    by_cases h2 : j ≤ 1
    · rw [if_pos h2] at h
      have := congrArg List.length h
      rw [List.length_append] at this
      exact absurd (List.eq_nil_of_length_eq_zero (by omega)) (natStr_ne_nil i)
    · rw [if_neg h2] at h
      exact natStr_inj (List.append_cancel_left h)

theorem freeId_spec (st : St) (base : Str) : ∀ (fuel k : Nat), 1 ≤ k → (∀ j, 1 ≤ j → j < k → cand base j ∈ st.map (·.2)) → st.length + 1 < k + fuel →
    ∃ n, k ≤ n ∧ freeId st base fuel k (cand base k) = some (cand base n) ∧ cand base n ∉ st.map (·.2) := by
  intro fuel
  induction fuel with
  | zero =>
    intro k hk h hf
    have h1 : ((List.range' 1 (k - 1)).map (cand base)).length ≤ (st.map (·.2)).length := by
      apply length_le_of_subset
      · rw [List.nodup_iff_pairwise_ne, List.pairwise_map]
        refine List.Pairwise.imp_of_mem ?_ (List.nodup_range' (s := 1) (n := k - 1))
        intro a b ha hb hab e
        rw [List.mem_range'_1] at ha hb
        exact hab (cand_inj ha.1 hb.1 e)
      · intro x hx
        obtain ⟨j, hj, rfl⟩ := List.mem_map.1 hx
        rw [List.mem_range'_1] at hj
        exact h j hj.1 (by omega)
    simp at h1
    omega
  | succ fuel ih =>
    intro k hk h hf
    rw [freeId]
    by_cases hm : cand base k ∈ st.map (·.2)
    · rw [if_pos hm]
      have hc : base ++ natStr (k + 1) = cand base (k + 1) := by unfold cand; rw [if_neg (by omega)]
      rw [hc]
      obtain ⟨n, h1, h2⟩ := ih (k + 1) (by omega) (fun j h1 h2 => by
        by_cases e : j = k
        · rw [e]; exact hm
        · exact h j h1 (by omega)) (by omega)
      exact ⟨n, by omega, h2⟩
    · rw [if_neg hm]
      exact ⟨k, Nat.le_refl _, rfl, hm⟩

/-- Different ids have different new ids. -/
def Inj (st : List (Str × Str)) : Prop := ∀ p ∈ st, ∀ q ∈ st, p.1 = q.1 ↔ p.2 = q.2

theorem dehyphen_free {r : Str} (hr : '-' ∉ r) : ∀ s, '-' ∉ dehyphen r s
  | [] => by simp [dehyphen]
  | c :: s => by
    rw [dehyphen]
    split
    · rw [List.mem_append]; exact fun e => e.elim hr (dehyphen_free hr s)
    · rename_i hc
      rw [List.mem_cons]; exact fun e => e.elim (fun e => hc e.symm) (dehyphen_free hr s)

theorem fixId_spec (r : Str) {st : St} (hi : Inj st) {c : Str} (hc : '-' ∈ c) :
    ∃ st' e, fixId r st c = some (st', e) ∧ Inj st' ∧ (c, e) ∈ st' ∧ (∀ p ∈ st, p ∈ st') ∧ ('-' ∉ r → (∀ p ∈ st, '-' ∉ p.2) → ∀ p ∈ st', '-' ∉ p.2) := by
  unfold fixId
  rw [if_neg (fun e => e.elim (fun e => by rw [e] at hc; cases hc) (fun e => e hc))]
  cases hf : st.find? (fun p => p.1 = c) with
  | some p =>
    have h1 := List.find?_some hf
    have h2 := List.mem_of_find?_eq_some hf
    simp only [decide_eq_true_eq] at h1
    exact ⟨st, p.2, rfl, hi, by rw [← h1]; exact h2, fun _ h => h, fun _ h => h⟩
  | none =>
    have hno : ∀ p ∈ st, p.1 ≠ c := by
      intro p hp e
      have := List.find?_eq_none.1 hf p hp
      simp [e] at this
    dsimp only
    obtain ⟨n, _, h2, h3⟩ := freeId_spec st (dehyphen r c) (st.length + 1) 1 (Nat.le_refl 1) (fun j h1 h2 => by omega) (by omega)
    rw [show cand (dehyphen r c) 1 = dehyphen r c by unfold cand; rw [if_pos (Nat.le_refl 1)]] at h2
    rw [h2]
    dsimp only
    refine ⟨_, _, rfl, ?_, List.mem_append_right _ List.mem_cons_self, fun p hp => List.mem_append_left _ hp, ?_⟩
    · have hnew : ∀ p ∈ st, p.2 ≠ cand (dehyphen r c) n := fun p hp e => h3 (List.mem_map.2 ⟨p, hp, e⟩)
      intro p hp q hq
      rcases List.mem_append.1 hp with hp | hp <;> rcases List.mem_append.1 hq with hq | hq
      · exact hi p hp q hq
      · rw [List.mem_singleton.1 hq]
        exact ⟨fun e => absurd e (hno p hp), fun e => absurd e (hnew p hp)⟩
      · rw [List.mem_singleton.1 hp]
        exact ⟨fun e => absurd e.symm (hno q hq), fun e => absurd e.symm (hnew q hq)⟩
      · rw [List.mem_singleton.1 hp, List.mem_singleton.1 hq]
        exact ⟨fun _ => rfl, fun _ => rfl⟩
    · intro hr hs p hp
      rcases List.mem_append.1 hp with hp | hp
      · exact hs p hp
      · rw [List.mem_singleton.1 hp]
        show '-' ∉ cand (dehyphen r c) n
        unfold cand
        split
        · exact dehyphen_free hr c
        · rw [List.mem_append]
          exact fun e => e.elim (dehyphen_free hr c) (not_mem_natStr (by decide) n)

theorem fixAll_spec (r : Str) : ∀ (ids : List Str) {st : St}, Inj st → (∀ c ∈ ids, '-' ∈ c) →
    ∃ st' out, fixAll r st ids = some (st', out) ∧ out.length = ids.length ∧ Inj st' ∧ (∀ p ∈ ids.zip out, p ∈ st') ∧ (∀ p ∈ st, p ∈ st') ∧
      ('-' ∉ r → (∀ p ∈ st, '-' ∉ p.2) → ∀ p ∈ st', '-' ∉ p.2)
  | [], st, hi, _ => ⟨st, [], rfl, rfl, hi, fun _ h => absurd h List.not_mem_nil, fun _ h => h, fun _ h => h⟩
  | c :: ids, st, hi, hc => by
    obtain ⟨s1, e, a1, a2, a3, a4, a5⟩ := fixId_spec r hi (hc c List.mem_cons_self)
    obtain ⟨s2, out, b1, b2, b3, b4, b5, b6⟩ := fixAll_spec r ids a2 (fun x hx => hc x (List.mem_cons_of_mem _ hx))
    refine ⟨s2, e :: out, ?_, by simp [b2], b3, fun p hp => ?_, fun p hp => b5 p (a4 p hp), fun hr hs => b6 hr (a5 hr hs)⟩
    · rw [fixAll, a1]; dsimp only; rw [b1]
    · rw [List.zip_cons_cons] at hp
      rcases List.mem_cons.1 hp with rfl | hp
      · exact b5 _ a3
      · exact b4 p hp

/-- **C170 (ids with hyphens)** Ids with hyphens are replaced so that the same ids have the same new ones, different ids different ones, and the new ids have no hyphens. -/
theorem C170_ids (r : Str) {ids : List Str} (h : ∀ c ∈ ids, '-' ∈ c) : ∃ st out, fixAll r [] ids = some (st, out) ∧ out.length = ids.length ∧
    (∀ p ∈ ids.zip out, ∀ q ∈ ids.zip out, p.1 = q.1 ↔ p.2 = q.2) ∧ ('-' ∉ r → ∀ e ∈ out, '-' ∉ e) := by
  obtain ⟨st, out, h1, h2, h3, h4, _, h6⟩ := fixAll_spec r ids (st := []) (fun p hp => absurd hp List.not_mem_nil) h
  refine ⟨st, out, h1, h2, fun p hp q hq => h3 p (h4 p hp) q (h4 q hq), fun hr e he => ?_⟩
  obtain ⟨i, hi, rfl⟩ := List.getElem_of_mem he
  have hz : (ids[i]'(by omega), out[i]) ∈ ids.zip out := by
    rw [List.mem_iff_getElem]
    refine ⟨i, by rw [List.length_zip]; omega, ?_⟩
    rw [List.getElem_zip]
  exact h6 hr (fun p hp => absurd hp List.not_mem_nil) _ (h4 _ hz)

/-- **C170 (ids with hyphens, violated)** An id with hyphens gets the new id that another id without hyphens already has; then two entities become one. -/
theorem C170_ids_violated {r c : Str} (hr : '-' ∉ r) (hc : '-' ∈ c) : ∃ st, fixAll r [] [c, dehyphen r c] = some (st, [dehyphen r c, dehyphen r c]) ∧ c ≠ dehyphen r c := by
  refine ⟨[(c, dehyphen r c)], ?_, fun e => dehyphen_free hr c (e ▸ hc)⟩
  have h1 : fixId r [] c = some ([(c, dehyphen r c)], dehyphen r c) := by
    unfold fixId
    rw [if_neg (fun e => e.elim (fun e => by rw [e] at hc; cases hc) (fun e => e hc))]
    rfl
  rw [fixAll, h1]
  dsimp only
  rw [fixAll, fixId_plain _ _ (dehyphen_free hr c)]
  rfl

/-- **C170 (ids with nothing but hyphens, violated)** By default hyphens are deleted, so that the id `-` becomes empty and all mentions of the node are skipped. -/
theorem C170_hyphens_violated {d : Dict} (h0 : get d nCid ≠ []) (h : ∀ c ∈ get d nCid, c = '-') : ∃ st, readNode [] [] d = some (st, []) := by
  have hz : nCid ++ sfx 0 = nCid := List.append_nil _
  have hd : ∀ {s : Str}, (∀ c ∈ s, c = '-') → dehyphen [] s = [] := by
    intro s
    induction s with
    | nil => intro _; rfl
    | cons c s ih =>
      intro h
      rw [dehyphen, if_pos (h c List.mem_cons_self), ih (fun x hx => h x (List.mem_cons_of_mem _ hx))]
      rfl
  have hm : '-' ∈ get d nCid := by
    obtain ⟨c, hc⟩ := List.exists_mem_of_ne_nil _ h0
    rw [← h c hc]; exact hc
  refine ⟨[(get d nCid, [])], ?_⟩
  unfold readNode
  rw [if_neg h0, readLoop, hz]
  have h1 : fixId [] [] (get d nCid) = some ([(get d nCid, [])], []) := by
    unfold fixId
    rw [if_neg (fun e => e.elim h0 (fun e => e hm)), hd h]
    rfl
  rw [h1]
  rfl

/-! ### Texts -/

/-- **C170 (links)** The text of bridging links can be read if ids and relations have no commas and no colons. -/
theorem C170_bridging (r : Str) (st : St) {ls : List (Str × Str)} (h0 : ls ≠ []) (h : ∀ l ∈ ls, ',' ∉ l.1 ∧ ',' ∉ l.2 ∧ ':' ∉ l.1 ∧ ':' ∉ l.2 ∧ '-' ∉ l.1) :
    readBridging r st (showLinks ls) = some (st, ls) := by
  unfold readBridging showLinks
  rw [split_join (by simpa using h0) (by
    intro p hp
    obtain ⟨l, hl, rfl⟩ := List.mem_map.1 hp
    have := h l hl
    simp [this.1, this.2.1])]
  clear h0
  induction ls with
  | nil => rfl
  | cons l ls ih =>
    obtain ⟨_, _, h3, h4, h5⟩ := h l List.mem_cons_self
    rw [List.map_cons, readLinks, split_append h3, split_of_not_mem h4]
    dsimp only
    rw [fixId_plain _ _ h5]
    dsimp only
    rw [ih (fun x hx => h x (List.mem_cons_of_mem _ hx))]

theorem split_two {c : Char} {s : Str} (h : c ∈ s) : ∃ a b, c ∉ a ∧ s = a ++ c :: b := by
  induction s with
  | nil => cases h
  | cons x s ih =>
    by_cases hx : x = c
    · exact ⟨[], s, by simp, by rw [hx]; rfl⟩
    · have : c ∈ s := by
        rcases List.mem_cons.1 h with e | e
        · exact absurd e.symm hx
        · exact e
      obtain ⟨a, b, h1, h2⟩ := ih this
      exact ⟨x :: a, b, by simp [h1, Ne.symm hx], by rw [h2]; rfl⟩

/-- **C170 (links, violated)** If the relation of a link has a colon, the reader fails. -/
theorem C170_bridging_violated (r : Str) (st : St) {l : Str × Str} (h1 : ',' ∉ l.1 ∧ ',' ∉ l.2) (h2 : ':' ∉ l.1) (h3 : ':' ∈ l.2) (ls : List (Str × Str)) (hl : ∀ x ∈ ls, ',' ∉ x.1 ∧ ',' ∉ x.2) :
    readBridging r st (showLinks (l :: ls)) = none := by
  unfold readBridging showLinks
  rw [split_join (by simp) (by
    intro p hp
    obtain ⟨x, hx, rfl⟩ := List.mem_map.1 hp
    rcases List.mem_cons.1 hx with rfl | hx
    · simp [h1.1, h1.2]
    · simp [(hl x hx).1, (hl x hx).2]), List.map_cons, readLinks, split_append h2]
  obtain ⟨a, b, g1, g2⟩ := split_two h3
  rw [g2, split_append g1]
  cases hs : Py.split ':' b with
  | nil => exact absurd hs (split_ne_nil _ _)
  | cons x y => rfl

/-- **C170 (split antecedents)** The ids can be read exactly if they have no commas and no plus signs. -/
theorem C170_ante {es : List Str} (h : es ≠ []) : readAnte (join [','] es) = es ↔ ∀ e ∈ es, ',' ∉ e ∧ '+' ∉ e := by
  have hj : ∀ es : List Str, (join [','] es).map (fun c => if c = '+' then ',' else c) = join [','] (es.map (fun e => e.map (fun c => if c = '+' then ',' else c))) := by
    intro es
    induction es with
    | nil => rfl
    | cons e es ih =>
      cases es with
      | nil => rfl
      | cons e' es =>
        rw [join, List.map_cons, List.map_cons, join, List.map_append, List.map_append, ih]
        rfl
  constructor
  · intro he e hm
    have hn : ∀ p ∈ es, ',' ∉ p := by
      rw [← he]; exact not_mem_split _ _
    refine ⟨hn e hm, fun hp => ?_⟩
    have h1 : '+' ∈ join [','] es := by
      rw [← he] at hm
      have : e ∈ Py.split ',' ((join [','] es).map (fun c => if c = '+' then ',' else c)) := hm
      have hnp : ∀ {s : Str}, '+' ∉ s → ∀ p ∈ Py.split ',' s, '+' ∉ p := by
        intro s
        induction s with
        | nil => intro _ p hp; simp [Py.split] at hp; subst hp; simp
        | cons c s ih =>
          intro hs p hp
          have hs' := nmc hs
          rw [Py.split] at hp
          split at hp
          · rcases List.mem_cons.1 hp with rfl | hp
            · simp
            · exact ih hs'.2 p hp
          · split at hp
            · rename_i hq; rw [List.mem_singleton.1 hp]; simp [hs'.1]
            · rename_i q qs hq
              rcases List.mem_cons.1 hp with rfl | hp
              · have := ih hs'.2 q (by rw [hq]; exact List.mem_cons_self)
                simp [hs'.1, this]
              · exact ih hs'.2 p (by rw [hq]; exact List.mem_cons_of_mem _ hp)
      refine absurd hp (hnp ?_ e this)
      intro hc
      obtain ⟨c, _, hc⟩ := List.mem_map.1 hc
      by_cases e : c = '+'
      · rw [if_pos e] at hc; cases hc
      · rw [if_neg e] at hc; exact e hc
    have h2 : '+' ∉ join [','] (readAnte (join [','] es)) := by
      unfold readAnte
      rw [join_split]
      intro hc
      obtain ⟨c, _, hc⟩ := List.mem_map.1 hc
      by_cases e : c = '+'
      · rw [if_pos e] at hc; cases hc
      · rw [if_neg e] at hc; exact e hc
    rw [he] at h2
    exact h2 h1
  · intro he
    unfold readAnte
    rw [hj]
    have hm : es.map (fun e => e.map (fun c => if c = '+' then ',' else c)) = es := by
      have : ∀ e ∈ es, (fun e : Str => e.map (fun c => if c = '+' then ',' else c)) e = id e := by
        intro e hm
        have : e.map (fun c => if c = '+' then ',' else c) = e.map id := List.map_congr_left (fun c hc => if_neg (fun x : c = '+' => (he e hm).2 (x ▸ hc)))
        rw [List.map_id] at this
        exact this
      rw [List.map_congr_left this, List.map_id]
    rw [hm]
    exact split_join h (fun p hp => (he p hp).1)

theorem rep_none {c : Char} (t : Str) : ∀ {s : Str}, c ∉ s → rep c t s = s
  | [], _ => rfl
  | x :: s, h => by
    have h' := nmc h
    rw [rep, if_neg (Ne.symm h'.1), rep_none t h'.2]

theorem rep_free {c : Char} {t : Str} (ht : c ∉ t) : ∀ s, c ∉ rep c t s
  | [] => by simp [rep]
  | x :: s => by
    rw [rep]
    split
    · rw [List.mem_append]; exact fun e => e.elim ht (rep_free ht s)
    · rename_i hx
      rw [List.mem_cons]; exact fun e => e.elim (fun e => hx e.symm) (rep_free ht s)

theorem rep_other {c x : Char} {t : Str} (ht : x ∉ t) : ∀ {s : Str}, x ∉ s → x ∉ rep c t s
  | [], _ => by simp [rep]
  | y :: s, h => by
    have h' := nmc h
    rw [rep]
    split
    · rw [List.mem_append]; exact fun e => e.elim ht (rep_other ht h'.2)
    · rw [List.mem_cons]; exact fun e => e.elim h'.1 (rep_other ht h'.2)

theorem toHyphen_back : ∀ {s : Str}, '-' ∉ s → rep '-' ['%', '2', 'D'] (toHyphen s) = s := by
  intro s
  induction s using toHyphen.induct with
  | case1 => intro _; rfl
  | case2 s ih =>
    intro h
    rw [toHyphen, rep, if_pos rfl, ih (fun e => h (by simp [e]))]
    rfl
  | case3 c s hne ih =>
    intro h
    have h' := nmc h
    rw [toHyphen, rep, if_neg (Ne.symm h'.1), ih h'.2]
    exact hne

theorem toHyphen_other {x : Char} (hx : x ≠ '-') : ∀ {s : Str}, x ∉ s → x ∉ toHyphen s := by
  intro s
  induction s using toHyphen.induct with
  | case1 => intro _; simp [toHyphen]
  | case2 s ih =>
    intro h
    rw [toHyphen, List.mem_cons]
    exact fun e => e.elim hx (ih (fun e => h (by simp [e])))
  | case3 c s hne ih =>
    intro h
    have h' := nmc h
    rw [toHyphen, List.mem_cons]
    · exact fun e => e.elim h'.1 (ih h'.2)
    · exact hne

/-- **C170 (`MentionMisc`)** The text of the attributes of a mention comes back exactly if it has no spaces, hyphens and parentheses; others come back changed. -/
theorem C170_misc (s : Str) : readMisc (toHyphen s) = s ↔ ' ' ∉ s ∧ '-' ∉ s ∧ '(' ∉ s ∧ ')' ∉ s := by
  unfold readMisc
  constructor
  · intro h
    rw [← h]
    refine ⟨?_, ?_, ?_, rep_free (by decide) _⟩
    · exact rep_other (by decide) (rep_other (by decide) (rep_other (by decide) (rep_free (by decide) _)))
    · exact rep_other (by decide) (rep_other (by decide) (rep_free (by decide) _))
    · exact rep_other (by decide) (rep_free (by decide) _)
  · rintro ⟨h1, h2, h3, h4⟩
    rw [rep_none _ (toHyphen_other (by decide) h1), toHyphen_back h2, rep_none _ h3, rep_none _ h4]

/-! ## Examples -/

def exM (e : Char) (sp : Str) : Ment := ⟨[e], sp, [], [], [], []⟩

/-- Three mentions with the same head -/
example : (writeDoc true (fun _ => [(['A'], .tru)]) [(1, exM 'a' ['1']), (2, exM 'b' ['2']), (1, exM 'c' ['1', '-', '3']), (1, exM 'd' [])]).map (fun g => ((readNode [] [] (g 1)).map (·.2), (readNode [] [] (g 2)).map (·.2))) =
    some (some [exM 'a' ['1'], exM 'c' ['1', '-', '3'], exM 'd' []], some [exM 'b' ['2']]) := by decide +kernel
example : (writeDoc true (fun _ => [(['A'], .tru)]) [(1, exM 'a' ['1']), (1, exM 'c' [])]).map (fun g => (g 1).map (·.1)) =
    some [['A'], nCid ++ ['[', '1', ']'], nSpan ++ ['[', '1', ']'], nCid ++ ['[', '2', ']']] := by decide +kernel
example : (fixAll [] [] [['a', '-'], ['-', 'a'], ['a', '-']]).map (·.2) = some [['a'], ['a', '2'], ['a']] := by decide +kernel

end Verif.Coref.OldFormat
