import Verif.Coref.Bridging
import Verif.Coref.Entity
import Verif.Py.Sort

/-!
# Properties C97-C99: bridging links and split antecedents in MISC (udapi/core/coref.py:441-472, 509-532, 723-746, 893-918)

Simplified: `global.Entity` without `GRP`, so that `eid_or_grp` is the id of the entity (coref.py:339-348); it raises for entities
without mentions (coref.py:341). `strict` is `True`. The order of links is any function `le`.
-/

namespace Verif.Coref.B
open Verif.Py

section text
variable {ε : Type}

/-- `f'{target}<{source}{":" + relation ...}'` (coref.py:511) -/
def linkStr (eid : ε → Str) (src : ε) (l : Link ε) : Str :=
  eid l.target ++ '<' :: (eid src ++ (if l.relation = [] ∨ l.relation = ['_'] then [] else ':' :: l.relation))

/-- `str(bl)` (coref.py:509-511), for links to entities with mentions. -/
def bridgeStr (eid : ε → Str) (le : Link ε → Link ε → Bool) (src : ε) (data : List (Link ε)) : Str :=
  join [','] ((pySort le data).map (linkStr eid src))

/-- `for x in data: if dead(x): data.remove(x)` from position `i` on, at most `fuel` rounds (coref.py:528-532, 904-907). The elements
of the list are different objects, so that the one at position `i` is removed. -/
def purge {α : Type} (dead : α → Bool) : Nat → Nat → List α → List α
  | 0, _, data => data
  | fuel + 1, i, data =>
    match data[i]? with
    | none => data
    | some x => if dead x then purge dead fuel (i + 1) (data.eraseIdx i) else purge dead fuel (i + 1) data

/-- `_delete_targets_without_mentions` (coref.py:527-532) -/
def deleteDead {α : Type} (dead : α → Bool) (data : List α) : List α := purge dead data.length 0 data

/-- Storing the links of one mention in `misc['Bridge']` of its first word (coref.py:894-899); the empty string stands for a missing
attribute. `alive` tells which entities have mentions. -/
def storeBridge (eid : ε → Str) (le : Link ε → Link ε → Bool) (alive : ε → Bool) (misc : Str) (src : ε) (data : List (Link ε)) : Except Err Str :=
  if data = [] then .ok misc
  else
    let data' := deleteDead (fun l => !alive l.target) data
    if data'.any (fun l => !alive l.target) then .error .indexError
    else
      let str := bridgeStr eid le src data'
      .ok (if misc ≠ [] then misc ++ ',' :: str else str)

/-- Storing the links of all mentions that start at one word, in their order; each with its entity. -/
def storeBridges (eid : ε → Str) (le : Link ε → Link ε → Bool) (alive : ε → Bool) : Str → List (ε × List (Link ε)) → Except Err Str
  | misc, [] => .ok misc
  | misc, (src, data) :: rest =>
    match storeBridge eid le alive misc src data with
    | .error e => .error e
    | .ok misc' => storeBridges eid le alive misc' rest

end text

/-- One part of `misc['Bridge']` (coref.py:451-461): target, source and relation. -/
def parseLink (s : Str) : Except Err (Str × Str × Str) :=
  match split '<' s with
  | [t, r] =>
    let src := (splitOnce ':' r).1
    let rel := (splitOnce ':' r).2.getD []
    if t = src then .error .valueError else .ok (t, src, rel)
  | _ => .error .valueError

/-- While reading: the keys of `entities`, `entities[e].mentions[-1]` (`none` if there is no mention), the links, which refer to
entities by their ids, and `src_str2bl`. -/
structure Rd where
  keys : List Str
  last : Str → Option Nat
  st : St Str
  cache : List (Str × Nat)

/-- `bl = src_str2bl.get(src_str)` and, unless it has links, `entities[src_str].mentions[-1].bridging` (coref.py:465-468) -/
def findLinks (r : Rd) (src : Str) : Except Err (Rd × Nat) :=
  let fresh : Except Err (Rd × Nat) :=
    if src ∈ r.keys then
      match r.last src with
      | none => .error .indexError
      | some m =>
        let (st', b) := getBridging r.st m
        .ok ({ r with st := st', cache := (src, b) :: r.cache }, b)
    else .error .keyError
  match r.cache.lookup src with
  | none => fresh
  | some b => if r.st.data b = [] then fresh else .ok (r, b)

/-- The body of the loop of `from_string` (coref.py:451-471) -/
def readLink (r : Rd) (s : Str) : Except Err Rd :=
  match parseLink s with
  | .error e => .error e
  | .ok (t, src, rel) =>
    match findLinks r src with
    | .error e => .error e
    | .ok (r1, b) =>
      if t ∉ r1.keys ∧ forbidden t = true then .error .valueError
      else
        let keys' := if t ∈ r1.keys then r1.keys else r1.keys ++ [t]
        .ok { r1 with keys := keys', st := { r1.st with data := upd r1.st.data b (r1.st.data b ++ [⟨t, rel⟩]) } }

def readLinks : Rd → List Str → Except Err Rd
  | r, [] => .ok r
  | r, s :: rest =>
    match readLink r s with
    | .error e => .error e
    | .ok r' => readLinks r' rest

/-- `BridgingLinks.from_string` (coref.py:442-472) -/
def fromString (r : Rd) (s : Str) : Except Err Rd := readLinks { r with cache := [] } (split ',' s)

/-! ## Specification vocabulary -/

/-- The relation as it is read back. -/
def normRel (rel : Str) : Str := if rel = ['_'] then [] else rel

/-- A link as it is read back: the target is named by its id. -/
def readBack {ε : Type} (eid : ε → Str) (l : Link ε) : Link Str := ⟨eid l.target, normRel l.relation⟩

/-- Neither the ids nor the relation contain separators, and the link leads to another entity. -/
structure Readable {ε : Type} (eid : ε → Str) (src : ε) (l : Link ε) : Prop where
  target : ∀ c ∈ [',', '<'], c ∉ eid l.target
  source : ∀ c ∈ [',', '<', ':'], c ∉ eid src
  relation : ∀ c ∈ [',', '<'], c ∉ l.relation
  ne : eid l.target ≠ eid src
  allowed : forbidden (eid l.target) = false

/-! ## Proofs -/

section text
variable {ε : Type}

theorem parseLink_linkStr {eid : ε → Str} {src : ε} {l : Link ε} (h : Readable eid src l) :
    parseLink (linkStr eid src l) = .ok (eid l.target, eid src, normRel l.relation) := by
  have h1 := h.target '<' (by simp)
  have h2 : '<' ∉ eid src ++ (if l.relation = [] ∨ l.relation = ['_'] then [] else ':' :: l.relation) := by
    rw [List.mem_append]
    rintro (hm | hm)
    · exact h.source '<' (by simp) hm
    · split at hm
      · cases hm
      · rcases List.mem_cons.1 hm with hm | hm
        · cases hm
        · exact h.relation '<' (by simp) hm
  have h3 : splitOnce ':' (eid src ++ (if l.relation = [] ∨ l.relation = ['_'] then [] else ':' :: l.relation)) =
      (eid src, if l.relation = [] ∨ l.relation = ['_'] then none else some l.relation) := by
    split
    · rw [List.append_nil, splitOnce_of_not_mem (h.source ':' (by simp))]
    · rw [splitOnce_append (h.source ':' (by simp))]
  unfold parseLink linkStr
  rw [split_append h1, split_of_not_mem h2]
  simp only [h3]
  rw [if_neg h.ne]
  unfold normRel
  by_cases he : l.relation = []
  · simp [he]
  · by_cases hu : l.relation = ['_']
    · simp [hu]
    · simp [he, hu]

theorem linkStr_no_comma {eid : ε → Str} {src : ε} {l : Link ε} (h : Readable eid src l) : ',' ∉ linkStr eid src l := by
  unfold linkStr
  rw [List.mem_append, List.mem_cons, List.mem_append]
  rintro (hm | hm | hm | hm)
  · exact h.target ',' (by simp) hm
  · cases hm
  · exact h.source ',' (by simp) hm
  · split at hm
    · cases hm
    · rcases List.mem_cons.1 hm with hm | hm
      · cases hm
      · exact h.relation ',' (by simp) hm

theorem linkStr_ne {eid : ε → Str} {src : ε} {l : Link ε} : linkStr eid src l ≠ [] := by
  unfold linkStr
  simp

/-! ### Deleting while iterating -/

theorem purge_all {α : Type} {dead : α → Bool} : ∀ (fuel i : Nat) (data : List α), (∀ x ∈ data.drop i, dead x = false) →
    purge dead fuel i data = data
  | 0, _, _, _ => rfl
  | fuel + 1, i, data, h => by
    unfold purge
    cases hi : data[i]? with
    | none => rfl
    | some x =>
      simp only
      have hd : data.drop i = x :: data.drop (i + 1) := by
        have hlt : i < data.length := by
          apply Classical.byContradiction
          intro hn
          rw [List.getElem?_eq_none (by omega)] at hi
          cases hi
        rw [List.drop_eq_getElem_cons hlt]
        rw [List.getElem?_eq_getElem hlt] at hi
        rw [Option.some.inj hi]
      rw [hd] at h
      rw [h x (List.mem_cons_self ..)]
      simp only [Bool.false_eq_true, if_false]
      exact purge_all fuel (i + 1) data (fun y hy => h y (List.mem_cons_of_mem _ hy))

/-- The loop, on the part of the list that is still to be visited. -/
def purgeList {α : Type} (dead : α → Bool) : List α → List α
  | [] => []
  | [x] => if dead x then [] else [x]
  | x :: y :: rest => if dead x then y :: purgeList dead rest else x :: purgeList dead (y :: rest)

theorem purge_eq {α : Type} (dead : α → Bool) : ∀ (fuel : Nat) (pre rest : List α), rest.length ≤ fuel →
    purge dead fuel pre.length (pre ++ rest) = pre ++ purgeList dead rest
  | 0, pre, rest, h => by
    have : rest = [] := List.length_eq_zero_iff.1 (Nat.le_zero.1 h)
    subst this
    rfl
  | fuel + 1, pre, rest, h => by
    cases rest with
    | nil =>
      unfold purge
      rw [List.getElem?_eq_none (by simp)]
      rfl
    | cons x rest =>
      unfold purge
      have hx : (pre ++ x :: rest)[pre.length]? = some x := by simp
      rw [hx]
      simp only
      cases rest with
      | nil =>
        unfold purgeList
        by_cases hd : dead x = true
        · rw [if_pos hd, if_pos hd, List.eraseIdx_append_of_length_le (Nat.le_refl _)]
          have : purge dead fuel (pre.length + 1) pre = pre := purge_all _ _ _ (by
            rw [List.drop_eq_nil_of_le (by omega)]
            exact fun x hx => absurd hx List.not_mem_nil)
          simpa using this
        · rw [if_neg hd, if_neg hd]
          have := purge_eq dead fuel (pre ++ [x]) [] (Nat.zero_le _)
          simpa [purgeList] using this
      | cons y rest =>
        conv => rhs; unfold purgeList
        by_cases hd : dead x = true
        · rw [if_pos hd, if_pos hd, List.eraseIdx_append_of_length_le (Nat.le_refl _), Nat.sub_self]
          have := purge_eq dead fuel (pre ++ [y]) rest (by simp at h; omega)
          simpa using this
        · rw [if_neg hd, if_neg hd]
          have := purge_eq dead fuel (pre ++ [x]) (y :: rest) (by simp at h ⊢; omega)
          simpa using this

theorem deleteDead_eq {α : Type} (dead : α → Bool) (data : List α) : deleteDead dead data = purgeList dead data := by
  have := purge_eq dead data.length [] data (Nat.le_refl _)
  unfold deleteDead
  simpa using this

/-- C98, the part that holds: links (or antecedents) to entities without mentions are deleted when no two of them follow each other;
all others stay in their order.
What is missing: two such links in a row. -/
theorem C98_deleted_partial {α : Type} (dead : α → Bool) : ∀ (data : List α),
    (∀ a x y b, data = a ++ x :: y :: b → dead x = true → dead y = false) → deleteDead dead data = data.filter (fun x => !dead x) := by
  have key : ∀ (n : Nat) (data : List α), data.length ≤ n → (∀ a x y b, data = a ++ x :: y :: b → dead x = true → dead y = false) →
      purgeList dead data = data.filter (fun x => !dead x) := by
    intro n
    induction n with
    | zero =>
      intro data hn _
      have : data = [] := List.length_eq_zero_iff.1 (Nat.le_zero.1 hn)
      subst this
      rfl
    | succ n ih =>
      intro data hn h
      cases data with
      | nil => rfl
      | cons x rest =>
        cases rest with
        | nil =>
          unfold purgeList
          cases hd : dead x <;> simp [hd]
        | cons y rest =>
          unfold purgeList
          simp only [List.length_cons] at hn
          by_cases hd : dead x = true
          · have hy : dead y = false := h [] x y rest rfl hd
            rw [if_pos hd, ih rest (by omega) (fun a u v b e => h (x :: y :: a) u v b (by rw [e]; rfl))]
            simp [hd, hy]
          · rw [if_neg hd, ih (y :: rest) (by simp; omega) (fun a u v b e => h (x :: a) u v b (by rw [e]; rfl))]
            simp [hd]
  intro data h
  rw [deleteDead_eq]
  exact key data.length data (Nat.le_refl _) h

/-- C98 does not hold: of two links in a row to entities without mentions, the second one stays, whatever surrounds the first such
pair. -/
theorem C98_pair_violated {α : Type} (dead : α → Bool) (a b : List α) (x y : α) (ha : ∀ z ∈ a, dead z = false) (hx : dead x = true) :
    deleteDead dead (a ++ x :: y :: b) = a ++ y :: deleteDead dead b := by
  rw [deleteDead_eq, deleteDead_eq]
  have hcons : ∀ z rest, dead z = false → purgeList dead (z :: rest) = z :: purgeList dead rest := by
    intro z rest hz
    cases rest with
    | nil => simp [purgeList, hz]
    | cons => rw [purgeList, if_neg (by simp [hz])]
  induction a with
  | nil =>
    rw [List.nil_append, purgeList, if_pos hx]
    rfl
  | cons z a ih =>
    rw [List.cons_append, hcons _ _ (ha z (List.mem_cons_self ..)), ih (fun w hw => ha w (List.mem_cons_of_mem _ hw))]
    rfl

/-- C98 does not hold: storing raises if two links in a row lead to entities without mentions. -/
theorem C98_store_violated {eid : ε → Str} {le : Link ε → Link ε → Bool} {alive : ε → Bool} (misc : Str) (src : ε) (a b : List (Link ε)) (x y : Link ε)
    (ha : ∀ z ∈ a, alive z.target = true) (hx : alive x.target = false) (hy : alive y.target = false) :
    storeBridge eid le alive misc src (a ++ x :: y :: b) = .error .indexError := by
  unfold storeBridge
  rw [if_neg (by simp)]
  have := C98_pair_violated (fun l : Link ε => !alive l.target) a b x y (fun z hz => by simp [ha z hz]) (by simp [hx])
  simp only [this]
  rw [if_pos (by simp [hy])]

/-- C98 does not hold: if the only link of a mention leads to an entity without mentions, and another mention has stored links at the
same word, the attribute ends in a comma, and reading it raises. -/
theorem C98_comma_violated {eid : ε → Str} {le : Link ε → Link ε → Bool} {alive : ε → Bool} (misc : Str) (hm : misc ≠ []) (src : ε) (x : Link ε)
    (hx : alive x.target = false) :
    storeBridge eid le alive misc src [x] = .ok (misc ++ [',']) ∧ ∀ r, ∃ e, fromString r (misc ++ [',']) = .error e := by
  constructor
  · unfold storeBridge
    rw [if_neg (by simp)]
    have : deleteDead (fun l : Link ε => !alive l.target) [x] = [] := by
      rw [deleteDead_eq]
      simp [purgeList, hx]
    simp only [this]
    rw [if_neg (by simp), if_pos hm]
    rfl
  · have hsplit : ∀ s : Str, ∃ l, split ',' (s ++ [',']) = l ++ [[]] := by
      intro s
      induction s with
      | nil => exact ⟨[[]], rfl⟩
      | cons c s ih =>
        obtain ⟨l, hl⟩ := ih
        by_cases hc : c = ','
        · exact ⟨[] :: l, by rw [List.cons_append, split, if_pos hc, hl]; rfl⟩
        · cases l with
          | nil => exact absurd hl (by
              intro h2
              have := join_split ',' (s ++ [','])
              rw [h2] at this
              simp [join] at this)
          | cons p l => exact ⟨(c :: p) :: l, by rw [List.cons_append, split, if_neg hc, hl]; rfl⟩
    intro r
    obtain ⟨l, hl⟩ := hsplit misc
    unfold fromString
    rw [hl]
    clear hl
    generalize ({ r with cache := [] } : Rd) = q
    induction l generalizing q with
    | nil => exact ⟨.valueError, rfl⟩
    | cons p l ih =>
      rw [List.cons_append, readLinks]
      cases readLink q p with
      | error e => exact ⟨e, rfl⟩
      | ok q' => exact ih q'


/-! ### Storing and reading back -/

/-- The pieces written for a word. -/
def pieces (eid : ε → Str) (le : Link ε → Link ε → Bool) (items : List (ε × List (Link ε))) : List Str :=
  items.flatMap (fun it => (pySort le it.2).map (linkStr eid it.1))

theorem join_append {sep : Str} : ∀ {a b : List Str}, a ≠ [] → b ≠ [] → join sep (a ++ b) = join sep a ++ sep ++ join sep b
  | [], _, h, _ => absurd rfl h
  | [p], b, _, hb => by
    cases b with
    | nil => exact absurd rfl hb
    | cons q b => rfl
  | p :: q :: a, b, _, hb => by
    have := join_append (sep := sep) (a := q :: a) (b := b) (by simp) hb
    rw [List.cons_append, List.cons_append, join, ← List.cons_append, this, join]
    simp

theorem pySort_ne {α : Type} {le : α → α → Bool} {l : List α} (h : l ≠ []) : pySort le l ≠ [] := by
  intro he
  have := length_pySort (le := le) (l := l)
  rw [he] at this
  exact h (List.length_eq_zero_iff.1 this.symm)

theorem storeBridges_join {eid : ε → Str} {le : Link ε → Link ε → Bool} {alive : ε → Bool} :
    ∀ (items : List (ε × List (Link ε))) (pre : List Str), (∀ it ∈ items, it.2 ≠ [] ∧ ∀ l ∈ it.2, alive l.target = true) →
      (∀ p ∈ pre, p ≠ []) → storeBridges eid le alive (join [','] pre) items = .ok (join [','] (pre ++ pieces eid le items))
  | [], pre, _, _ => by simp [storeBridges, pieces]
  | (src, data) :: rest, pre, h, hp => by
    obtain ⟨hne, hal⟩ := h (src, data) (List.mem_cons_self ..)
    simp only at hne hal
    have hdead : deleteDead (fun l : Link ε => !alive l.target) data = data := by
      unfold deleteDead
      exact purge_all _ _ _ (fun x hx => by simp [hal x (by simpa using hx)])
    have hany : data.any (fun l => !alive l.target) = false := by
      rw [List.any_eq_false]
      intro x hx
      simp [hal x hx]
    have hne2 : (pySort le data).map (linkStr eid src) ≠ [] := by simpa using pySort_ne hne
    have hstep : storeBridge eid le alive (join [','] pre) src data = .ok (join [','] (pre ++ (pySort le data).map (linkStr eid src))) := by
      unfold storeBridge
      rw [if_neg hne]
      simp only [hdead, hany, Bool.false_eq_true, if_false]
      cases hpre : pre with
      | nil => simp [join, bridgeStr]
      | cons p ps =>
        have : join [','] (p :: ps) ≠ [] := by
          intro he
          rcases join_eq_nil (by simp) he with h1 | h1
          · cases h1
          · have : p = [] := by simpa using (List.cons.inj h1).1
            exact hp p (by rw [hpre]; simp) this
        rw [if_pos this, join_append (by simp) hne2]
        simp [bridgeStr]
    unfold storeBridges
    rw [hstep]
    simp only
    rw [storeBridges_join rest _ (fun it hit => h it (List.mem_cons_of_mem _ hit)) (by
      intro p hm
      rcases List.mem_append.1 hm with hm | hm
      · exact hp p hm
      · obtain ⟨l, _, rfl⟩ := List.mem_map.1 hm
        exact linkStr_ne)]
    simp [pieces]

/-- The objects in the cache belong to the last mentions and have links. -/
def CacheOk (r : Rd) : Prop :=
  ∀ src b, r.cache.lookup src = some b → ∃ m, r.last src = some m ∧ r.st.bridging m = some b ∧ r.st.data b ≠ []

theorem findLinks_spec {r : Rd} (hi : Inv r.st) (hc : CacheOk r) {src : Str} {m : Nat} (hk : src ∈ r.keys) (hl : r.last src = some m) :
    ∃ r1 b, findLinks r src = .ok (r1, b) ∧ Inv r1.st ∧ r1.keys = r.keys ∧ r1.last = r.last ∧ r1.st.bridging m = some b ∧
      (∀ m', links r1.st m' = links r.st m') ∧ (∀ s b', s ≠ src → r1.cache.lookup s = some b' → r.cache.lookup s = some b') ∧
      (∀ b', r1.cache.lookup src = some b' → b' = b) ∧
      (∀ m' b', m' ≠ m → r.st.bridging m' = some b' → r.st.data b' ≠ [] → r1.st.bridging m' = some b' ∧ r1.st.data b' = r.st.data b') ∧
      r1.st.entOf = r.st.entOf := by
  have hfresh : (r.cache.lookup src = none ∨ ∃ b, r.cache.lookup src = some b ∧ r.st.data b = []) →
      findLinks r src = .ok ({ r with st := (getBridging r.st m).1, cache := (src, (getBridging r.st m).2) :: r.cache }, (getBridging r.st m).2) := by
    rintro (h | ⟨b, h, hd⟩)
    · unfold findLinks
      simp only [hk, if_true, hl, h]
    · unfold findLinks
      simp only [hk, if_true, hl, h, hd]
  have hspec : Inv (getBridging r.st m).1 ∧ (getBridging r.st m).1.bridging m = some (getBridging r.st m).2 ∧
      (∀ m', links (getBridging r.st m).1 m' = links r.st m') ∧
      (∀ m' b', m' ≠ m → r.st.bridging m' = some b' → r.st.data b' ≠ [] →
        (getBridging r.st m).1.bridging m' = some b' ∧ (getBridging r.st m).1.data b' = r.st.data b') ∧
      (getBridging r.st m).1.entOf = r.st.entOf := by
    refine ⟨getBridging_inv hi m, ?_⟩
    have hnew : links r.st m = [] → (newLinks r.st m).1.bridging m = some (newLinks r.st m).2 ∧
        (∀ m', links (newLinks r.st m).1 m' = links r.st m') ∧
        (∀ m' b', m' ≠ m → r.st.bridging m' = some b' → r.st.data b' ≠ [] →
          (newLinks r.st m).1.bridging m' = some b' ∧ (newLinks r.st m).1.data b' = r.st.data b') ∧
        (newLinks r.st m).1.entOf = r.st.entOf := by
      intro he
      refine ⟨upd_same .., ?_, ?_, rfl⟩
      · intro m'
        by_cases hm : m' = m
        · subst hm
          rw [he]
          simp only [links, newLinks, upd_same]
        · simp only [links, newLinks]
          rw [upd_other _ _ hm]
          cases hb' : r.st.bridging m' with
          | none => rfl
          | some b' => exact upd_other _ _ (Nat.ne_of_lt (hi.src m' b' hb').2)
      · intro m' b' hm hb' _
        exact ⟨by rw [← hb']; exact upd_other _ _ hm, upd_other _ _ (Nat.ne_of_lt (hi.src m' b' hb').2)⟩
    unfold getBridging
    cases hb : r.st.bridging m with
    | none => exact hnew (by simp [links, hb])
    | some b =>
      simp only
      split
      · rename_i hd
        exact hnew (by simp [links, hb, hd])
      · exact ⟨hb, fun _ => rfl, fun _ _ _ h _ => ⟨h, rfl⟩, rfl⟩
  have hdone : findLinks r src = .ok ({ r with st := (getBridging r.st m).1, cache := (src, (getBridging r.st m).2) :: r.cache }, (getBridging r.st m).2) →
      _ := fun e => (⟨_, _, e, hspec.1, rfl, rfl, hspec.2.1, hspec.2.2.1, fun s b' hs hlk => by
        rw [List.lookup_cons, beq_eq_false_iff_ne.2 hs] at hlk
        exact hlk, fun b' hlk => by
        rw [List.lookup_cons, beq_self_eq_true] at hlk
        exact (Option.some.inj hlk).symm, hspec.2.2.2.1, hspec.2.2.2.2⟩ : ∃ r1 b, findLinks r src = .ok (r1, b) ∧ Inv r1.st ∧ r1.keys = r.keys ∧ r1.last = r.last ∧ r1.st.bridging m = some b ∧
      (∀ m', links r1.st m' = links r.st m') ∧ (∀ s b', s ≠ src → r1.cache.lookup s = some b' → r.cache.lookup s = some b') ∧
      (∀ b', r1.cache.lookup src = some b' → b' = b) ∧
      (∀ m' b', m' ≠ m → r.st.bridging m' = some b' → r.st.data b' ≠ [] → r1.st.bridging m' = some b' ∧ r1.st.data b' = r.st.data b') ∧
      r1.st.entOf = r.st.entOf)
  cases hlk : r.cache.lookup src with
  | none => exact hdone (hfresh (.inl hlk))
  | some b =>
    by_cases hd : r.st.data b = []
    · exact hdone (hfresh (.inr ⟨b, hlk, hd⟩))
    · obtain ⟨m', hl', hb, _⟩ := hc src b hlk
      rw [hl] at hl'
      obtain rfl := Option.some.inj hl'
      refine ⟨r, b, ?_, hi, rfl, rfl, hb, fun _ => rfl, fun _ _ _ h => h, fun b' hb' => ?_, fun _ _ _ h _ => ⟨h, rfl⟩, rfl⟩
      · unfold findLinks
        simp only [hlk, hd, if_false]
      · rw [hlk] at hb'
        exact (Option.some.inj hb').symm

theorem readLink_spec {r : Rd} (hi : Inv r.st) (hc : CacheOk r) (hinj : ∀ a b m, r.last a = some m → r.last b = some m → a = b)
    {eid : ε → Str} {src : ε} {l : Link ε} (h : Readable eid src l)
    {m : Nat} (hk : eid src ∈ r.keys) (hl : r.last (eid src) = some m) :
    ∃ r', readLink r (linkStr eid src l) = .ok r' ∧ Inv r'.st ∧ CacheOk r' ∧ r'.last = r.last ∧ (∀ k ∈ r.keys, k ∈ r'.keys) ∧
      eid l.target ∈ r'.keys ∧ links r'.st m = links r.st m ++ [readBack eid l] ∧ (∀ m', m' ≠ m → links r'.st m' = links r.st m') := by
  obtain ⟨r1, b, e, i1, k1, l1, b1, s1, c1, c2, o1, _⟩ := findLinks_spec hi hc hk hl
  unfold readLink
  rw [parseLink_linkStr h]
  simp only [e, h.allowed, Bool.false_eq_true, and_false, if_false]
  obtain ⟨hm, ho⟩ := links_edit i1 b1 (r1.st.data b ++ [⟨eid l.target, normRel l.relation⟩])
  refine ⟨_, rfl, ⟨i1.src⟩, ?_, l1, ?_, ?_, ?_, ?_⟩
  · intro s b' hlk
    simp only at hlk ⊢
    by_cases hs : s = eid src
    · subst hs
      obtain rfl := c2 b' hlk
      refine ⟨m, by rw [l1]; exact hl, b1, ?_⟩
      rw [upd_same]
      simp
    · obtain ⟨m', hl', hb', hd'⟩ := hc s b' (c1 s b' hs hlk)
      have hmm : m' ≠ m := by
        rintro rfl
        exact hs (hinj s (eid src) m' hl' hl)
      obtain ⟨hb1, hd1⟩ := o1 m' b' hmm hb' hd'
      refine ⟨m', by rw [l1]; exact hl', hb1, ?_⟩
      rw [upd_other, hd1]
      · exact hd'
      · rintro rfl
        exact hmm ((i1.src m' b' hb1).1.symm.trans (i1.src m b' b1).1)
  · intro k hk'
    simp only
    split
    · rw [k1]; exact hk'
    · rw [k1]; exact List.mem_append_left _ hk'
  · simp only
    split
    · assumption
    · simp
  · rw [hm]
    have : links r1.st m = r1.st.data b := by simp [links, b1]
    rw [← this, s1]
    rfl
  · intro m' hm'
    rw [ho m' hm', s1]

/-- Reading a list of pieces: every link goes to the last mention of its source. -/
theorem readLinks_spec {eid : ε → Str} (last : Str → Option Nat) (hinj : ∀ a b m, last a = some m → last b = some m → a = b) :
    ∀ (ps : List (ε × Link ε)) (r : Rd), r.last = last → Inv r.st → CacheOk r →
      (∀ p ∈ ps, Readable eid p.1 p.2 ∧ eid p.1 ∈ r.keys ∧ (last (eid p.1)).isSome) →
      ∃ r', readLinks r (ps.map (fun p => linkStr eid p.1 p.2)) = .ok r' ∧ (∀ k ∈ r.keys, k ∈ r'.keys) ∧
        (∀ p ∈ ps, eid p.2.target ∈ r'.keys) ∧
        ∀ m, links r'.st m = links r.st m ++ (ps.filter (fun p => last (eid p.1) = some m)).map (fun p => readBack eid p.2)
  | [], r, _, _, _, _ => ⟨r, rfl, fun _ h => h, fun p hp => absurd hp List.not_mem_nil, fun m => by simp⟩
  | p :: ps, r, hr, hi, hc, hp => by
    obtain ⟨h1, h2, h3⟩ := hp p (List.mem_cons_self ..)
    obtain ⟨m, hm⟩ := Option.isSome_iff_exists.1 h3
    obtain ⟨r1, e1, i1, c1, l1, k1, t1, n1, o1⟩ := readLink_spec hi hc (by rw [hr]; exact hinj) h1 h2 (by rw [hr]; exact hm)
    obtain ⟨r2, e2, k2, t2, n2⟩ := readLinks_spec last hinj ps r1 (by rw [l1, hr]) i1 c1 (fun q hq => by
      obtain ⟨a, b, c⟩ := hp q (List.mem_cons_of_mem _ hq)
      exact ⟨a, k1 _ b, c⟩)
    refine ⟨r2, ?_, fun k hk => k2 k (k1 k hk), ?_, ?_⟩
    · rw [List.map_cons, readLinks, e1]
      exact e2
    · intro q hq
      rcases List.mem_cons.1 hq with rfl | hq
      · exact k2 _ t1
      · exact t2 q hq
    · intro m'
      rw [n2]
      by_cases hmm : m' = m
      · subst hmm
        rw [n1, List.filter_cons_of_pos (by simp [hm])]
        simp
      · rw [o1 m' hmm, List.filter_cons_of_neg (by simp [hm, Ne.symm hmm])]

/-- What is read: the links of all mentions of an entity that start at the word go to the last mention of the entity. -/
theorem fromString_stored {eid : ε → Str} {le : Link ε → Link ε → Bool} {alive : ε → Bool} {items : List (ε × List (Link ε))}
    (hne : items ≠ []) (hit : ∀ it ∈ items, it.2 ≠ [] ∧ ∀ l ∈ it.2, alive l.target = true ∧ Readable eid it.1 l) {r : Rd} (hi : Inv r.st)
    (hinj : ∀ a b m, r.last a = some m → r.last b = some m → a = b)
    (hlast : ∀ it ∈ items, eid it.1 ∈ r.keys ∧ (r.last (eid it.1)).isSome) :
    ∃ s r', storeBridges eid le alive [] items = .ok s ∧ fromString r s = .ok r' ∧
      (∀ it ∈ items, ∀ l ∈ it.2, eid l.target ∈ r'.keys) ∧
      ∀ m, links r'.st m = links r.st m ++
        (items.filter (fun it => r.last (eid it.1) = some m)).flatMap (fun it => (pySort le it.2).map (readBack eid)) := by
  have hst := storeBridges_join (eid := eid) (le := le) (alive := alive) items [] (fun it h => ⟨(hit it h).1, fun l hl => ((hit it h).2 l hl).1⟩)
    (fun p hp => absurd hp List.not_mem_nil)
  rw [List.nil_append] at hst
  let ps : List (ε × Link ε) := items.flatMap (fun it => (pySort le it.2).map (fun l => (it.1, l)))
  have hps : pieces eid le items = ps.map (fun p => linkStr eid p.1 p.2) := by
    simp only [ps, pieces, List.map_flatMap, List.map_map]
    rfl
  have hmem : ∀ p ∈ ps, ∃ it ∈ items, p.1 = it.1 ∧ p.2 ∈ it.2 := by
    intro p hp
    obtain ⟨it, h1, h2⟩ := List.mem_flatMap.1 hp
    obtain ⟨l, h3, rfl⟩ := List.mem_map.1 h2
    exact ⟨it, h1, rfl, mem_pySort.1 h3⟩
  obtain ⟨r', e, k, t, n⟩ := readLinks_spec (eid := eid) r.last hinj ps { r with cache := [] } rfl hi
    (fun s b h => by cases h) (fun p hp => by
      obtain ⟨it, h1, h2, h3⟩ := hmem p hp
      rw [h2]
      exact ⟨((hit it h1).2 _ h3).2, (hlast it h1).1, (hlast it h1).2⟩)
  refine ⟨_, r', hst, ?_, ?_, ?_⟩
  · unfold fromString
    rw [split_join, hps]
    · exact e
    · intro he
      obtain ⟨it, items', rfl⟩ := List.exists_cons_of_ne_nil hne
      have := (hit it (List.mem_cons_self ..)).1
      have hs := pySort_ne (le := le) this
      simp only [pieces, List.flatMap_cons, List.append_eq_nil_iff, List.map_eq_nil_iff] at he
      exact hs he.1
    · intro p hp
      rw [hps] at hp
      obtain ⟨q, hq, rfl⟩ := List.mem_map.1 hp
      obtain ⟨it, h1, h2, h3⟩ := hmem q hq
      rw [h2]
      exact linkStr_no_comma ((hit it h1).2 _ h3).2
  · intro it h1 l hl
    exact t (it.1, l) (List.mem_flatMap.2 ⟨it, h1, List.mem_map.2 ⟨l, mem_pySort.2 hl, rfl⟩⟩)
  · intro m
    rw [n]
    congr 1
    show (ps.filter _).map _ = _
    simp only [ps]
    clear hst hps hmem e t n k hit hlast hne ps
    induction items with
    | nil => rfl
    | cons it items ih =>
      rw [List.flatMap_cons, List.filter_append, List.map_append, ih]
      by_cases hm : r.last (eid it.1) = some m
      · rw [List.filter_cons_of_pos (by simp [hm]), List.flatMap_cons]
        congr 1
        rw [List.filter_eq_self.2]
        · rw [List.map_map]; rfl
        · intro p hp
          obtain ⟨l, _, rfl⟩ := List.mem_map.1 hp
          simp [hm]
      · rw [List.filter_cons_of_neg (by simp [hm])]
        rw [List.filter_eq_nil_iff.2]
        · rfl
        · intro p hp
          obtain ⟨l, _, rfl⟩ := List.mem_map.1 hp
          simp [hm]

/-- C97, the part that holds: the links of the mentions that start at a word are stored in MISC and read back as the same links in
sorted order, if the mentions belong to different entities, are the last ones of them so far, and ids and relations contain no
separators. No other mention changes.
What is missing: several mentions of one entity that start at the same word, and separators in ids. -/
theorem C97_roundtrip_partial {eid : ε → Str} {le : Link ε → Link ε → Bool} {alive : ε → Bool} {items : List (Nat × ε × List (Link ε))}
    (hne : items ≠ []) (hit : ∀ it ∈ items, it.2.2 ≠ [] ∧ ∀ l ∈ it.2.2, alive l.target = true ∧ Readable eid it.2.1 l) {r : Rd} (hi : Inv r.st)
    (hinj : ∀ a b m, r.last a = some m → r.last b = some m → a = b)
    (hlast : ∀ it ∈ items, eid it.2.1 ∈ r.keys ∧ r.last (eid it.2.1) = some it.1) (hnd : (items.map Prod.fst).Nodup)
    (hempty : ∀ it ∈ items, links r.st it.1 = []) :
    ∃ s r', storeBridges eid le alive [] (items.map Prod.snd) = .ok s ∧ fromString r s = .ok r' ∧
      (∀ it ∈ items, links r'.st it.1 = (pySort le it.2.2).map (readBack eid)) ∧
      ∀ m, m ∉ items.map Prod.fst → links r'.st m = links r.st m := by
  obtain ⟨s, r', e1, e2, hkeys, hl⟩ := fromString_stored (eid := eid) (le := le) (alive := alive) (items := items.map Prod.snd) (by simpa using hne)
    (fun it h => by
      obtain ⟨x, hx, rfl⟩ := List.mem_map.1 h
      exact hit x hx) hi hinj (fun it h => by
      obtain ⟨x, hx, rfl⟩ := List.mem_map.1 h
      exact ⟨(hlast x hx).1, by rw [(hlast x hx).2]; rfl⟩)
  refine ⟨s, r', e1, e2, ?_, ?_⟩
  · intro it hmem
    rw [hl, hempty it hmem, List.nil_append]
    have : (items.map Prod.snd).filter (fun x => r.last (eid x.1) = some it.1) = [it.2] := by
      clear e1 e2 hl hit hne hempty hkeys
      induction items with
      | nil => exact absurd hmem List.not_mem_nil
      | cons y ys ih =>
        rw [List.map_cons, List.nodup_cons] at hnd
        have hy := hlast y (List.mem_cons_self ..)
        rcases List.mem_cons.1 hmem with rfl | hm
        · rw [List.map_cons, List.filter_cons_of_pos (by simp [hy.2])]
          congr 1
          apply List.filter_eq_nil_iff.2
          intro z hz
          obtain ⟨u, hu, rfl⟩ := List.mem_map.1 hz
          have := (hlast u (List.mem_cons_of_mem _ hu)).2
          rw [this]
          simp only [Option.some.injEq, decide_eq_true_eq]
          intro hx
          exact hnd.1 (List.mem_map.2 ⟨u, hu, hx⟩)
        · rw [List.map_cons, List.filter_cons_of_neg, ih (fun x hx => hlast x (List.mem_cons_of_mem _ hx)) hnd.2 hm]
          rw [hy.2]
          simp only [Option.some.injEq, decide_eq_true_eq]
          intro hx
          exact hnd.1 (List.mem_map.2 ⟨it, hm, hx.symm⟩)
    rw [this]
    simp
  · intro m hm
    rw [hl]
    have : (items.map Prod.snd).filter (fun x => r.last (eid x.1) = some m) = [] := by
      apply List.filter_eq_nil_iff.2
      intro z hz
      obtain ⟨u, hu, rfl⟩ := List.mem_map.1 hz
      rw [(hlast u hu).2]
      simp only [Option.some.injEq, decide_eq_true_eq]
      intro hx
      exact hm (List.mem_map.2 ⟨u, hu, hx⟩)
    rw [this]
    simp

/-- C97 does not hold: if two mentions of one entity start at the same word, the links of the first one are read as links of the last
one. -/
theorem C97_nested_violated {eid : ε → Str} {le : Link ε → Link ε → Bool} {alive : ε → Bool} {src : ε} {L1 L2 : List (Link ε)}
    (h1 : L1 ≠ [] ∧ ∀ l ∈ L1, alive l.target = true ∧ Readable eid src l) (h2 : L2 ≠ [] ∧ ∀ l ∈ L2, alive l.target = true ∧ Readable eid src l)
    {r : Rd} (hi : Inv r.st) (hinj : ∀ a b m, r.last a = some m → r.last b = some m → a = b) {m1 m2 : Nat} (hm : m1 ≠ m2)
    (hk : eid src ∈ r.keys) (hl : r.last (eid src) = some m2) :
    ∃ s r', storeBridges eid le alive [] [(src, L1), (src, L2)] = .ok s ∧ fromString r s = .ok r' ∧ links r'.st m1 = links r.st m1 ∧
      links r'.st m2 = links r.st m2 ++ (pySort le L1).map (readBack eid) ++ (pySort le L2).map (readBack eid) := by
  obtain ⟨s, r', e1, e2, _, hs⟩ := fromString_stored (eid := eid) (le := le) (alive := alive) (items := [(src, L1), (src, L2)]) (by simp)
    (fun it h => by
      simp only [List.mem_cons, List.not_mem_nil, or_false] at h
      rcases h with rfl | rfl
      · exact h1
      · exact h2) hi hinj (fun it h => by
      simp only [List.mem_cons, List.not_mem_nil, or_false] at h
      rcases h with rfl | rfl <;> exact ⟨hk, by rw [hl]; rfl⟩)
  refine ⟨s, r', e1, e2, ?_, ?_⟩
  · rw [hs]
    simp [hl, Ne.symm hm]
  · rw [hs]
    simp [hl]

/-- C97 does not hold for ids with a colon, which are allowed: links of such an entity are never read as links of it. -/
theorem C97_colon_violated : (∃ e : Str, ':' ∈ e ∧ forbidden e = false) ∧
    ∀ (eid : ε → Str) (src : ε) (l : Link ε), ':' ∈ eid src → ∀ t rel, parseLink (linkStr eid src l) ≠ .ok (t, eid src, rel) := by
  refine ⟨⟨['e', ':', '1'], by decide, by decide⟩, ?_⟩
  intro eid src l h t rel
  unfold parseLink
  split
  · rename_i t' r' _
    simp only
    split
    · intro e; cases e
    · intro e
      have := (Prod.mk.inj (Prod.mk.inj (Except.ok.inj e)).2).1
      rw [← this] at h
      exact not_mem_splitOnce ':' r' h
  · intro e; cases e

/-! ## Split antecedents -/

/-- `f'{sa.eid}<{entity.eid}'` (coref.py:915) -/
def anteStr (eid : ε → Str) (this a : ε) : Str := eid a ++ '<' :: eid this

/-- Storing the antecedents of one entity in `misc['SplitAnte']` of the first word of its first mention (coref.py:903-918). -/
def storeSplit (eid : ε → Str) (alive : ε → Bool) (misc : Str) (this : ε) (antes : List ε) : Except Err Str :=
  if antes = [] then .ok misc
  else
    let antes' := deleteDead (fun a => !alive a) antes
    if antes'.length < 2 then .ok misc
    else if !alive this then .error .indexError
    else
      let strs := join [','] (antes'.map (anteStr eid this))
      .ok (if misc ≠ [] then misc ++ ',' :: strs else strs)

/-- All entities whose first mentions start at one word. -/
def storeSplits (eid : ε → Str) (alive : ε → Bool) : Str → List (ε × List ε) → Except Err Str
  | misc, [] => .ok misc
  | misc, (this, antes) :: rest =>
    match storeSplit eid alive misc this antes with
    | .error e => .error e
    | .ok misc' => storeSplits eid alive misc' rest

end text

/-- The keys of `entities` and `split_ante` of each, by id. -/
structure Sp where
  keys : List Str
  split : Str → List Str

/-- The body of the loop over the parts of `misc['SplitAnte']` (coref.py:736-746). -/
def readAnte (r : Sp) (s : Str) : Except Err Sp :=
  match split '<' s with
  | [a, t] =>
    if a = t then .error .valueError
    else if a ∉ r.keys ∧ forbidden a = true then .error .valueError
    else
      let keys' := if a ∈ r.keys then r.keys else r.keys ++ [a]
      if t ∈ keys' then .ok ⟨keys', fun x => if x = t then r.split t ++ [a] else r.split x⟩
      else .error .keyError
  | _ => .error .valueError

def readAntes : Sp → List Str → Except Err Sp
  | r, [] => .ok r
  | r, s :: rest =>
    match readAnte r s with
    | .error e => .error e
    | .ok r' => readAntes r' rest

/-- Reading `misc['SplitAnte']` (coref.py:731-746) -/
def readSplit (r : Sp) (s : Str) : Except Err Sp := readAntes r (split ',' s)

theorem readAnte_noself {r r' : Sp} {s : Str} (h : readAnte r s = .ok r') (hr : ∀ x, x ∉ r.split x) : ∀ x, x ∉ r'.split x := by
  unfold readAnte at h
  split at h
  · rename_i a t _
    split at h
    · cases h
    · rename_i hne
      split at h
      · cases h
      · generalize (if a ∈ r.keys then r.keys else r.keys ++ [a]) = ks at h
        simp only at h
        by_cases hk : t ∈ ks
        · rw [if_pos hk] at h
          cases h
          intro x hx
          simp only at hx
          split at hx
          · rename_i he
            rcases List.mem_append.1 hx with hx | hx
            · rw [he] at hx
              exact hr t hx
            · rw [he] at hx
              exact hne (List.mem_singleton.1 hx).symm
          · exact hr x hx
        · rw [if_neg hk] at h
          cases h
  · cases h

theorem readAntes_noself : ∀ (ss : List Str) (r r' : Sp), readAntes r ss = .ok r' → (∀ x, x ∉ r.split x) → ∀ x, x ∉ r'.split x
  | [], r, r', h, hr => by
    cases h
    exact hr
  | s :: ss, r, r', h, hr => by
    unfold readAntes at h
    split at h
    · cases h
    · rename_i r1 e
      exact readAntes_noself ss r1 r' h (readAnte_noself e hr)

/-- C99: whatever text is read, no entity becomes a split antecedent of itself. -/
theorem C99_noself {r r' : Sp} {s : Str} (h : readSplit r s = .ok r') (hr : ∀ x, x ∉ r.split x) : ∀ x, x ∉ r'.split x :=
  readAntes_noself _ r r' h hr

example : (match readSplit ⟨[['a'], ['b']], fun _ => []⟩ "a<b,b<a".toList with | .ok r => some (r.split ['a'], r.split ['b']) | .error _ => none) =
      some ([['b']], [['a']]) ∧
    (match readSplit ⟨[['a'], ['b']], fun _ => []⟩ "a<b,b<b".toList with | .ok _ => false | .error _ => true) = true := by decide +kernel

section text
variable {ε : Type}

/-- The ids contain no separators and differ. -/
structure ReadableAnte (eid : ε → Str) (this a : ε) : Prop where
  self : ∀ c ∈ [',', '<'], c ∉ eid this
  ante : ∀ c ∈ [',', '<'], c ∉ eid a
  ne : eid a ≠ eid this
  allowed : forbidden (eid a) = false

theorem readAnte_spec {eid : ε → Str} {this a : ε} (h : ReadableAnte eid this a) {r : Sp} (hk : eid this ∈ r.keys) :
    ∃ r', readAnte r (anteStr eid this a) = .ok r' ∧ (∀ k ∈ r.keys, k ∈ r'.keys) ∧
      ∀ x, r'.split x = if x = eid this then r.split x ++ [eid a] else r.split x := by
  unfold readAnte anteStr
  rw [split_append (h.ante '<' (by simp)), split_of_not_mem (h.self '<' (by simp))]
  simp only [h.ne, h.allowed, Bool.false_eq_true, and_false, if_false]
  have hk' : eid this ∈ (if eid a ∈ r.keys then r.keys else r.keys ++ [eid a]) := by
    split
    · exact hk
    · exact List.mem_append_left _ hk
  rw [if_pos hk']
  refine ⟨_, rfl, ?_, ?_⟩
  · intro k hkk
    simp only
    split
    · exact hkk
    · exact List.mem_append_left _ hkk
  · intro x
    by_cases hx : x = eid this
    · subst hx
      simp
    · simp [hx]

theorem readAntes_spec {eid : ε → Str} : ∀ (ps : List (ε × ε)) (r : Sp),
    (∀ p ∈ ps, ReadableAnte eid p.1 p.2 ∧ eid p.1 ∈ r.keys) →
    ∃ r', readAntes r (ps.map (fun p => anteStr eid p.1 p.2)) = .ok r' ∧
      ∀ x, r'.split x = r.split x ++ (ps.filter (fun p => eid p.1 = x)).map (fun p => eid p.2)
  | [], r, _ => ⟨r, rfl, fun x => by simp⟩
  | p :: ps, r, h => by
    obtain ⟨h1, h2⟩ := h p (List.mem_cons_self ..)
    obtain ⟨r1, e1, k1, s1⟩ := readAnte_spec h1 h2
    obtain ⟨r2, e2, s2⟩ := readAntes_spec ps r1 (fun q hq => ⟨(h q (List.mem_cons_of_mem _ hq)).1, k1 _ (h q (List.mem_cons_of_mem _ hq)).2⟩)
    refine ⟨r2, ?_, ?_⟩
    · rw [List.map_cons, readAntes, e1]
      exact e2
    · intro x
      rw [s2, s1]
      by_cases hx : x = eid p.1
      · subst hx
        rw [if_pos rfl, List.filter_cons_of_pos (by simp)]
        simp
      · rw [if_neg hx, List.filter_cons_of_neg (by simp [Ne.symm hx])]

theorem storeSplits_join {eid : ε → Str} {alive : ε → Bool} : ∀ (items : List (ε × List ε)) (pre : List Str),
    (∀ it ∈ items, 2 ≤ it.2.length ∧ alive it.1 = true ∧ ∀ a ∈ it.2, alive a = true) → (∀ p ∈ pre, p ≠ []) →
    storeSplits eid alive (join [','] pre) items = .ok (join [','] (pre ++ items.flatMap (fun it => it.2.map (anteStr eid it.1))))
  | [], pre, _, _ => by simp [storeSplits]
  | (this, antes) :: rest, pre, h, hp => by
    obtain ⟨hlen, hth, hal⟩ := h (this, antes) (List.mem_cons_self ..)
    simp only at hlen hth hal
    have hne : antes ≠ [] := by
      rintro rfl
      simp at hlen
    have hdead : deleteDead (fun a => !alive a) antes = antes := by
      unfold deleteDead
      exact purge_all _ _ _ (fun x hx => by simp [hal x (by simpa using hx)])
    have hstep : storeSplit eid alive (join [','] pre) this antes = .ok (join [','] (pre ++ antes.map (anteStr eid this))) := by
      unfold storeSplit
      rw [if_neg hne]
      simp only [hdead, hth]
      rw [if_neg (by omega), if_neg (by simp)]
      cases hpre : pre with
      | nil => simp [join]
      | cons p ps =>
        have : join [','] (p :: ps) ≠ [] := by
          intro he
          rcases join_eq_nil (by simp) he with h1 | h1
          · cases h1
          · have : p = [] := by simpa using (List.cons.inj h1).1
            exact hp p (by rw [hpre]; simp) this
        rw [if_pos this, join_append (by simp) (by simpa using hne)]
        simp
    unfold storeSplits
    rw [hstep]
    simp only
    rw [storeSplits_join rest _ (fun it hit => h it (List.mem_cons_of_mem _ hit)) (by
      intro p hm
      rcases List.mem_append.1 hm with hm | hm
      · exact hp p hm
      · obtain ⟨l, _, rfl⟩ := List.mem_map.1 hm
        simp [anteStr])]
    simp

/-- C99, the part that holds: split antecedents are stored in MISC and read back in the same order, if each entity has at least two and
all of them have mentions. Antecedents of other entities do not change.
What is missing: entities with one antecedent, and entities without mentions. -/
theorem C99_roundtrip_partial {eid : ε → Str} {alive : ε → Bool} {items : List (ε × List ε)} (hne : items ≠ [])
    (hit : ∀ it ∈ items, 2 ≤ it.2.length ∧ alive it.1 = true ∧ ∀ a ∈ it.2, alive a = true ∧ ReadableAnte eid it.1 a) {r : Sp}
    (hk : ∀ it ∈ items, eid it.1 ∈ r.keys) (hnd : (items.map (fun it => eid it.1)).Nodup) :
    ∃ s r', storeSplits eid alive [] items = .ok s ∧ readSplit r s = .ok r' ∧
      (∀ it ∈ items, r'.split (eid it.1) = r.split (eid it.1) ++ it.2.map eid) ∧
      ∀ x, x ∉ items.map (fun it => eid it.1) → r'.split x = r.split x := by
  have hst := storeSplits_join (eid := eid) (alive := alive) items []
    (fun it h => ⟨(hit it h).1, (hit it h).2.1, fun a ha => ((hit it h).2.2 a ha).1⟩) (fun p hp => absurd hp List.not_mem_nil)
  rw [List.nil_append] at hst
  let ps : List (ε × ε) := items.flatMap (fun it => it.2.map (fun a => (it.1, a)))
  have hps : items.flatMap (fun it => it.2.map (anteStr eid it.1)) = ps.map (fun p => anteStr eid p.1 p.2) := by
    simp only [ps, List.map_flatMap, List.map_map]
    rfl
  have hmem : ∀ p ∈ ps, ∃ it ∈ items, p.1 = it.1 ∧ p.2 ∈ it.2 := by
    intro p hp
    obtain ⟨it, h1, h2⟩ := List.mem_flatMap.1 hp
    obtain ⟨l, h3, rfl⟩ := List.mem_map.1 h2
    exact ⟨it, h1, rfl, h3⟩
  obtain ⟨r', e, n⟩ := readAntes_spec (eid := eid) ps r (fun p hp => by
    obtain ⟨it, h1, h2, h3⟩ := hmem p hp
    rw [h2]
    exact ⟨((hit it h1).2.2 _ h3).2, hk it h1⟩)
  refine ⟨_, r', hst, ?_, ?_, ?_⟩
  · unfold readSplit
    rw [split_join, hps]
    · exact e
    · intro he
      obtain ⟨it, items', rfl⟩ := List.exists_cons_of_ne_nil hne
      have := (hit it (List.mem_cons_self ..)).1
      simp only [List.flatMap_cons, List.append_eq_nil_iff, List.map_eq_nil_iff] at he
      rw [he.1] at this
      simp at this
    · intro p hp
      rw [hps] at hp
      obtain ⟨q, hq, rfl⟩ := List.mem_map.1 hp
      obtain ⟨it, h1, h2, h3⟩ := hmem q hq
      have hr := ((hit it h1).2.2 _ h3).2
      unfold anteStr
      rw [List.mem_append, List.mem_cons]
      rintro (hm | hm | hm)
      · exact hr.ante ',' (by simp) hm
      · cases hm
      · rw [h2] at hm
        exact hr.self ',' (by simp) hm
  · intro it hmem'
    rw [n]
    congr 1
    show (ps.filter _).map _ = _
    simp only [ps]
    clear hst hps hmem e n hit hk hne ps
    induction items with
    | nil => exact absurd hmem' List.not_mem_nil
    | cons y ys ih =>
      rw [List.map_cons, List.nodup_cons] at hnd
      rw [List.flatMap_cons, List.filter_append, List.map_append]
      rcases List.mem_cons.1 hmem' with rfl | hm
      · rw [List.filter_eq_self.2 (by
          intro p hp
          obtain ⟨l, _, rfl⟩ := List.mem_map.1 hp
          simp), List.filter_eq_nil_iff.2 (by
          intro p hp
          obtain ⟨u, hu, hp⟩ := List.mem_flatMap.1 hp
          obtain ⟨l, _, rfl⟩ := List.mem_map.1 hp
          simp only [decide_eq_true_eq]
          intro hx
          exact hnd.1 (List.mem_map.2 ⟨u, hu, hx⟩))]
        simp
      · rw [List.filter_eq_nil_iff.2 (by
          intro p hp
          obtain ⟨l, _, rfl⟩ := List.mem_map.1 hp
          simp only [decide_eq_true_eq]
          intro hx
          exact hnd.1 (List.mem_map.2 ⟨it, hm, hx.symm⟩)), ih hnd.2 hm]
        rfl
  · intro x hx
    rw [n, List.filter_eq_nil_iff.2]
    · simp
    · intro p hp
      obtain ⟨it, h1, h2, h3⟩ := hmem p hp
      simp only [decide_eq_true_eq]
      intro he
      exact hx (List.mem_map.2 ⟨it, h1, by rw [← h2]; exact he⟩)

/-- C99 does not hold: the antecedent of an entity with only one is not stored. -/
theorem C99_single_violated (eid : ε → Str) (alive : ε → Bool) (misc : Str) (this a : ε) : storeSplit eid alive misc this [a] = .ok misc := by
  unfold storeSplit
  rw [if_neg (by simp)]
  have : (deleteDead (fun a => !alive a) [a]).length < 2 := by
    rw [deleteDead_eq]
    unfold purgeList
    split <;> simp
  simp only [this, if_true]

/-- C99 does not hold: of two antecedents without mentions in a row the second one is stored, although it is not defined anywhere. -/
theorem C99_dead_violated (eid : ε → Str) (alive : ε → Bool) (misc : Str) {this x y z : ε} (rest : List ε) (ht : alive this = true) (hx : alive x = false)
    (hz : alive z = true) (hr : ∀ a ∈ rest, alive a = true) (hm : misc = []) :
    storeSplit eid alive misc this (x :: y :: z :: rest) = .ok (join [','] ((y :: z :: rest).map (anteStr eid this))) := by
  subst hm
  have h := C98_pair_violated (fun a => !alive a) [] (z :: rest) x y (fun _ h => absurd h List.not_mem_nil) (by simp [hx])
  have h2 : deleteDead (fun a => !alive a) (z :: rest) = z :: rest := by
    unfold deleteDead
    refine purge_all _ _ _ (fun a ha => ?_)
    rcases List.mem_cons.1 (show a ∈ z :: rest by simpa using ha) with rfl | ha
    · simp [hz]
    · simp [hr a ha]
  rw [h2, List.nil_append, List.nil_append] at h
  unfold storeSplit
  rw [if_neg (by simp)]
  simp only [h, ht]
  rw [if_neg (by simp), if_neg (by simp), if_neg (by simp)]

end text

def eOf (n : Nat) : Str := 'e' :: natStr n

def exRd : Rd := ⟨[eOf 1, eOf 2], fun s => if s = eOf 1 then some 7 else none, init (fun _ => []), []⟩

example : (storeBridges eOf (fun a b => decide (a.target ≤ b.target)) (fun _ => true) [] [(1, [⟨3, sPart⟩, ⟨2, []⟩])]).toOption =
      some (eOf 2 ++ '<' :: eOf 1 ++ ',' :: eOf 3 ++ '<' :: eOf 1 ++ ':' :: sPart) ∧
    ((fromString exRd (eOf 2 ++ '<' :: eOf 1 ++ ',' :: eOf 3 ++ '<' :: eOf 1 ++ ':' :: sPart)).toOption.map (fun r => links r.st 7)) =
      some [⟨eOf 2, []⟩, ⟨eOf 3, sPart⟩] := by decide +kernel

example : deleteDead (fun n : Nat => decide (n < 3)) [5, 1, 2, 4] = [5, 2, 4] ∧ deleteDead (fun n : Nat => decide (n < 3)) [1, 5, 2, 4] = [5, 4] := by
  decide

example : (storeSplits eOf (fun _ => true) [] [(1, [3, 2]), (4, [5, 6])]).toOption =
    some (eOf 3 ++ '<' :: eOf 1 ++ ',' :: eOf 2 ++ '<' :: eOf 1 ++ ',' :: eOf 5 ++ '<' :: eOf 4 ++ ',' :: eOf 6 ++ '<' :: eOf 4) := by
  decide +kernel

end Verif.Coref.B
