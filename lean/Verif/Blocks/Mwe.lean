import Verif.Py.Str
import Verif.Deprel.Props

/-!
# Properties C151 and C152: multiword expressions in MISC (udapi/block/mwe/normalize.py, tosubdeprels.py)

The words of a tree are given by the values of their MISC attribute Mwe (`[]` if there is none), in their order.
The word at position `i` has `ord` equal to `i + 1`.
-/

namespace Verif.Blocks.Mwe
open Verif.Py Verif.Deprel

def isDigit (c : Char) : Bool := 48 ≤ c.toNat && c.toNat ≤ 57
/-- `[A-Za-z\.]` -/
def isTyp (c : Char) : Bool := (65 ≤ c.toNat && c.toNat ≤ 90) || (97 ≤ c.toNat && c.toNat ≤ 122) || c == '.'

/-- The string without a final line feed, before which `$` matches. -/
def dollar (s : Str) : Str := if s.getLast? = some '\n' then s.dropLast else s

/-- `re.match(r"^([0-9]+)(?::([A-Za-z\.]+))?$", m)` (normalize.py:34-37): the two groups -/
def parseItem (m : Str) : Option (Str × Option Str) :=
  let s := dollar m
  let d := s.takeWhile isDigit
  if d = [] then none
  else
    match s.dropWhile isDigit with
    | [] => some (d, none)
    | c :: t => if c = ':' ∧ t ≠ [] ∧ t.all isTyp then some (d, some t) else none

/-- The parsed items of `n.misc['Mwe']` (normalize.py:24-37) -/
def items (w : Str) : List (Str × Option Str) := if w ≠ [] then (split ';' w).filterMap parseItem else []

/-- `mwes`: for each number the positions of the words and the type -/
abbrev Dict := Str → Option (List Nat × Str)

/-- One item (normalize.py:38-42); the type has at least one character. -/
def addItem (i : Nat) (d : Dict) (it : Str × Option Str) : Dict := fun m =>
  if m = it.1 then
    let e := (d m).getD ([], [])
    some (e.1 ++ [i], match it.2 with | some t => t | none => e.2)
  else d m

/-- `collect_mwes(root)` (normalize.py:10-46) -/
def collect : Nat → List Str → Dict → Dict
  | _, [], d => d
  | i, w :: ws, d => collect (i + 1) ws ((items w).foldl (addItem i) d)

/-- The annotation of one item (normalize.py:61-65); the number is always in the dictionary (`dict_has`). -/
def ann (d : Dict) (i : Nat) (m : Str) : Str :=
  match d m with
  | some (i0 :: _, t) => if i = i0 then m ++ [':'] ++ t else m
  | _ => m

/-- `process_tree(root)` of mwe.Normalize (normalize.py:48-68) -/
def normalize (ws : List Str) : List Str :=
  let d := collect 0 ws (fun _ => none)
  ws.mapIdx (fun i w => join [';'] ((items w).map (fun it => ann d i it.1)))

/-- `c.lower()` for the characters of types -/
def lower (c : Char) : Char := if 65 ≤ c.toNat ∧ c.toNat ≤ 90 then Char.ofNat (c.toNat + 32) else c

/-- `re.sub(r"\.", '', mwes[m]['type'].lower())` (tosubdeprels.py:57) -/
def subType (d : Dict) (m : Str) : Str := ((((d m).getD ([], [])).2).map lower).filter (fun c => c != '.')

/-- The loop over the numbers of one word (tosubdeprels.py:55-60); `up` are the numbers of the parent, none for the root. -/
def addSubs (d : Dict) (up : List Str) : List Str → Str → Str
  | [], rel => rel
  | m :: ms, rel => addSubs d up ms (if m ∈ up then rel ++ [':'] ++ subType d m else rel)

/-- `process_tree(root)` of mwe.ToSubDeprels (tosubdeprels.py:48-62); `par i` is `n.parent.ord`. -/
def toSub (par : Nat → Nat) (ws rels : List Str) : List Str :=
  let d := collect 0 ws (fun _ => none)
  rels.mapIdx (fun i rel =>
    let up := if par i > 0 then (items ((ws[par i - 1]?).getD [])).map (·.1) else []
    addSubs d up ((items ((ws[i]?).getD [])).map (·.1)) rel)

/-! ## What the properties say -/

/-- A part of Mwe names the expression `m`, and its type if `t` is not `none`. -/
def Names (p m : Str) (t : Option Str) : Prop :=
  m ≠ [] ∧ (∀ c ∈ m, isDigit c = true) ∧
  ∃ e, (e = [] ∨ e = ['\n']) ∧
    (t = none ∧ p = m ++ e ∨ ∃ u, t = some u ∧ u ≠ [] ∧ (∀ c ∈ u, isTyp c = true) ∧ p = m ++ [':'] ++ u ++ e)

/-- The numbers of the expressions a word belongs to. -/
def nums (w : Str) : List Str := (items w).map (·.1)

/-- The word at position `i` is the first one of the expression `m`. -/
def First (ws : List Str) (m : Str) (i : Nat) : Prop :=
  (∃ w, ws[i]? = some w ∧ m ∈ nums w) ∧ ∀ (j : Nat) (w : Str), j < i → ws[j]? = some w → m ∉ nums w

/-- Some word gives the type of the expression `m`. -/
def Typed (ws : List Str) (m : Str) : Prop := ∃ w ∈ ws, ∃ t, (m, some t) ∈ items w

/-- The items of all words in their order. -/
def allItems (ws : List Str) : List (Str × Option Str) := ws.flatMap items

/-- `t` is the last type given for the expression `m`. -/
def LastType (ws : List Str) (m t : Str) : Prop :=
  ∃ A B, allItems ws = A ++ (m, some t) :: B ∧ ∀ u, (m, some u) ∉ B

/-! ## Parsing -/

theorem takeWhile_app {p : Char → Bool} {a b : Str} (ha : ∀ c ∈ a, p c = true) (hb : ∀ c, b.head? = some c → p c = false) :
    (a ++ b).takeWhile p = a ∧ (a ++ b).dropWhile p = b := by
  induction a with
  | nil =>
    cases b with
    | nil => exact ⟨rfl, rfl⟩
    | cons c b =>
      have := hb c rfl
      simp [this]
  | cons c a ih =>
    have hc := ha c List.mem_cons_self
    have := ih (fun d hd => ha d (List.mem_cons_of_mem _ hd))
    simp [hc, this]

theorem dollar_app {s e : Str} (he : e = [] ∨ e = ['\n']) (hs : s.getLast? ≠ some '\n') : dollar (s ++ e) = s := by
  unfold dollar
  rcases he with rfl | rfl
  · rw [List.append_nil, if_neg hs]
  · rw [if_pos (by simp)]; simp

theorem dollar_cases (s : Str) : ∃ e, (e = [] ∨ e = ['\n']) ∧ s = dollar s ++ e := by
  unfold dollar
  by_cases h : s.getLast? = some '\n'
  · rw [if_pos h]
    obtain ⟨t, rfl⟩ := List.getLast?_eq_some_iff.1 h
    exact ⟨['\n'], Or.inr rfl, by simp⟩
  · rw [if_neg h]; exact ⟨[], Or.inl rfl, by simp⟩

theorem last_of_all {p : Char → Bool} {s : Str} (h : ∀ c ∈ s, p c = true) (hp : p '\n' = false) : s.getLast? ≠ some '\n' := by
  intro hl
  have := h _ (List.mem_of_getLast? hl)
  rw [hp] at this
  cases this

/-- The parser reads exactly the documented format. -/
theorem parse_iff (p m : Str) (t : Option Str) : parseItem p = some (m, t) ↔ Names p m t := by
  constructor
  · intro h
    unfold parseItem at h
    simp only at h
    obtain ⟨e, he, hs⟩ := dollar_cases p
    have hd : ∀ c ∈ (dollar p).takeWhile isDigit, isDigit c = true := fun c hc => by
      have := List.all_takeWhile (p := isDigit) (l := dollar p)
      exact List.all_eq_true.1 this c hc
    have hj := List.takeWhile_append_dropWhile (p := isDigit) (l := dollar p)
    split at h
    · cases h
    · rename_i hne
      split at h
      · rename_i hr
        cases h
        refine ⟨hne, hd, e, he, Or.inl ⟨rfl, ?_⟩⟩
        rw [hr, List.append_nil] at hj
        rw [hj]; exact hs
      · rename_i c u hr
        split at h
        · rename_i hc
          cases h
          refine ⟨hne, hd, e, he, Or.inr ⟨u, rfl, hc.2.1, fun c hc' => List.all_eq_true.1 hc.2.2 c hc', ?_⟩⟩
          rw [hr, hc.1] at hj
          have : (dollar p).takeWhile isDigit ++ [':'] ++ u = dollar p := by rw [← hj]; simp [hj]
          rw [this]; exact hs
        · cases h
  · rintro ⟨hm, hd, e, he, ⟨rfl, rfl⟩ | ⟨u, rfl, hu, hu', rfl⟩⟩
    · unfold parseItem
      simp only
      rw [dollar_app he (last_of_all hd (by decide))]
      obtain ⟨e1, e2⟩ := takeWhile_app (p := isDigit) (a := m) (b := []) hd (by simp)
      rw [List.append_nil] at e1 e2
      rw [e1, e2, if_neg hm]
    · unfold parseItem
      simp only
      have hl : (m ++ [':'] ++ u).getLast? ≠ some '\n' := by
        have h0 := last_of_all hu' (by decide)
        obtain ⟨a, u', rfl⟩ := (List.eq_nil_or_concat u).resolve_left hu
        rw [List.concat_eq_append] at h0 ⊢
        rw [← List.append_assoc]
        rw [List.getLast?_append, List.getLast?_singleton] at h0 ⊢
        exact h0
      rw [dollar_app he hl]
      obtain ⟨e1, e2⟩ := takeWhile_app (p := isDigit) (a := m) (b := ':' :: u) hd (by
        intro c hc; cases hc; decide)
      rw [show m ++ [':'] ++ u = m ++ ':' :: u by simp, e1, e2, if_neg hm]
      simp only
      rw [if_pos ⟨trivial, hu, List.all_eq_true.2 hu'⟩]

/-! ## The dictionary -/

def P (d : Dict) (m : Str) : List Nat := ((d m).getD ([], [])).1
def T (d : Dict) (m : Str) : Str := ((d m).getD ([], [])).2

/-- The positions of the words of `m`. -/
def posOf : Nat → List Str → Str → List Nat
  | _, [], _ => []
  | k, w :: ws, m => ((items w).filter (fun it => decide (it.1 = m))).map (fun _ => k) ++ posOf (k + 1) ws m

def lastT (m : Str) (L : List (Str × Option Str)) (acc : Str) : Str :=
  L.foldl (fun acc it => if it.1 = m then it.2.getD acc else acc) acc

theorem add_P (i : Nat) (m : Str) : ∀ (L : List (Str × Option Str)) (d : Dict),
    P (L.foldl (addItem i) d) m = P d m ++ (L.filter (fun it => decide (it.1 = m))).map (fun _ => i) ∧
    T (L.foldl (addItem i) d) m = lastT m L (T d m) := by
  intro L
  induction L with
  | nil => intro d; exact ⟨by simp, rfl⟩
  | cons it L ih =>
    intro d
    rw [List.foldl_cons]
    obtain ⟨h1, h2⟩ := ih (addItem i d it)
    rw [h1, h2]
    by_cases h : m = it.1
    · subst h
      have e1 : P (addItem i d it) it.1 = P d it.1 ++ [i] := by simp [P, addItem]
      have e2 : T (addItem i d it) it.1 = it.2.getD (T d it.1) := by
        simp only [T, addItem, if_true, Option.getD_some]
        cases it.2 <;> rfl
      constructor
      · rw [e1, List.filter_cons, if_pos (by simp), List.map_cons, List.append_assoc]; rfl
      · rw [e2]; simp [lastT]
    · have h' : it.1 ≠ m := fun e => h e.symm
      have e1 : P (addItem i d it) m = P d m := by simp [P, addItem, h]
      have e2 : T (addItem i d it) m = T d m := by simp [T, addItem, h]
      constructor
      · rw [e1, List.filter_cons, if_neg (by simp [h'])]
      · rw [e2]; simp [lastT, h']

theorem collect_PT (m : Str) : ∀ (ws : List Str) (k : Nat) (d : Dict),
    P (collect k ws d) m = P d m ++ posOf k ws m ∧ T (collect k ws d) m = lastT m (allItems ws) (T d m) := by
  intro ws
  induction ws with
  | nil => intro k d; exact ⟨by simp [collect, posOf], rfl⟩
  | cons w ws ih =>
    intro k d
    rw [collect]
    obtain ⟨h1, h2⟩ := ih (k + 1) ((items w).foldl (addItem k) d)
    obtain ⟨h3, h4⟩ := add_P k m (items w) d
    rw [h1, h2, h3, h4]
    exact ⟨by rw [posOf, List.append_assoc], by simp [lastT, allItems, List.foldl_append]⟩

theorem ann_PT (d : Dict) (i : Nat) (m : Str) : ann d i m = if (P d m).head? = some i then m ++ [':'] ++ T d m else m := by
  unfold ann P T
  cases hd : d m with
  | none => simp
  | some e =>
    obtain ⟨l, t⟩ := e
    cases l with
    | nil => simp
    | cons i0 l =>
      simp only [Option.getD_some, List.head?_cons, Option.some.injEq]
      by_cases h : i = i0
      · rw [if_pos h, if_pos h.symm]
      · rw [if_neg h, if_neg (fun e => h e.symm)]

theorem first_pos (m : Str) : ∀ (ws : List Str) (k i : Nat), (posOf k ws m).head? = some i ↔ ∃ j, i = k + j ∧ First ws m j := by
  intro ws
  induction ws with
  | nil =>
    intro k i
    constructor
    · intro h; cases h
    · rintro ⟨j, _, ⟨w, hw, _⟩, _⟩; simp at hw
  | cons w ws ih =>
    intro k i
    rw [posOf]
    by_cases hm : m ∈ nums w
    · obtain ⟨it, hit, rfl⟩ := List.mem_map.1 hm
      have hf : (items w).filter (fun x => decide (x.1 = it.1)) ≠ [] := by
        intro h
        rw [List.filter_eq_nil_iff] at h
        exact h it hit (by simp)
      obtain ⟨a, l, e⟩ := List.exists_cons_of_ne_nil hf
      rw [e]
      simp only [List.map_cons, List.cons_append, List.head?_cons, Option.some.injEq]
      constructor
      · rintro rfl
        exact ⟨0, rfl, ⟨w, rfl, hm⟩, fun j _ h => absurd h (Nat.not_lt_zero _)⟩
      · rintro ⟨j, rfl, h1, h2⟩
        cases j with
        | zero => rfl
        | succ j => exact absurd hm (h2 0 w (Nat.succ_pos _) rfl)
    · have hf : (items w).filter (fun x => decide (x.1 = m)) = [] := by
        rw [List.filter_eq_nil_iff]
        intro x hx h
        exact hm (List.mem_map.2 ⟨x, hx, by simpa using h⟩)
      rw [hf]
      simp only [List.map_nil, List.nil_append]
      rw [ih]
      constructor
      · rintro ⟨j, rfl, ⟨v, hv, h1⟩, h2⟩
        refine ⟨j + 1, by omega, ⟨v, by simpa using hv, h1⟩, ?_⟩
        intro l u hl hu
        cases l with
        | zero => simp at hu; rw [← hu]; exact hm
        | succ l => exact h2 l u (by omega) (by simpa using hu)
      · rintro ⟨j, rfl, ⟨v, hv, h1⟩, h2⟩
        cases j with
        | zero => simp at hv; rw [← hv] at h1; exact absurd h1 hm
        | succ j => exact ⟨j, by omega, ⟨v, by simpa using hv, h1⟩, fun l u hl hu => h2 (l + 1) u (by omega) (by simpa using hu)⟩

theorem lastT_last {m t : Str} {L A B : List (Str × Option Str)} (h : L = A ++ (m, some t) :: B) (hB : ∀ u, (m, some u) ∉ B) (acc : Str) :
    lastT m L acc = t := by
  subst h
  unfold lastT
  rw [List.foldl_append, List.foldl_cons]
  simp only [if_true, Option.getD_some]
  have : ∀ (B : List (Str × Option Str)), (∀ u, (m, some u) ∉ B) → ∀ acc : Str,
      B.foldl (fun acc it => if it.1 = m then it.2.getD acc else acc) acc = acc := by
    intro B
    induction B with
    | nil => intro _ acc; rfl
    | cons it B ih =>
      intro hB acc
      rw [List.foldl_cons]
      have : (if it.1 = m then it.2.getD acc else acc) = acc := by
        obtain ⟨n, o⟩ := it
        split
        · rename_i e
          simp only at e
          subst e
          cases o with
          | none => rfl
          | some u => exact absurd List.mem_cons_self (hB u)
        · rfl
      rw [this]
      exact ih (fun u hu => hB u (List.mem_cons_of_mem _ hu)) acc
  exact this B hB t

theorem last_exists {m : Str} : ∀ (L : List (Str × Option Str)), (∃ t, (m, some t) ∈ L) →
    ∃ t A B, L = A ++ (m, some t) :: B ∧ ∀ u, (m, some u) ∉ B := by
  intro L
  induction L with
  | nil => rintro ⟨t, h⟩; cases h
  | cons it L ih =>
    rintro ⟨t, h⟩
    by_cases hL : ∃ t, (m, some t) ∈ L
    · obtain ⟨t, A, B, e, hB⟩ := ih hL
      exact ⟨t, it :: A, B, by rw [e]; rfl, hB⟩
    · rcases List.mem_cons.1 h with h | h
      · exact ⟨t, [], L, by rw [← h]; rfl, fun u hu => hL ⟨u, hu⟩⟩
      · exact absurd ⟨t, h⟩ hL

theorem lastT_none {m : Str} : ∀ (L : List (Str × Option Str)) (acc : Str), (∀ u, (m, some u) ∉ L) → lastT m L acc = acc := by
  intro L
  induction L with
  | nil => intro acc _; rfl
  | cons it L ih =>
    intro acc h
    have e : lastT m (it :: L) acc = lastT m L (if it.1 = m then it.2.getD acc else acc) := rfl
    rw [e, ih _ (fun u hu => h u (List.mem_cons_of_mem _ hu))]
    obtain ⟨n, o⟩ := it
    split
    · rename_i e
      simp only at e
      subst e
      cases o with
      | none => rfl
      | some u => exact absurd List.mem_cons_self (h u)
    · rfl

/-- The dictionary of a tree. -/
def dict (ws : List Str) : Dict := collect 0 ws (fun _ => none)

/-- The type of the expression `m` in the dictionary. -/
theorem dict_type {ws : List Str} {m t : Str} (h : LastType ws m t) : T (dict ws) m = t := by
  obtain ⟨A, B, e, hB⟩ := h
  rw [dict, (collect_PT m ws 0 _).2]
  exact lastT_last e hB _

theorem typed_last {ws : List Str} {m : Str} (h : Typed ws m) : ∃ t, LastType ws m t := by
  obtain ⟨w, hw, t, ht⟩ := h
  obtain ⟨t, A, B, e, hB⟩ := last_exists (allItems ws) ⟨t, List.mem_flatMap.2 ⟨w, hw, ht⟩⟩
  exact ⟨t, A, B, e, hB⟩

theorem dict_untyped {ws : List Str} {m : Str} (h : ¬ Typed ws m) : T (dict ws) m = [] := by
  rw [dict, (collect_PT m ws 0 _).2]
  exact lastT_none _ _ (fun u hu => h (by
    obtain ⟨w, hw, ht⟩ := List.mem_flatMap.1 hu
    exact ⟨w, hw, u, ht⟩))

theorem dict_first {ws : List Str} {m : Str} {i : Nat} : (P (dict ws) m).head? = some i ↔ First ws m i := by
  rw [dict, (collect_PT m ws 0 _).1]
  have : P (fun _ => none) m ++ posOf 0 ws m = posOf 0 ws m := rfl
  rw [this, first_pos]
  constructor
  · rintro ⟨j, rfl, h⟩; rw [Nat.zero_add]; exact h
  · intro h; exact ⟨i, by omega, h⟩

/-- Every number of a word is in the dictionary, with a first word: no `KeyError` or `IndexError`. -/
theorem dict_has {ws : List Str} {m w : Str} (hw : w ∈ ws) (hm : m ∈ nums w) : ∃ i l t, dict ws m = some (i :: l, t) := by
  have hh : posOf 0 ws m ≠ [] := by
    have : ∀ (ws : List Str) k, w ∈ ws → posOf k ws m ≠ [] := by
      intro ws
      induction ws with
      | nil => intro k h; cases h
      | cons v ws ih =>
        intro k h
        rw [posOf]
        rcases List.mem_cons.1 h with h | h
        · subst h
          obtain ⟨it, hit, rfl⟩ := List.mem_map.1 hm
          intro e
          have e := (List.append_eq_nil_iff.1 e).1
          rw [List.map_eq_nil_iff, List.filter_eq_nil_iff] at e
          exact e it hit (by simp)
        · intro e; exact ih _ h (List.append_eq_nil_iff.1 e).2
    exact this ws 0 hw
  have e := (collect_PT m ws 0 (fun _ => none)).1
  rw [show P (fun _ => none) m ++ posOf 0 ws m = posOf 0 ws m from rfl] at e
  rw [dict]
  unfold P at e
  cases hd : collect 0 ws (fun _ => none) m with
  | none => rw [hd] at e; exact absurd e.symm hh
  | some x =>
    obtain ⟨l, t⟩ := x
    rw [hd] at e
    simp only [Option.getD_some] at e
    cases l with
    | nil => exact absurd e.symm hh
    | cons i l => exact ⟨i, l, t, rfl⟩

/-! ## Normalization -/

theorem names_items {w m : Str} {t : Option Str} (h : (m, t) ∈ items w) :
    (m ≠ [] ∧ ∀ c ∈ m, isDigit c = true) ∧ ∀ u, t = some u → u ≠ [] ∧ ∀ c ∈ u, isTyp c = true := by
  unfold items at h
  split at h
  · obtain ⟨p, _, hp⟩ := List.mem_filterMap.1 h
    obtain ⟨h1, h2, e, _, h3⟩ := (parse_iff p m t).1 hp
    refine ⟨⟨h1, h2⟩, ?_⟩
    rintro u rfl
    rcases h3 with ⟨h3, _⟩ | ⟨u', h3, h4, h5, _⟩
    · cases h3
    · cases h3; exact ⟨h4, h5⟩
  · cases h

theorem no_semi {p : Char → Bool} (hp : p ';' = false) {s : Str} (h : ∀ c ∈ s, p c = true) : ';' ∉ s := by
  intro hm
  rw [h _ hm] at hp
  cases hp

theorem items_join {α : Type} (f : α → Str) (g : α → Str × Option Str) : ∀ (L : List α),
    (∀ x ∈ L, ';' ∉ f x ∧ parseItem (f x) = some (g x)) → items (join [';'] (L.map f)) = L.map g := by
  intro L h
  cases L with
  | nil => rfl
  | cons x L =>
    have hne : f x ≠ [] := by
      intro e
      have := (h x List.mem_cons_self).2
      rw [e] at this
      exact absurd this (by simp [parseItem, dollar])
    have hj : join [';'] ((x :: L).map f) ≠ [] := by
      rw [List.map_cons]
      cases hL : L.map f with
      | nil => exact hne
      | cons y L' => rw [join]; simp
    unfold items
    rw [if_pos hj, split_join (by simp) (by
      intro p hp
      obtain ⟨y, hy, rfl⟩ := List.mem_map.1 hp
      exact (h y hy).1)]
    rw [List.filterMap_map]
    have : ∀ (M : List α), (∀ y ∈ M, parseItem (f y) = some (g y)) → M.filterMap (parseItem ∘ f) = M.map g := by
      intro M
      induction M with
      | nil => intro _; rfl
      | cons y M ih =>
        intro hM
        rw [List.filterMap_cons, Function.comp_apply, hM y List.mem_cons_self, List.map_cons, ih (fun z hz => hM z (List.mem_cons_of_mem _ hz))]
    exact this _ (fun y hy => (h y hy).2)

/-- The annotation of the word at position `i` after the normalization. -/
noncomputable def newItem (ws : List Str) (i : Nat) (m : Str) : Str × Option Str :=
  open Classical in (m, if First ws m i then some (T (dict ws) m) else none)

theorem ann_first {ws : List Str} {i : Nat} {m : Str} (h : First ws m i) : ann (dict ws) i m = m ++ [':'] ++ T (dict ws) m := by
  rw [ann_PT, if_pos (dict_first.2 h)]

theorem ann_rest {ws : List Str} {i : Nat} {m : Str} (h : ¬ First ws m i) : ann (dict ws) i m = m := by
  rw [ann_PT, if_neg (fun e => h (dict_first.1 e))]

theorem ann_names {ws : List Str} {i : Nat} {m w : Str} {o : Option Str} (hw : (m, o) ∈ items w) (ht : Typed ws m) :
    ';' ∉ ann (dict ws) i m ∧ parseItem (ann (dict ws) i m) = some (newItem ws i m) := by
  obtain ⟨⟨h1, h2⟩, _⟩ := names_items hw
  obtain ⟨t, hlt⟩ := typed_last ht
  have e := dict_type hlt
  obtain ⟨A, B, hA, _⟩ := hlt
  have hmem : (m, some t) ∈ allItems ws := by rw [hA]; simp
  obtain ⟨v, _, hv⟩ := List.mem_flatMap.1 hmem
  obtain ⟨_, h3⟩ := names_items hv
  obtain ⟨h4, h5⟩ := h3 t rfl
  by_cases hf : First ws m i
  · rw [ann_first hf, e]
    constructor
    · simp only [List.mem_append, List.mem_singleton, not_or]
      exact ⟨⟨no_semi (by decide) h2, by decide⟩, no_semi (by decide) h5⟩
    · rw [parse_iff]
      unfold newItem
      rw [if_pos hf, e]
      exact ⟨h1, h2, [], Or.inl rfl, Or.inr ⟨t, rfl, h4, h5, by simp⟩⟩
  · rw [ann_rest hf]
    refine ⟨no_semi (by decide) h2, ?_⟩
    rw [parse_iff]
    unfold newItem
    rw [if_neg hf]
    exact ⟨h1, h2, [], Or.inl rfl, Or.inl ⟨rfl, by simp⟩⟩

theorem getElem_normalize (ws : List Str) (i : Nat) : (normalize ws)[i]? =
    (ws[i]?).map (fun w => join [';'] ((items w).map (fun it => ann (dict ws) i it.1))) := by
  unfold normalize dict
  simp only [List.getElem?_mapIdx]

theorem items_normalize {ws : List Str} (h : ∀ w ∈ ws, ∀ m ∈ nums w, Typed ws m) {i : Nat} {w w' : Str} (hw : ws[i]? = some w)
    (hw' : (normalize ws)[i]? = some w') : items w' = (nums w).map (newItem ws i) := by
  rw [getElem_normalize, hw, Option.map_some] at hw'
  cases hw'
  rw [items_join (fun it : Str × Option Str => ann (dict ws) i it.1) (fun it => newItem ws i it.1)]
  · unfold nums; rw [List.map_map]; rfl
  · intro it hit
    exact ann_names (o := it.2) hit (h w (List.mem_of_getElem? hw) _ (List.mem_map_of_mem hit))

theorem nums_normalize {ws : List Str} (h : ∀ w ∈ ws, ∀ m ∈ nums w, Typed ws m) {i : Nat} {w w' : Str} (hw : ws[i]? = some w)
    (hw' : (normalize ws)[i]? = some w') : nums w' = nums w := by
  unfold nums
  rw [items_normalize h hw hw', List.map_map]
  have : ((fun x : Str × Option Str => x.1) ∘ newItem ws i) = id := rfl
  rw [this, List.map_id]
  rfl

theorem first_normalize {ws : List Str} (h : ∀ w ∈ ws, ∀ m ∈ nums w, Typed ws m) (m : Str) (i : Nat) :
    First (normalize ws) m i ↔ First ws m i := by
  have hlen : ∀ j : Nat, (normalize ws)[j]? = none ↔ ws[j]? = none := fun j => by rw [getElem_normalize, Option.map_eq_none_iff]
  have hn : ∀ (j : Nat) (w' : Str), (normalize ws)[j]? = some w' → ∃ w, ws[j]? = some w ∧ nums w' = nums w := by
    intro j w' hw'
    cases hw : ws[j]? with
    | none => rw [(hlen j).2 hw] at hw'; cases hw'
    | some w => exact ⟨w, rfl, nums_normalize h hw hw'⟩
  have hn' : ∀ (j : Nat) (w : Str), ws[j]? = some w → ∃ w', (normalize ws)[j]? = some w' ∧ nums w' = nums w := by
    intro j w hw
    cases hw' : (normalize ws)[j]? with
    | none => rw [(hlen j).1 hw'] at hw; cases hw
    | some w' => exact ⟨w', rfl, nums_normalize h hw hw'⟩
  constructor
  · rintro ⟨⟨w', hw', hm⟩, h2⟩
    obtain ⟨w, hw, e⟩ := hn i w' hw'
    refine ⟨⟨w, hw, e ▸ hm⟩, ?_⟩
    intro j v hj hv
    obtain ⟨v', hv', e⟩ := hn' j v hv
    exact e ▸ h2 j v' hj hv'
  · rintro ⟨⟨w, hw, hm⟩, h2⟩
    obtain ⟨w', hw', e⟩ := hn' i w hw
    refine ⟨⟨w', hw', e.symm ▸ hm⟩, ?_⟩
    intro j v' hj hv'
    obtain ⟨v, hv, e⟩ := hn j v' hv'
    exact e.symm ▸ h2 j v hj hv

theorem first_exists {ws : List Str} {m : Str} : ∀ (i : Nat) (w : Str), ws[i]? = some w → m ∈ nums w → ∃ j, First ws m j := by
  intro i
  induction i using Nat.strongRecOn with
  | _ i ih =>
    intro w hw hm
    by_cases h : ∃ j v, j < i ∧ ws[j]? = some v ∧ m ∈ nums v
    · obtain ⟨j, v, hj, hv, hm'⟩ := h
      exact ih j hj v hv hm'
    · exact ⟨i, ⟨w, hw, hm⟩, fun j v hj hv hm' => h ⟨j, v, hj, hv, hm'⟩⟩

theorem type_normalize {ws : List Str} (h : ∀ w ∈ ws, ∀ m ∈ nums w, Typed ws m) {i : Nat} {w m : Str} (hw : ws[i]? = some w) (hm : m ∈ nums w) :
    T (dict (normalize ws)) m = T (dict ws) m := by
  have key : ∀ u, (m, some u) ∈ allItems (normalize ws) → u = T (dict ws) m := by
    intro u hu
    obtain ⟨v', hv', hmem⟩ := List.mem_flatMap.1 hu
    obtain ⟨j, hj⟩ := List.mem_iff_getElem?.1 hv'
    cases hv : ws[j]? with
    | none => rw [getElem_normalize, hv] at hj; cases hj
    | some v =>
      rw [items_normalize h hv hj] at hmem
      obtain ⟨m', _, e⟩ := List.mem_map.1 hmem
      unfold newItem at e
      simp only [Prod.mk.injEq] at e
      obtain ⟨rfl, e⟩ := e
      split at e
      · exact (Option.some.inj e).symm
      · cases e
  have hT : Typed (normalize ws) m := by
    obtain ⟨j, hj⟩ := first_exists i w hw hm
    obtain ⟨⟨v, hv, hmv⟩, _⟩ := id hj
    have hv' := getElem_normalize ws j
    rw [hv, Option.map_some] at hv'
    refine ⟨_, List.mem_of_getElem? hv', T (dict ws) m, ?_⟩
    rw [items_normalize h hv hv']
    refine List.mem_map.2 ⟨m, hmv, ?_⟩
    unfold newItem
    rw [if_pos hj]
  obtain ⟨t, ht⟩ := typed_last hT
  rw [dict_type ht]
  obtain ⟨A, B, e, _⟩ := ht
  exact key t (by rw [e]; simp)

/-- **C151 (with types).** If some word gives the type of each expression, then the words keep their expressions in their order,
every annotation can be read, the type is given at the first word of each expression and only there, and it is the last type that
was given before. A second run changes nothing. -/
theorem C151_result_partial {ws : List Str} (h : ∀ w ∈ ws, ∀ m ∈ nums w, Typed ws m) :
    (normalize ws).length = ws.length ∧
    (∀ (i : Nat) (w w' : Str), ws[i]? = some w → (normalize ws)[i]? = some w' →
      nums w' = nums w ∧ (∀ p ∈ split ';' w', w' ≠ [] → ∃ m t, Names p m t) ∧
      ∀ m t, (m, t) ∈ items w' → (t ≠ none ↔ First ws m i) ∧ ∀ u, t = some u → LastType ws m u) ∧
    normalize (normalize ws) = normalize ws := by
  refine ⟨by simp [normalize], ?_, ?_⟩
  · intro i w w' hw hw'
    refine ⟨nums_normalize h hw hw', ?_, ?_⟩
    · intro p hp hne
      rw [getElem_normalize, hw, Option.map_some] at hw'
      cases hw'
      have hne' : (items w).map (fun it => ann (dict ws) i it.1) ≠ [] := by
        intro e; rw [e] at hne; exact hne rfl
      have hall : ∀ it ∈ items w, ';' ∉ ann (dict ws) i it.1 ∧ parseItem (ann (dict ws) i it.1) = some (newItem ws i it.1) :=
        fun it hit => ann_names (o := it.2) hit (h w (List.mem_of_getElem? hw) _ (List.mem_map_of_mem hit))
      rw [split_join hne' (by
        intro q hq
        obtain ⟨it, hit, rfl⟩ := List.mem_map.1 hq
        exact (hall it hit).1)] at hp
      obtain ⟨it, hit, rfl⟩ := List.mem_map.1 hp
      exact ⟨_, _, (parse_iff _ _ _).1 (hall it hit).2⟩
    · intro m t hmt
      rw [items_normalize h hw hw'] at hmt
      obtain ⟨m', hm', e⟩ := List.mem_map.1 hmt
      unfold newItem at e
      simp only [Prod.mk.injEq] at e
      obtain ⟨rfl, rfl⟩ := e
      constructor
      · by_cases hf : First ws m' i
        · simp [hf]
        · simp [hf]
      · intro u hu
        split at hu
        · cases hu
          obtain ⟨t, ht⟩ := typed_last (h w (List.mem_of_getElem? hw) m' hm')
          rw [dict_type ht]
          exact ht
        · cases hu
  · apply List.ext_getElem?
    intro i
    rw [getElem_normalize]
    cases hw : ws[i]? with
    | none => rw [getElem_normalize, hw]; rfl
    | some w =>
      have hw' := getElem_normalize ws i
      rw [hw, Option.map_some] at hw'
      rw [hw', Option.map_some, Option.some.injEq, items_normalize h hw hw', List.map_map]
      unfold nums
      rw [List.map_map]
      congr 1
      apply List.map_congr_left
      intro it hit
      have hm : it.1 ∈ nums w := List.mem_map_of_mem hit
      show ann (dict (normalize ws)) i it.1 = ann (dict ws) i it.1
      by_cases hf : First ws it.1 i
      · rw [ann_first hf, ann_first ((first_normalize h _ _).2 hf), type_normalize h hw hm]
      · rw [ann_rest hf, ann_rest (fun e => hf ((first_normalize h _ _).1 e))]

/-- **C151 violated (without types).** The first word of an expression without a type gets an annotation that cannot be read:
the word does not belong to the expression any more. -/
theorem C151_untyped_violated {ws : List Str} {m w w' : Str} {i : Nat} (hf : First ws m i) (hw : ws[i]? = some w) (ht : ¬ Typed ws m)
    (hw' : (normalize ws)[i]? = some w') : m ∈ nums w ∧ m ∉ nums w' ∧ m ++ [':'] ∈ split ';' w' ∧ ∀ k t, ¬ Names (m ++ [':']) k t := by
  obtain ⟨⟨v, hv, hm⟩, _⟩ := id hf
  rw [hw] at hv
  cases hv
  rw [getElem_normalize, hw, Option.map_some] at hw'
  cases hw'
  have hbad : ∀ k t, ¬ Names (m ++ [':']) k t := by
    rintro k t ⟨h1, h2, e, he, ⟨_, h3⟩ | ⟨u, _, h4, h5, h3⟩⟩
    · rcases he with rfl | rfl
      · rw [List.append_nil] at h3
        have := h2 ':' (by rw [← h3]; simp)
        exact absurd this (by decide)
      · have := congrArg List.getLast? h3
        simp at this
    · have hl := congrArg List.getLast? h3
      rcases he with rfl | rfl
      · obtain ⟨a, x, rfl⟩ := (List.eq_nil_or_concat u).resolve_left h4
        rw [List.append_nil, List.concat_eq_append, ← List.append_assoc, List.getLast?_append, List.getLast?_append,
          List.getLast?_singleton, List.getLast?_singleton] at hl
        simp only [Option.some_or, Option.some.injEq] at hl
        have := h5 x (by simp)
        rw [← hl] at this
        exact absurd this (by decide)
      · rw [List.getLast?_append, List.getLast?_append, List.getLast?_singleton, List.getLast?_singleton] at hl
        exact absurd (Option.some.inj hl) (by decide)
  have hns : ∀ p ∈ (items w).map (fun it => ann (dict ws) i it.1), ';' ∉ p := by
    intro p hp
    obtain ⟨it, hit, rfl⟩ := List.mem_map.1 hp
    obtain ⟨⟨h1, h2⟩, _⟩ := names_items (t := it.2) hit
    by_cases hi : First ws it.1 i
    · rw [ann_first hi]
      simp only [List.mem_append, List.mem_singleton, not_or]
      refine ⟨⟨no_semi (by decide) h2, by decide⟩, ?_⟩
      by_cases hty : Typed ws it.1
      · obtain ⟨t, hlt⟩ := typed_last hty
        rw [dict_type hlt]
        obtain ⟨A, B, hA, _⟩ := hlt
        have hmem : (it.1, some t) ∈ allItems ws := by rw [hA]; simp
        obtain ⟨v, _, hv⟩ := List.mem_flatMap.1 hmem
        exact no_semi (by decide) ((names_items hv).2 t rfl).2
      · rw [dict_untyped hty]; simp
    · rw [ann_rest hi]; exact no_semi (by decide) h2
  have hne : (items w).map (fun it => ann (dict ws) i it.1) ≠ [] := by
    intro e
    rw [List.map_eq_nil_iff] at e
    unfold nums at hm
    rw [e] at hm
    cases hm
  have hann : ann (dict ws) i m = m ++ [':'] := by rw [ann_first hf, dict_untyped ht, List.append_nil]
  refine ⟨hm, ?_, ?_, hbad⟩
  · intro hmem
    obtain ⟨⟨m', t⟩, hit, rfl⟩ := List.mem_map.1 hmem
    generalize hL : (items w).map (fun it => ann (dict ws) i it.1) = L at hit hne hns
    unfold items at hit
    split at hit
    · rw [split_join hne hns] at hit
      rw [← hL] at hit
      obtain ⟨p, hp, hparse⟩ := List.mem_filterMap.1 hit
      obtain ⟨it, hitw, rfl⟩ := List.mem_map.1 hp
      have hN := (parse_iff _ _ _).1 hparse
      obtain ⟨⟨k1, k2⟩, _⟩ := names_items (t := it.2) hitw
      -- the number read is the number of the item
      have hnum : ∀ n : Str, n ≠ [] → (∀ c ∈ n, isDigit c = true) → ∀ r : Str, (∀ c, r.head? = some c → isDigit c = false) →
          ∀ k t, Names (n ++ r) k t → k = n := by
        intro n hn1 hn2 r hr k t hk
        obtain ⟨hk1, hk2, e, he, hk3⟩ := hk
        have e1 := (takeWhile_app (p := isDigit) hn2 hr).1
        have : ∃ q, n ++ r = k ++ q ∧ ∀ c, q.head? = some c → isDigit c = false := by
          rcases hk3 with ⟨_, h3⟩ | ⟨u, _, _, _, h3⟩
          · refine ⟨e, h3, ?_⟩
            rcases he with rfl | rfl
            · simp
            · intro c hc; cases hc; decide
          · refine ⟨':' :: (u ++ e), by rw [h3]; simp, ?_⟩
            intro c hc; cases hc; decide
        obtain ⟨q, hq, hq'⟩ := this
        have e2 := (takeWhile_app (p := isDigit) hk2 hq').1
        rw [← hq, e1] at e2
        exact e2.symm
      by_cases hi : First ws it.1 i
      · rw [ann_first hi, List.append_assoc] at hN
        have := hnum it.1 k1 k2 _ (by intro c hc; cases hc; decide) _ _ hN
        simp only at this hann
        rw [← this, ann_first (this ▸ hi)] at hparse
        rw [dict_untyped ht, List.append_nil] at hparse
        exact hbad _ _ ((parse_iff _ _ _).1 hparse)
      · rw [ann_rest hi, ← List.append_nil it.1] at hN
        have := hnum it.1 k1 k2 [] (by simp) _ _ hN
        exact hi (this ▸ hf)
    · cases hit
  · rw [split_join hne hns]
    obtain ⟨it, hit, rfl⟩ := List.mem_map.1 hm
    exact List.mem_map.2 ⟨it, hit, hann⟩

/-! ## Subtypes of relations -/

/-- The subtype for the expression `m`: the last type given for it in lower case without dots, or nothing. -/
def Sub (ws : List Str) (m u : Str) : Prop :=
  (∃ t, LastType ws m t ∧ u = (t.map lower).filter (fun c => c != '.')) ∨ ¬ Typed ws m ∧ u = []

theorem sub_ok (ws : List Str) (m : Str) : Sub ws m (subType (dict ws) m) := by
  by_cases h : Typed ws m
  · obtain ⟨t, ht⟩ := typed_last h
    refine Or.inl ⟨t, ht, ?_⟩
    have := dict_type ht
    unfold T at this
    rw [subType, this]
  · refine Or.inr ⟨h, ?_⟩
    have := dict_untyped h
    unfold T at this
    rw [subType, this]
    rfl

theorem addSubs_eq (d : Dict) (up : List Str) : ∀ (ms : List Str) (rel : Str),
    addSubs d up ms rel = rel ++ (ms.filter (fun m => decide (m ∈ up))).flatMap (fun m => ':' :: subType d m) := by
  intro ms
  induction ms with
  | nil => intro rel; simp [addSubs]
  | cons m ms ih =>
    intro rel
    rw [addSubs, ih, List.filter_cons]
    by_cases h : m ∈ up
    · rw [if_pos h, if_pos (by simpa using h), List.flatMap_cons]; simp
    · rw [if_neg h, if_neg (by simpa using h)]

/-- **C152.** The relation of a word gets a subtype for each expression that the word shares with its parent, in their order.
Children of the root keep their relations. -/
theorem C152_result (par : Nat → Nat) (ws rels : List Str) :
    (toSub par ws rels).length = rels.length ∧
    ∀ (i : Nat) (rel rel' w : Str), rels[i]? = some rel → (toSub par ws rels)[i]? = some rel' → ws[i]? = some w →
      (par i = 0 → rel' = rel) ∧
      ∀ (j : Nat) (v : Str), par i = j + 1 → ws[j]? = some v →
        ∃ f : Str → Str, (∀ m, Sub ws m (f m)) ∧
          rel' = rel ++ ((nums w).filter (fun m => decide (m ∈ nums v))).flatMap (fun m => ':' :: f m) := by
  refine ⟨by simp [toSub], ?_⟩
  intro i rel rel' w hr hr' hw
  unfold toSub at hr'
  simp only [List.getElem?_mapIdx, hr, Option.map_some, hw, Option.getD_some, Option.some.injEq] at hr'
  rw [addSubs_eq] at hr'
  constructor
  · intro hp
    rw [← hr', if_neg (by omega)]
    simp
  · intro j v hp hv
    rw [if_pos (by omega), show par i - 1 = j by omega, hv] at hr'
    exact ⟨subType (dict ws), sub_ok ws, hr'.symm⟩

/-- **C152 (universal part).** The relation without subtypes stays. -/
theorem C152_udeprel (par : Nat → Nat) (ws rels : List Str) {i : Nat} {rel rel' u s : Str} (hr : rels[i]? = some rel)
    (hr' : (toSub par ws rels)[i]? = some rel') (h : Parts rel u s) : ∃ s', Parts rel' u s' := by
  unfold toSub at hr'
  simp only [List.getElem?_mapIdx, hr, Option.map_some, Option.some.injEq] at hr'
  rw [addSubs_eq] at hr'
  rw [← hr']
  obtain ⟨h1, h2⟩ := h
  generalize List.filter _ _ = L
  rcases h2 with ⟨rfl, _⟩ | rfl
  · cases L with
    | nil => exact ⟨[], h1, Or.inl ⟨by simp, rfl⟩⟩
    | cons m L => rw [List.flatMap_cons]; exact ⟨_, h1, Or.inr (by rw [List.cons_append]; simp; rfl)⟩
  · exact ⟨_, h1, Or.inr (List.append_assoc _ _ _)⟩

/-- **C152 violated.** If the last shared expression has no type, the relation ends with a colon. -/
theorem C152_untyped_violated (par : Nat → Nat) (ws rels : List Str) {i j : Nat} {rel rel' w v m : Str} {ms : List Str} (hr : rels[i]? = some rel)
    (hr' : (toSub par ws rels)[i]? = some rel') (hw : ws[i]? = some w) (hp : par i = j + 1) (hv : ws[j]? = some v)
    (hm : nums w = ms ++ [m]) (hm' : m ∈ nums v) (ht : ¬ Typed ws m) : rel'.getLast? = some ':' := by
  obtain ⟨f, hf, e⟩ := ((C152_result par ws rels).2 i rel rel' w hr hr' hw).2 j v hp hv
  have : f m = [] := by
    rcases hf m with ⟨t, ⟨A, B, h, _⟩, _⟩ | h
    · exfalso
      have hmem : (m, some t) ∈ allItems ws := by rw [h]; simp
      obtain ⟨x, hx, hx'⟩ := List.mem_flatMap.1 hmem
      exact ht ⟨x, hx, t, hx'⟩
    · exact h.2
  rw [e, hm, List.filter_append, List.filter_cons, if_pos (by simpa using hm'), List.flatMap_append]
  simp [this]

/-- `1:VID`, `1;2`, nothing, `2:LVC.cause`: the type of the second expression moves to the second word. -/
def exWs : List Str := [['1', ':', 'V', 'I', 'D'], ['1', ';', '2'], [], ['2', ':', 'L', 'V', 'C', '.', 'c']]

example : normalize exWs = [['1', ':', 'V', 'I', 'D'], ['1', ';', '2', ':', 'L', 'V', 'C', '.', 'c'], [], ['2']] := by decide
example : ∀ w ∈ exWs, ∀ m ∈ nums w, ∃ v ∈ exWs, ∃ it ∈ items v, it.1 = m ∧ it.2 ≠ none := by decide
example : normalize [['3'], ['3']] = [['3', ':'], ['3']] ∧ normalize [['3', ':'], ['3']] = [[], ['3', ':']] := by decide
example : toSub (fun i => if i = 3 then 2 else 0) exWs [['r'], ['o'], ['p'], ['a', ':', 'b']] =
    [['r'], ['o'], ['p'], ['a', ':', 'b', ':', 'l', 'v', 'c', 'c']] := by decide

end Verif.Blocks.Mwe
