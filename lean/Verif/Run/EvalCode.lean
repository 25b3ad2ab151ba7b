import Verif.Py.Str

/-!
# util.Eval and util.FindBug

Model of `udapi/block/util/eval.py`: the expansion of shortcuts (`expand_eval_code`, lines 52-57) and which
code is executed on which object (`process_document`, `process_bundle`, `process_tree`, lines 69-128); and
of `udapi/block/util/findbug.py` (`process_document`, lines 39-71).

Simplified: the code executed and the block inspected are not interpreted.  Executing changes neither the
document nor raises exceptions (in the part about the order).  `ws` tells which characters are whitespace
for `\S`.
-/

namespace Verif.Run.EvalCode
open Verif.Py

/-! ## Shortcuts -/

/-- `count_`. -/
def count : Str := ['c', 'o', 'u', 'n', 't', '_']

/-- `self.count[`. -/
def selfCount : Str := ['s', 'e', 'l', 'f', '.', 'c', 'o', 'u', 'n', 't', '[']

/-- `this.`. -/
def this : Str := ['t', 'h', 'i', 's', '.']

section
variable (ws : Char → Bool)

/-- Does `count_(\S+)` match at the beginning? -/
def starts : Str → Bool
  | 'c' :: 'o' :: 'u' :: 'n' :: 't' :: '_' :: x :: _ => !ws x
  | _ => false

/-- `re.sub(r'count_(\S+)', r'self.count[\1]', s)`: outside of a match (`none`), or in a match with `k`
characters of `count_` left. -/
def sub : Option Nat → Str → Str
  | none, [] => []
  | none, c :: s => if starts ws (c :: s) then selfCount ++ sub (some 5) s else c :: sub none s
  | some (_ + 1), [] => []
  | some (k + 1), _ :: s => sub (some k) s
  | some 0, [] => [']']
  | some 0, c :: s => if ws c then ']' :: c :: sub none s else c :: sub (some 0) s

/-- `s.replace('$.', 'this.')`. -/
def dollar : Str → Str
  | [] => []
  | [c] => [c]
  | c :: d :: s => if c = '$' ∧ d = '.' then this ++ dollar s else c :: dollar (d :: s)

/-- `expand_eval_code`. -/
def expand (expandCode : Bool) (s : Str) : Str := if expandCode then dollar (sub ws none s) else s

/-- `pat` is a substring of `s`. -/
def Occ (pat s : Str) : Prop := ∃ a b, s = a ++ (pat ++ b)

end

variable {ws : Char → Bool}

/-- The characters of the shortcuts are not whitespace. -/
def Plain (ws : Char → Bool) : Prop := ∀ c ∈ count ++ ['$', '.'], ws c = false

theorem starts_iff {s : Str} : starts ws s = true ↔ ∃ x t, s = count ++ x :: t ∧ ws x = false := by
  unfold starts
  split
  · rename_i x t
    constructor
    · intro h
      exact ⟨x, t, rfl, by simpa using h⟩
    · rintro ⟨y, u, h, hw⟩
      simp [count] at h
      rw [h.1, hw]
      rfl
  · rename_i h
    constructor
    · intro h'; cases h'
    · rintro ⟨x, t, rfl, _⟩
      exact absurd rfl (h x t)

theorem starts_ws (hp : Plain ws) {c : Char} (hc : ws c = true) (a b : Str) :
    starts ws (a ++ c :: b) = starts ws a := by
  have hne : ∀ x ∈ count, c ≠ x := by
    intro x hx he
    have := hp x (List.mem_append_left _ hx)
    rw [← he, hc] at this
    cases this
  have e1 := hne 'c' (by decide)
  have e2 := hne 'o' (by decide)
  have e3 := hne 'u' (by decide)
  have e4 := hne 'n' (by decide)
  have e5 := hne 't' (by decide)
  have e6 := hne '_' (by decide)
  rw [Bool.eq_iff_iff, starts_iff, starts_iff]
  constructor
  · rintro ⟨x, t, hx, hw⟩
    have e7 : c ≠ x := fun h => by rw [h, hw] at hc; cases hc
    rcases a with _ | ⟨x1, _ | ⟨x2, _ | ⟨x3, _ | ⟨x4, _ | ⟨x5, _ | ⟨x6, _ | ⟨x7, a⟩⟩⟩⟩⟩⟩⟩ <;>
      simp [count, e1, e2, e3, e4, e5, e6, e7] at hx
    exact ⟨x, a, by simp [count, hx], hw⟩
  · rintro ⟨x, t, rfl, hw⟩
    exact ⟨x, t ++ c :: b, by simp, hw⟩

theorem sub_cons (c : Char) (s : Str) : sub ws none (c :: s) =
    if starts ws (c :: s) then selfCount ++ sub ws (some 5) s else c :: sub ws none s := by rw [sub]

theorem dollar_cons (c d : Char) (s : Str) : dollar (c :: d :: s) =
    if c = '$' ∧ d = '.' then this ++ dollar s else c :: dollar (d :: s) := by rw [dollar]

theorem sub_ws (hp : Plain ws) {c : Char} (hc : ws c = true) (b : Str) : ∀ (a : Str) (m : Option Nat),
    (∀ k, m = some k → k ≤ a.length ∧ ∀ x ∈ a.take k, ws x = false) →
    sub ws m (a ++ c :: b) = sub ws m a ++ c :: sub ws none b
  | [], none, _ => by
    have := starts_ws hp hc [] b
    rw [List.nil_append] at this ⊢
    rw [sub_cons, this]
    rfl
  | [], some 0, _ => by simp [sub, hc]
  | [], some (k + 1), h => by have := (h _ rfl).1; simp at this
  | x :: a, none, _ => by
    have hs := starts_ws hp hc (x :: a) b
    rw [List.cons_append] at hs ⊢
    rw [sub, hs, sub]
    split
    · rename_i h
      have hlen : 5 ≤ a.length ∧ ∀ y ∈ a.take 5, ws y = false := by
        unfold starts at h
        split at h
        · rename_i heq
          injection heq with _ heq
          subst heq
          refine ⟨by simp, ?_⟩
          intro y hy
          apply hp
          simp at hy
          rcases hy with rfl | rfl | rfl | rfl | rfl <;> decide
        · cases h
      rw [sub_ws hp hc b a (some 5) (fun k hk => by injection hk with hk; subst hk; exact hlen)]
      simp
    · rw [sub_ws hp hc b a none (fun k hk => by cases hk)]
      rfl
  | x :: a, some 0, h => by
    rw [List.cons_append, sub, sub]
    split
    · rw [sub_ws hp hc b a none (fun k hk => by cases hk)]
      rfl
    · rw [sub_ws hp hc b a (some 0) (fun k hk => by injection hk with hk; subst hk; simp)]
      rfl
  | x :: a, some (k + 1), h => by
    rw [List.cons_append, sub, sub]
    obtain ⟨h1, h2⟩ := h _ rfl
    apply sub_ws hp hc b a
    intro k' hk
    injection hk with hk
    subst hk
    exact ⟨by simpa using h1, fun y hy => h2 y (by simp [hy])⟩

theorem dollar_ws {c : Char} (h1 : c ≠ '$') (h2 : c ≠ '.') (b : Str) : ∀ (a : Str),
    dollar (a ++ c :: b) = dollar a ++ c :: dollar b
  | [] => by
    cases b with
    | nil => rfl
    | cons d b => rw [List.nil_append, dollar_cons, if_neg (fun h => h1 h.1)]; rfl
  | [x] => by
    rw [List.cons_append, List.nil_append, dollar_cons, if_neg (fun h => h2 h.2), ← List.nil_append (c :: b),
      dollar_ws h1 h2 b []]
    rfl
  | x :: y :: a => by
    rw [List.cons_append, List.cons_append, dollar_cons, dollar_cons]
    split
    · rw [dollar_ws h1 h2 b a, List.append_assoc]
    · rw [← List.cons_append, dollar_ws h1 h2 b (y :: a)]
      rfl

/-- The code is expanded token by token: whitespace separates the shortcuts. -/
theorem C197_tokens (hp : Plain ws) {c : Char} (hc : ws c = true) (e : Bool) (a b : Str) :
    expand ws e (a ++ c :: b) = expand ws e a ++ c :: expand ws e b := by
  unfold expand
  have h1 : c ≠ '$' := fun h => by have := hp '$' (by decide); rw [← h, hc] at this; cases this
  have h2 : c ≠ '.' := fun h => by have := hp '.' (by decide); rw [← h, hc] at this; cases this
  cases e with
  | false => rfl
  | true =>
    rw [if_pos rfl, if_pos rfl, if_pos rfl, sub_ws hp hc b a none (fun k hk => by cases hk), dollar_ws h1 h2]

theorem starts_occ {s : Str} (h : starts ws s = true) : ∃ b, s = count ++ b := by
  unfold starts at h
  split at h
  · exact ⟨_, rfl⟩
  · cases h

theorem sub_no_count : ∀ {s : Str}, ¬ Occ count s → sub ws none s = s
  | [], _ => rfl
  | c :: s, h => by
    have hs : ¬ starts ws (c :: s) = true := by
      intro hs
      obtain ⟨b, hb⟩ := starts_occ hs
      exact h ⟨[], b, hb⟩
    rw [sub, if_neg hs, sub_no_count]
    rintro ⟨a, b, hab⟩
    exact h ⟨c :: a, b, by rw [hab]; rfl⟩

theorem sub_inside : ∀ {x : Str}, (∀ c ∈ x, ws c = false) → sub ws (some 0) x = x ++ [']']
  | [], _ => rfl
  | c :: x, h => by
    rw [sub, if_neg (by simp [h c List.mem_cons_self]), sub_inside fun d hd => h d (List.mem_cons_of_mem _ hd)]
    rfl

/-- A token with `count_`: all that follows it becomes the key of the counter. -/
theorem sub_token {x : Str} (hx : x ≠ []) (hw : ∀ c ∈ x, ws c = false) : ∀ {p : Str}, ¬ Occ count p →
    sub ws none (p ++ (count ++ x)) = p ++ (selfCount ++ (x ++ [']']))
  | [], _ => by
    cases x with
    | nil => exact absurd rfl hx
    | cons c x =>
      have hs : starts ws (count ++ c :: x) = true := by
        simp [starts, count, hw c List.mem_cons_self]
      have : sub ws none (count ++ c :: x) = selfCount ++ sub ws (some 0) (c :: x) := by
        simp only [count, List.cons_append, List.nil_append] at hs ⊢
        rw [sub, if_pos hs]
        rfl
      rw [List.nil_append, List.nil_append, this, sub_inside hw]
  | d :: p, h => by
    have hs : ¬ starts ws (d :: p ++ (count ++ x)) = true := by
      intro hs
      obtain ⟨b, hb⟩ := starts_occ hs
      have hno : ∀ b', d :: p ≠ count ++ b' := fun b' hb' => h ⟨[], b', hb'⟩
      rcases p with _ | ⟨x2, _ | ⟨x3, _ | ⟨x4, _ | ⟨x5, _ | ⟨x6, p⟩⟩⟩⟩⟩ <;>
        simp [count] at hb hno
      exact hno p hb.1 hb.2.1 hb.2.2.1 hb.2.2.2.1 hb.2.2.2.2.1 hb.2.2.2.2.2.1 rfl
    rw [List.cons_append] at hs ⊢
    rw [sub, if_neg hs, sub_token hx hw]
    · rfl
    · rintro ⟨a, b, hab⟩
      exact h ⟨d :: a, b, by rw [hab]; rfl⟩

theorem dollar_no_occ : ∀ {s : Str}, ¬ Occ ['$', '.'] s → dollar s = s
  | [], _ => rfl
  | [_], _ => rfl
  | c :: d :: s, h => by
    rw [dollar, if_neg, dollar_no_occ]
    · rintro ⟨a, b, hab⟩
      exact h ⟨c :: a, b, by rw [hab]; rfl⟩
    · rintro ⟨rfl, rfl⟩
      exact h ⟨[], s, rfl⟩

/-- What a token becomes: a token without `count_` and `$.` stays as it is; what follows the first
`count_` becomes a key of the counter; with `expand_code=0` nothing is changed. -/
theorem C197_token {p x : Str} (hp : ¬ Occ count p) :
    (∀ s, expand ws false s = s) ∧
    (¬ Occ ['$', '.'] p → expand ws true p = p) ∧
    (x ≠ [] → (∀ c ∈ x, ws c = false) →
      expand ws true (p ++ (count ++ x)) = dollar (p ++ (selfCount ++ (x ++ [']'])))) := by
  refine ⟨fun _ => rfl, fun hd => ?_, fun hx hw => ?_⟩
  · unfold expand
    rw [if_pos rfl, sub_no_count hp, dollar_no_occ hd]
  · unfold expand
    rw [if_pos rfl, sub_token hx hw hp]

theorem dollar_cons_ne {c : Char} (hc : c ≠ '$') (s : Str) : dollar (c :: s) = c :: dollar s := by
  cases s with
  | nil => rfl
  | cons d s => rw [dollar, if_neg (fun h => hc h.1)]

/-- No `$.` is left, and `$.` is replaced at each place: at the beginning, and after any prefix without
a dollar. -/
theorem C197_dollar : (∀ s, ¬ Occ ['$', '.'] (dollar s)) ∧
    ∀ (p s : Str), '$' ∉ p → dollar (p ++ '$' :: '.' :: s) = p ++ this ++ dollar s := by
  constructor
  · suffices h : ∀ s, ¬ Occ ['$', '.'] (dollar s) ∧ ((dollar s).head? = some '.' → s.head? = some '.') by
      exact fun s => (h s).1
    have cons : ∀ (c : Char) (t : Str), ¬ Occ ['$', '.'] t → ¬ (c = '$' ∧ t.head? = some '.') →
        ¬ Occ ['$', '.'] (c :: t) := by
      rintro c t h1 h2 ⟨a, b, hab⟩
      cases a with
      | nil =>
        simp at hab
        exact h2 ⟨hab.1, by rw [hab.2]; rfl⟩
      | cons y a =>
        injection hab with _ hab
        exact h1 ⟨a, b, hab⟩
    intro s
    induction s using dollar.induct with
    | case1 =>
      refine ⟨?_, fun h => by cases h⟩
      rintro ⟨a, b, hab⟩
      cases a <;> simp [dollar] at hab
    | case2 c =>
      refine ⟨cons c [] ?_ (by simp), fun h => h⟩
      rintro ⟨a, b, hab⟩
      cases a <;> simp at hab
    | case3 c d s h ih =>
      rw [dollar, if_pos h]
      refine ⟨?_, fun h => by simp [this] at h⟩
      exact cons _ _ (cons _ _ (cons _ _ (cons _ _ (cons _ _ ih.1 (by simp)) (by simp)) (by simp)) (by simp)) (by simp)
    | case4 c d s h ih =>
      rw [dollar, if_neg h]
      refine ⟨cons _ _ ih.1 ?_, fun h => h⟩
      rintro ⟨h1, h2⟩
      have h3 := ih.2 h2
      simp at h3
      exact h ⟨h1, h3⟩
  · intro p
    induction p with
    | nil => intro s _; simp [dollar]
    | cons c p ih =>
      intro s hp
      have hc : c ≠ '$' := fun h => hp (h ▸ List.mem_cons_self)
      rw [List.cons_append, dollar_cons_ne hc, ih s fun h => hp (List.mem_cons_of_mem _ h)]
      rfl

/-- The key takes all that follows up to whitespace, also the bracket closing a call in which the
shortcut is: `f(count_x)` becomes `f(self.count[x)]`. -/
theorem C197_bracket_violated {f x : Str} (hf : ¬ Occ count (f ++ ['('])) (hd : '$' ∉ f) (hx : '$' ∉ x)
    (hw : ∀ c ∈ x ++ [')'], ws c = false) :
    expand ws true (f ++ ['('] ++ (count ++ (x ++ [')']))) = f ++ ['('] ++ (selfCount ++ (x ++ [')', ']'])) := by
  rw [(C197_token (ws := ws) (x := x ++ [')']) hf).2.2 (by simp) hw, dollar_no_occ]
  · simp
  · rintro ⟨a, b, hab⟩
    have : '$' ∈ f ++ ['('] ++ (selfCount ++ (x ++ [')'] ++ [']'])) := by rw [hab]; simp
    simp [selfCount, hd, hx] at this

/-- `count_` is expanded also within a name: `account_x` becomes `acself.count[x]`. -/
theorem C197_name_violated {p x : Str} (hp : ¬ Occ count p) (hd : '$' ∉ p) (hdx : '$' ∉ x) (hx : x ≠ [])
    (hw : ∀ c ∈ x, ws c = false) :
    expand ws true (p ++ (count ++ x)) = p ++ (selfCount ++ (x ++ [']'])) := by
  rw [(C197_token hp).2.2 hx hw, dollar_no_occ]
  rintro ⟨a, b, hab⟩
  have : '$' ∈ p ++ (selfCount ++ (x ++ [']'])) := by rw [hab]; simp
  simp [selfCount, hd, hdx] at this

/-- ASCII space. -/
private def sp (c : Char) : Bool := c == ' '

example : expand sp true (count ++ ['$', '.', 'u', ' ', '+', '=', '1']) =
    selfCount ++ this ++ ['u', ']', ' ', '+', '=', '1'] := by decide

/-! ## What is executed -/

/-- Which codes are given. -/
structure Codes where
  doc : Bool
  bundle : Bool
  beforeBundle : Bool
  afterBundle : Bool
  tree : Bool
  node : Bool
  mwt : Bool
  entity : Bool
  mention : Bool
  emptyNodes : Bool

/-- A tree: is it selected by `_should_process_tree`; its nodes, the nodes with empty nodes in their
order, its multiword tokens. -/
structure Tree where
  id : Nat
  selected : Bool
  nodes : List Nat
  nodesAndEmpty : List Nat
  mwts : List Nat

structure Bundle where
  id : Nat
  trees : List Tree

structure Doc where
  bundles : List Bundle
  entities : List (Nat × List Nat)

/-- A code executed with `this` being an object. -/
inductive Exec where
  | doc
  | bundle (b : Nat)
  | beforeBundle (b : Nat)
  | afterBundle (b : Nat)
  | tree (t : Nat)
  | node (n : Nat)
  | mwt (m : Nat)
  | entity (e : Nat)
  | mention (m : Nat)
deriving DecidableEq

/-- `process_tree` (lines 109-128). -/
def processTree (c : Codes) (t : Tree) : List Exec :=
  (if c.tree then [.tree t.id] else []) ++
  (if c.node then (if c.emptyNodes then t.nodesAndEmpty else t.nodes).map .node else []) ++
  (if c.mwt then t.mwts.map .mwt else [])

/-- `process_bundle` (lines 89-107). -/
def processBundle (c : Codes) (b : Bundle) : List Exec :=
  (if c.beforeBundle then [.beforeBundle b.id] else []) ++
  (if c.bundle then [.bundle b.id] else []) ++
  (if c.tree || c.node || c.mwt then (b.trees.filter (·.selected)).flatMap (processTree c) else []) ++
  (if c.afterBundle then [.afterBundle b.id] else [])

/-- `process_document` (lines 69-87). -/
def processDocument (c : Codes) (d : Doc) : List Exec :=
  (if c.doc then [.doc] else []) ++
  (if c.bundle || c.beforeBundle || c.afterBundle || c.tree || c.node || c.mwt
    then d.bundles.flatMap (processBundle c) else []) ++
  (if c.entity || c.mention then d.entities.flatMap fun e =>
    (if c.entity then [.entity e.1] else []) ++ (if c.mention then e.2.map .mention else []) else [])

/-- The selected trees. -/
def selectedTrees (d : Doc) : List Tree := (d.bundles.flatMap (·.trees)).filter (·.selected)

def theNode : Exec → Option Nat | .node n => some n | _ => none
def theTree : Exec → Option Nat | .tree n => some n | _ => none
def theMwt : Exec → Option Nat | .mwt n => some n | _ => none
def theMention : Exec → Option Nat | .mention n => some n | _ => none
def theBundle : Exec → Option Nat | .bundle n => some n | _ => none

theorem filterMap_flatMap {α β γ : Type} (f : α → List β) (g : β → Option γ) (l : List α) :
    (l.flatMap f).filterMap g = l.flatMap fun x => (f x).filterMap g := by
  induction l with
  | nil => rfl
  | cons x l ih => rw [List.flatMap_cons, List.filterMap_append, ih, List.flatMap_cons]

theorem flatMap_nil {α β : Type} (l : List α) : (l.flatMap fun _ => ([] : List β)) = [] := by
  induction l with
  | nil => rfl
  | cons x l ih => rw [List.flatMap_cons, ih]; rfl

theorem filterMap_map_some {α β γ : Type} (f : α → β) (g : β → Option γ) (k : α → γ)
    (h : ∀ x, g (f x) = some (k x)) (l : List α) : (l.map f).filterMap g = l.map k := by
  induction l with
  | nil => rfl
  | cons x l ih => rw [List.map_cons, List.filterMap_cons, h, ih]; rfl

theorem filterMap_map_none {α β γ : Type} (f : α → β) (g : β → Option γ) (h : ∀ x, g (f x) = none)
    (l : List α) : (l.map f).filterMap g = [] := by
  induction l with
  | nil => rfl
  | cons x l ih => rw [List.map_cons, List.filterMap_cons, h, ih]

/-- Projections of the executions onto one kind inside of trees. -/
theorem project (c : Codes) (d : Doc) (g : Exec → Option Nat) (hdoc : g .doc = none)
    (hb : ∀ b, g (.bundle b) = none) (hbb : ∀ b, g (.beforeBundle b) = none)
    (hab : ∀ b, g (.afterBundle b) = none) (he : ∀ b, g (.entity b) = none) (hm : ∀ b, g (.mention b) = none)
    (hnone : (c.tree || c.node || c.mwt) = false → ∀ t, (processTree c t).filterMap g = []) :
    (processDocument c d).filterMap g = (selectedTrees d).flatMap fun t => (processTree c t).filterMap g := by
  have hent : (if c.entity || c.mention then d.entities.flatMap fun e =>
      (if c.entity then [Exec.entity e.1] else []) ++ (if c.mention then e.2.map Exec.mention else [])
      else []).filterMap g = [] := by
    split
    · rw [filterMap_flatMap]
      have : ∀ e : Nat × List Nat, ((if c.entity then [Exec.entity e.1] else []) ++
          (if c.mention then e.2.map Exec.mention else [])).filterMap g = [] := by
        intro e
        rw [List.filterMap_append]
        have h1 : (if c.entity then [Exec.entity e.1] else []).filterMap g = [] := by
          split <;> simp [he]
        have h2 : (if c.mention then e.2.map Exec.mention else []).filterMap g = [] := by
          split
          · exact filterMap_map_none _ _ hm _
          · rfl
        rw [h1, h2]; rfl
      simp only [this, flatMap_nil]
    · rfl
  have hbun : ∀ b : Bundle, (processBundle c b).filterMap g =
      (b.trees.filter (·.selected)).flatMap fun t => (processTree c t).filterMap g := by
    intro b
    unfold processBundle
    rw [List.filterMap_append, List.filterMap_append, List.filterMap_append]
    have h1 : (if c.beforeBundle then [Exec.beforeBundle b.id] else []).filterMap g = [] := by
      split <;> simp [hbb]
    have h2 : (if c.bundle then [Exec.bundle b.id] else []).filterMap g = [] := by
      split <;> simp [hb]
    have h3 : (if c.afterBundle then [Exec.afterBundle b.id] else []).filterMap g = [] := by
      split <;> simp [hab]
    rw [h1, h2, h3, List.append_nil, List.nil_append, List.nil_append]
    split
    · rw [filterMap_flatMap]
    · rename_i h
      simp only [hnone (by simpa using h), flatMap_nil]
      rfl
  have hd : (if c.doc then [Exec.doc] else []).filterMap g = [] := by split <;> simp [hdoc]
  unfold processDocument
  rw [List.filterMap_append, List.filterMap_append, hent, hd, List.append_nil, List.nil_append]
  have htrees : (selectedTrees d).flatMap (fun t => (processTree c t).filterMap g) =
      d.bundles.flatMap fun b => (b.trees.filter (·.selected)).flatMap fun t => (processTree c t).filterMap g := by
    unfold selectedTrees
    induction d.bundles with
    | nil => rfl
    | cons b bs ih => rw [List.flatMap_cons, List.filter_append, List.flatMap_append, ih, List.flatMap_cons]
  rw [htrees]
  split
  · rw [filterMap_flatMap]
    simp only [hbun]
  · rename_i h
    have h' : (c.tree || c.node || c.mwt) = false := by
      cases h1 : c.tree <;> cases h2 : c.node <;> cases h3 : c.mwt <;> simp_all
    simp only [hnone h', flatMap_nil]
    rfl

/-- Each code is executed on all its objects in the selected trees, each once, in the order of the
document, whatever other codes are given; without the code nothing is executed. -/
theorem C198_trees (c : Codes) (d : Doc) :
    (processDocument c d).filterMap theTree = (if c.tree then (selectedTrees d).map (·.id) else []) ∧
    (processDocument c d).filterMap theNode = (if c.node then (selectedTrees d).flatMap fun t =>
      if c.emptyNodes then t.nodesAndEmpty else t.nodes else []) ∧
    (processDocument c d).filterMap theMwt = (if c.mwt then (selectedTrees d).flatMap (·.mwts) else []) := by
  have ht : ∀ t, (processTree c t).filterMap theTree = if c.tree then [t.id] else [] := by
    intro t
    have h1 : ∀ l : List Nat, (l.map Exec.node).filterMap theTree = [] := filterMap_map_none _ _ fun _ => rfl
    have h2 : ∀ l : List Nat, (l.map Exec.mwt).filterMap theTree = [] := filterMap_map_none _ _ fun _ => rfl
    unfold processTree
    rw [List.filterMap_append, List.filterMap_append]
    cases c.tree <;> cases c.node <;> cases c.mwt <;> simp only [h1, h2, if_true, if_false, Bool.false_eq_true] <;> rfl
  have hn : ∀ t, (processTree c t).filterMap theNode =
      if c.node then (if c.emptyNodes then t.nodesAndEmpty else t.nodes) else [] := by
    intro t
    have h1 : ∀ l : List Nat, (l.map Exec.node).filterMap theNode = l := by
      intro l
      have := filterMap_map_some Exec.node theNode id (fun _ => rfl) l
      rwa [List.map_id] at this
    have h2 : ∀ l : List Nat, (l.map Exec.mwt).filterMap theNode = [] := filterMap_map_none _ _ fun _ => rfl
    unfold processTree
    rw [List.filterMap_append, List.filterMap_append]
    cases c.tree <;> cases c.node <;> cases c.mwt <;> simp [h1, h2, theNode]
  have hm : ∀ t, (processTree c t).filterMap theMwt = if c.mwt then t.mwts else [] := by
    intro t
    have h1 : ∀ l : List Nat, (l.map Exec.node).filterMap theMwt = [] := filterMap_map_none _ _ fun _ => rfl
    have h2 : ∀ l : List Nat, (l.map Exec.mwt).filterMap theMwt = l := by
      intro l
      have := filterMap_map_some Exec.mwt theMwt id (fun _ => rfl) l
      rwa [List.map_id] at this
    unfold processTree
    rw [List.filterMap_append, List.filterMap_append]
    cases c.tree <;> cases c.node <;> cases c.mwt <;> simp [h1, h2, theMwt]
  refine ⟨?_, ?_, ?_⟩
  · rw [project c d theTree rfl (fun _ => rfl) (fun _ => rfl) (fun _ => rfl) (fun _ => rfl) (fun _ => rfl)]
    · simp only [ht]
      cases c.tree
      · simp [flatMap_nil]
      · simp only [if_true]
        rw [← List.flatMap_singleton' ((selectedTrees d).map (·.id)), List.flatMap_map]
    · intro h t
      rw [ht]
      cases hc : c.tree <;> simp_all
  · rw [project c d theNode rfl (fun _ => rfl) (fun _ => rfl) (fun _ => rfl) (fun _ => rfl) (fun _ => rfl)]
    · simp only [hn]
      cases c.node
      · simp [flatMap_nil]
      · rfl
    · intro h t
      rw [hn]
      cases hc : c.node <;> simp_all
  · rw [project c d theMwt rfl (fun _ => rfl) (fun _ => rfl) (fun _ => rfl) (fun _ => rfl) (fun _ => rfl)]
    · simp only [hm]
      cases c.mwt
      · simp [flatMap_nil]
      · rfl
    · intro h t
      rw [hm]
      cases hc : c.mwt <;> simp_all

/-- The executions of one bundle are together: first `before_bundle`, then `bundle`, then those in its
trees, last `after_bundle`; the bundles follow in their order, after `doc` and before the entities. -/
theorem C198_bundles (c : Codes) (d : Doc) : ∃ inner : Bundle → List Exec,
    (∀ b, ∀ x ∈ inner b, ∃ t ∈ b.trees, t.selected = true ∧ (x = .tree t.id ∨ (∃ n ∈ t.nodes ++ t.nodesAndEmpty, x = .node n) ∨
      ∃ m ∈ t.mwts, x = .mwt m)) ∧
    processDocument c d = (if c.doc then [.doc] else []) ++
      (d.bundles.flatMap fun b => (if c.beforeBundle then [.beforeBundle b.id] else []) ++
        (if c.bundle then [.bundle b.id] else []) ++ inner b ++ (if c.afterBundle then [.afterBundle b.id] else [])) ++
      d.entities.flatMap fun e => (if c.entity then [.entity e.1] else []) ++
        (if c.mention then e.2.map .mention else []) := by
  refine ⟨fun b => if c.tree || c.node || c.mwt then (b.trees.filter (·.selected)).flatMap (processTree c) else [],
    ?_, ?_⟩
  · intro b x hx
    split at hx
    · obtain ⟨t, ht, hxt⟩ := List.mem_flatMap.mp hx
      obtain ⟨ht, hs⟩ := List.mem_filter.mp ht
      refine ⟨t, ht, hs, ?_⟩
      unfold processTree at hxt
      rcases List.mem_append.mp hxt with hxt | hxt
      · rcases List.mem_append.mp hxt with hxt | hxt
        · split at hxt
          · exact Or.inl (List.mem_singleton.mp hxt)
          · cases hxt
        · split at hxt
          · obtain ⟨n, hn, rfl⟩ := List.mem_map.mp hxt
            refine Or.inr (Or.inl ⟨n, ?_, rfl⟩)
            split at hn
            · exact List.mem_append_right _ hn
            · exact List.mem_append_left _ hn
          · cases hxt
      · split at hxt
        · obtain ⟨m, hm, rfl⟩ := List.mem_map.mp hxt
          exact Or.inr (Or.inr ⟨m, hm, rfl⟩)
        · cases hxt
    · cases hx
  · unfold processDocument
    congr 1
    · congr 1
      split
      · rfl
      · rename_i h
        simp only [Bool.or_eq_true, not_or, Bool.not_eq_true] at h
        obtain ⟨⟨⟨⟨⟨h1, h2⟩, h3⟩, h4⟩, h5⟩, h6⟩ := h
        simp [h1, h2, h3, h4, h5, h6]
    · split
      · rfl
      · rename_i h
        simp only [Bool.or_eq_true, not_or, Bool.not_eq_true] at h
        simp [h.1, h.2]

example : processDocument ⟨true, false, false, true, false, true, false, false, true, false⟩
    ⟨[⟨1, [⟨10, true, [3, 4], [3, 4, 9], []⟩, ⟨11, false, [5], [5], []⟩]⟩, ⟨2, []⟩], [(7, [8])]⟩ =
    [.doc, .node 3, .node 4, .afterBundle 1, .afterBundle 2, .mention 8] := by decide

/-! ## util.FindBug -/

section
variable {σ β : Type}

/-- The block inspected: its state, and whether `process_bundle` fails on a bundle. -/
abbrev Step (σ β : Type) := σ → β → σ × Bool

/-- Lines 54-71: the bundles printed and whether the exception is raised; the block goes through the
bundles of the copy of the document, which are equal to those of the original. -/
def findBug (step : Step σ β) (firstOnly : Bool) : σ → List β → List β × Bool
  | _, [] => ([], false)
  | s, b :: bs =>
    match step s b with
    | (s', false) => findBug step firstOnly s' bs
    | (s', true) => if firstOnly then ([b], true) else ((b :: (findBug step firstOnly s' bs).1),
        (findBug step firstOnly s' bs).2)

/-- The state of the block before each bundle. -/
def states (step : Step σ β) : σ → List β → List (σ × β)
  | _, [] => []
  | s, b :: bs => (s, b) :: states step (step s b).1 bs

/-- With `first_error_only` the first bundle on which the block fails is printed and the exception is
raised; otherwise all of them are printed, in their order, and none is raised. -/
theorem C198_findbug (step : Step σ β) (s : σ) (bs : List β) :
    findBug step false s bs = (((states step s bs).filter fun x => (step x.1 x.2).2).map (·.2), false) ∧
    findBug step true s bs = match (states step s bs).find? fun x => (step x.1 x.2).2 with
      | some x => ([x.2], true)
      | none => ([], false) := by
  induction bs generalizing s with
  | nil => exact ⟨rfl, rfl⟩
  | cons b bs ih =>
    obtain ⟨i1, i2⟩ := ih (step s b).1
    rw [findBug, findBug, states, List.filter_cons, List.find?_cons]
    rcases hst : step s b with ⟨s', f⟩
    rw [hst] at i1 i2
    cases f with
    | false => exact ⟨by simp [i1], by simp [i2]⟩
    | true => exact ⟨by simp [i1], by simp⟩

/-- The block fails on the printed bundle alone, if its failures do not depend on its state. -/
theorem C198_minimal_partial (step : Step σ β) (s0 s : σ) (bs : List β)
    (hind : ∀ s b, (step s b).2 = (step s0 b).2) (b : β) (firstOnly : Bool)
    (h : b ∈ (findBug step firstOnly s bs).1) : findBug step true s0 [b] = ([b], true) := by
  have hb : (step s0 b).2 = true := by
    obtain ⟨h1, h2⟩ := C198_findbug step s bs
    cases firstOnly with
    | false =>
      rw [h1] at h
      obtain ⟨x, hx, rfl⟩ := List.mem_map.mp h
      rw [← hind x.1]
      exact (List.mem_filter.mp hx).2
    | true =>
      rw [h2] at h
      cases hf : (states step s bs).find? fun x => (step x.1 x.2).2 with
      | none => rw [hf] at h; cases h
      | some x =>
        rw [hf] at h
        have := List.find?_some hf
        rw [List.mem_singleton.mp h, ← hind x.1]
        exact this
  rw [findBug]
  rcases hst : step s0 b with ⟨s', f⟩
  rw [hst] at hb
  simp only at hb
  subst hb
  rfl

/-- A block which fails on each bundle that is a repetition (e.g. of a sent_id): the printed bundle alone
is no test case. -/
theorem C198_minimal_violated [DecidableEq β] (b : β) :
    let step : Step (List β) β := fun seen b => (b :: seen, decide (b ∈ seen))
    findBug step true [] [b, b] = ([b], true) ∧ findBug step true [] [b] = ([], false) := by
  constructor <;> simp [findBug]

example : findBug (fun (n : Nat) (b : Nat) => (n + 1, decide (n < b))) false 0 [0, 5, 1, 9] = ([5, 9], false) := by
  decide

end

end Verif.Run.EvalCode
