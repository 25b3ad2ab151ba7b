import Verif.Py.Str

/-!
# Properties C211 and C212: corefud.Gum2CorefUD

Source: `udapi/block/corefud/gum2corefud.py`. C211: how the value of `Entity` is cut into items and how openings and closings are paired; C212: what becomes of the mentions that are
opened and not closed in the tree. Not modelled: the six attributes of an opening item other than the group (lines 38-58), `Bridge` and `Split`.
-/

namespace Verif.Coref.Gum
open Verif.Py

/-! ## Cutting the value (line 22) -/

/-- A character that is no round bracket. -/
def np (c : Char) : Bool := c != '(' && c != ')'

def flush (buf : Str) : List Str := if buf = [] then [] else [buf]

/-- `[x for x in re.split('(\([^()]+\)?|[^()]+\))', s) if x]` (line 22): the matches and, as items of their own, what is between them (`buf`). `fuel` bounds the number of steps. -/
def pieces : Nat → Str → Str → List Str
  | 0, buf, s => flush (buf ++ s)
  | _ + 1, buf, [] => flush buf
  | fuel + 1, buf, c :: r =>
    if c = '(' then
      let x := r.takeWhile np
      let rest := r.dropWhile np
      if x = [] then pieces fuel (buf ++ [c]) r
      else match rest with
        | ')' :: rest' => flush buf ++ ('(' :: x ++ [')']) :: pieces fuel [] rest'
        | rest => flush buf ++ ('(' :: x) :: pieces fuel [] rest
    else if c = ')' then pieces fuel (buf ++ [c]) r
    else
      let x := (c :: r).takeWhile np
      match (c :: r).dropWhile np with
        | ')' :: rest' => flush buf ++ (x ++ [')']) :: pieces fuel [] rest'
        | _ => pieces fuel (buf ++ [c]) r

def cut (s : Str) : List Str := pieces s.length [] s

theorem flush_flatten (buf : Str) : (flush buf).flatten = buf := by
  unfold flush; split
  · rename_i h; rw [h]; rfl
  · simp

theorem pieces_flatten : ∀ (fuel : Nat) (buf s : Str), (pieces fuel buf s).flatten = buf ++ s
  | 0, buf, s => by rw [pieces, flush_flatten]
  | fuel + 1, buf, [] => by rw [pieces, flush_flatten]; simp
  | fuel + 1, buf, c :: r => by
    rw [pieces]
    have tw : r.takeWhile np ++ r.dropWhile np = r := List.takeWhile_append_dropWhile
    have tw2 : (c :: r).takeWhile np ++ (c :: r).dropWhile np = c :: r := List.takeWhile_append_dropWhile
    split
    · rename_i hc
      simp only []
      split
      · rw [pieces_flatten fuel]; simp
      · split
        · rename_i rest' hr
          rw [List.flatten_append, flush_flatten, List.flatten_cons, pieces_flatten fuel]
          rw [hr] at tw
          congr 1
          rw [hc]
          simp only [List.nil_append, List.append_assoc, List.cons_append]
          rw [tw]
        · rw [List.flatten_append, flush_flatten, List.flatten_cons, pieces_flatten fuel]
          congr 1
          rw [hc]
          simp only [List.nil_append, List.cons_append]
          rw [tw]
    · split
      · rw [pieces_flatten fuel]; simp
      · simp only []
        split
        · rename_i rest' hr
          rw [List.flatten_append, flush_flatten, List.flatten_cons, pieces_flatten fuel]
          rw [hr] at tw2
          congr 1
          simp only [List.nil_append, List.append_assoc, List.cons_append]
          rw [tw2]
        · rw [pieces_flatten fuel]; simp

/-- The items of an `Entity` value. -/
inductive Item
  | op (x : Str)
  | single (x : Str)
  | cl (x : Str)
deriving DecidableEq

def Item.text : Item → Str
  | .op x => x
  | .single x => x
  | .cl x => x

def Item.write : Item → Str
  | .op x => '(' :: x
  | .single x => '(' :: x ++ [')']
  | .cl x => x ++ [')']

/-- Contents without brackets, not empty; and no opening directly before a closing (the two could not be told from one single item). -/
def Good : List Item → Prop
  | [] => True
  | i :: is => i.text ≠ [] ∧ (∀ c ∈ i.text, np c = true) ∧ (∀ x y js, i = .op x → is = .cl y :: js → False) ∧ Good is

theorem span_np {x rest : Str} (hx : ∀ c ∈ x, np c = true) (hr : ∀ c r, rest = c :: r → np c = false) :
    (x ++ rest).takeWhile np = x ∧ (x ++ rest).dropWhile np = rest := by
  induction x with
  | nil =>
    cases rest with
    | nil => exact ⟨rfl, rfl⟩
    | cons c r => have := hr c r rfl; simp [this]
  | cons c x ih =>
    have h1 := hx c (List.mem_cons_self ..)
    have h2 := ih fun c hc => hx c (List.mem_cons_of_mem _ hc)
    simp [h1, h2.1, h2.2]

theorem pieces_good : ∀ (is : List Item) (fuel : Nat), Good is → (is.map Item.write).flatten.length ≤ fuel →
    pieces fuel [] (is.map Item.write).flatten = is.map Item.write
  | [], fuel, _, _ => by cases fuel <;> simp [pieces, flush]
  | i :: is, 0, hg, hl => by
    exfalso
    cases i <;> simp [Item.write] at hl
  | i :: is, fuel + 1, ⟨h1, h2, h3, h4⟩, hl => by
    have hlen : (is.map Item.write).flatten.length ≤ fuel := by
      have : 1 ≤ i.write.length := by cases i <;> simp [Item.write]
      simp only [List.map_cons, List.flatten_cons, List.length_append] at hl
      omega
    have ih := pieces_good is fuel h4 hlen
    have npo : np '(' = false := by decide
    have npc : np ')' = false := by decide
    cases i with
    | op x =>
      simp only [Item.text] at h1 h2
      have hr : ∀ c r, (is.map Item.write).flatten = c :: r → c = '(' := by
        intro c r e
        cases is with
        | nil => simp at e
        | cons j js =>
          cases j with
          | op y => simp [Item.write] at e; exact e.1.symm
          | single y => simp [Item.write] at e; exact e.1.symm
          | cl y => exact (h3 x y js rfl rfl).elim
      have hs := span_np h2 (rest := (is.map Item.write).flatten) fun c r e => by rw [hr c r e]; exact npo
      rw [List.map_cons, List.flatten_cons]
      simp only [Item.write, List.cons_append]
      rw [pieces, if_pos rfl]
      simp only [hs.1, hs.2, if_neg h1]
      split
      · rename_i rest' e
        have := hr _ _ e
        cases this
      · rw [ih]; simp [flush]
    | single x =>
      simp only [Item.text] at h1 h2
      have hs := span_np h2 (rest := ')' :: (is.map Item.write).flatten) fun c r e => by cases e; exact npc
      rw [List.map_cons, List.flatten_cons]
      simp only [Item.write, List.cons_append, List.append_assoc, List.nil_append]
      rw [pieces, if_pos rfl]
      simp only [hs.1, hs.2, if_neg h1]
      rw [ih]; simp [flush]
    | cl x =>
      simp only [Item.text] at h1 h2
      obtain ⟨c, x', rfl⟩ := List.exists_cons_of_ne_nil h1
      have hs := span_np h2 (rest := ')' :: (is.map Item.write).flatten) fun c r e => by cases e; exact npc
      have hc := h2 c (List.mem_cons_self ..)
      have hc1 : c ≠ '(' := by rintro rfl; rw [npo] at hc; cases hc
      have hc2 : c ≠ ')' := by rintro rfl; rw [npc] at hc; cases hc
      rw [List.map_cons, List.flatten_cons]
      simp only [Item.write, List.cons_append, List.append_assoc, List.nil_append]
      simp only [List.cons_append] at hs
      rw [pieces, if_neg hc1, if_neg hc2]
      simp only [hs.1, hs.2]
      rw [ih]; simp [flush]

/-! ## Pairing openings and closings (lines 23-62) -/

/-- One item at one node, with the name of the entity. -/
inductive Ev
  | op (name : Str)
  | single (name : Str)
  | cl (name : Str)
deriving DecidableEq

def Ev.name : Ev → Str
  | .op n => n
  | .single n => n
  | .cl n => n

/-- A mention, from the item that opens it to the item that closes it. -/
structure Span where
  name : Str
  fst : Nat
  lst : Nat
deriving DecidableEq

/-- `unfinished_mentions[name].pop()`: the lists of all names are kept in one list, the latest first. -/
def pop (name : Str) : List (Str × Nat) → Option (Nat × List (Str × Nat))
  | [] => none
  | (n, i) :: st => if n = name then some (i, st) else (pop name st).map fun r => (r.1, (n, i) :: r.2)

/-- The loop over the items of a tree; `t` is the number of the item. `none`: `ValueError`, a mention is closed that is not open (line 33). -/
def run : Nat → List (Str × Nat) → List Ev → Option (List Span × List (Str × Nat))
  | _, st, [] => some ([], st)
  | t, st, .op n :: es => run (t + 1) ((n, t) :: st) es
  | t, st, .single n :: es => (run (t + 1) st es).map fun r => (⟨n, t, t⟩ :: r.1, r.2)
  | t, st, .cl n :: es =>
    match pop n st with
    | none => none
    | some (i, st') => (run (t + 1) st' es).map fun r => (⟨n, i, t⟩ :: r.1, r.2)

theorem pop_none {name : Str} : ∀ {st : List (Str × Nat)}, pop name st = none ↔ ∀ x ∈ st, x.1 ≠ name
  | [] => by simp [pop]
  | (n, i) :: st => by
    rw [pop]
    by_cases h : n = name
    · simp [h]
    · rw [if_neg h, Option.map_eq_none_iff, pop_none]
      simp [h]

theorem pop_some {name : Str} : ∀ {st st' : List (Str × Nat)} {i : Nat}, pop name st = some (i, st') →
    ∃ (a b : List (Str × Nat)), st = a ++ (name, i) :: b ∧ st' = a ++ b ∧ ∀ x ∈ a, x.1 ≠ name
  | [], _, _, h => by cases h
  | (n, j) :: st, st', i, h => by
    rw [pop] at h
    by_cases hn : n = name
    · rw [if_pos hn] at h
      simp only [Option.some.injEq, Prod.mk.injEq] at h
      obtain ⟨rfl, rfl⟩ := h
      exact ⟨[], st, by rw [hn]; rfl, rfl, by simp⟩
    · rw [if_neg hn, Option.map_eq_some_iff] at h
      obtain ⟨⟨i', r⟩, hr, e⟩ := h
      simp only [Prod.mk.injEq] at e
      obtain ⟨rfl, rfl⟩ := e
      obtain ⟨a, b, e1, e2, e3⟩ := pop_some hr
      refine ⟨(n, j) :: a, b, by rw [e1]; rfl, by rw [e2]; rfl, ?_⟩
      intro x hx
      rcases List.mem_cons.mp hx with rfl | hx
      · exact hn
      · exact e3 x hx

/-- The closing items (also of single-word mentions) with their numbers. -/
def closings : Nat → List Ev → List (Str × Nat)
  | _, [] => []
  | t, .op _ :: es => closings (t + 1) es
  | t, .single n :: es => (n, t) :: closings (t + 1) es
  | t, .cl n :: es => (n, t) :: closings (t + 1) es

/-- The opening items (also of single-word mentions) with their numbers. -/
def openings : Nat → List Ev → List (Str × Nat)
  | _, [] => []
  | t, .op n :: es => (n, t) :: openings (t + 1) es
  | t, .single n :: es => (n, t) :: openings (t + 1) es
  | t, .cl _ :: es => openings (t + 1) es

/-- Of two mentions of one entity the one closed first ends before the other begins, or is inside it. -/
def Apart (s s' : Span) : Prop := s.name = s'.name → s.lst < s'.fst ∨ (s'.fst < s.fst ∧ s.lst < s'.lst)

/-- The stack of open mentions: the latest first, all before `t`. -/
def Desc (t : Nat) (st : List (Str × Nat)) : Prop := st.Pairwise (fun x y => y.2 < x.2) ∧ ∀ x ∈ st, x.2 < t

theorem run_spec : ∀ (es : List Ev) (t : Nat) (st : List (Str × Nat)) (sp : List Span) (st' : List (Str × Nat)), Desc t st → run t st es = some (sp, st') →
    (∀ s ∈ sp, t ≤ s.lst ∧ s.fst ≤ s.lst ∧ (t ≤ s.fst ∨ (s.name, s.fst) ∈ st)) ∧
    (∀ x ∈ st', t ≤ x.2 ∨ x ∈ st) ∧ sp.Pairwise Apart ∧
    (∀ s ∈ sp, ∀ x ∈ st', x.1 = s.name → x.2 < s.fst ∨ s.lst < x.2) ∧
    (sp.map fun s => (s.name, s.lst)) = closings t es ∧
    ((sp.map fun s => (s.name, s.fst)) ++ st').Perm (openings t es ++ st)
  | [], t, st, sp, st', _, h => by
    simp only [run, Option.some.injEq, Prod.mk.injEq] at h
    obtain ⟨rfl, rfl⟩ := h
    refine ⟨by simp, fun x hx => Or.inr hx, List.Pairwise.nil, by simp, rfl, by simp [openings]⟩
  | .op n :: es, t, st, sp, st', hd, h => by
    rw [run] at h
    have hd' : Desc (t + 1) ((n, t) :: st) := by
      refine ⟨List.pairwise_cons.mpr ⟨fun y hy => hd.2 y hy, hd.1⟩, ?_⟩
      intro x hx
      rcases List.mem_cons.mp hx with rfl | hx
      · exact Nat.lt_succ_self _
      · have := hd.2 x hx; omega
    obtain ⟨h1, h2, h3, h4, h5, h6⟩ := run_spec es (t + 1) _ sp st' hd' h
    refine ⟨?_, ?_, h3, h4, h5, ?_⟩
    · intro s hs
      obtain ⟨g1, g2, g3⟩ := h1 s hs
      refine ⟨by omega, g2, ?_⟩
      rcases g3 with g3 | g3
      · exact Or.inl (by omega)
      · rcases List.mem_cons.mp g3 with e | g3
        · simp only [Prod.mk.injEq] at e; exact Or.inl (by omega)
        · exact Or.inr g3
    · intro x hx
      rcases h2 x hx with g | g
      · exact Or.inl (by omega)
      · rcases List.mem_cons.mp g with rfl | g
        · exact Or.inl (Nat.le_refl _)
        · exact Or.inr g
    · refine h6.trans ?_
      rw [openings]
      exact List.perm_middle
  | .single n :: es, t, st, sp, st', hd, h => by
    rw [run, Option.map_eq_some_iff] at h
    obtain ⟨⟨sp₀, st₀⟩, hr, e⟩ := h
    simp only [Prod.mk.injEq] at e
    obtain ⟨rfl, rfl⟩ := e
    have hd' : Desc (t + 1) st := ⟨hd.1, fun x hx => by have := hd.2 x hx; omega⟩
    obtain ⟨h1, h2, h3, h4, h5, h6⟩ := run_spec es (t + 1) _ sp₀ st₀ hd' hr
    refine ⟨?_, ?_, List.pairwise_cons.mpr ⟨?_, h3⟩, ?_, ?_, ?_⟩
    · intro s hs
      rcases List.mem_cons.mp hs with rfl | hs
      · exact ⟨Nat.le_refl _, Nat.le_refl _, Or.inl (Nat.le_refl _)⟩
      · obtain ⟨g1, g2, g3⟩ := h1 s hs
        exact ⟨by omega, g2, g3.imp (fun g => by omega) id⟩
    · intro x hx
      exact (h2 x hx).imp (fun g => by omega) id
    · intro s hs _
      obtain ⟨g1, g2, g3⟩ := h1 s hs
      rcases g3 with g3 | g3
      · exact Or.inl (by simp only []; omega)
      · have := hd.2 _ g3
        exact Or.inr ⟨this, by simp only []; omega⟩
    · intro s hs x hx e
      rcases List.mem_cons.mp hs with rfl | hs
      · rcases h2 x hx with g | g
        · exact Or.inr (by simp only []; omega)
        · exact Or.inl (hd.2 x g)
      · exact h4 s hs x hx e
    · rw [List.map_cons, h5]; rfl
    · rw [List.map_cons, openings, List.cons_append, List.cons_append]
      exact h6.cons _
  | .cl n :: es, t, st, sp, st', hd, h => by
    rw [run] at h
    split at h
    · cases h
    · rename_i i st₁ hp
      rw [Option.map_eq_some_iff] at h
      obtain ⟨⟨sp₀, st₀⟩, hr, e⟩ := h
      simp only [Prod.mk.injEq] at e
      obtain ⟨rfl, rfl⟩ := e
      obtain ⟨a, b, e1, e2, e3⟩ := pop_some hp
      have sub : ∀ x ∈ st₁, x ∈ st := by
        intro x hx
        rw [e2, List.mem_append] at hx
        rw [e1, List.mem_append]
        exact hx.imp id (List.mem_cons_of_mem _)
      have hi : i < t := hd.2 (n, i) (by rw [e1]; simp)
      have below : ∀ x ∈ st₁, x.1 = n → x.2 < i := by
        intro x hx hn
        rw [e2, List.mem_append] at hx
        rcases hx with hx | hx
        · exact absurd hn (e3 x hx)
        · have := hd.1
          rw [e1, List.pairwise_append] at this
          exact (List.pairwise_cons.mp this.2.1).1 x hx
      have hd' : Desc (t + 1) st₁ := by
        refine ⟨?_, fun x hx => by have := hd.2 x (sub x hx); omega⟩
        have := hd.1
        rw [e1] at this
        rw [e2]
        exact this.sublist ((List.Sublist.refl a).append (List.sublist_cons_self ..))
      obtain ⟨h1, h2, h3, h4, h5, h6⟩ := run_spec es (t + 1) _ sp₀ st₀ hd' hr
      refine ⟨?_, ?_, List.pairwise_cons.mpr ⟨?_, h3⟩, ?_, ?_, ?_⟩
      · intro s hs
        rcases List.mem_cons.mp hs with rfl | hs
        · exact ⟨Nat.le_refl _, Nat.le_of_lt hi, Or.inr (by rw [e1]; simp)⟩
        · obtain ⟨g1, g2, g3⟩ := h1 s hs
          exact ⟨by omega, g2, g3.imp (fun g => by omega) (sub _)⟩
      · intro x hx
        exact (h2 x hx).imp (fun g => by omega) (sub _)
      · intro s hs hn
        simp only [] at hn
        obtain ⟨g1, g2, g3⟩ := h1 s hs
        rcases g3 with g3 | g3
        · exact Or.inl (by simp only []; omega)
        · exact Or.inr ⟨below _ g3 hn.symm, by simp only []; omega⟩
      · intro s hs x hx e
        rcases List.mem_cons.mp hs with rfl | hs
        · rcases h2 x hx with g | g
          · exact Or.inr (by simp only []; omega)
          · exact Or.inl (below x g e)
        · exact h4 s hs x hx e
      · rw [List.map_cons, h5]; rfl
      · rw [List.map_cons, openings, List.cons_append]
        refine (h6.cons _).trans ?_
        rw [e1, e2, ← List.append_assoc, ← List.append_assoc]
        exact List.perm_middle.symm

/-- The number of open mentions of an entity. -/
def openCount (st : List (Str × Nat)) (n : Str) : Nat := st.countP fun x => x.1 == n

theorem openCount_pop {name n : Str} {st st' : List (Str × Nat)} {i : Nat} (h : pop name st = some (i, st')) :
    openCount st n = openCount st' n + if name = n then 1 else 0 := by
  obtain ⟨a, b, rfl, rfl, _⟩ := pop_some h
  simp only [openCount, List.countP_append, List.countP_cons, beq_iff_eq]
  omega

theorem run_none : ∀ (es : List Ev) (t : Nat) (st : List (Str × Nat)), run t st es = none ↔
    ∃ (k : Nat) (n : Str), openCount st n + (es.take k).count (.op n) < (es.take k).count (.cl n)
  | [], t, st => by simp [run]
  | .op m :: es, t, st => by
    rw [run, run_none es (t + 1)]
    constructor
    · rintro ⟨k, n, h⟩
      refine ⟨k + 1, n, ?_⟩
      simp only [openCount, List.countP_cons, beq_iff_eq, List.take_succ_cons, List.count_cons, Ev.op.injEq, reduceCtorEq, if_false] at h ⊢
      omega
    · rintro ⟨k, n, h⟩
      cases k with
      | zero => simp at h
      | succ k =>
        refine ⟨k, n, ?_⟩
        simp only [openCount, List.countP_cons, beq_iff_eq, List.take_succ_cons, List.count_cons, Ev.op.injEq, reduceCtorEq, if_false] at h ⊢
        omega
  | .single m :: es, t, st => by
    rw [run, Option.map_eq_none_iff, run_none es (t + 1)]
    constructor
    · rintro ⟨k, n, h⟩
      refine ⟨k + 1, n, ?_⟩
      simp only [List.take_succ_cons, List.count_cons, beq_iff_eq, reduceCtorEq, if_false] at h ⊢
      omega
    · rintro ⟨k, n, h⟩
      cases k with
      | zero => simp at h
      | succ k =>
        refine ⟨k, n, ?_⟩
        simp only [List.take_succ_cons, List.count_cons, beq_iff_eq, reduceCtorEq, if_false] at h ⊢
        omega
  | .cl m :: es, t, st => by
    rw [run]
    split
    · rename_i hp
      simp only [true_iff]
      refine ⟨1, m, ?_⟩
      have : openCount st m = 0 := by
        unfold openCount
        rw [List.countP_eq_zero]
        intro x hx
        simpa using pop_none.mp hp x hx
      rw [this]; simp
    · rename_i i st' hp
      have hc := fun n => openCount_pop (n := n) hp
      rw [Option.map_eq_none_iff, run_none es (t + 1)]
      constructor
      · rintro ⟨k, n, h⟩
        refine ⟨k + 1, n, ?_⟩
        have := hc n
        simp only [List.take_succ_cons, List.count_cons, beq_iff_eq, Ev.cl.injEq, reduceCtorEq, if_false] at h ⊢
        omega
      · rintro ⟨k, n, h⟩
        cases k with
        | zero => simp at h
        | succ k =>
          refine ⟨k, n, ?_⟩
          have := hc n
          simp only [List.take_succ_cons, List.count_cons, beq_iff_eq, Ev.cl.injEq, reduceCtorEq, if_false] at h ⊢
          omega

/-! ## C211 -/

/-- Nothing of the value of `Entity` is lost when it is cut into items. -/
theorem C211_nothing_lost (s : Str) : (cut s).flatten = s := by
  unfold cut; rw [pieces_flatten]; rfl

/-- Items written one after another are read back, if their contents are not empty and contain no brackets and no opening item comes directly before a closing one. -/
theorem C211_items (is : List Item) (h : Good is) : cut (is.map Item.write).flatten = is.map Item.write := pieces_good is _ h (Nat.le_refl _)

/-- An opening item directly before a closing one is always read as one single-word item. -/
theorem C211_ambiguous (x y : Str) : (Item.op x).write ++ (Item.cl y).write = (Item.single (x ++ y)).write := by simp [Item.write]

/-- The pairing: every closing item ends one mention of its entity; the openings are exactly the beginnings of these mentions and of the mentions left open; two mentions of one entity
are apart or one is inside the other; no mention left open begins inside a finished mention of its entity. -/
theorem C211_pairs (es : List Ev) (sp : List Span) (st : List (Str × Nat)) (h : run 0 [] es = some (sp, st)) :
    (sp.map fun s => (s.name, s.lst)) = closings 0 es ∧ ((sp.map fun s => (s.name, s.fst)) ++ st).Perm (openings 0 es) ∧
    (∀ s ∈ sp, s.fst ≤ s.lst) ∧
    sp.Pairwise (fun s s' => s.name = s'.name → s.lst < s'.fst ∨ (s'.fst < s.fst ∧ s.lst < s'.lst)) ∧
    ∀ s ∈ sp, ∀ x ∈ st, x.1 = s.name → x.2 < s.fst ∨ s.lst < x.2 := by
  obtain ⟨h1, _, h3, h4, h5, h6⟩ := run_spec es 0 [] sp st ⟨List.Pairwise.nil, by simp⟩ h
  exact ⟨h5, by simpa using h6, fun s hs => (h1 s hs).2.1, h3, h4⟩

/-- A tree is refused exactly when up to some item there are more closings than openings of one entity. -/
theorem C211_refused (es : List Ev) : run 0 [] es = none ↔ ∃ (k : Nat) (n : Str), (es.take k).count (.op n) < (es.take k).count (.cl n) := by
  rw [run_none]; simp [openCount]

/-! ## C212: mentions left open (lines 104-111)

`objs e` are the mentions of the entity `e`, `dict` the names in `eid_to_entity`; `name` is the variable of the loop above, i.e. the last entity name read. -/

structure Ents where
  objs : Str → List Nat
  dict : List Str

/-- One open mention `m` of the entity `e` (lines 106-111). `none`: `KeyError`. -/
def drop1 (name : Str) (s : Ents) (e : Str) (m : Nat) : Option Ents :=
  let objs' := fun x => if x = e then (s.objs e).erase m else s.objs x
  if (s.objs e).erase m = [] then
    if name ∈ s.dict then some ⟨objs', s.dict.erase name⟩ else none
  else some ⟨objs', s.dict⟩

def dropAll (name : Str) : List (Str × Nat) → Ents → Option Ents
  | [], s => some s
  | (e, m) :: r, s => (drop1 name s e m).bind (dropAll name r)

/-- The full claim: afterwards `eid_to_entity` has the same entities as before except those without mentions. -/
def Clean (name : Str) (un : List (Str × Nat)) (s : Ents) : Prop :=
  ∃ s', dropAll name un s = some s' ∧ ∀ e, e ∈ s'.dict ↔ e ∈ s.dict ∧ s'.objs e ≠ []

/-- The mentions go from their entities whatever the names are. -/
theorem dropAll_objs {name : Str} : ∀ {un : List (Str × Nat)} {s s' : Ents}, dropAll name un s = some s' →
    ∀ e, s'.objs e = un.foldl (fun l x => if x.1 = e then l.erase x.2 else l) (s.objs e)
  | [], s, s', h, e => by simp only [dropAll, Option.some.injEq] at h; subst h; rfl
  | (e₀, m) :: un, s, s', h, e => by
    rw [dropAll, Option.bind_eq_some_iff] at h
    obtain ⟨s₁, h1, h2⟩ := h
    rw [dropAll_objs h2 e, List.foldl_cons]
    congr 1
    unfold drop1 at h1
    simp only [] at h1
    have : s₁.objs = fun x => if x = e₀ then (s.objs e₀).erase m else s.objs x := by
      split at h1
      · split at h1
        · injection h1 with h1; subst h1; rfl
        · cases h1
      · injection h1 with h1; subst h1; rfl
    rw [this]
    by_cases he : e = e₀
    · subst he; simp
    · simp [he, Ne.symm he]

theorem dropAll_dict {name : Str} : ∀ {un : List (Str × Nat)} {s s' : Ents}, dropAll name un s = some s' → s.dict.Nodup →
    s'.dict.Nodup ∧ (∀ e, e ≠ name → (e ∈ s'.dict ↔ e ∈ s.dict)) ∧ (name ∈ s'.dict → name ∈ s.dict)
  | [], s, s', h, nd => by
    simp only [dropAll, Option.some.injEq] at h; subst h
    exact ⟨nd, fun _ _ => Iff.rfl, id⟩
  | (e₀, m) :: un, s, s', h, nd => by
    rw [dropAll, Option.bind_eq_some_iff] at h
    obtain ⟨s₁, h1, h2⟩ := h
    have hs : s₁.dict = s.dict ∨ s₁.dict = s.dict.erase name := by
      unfold drop1 at h1
      simp only [] at h1
      split at h1
      · split at h1
        · injection h1 with h1; subst h1; exact Or.inr rfl
        · cases h1
      · injection h1 with h1; subst h1; exact Or.inl rfl
    have nd1 : s₁.dict.Nodup := by
      rcases hs with e | e
      · rw [e]; exact nd
      · rw [e]; exact nd.erase _
    obtain ⟨g1, g2, g3⟩ := dropAll_dict h2 nd1
    refine ⟨g1, ?_, ?_⟩
    · intro e he
      rw [g2 e he]
      rcases hs with h | h
      · rw [h]
      · rw [h, List.mem_erase_of_ne he]
    · intro hn
      have := g3 hn
      rcases hs with h | h
      · rw [h] at this; exact this
      · rw [h] at this; exact List.mem_of_mem_erase this

/-- What is left of the mentions `l` of the entity `e` after the open ones are removed. -/
def rest (e : Str) (un : List (Str × Nat)) (l : List Nat) : List Nat := un.foldl (fun l x => if x.1 = e then l.erase x.2 else l) l

theorem rest_nil (e : Str) : ∀ (un : List (Str × Nat)), rest e un [] = []
  | [] => rfl
  | x :: un => by
    have := rest_nil e un
    unfold rest at this ⊢
    rw [List.foldl_cons]
    simp [this]

theorem rest_cons (e : Str) (x : Str × Nat) (un : List (Str × Nat)) (l : List Nat) : rest e (x :: un) l = rest e un (if x.1 = e then l.erase x.2 else l) := rfl

theorem rest_none {e : Str} : ∀ {un : List (Str × Nat)} (l : List Nat), (∀ x ∈ un, x.1 ≠ e) → rest e un l = l
  | [], _, _ => rfl
  | x :: un, l, h => by
    rw [rest_cons, if_neg (h x (List.mem_cons_self ..))]
    exact rest_none l fun y hy => h y (List.mem_cons_of_mem _ hy)

/-- When no entity loses all its mentions, `eid_to_entity` stays as it is. -/
theorem dropAll_keep {name : Str} : ∀ {un : List (Str × Nat)} {s : Ents}, (∀ x ∈ un, rest x.1 un (s.objs x.1) ≠ []) →
    ∃ s', dropAll name un s = some s' ∧ s'.dict = s.dict
  | [], s, _ => ⟨s, rfl, rfl⟩
  | (e, m) :: un, s, h => by
    have he : (s.objs e).erase m ≠ [] := by
      intro g
      apply h (e, m) (List.mem_cons_self ..)
      rw [rest_cons]; simp only [if_true]; rw [g]; exact rest_nil e un
    have h1 : drop1 name s e m = some ⟨fun x => if x = e then (s.objs e).erase m else s.objs x, s.dict⟩ := by
      unfold drop1; simp only [if_neg he]
    rw [dropAll, h1]
    simp only [Option.bind_some]
    obtain ⟨s', g1, g2⟩ := dropAll_keep (name := name) (un := un) (s := ⟨fun x => if x = e then (s.objs e).erase m else s.objs x, s.dict⟩) (by
      intro x hx
      have := h x (List.mem_cons_of_mem _ hx)
      rw [rest_cons] at this
      simp only []
      by_cases hxe : x.1 = e
      · rw [if_pos hxe, hxe]
        rw [if_pos hxe.symm, hxe] at this
        exact this
      · rw [if_neg hxe]
        rw [if_neg (Ne.symm hxe)] at this
        exact this)
    exact ⟨s', g1, g2⟩

/-- `eid_to_entity` is cleaned up as claimed when no entity loses all its mentions except, possibly, the one whose name was read last. -/
theorem C212_clean_partial {name : Str} : ∀ {un : List (Str × Nat)} {s : Ents}, (∀ x ∈ un, x.2 ∈ s.objs x.1) → un.Nodup →
    (∀ x ∈ un, x.1 ≠ name → rest x.1 un (s.objs x.1) ≠ []) → name ∈ s.dict → s.dict.Nodup → (∀ e ∈ s.dict, s.objs e ≠ []) → Clean name un s
  | [], s, _, _, _, _, _, hne => ⟨s, rfl, fun e => ⟨fun h => ⟨h, hne e h⟩, fun h => h.1⟩⟩
  | (e, m) :: un, s, hm, nd, hr, hn, hd, hne => by
    rw [List.nodup_cons] at nd
    by_cases he : (s.objs e).erase m = []
    · have hen : e = name := by
        refine Classical.byContradiction fun g => hr (e, m) (List.mem_cons_self ..) g ?_
        rw [rest_cons]; simp only [if_true]; rw [he]; exact rest_nil e un
      subst hen
      have hno : ∀ x ∈ un, x.1 ≠ e := by
        intro x hx g
        have h1 := hm x (List.mem_cons_of_mem _ hx)
        have h2 : x.2 ≠ m := fun g2 => nd.1 (by rw [← g, ← g2]; exact hx)
        rw [g] at h1
        have := (List.mem_erase_of_ne h2).mpr h1
        rw [he] at this
        cases this
      have h1 : drop1 e s e m = some ⟨fun x => if x = e then (s.objs e).erase m else s.objs x, s.dict.erase e⟩ := by
        unfold drop1; simp only [if_pos he, if_pos hn]
      obtain ⟨s', g1, g2⟩ := dropAll_keep (name := e) (un := un) (s := ⟨fun x => if x = e then (s.objs e).erase m else s.objs x, s.dict.erase e⟩) (by
        intro x hx
        have := hr x (List.mem_cons_of_mem _ hx) (hno x hx)
        rw [rest_cons, if_neg (Ne.symm (hno x hx))] at this
        simp only [if_neg (hno x hx)]
        exact this)
      have hob := dropAll_objs g1
      refine ⟨s', by rw [dropAll, h1]; exact g1, ?_⟩
      intro x
      rw [g2]
      simp only []
      have hx := hob x
      simp only [] at hx
      by_cases hxe : x = e
      · subst hxe
        rw [if_pos rfl, he] at hx
        constructor
        · intro g; exact absurd g hd.not_mem_erase
        · intro g; exact absurd (hx.trans (rest_nil x un)) g.2
      · rw [List.mem_erase_of_ne hxe]
        refine ⟨fun g => ⟨g, ?_⟩, fun g => g.1⟩
        rw [if_neg hxe] at hx
        rw [hx]
        by_cases hin : ∃ y ∈ un, y.1 = x
        · obtain ⟨y, hy, rfl⟩ := hin
          have := hr y (List.mem_cons_of_mem _ hy) hxe
          rw [rest_cons, if_neg (Ne.symm hxe)] at this
          exact this
        · have := rest_none (s.objs x) (fun y hy g => hin ⟨y, hy, g⟩)
          unfold rest at this
          rw [this]
          exact hne x g
    · have h1 : drop1 name s e m = some ⟨fun x => if x = e then (s.objs e).erase m else s.objs x, s.dict⟩ := by
        unfold drop1; simp only [if_neg he]
      obtain ⟨s', g1, g2⟩ := C212_clean_partial (name := name) (un := un) (s := ⟨fun x => if x = e then (s.objs e).erase m else s.objs x, s.dict⟩) (by
          intro x hx
          have h := hm x (List.mem_cons_of_mem _ hx)
          simp only []
          by_cases hxe : x.1 = e
          · rw [if_pos hxe]
            rw [hxe] at h
            exact (List.mem_erase_of_ne (fun g => nd.1 (by rw [← hxe, ← g]; exact hx))).mpr h
          · rw [if_neg hxe]; exact h) nd.2 (by
          intro x hx hxn
          have := hr x (List.mem_cons_of_mem _ hx) hxn
          rw [rest_cons] at this
          simp only []
          by_cases hxe : x.1 = e
          · rw [if_pos hxe, hxe]
            rw [if_pos hxe.symm, hxe] at this
            exact this
          · rw [if_neg hxe]
            rw [if_neg (Ne.symm hxe)] at this
            exact this) hn hd (by
          intro x hx
          simp only []
          by_cases hxe : x = e
          · rw [if_pos hxe]; exact he
          · rw [if_neg hxe]; exact hne x hx)
      exact ⟨s', by rw [dropAll, h1]; exact g1, g2⟩

/-- The mentions left open are removed from their entities in any case. -/
theorem C212_removed (name : Str) (un : List (Str × Nat)) (s s' : Ents) (h : dropAll name un s = some s') (e : Str) :
    s'.objs e = rest e un (s.objs e) := dropAll_objs h e

/-- For every entity `e` whose only mention is left open and whose name is not the last one read: the block fails with a `KeyError`, or `e` stays in `eid_to_entity` without mentions and
the entity read last is deleted from it. -/
theorem C212_clean_violated (name : Str) (un : List (Str × Nat)) (s : Ents) (e : Str) (m : Nat) (hd : s.dict.Nodup) (he : e ∈ s.dict) (hm : s.objs e = [m])
    (hn : e ≠ name) : (dropAll name ((e, m) :: un) s = none ∨ ∃ s', dropAll name ((e, m) :: un) s = some s' ∧ e ∈ s'.dict ∧ s'.objs e = [] ∧ name ∉ s'.dict) ∧
      ¬ Clean name ((e, m) :: un) s := by
  have key : ∀ s', dropAll name ((e, m) :: un) s = some s' → e ∈ s'.dict ∧ s'.objs e = [] ∧ name ∉ s'.dict := by
    intro s' hs
    refine ⟨((dropAll_dict hs hd).2.1 e hn).mpr he, ?_, ?_⟩
    · rw [C212_removed name _ s s' hs, rest_cons]
      simp only [if_true]
      rw [hm]; simp only [List.erase_cons_head]; exact rest_nil e un
    · rw [dropAll, Option.bind_eq_some_iff] at hs
      obtain ⟨s₁, h1, h2⟩ := hs
      unfold drop1 at h1
      have he : (s.objs e).erase m = [] := by rw [hm]; simp
      simp only [if_pos he] at h1
      split at h1
      · injection h1 with h1
        subst h1
        intro g
        exact hd.not_mem_erase ((dropAll_dict h2 (hd.erase _)).2.2 g)
      · cases h1
  constructor
  · cases hs : dropAll name ((e, m) :: un) s with
    | none => exact Or.inl rfl
    | some s' => exact Or.inr ⟨s', rfl, key s' hs⟩
  · rintro ⟨s', hs, hc⟩
    obtain ⟨k1, k2, _⟩ := key s' hs
    exact ((hc e).mp k1).2 k2

/-- "(a-7(b-3)": two items. "x)(y" and stray text. -/
example : cut ['(', 'a', '-', '7', '(', 'b', '-', '3', ')'] = [['(', 'a', '-', '7'], ['(', 'b', '-', '3', ')']] ∧
    cut ['x', ')', '(', 'y', '(', ')', 'z'] = [['x', ')'], ['(', 'y'], ['(', ')', 'z']] := by decide
example : run 0 [] [.op ['a'], .op ['b'], .op ['a'], .cl ['a'], .cl ['b'], .single ['c'], .op ['d']] =
    some ([⟨['a'], 2, 3⟩, ⟨['b'], 1, 4⟩, ⟨['c'], 5, 5⟩], [(['d'], 6), (['a'], 0)]) := by decide
/-- Entity a was left open, b was read last and has a mention: b is deleted. -/
def exEnts : Ents := ⟨fun x => if x = ['a'] then [1] else if x = ['b'] then [2] else [], [['a'], ['b']]⟩
example : (dropAll ['b'] [(['a'], 1)] exEnts).map (·.dict) = some [['a']] ∧ (dropAll ['a'] [(['a'], 1)] exEnts).map (·.dict) = some [['b']] := by decide

end Verif.Coref.Gum
