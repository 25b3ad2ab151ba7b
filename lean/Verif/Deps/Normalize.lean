import Verif.Deps.Props
import Verif.Py.Sort
import Verif.DualDict.Props

/-!
# Property C166: normalization of files (udapi/block/util/normalize.py)

The three things that the block can change: the ords of empty nodes, the order of FEATS and MISC, and the sentence ids. Nodes, ords and enhanced dependencies are those of
`Verif.Deps`: the ord of an empty node has one decimal place. FEATS and MISC are those of `Verif.DualDict`. Parameter `newdoc_from_filename` is not modelled.
-/

namespace Verif.Deps.Normalize
open Verif.Py Verif.Deps

/-! ## Ords of empty nodes -/

/-- The ord as a number of tenths -/
def val : Ord → Nat
  | .word k => 10 * k
  | .empty e => e

/-- `root.descendants_and_empty` (root.py:262-264) -/
def seq (env : Env) : List Nat :=
  pySort (fun x y => decide (val (env.ord x) ≤ val (env.ord y))) (env.nodes.tail ++ env.empties)

/-- `float(f"{a}.{k}")` in tenths (node.py:1054-1055). `none`: two decimal places are needed, which the model does not have. -/
def floatOrd (a k : Nat) : Option Nat :=
  if k < 10 then some (10 * a + k) else if k < 100 ∧ k % 10 = 0 then some (10 * a + k / 10) else none

/-- `for n in tree.descendants_and_empty: n.deps` (normalize.py:82-83). `none`: an exception -/
def readAll (env : Env) (st : Nat → St) : Option (Nat → St) :=
  if (seq env).all (fun n => (getDeps env (st n)).2.toOption.isSome) then some (fun n => if n ∈ seq env then (getDeps env (st n)).1 else st n) else none

/-- The loop over the nodes (normalize.py:76-87); `a` is `node_ord`, `k` is `empty_ord`. `none`: an exception, or see `floatOrd`. -/
def loop (env : Env) (st : Nat → St) (a k : Nat) : List Nat → Option (Env × (Nat → St))
  | [] => some (env, st)
  | x :: xs =>
    if x ∈ env.empties then
      if (env.ord x).str ≠ natStr a ++ '.' :: natStr (k + 1) then
        match readAll env st, floatOrd a (k + 1) with
        | some st', some e => loop { env with ord := fun y => if y = x then .empty e else env.ord y } st' a (k + 1) xs
        | _, _ => none
      else loop env st a (k + 1) xs
    else
      match env.ord x with
      | .word j => loop env st j 0 xs
      | .empty _ => none

/-- `process_tree` with `empty_node_ord=True` (normalize.py:73-87) -/
def normOrds (env : Env) (st : Nat → St) : Option (Env × (Nat → St)) := loop env st 0 0 (seq env)

/-! ### What the properties say -/

/-- A tree as the reader makes it: words are numbered from 1 after the root, empty nodes have any ords with one decimal place, even repeated ones. -/
structure Tree (env : Env) : Prop where
  root : env.nodes ≠ []
  word : ∀ k x : Nat, env.nodes[k]? = some x → env.ord x = .word k
  empty : ∀ x ∈ env.empties, ∃ e, env.ord x = .empty e
  nodup : (env.nodes ++ env.empties).Nodup

/-- The number of words in a list of nodes -/
def words (env : Env) (l : List Nat) : Nat := (l.filter (fun x => decide (x ∉ env.empties))).length

/-- The number of empty nodes at the end of a list of nodes -/
def row (env : Env) (l : List Nat) : Nat := l.foldl (fun k x => if x ∈ env.empties then k + 1 else 0) 0

/-- At most `m` empty nodes follow each other. -/
def Rows (m : Nat) (env : Env) : Prop := ∀ l r, seq env = l ++ r → row env l ≤ m

/-! ### Lemmas -/

theorem mem_seq {env : Env} {x : Nat} : x ∈ seq env ↔ x ∈ env.nodes.tail ∨ x ∈ env.empties := by
  unfold seq
  rw [mem_pySort, List.mem_append]

theorem tree_disj {env : Env} (h : Tree env) {x : Nat} (hx : x ∈ env.nodes) : x ∉ env.empties :=
  fun he => (List.nodup_append.1 h.nodup).2.2 x hx x he rfl

theorem tail_sorted {env : Env} (h : Tree env) : env.nodes.tail.Pairwise (fun x y => val (env.ord x) < val (env.ord y)) := by
  rw [List.pairwise_iff_getElem]
  intro i j hi hj hij
  have e1 := h.word (i + 1) env.nodes.tail[i] (by rw [← List.getElem?_tail]; exact List.getElem?_eq_getElem hi)
  have e2 := h.word (j + 1) env.nodes.tail[j] (by rw [← List.getElem?_tail]; exact List.getElem?_eq_getElem hj)
  rw [e1, e2]
  show 10 * (i + 1) < 10 * (j + 1)
  omega

theorem seq_filter {env : Env} (h : Tree env) : (seq env).filter (fun x => decide (x ∉ env.empties)) = env.nodes.tail := by
  unfold seq
  rw [pySort_filter (by intro a b c; simp; omega) (by intro a b; simp; omega), List.filter_append]
  have e1 : env.nodes.tail.filter (fun x => decide (x ∉ env.empties)) = env.nodes.tail :=
    List.filter_eq_self.2 (fun x hx => decide_eq_true (tree_disj h (List.mem_of_mem_tail hx)))
  have e2 : env.empties.filter (fun x => decide (x ∉ env.empties)) = [] :=
    List.filter_eq_nil_iff.2 (fun x hx => by simpa using hx)
  rw [e1, e2, List.append_nil]
  exact pySort_of_pairwise ((tail_sorted h).imp (fun hlt => decide_eq_true (Nat.le_of_lt hlt)))

theorem seq_nodup {env : Env} (h : Tree env) : (seq env).Nodup := by
  unfold seq
  rw [(pySort_perm _ _).nodup_iff]
  exact h.nodup.sublist (List.Sublist.append (List.tail_sublist _) (List.Sublist.refl _))

/-- The ord of a word is the number of words before it, plus 1. -/
theorem word_ord {env : Env} (h : Tree env) {l r : List Nat} {x : Nat} (hs : seq env = l ++ x :: r) (hx : x ∉ env.empties) : env.ord x = .word (words env l + 1) := by
  have e := seq_filter h
  rw [hs, List.filter_append, List.filter_cons, if_pos (decide_eq_true hx)] at e
  refine h.word _ x ?_
  rw [← List.getElem?_tail, ← e]
  unfold words
  rw [List.getElem?_append_right (Nat.le_refl _), Nat.sub_self]
  rfl

theorem words_snoc (env : Env) (l : List Nat) (x : Nat) : words env (l ++ [x]) = words env l + if x ∈ env.empties then 0 else 1 := by
  unfold words
  rw [List.filter_append, List.length_append, List.filter_cons, List.filter_nil]
  by_cases h : x ∈ env.empties <;> simp [h]

theorem row_snoc (env : Env) (l : List Nat) (x : Nat) : row env (l ++ [x]) = if x ∈ env.empties then row env l + 1 else 0 := by
  unfold row
  rw [List.foldl_append]
  rfl

theorem ord_eq_of_str {a k e : Nat} (hk : k < 10) (h : (Ord.empty e).str = natStr a ++ '.' :: natStr k) : e = 10 * a + k := by
  have h1 : (Ord.empty (10 * a + k)).str = natStr a ++ '.' :: natStr k := by
    show natStr ((10 * a + k) / 10) ++ '.' :: natStr ((10 * a + k) % 10) = _
    rw [show (10 * a + k) / 10 = a by omega, show (10 * a + k) % 10 = k by omega]
  have := ordStr_inj (h.trans h1.symm)
  injection this

/-- The numbers that the loop gives: `float` of the number of words before and the place in the row -/
def Given (env env' : Env) (p xs : List Nat) : Prop := ∀ l x r, xs = l ++ x :: r → x ∈ env.empties →
  ∃ e, floatOrd (words env (p ++ l)) (row env (p ++ l) + 1) = some e ∧ env'.ord x = .empty e

/-- The states of the nodes after `n.deps` -/
def readSt (env : Env) (st : Nat → St) : Nat → St := fun n => if n ∈ seq env then (getDeps env (st n)).1 else st n

theorem readAll_ok {env : Env} {st : Nat → St} (h : ∀ n ∈ seq env, ∃ l, (getDeps env (st n)).2 = .ok l) : readAll env st = some (readSt env st) := by
  unfold readAll
  refine if_pos (List.all_eq_true.2 fun n hn => ?_)
  obtain ⟨l, hl⟩ := h n hn
  rw [hl]
  rfl

theorem getDeps_done (env env' : Env) (s : St) : ∃ l, (getDeps env s).1.deps = some l ∧ (getDeps env' (getDeps env s).1) = ((getDeps env s).1, .ok l) := by
  have key : ∀ (s' : St) (l : DepList), s'.deps = some l → ∃ l, s'.deps = some l ∧ getDeps env' s' = (s', .ok l) := by
    intro s' l h
    refine ⟨l, h, ?_⟩
    unfold getDeps
    rw [h]
  unfold getDeps
  cases hd : s.deps with
  | some l => exact key _ l hd
  | none =>
    cases hr : s.raw with
    | none => exact key _ [] rfl
    | some raw =>
      dsimp only
      by_cases hv : raw = ['_']
      · rw [if_pos hv]; exact key _ [] rfl
      · rw [if_neg hv]; exact key _ _ rfl

/-- Reading again changes nothing. -/
theorem readAll_again {env env' : Env} (hs : ∀ n, n ∈ seq env' ↔ n ∈ seq env) (st : Nat → St) : readAll env' (readSt env st) = some (readSt env st) := by
  have h1 : ∀ n ∈ seq env', ∃ l, getDeps env' (readSt env st n) = (readSt env st n, .ok l) := by
    intro n hn
    unfold readSt
    rw [if_pos ((hs n).1 hn)]
    obtain ⟨l, _, h⟩ := getDeps_done env env' (st n)
    exact ⟨l, h⟩
  rw [readAll_ok (fun n hn => by obtain ⟨l, h⟩ := h1 n hn; exact ⟨l, by rw [h]⟩)]
  congr 1
  funext n
  show (if n ∈ seq env' then _ else _) = _
  by_cases hn : n ∈ seq env'
  · obtain ⟨l, h⟩ := h1 n hn
    rw [if_pos hn, h]
  · rw [if_neg hn]

theorem given_cons_empty {env env' : Env} {p xs : List Nat} {x e : Nat} (he : floatOrd (words env p) (row env p + 1) = some e) (hx' : env'.ord x = .empty e)
    (h : Given env env' (p ++ [x]) xs) : Given env env' p (x :: xs) := by
  intro l y r hl hy
  cases l with
  | nil =>
    cases hl
    rw [List.append_nil]
    exact ⟨e, he, hx'⟩
  | cons z l =>
    cases hl
    have := h l y r rfl hy
    rw [List.append_assoc] at this
    exact this

theorem given_cons_word {env env' : Env} {p xs : List Nat} {x : Nat} (hx : x ∉ env.empties) (h : Given env env' (p ++ [x]) xs) : Given env env' p (x :: xs) := by
  intro l y r hl hy
  cases l with
  | nil => cases hl; exact absurd hy hx
  | cons z l =>
    cases hl
    have := h l y r rfl hy
    rw [List.append_assoc] at this
    exact this

/-- The loop, once the dependencies are read -/
theorem loop_read {env : Env} (h : Tree env) (hr : Rows 10 env) (st : Nat → St) : ∀ (xs p : List Nat) (cur : Env), seq env = p ++ xs → cur.nodes = env.nodes → cur.empties = env.empties →
    (∀ y ∈ xs, cur.ord y = env.ord y) →
    ∃ env', loop cur (readSt env st) (words env p) (row env p) xs = some (env', readSt env st) ∧ env'.nodes = env.nodes ∧ env'.empties = env.empties ∧
      (∀ y, y ∉ xs ∨ y ∉ env.empties → env'.ord y = cur.ord y) ∧ Given env env' p xs := by
  intro xs
  induction xs with
  | nil =>
    intro p cur _ h1 h2 _
    exact ⟨cur, rfl, h1, h2, fun _ _ => rfl, fun l x r hl => by cases l <;> cases hl⟩
  | cons x xs ih =>
    intro p cur hs h1 h2 hcur
    have hs' : seq env = (p ++ [x]) ++ xs := by rw [List.append_assoc]; exact hs
    have hxs : x ∉ xs := by
      have := seq_nodup h
      rw [hs] at this
      exact (List.nodup_cons.1 (List.nodup_append.1 this).2.1).1
    rw [loop]
    by_cases hx : x ∈ env.empties
    · rw [if_pos (h2 ▸ hx)]
      have hrow : row env p + 1 ≤ 10 := by
        have := hr _ _ hs'
        rw [row_snoc, if_pos hx] at this
        exact this
      obtain ⟨e, he⟩ : ∃ e, floatOrd (words env p) (row env p + 1) = some e := by
        unfold floatOrd
        by_cases h9 : row env p + 1 < 10
        · exact ⟨_, if_pos h9⟩
        · rw [if_neg h9, if_pos (by omega)]
          exact ⟨_, rfl⟩
      have hw : words env (p ++ [x]) = words env p := by rw [words_snoc, if_pos hx]; rfl
      have hrw : row env (p ++ [x]) = row env p + 1 := by rw [row_snoc, if_pos hx]
      by_cases hc : (cur.ord x).str ≠ natStr (words env p) ++ '.' :: natStr (row env p + 1)
      · rw [if_pos hc]
        rw [readAll_again (env' := cur) (by intro n; rw [mem_seq, mem_seq, h1, h2]), he]
        dsimp only
        obtain ⟨env', g1, g2, g3, g4, g5⟩ := ih (p ++ [x]) { cur with ord := fun y => if y = x then .empty e else cur.ord y } hs' h1 h2 (by
          intro y hy
          show (if y = x then _ else _) = _
          rw [if_neg (show ¬ y = x from fun e => hxs (e ▸ hy))]
          exact hcur y (List.mem_cons_of_mem _ hy))
        rw [hw, hrw] at g1
        refine ⟨env', g1, g2, g3, ?_, given_cons_empty he ?_ g5⟩
        · intro y hy
          have hne : y ≠ x := by
            rintro rfl
            exact hy.elim (fun h => h List.mem_cons_self) (fun h => h hx)
          rw [g4 y (hy.imp (fun h h' => h (List.mem_cons_of_mem _ h')) id)]
          exact if_neg hne
        · rw [g4 x (.inl hxs)]
          exact if_pos rfl
      · rw [if_neg hc]
        obtain ⟨env', g1, g2, g3, g4, g5⟩ := ih (p ++ [x]) cur hs' h1 h2 (fun y hy => hcur y (List.mem_cons_of_mem _ hy))
        rw [hw, hrw] at g1
        refine ⟨env', g1, g2, g3, fun y hy => g4 y (hy.imp (fun h h' => h (List.mem_cons_of_mem _ h')) id), given_cons_empty he ?_ g5⟩
        rw [g4 x (.inl hxs)]
        obtain ⟨o, ho⟩ := h.empty x hx
        have hco : cur.ord x = .empty o := (hcur x List.mem_cons_self).trans ho
        have hstr := Decidable.of_not_not hc
        rw [hco] at hstr ⊢
        congr 1
        by_cases h9 : row env p + 1 < 10
        · have := ord_eq_of_str h9 hstr
          unfold floatOrd at he
          rw [if_pos h9] at he
          injection he with he
          omega
        · exfalso
          have h10 : row env p + 1 = 10 := by omega
          rw [h10] at hstr
          have h2 := (append_sep_inj (dot_not_mem_natStr _) (dot_not_mem_natStr _) hstr).2
          have := natStr_inj h2
          omega
    · rw [if_neg (fun hc => hx (h2 ▸ hc)), hcur x List.mem_cons_self, word_ord h hs hx]
      dsimp only
      obtain ⟨env', g1, g2, g3, g4, g5⟩ := ih (p ++ [x]) cur hs' h1 h2 (fun y hy => hcur y (List.mem_cons_of_mem _ hy))
      rw [words_snoc, row_snoc, if_neg hx, if_neg hx] at g1
      exact ⟨env', g1, g2, g3, fun y hy => g4 y (hy.imp (fun h h' => h (List.mem_cons_of_mem _ h')) id), given_cons_word hx g5⟩

/-- The loop, before the dependencies are read: either nothing changes, or they are read. -/
theorem loop_fresh {env : Env} (h : Tree env) (hr : Rows 10 env) {st : Nat → St} (hd : ∀ n ∈ seq env, ∃ l, (getDeps env (st n)).2 = .ok l) : ∀ (xs p : List Nat), seq env = p ++ xs →
    ∃ env' st', loop env st (words env p) (row env p) xs = some (env', st') ∧ env'.nodes = env.nodes ∧ env'.empties = env.empties ∧
      (∀ y, y ∉ xs ∨ y ∉ env.empties → env'.ord y = env.ord y) ∧ Given env env' p xs ∧ ((env' = env ∧ st' = st) ∨ st' = readSt env st) := by
  intro xs
  induction xs with
  | nil =>
    intro p _
    exact ⟨env, st, rfl, rfl, rfl, fun _ _ => rfl, (fun l x r hl => by cases l <;> cases hl), .inl ⟨rfl, rfl⟩⟩
  | cons x xs ih =>
    intro p hs
    have hs' : seq env = (p ++ [x]) ++ xs := by rw [List.append_assoc]; exact hs
    have hxs : x ∉ xs := by
      have := seq_nodup h
      rw [hs] at this
      exact (List.nodup_cons.1 (List.nodup_append.1 this).2.1).1
    obtain ⟨env', st', g1, g2, g3, g4, g5, g6⟩ := ih (p ++ [x]) hs'
    rw [loop]
    by_cases hx : x ∈ env.empties
    · rw [if_pos hx]
      by_cases hc : (env.ord x).str ≠ natStr (words env p) ++ '.' :: natStr (row env p + 1)
      · obtain ⟨env', g1, g2, g3, g4, g5⟩ := loop_read h hr st (x :: xs) p env hs rfl rfl (fun _ _ => rfl)
        refine ⟨env', readSt env st, ?_, g2, g3, g4, g5, .inr rfl⟩
        rw [loop, if_pos hx, if_pos hc, readAll_again (fun _ => Iff.rfl)] at g1
        rw [if_pos hc, readAll_ok hd]
        exact g1
      · rw [if_neg hc]
        rw [words_snoc, row_snoc, if_pos hx, if_pos hx] at g1
        refine ⟨env', st', g1, g2, g3, fun y hy => g4 y (hy.imp (fun h h' => h (List.mem_cons_of_mem _ h')) id), ?_, g6⟩
        obtain ⟨env2, k1, k2, k3, k4, k5⟩ := loop_read h hr st (x :: xs) p env hs rfl rfl (fun _ _ => rfl)
        obtain ⟨e, he, hxe⟩ := k5 [] x xs rfl hx
        rw [List.append_nil] at he
        rw [loop, if_pos hx, if_neg hc] at k1
        obtain ⟨env3, m1, m2, m3, m4, m5⟩ := loop_read h hr st xs (p ++ [x]) env hs' rfl rfl (fun _ _ => rfl)
        rw [words_snoc, row_snoc, if_pos hx, if_pos hx, Nat.add_zero, k1] at m1
        injection m1 with m1
        injection m1 with m1
        subst m1
        refine given_cons_empty he ?_ g5
        rw [g4 x (.inl hxs), ← m4 x (.inl hxs)]
        exact hxe
    · rw [if_neg hx, word_ord h hs hx]
      dsimp only
      rw [words_snoc, row_snoc, if_neg hx, if_neg hx] at g1
      exact ⟨env', st', g1, g2, g3, fun y hy => g4 y (hy.imp (fun h h' => h (List.mem_cons_of_mem _ h')) id), given_cons_word hx g5, g6⟩

/-- The position after a list of nodes -/
def pos (env : Env) (l : List Nat) : Nat := 10 * words env l + row env l

theorem pos_lt (env : Env) (hr : Rows 9 env) {l : List Nat} {x : Nat} {r : List Nat} (hs : seq env = l ++ x :: r) : pos env l < pos env (l ++ [x]) := by
  have := hr l _ hs
  unfold pos
  rw [words_snoc, row_snoc]
  by_cases h : x ∈ env.empties
  · rw [if_pos h, if_pos h]; omega
  · rw [if_neg h, if_neg h]; omega

theorem rows_mono {env : Env} (h : Rows 9 env) : Rows 10 env := fun l r hs => Nat.le_succ_of_le (h l r hs)

/-- The new position of a node -/
theorem new_val {env env' : Env} (h : Tree env) (hr : Rows 9 env) (hw : ∀ y, y ∉ env.empties → env'.ord y = env.ord y) (hg : Given env env' [] (seq env)) {l r : List Nat} {x : Nat}
    (hs : seq env = l ++ x :: r) : val (env'.ord x) = pos env (l ++ [x]) ∧ (x ∈ env.empties → env'.ord x = .empty (10 * words env l + row env l + 1)) := by
  have hs' : seq env = (l ++ [x]) ++ r := by rw [List.append_assoc]; exact hs
  unfold pos
  rw [words_snoc, row_snoc]
  by_cases hx : x ∈ env.empties
  · obtain ⟨e, he, hxe⟩ := hg l x r hs hx
    have := hr _ _ hs'
    rw [row_snoc, if_pos hx] at this
    rw [List.nil_append] at he
    unfold floatOrd at he
    rw [hxe, if_pos hx, if_pos hx]
    by_cases h9 : row env l + 1 < 10
    · rw [if_pos h9] at he
      injection he with he
      subst he
      exact ⟨by show _ + _ = _; omega, fun _ => by congr 1⟩
    · omega
  · rw [hw x hx, word_ord h hs hx, if_neg hx, if_neg hx]
    exact ⟨rfl, fun h => absurd h hx⟩

theorem new_sorted {env env' : Env} (h : Tree env) (hr : Rows 9 env) (hw : ∀ y, y ∉ env.empties → env'.ord y = env.ord y) (hg : Given env env' [] (seq env)) :
    ∀ (xs p : List Nat), seq env = p ++ xs → (∀ y ∈ xs, pos env p < val (env'.ord y)) ∧ xs.Pairwise (fun x y => val (env'.ord x) < val (env'.ord y))
  | [], _, _ => ⟨fun y hy => (by cases hy), .nil⟩
  | x :: xs, p, hs => by
    have hs' : seq env = (p ++ [x]) ++ xs := by rw [List.append_assoc]; exact hs
    obtain ⟨h1, h2⟩ := new_sorted h hr hw hg xs (p ++ [x]) hs'
    have hv := (new_val h hr hw hg hs).1
    have hlt := pos_lt env hr hs
    refine ⟨fun y hy => ?_, List.pairwise_cons.2 ⟨fun y hy => by rw [hv]; exact h1 y hy, h2⟩⟩
    rcases List.mem_cons.1 hy with rfl | hy
    · rw [hv]; exact hlt
    · exact Nat.lt_trans hlt (h1 y hy)

theorem seq_same {env env' : Env} (h1 : env'.nodes = env.nodes) (h2 : env'.empties = env.empties) (hs : (seq env).Pairwise (fun x y => val (env'.ord x) < val (env'.ord y))) :
    seq env' = seq env := by
  have hp1 : (seq env').Perm (env.nodes.tail ++ env.empties) := by
    unfold seq; rw [h1, h2]; exact pySort_perm _ _
  have hp2 : (seq env).Perm (env.nodes.tail ++ env.empties) := pySort_perm _ _
  have hpw : (seq env').Pairwise (fun x y => val (env'.ord x) ≤ val (env'.ord y)) := by
    unfold seq
    exact (pySort_pairwise (le := fun x y => decide (val (env'.ord x) ≤ val (env'.ord y))) (by intro a b c; simp; omega) (by intro a b; simp; omega) _).imp (fun h => of_decide_eq_true h)
  have hperm := hp1.trans hp2.symm
  refine List.Perm.eq_of_pairwise (le := fun x y => val (env'.ord x) ≤ val (env'.ord y)) ?_ hpw (hs.imp (fun h => Nat.le_of_lt h)) hperm
  intro a b ha hb h3 h4
  have ha' := hperm.mem_iff.1 ha
  apply Classical.byContradiction
  intro hne
  have : ∀ l : List Nat, l.Pairwise (fun x y => val (env'.ord x) < val (env'.ord y)) → a ∈ l → b ∈ l → val (env'.ord a) ≠ val (env'.ord b) := by
    intro l
    induction l with
    | nil => intro _ h; cases h
    | cons z l ih =>
      intro hp ma mb
      obtain ⟨q1, q2⟩ := List.pairwise_cons.1 hp
      rcases List.mem_cons.1 ma with rfl | ma'
      · rcases List.mem_cons.1 mb with rfl | mb'
        · exact absurd rfl hne
        · exact Nat.ne_of_lt (q1 b mb')
      · rcases List.mem_cons.1 mb with rfl | mb'
        · exact Nat.ne_of_gt (q1 a ma')
        · exact ih q2 ma' mb'
  exact this (seq env) hs ha' hb (Nat.le_antisymm h3 h4)

/-- What is found for a head -/
theorem findParent_has {env : Env} {head : Str} {x : Nat} (h : findParent env head = .ok x) : env.Has x := by
  unfold findParent at h
  split at h
  · split at h
    · cases h
    · rename_i hf
      cases h
      exact .inr (List.mem_of_find?_eq_some hf)
  · split at h
    · cases h
    · split at h
      · cases h
      · rename_i hg
        cases h
        exact .inl (List.mem_of_getElem? hg)

theorem parseLoop_has {env : Env} : ∀ (is : List Str) (acc l : DepList), parseLoop env acc is = (l, none) → (∀ i ∈ is, '|' ∉ i) →
    ∃ l', l = acc ++ l' ∧ l'.length = is.length ∧ ∀ d ∈ l', env.Has d.1 ∧ '|' ∉ d.2 := by
  intro is
  induction is with
  | nil =>
    intro acc l h _
    simp only [parseLoop, Prod.mk.injEq, and_true] at h
    exact ⟨[], by simp [h], rfl, fun d hd => (by cases hd)⟩
  | cons i is ih =>
    intro acc l h hb
    unfold parseLoop at h
    have hsp := splitOnce_eq ':' i
    split at h
    · simp at h
    · rename_i head deprel hs
      rw [hs] at hsp
      split at h
      · simp at h
      · rename_i p hp
        obtain ⟨l', rfl, hlen, hit⟩ := ih _ _ h (fun j hj => hb j (List.mem_cons_of_mem _ hj))
        refine ⟨(p, deprel) :: l', by simp, by simp [hlen], fun d hd => ?_⟩
        rcases List.mem_cons.1 hd with rfl | hd
        · refine ⟨findParent_has hp, fun hc => hb i List.mem_cons_self ?_⟩
          rw [← hsp]
          simp [tailOf, hc]
        · exact hit d hd

theorem getDeps_raw_has {env : Env} {raw : Str} {l : DepList} (h : (getDeps env ⟨some raw, none⟩).2 = .ok l) :
    (getDeps env ⟨some raw, none⟩).1 = ⟨some raw, some l⟩ ∧ (l = [] → raw = ['_']) ∧ ∀ d ∈ l, env.Has d.1 ∧ '|' ∉ d.2 := by
  unfold getDeps at h ⊢
  dsimp only at h ⊢
  by_cases hv : raw = ['_']
  · rw [if_pos hv] at h ⊢
    cases h
    exact ⟨rfl, fun _ => hv, fun d hd => (by cases hd)⟩
  · rw [if_neg hv] at h ⊢
    cases hr : parseLoop env [] (split '|' raw) with
    | mk l' err =>
      rw [hr] at h
      cases err with
      | some e => cases h
      | none =>
        cases h
        obtain ⟨l2, e2, hlen, hit⟩ := parseLoop_has _ _ _ hr (fun i hi => not_mem_split _ _ i hi)
        rw [List.nil_append] at e2
        subst e2
        refine ⟨rfl, fun h0 => ?_, hit⟩
        rw [show l' = [] from h0] at hlen
        exact absurd (List.length_eq_zero_iff.1 hlen.symm) (split_ne_nil _ _)

/-! ### Theorems -/

/-- The hypothesis about the dependencies: they are as read from a file, and each of them can be understood. -/
def Readable (env : Env) (st : Nat → St) (deps : Nat → DepList) : Prop :=
  ∀ n ∈ seq env, ∃ raw, st n = ⟨some raw, none⟩ ∧ (getDeps env (st n)).2 = .ok (deps n)

/-- **C166, the new ords.** If at most nine empty nodes follow each other, the decimal places of each row are 1, 2, 3... and the whole parts are the number of words before.
The words keep their ords. -/
theorem C166_ords {env : Env} (h : Tree env) (hr : Rows 9 env) {st : Nat → St} {deps : Nat → DepList} (hd : Readable env st deps) :
    ∃ env' st', normOrds env st = some (env', st') ∧ env'.nodes = env.nodes ∧ env'.empties = env.empties ∧ (∀ y, y ∉ env.empties → env'.ord y = env.ord y) ∧
      ∀ l x r, seq env = l ++ x :: r → x ∈ env.empties → env'.ord x = .empty (10 * words env l + (row env l + 1)) := by
  obtain ⟨env', st', g1, g2, g3, g4, g5, _⟩ := loop_fresh h (rows_mono hr) (fun n hn => by obtain ⟨_, _, e⟩ := hd n hn; exact ⟨_, e⟩) (seq env) [] rfl
  refine ⟨env', st', g1, g2, g3, fun y hy => g4 y (.inr hy), fun l x r hs hx => ?_⟩
  exact (new_val h hr (fun y hy => g4 y (.inr hy)) g5 hs).2 hx

/-- **C166, the order of the nodes.** It stays, and no two nodes have the same ord. -/
theorem C166_order {env env' : Env} (h : Tree env) (hr : Rows 9 env) {st st' : Nat → St} {deps : Nat → DepList} (hd : Readable env st deps) (hn : normOrds env st = some (env', st')) :
    seq env' = seq env ∧ (seq env').Pairwise (fun x y => val (env'.ord x) < val (env'.ord y)) := by
  obtain ⟨env2, st2, g1, g2, g3, g4, g5, _⟩ := loop_fresh h (rows_mono hr) (fun n hn => by obtain ⟨_, _, e⟩ := hd n hn; exact ⟨_, e⟩) (seq env) [] rfl
  have : normOrds env st = some (env2, st2) := g1
  rw [hn] at this
  cases this
  have hs := (new_sorted h hr (fun y hy => g4 y (.inr hy)) g5 (seq env) [] rfl).2
  have he := seq_same g2 g3 hs
  exact ⟨he, he ▸ hs⟩

theorem new_ok {env env' : Env} (h : Tree env) (hr : Rows 9 env) (h1 : env'.nodes = env.nodes) (h2 : env'.empties = env.empties) (hw : ∀ y, y ∉ env.empties → env'.ord y = env.ord y)
    (hg : Given env env' [] (seq env)) : env'.Ok := by
  have hs := (new_sorted h hr hw hg (seq env) [] rfl).2
  refine ⟨fun k x hk => ?_, fun x hx => ?_, fun x hx y hy he => ?_⟩
  · rw [h1] at hk
    rw [hw x (tree_disj h (List.mem_of_getElem? hk))]
    exact h.word k x hk
  · rw [h2] at hx
    obtain ⟨l, r, hlr⟩ := List.append_of_mem (mem_seq.2 (.inr hx))
    exact ⟨_, (new_val h hr hw hg hlr).2 hx⟩
  · rw [h2] at hx hy
    have hx' := mem_seq (env := env).2 (.inr hx)
    have hy' := mem_seq (env := env).2 (.inr hy)
    have : ∀ l : List Nat, l.Pairwise (fun x y => val (env'.ord x) < val (env'.ord y)) → x ∈ l → y ∈ l → x = y := by
      intro l
      induction l with
      | nil => intro _ h; cases h
      | cons z l ih =>
        intro hp ma mb
        obtain ⟨q1, q2⟩ := List.pairwise_cons.1 hp
        rcases List.mem_cons.1 ma with rfl | ma'
        · rcases List.mem_cons.1 mb with rfl | mb'
          · rfl
          · exact absurd (congrArg val he) (Nat.ne_of_lt (q1 y mb'))
        · rcases List.mem_cons.1 mb with rfl | mb'
          · exact absurd (congrArg val he) (Nat.ne_of_gt (q1 x ma'))
          · exact ih q2 ma' mb'
    exact this (seq env) hs hx' hy'

/-- **C166, enhanced dependencies.** What is written for a node after the normalization is read, with the new ords, as the same dependencies on the same nodes. -/
theorem C166_deps {env env' : Env} (h : Tree env) (hr : Rows 9 env) {st st' : Nat → St} {deps : Nat → DepList} (hd : Readable env st deps) (hn : normOrds env st = some (env', st'))
    {n : Nat} (hm : n ∈ seq env) : ∃ text, (getRaw env' (st' n)).2 = some text ∧ ∀ s, (getDeps env' (setRaw text s)).2 = .ok (deps n) := by
  obtain ⟨env2, st2, g1, g2, g3, g4, g5, g6⟩ := loop_fresh h (rows_mono hr) (fun n hn => by obtain ⟨_, _, e⟩ := hd n hn; exact ⟨_, e⟩) (seq env) [] rfl
  have : normOrds env st = some (env2, st2) := g1
  rw [hn] at this
  cases this
  obtain ⟨raw, hraw, hok⟩ := hd n hm
  rcases g6 with ⟨rfl, rfl⟩ | rfl
  · refine ⟨raw, by rw [hraw]; rfl, fun s => ?_⟩
    rw [hraw] at hok
    exact hok
  · have hst : readSt env st n = (getDeps env (st n)).1 := if_pos hm
    rw [hraw] at hok hst
    obtain ⟨e1, e2, e3⟩ := getDeps_raw_has hok
    rw [hst, e1]
    by_cases h0 : deps n = []
    · refine ⟨raw, by rw [h0]; rfl, fun s => ?_⟩
      rw [e2 h0, h0]
      rfl
    · have hOk := new_ok h hr g2 g3 (fun y hy => g4 y (.inr hy)) g5
      refine ⟨conllu env' (deps n), ?_, fun s => ?_⟩
      · obtain ⟨d, l, hdl⟩ := List.exists_cons_of_ne_nil h0
        rw [hdl]
        unfold getRaw conllu
        rw [if_neg (by simp), ← depStr_eq]
      · have := getDeps_conllu hOk (l := deps n) (fun d hdm => ?_) (fun d hdm => (e3 d hdm).2)
        · unfold setRaw
          rw [this]
        · have := (e3 d hdm).1
          unfold Env.Has at this ⊢
          rw [g2, g3]
          exact this

theorem loop_fixed (env : Env) (st : Nat → St) (hw : ∀ l x r, seq env = l ++ x :: r → x ∉ env.empties → env.ord x = .word (words env l + 1))
    (he : ∀ l x r, seq env = l ++ x :: r → x ∈ env.empties → (env.ord x).str = natStr (words env l) ++ '.' :: natStr (row env l + 1)) :
    ∀ (xs p : List Nat), seq env = p ++ xs → loop env st (words env p) (row env p) xs = some (env, st)
  | [], _, _ => rfl
  | x :: xs, p, hs => by
    have ih := loop_fixed env st hw he xs (p ++ [x]) (by rw [List.append_assoc]; exact hs)
    rw [words_snoc, row_snoc] at ih
    rw [loop]
    by_cases hx : x ∈ env.empties
    · rw [if_pos hx, if_neg (fun hc => hc (he p x xs hs hx))]
      rw [if_pos hx, if_pos hx] at ih
      exact ih
    · rw [if_neg hx, hw p x xs hs hx]
      rw [if_neg hx, if_neg hx] at ih
      exact ih

/-- **C166, again.** A second normalization changes nothing, not even the lists of dependencies in memory. -/
theorem C166_again {env env' : Env} (h : Tree env) (hr : Rows 9 env) {st st' : Nat → St} {deps : Nat → DepList} (hd : Readable env st deps) (hn : normOrds env st = some (env', st'))
    (st2 : Nat → St) : normOrds env' st2 = some (env', st2) := by
  obtain ⟨env2, st3, g1, g2, g3, g4, g5⟩ := C166_ords h hr hd
  rw [hn] at g1
  cases g1
  have hs := (C166_order h hr hd hn).1
  have ew : ∀ l, words env' l = words env l := fun l => by unfold words; rw [g3]
  have er : ∀ l, row env' l = row env l := fun l => by unfold row; rw [g3]
  refine loop_fixed env' st2 (fun l x r hl hx => ?_) (fun l x r hl hx => ?_) (seq env') [] rfl
  · rw [g3] at hx
    rw [g4 x hx, ew]
    exact word_ord h (hs ▸ hl) hx
  · rw [g3] at hx
    rw [hs] at hl
    have hb := hr (l ++ [x]) r (by rw [List.append_assoc]; exact hl)
    rw [row_snoc, if_pos hx] at hb
    rw [g5 l x r hl hx, ew, er]
    show natStr ((10 * words env l + (row env l + 1)) / 10) ++ '.' :: natStr ((10 * words env l + (row env l + 1)) % 10) = _
    rw [show (10 * words env l + (row env l + 1)) / 10 = words env l by omega, show (10 * words env l + (row env l + 1)) % 10 = row env l + 1 by omega]

/-- **C166 violated (ten empty nodes).** If ten empty nodes follow each other, the first one and the tenth one get the same ord. -/
theorem C166_ten_violated {env env' : Env} (h : Tree env) (hr : Rows 10 env) {st st' : Nat → St} {deps : Nat → DepList} (hd : Readable env st deps) (hn : normOrds env st = some (env', st'))
    {l m r : List Nat} {x y : Nat} (hs : seq env = l ++ x :: (m ++ y :: r)) (h0 : row env l = 0) (hx : x ∈ env.empties) (hm : ∀ z ∈ m, z ∈ env.empties) (h8 : m.length = 8)
    (hy : y ∈ env.empties) : x ≠ y ∧ env'.ord x = env'.ord y := by
  obtain ⟨env2, st2, g1, g2, g3, g4, g5, _⟩ := loop_fresh h hr (fun n hn => by obtain ⟨_, _, e⟩ := hd n hn; exact ⟨_, e⟩) (seq env) [] rfl
  have : normOrds env st = some (env2, st2) := g1
  rw [hn] at this
  cases this
  have key : ∀ (m l : List Nat), (∀ z ∈ m, z ∈ env.empties) → words env (l ++ m) = words env l ∧ row env (l ++ m) = row env l + m.length := by
    intro m
    induction m with
    | nil => intro l _; rw [List.append_nil]; exact ⟨rfl, rfl⟩
    | cons z m ih =>
      intro l hz
      have := ih (l ++ [z]) (fun w hw => hz w (List.mem_cons_of_mem _ hw))
      rw [List.append_assoc, words_snoc, row_snoc, if_pos (hz z List.mem_cons_self), if_pos (hz z List.mem_cons_self)] at this
      refine ⟨this.1, this.2.trans ?_⟩
      rw [List.length_cons]; omega
  obtain ⟨k1, k2⟩ := key (x :: m) l (fun z hz => (List.mem_cons.1 hz).elim (fun e => e ▸ hx) (hm z))
  obtain ⟨e1, a1, b1⟩ := g5 l x _ hs hx
  obtain ⟨e2, a2, b2⟩ := g5 (l ++ x :: m) y r (by rw [hs]; simp) hy
  rw [List.nil_append, h0] at a1
  rw [List.nil_append, k1, k2, h0, List.length_cons, h8] at a2
  have c1 : e1 = 10 * words env l + 1 := by
    unfold floatOrd at a1
    rw [if_pos (by omega)] at a1
    injection a1 with a1
    exact a1.symm
  have c2 : e2 = 10 * words env l + 1 := by
    unfold floatOrd at a2
    rw [if_neg (by omega), if_pos (by omega)] at a2
    injection a2 with a2
    exact a2.symm
  refine ⟨fun e => ?_, by rw [b1, b2, c1, c2]⟩
  have := seq_nodup h
  rw [hs, e] at this
  exact (List.nodup_cons.1 (List.nodup_append.1 this).2.1).1 (by simp)

/-! ## FEATS and MISC -/

section Feats
open Verif.DualDict

/-- `process_node` for one of the two columns (normalize.py:91-97) -/
def normDict (s : State) : State := { deserialize dd s with string := none }

/-- `node.feats` of a word as it is read from a file -/
def fromFile (t : Str) : State := ⟨some t, []⟩

/-- What is written for the column -/
def written (lower : Str → Str) (s : State) : Str := shown dd lower s

/-- One of the columns of the words, of the empty nodes and of the multi-word tokens of a tree -/
structure Columns where
  words : List State
  empties : List State
  mwts : List State

/-- `process_tree` (normalize.py:88-89) -/
def normTree (c : Columns) : Columns := { c with words := c.words.map normDict }

theorem written_norm (lower : Str → Str) (t : Str) : written lower (normDict (fromFile t)) = serialize dd lower (abs dd (fromFile t)) := rfl

theorem text_nodup (t : Str) : NodupKeys (abs dd (fromFile t)) := abs_nodup_aux dd (by simp [fromFile, NodupKeys])

theorem text_lookup (t : Str) : lookup (abs dd (fromFile t)) = Spec.ofText dd t := funext (ofText_lookup dd t)

theorem text_ok {t : Str} {k : Str} {v : Val} (h : Spec.ofText dd t k = some v) : Spec.okName dd k ∧ Spec.okVal dd v := by
  unfold Spec.ofText at h
  split at h
  · cases h
  · unfold Spec.ofPairs at h
    cases hf : ((split dd.itemSep t).map (Spec.itemOf dd)).reverse.find? (fun p => decide (p.1 = k)) with
    | none => rw [hf] at h; cases h
    | some p =>
      rw [hf] at h
      cases h
      have hk := List.find?_some hf
      have hm := List.mem_of_find?_eq_some hf
      rw [List.mem_reverse, List.mem_map] at hm
      obtain ⟨i, hi, rfl⟩ := hm
      have hbar : '|' ∉ i := not_mem_split _ _ i hi
      have hsp := splitOnce_eq '=' i
      have hne := not_mem_splitOnce '=' i
      have hk' : (splitOnce '=' i).1 = k := of_decide_eq_true hk
      subst hk'
      refine ⟨⟨fun hc => hbar ?_, hne⟩, ?_⟩
      · rw [← hsp]; exact List.mem_append_left _ hc
      · show Spec.okVal dd (match (splitOnce '=' i).2 with | some v => Val.str v | none => Val.tru)
        cases h2 : (splitOnce '=' i).2 with
        | none => exact trivial
        | some v =>
          intro hc
          apply hbar
          rw [← hsp, h2]
          exact List.mem_append_right _ (List.mem_cons_of_mem _ hc)

/-- **C166, the content.** What is written after the normalization has the same names and values, unless the only item is an empty name or `_` without a value. -/
theorem C166_content (lower : Str → Str) {t : Str} (h1 : Spec.ofText dd t ≠ Spec.flag []) (h2 : Spec.ofText dd t ≠ Spec.flag ['_']) :
    Spec.ofText dd (written lower (normDict (fromFile t))) = Spec.ofText dd t := by
  rw [written_norm]
  have hl := text_lookup t
  by_cases h0 : abs dd (fromFile t) = []
  · rw [← hl, h0]
    rfl
  · rw [← hl] at h1 h2 ⊢
    exact (serialize_roundtrip lower (text_nodup t) h0
      ⟨fun k v h => (text_ok (hl ▸ h)).1, fun k v h => (text_ok (hl ▸ h)).2, h1, h2⟩).2.2

/-- **C166, the form.** The items are sorted by their names in lower case, each name once. -/
theorem C166_sorted (lower : Str → Str) (t : Str) : ∃ items : List (Str × Val), (∀ k v, (k, v) ∈ items ↔ Spec.ofText dd t k = some v) ∧ (items.map (·.1)).Nodup ∧
    items.Pairwise (fun a b => lower a.1 ≤ lower b.1) ∧
    written lower (normDict (fromFile t)) = if items = [] then ['_'] else join ['|'] (items.map (Spec.written dd)) := by
  have hn := text_nodup t
  have hl := text_lookup t
  rw [written_norm]
  generalize abs dd (fromFile t) = d at hn hl
  have hp := pySort_perm (itemLe lower) d
  refine ⟨pySort (itemLe lower) d, ?_, hn.perm hp.symm, ?_, ?_⟩
  · intro k v
    rw [hp.mem_iff, mem_iff_lookup hn, hl]
  · exact (pySort_pairwise (itemLe_trans lower) (itemLe_total lower) d).imp (fun h => by simpa [itemLe] using h)
  · unfold serialize
    by_cases hd : d = []
    · subst hd; rfl
    · have : pySort (itemLe lower) d ≠ [] := by
        intro h; rw [h] at hp; exact hd hp.symm.eq_nil
      rw [if_neg hd, if_neg this]
      congr 2
      funext p
      exact showItem_eq dd p

/-- **C166, comparing files.** Two texts with the same names and values become the same text, if no two names are equal up to case. -/
theorem C166_same_partial (lower : Str → Str) {t t' : Str} (h : Spec.ofText dd t = Spec.ofText dd t')
    (hinj : ∀ k k', (Spec.ofText dd t k).isSome → (Spec.ofText dd t k').isSome → lower k = lower k' → k = k') :
    written lower (normDict (fromFile t)) = written lower (normDict (fromFile t')) := by
  rw [written_norm, written_norm]
  refine serialize_perm lower (text_nodup t) (text_nodup t') (by rw [text_lookup, text_lookup, h]) ?_
  rw [text_lookup]
  exact hinj

/-- **C166 violated (names equal up to case).** The order of two names that are equal in lower case is not changed. -/
theorem C166_case_violated (lower : Str → Str) {k k' v v' : Str} (hk : '|' ∉ k ∧ '=' ∉ k) (hk' : '|' ∉ k' ∧ '=' ∉ k') (hv : '|' ∉ v) (hv' : '|' ∉ v') (hne : k ≠ k') (he : lower k = lower k') :
    written lower (normDict (fromFile (k ++ '=' :: v ++ '|' :: (k' ++ '=' :: v')))) = k ++ '=' :: v ++ '|' :: (k' ++ '=' :: v') := by
  have hs : split '|' (k ++ '=' :: v ++ '|' :: (k' ++ '=' :: v')) = [k ++ '=' :: v, k' ++ '=' :: v'] := by
    have := split_join (c := '|') (ps := [k ++ '=' :: v, k' ++ '=' :: v']) (by simp) (by
      intro p hp
      rcases List.mem_cons.1 hp with rfl | hp
      · simp [hk.1, hv]
      · rw [List.mem_singleton.1 hp]; simp [hk'.1, hv'])
    simpa [join] using this
  have hu : k ++ '=' :: v ++ '|' :: (k' ++ '=' :: v') ≠ ['_'] := by
    intro e
    have := congrArg List.length e
    simp at this
    omega
  have hp : parse dd (k ++ '=' :: v ++ '|' :: (k' ++ '=' :: v')) = [(k, .str v), (k', .str v')] := by
    unfold parse
    show ofPairs ((split '|' _).map (parseItem dd)) = _
    rw [hs]
    have e1 : parseItem dd (k ++ '=' :: v) = (k, .str v) := by
      unfold parseItem
      rw [show splitOnce dd.kvSep (k ++ '=' :: v) = (k, some v) from splitOnce_append hk.2 v]
    have e2 : parseItem dd (k' ++ '=' :: v') = (k', .str v') := by
      unfold parseItem
      rw [show splitOnce dd.kvSep (k' ++ '=' :: v') = (k', some v') from splitOnce_append hk'.2 v']
    simp [ofPairs, e1, e2, DualDict.insert, hne]
  rw [written_norm]
  unfold fromFile
  rw [abs_nil_some, if_neg (show ¬ _ = dd.emptyStr from hu), hp]
  unfold serialize
  rw [if_neg (by simp), pySort_of_pairwise (by simp [itemLe, he])]
  simp [showItem, join, dd]

/-- **C166 violated (empty nodes and multi-word tokens).** Their columns are written as they were read. -/
theorem C166_empty_violated (lower : Str → Str) (ws es ms : List Str) :
    (normTree ⟨ws.map fromFile, es.map fromFile, ms.map fromFile⟩).empties.map (written lower) = es ∧ (normTree ⟨ws.map fromFile, es.map fromFile, ms.map fromFile⟩).mwts.map (written lower) = ms := by
  have : (written lower) ∘ fromFile = id := rfl
  constructor <;> (show List.map _ (List.map _ _) = _) <;> rw [List.map_map, this, List.map_id]

end Feats

/-! ## Sentence ids -/

/-- A bundle: does a tree start a document; the name of its file without directories and the extension -/
structure Bundle where
  newdoc : Bool
  stem : Str

/-- `process_bundle` (normalize.py:60-67): the ids of the bundles; `n` is `next_sent_id`. -/
def ids (pre : Str) (fromFilename reset : Bool) : Nat → List Bundle → List Str
  | _, [] => []
  | n, b :: bs =>
    let n := if reset && b.newdoc then 1 else n
    ((if fromFilename then b.stem ++ pre else pre) ++ natStr n) :: ids pre fromFilename reset (n + 1) bs

def IsDigit (c : Char) : Prop := 48 ≤ c.toNat ∧ c.toNat ≤ 57

theorem last_split {u u' d d' : Str} {c c' : Char} (hc : ¬ IsDigit c) (hc' : ¬ IsDigit c') (hd : ∀ x ∈ d, IsDigit x) (hd' : ∀ x ∈ d', IsDigit x) (h : u ++ c :: d = u' ++ c' :: d') :
    u = u' ∧ c = c' ∧ d = d' := by
  rcases List.append_eq_append_iff.1 h with ⟨a, e1, e2⟩ | ⟨a, e1, e2⟩
  · cases a with
    | nil => simp at e1 e2; exact ⟨e1.symm, e2⟩
    | cons z a =>
      rw [List.cons_append] at e2
      injection e2 with _ e3
      exact absurd (hd c' (by rw [e3]; simp)) hc'
  · cases a with
    | nil => simp at e1 e2; exact ⟨e1, e2.1.symm, e2.2.symm⟩
    | cons z a =>
      rw [List.cons_append] at e2
      injection e2 with _ e3
      exact absurd (hd' c (by rw [e3]; simp)) hc

theorem ids_no_reset (pre : Str) (f : Bool) : ∀ (bs : List Bundle) (n : Nat),
    ids pre f false n bs = bs.mapIdx (fun i b => (if f then b.stem ++ pre else pre) ++ natStr (n + i))
  | [], _ => rfl
  | b :: bs, n => by
    rw [ids, ids_no_reset pre f bs, List.mapIdx_cons]
    simp only [Bool.false_and, Bool.false_eq_true, if_false]
    congr 2
    funext i b
    rw [show n + 1 + i = n + (i + 1) by omega]

/-- **C166, sentence ids.** Without file names they are the prefix and consecutive numbers, all different. -/
theorem C166_ids (pre : Str) (n : Nat) (bs : List Bundle) : ids pre false false n bs = (List.range bs.length).map (fun i => pre ++ natStr (n + i)) ∧ (ids pre false false n bs).Nodup := by
  have e : ids pre false false n bs = (List.range bs.length).map (fun i => pre ++ natStr (n + i)) := by
    rw [ids_no_reset]
    apply List.ext_getElem?
    intro i
    rw [List.getElem?_mapIdx, List.getElem?_map]
    by_cases hi : i < bs.length
    · rw [List.getElem?_eq_getElem hi, List.getElem?_range hi]
      rfl
    · rw [List.getElem?_eq_none (by omega), List.getElem?_eq_none (by simp; omega)]
      rfl
  refine ⟨e, ?_⟩
  rw [e, List.Nodup, List.pairwise_map]
  refine List.nodup_range.imp (fun hne h => hne ?_)
  have := natStr_inj (List.append_cancel_left h)
  omega

/-- **C166, ids with file names (partial).** If the prefix ends with a character that is not a digit, the ids are different. Missing (and violated by the code): other prefixes. -/
theorem C166_file_ids_partial (p : Str) {c : Char} (hc : ¬ IsDigit c) (n : Nat) (bs : List Bundle) : (ids (p ++ [c]) true false n bs).Nodup := by
  rw [ids_no_reset, List.Nodup, List.pairwise_iff_getElem]
  intro i j hi hj hij h
  rw [List.getElem_mapIdx, List.getElem_mapIdx, if_pos rfl, if_pos rfl] at h
  simp only [List.append_assoc] at h
  rw [← List.append_assoc, ← List.append_assoc (bs := p)] at h
  have := (last_split hc hc (natStr_digits _) (natStr_digits _) h).2.2
  have := natStr_inj this
  omega

theorem ids_plain (pre : Str) (f r : Bool) (stem : Str) (rest : List Bundle) : ∀ (k n : Nat),
    ids pre f r n (List.replicate k ⟨false, stem⟩ ++ rest) = (List.range k).map (fun i => (if f then stem ++ pre else pre) ++ natStr (n + i)) ++ ids pre f r (n + k) rest
  | 0, n => rfl
  | k + 1, n => by
    rw [List.replicate_succ, List.cons_append, ids]
    simp only [Bool.and_false, Bool.false_eq_true, if_false]
    rw [ids_plain pre f r stem rest k (n + 1), List.range_succ_eq_map, List.map_cons, List.map_map, List.cons_append]
    congr 2
    · apply List.map_congr_left
      intro i _
      show _ = _ ++ natStr (n + (i + 1))
      rw [show n + 1 + i = n + (i + 1) by omega]
    · rw [show n + 1 + k = n + (k + 1) by omega]

/-- **C166, ids that start again (partial).** If each file is one document, the names of the files are different and the prefix ends with a character that is not a digit, the sentences of each
file are numbered from 1 and the ids are different. A file is its name and the number of its bundles after the first one. -/
theorem C166_reset_partial (p : Str) {c : Char} (hc : ¬ IsDigit c) (n : Nat) (fs : List (Str × Nat)) (hf : (fs.map (·.1)).Nodup) :
    ids (p ++ [c]) true true n (fs.flatMap (fun f => ⟨true, f.1⟩ :: List.replicate f.2 ⟨false, f.1⟩)) =
      fs.flatMap (fun f => (List.range (f.2 + 1)).map (fun i => f.1 ++ (p ++ [c]) ++ natStr (i + 1))) ∧
    (fs.flatMap (fun f => (List.range (f.2 + 1)).map (fun i => f.1 ++ (p ++ [c]) ++ natStr (i + 1)))).Nodup := by
  constructor
  · clear hf
    induction fs generalizing n with
    | nil => rfl
    | cons f fs ih =>
      rw [List.flatMap_cons, List.flatMap_cons, List.cons_append, ids, Bool.true_and, if_pos rfl, ids_plain, ih, if_pos rfl, List.range_succ_eq_map, List.map_cons, List.map_map, List.cons_append]
      congr 2
      apply List.map_congr_left
      intro i _
      show _ = _ ++ natStr (i + 1 + 1)
      rw [if_pos rfl, show 1 + 1 + i = i + 1 + 1 by omega]
  · have key : ∀ (s s' : Str) (i j : Nat), s ++ (p ++ [c]) ++ natStr i = s' ++ (p ++ [c]) ++ natStr j → s = s' ∧ i = j := by
      intro s s' i j h
      simp only [List.append_assoc] at h
      rw [← List.append_assoc, ← List.append_assoc (bs := p)] at h
      obtain ⟨h1, _, h2⟩ := last_split hc hc (natStr_digits _) (natStr_digits _) h
      exact ⟨List.append_cancel_right h1, natStr_inj h2⟩
    rw [List.Nodup, List.pairwise_flatMap]
    refine ⟨fun f _ => ?_, ?_⟩
    · rw [List.pairwise_map]
      refine List.nodup_range.imp (fun hne h => hne ?_)
      have := (key _ _ _ _ h).2
      omega
    · have := List.pairwise_map.1 hf
      refine this.imp (fun hne x hx y hy e => hne ?_)
      obtain ⟨i, _, rfl⟩ := List.mem_map.1 hx
      obtain ⟨j, _, rfl⟩ := List.mem_map.1 hy
      exact (key _ _ _ _ e).1

theorem nodup_getElem? {l : List Str} (h : l.Nodup) (i j : Nat) (hij : i < j) (hj : j < l.length) : l[i]? ≠ l[j]? := by
  rw [List.getElem?_eq_getElem (by omega), List.getElem?_eq_getElem hj]
  intro e
  injection e with e
  exact List.pairwise_iff_getElem.1 h i j (by omega) hj hij e

theorem ids_getElem? (pre : Str) (f r : Bool) : ∀ (l : List Bundle) (n : Nat) (b : Bundle) (bs : List Bundle), ∃ m,
    (ids pre f r n (l ++ b :: bs))[l.length]? = some ((if f then b.stem ++ pre else pre) ++ natStr (if r && b.newdoc then 1 else m))
  | [], n, b, bs => ⟨n, by rw [List.nil_append, ids]; rfl⟩
  | a :: l, n, b, bs => by
    obtain ⟨m, hm⟩ := ids_getElem? pre f r l ((if r && a.newdoc then 1 else n) + 1) b bs
    refine ⟨m, ?_⟩
    rw [List.cons_append, ids, List.length_cons, List.getElem?_cons_succ]
    exact hm

/-- **C166 violated (several documents in a file).** If the numbers start again, two documents of one file get the same ids. -/
theorem C166_newdoc_violated (pre : Str) (n : Nat) {l m r : List Bundle} {a b : Bundle} (ha : a.newdoc = true) (hb : b.newdoc = true) (hs : a.stem = b.stem) :
    ¬ (ids pre true true n (l ++ a :: m ++ b :: r)).Nodup := by
  intro hn
  obtain ⟨x, hx⟩ := ids_getElem? pre true true l n a (m ++ b :: r)
  obtain ⟨y, hy⟩ := ids_getElem? pre true true (l ++ a :: m) n b r
  rw [show l ++ a :: (m ++ b :: r) = l ++ a :: m ++ b :: r by simp] at hx
  rw [ha] at hx
  rw [hb, ← hs] at hy
  have := nodup_getElem? hn l.length (l ++ a :: m).length (by simp) (by
    have := (List.getElem?_eq_some_iff.1 hy).1; exact this)
  exact this (hx.trans hy.symm)

/-- **C166 violated (names that end with digits).** Without a prefix, if the first file is named like the file of the eleventh bundle with a 1 at the end, the first and the eleventh
id are the same. -/
theorem C166_digits_violated {bs : List Bundle} {s : Str} {a b : Bundle} (ha : bs[0]? = some a) (hb : bs[10]? = some b) (h1 : a.stem = s ++ ['1']) (h2 : b.stem = s) :
    ¬ (ids [] true false 1 bs).Nodup := by
  intro hn
  have e : (ids [] true false 1 bs)[0]? = (ids [] true false 1 bs)[10]? := by
    rw [ids_no_reset, List.getElem?_mapIdx, List.getElem?_mapIdx, ha, hb]
    simp only [Option.map_some, if_pos, List.append_nil, h1, h2]
    have k1 : natStr (1 + 0) = ['1'] := by decide +kernel
    have k2 : natStr (1 + 10) = ['1', '1'] := by decide +kernel
    rw [k1, k2, List.append_assoc]
    rfl
  have hlen : 10 < (ids [] true false 1 bs).length := by
    rw [ids_no_reset, List.length_mapIdx]
    exact (List.getElem?_eq_some_iff.1 hb).1
  exact nodup_getElem? hn 0 10 (by decide) hlen e

/-! ## Examples -/

/-- Root 0, words 1 and 2, empty nodes 5 (ord 1.3), 6 (ord 1.5), 7 (ord 2.1) -/
def exEnv : Env := ⟨[0, 1, 2], [5, 6, 7], fun x => if x = 5 then .empty 13 else if x = 6 then .empty 15 else if x = 7 then .empty 21 else .word x⟩

theorem exEnv_tree : Tree exEnv := by
  refine ⟨by decide, ?_, ?_, by decide⟩
  · intro k x h
    match k, h with
    | 0, h => cases h; rfl
    | 1, h => cases h; rfl
    | 2, h => cases h; rfl
    | k + 3, h => simp [exEnv] at h
  · intro x hx
    have : x = 5 ∨ x = 6 ∨ x = 7 := by simpa [exEnv] using hx
    rcases this with rfl | rfl | rfl
    · exact ⟨13, rfl⟩
    · exact ⟨15, rfl⟩
    · exact ⟨21, rfl⟩

def exSt : Nat → St := fun x => if x = 2 then ⟨some ['1', '.', '5', ':', 'd'], none⟩ else ⟨some ['_'], none⟩

example : seq exEnv = [1, 5, 6, 2, 7] := by decide
example : (normOrds exEnv exSt).map (fun r => [5, 6, 7].map r.1.ord) = some [.empty 11, .empty 12, .empty 21] := by decide +kernel
example : (normOrds exEnv exSt).map (fun r => (getRaw r.1 (r.2 2)).2) = some (some ['1', '.', '2', ':', 'd']) := by decide +kernel
example : written id (normDict (fromFile ['b', '=', 'x', '|', 'a'])) = ['a', '|', 'b', '=', 'x'] := by decide
example : ids ['s'] false false 9 [⟨true, []⟩, ⟨false, []⟩] = [['s', '9'], ['s', '1', '0']] := by decide +kernel
example : ids ['-'] true true 1 [⟨true, ['f']⟩, ⟨false, ['f']⟩, ⟨true, ['g']⟩] = [['f', '-', '1'], ['f', '-', '2'], ['g', '-', '1']] := by decide +kernel

end Verif.Deps.Normalize
