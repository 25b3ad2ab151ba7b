import Verif.Deps.Model

/-!
# Properties C26 and C60: enhanced dependencies
-/

namespace Verif.Deps
open Verif.Py

/-- A tree as the library keeps it: the `k`-th node of `[root] + words` has ord `k`, and empty nodes have
pairwise different ords. -/
structure Env.Ok (env : Env) : Prop where
  word : ∀ (k x : Nat), env.nodes[k]? = some x → env.ord x = .word k
  empty : ∀ x ∈ env.empties, ∃ e, env.ord x = .empty e
  distinct : ∀ x ∈ env.empties, ∀ y ∈ env.empties, env.ord x = env.ord y → x = y

/-- The nodes a dependency can point at. -/
def Env.Has (env : Env) (x : Nat) : Prop := x ∈ env.nodes ∨ x ∈ env.empties

/-- The string a CoNLL-U file has for a list of dependencies. -/
def conllu (env : Env) (l : DepList) : Str :=
  if l = [] then ['_'] else join ['|'] (l.map (fun d => (env.ord d.1).str ++ [':'] ++ d.2))

theorem depStr_eq (env : Env) : depStr env = fun d => (env.ord d.1).str ++ [':'] ++ d.2 := by
  funext d; simp [depStr]

theorem dot_not_mem_natStr (n : Nat) : '.' ∉ natStr n := not_mem_natStr (by decide) n
theorem parseNat_empty (m k : Nat) : parseNat (Ord.empty m).str ≠ some k := by
  intro hk
  unfold parseNat at hk
  split at hk
  · cases hk
  · have := parseDigits_digits hk '.' (by simp [Ord.str])
    exact absurd this (by decide)

theorem colon_not_mem_natStr (n : Nat) : ':' ∉ natStr n := not_mem_natStr (by decide) n
theorem bar_not_mem_natStr (n : Nat) : '|' ∉ natStr n := not_mem_natStr (by decide) n

theorem not_mem_ordStr {c : Char} (h1 : ¬ (48 ≤ c.toNat ∧ c.toNat ≤ 57)) (h2 : c ≠ '.') (o : Ord) : c ∉ o.str := by
  cases o with
  | word k => exact not_mem_natStr h1 k
  | empty e =>
    simp only [Ord.str, List.mem_append, List.mem_cons, not_or]
    exact ⟨not_mem_natStr h1 _, h2, not_mem_natStr h1 _⟩

theorem append_sep_inj {c : Char} : ∀ {a a' b b' : Str}, c ∉ a → c ∉ a' → a ++ c :: b = a' ++ c :: b' →
    a = a' ∧ b = b' := by
  intro a a' b b' h1 h2 h
  have e1 := splitOnce_append h1 b
  have e2 := splitOnce_append h2 b'
  rw [h, e2] at e1
  simp only [Prod.mk.injEq, Option.some.injEq] at e1
  exact ⟨e1.1.symm, e1.2.symm⟩

theorem ordStr_inj {o o' : Ord} (h : o.str = o'.str) : o = o' := by
  cases o with
  | word k =>
    cases o' with
    | word k' => rw [natStr_inj h]
    | empty e =>
      have : '.' ∈ natStr k := by rw [show natStr k = _ from h]; simp [Ord.str]
      exact absurd this (dot_not_mem_natStr k)
  | empty e =>
    cases o' with
    | word k' =>
      have : '.' ∈ natStr k' := by rw [← show _ = natStr k' from h]; simp [Ord.str]
      exact absurd this (dot_not_mem_natStr k')
    | empty e' =>
      obtain ⟨h1, h2⟩ := append_sep_inj (dot_not_mem_natStr _) (dot_not_mem_natStr _) h
      have := natStr_inj h1
      have := natStr_inj h2
      congr 1
      omega

theorem findParent_str {env : Env} (hok : env.Ok) {x : Nat} (hx : env.Has x) :
    findParent env (env.ord x).str = .ok x := by
  unfold findParent
  rcases hx with hx | hx
  · obtain ⟨k, hk, hkx⟩ := List.mem_iff_getElem.1 hx
    have hg : env.nodes[k]? = some x := by rw [List.getElem?_eq_getElem hk, hkx]
    rw [hok.word k x hg]
    simp only [Ord.str, dot_not_mem_natStr, if_false, parseNat_natStr, hg]
  · obtain ⟨e, he⟩ := hok.empty x hx
    have hdot : '.' ∈ (env.ord x).str := by rw [he]; simp [Ord.str]
    rw [if_pos hdot]
    cases hf : env.empties.find? (fun y => (env.ord y).str == (env.ord x).str) with
    | none =>
      rw [List.find?_eq_none] at hf
      exact absurd (beq_self_eq_true _) (hf x hx)
    | some y =>
      have h1 := List.find?_some hf
      have h2 := List.mem_of_find?_eq_some hf
      have h3 := ordStr_inj (eq_of_beq h1)
      rw [hok.distinct y h2 x hx h3]

/-- A node found under `head` has `head` as its printed ord, unless `head` is a number with leading
zeros. -/
theorem str_findParent {env : Env} (hok : env.Ok) {head : Str} {x : Nat} (h : findParent env head = .ok x)
    (hcan : ∀ k, parseNat head = some k → natStr k = head) : env.Has x ∧ (env.ord x).str = head := by
  unfold findParent at h
  split at h
  · split at h
    · cases h
    · rename_i hf
      cases h
      have hb : ((env.ord x).str == head) = true := List.find?_some (p := fun x => (env.ord x).str == head) hf
      exact ⟨Or.inr (List.mem_of_find?_eq_some hf), eq_of_beq hb⟩
  · split at h
    · cases h
    · rename_i k hk
      split at h
      · cases h
      · rename_i hg
        cases h
        exact ⟨Or.inl (List.mem_of_getElem? hg), by rw [hok.word k x hg]; exact hcan k hk⟩

theorem parseLoop_render {env : Env} (hok : env.Ok) : ∀ (l acc : DepList), (∀ d ∈ l, env.Has d.1) →
    parseLoop env acc (l.map (fun d => (env.ord d.1).str ++ [':'] ++ d.2)) = (acc ++ l, none) := by
  intro l
  induction l with
  | nil => intro acc _; simp [parseLoop]
  | cons d l ih =>
    intro acc h
    simp only [List.map_cons, parseLoop]
    have hd := h d List.mem_cons_self
    rw [List.append_assoc, List.singleton_append, splitOnce_append (not_mem_ordStr (by decide) (by decide) _)]
    simp only
    rw [findParent_str hok hd]
    simp only
    rw [ih _ (fun x hx => h x (List.mem_cons_of_mem _ hx))]
    simp

theorem getDeps_conllu {env : Env} (hok : env.Ok) {l : DepList} (hl : ∀ d ∈ l, env.Has d.1)
    (hbar : ∀ d ∈ l, '|' ∉ d.2) : getDeps env ⟨some (conllu env l), none⟩ = (⟨some (conllu env l), some l⟩, .ok l) := by
  unfold getDeps conllu
  by_cases h : l = []
  · subst h; simp
  · rw [if_neg h]
    simp only
    have hnu : join ['|'] (l.map (fun d => (env.ord d.1).str ++ [':'] ++ d.2)) ≠ ['_'] := by
      intro e
      have hs := split_join (c := '|') (ps := l.map (fun d => (env.ord d.1).str ++ [':'] ++ d.2)) (by simpa using h)
        (by
          intro p hp
          obtain ⟨d, hd, rfl⟩ := List.mem_map.1 hp
          simp only [List.mem_append, List.mem_singleton, not_or]
          exact ⟨⟨not_mem_ordStr (by decide) (by decide) _, by decide⟩, hbar d hd⟩)
      rw [e] at hs
      cases l with
      | nil => exact h rfl
      | cons d l =>
        simp only [List.map_cons] at hs
        have h1 : split '|' ['_'] = [['_']] := by decide
        rw [h1] at hs
        simp only [List.cons.injEq] at hs
        have : ':' ∈ (['_'] : Str) := by rw [hs.1]; simp
        exact absurd this (by decide)
    rw [if_neg hnu]
    rw [split_join (by simpa using h) (by
          intro p hp
          obtain ⟨d, hd, rfl⟩ := List.mem_map.1 hp
          simp only [List.mem_append, List.mem_singleton, not_or]
          exact ⟨⟨not_mem_ordStr (by decide) (by decide) _, by decide⟩, hbar d hd⟩)]
    rw [parseLoop_render hok l [] hl]
    simp

/-- C26 (partial), from the list: after `node.deps = l` for a non-empty list, `node.raw_deps` is the
CoNLL-U string of `l`; and after assigning this string to `raw_deps` of any node, `deps` is `l` again and
`raw_deps` the same string. Missing: empty lists (false), relations with `|`. -/
theorem C26_deps_to_raw_partial {env : Env} (hok : env.Ok) {l : DepList} (hne : l ≠ [])
    (hl : ∀ d ∈ l, env.Has d.1) (hbar : ∀ d ∈ l, '|' ∉ d.2) (s t : St) :
    (getRaw env (setDeps l s)).2 = some (conllu env l) ∧
    (getDeps env (setDeps l s)).2 = .ok l ∧
    (getDeps env (setRaw (conllu env l) t)).2 = .ok l ∧
    (getRaw env (getDeps env (setRaw (conllu env l) t)).1).2 = some (conllu env l) := by
  have h1 : ∀ raw, (getRaw env ⟨raw, some l⟩).2 = some (conllu env l) := by
    intro raw
    unfold getRaw conllu
    cases l with
    | nil => exact absurd rfl hne
    | cons d l => simp [depStr_eq, List.append_assoc]
  refine ⟨h1 _, rfl, ?_, ?_⟩
  · unfold setRaw; rw [getDeps_conllu hok hl hbar]
  · unfold setRaw; rw [getDeps_conllu hok hl hbar]; exact h1 _

/-- The items of a raw string: heads and relations. -/
def IsItem (env : Env) (item : Str) (d : Nat × Str) : Prop :=
  env.Has d.1 ∧ item = (env.ord d.1).str ++ [':'] ++ d.2

/-- Item by item. -/
inductive Items (env : Env) : List Str → DepList → Prop where
  | nil : Items env [] []
  | cons {i is d l} : IsItem env i d → Items env is l → Items env (i :: is) (d :: l)

theorem parseLoop_items {env : Env} (hok : env.Ok) : ∀ (is : List Str) (acc l : DepList),
    (∀ i ∈ is, ∀ k, parseNat (splitOnce ':' i).1 = some k → natStr k = (splitOnce ':' i).1) →
    parseLoop env acc is = (l, none) → ∃ l', l = acc ++ l' ∧ Items env is l' := by
  intro is
  induction is with
  | nil =>
    intro acc l _ h
    simp only [parseLoop, Prod.mk.injEq, and_true] at h
    exact ⟨[], by simp [h], .nil⟩
  | cons i is ih =>
    intro acc l hcan h
    unfold parseLoop at h
    have hsp := splitOnce_eq ':' i
    have hc := hcan i List.mem_cons_self
    split at h
    · simp at h
    · rename_i head deprel hs
      rw [hs] at hsp hc
      split at h
      · simp at h
      · rename_i p hp
        obtain ⟨l', rfl, hit⟩ := ih _ _ (fun j hj => hcan j (List.mem_cons_of_mem _ hj)) h
        refine ⟨(p, deprel) :: l', by simp, .cons ?_ hit⟩
        obtain ⟨h1, h2⟩ := str_findParent hok hp hc
        refine ⟨h1, ?_⟩
        rw [← hsp, ← h2]
        simp [tailOf]

theorem items_join {env : Env} : ∀ {is : List Str} {l : DepList}, Items env is l →
    is = l.map (depStr env) := by
  intro is l h
  induction h with
  | nil => rfl
  | cons hi _ ih =>
    rw [List.map_cons, ← ih, hi.2]
    simp [depStr, List.append_assoc]

/-- C26 (partial), from the string: whenever `node.deps` succeeds after `node.raw_deps = v`, there is one
entry per item of the string (none for `_`), each entry is the node with the id written in the item and the
relation after the first colon, and reading `raw_deps` gives `v` again. Missing: heads with leading zeros. -/
theorem C26_raw_to_deps_partial {env : Env} (hok : env.Ok) {v : Str} {s : St} {l : DepList}
    (hcan : ∀ i ∈ split '|' v, ∀ k, parseNat (splitOnce ':' i).1 = some k → natStr k = (splitOnce ':' i).1)
    (h : (getDeps env (setRaw v s)).2 = .ok l) :
    (v = ['_'] ∧ l = [] ∨ v ≠ ['_'] ∧ Items env (split '|' v) l) ∧
    (getRaw env (getDeps env (setRaw v s)).1).2 = some v := by
  unfold getDeps setRaw at *
  simp only at h ⊢
  by_cases hv : v = ['_']
  · rw [if_pos hv] at h ⊢
    simp only [Except.ok.injEq] at h
    exact ⟨Or.inl ⟨hv, h.symm⟩, rfl⟩
  · rw [if_neg hv] at h ⊢
    cases hr : parseLoop env [] (split '|' v) with
    | mk l' err =>
      rw [hr] at h
      cases err with
      | some e => simp at h
      | none =>
        simp only [Except.ok.injEq] at h
        subst h
        obtain ⟨l2, rfl, hit⟩ := parseLoop_items hok _ _ _ hcan hr
        simp only
        refine ⟨Or.inr ⟨hv, hit⟩, ?_⟩
        have hj := items_join hit
        unfold getRaw
        cases l' with
        | nil =>
          exact absurd hj (split_ne_nil _ _)
        | cons d l2 =>
          simp only
          rw [← hj, join_split]

/-- Root 100, words 101 and 102, and the empty node 200 with ord 1.1. -/
def exEnv : Env := ⟨[100, 101, 102], [200],
  fun x => if x = 200 then .empty 11 else .word (x - 100)⟩

theorem exEnv_ok : exEnv.Ok := by
  refine ⟨?_, ?_, ?_⟩
  · intro k x h
    have hk : k < 3 := by
      have := List.getElem?_eq_some_iff.1 h
      obtain ⟨hk, _⟩ := this
      exact hk
    have : k = 0 ∨ k = 1 ∨ k = 2 := by omega
    rcases this with rfl | rfl | rfl <;> (simp [exEnv] at h; subst h; rfl)
  · intro x hx
    have : x = 200 := by simpa [exEnv] using hx
    exact ⟨11, by rw [this]; rfl⟩
  · intro x hx y hy _
    have h1 : x = 200 := by simpa [exEnv] using hx
    have h2 : y = 200 := by simpa [exEnv] using hy
    rw [h1, h2]

/-- `2:obj|1.1:nsubj:x` -/
example : (getDeps exEnv (setRaw ['2', ':', 'o', '|', '1', '.', '1', ':', 'n', ':', 'x'] St.init)).2 =
    .ok [(102, ['o']), (200, ['n', ':', 'x'])] := by
  have h := C26_deps_to_raw_partial exEnv_ok (l := [(102, ['o']), (200, ['n', ':', 'x'])]) (by simp)
    (by intro d hd; simp at hd; rcases hd with rfl | rfl <;> simp [Env.Has, exEnv])
    (by intro d hd; simp at hd; rcases hd with rfl | rfl <;> decide) St.init St.init
  have e : conllu exEnv [(102, ['o']), (200, ['n', ':', 'x'])] =
      ['2', ':', 'o', '|', '1', '.', '1', ':', 'n', ':', 'x'] := by
    have h2 : natStr 2 = ['2'] := by rw [natStr]; decide
    have h1 : natStr 1 = ['1'] := by rw [natStr]; decide
    simp [conllu, exEnv, Ord.str, h1, h2, join]
  rw [e] at h
  exact h.2.2.1

/-- C26 is violated by the empty list: `node.raw_deps` is `None` after `node.deps = []`, on every node. -/
theorem C26_empty_deps_violated (env : Env) (s : St) :
    (getRaw env (setDeps [] s)).2 = none ∧ conllu env [] = ['_'] := ⟨rfl, rfl⟩

/-- C26 is violated by emptying the list in place: `raw_deps` still gives the old string, for every node
that has dependencies. -/
theorem C26_clear_violated {env : Env} (hok : env.Ok) {l : DepList} (hne : l ≠ [])
    (hl : ∀ d ∈ l, env.Has d.1) (hbar : ∀ d ∈ l, '|' ∉ d.2) (s : St) :
    let s1 := editDeps (fun _ => []) (getDeps env (setRaw (conllu env l) s)).1
    (getDeps env s1).2 = .ok [] ∧ (getRaw env s1).2 = some (conllu env l) ∧ conllu env l ≠ conllu env [] := by
  unfold setRaw
  rw [getDeps_conllu hok hl hbar]
  refine ⟨rfl, rfl, ?_⟩
  intro e
  have h1 := getDeps_conllu hok hl hbar
  have h2 := getDeps_conllu hok (l := []) (by simp) (by simp)
  rw [e, h2] at h1
  simp at h1
  exact hne h1

/-- C26 is violated by an id that does not exist: the first read raises, the second one silently gives the
entries before the bad one, and `raw_deps` has lost the rest. -/
theorem C26_second_read_violated :
    let s := setRaw ['1', ':', 'a', '|', '9', ':', 'b'] St.init
    let r := getDeps exEnv s
    r.2 = .error .indexError ∧ (getDeps exEnv r.1).2 = .ok [(101, ['a'])] ∧
      (getRaw exEnv (getDeps exEnv r.1).1).2 = some ['1', ':', 'a'] := by
  have hp : parseLoop exEnv [] [['1', ':', 'a'], ['9', ':', 'b']] = ([(101, ['a'])], some .indexError) := by
    decide
  have hs : split '|' ['1', ':', 'a', '|', '9', ':', 'b'] = [['1', ':', 'a'], ['9', ':', 'b']] := by decide
  have h1 : natStr 1 = ['1'] := by rw [natStr]; decide
  unfold setRaw getDeps
  simp only
  rw [hs, hp]
  refine ⟨rfl, rfl, ?_⟩
  simp [getRaw, depStr, exEnv, Ord.str, h1, join]

/-! ## C60: enhanced dependencies and changes of the tree -/

/-- C60 (partial): once the dependencies of a node were read or assigned, they keep pointing at the same
nodes when the tree changes from `env` to `env'` (words moved, added, removed): `raw_deps` is the string for
the new ords. Missing: nodes whose `raw_deps` was read from a file and whose `deps` was never asked for
(false), and in-place changes. -/
theorem C60_parsed_follow_partial {env env' : Env} (hok : env.Ok) {l : DepList} (hne : l ≠ [])
    (hl : ∀ d ∈ l, env.Has d.1) (hbar : ∀ d ∈ l, '|' ∉ d.2) (s t : St) :
    (getRaw env' (getDeps env (setRaw (conllu env l) s)).1).2 = some (conllu env' l) ∧
    (getRaw env' (setDeps l t)).2 = some (conllu env' l) := by
  have h1 : ∀ raw, (getRaw env' ⟨raw, some l⟩).2 = some (conllu env' l) := by
    intro raw
    unfold getRaw conllu
    cases l with
    | nil => exact absurd rfl hne
    | cons d l => simp [depStr_eq, List.append_assoc]
  refine ⟨?_, h1 _⟩
  unfold setRaw
  rw [getDeps_conllu hok hl hbar]
  exact h1 _

/-- C60 is violated for dependencies that were not parsed yet, whenever the change of the tree changes the
ord of a parent: `raw_deps` keeps the old ids, and `deps` read afterwards is not the list it was before. -/
theorem C60_unparsed_violated {env env' : Env} (hok : env.Ok) (hok' : env'.Ok) {l : DepList}
    (hl : ∀ d ∈ l, env.Has d.1) (hbar : ∀ d ∈ l, '|' ∉ d.2)
    (hmoved : ∃ d ∈ l, env.ord d.1 ≠ env'.ord d.1) (s : St) :
    (getDeps env (setRaw (conllu env l) s)).2 = .ok l ∧
    (getRaw env' (setRaw (conllu env l) s)).2 = some (conllu env l) ∧
    (getDeps env' (setRaw (conllu env l) s)).2 ≠ .ok l := by
  have hne : l ≠ [] := by rintro rfl; obtain ⟨d, hd, _⟩ := hmoved; cases hd
  have hinj : conllu env l ≠ conllu env' l := by
    intro e
    unfold conllu at e
    rw [if_neg hne, if_neg hne] at e
    have hb : ∀ (v : Env), ∀ p ∈ l.map (fun d => (v.ord d.1).str ++ [':'] ++ d.2), '|' ∉ p := by
      intro v p hp
      obtain ⟨d, hd, rfl⟩ := List.mem_map.1 hp
      simp only [List.mem_append, List.mem_singleton, not_or]
      exact ⟨⟨not_mem_ordStr (by decide) (by decide) _, by decide⟩, hbar d hd⟩
    have e2 : l.map (fun d => (env.ord d.1).str ++ [':'] ++ d.2) =
        l.map (fun d => (env'.ord d.1).str ++ [':'] ++ d.2) := by
      rw [← split_join (by simpa using hne) (hb env), e, split_join (by simpa using hne) (hb env')]
    obtain ⟨d, hd, hdne⟩ := hmoved
    have e3 := List.map_inj_left.1 e2 d hd
    have e4 := List.append_cancel_right e3
    have e5 := List.append_cancel_right e4
    exact hdne (ordStr_inj e5)
  refine ⟨?_, rfl, ?_⟩
  · unfold setRaw; rw [getDeps_conllu hok hl hbar]
  · intro e
    -- the new environment would read the old string as `l`
    have hcan : ∀ i ∈ split '|' (conllu env l), ∀ k, parseNat (splitOnce ':' i).1 = some k →
        natStr k = (splitOnce ':' i).1 := by
      intro i hi k hk
      have hsp : split '|' (conllu env l) = l.map (fun d => (env.ord d.1).str ++ [':'] ++ d.2) := by
        unfold conllu
        rw [if_neg hne]
        apply split_join (by simpa using hne)
        intro p hp
        obtain ⟨d, hd, rfl⟩ := List.mem_map.1 hp
        simp only [List.mem_append, List.mem_singleton, not_or]
        exact ⟨⟨not_mem_ordStr (by decide) (by decide) _, by decide⟩, hbar d hd⟩
      rw [hsp] at hi
      obtain ⟨d, hd, rfl⟩ := List.mem_map.1 hi
      rw [List.append_assoc, List.singleton_append, splitOnce_append (not_mem_ordStr (by decide) (by decide) _)] at hk ⊢
      simp only at hk ⊢
      cases ho : env.ord d.1 with
      | word m =>
        rw [ho] at hk
        simp only [Ord.str, parseNat_natStr, Option.some.injEq] at hk
        rw [← hk]; rfl
      | empty m =>
        rw [ho] at hk
        exact absurd hk (parseNat_empty m k)
    obtain ⟨_, h2⟩ := C26_raw_to_deps_partial hok' hcan e
    have h3 : (getDeps env' (setRaw (conllu env l) s)).1.deps = some l := by
      unfold getDeps setRaw at e ⊢
      simp only at e ⊢
      split at e
      · rename_i hu; rw [if_pos hu]; simpa using e
      · rename_i hu
        rw [if_neg hu]
        cases hr : parseLoop env' [] (split '|' (conllu env l)) with
        | mk l' err =>
          rw [hr] at e
          cases err with
          | some _ => simp at e
          | none => simpa using e
    have h4 : (getRaw env' (getDeps env' (setRaw (conllu env l) s)).1).2 = some (conllu env' l) := by
      unfold getRaw
      rw [h3]
      unfold conllu
      cases l with
      | nil => exact absurd rfl hne
      | cons d l => simp [depStr_eq, List.append_assoc]
    rw [h4] at h2
    exact hinj (Option.some.inj h2).symm

/-- Word 101 was removed: word 102 now has ord 1 (and the empty node 0.1). -/
def exEnv2 : Env := ⟨[100, 102], [200], fun x => if x = 200 then .empty 1 else if x = 102 then .word 1 else .word 0⟩

example : exEnv.ord 102 ≠ exEnv2.ord 102 ∧ exEnv2.Has 102 ∧ exEnv.Has 102 := by
  refine ⟨by decide, ?_, ?_⟩ <;> simp [Env.Has, exEnv, exEnv2]

end Verif.Deps
