import Verif.Py.Num

/-!
# Properties C189 and C190: ids, colours and documents in the HTML of coreference (udapi/block/write/corefhtml.py)

`isDec` is `str.isdecimal` and `isWord` the `\w` of regular expressions for one character; they are parameters.
-/

namespace Verif.Coref.Html
open Verif.Py

variable (isDec isWord : Char → Bool)

def clean (c : Char) : Char := if isWord c = true ∨ c = '-' then c else '_'

/-- `_dom_esc` (corefhtml.py:465-468); `none` is the IndexError. -/
def domEsc : Str → Option Str
  | [] => none
  | c :: s => some ((if isDec c then 'n' :: c :: s else c :: s).map (clean isWord))

/-- The id of the `idx`-th mention of an entity (corefhtml.py:276-277). -/
def mentionId (eid : Str) (idx : Nat) : Option Str := (domEsc isDec isWord eid).map (· ++ 'e' :: natStr idx)

/-- The colours of the entities (corefhtml.py:270-275) from their types; `counts` is the `Counter`. -/
def colours {τ : Type} [DecidableEq τ] (k : Nat) : List τ → (τ → Nat) → List Nat
  | [], _ => []
  | t :: ts, counts => counts t % k :: colours k ts (fun u => if u = t then counts t + 1 else counts u)

/-- The trees divided into documents (corefhtml.py:230-235); `newdoc` says whether a tree has a `newdoc`. -/
def divide {τ : Type} (newdoc : τ → Bool) (docs : List (List τ)) (t : τ) : List (List τ) :=
  if newdoc t ∨ docs = [] then docs ++ [[t]]
  else docs.dropLast ++ [(docs.getLast?.getD []) ++ [t]]

def documents {τ : Type} (newdoc : τ → Bool) (trees : List τ) : List (List τ) := trees.foldl (divide newdoc) []

/-- The files: the first document is in the page, the others in files with their numbers (corefhtml.py:311-322); `none` is the
IndexError of `ud_docs[0]`. -/
def files {τ : Type} (newdoc : τ → Bool) (trees : List τ) : Option (List τ × List (Nat × List τ)) :=
  match documents newdoc trees with
  | [] => none
  | d :: ds => some (d, ds.zipIdx.map fun (x, i) => (i + 2, x))

/-! ## Ids -/

/-- **C189.** An id of the page has only word characters and hyphens, and does not begin with a digit. -/
theorem C189_valid (hu : isWord '_' = true) (hn : isWord 'n' = true) (hdn : isDec 'n' = false) (hdu : isDec '_' = false)
    {s t : Str} (h : domEsc isDec isWord s = some t) :
    t ≠ [] ∧ (∀ c ∈ t, isWord c = true ∨ c = '-') ∧ ∀ c, t.head? = some c → isDec c = false := by
  cases s with
  | nil => cases h
  | cons c s =>
    simp only [domEsc, Option.some.injEq] at h
    subst h
    have hc : ∀ x, isWord (clean isWord x) = true ∨ clean isWord x = '-' := by
      intro x
      unfold clean
      split
      · assumption
      · exact .inl hu
    refine ⟨by split <;> simp, ?_, ?_⟩
    · intro x hx
      obtain ⟨y, _, rfl⟩ := List.mem_map.1 hx
      exact hc y
    · intro x hx
      by_cases hd : isDec c = true
      · simp [hd, clean, hn] at hx
        rw [← hx]
        exact hdn
      · simp [hd] at hx
        rw [← hx]
        unfold clean
        split
        · simpa using hd
        · exact hdu

/-- **C189, partial: for ids without other characters.** An id of word characters and hyphens that does not begin with a digit is kept,
so different ones remain different. -/
theorem C189_kept_partial {s : Str} (hne : s ≠ []) (hs : ∀ c ∈ s, isWord c = true ∨ c = '-')
    (hd : ∀ c, s.head? = some c → isDec c = false) : domEsc isDec isWord s = some s := by
  cases s with
  | nil => exact absurd rfl hne
  | cons c s =>
    have h1 := hd c rfl
    simp only [domEsc, h1, Bool.false_eq_true, if_false, Option.some.injEq]
    have : ∀ l : Str, (∀ c ∈ l, isWord c = true ∨ c = '-') → l.map (clean isWord) = l := by
      intro l
      induction l with
      | nil => intro _; rfl
      | cons x l ih =>
        intro h
        rw [List.map_cons, ih (fun c hc => h c (by simp [hc]))]
        rw [clean, if_pos (h x (by simp))]
    exact this _ hs

/-- **C189, violated.** Different entities have the same id: other characters are all replaced by an underscore, and `n` is put
before a digit. -/
theorem C189_same_violated (hu : isWord '_' = true) (a b : Str) (ha : a ≠ []) (x : Char) (hx : isWord x = false) (hm : x ≠ '-') :
    domEsc isDec isWord (a ++ x :: b) = domEsc isDec isWord (a ++ '_' :: b) ∧
    ∀ d s, isDec d = true → isDec 'n' = false → domEsc isDec isWord (d :: s) = domEsc isDec isWord ('n' :: d :: s) := by
  constructor
  · cases a with
    | nil => exact absurd rfl ha
    | cons c a =>
      have : clean isWord x = clean isWord '_' := by simp [clean, hx, hm, hu]
      simp only [List.cons_append, domEsc]
      split <;> simp [this]
  · intro d s hd hn
    simp [domEsc, hd, hn]

/-- **C189, violated.** The id of an entity must not be empty. -/
theorem C189_empty_violated : domEsc isDec isWord [] = none := rfl

theorem last_sep_inj {c : Char} : ∀ {a b x y : Str}, c ∉ x → c ∉ y → a ++ c :: x = b ++ c :: y → a = b ∧ x = y := by
  intro a
  induction a with
  | nil =>
    intro b x y hx hy h
    cases b with
    | nil => exact ⟨rfl, by simpa using h⟩
    | cons d b =>
      simp only [List.nil_append, List.cons_append, List.cons.injEq] at h
      exact absurd (by rw [h.2]; simp) hx
  | cons d a ih =>
    intro b x y hx hy h
    cases b with
    | nil =>
      simp only [List.nil_append, List.cons_append, List.cons.injEq] at h
      exact absurd (by rw [← h.2]; simp) hy
    | cons e b =>
      simp only [List.cons_append, List.cons.injEq] at h
      obtain ⟨h1, h2⟩ := ih hx hy h.2
      exact ⟨by rw [h.1, h1], h2⟩

/-- **C189.** The id of a mention determines the id of its entity in the page and the number of the mention. -/
theorem C189_mentions {a b t : Str} {i j : Nat} (h1 : mentionId isDec isWord a i = some t) (h2 : mentionId isDec isWord b j = some t) :
    domEsc isDec isWord a = domEsc isDec isWord b ∧ i = j := by
  simp only [mentionId, Option.map_eq_some_iff] at h1 h2
  obtain ⟨x, hx, h1⟩ := h1
  obtain ⟨y, hy, h2⟩ := h2
  have hd : ∀ k, 'e' ∉ natStr k := fun k => not_mem_natStr (by decide) k
  obtain ⟨h3, h4⟩ := last_sep_inj (hd i) (hd j) (h1.trans h2.symm)
  exact ⟨by rw [hx, hy, h3], natStr_inj h4⟩

/-- **C189, violated.** The class of a mention can be the class of another entity: the first mention of the entity `a` and the entity
`ae1` are selected together. -/
theorem C189_class_violated (he : isWord 'e' = true) (hd : ∀ c : Char, 48 ≤ c.toNat ∧ c.toNat ≤ 57 → isWord c = true)
    (a : Str) (ha : a ≠ []) (i : Nat) : mentionId isDec isWord a i = domEsc isDec isWord (a ++ 'e' :: natStr i) := by
  cases a with
  | nil => exact absurd rfl ha
  | cons c a =>
    have h1 : (natStr i).map (clean isWord) = natStr i := by
      have : ∀ l : Str, (∀ c ∈ l, 48 ≤ c.toNat ∧ c.toNat ≤ 57) → l.map (clean isWord) = l := by
        intro l
        induction l with
        | nil => intro _; rfl
        | cons x l ih =>
          intro h
          rw [List.map_cons, ih (fun c hc => h c (by simp [hc])), clean, if_pos (.inl (hd x (h x (by simp))))]
      exact this _ (natStr_digits i)
    have h2 : clean isWord 'e' = 'e' := by simp [clean, he]
    simp only [mentionId, domEsc, List.cons_append, Option.map_some]
    split <;> simp [h1, h2]

/-! ## Colours -/

section
variable {τ : Type} [DecidableEq τ]

theorem colours_eq (k : Nat) : ∀ (ts : List τ) (counts : τ → Nat) (i : Nat) (t : τ), ts[i]? = some t →
    (colours k ts counts)[i]? = some ((counts t + (ts.take i).count t) % k) := by
  intro ts
  induction ts with
  | nil => intro counts i t h; simp at h
  | cons u ts ih =>
    intro counts i t h
    cases i with
    | zero =>
      simp only [List.getElem?_cons_zero, Option.some.injEq] at h
      subst h
      simp [colours]
    | succ i =>
      simp only [List.getElem?_cons_succ] at h
      simp only [colours, List.getElem?_cons_succ, ih _ i t h, List.take_succ_cons, List.count_cons]
      congr 2
      by_cases hu : u = t
      · subst hu
        simp
        omega
      · simp [hu, Ne.symm hu]

/-- **C189.** The `i`-th entity has the colour with the number of earlier entities of its type, modulo the number of colours. -/
theorem C189_colours (k : Nat) (ts : List τ) (i : Nat) (t : τ) (h : ts[i]? = some t) :
    (colours k ts fun _ => 0)[i]? = some ((ts.take i).count t % k) := by
  rw [colours_eq k ts _ i t h]
  simp

/-- **C189.** As many successive entities of one type as there are colours have different colours. -/
theorem C189_differ {k : Nat} {ts : List τ} {i j : Nat} {t : τ} {c d : Nat} (hi : ts[i]? = some t) (hj : ts[j]? = some t) (hij : i < j)
    (hk : ((ts.take j).drop i).count t < k) (hc : (colours k ts fun _ => 0)[i]? = some c) (hd : (colours k ts fun _ => 0)[j]? = some d) :
    c ≠ d := by
  rw [C189_colours k ts i t hi] at hc
  rw [C189_colours k ts j t hj] at hd
  have hc := Option.some.inj hc
  have hd := Option.some.inj hd
  have hsum : (ts.take j).count t = (ts.take i).count t + ((ts.take j).drop i).count t := by
    rw [← List.count_append]
    congr 1
    have : ts.take i = (ts.take j).take i := by
      rw [List.take_take]
      congr 1
      omega
    rw [this, List.take_append_drop]
  have hpos : 0 < ((ts.take j).drop i).count t := by
    rw [List.count_pos_iff]
    apply List.mem_of_getElem? (i := 0)
    rw [List.getElem?_drop, List.getElem?_take, if_pos (by omega)]
    simpa using hi
  intro he
  rw [← hc, ← hd, hsum] at he
  have h0 := Nat.mod_lt ((ts.take i).count t) (show 0 < k by omega)
  have h1 : ((ts.take i).count t + ((ts.take j).drop i).count t) % k =
      (((ts.take i).count t) % k + ((ts.take j).drop i).count t) % k := by rw [Nat.mod_add_mod]
  rw [h1] at he
  generalize ((ts.take i).count t) % k = a at *
  generalize ((ts.take j).drop i).count t = b at *
  by_cases hlt : a + b < k
  · rw [Nat.mod_eq_of_lt hlt] at he
    omega
  · rw [Nat.mod_eq_sub_mod (by omega), Nat.mod_eq_of_lt (by omega)] at he
    omega

end

/-! ## Documents -/

section
variable {τ : Type} (newdoc : τ → Bool)

/-- What the division should be. -/
def Good (docs : List (List τ)) : Prop :=
  (∀ d ∈ docs, d ≠ []) ∧ (∀ d ∈ docs, ∀ t ∈ d.tail, newdoc t = false) ∧ ∀ d ∈ docs.tail, ∀ t, d.head? = some t → newdoc t = true

theorem good_divide {docs : List (List τ)} (h : Good newdoc docs) (t : τ) : Good newdoc (divide newdoc docs t) ∧
    (divide newdoc docs t).flatten = docs.flatten ++ [t] := by
  obtain ⟨h1, h2, h3⟩ := h
  unfold divide
  split
  · rename_i hc
    refine ⟨⟨?_, ?_, ?_⟩, by simp⟩
    · intro d hd
      rcases List.mem_append.1 hd with hd | hd
      · exact h1 d hd
      · simp at hd; subst hd; simp
    · intro d hd u hu
      rcases List.mem_append.1 hd with hd | hd
      · exact h2 d hd u hu
      · simp at hd; subst hd; simp at hu
    · intro d hd u hu
      cases docs with
      | nil => simp at hd
      | cons e docs =>
        simp only [List.cons_append, List.tail_cons] at hd
        rcases List.mem_append.1 hd with hd | hd
        · exact h3 d hd u hu
        · simp at hd
          subst hd
          simp at hu
          subst hu
          rcases hc with hc | hc
          · exact hc
          · cases hc
  · rename_i hc
    have hnd : newdoc t = false := by
      cases hn : newdoc t with
      | false => rfl
      | true => exact absurd (.inl hn) hc
    rcases List.eq_nil_or_concat docs with rfl | ⟨ds, e, he⟩
    · exact absurd (.inr rfl) hc
    rw [List.concat_eq_append] at he
    subst he
    have e1 : (ds ++ [e]).dropLast ++ [((ds ++ [e]).getLast?.getD []) ++ [t]] = ds ++ [e ++ [t]] := by simp
    rw [e1]
    have hene := h1 e (by simp)
    obtain ⟨x, xs, rfl⟩ : ∃ x xs, e = x :: xs := by
      cases e with
      | nil => exact absurd rfl hene
      | cons x xs => exact ⟨x, xs, rfl⟩
    refine ⟨⟨?_, ?_, ?_⟩, by simp⟩
    · intro d hd
      rcases List.mem_append.1 hd with hd | hd
      · exact h1 d (by simp [hd])
      · simp at hd; subst hd; simp
    · intro d hd u hu
      rcases List.mem_append.1 hd with hd | hd
      · exact h2 d (by simp [hd]) u hu
      · simp at hd
        subst hd
        simp at hu
        rcases hu with hu | hu
        · exact h2 (x :: xs) (by simp) u hu
        · rw [hu]; exact hnd
    · intro d hd u hu
      cases ds with
      | nil => simp at hd
      | cons f ds =>
        simp only [List.cons_append, List.tail_cons] at hd h3
        rcases List.mem_append.1 hd with hd | hd
        · exact h3 d (by simp [hd]) u hu
        · simp at hd
          subst hd
          simp at hu
          subst hu
          exact h3 (x :: xs) (by simp) x rfl

theorem good_documents (trees : List τ) : Good newdoc (documents newdoc trees) ∧ (documents newdoc trees).flatten = trees := by
  have : ∀ (trees : List τ) (docs : List (List τ)), Good newdoc docs →
      Good newdoc (trees.foldl (divide newdoc) docs) ∧ (trees.foldl (divide newdoc) docs).flatten = docs.flatten ++ trees := by
    intro trees
    induction trees with
    | nil => intro docs h; exact ⟨h, by simp⟩
    | cons t trees ih =>
      intro docs h
      obtain ⟨h1, h2⟩ := good_divide newdoc h t
      obtain ⟨h3, h4⟩ := ih _ h1
      exact ⟨h3, by rw [List.foldl_cons, h4, h2]; simp⟩
  have := this trees [] ⟨by simp, by simp, by simp⟩
  simpa [documents] using this

/-- **C190, partial: if there is a tree.** The documents are the trees in their order, divided before each `newdoc`. The first one is in
the page and the `i`-th one is in the file with the number `i`. -/
theorem C190_files_partial {trees : List τ} (hne : trees ≠ []) : ∃ d ds, files newdoc trees = some (d, ds) ∧
    d ++ (ds.map Prod.snd).flatten = trees ∧ ds.map Prod.fst = List.range' 2 ds.length ∧ d ≠ [] ∧ (∀ t ∈ d.tail, newdoc t = false) ∧
    ∀ e ∈ ds, ∃ t ts, e.2 = t :: ts ∧ newdoc t = true ∧ ∀ u ∈ ts, newdoc u = false := by
  obtain ⟨⟨h1, h2, h3⟩, h4⟩ := good_documents newdoc trees
  cases hd : documents newdoc trees with
  | nil =>
    rw [hd] at h4
    exact absurd h4.symm hne
  | cons d ds =>
    rw [hd] at h1 h2 h3 h4
    refine ⟨d, ds.zipIdx.map (fun x => (x.2 + 2, x.1)), by simp [files, hd], ?_, ?_, h1 d (by simp), h2 d (by simp), ?_⟩
    · rw [List.map_map]
      have : ds.zipIdx.map (Prod.snd ∘ fun (x : List τ × Nat) => (x.2 + 2, x.1)) = ds := by
        have e : (Prod.snd ∘ fun (x : List τ × Nat) => (x.2 + 2, x.1)) = Prod.fst := rfl
        rw [e, List.zipIdx_map_fst]
      rw [this]
      exact h4
    · apply List.ext_getElem?
      intro i
      simp only [List.length_map, List.length_zipIdx]
      by_cases hi : i < ds.length
      · simp [hi, Nat.add_comm]
      · simp [hi]
    · intro e he
      obtain ⟨⟨x, i⟩, hx, rfl⟩ := List.mem_map.1 he
      have hxm : x ∈ ds := by
        have := List.mem_zipIdx_iff_getElem?.1 hx
        exact List.mem_of_getElem? this
      cases hxc : x with
      | nil => exact absurd hxc (h1 x (by simp [hxm]))
      | cons t ts =>
        refine ⟨t, ts, rfl, h3 x (by simpa using hxm) t (by rw [hxc]; rfl), ?_⟩
        intro u hu
        exact h2 x (by simp [hxm]) u (by rw [hxc]; exact hu)

/-- **C190, violated.** A document without trees raises an exception after a part of the page is printed. -/
theorem C190_empty_violated : files newdoc ([] : List τ) = none := rfl

end

/-! ## Examples -/

example : domEsc (fun c => c == '1') (fun c => c == 'a' || c == '1' || c == 'n') ['1', '.', 'a'] = some ['n', '1', '_', 'a'] := by decide
example : mentionId (fun c => c == '1') (fun c => c != '.') ['a'] 12 = some ['a', 'e', '1', '2'] := by decide +kernel
example : colours 2 [0, 1, 0, 0, 1] (fun _ => 0) = [0, 0, 1, 0, 1] := by decide
example : files (fun n => n % 10 == 0) [1, 2, 10, 11, 20] = some ([1, 2], [(2, [10, 11]), (3, [20])]) := by decide

end Verif.Coref.Html
