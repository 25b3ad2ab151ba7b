import Verif.Text.SpaceAfter

/-!
# Properties C48 and C85: tokenize.OnWhitespace and tokenize.Simple (udapi/block/tokenize/onwhitespace.py, simple.py)

The tree has no nodes before (otherwise the block raises, onwhitespace.py:46-47). `\w` of `re` is an arbitrary set of characters
that are not white space.
-/

namespace Verif.Text
open Verif.Py
open Verif.Run (wsSplit wsSplitAux wsSplit_join)

/-- A new node: its form and the MISC attributes `SpaceAfter=No`, `SpacesBefore` and `SpacesAfter`. -/
structure New where
  form : Str
  no : Bool
  before : Option Str
  after : Option Str
  deriving DecidableEq

/-- `escape_whitespace_table` (onwhitespace.py:33) -/
def escWs (s : Str) : Str := s.flatMap (fun c =>
  if c = ' ' then ['\\', 's'] else if c = '\t' then ['\\', 't'] else if c = '\r' then ['\\', 'r'] else if c = '\n' then ['\\', 'n'] else [c])

/-- The loop over the tokens (onwhitespace.py:59-100); `none`: ValueError. -/
def tokLoop (keep : Bool) (first : Bool) (before : Str) (sentence : Str) : List Str → Option (List New)
  | [] => some []
  | tk :: tks =>
    if tk.isPrefixOf sentence then
      let s1 := sentence.drop tk.length
      let after := s1.takeWhile isWs
      let s2 := s1.dropWhile isWs
      let b := if keep then before else []
      let a := if keep then after else if after = [] ∧ s2 ≠ [] then [] else [' ']
      let node : New := ⟨tk, a == [], if first && b != [] then some (escWs b) else none,
        if a ≠ [] ∧ a ≠ [' '] then some (escWs a) else none⟩
      match tokLoop keep false b s2 tks with
      | none => none
      | some ns => some (node :: ns)
    else none

/-- `process_tree(root)` with `root.text = text` (onwhitespace.py:45-100): the new nodes. -/
def tokenizeTree (keep : Bool) (tokenizer : Str → List Str) (text : Str) : Option (List New) :=
  tokLoop keep true (text.takeWhile isWs) (text.dropWhile isWs) (tokenizer text)

/-- `re.findall(r'\w+|[^\w\s]', string)` (simple.py:13) -/
def simpleTok (isW : Char → Bool) (s : Str) : List Str :=
  match s with
  | [] => []
  | c :: cs =>
    if isW c then (c :: cs.takeWhile isW) :: simpleTok isW (cs.dropWhile isW)
    else if isWs c then simpleTok isW cs
    else [c] :: simpleTok isW cs
termination_by s.length
decreasing_by
  · have := (List.dropWhile_sublist isW (l := cs)).length_le
    simp only [List.length_cons]; omega
  · simp
  · simp

/-- The tree of the new nodes. -/
def newTree (ns : List New) : Tree := ⟨ns.map (fun n => ⟨n.form, n.no, none⟩), []⟩

/-! ## Proofs -/

/-- The text is the tokens with white space after them. -/
inductive Cover : List Str → Str → Prop
  | nil : Cover [] []
  | cons {t g s : Str} {ts : List Str} : t ≠ [] → (∀ c ∈ t, isWs c = false) → (∀ c ∈ g, isWs c = true) → startsWs s = false →
      Cover ts s → Cover (t :: ts) (t ++ (g ++ s))

theorem takeWhile_ws {g s : Str} (hg : ∀ c ∈ g, isWs c = true) (hs : startsWs s = false) :
    (g ++ s).takeWhile isWs = g ∧ (g ++ s).dropWhile isWs = s := by
  have h0 : s.takeWhile isWs = [] ∧ s.dropWhile isWs = s := by
    cases s with
    | nil => exact ⟨rfl, rfl⟩
    | cons c s =>
      have hs : isWs c = false := hs
      rw [List.takeWhile_cons_of_neg (by simp [hs]), List.dropWhile_cons_of_neg (by simp [hs])]
      exact ⟨rfl, rfl⟩
  rw [List.takeWhile_append_of_pos hg, List.dropWhile_append_of_pos hg, h0.1, h0.2, List.append_nil]
  exact ⟨rfl, rfl⟩

theorem startsWs_lstrip (s : Str) : startsWs (lstrip s) = false := by
  unfold lstrip
  induction s with
  | nil => rfl
  | cons c s ih =>
    by_cases hc : isWs c = true
    · rw [List.dropWhile_cons_of_pos hc]; exact ih
    · rw [List.dropWhile_cons_of_neg hc]
      simpa [startsWs] using hc

theorem cover_nil {ts : List Str} {s : Str} (h : Cover ts s) (hs : s = []) : ts = [] := by
  cases h with
  | nil => rfl
  | cons h1 _ _ _ _ => simp at hs; exact absurd hs.1 h1

/-- The new nodes: their forms are the tokens, and the spacing is that of the text. -/
theorem tokLoop_cover (keep : Bool) {ts : List Str} {s : Str} (h : Cover ts s) : ∀ (first : Bool) (before : Str),
    ∃ ns, tokLoop keep first before s ts = some ns ∧ ns.map New.form = ts ∧
      SameWords (detok (ns.map (fun n => (n.form, n.no)))) s := by
  induction h with
  | nil => intro first before; exact ⟨[], rfl, rfl, fun _ => rfl⟩
  | @cons t g s ts h1 h2 h3 h4 h5 ih =>
    intro first before
    obtain ⟨ns, e1, e2, e3⟩ := ih false (if keep then before else [])
    unfold tokLoop
    rw [if_pos (by rw [List.isPrefixOf_iff_prefix]; exact List.prefix_append _ _), List.drop_left]
    simp only
    rw [(takeWhile_ws h3 h4).1, (takeWhile_ws h3 h4).2, e1]
    refine ⟨_, rfl, by simp [e2], ?_⟩
    simp only [List.map_cons, detok, List.flatMap_cons]
    show SameWords (piece t _ ++ detok (ns.map (fun n => (n.form, n.no)))) _
    unfold piece
    have hne : ∀ {l : Str}, l ≠ [] → (l == []) = false := fun h => by simpa using h
    have sp : ∀ {w : Str}, w ≠ [] → (∀ c ∈ w, isWs c = true) →
        SameWords ((t ++ [' ']) ++ detok (ns.map (fun n => (n.form, n.no)))) (t ++ (w ++ s)) := by
      intro w hw1 hw2
      rw [List.append_assoc]
      exact SameWords.append _ (SameWords.ws (by simp) hw1 (by simpa using isWs_space) hw2 e3)
    by_cases hg : g = []
    · subst hg
      cases keep with
      | true => exact SameWords.append _ e3
      | false =>
        by_cases hs : s = []
        · subst hs
          simp only [ne_eq, not_true_eq_false, and_false, if_false, List.append_nil]
          rw [if_neg (by decide)]
          have hts := cover_nil h5 rfl
          subst hts
          cases ns with
          | nil =>
            show SameWords ((t ++ [' ']) ++ []) t
            rw [List.append_nil]
            have := SameWords.append t (SameWords.end' (w := [' ']) (by simpa using isWs_space))
            rwa [List.append_nil] at this
          | cons n ns => simp at e2
        · simp only [ne_eq, hs, not_false_eq_true, and_self, if_true]
          exact SameWords.append _ e3
    · cases keep with
      | true =>
        simp only [if_true, hne hg, Bool.false_eq_true, if_false]
        exact sp hg h3
      | false =>
        simp only [hg, false_and, Bool.false_eq_true, if_false]
        rw [if_neg (by decide)]
        exact sp hg h3

theorem join_wsSplitAux : ∀ (s acc : Str), Single s → (acc ≠ [] ∨ startsWs s = false) →
    join [' '] (wsSplitAux acc s) = acc.reverse ++ s
  | [], acc, _, _ => by
    unfold wsSplitAux
    by_cases ha : acc = []
    · subst ha; rfl
    · rw [if_neg ha, List.append_nil]; rfl
  | c :: cs, acc, h, h0 => by
    unfold wsSplitAux
    by_cases hc : isWs c = true
    · obtain ⟨rfl, d, b', rfl, hd⟩ := h [] c cs rfl hc
      have ha : acc ≠ [] := by
        rcases h0 with h0 | h0
        · exact h0
        · exact absurd hc (by simpa [startsWs] using h0)
      rw [if_pos hc, if_neg ha]
      have ih := join_wsSplitAux (d :: b') [] (Single.suffix (a := [' ']) h) (.inr hd)
      rw [List.reverse_nil, List.nil_append] at ih
      cases hw : wsSplitAux [] (d :: b') with
      | nil => rw [hw] at ih; cases ih
      | cons x xs =>
        rw [hw] at ih
        show acc.reverse ++ [' '] ++ join [' '] (x :: xs) = _
        rw [ih]; simp
    · rw [if_neg hc, join_wsSplitAux cs (c :: acc) (Single.suffix (a := [c]) h) (.inl (by simp))]
      simp

theorem join_wsSplit {s : Str} (h : Single s) (h0 : startsWs s = false) : join [' '] (wsSplit s) = s :=
  join_wsSplitAux s [] h (.inr h0)

theorem tokens_new (ns : List New) : tokens (newTree ns) = (List.range ns.length).map Tok.word := by
  have : ∀ (ws : List Word) (last i : Nat), (∀ w ∈ ws, w.mwt = none) → tokenLoop [] last i ws = (List.range' i ws.length).map Tok.word := by
    intro ws
    induction ws with
    | nil => intros; rfl
    | cons w ws ih =>
      intro last i h
      unfold tokenLoop
      rw [h w (List.mem_cons_self ..)]
      simp only [Option.bind_none]
      rw [ih last (i + 1) (fun v hv => h v (List.mem_cons_of_mem _ hv)), List.length_cons, List.range'_succ]
      rfl
  unfold tokens newTree
  simp only
  rw [this _ 0 0 (by intro w hw; obtain ⟨n, _, rfl⟩ := List.mem_map.1 hw; rfl), List.range_eq_range', List.length_map]

theorem computeText_new (ns : List New) : computeText true (newTree ns) = rstrip (detok (ns.map (fun n => (n.form, n.no)))) := by
  rw [C84_text, tokens_new]
  congr 2
  apply List.ext_getElem?
  intro k
  rw [List.getElem?_map, List.getElem?_map, List.getElem?_map]
  by_cases hk : k < ns.length
  · rw [List.getElem?_range hk]
    simp [Tree.get, newTree, List.getElem?_eq_getElem hk]
  · rw [List.getElem?_eq_none (by simpa using hk), List.getElem?_eq_none (by simpa using hk)]
    rfl

theorem cover_forms {ts : List Str} {s : Str} (h : Cover ts s) : ∀ t ∈ ts, t ≠ [] ∧ ∀ c ∈ t, isWs c = false := by
  induction h with
  | nil => intro t ht; cases ht
  | cons h1 h2 _ _ _ ih =>
    intro t ht
    rcases List.mem_cons.1 ht with rfl | ht
    · exact ⟨h1, h2⟩
    · exact ih t ht

theorem sameWords_lstrip (s : Str) : wsSplit (lstrip s) = wsSplit s := by
  conv => rhs; rw [lstrip_split s]
  unfold wsSplit
  by_cases h : s.takeWhile isWs = []
  · rw [h]; rfl
  · rw [wsSplitAux_ws [] _ _ h (fun c hc => mem_takeWhile_ws hc)]; rfl

/-- For any tokenizer whose tokens are the text without the white space. -/
theorem tokenize_text {keep : Bool} {tokenizer : Str → List Str} {text : Str} (h : Cover (tokenizer text) (lstrip text)) :
    ∃ ns, tokenizeTree keep tokenizer text = some ns ∧ ns.map New.form = tokenizer text ∧
      computeText true (newTree ns) = join [' '] (wsSplit text) := by
  obtain ⟨ns, e1, e2, e3⟩ := tokLoop_cover keep h true (text.takeWhile isWs)
  refine ⟨ns, e1, e2, ?_⟩
  rw [computeText_new]
  have hf : ∀ p ∈ ns.map (fun n => (n.form, n.no)), p.1 ≠ [] ∧ ∀ c ∈ p.1, isWs c = false := by
    intro p hp
    obtain ⟨n, hn, rfl⟩ := List.mem_map.1 hp
    exact cover_forms h n.form (by rw [← e2]; exact List.mem_map_of_mem hn)
  obtain ⟨h1, h2⟩ := single_detok _ hf
  rw [← join_wsSplit h1 h2, ← sameWords_lstrip text]
  congr 1
  unfold wsSplit
  rw [sameWords_rstrip, e3]

theorem dropWhile_non {s : Str} : startsWs s = false → s ≠ [] → s.takeWhile (fun c => !isWs c) ≠ [] := by
  intro h hs
  cases s with
  | nil => exact absurd rfl hs
  | cons c s =>
    have h : isWs c = false := h
    rw [List.takeWhile_cons_of_pos (by simp [h])]; simp

theorem mem_takeWhile {p : Char → Bool} {s : Str} {c : Char} (h : c ∈ s.takeWhile p) : p c = true := by
  induction s with
  | nil => cases h
  | cons a s ih =>
    by_cases ha : p a = true
    · rw [List.takeWhile_cons_of_pos ha] at h
      rcases List.mem_cons.1 h with rfl | h
      · exact ha
      · exact ih h
    · rw [List.takeWhile_cons_of_neg ha] at h; cases h

theorem wsSplit_cons {s : Str} (h : startsWs s = false) (hs : s ≠ []) :
    wsSplit s = s.takeWhile (fun c => !isWs c) :: wsSplit (lstrip (s.dropWhile (fun c => !isWs c))) := by
  have e : s = s.takeWhile (fun c => !isWs c) ++ s.dropWhile (fun c => !isWs c) := (List.takeWhile_append_dropWhile).symm
  have hp : ∀ c ∈ s.takeWhile (fun c => !isWs c), isWs c = false := fun c hc => by simpa using mem_takeWhile hc
  have hn := dropWhile_non h hs
  have hd : s.dropWhile (fun c => !isWs c) = [] ∨ startsWs (s.dropWhile (fun c => !isWs c)) = true := by
    clear e hp hn h hs
    induction s with
    | nil => exact .inl rfl
    | cons c s ih =>
      by_cases hc : isWs c = true
      · rw [List.dropWhile_cons_of_neg (by simp [hc])]; exact .inr hc
      · rw [List.dropWhile_cons_of_pos (by simp [hc])]; exact ih
  conv => lhs; rw [e]
  generalize s.takeWhile (fun c => !isWs c) = p at *
  generalize s.dropWhile (fun c => !isWs c) = r at *
  rw [sameWords_lstrip]
  unfold wsSplit
  rw [Verif.Run.wsSplitAux_piece hp, List.append_nil]
  cases r with
  | nil =>
    unfold wsSplitAux
    rw [if_neg (by simpa using hn)]
    simp
  | cons c r =>
    have hc : isWs c = true := by
      rcases hd with h | h
      · cases h
      · exact h
    conv => lhs; unfold wsSplitAux
    conv => rhs; unfold wsSplitAux
    rw [if_pos hc, if_neg (by simpa using hn), if_pos hc, if_pos rfl, List.reverse_reverse]

theorem cover_split : ∀ (n : Nat) (s : Str), s.length ≤ n → startsWs s = false → Cover (wsSplit s) s
  | n, [], _, _ => Cover.nil
  | 0, c :: s, h, _ => by simp at h
  | n + 1, c :: s, h, h0 => by
    have hs : c :: s ≠ [] := by simp
    rw [wsSplit_cons h0 hs]
    have e : c :: s = (c :: s).takeWhile (fun c => !isWs c) ++ (c :: s).dropWhile (fun c => !isWs c) := (List.takeWhile_append_dropWhile).symm
    have hn := dropWhile_non h0 hs
    have hp : ∀ d ∈ (c :: s).takeWhile (fun c => !isWs c), isWs d = false := fun d hd => by simpa using mem_takeWhile hd
    generalize (c :: s).takeWhile (fun c => !isWs c) = p at *
    generalize (c :: s).dropWhile (fun c => !isWs c) = r at *
    have hlen : r.length ≤ n := by
      have := congrArg List.length e
      rw [List.length_append] at this
      have : 0 < p.length := List.length_pos_iff.2 hn
      omega
    have hl : (lstrip r).length ≤ n := Nat.le_trans (List.dropWhile_sublist isWs).length_le hlen
    have := Cover.cons hn hp (g := r.takeWhile isWs) (fun d hd => mem_takeWhile_ws hd) (startsWs_lstrip r)
      (cover_split n (lstrip r) hl (startsWs_lstrip r))
    rw [← lstrip_split r, ← e] at this
    exact this

/-- C48: tokenize.OnWhitespace accepts every text; the words are its pieces between white space, and `compute_text` gives the text
with each run of white space replaced by a space and without white space at its ends. -/
theorem C48_on_whitespace (keep : Bool) (text : Str) :
    ∃ ns, tokenizeTree keep wsSplit text = some ns ∧ ns.map New.form = wsSplit text ∧
      computeText true (newTree ns) = join [' '] (wsSplit text) := by
  apply tokenize_text
  rw [← sameWords_lstrip]
  exact cover_split _ _ (Nat.le_refl _) (startsWs_lstrip text)

theorem simpleTok_lstrip {isW : Char → Bool} (hW : ∀ c, isWs c = true → isW c = false) (s : Str) :
    simpleTok isW (lstrip s) = simpleTok isW s := by
  induction s with
  | nil => rfl
  | cons c s ih =>
    by_cases hc : isWs c = true
    · have : lstrip (c :: s) = lstrip s := by unfold lstrip; rw [List.dropWhile_cons_of_pos hc]
      rw [this, ih]
      conv => rhs; unfold simpleTok
      rw [if_neg (by simp [hW c hc]), if_pos hc]
    · have : lstrip (c :: s) = c :: s := by unfold lstrip; rw [List.dropWhile_cons_of_neg hc]
      rw [this]

theorem cover_simple {isW : Char → Bool} (hW : ∀ c, isWs c = true → isW c = false) : ∀ (n : Nat) (s : Str), s.length ≤ n →
    startsWs s = false → Cover (simpleTok isW s) s
  | n, [], _, _ => by unfold simpleTok; exact Cover.nil
  | 0, c :: s, h, _ => by simp at h
  | n + 1, c :: s, h, h0 => by
    have h0 : isWs c = false := h0
    have hlen : s.length ≤ n := by simpa using h
    have key : ∀ (p r : Str), (∀ d ∈ p, isWs d = false) → s = p ++ r → Cover ((c :: p) :: simpleTok isW r) (c :: s) := by
      intro p r hp e
      have hr : r.length ≤ n := by rw [e] at hlen; simp at hlen; omega
      have hl : (lstrip r).length ≤ n := Nat.le_trans (List.dropWhile_sublist isWs).length_le hr
      have := Cover.cons (t := c :: p) (by simp) (by
        intro d hd
        rcases List.mem_cons.1 hd with rfl | hd
        · exact h0
        · exact hp d hd) (g := r.takeWhile isWs) (fun d hd => mem_takeWhile_ws hd) (startsWs_lstrip r)
        (cover_simple hW n (lstrip r) hl (startsWs_lstrip r))
      rw [← lstrip_split r, simpleTok_lstrip hW] at this
      rw [e]
      exact this
    unfold simpleTok
    by_cases hw : isW c = true
    · rw [if_pos hw]
      refine key _ _ ?_ (List.takeWhile_append_dropWhile).symm
      intro d hd
      have := mem_takeWhile hd
      cases hd' : isWs d with
      | false => rfl
      | true => rw [hW d hd'] at this; cases this
    · rw [if_neg hw, if_neg (by simp [h0])]
      exact key [] s (by simp) rfl

/-- C48: the same for tokenize.Simple. -/
theorem C48_simple (keep : Bool) {isW : Char → Bool} (hW : ∀ c, isWs c = true → isW c = false) (text : Str) :
    ∃ ns, tokenizeTree keep (simpleTok isW) text = some ns ∧ ns.map New.form = simpleTok isW text ∧
      computeText true (newTree ns) = join [' '] (wsSplit text) := by
  apply tokenize_text
  rw [← simpleTok_lstrip hW]
  exact cover_simple hW _ _ (Nat.le_refl _) (startsWs_lstrip text)

def exText : Str := [' ', 'H', 'i', ',', ' ', '\t', 'y', 'o', 'u', '!', '\n']

example : tokenizeTree false wsSplit exText = some [⟨['H', 'i', ','], false, none, none⟩, ⟨['y', 'o', 'u', '!'], false, none, none⟩] ∧
    tokenizeTree true (simpleTok (fun c => !isWs c && c != ',' && c != '!')) exText =
      some [⟨['H', 'i'], true, some ['\\', 's'], none⟩, ⟨[','], false, none, some ['\\', 's', '\\', 't']⟩, ⟨['y', 'o', 'u'], true, none, none⟩,
        ⟨['!'], false, none, some ['\\', 'n']⟩] ∧ join [' '] (wsSplit exText) = ['H', 'i', ',', ' ', 'y', 'o', 'u', '!'] := by
  refine ⟨by decide, by decide +kernel, by decide⟩

/-! ## C85: keep_spaces -/

/-- Reading the white space back, as UDPipe does. -/
def unescWs : Str → Str
  | '\\' :: 's' :: s => ' ' :: unescWs s
  | '\\' :: 't' :: s => '\t' :: unescWs s
  | '\\' :: 'r' :: s => '\r' :: unescWs s
  | '\\' :: 'n' :: s => '\n' :: unescWs s
  | c :: s => c :: unescWs s
  | [] => []

/-- The text a list of nodes stands for. -/
def rebuild (ns : List New) : Str :=
  (ns.head?.bind New.before).elim [] unescWs ++
    ns.flatMap (fun n => n.form ++ (if n.no then [] else n.after.elim [' '] unescWs))

theorem unesc_cons {c : Char} (h : c ≠ '\\') (s : Str) : unescWs (c :: s) = c :: unescWs s := by
  conv => lhs; unfold unescWs
  split <;> simp_all

theorem unesc_esc {s : Str} (h : ∀ c ∈ s, isWs c = true) : unescWs (escWs s) = s := by
  induction s with
  | nil => rfl
  | cons c s ih =>
    have ih := ih (fun d hd => h d (List.mem_cons_of_mem _ hd))
    have hc := h c (List.mem_cons_self ..)
    have step : escWs (c :: s) = (if c = ' ' then ['\\', 's'] else if c = '\t' then ['\\', 't'] else if c = '\r' then ['\\', 'r'] else if c = '\n' then ['\\', 'n'] else [c]) ++ escWs s := rfl
    rw [step]
    split
    · next e => subst e; show ' ' :: unescWs (escWs s) = _; rw [ih]
    · split
      · next e => subst e; show '\t' :: unescWs (escWs s) = _; rw [ih]
      · split
        · next e => subst e; show '\r' :: unescWs (escWs s) = _; rw [ih]
        · split
          · next e => subst e; show '\n' :: unescWs (escWs s) = _; rw [ih]
          · show unescWs (c :: escWs s) = _
            rw [unesc_cons (fun e => by rw [e] at hc; revert hc; decide), ih]

theorem tokLoop_rebuild {ts : List Str} {s : Str} (h : Cover ts s) : ∀ (first : Bool) (before : Str),
    ∃ ns, tokLoop true first before s ts = some ns ∧
      (ns.flatMap (fun n => n.form ++ (if n.no then [] else n.after.elim [' '] unescWs))) = s ∧
      (ts ≠ [] → ns.head?.bind New.before = if first = true ∧ before ≠ [] then some (escWs before) else none) := by
  induction h with
  | nil => intro first before; exact ⟨[], rfl, rfl, fun h => absurd rfl h⟩
  | @cons t g s ts h1 h2 h3 h4 h5 ih =>
    intro first before
    obtain ⟨ns, e1, e2, _⟩ := ih false before
    unfold tokLoop
    rw [if_pos (by rw [List.isPrefixOf_iff_prefix]; exact List.prefix_append _ _), List.drop_left]
    simp only [if_true]
    rw [(takeWhile_ws h3 h4).1, (takeWhile_ws h3 h4).2, e1]
    refine ⟨_, rfl, ?_, ?_⟩
    · simp only [List.flatMap_cons, e2]
      by_cases hg : g = []
      · subst hg; simp
      · by_cases hg1 : g = [' ']
        · subst hg1
          simp [Option.elim]
        · simp [hg, hg1, Option.elim, unesc_esc h3]
    · intro _
      simp only [List.head?_cons, Option.bind_some]
      cases first <;> by_cases hb : before = [] <;> simp [hb]

theorem rebuild_text {tokenizer : Str → List Str} {text : Str} (h : Cover (tokenizer text) (lstrip text)) (hb : lstrip text ≠ []) :
    ∃ ns, tokenizeTree true tokenizer text = some ns ∧ rebuild ns = text := by
  obtain ⟨ns, e1, e2, e3⟩ := tokLoop_rebuild h true (text.takeWhile isWs)
  refine ⟨ns, e1, ?_⟩
  unfold rebuild
  have hne : tokenizer text ≠ [] := by
    intro h0
    rw [h0] at h
    generalize lstrip text = s at h hb
    cases h
    exact hb rfl
  rw [e2, e3 hne]
  conv => rhs; rw [lstrip_split text]
  congr 1
  by_cases hw : text.takeWhile isWs = []
  · rw [hw]; rfl
  · rw [if_pos ⟨rfl, hw⟩]
    exact unesc_esc (fun c hc => mem_takeWhile_ws hc)

/-- C85, the part that holds: with `keep_spaces` the forms and MISC attributes determine every text that is not only white space.
What is missing: texts of white space only. -/
theorem C85_kept_partial {text : Str} (hb : ∃ c ∈ text, isWs c = false) :
    (∃ ns, tokenizeTree true wsSplit text = some ns ∧ rebuild ns = text) ∧
    (∀ isW : Char → Bool, (∀ c, isWs c = true → isW c = false) → ∃ ns, tokenizeTree true (simpleTok isW) text = some ns ∧ rebuild ns = text) := by
  have hl : lstrip text ≠ [] := by
    intro h
    obtain ⟨c, hc, hw⟩ := hb
    have e := lstrip_split text
    rw [h, List.append_nil] at e
    rw [e] at hc
    rw [mem_takeWhile_ws hc] at hw
    cases hw
  constructor
  · apply rebuild_text _ hl
    rw [← sameWords_lstrip]
    exact cover_split _ _ (Nat.le_refl _) (startsWs_lstrip text)
  · intro isW hW
    apply rebuild_text _ hl
    rw [← simpleTok_lstrip hW]
    exact cover_simple hW _ _ (Nat.le_refl _) (startsWs_lstrip text)

example : ∃ ns, tokenizeTree true wsSplit exText = some ns ∧ rebuild ns = exText :=
  (C85_kept_partial ⟨'H', by decide, by decide⟩).1

/-- C85 does not hold for white space only: all these texts give the same tree, the empty one. -/
theorem C85_blank_violated {text : Str} (h : ∀ c ∈ text, isWs c = true) (keep : Bool) : tokenizeTree keep wsSplit text = some [] := by
  have : wsSplit text = [] := by
    unfold wsSplit
    rw [SameWords.end' h]
    rfl
  unfold tokenizeTree
  rw [this]
  rfl

example : tokenizeTree true wsSplit [' ', '\t'] = some [] ∧ tokenizeTree true wsSplit ['\n'] = some [] := by decide

end Verif.Text
