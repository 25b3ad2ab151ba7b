import Verif.Py.Num

/-!
# Parsing the command line of a scenario (udapi/core/run.py:8-67)
-/

namespace Verif.Run
open Verif.Py

/-- The value of a parameter: `int` or `str`. -/
inductive Val
  | int (n : Nat)
  | str (s : Str)
  deriving DecidableEq

/-- A dict of parameters in insertion order. -/
abbrev Args := List (Str × Val)

/-- `d[k] = v` -/
def setArg (k : Str) (v : Val) : Args → Args
  | [] => [(k, v)]
  | (k', v') :: d => if k' = k then (k, v) :: d else (k', v') :: setArg k v d

/-- `d.get(k)` -/
def getArg (k : Str) : Args → Option Val
  | [] => none
  | (k', v) :: d => if k' = k then some v else getArg k d

/-- `if attribute_value.isdigit(): attribute_value = int(attribute_value)` (run.py:63-64).
Simplified: only ASCII digits; Python's `isdigit` also accepts other digits, on some of which (e.g. superscripts) `int`
fails. -/
def toVal (s : Str) : Val :=
  match parseNat s with
  | some n => .int n
  | none => .str s

/-- The value of the parameter word (run.py:57 and 63-64). -/
def paramName (w : Str) : Str := (splitOnce '=' w).1
def paramVal (w : Str) : Val := toVal ((splitOnce '=' w).2.getD [])

/-- `block_args[-1][name] = value` -/
def setLast (k : Str) (v : Val) : List Args → List Args
  | [] => []
  | [d] => [setArg k v d]
  | d :: ds => d :: setLast k v ds

/-- `_parse_command_line_arguments` (run.py:27-67): the loop over the words, with `block_names` and `block_args` so far.
`none` is the `RuntimeError`. -/
def parseArgs : List Str → List Args → List Str → Option (List Str × List Args)
  | names, args, [] => some (names, args)
  | names, args, w :: ws =>
    if '=' ∉ w then parseArgs (names ++ [w]) (args ++ [[]]) ws
    else if names.length = 0 then none
    else parseArgs names (setLast (paramName w) (paramVal w) args) ws

def parseCommandLine (ws : List Str) : Option (List Str × List Args) := parseArgs [] [] ws

/-- `_parse_block_name` (run.py:8-24): path and class name. -/
def parseBlockName (name : Str) : Str × Str :=
  let names := split '.' name
  if names.length = 1 then ([], name) else (join ['.'] names.dropLast, names.getLast?.getD [])

/-! ## Specification -/

/-- A scenario as the user means it: blocks, each with its parameters `(name, raw value)` in order. -/
structure Step where
  block : Str
  params : List (Str × Str)

/-- The words of the scenario. -/
def Step.words (s : Step) : List Str := s.block :: s.params.map (fun p => p.1 ++ '=' :: p.2)

/-- The last value given for a parameter. -/
def Step.last (s : Step) (k : Str) : Option Str := ((s.params.filter (fun p => p.1 = k)).getLast?).map (·.2)

/-- Block names and parameter names contain no `=`. -/
def Step.Ok (s : Step) : Prop := '=' ∉ s.block ∧ ∀ p ∈ s.params, '=' ∉ p.1

/-- The number written by a string of decimal digits, most significant first. -/
def decimal : Str → Nat := List.foldl (fun n c => 10 * n + (c.toNat - 48)) 0

/-- How a raw value is to be understood. -/
def IsValue (raw : Str) : Val → Prop
  | .int n => raw ≠ [] ∧ (∀ c ∈ raw, 48 ≤ c.toNat ∧ c.toNat ≤ 57) ∧ n = decimal raw
  | .str s => s = raw ∧ (raw = [] ∨ ∃ c ∈ raw, ¬ (48 ≤ c.toNat ∧ c.toNat ≤ 57))

/-! ## Proofs -/

theorem getArg_setArg (k k' : Str) (v : Val) (d : Args) :
    getArg k' (setArg k v d) = if k' = k then some v else getArg k' d := by
  induction d with
  | nil =>
    unfold setArg getArg
    by_cases h : k' = k
    · subst h; simp
    · rw [if_neg (fun e => h e.symm), if_neg h]; rfl
  | cons p d ih =>
    obtain ⟨a, b⟩ := p
    unfold setArg
    by_cases ha : a = k
    · subst ha
      rw [if_pos rfl]
      unfold getArg
      by_cases h : k' = a
      · subst h; simp
      · rw [if_neg (fun e => h e.symm), if_neg h, if_neg (fun e => h e.symm)]
    · rw [if_neg ha]
      show (if a = k' then some b else getArg k' (setArg k v d)) = _
      rw [ih]
      by_cases h : a = k'
      · subst h; rw [if_pos rfl, if_neg ha]
        show _ = if a = a then some b else _
        rw [if_pos rfl]
      · rw [if_neg h]
        show _ = if k' = k then some v else (if a = k' then some b else getArg k' d)
        rw [if_neg h]

theorem setLast_snoc (k : Str) (v : Val) (ds : List Args) (d : Args) :
    setLast k v (ds ++ [d]) = ds ++ [setArg k v d] := by
  induction ds with
  | nil => rfl
  | cons a ds ih =>
    cases ds with
    | nil => rfl
    | cons b ds => show a :: setLast k v (b :: ds ++ [d]) = _; rw [ih]; rfl

theorem word_eq {n : Str} (h : '=' ∉ n) (raw : Str) : '=' ∈ n ++ '=' :: raw ∧ paramName (n ++ '=' :: raw) = n ∧
    paramVal (n ++ '=' :: raw) = toVal raw := by
  have := splitOnce_append h raw
  refine ⟨by simp, ?_, ?_⟩
  · unfold paramName; rw [this]
  · unfold paramVal; rw [this]; rfl

/-- Parameters of one block. -/
def setAll (ps : List (Str × Str)) (d : Args) : Args := ps.foldl (fun d p => setArg p.1 (toVal p.2) d) d

theorem parse_params : ∀ (ps : List (Str × Str)) (names : List Str) (args : List Args) (d : Args) (rest : List Str),
    (∀ p ∈ ps, '=' ∉ p.1) → names ≠ [] →
    parseArgs names (args ++ [d]) (ps.map (fun p => p.1 ++ '=' :: p.2) ++ rest) =
      parseArgs names (args ++ [setAll ps d]) rest := by
  intro ps
  induction ps with
  | nil => intro names args d rest _ _; rfl
  | cons p ps ih =>
    intro names args d rest hp hn
    obtain ⟨h1, h2, h3⟩ := word_eq (hp p (List.mem_cons_self ..)) p.2
    show parseArgs names (args ++ [d]) ((p.1 ++ '=' :: p.2) :: (ps.map _ ++ rest)) = _
    have step : parseArgs names (args ++ [d]) ((p.1 ++ '=' :: p.2) :: (ps.map (fun p => p.1 ++ '=' :: p.2) ++ rest)) =
        parseArgs names (args ++ [setArg p.1 (toVal p.2) d]) (ps.map (fun p => p.1 ++ '=' :: p.2) ++ rest) := by
      conv => lhs; unfold parseArgs
      rw [if_neg (by simp), if_neg (by simp [hn]), h2, h3, setLast_snoc]
    rw [step]
    exact ih names args _ rest (fun q hq => hp q (List.mem_cons_of_mem _ hq)) hn

theorem parse_steps : ∀ (ss : List Step) (names : List Str) (args : List Args), (∀ s ∈ ss, s.Ok) →
    parseArgs names args (ss.flatMap Step.words) =
      some (names ++ ss.map (·.block), args ++ ss.map (fun s => setAll s.params [])) := by
  intro ss
  induction ss with
  | nil => intro names args _; simp [parseArgs]
  | cons s ss ih =>
    intro names args h
    obtain ⟨h1, h2⟩ := h s (List.mem_cons_self ..)
    show parseArgs names args (s.block :: (s.params.map _ ++ ss.flatMap Step.words)) = _
    unfold parseArgs
    rw [if_pos h1, parse_params s.params _ _ _ _ h2 (by simp), ih _ _ (fun t ht => h t (List.mem_cons_of_mem _ ht))]
    simp

theorem getArg_setAll (k : Str) : ∀ (ps : List (Str × Str)) (d : Args),
    getArg k (setAll ps d) = match ((ps.filter (fun p => p.1 = k)).getLast?) with
      | some p => some (toVal p.2)
      | none => getArg k d := by
  intro ps
  induction ps with
  | nil => intro d; rfl
  | cons p ps ih =>
    intro d
    show getArg k (setAll ps (setArg p.1 (toVal p.2) d)) = _
    rw [ih]
    by_cases h : p.1 = k
    · rw [List.filter_cons_of_pos (by simpa using h)]
      cases hf : ps.filter (fun p => p.1 = k) with
      | nil => simp [getArg_setArg, h]
      | cons a as => simp [List.getLast?_cons]
    · rw [List.filter_cons_of_neg (by simpa using h)]
      cases hf : ps.filter (fun p => p.1 = k) with
      | nil => simp [getArg_setArg]; intro e; exact absurd e.symm h
      | cons a as => simp [List.getLast?_cons]

theorem parseDigits_isSome (s : Str) : ∀ acc, (∀ c ∈ s, 48 ≤ c.toNat ∧ c.toNat ≤ 57) →
    parseDigits acc s = some (s.foldl (fun n c => 10 * n + (c.toNat - 48)) acc) := by
  induction s with
  | nil => intro acc _; rfl
  | cons c s ih =>
    intro acc h
    have hc := h c (List.mem_cons_self ..)
    unfold parseDigits
    have : digitVal c = some (c.toNat - 48) := by
      unfold digitVal
      rw [if_pos hc]
    rw [this]
    show parseDigits (acc * 10 + (c.toNat - 48)) s = _
    rw [ih _ (fun d hd => h d (List.mem_cons_of_mem _ hd)), Nat.mul_comm]
    rfl

theorem toVal_spec (raw : Str) : IsValue raw (toVal raw) := by
  unfold toVal parseNat
  by_cases h0 : raw = []
  · rw [if_pos h0]; exact ⟨rfl, Or.inl h0⟩
  · rw [if_neg h0]
    by_cases hd : ∀ c ∈ raw, 48 ≤ c.toNat ∧ c.toNat ≤ 57
    · rw [parseDigits_isSome raw 0 hd]
      exact ⟨h0, hd, rfl⟩
    · cases hp : parseDigits 0 raw with
      | some n => exact absurd (fun c hc => parseDigits_digits hp c hc) hd
      | none =>
        refine ⟨rfl, Or.inr ?_⟩
        exact Classical.byContradiction fun hc => hd fun c hc' => Classical.byContradiction fun h => hc ⟨c, hc', h⟩

/-- C42: the words of a scenario are parsed into the blocks in order, each with its own parameters; the last value given
for a parameter counts, and it is a number exactly if it consists of decimal digits. -/
theorem C42_faithful (ss : List Step) (h : ∀ s ∈ ss, s.Ok) :
    ∃ names args, parseCommandLine (ss.flatMap Step.words) = some (names, args) ∧
      names = ss.map (·.block) ∧ args.length = ss.length ∧
      ∀ (i : Nat) (s : Step) (d : Args), ss[i]? = some s → args[i]? = some d → ∀ k,
        (s.last k = none → getArg k d = none) ∧
        ∀ raw, s.last k = some raw → ∃ v, getArg k d = some v ∧ IsValue raw v := by
  refine ⟨_, _, parse_steps ss [] [] h, by simp, by simp, ?_⟩
  intro i s d hs hd k
  rw [List.nil_append, List.getElem?_map, hs] at hd
  have hd := Option.some.inj hd
  subst hd
  rw [getArg_setAll]
  unfold Step.last
  cases hl : (s.params.filter (fun p => p.1 = k)).getLast? with
  | none => simp [getArg]
  | some p =>
    refine ⟨by simp, ?_⟩
    intro raw hr
    have hr : p.2 = raw := Option.some.inj hr
    subst hr
    exact ⟨_, rfl, toVal_spec p.2⟩

/-- C42: every list of words is the list of words of a scenario, or starts with a parameter, and exactly in the latter
case it is rejected. -/
theorem C42_all_lists (ws : List Str) :
    (∃ ss : List Step, (∀ s ∈ ss, s.Ok) ∧ ws = ss.flatMap Step.words ∧ parseCommandLine ws ≠ none) ∨
    (∃ w rest, ws = w :: rest ∧ '=' ∈ w ∧ parseCommandLine ws = none) := by
  have key : ∀ (n : Nat) (ws : List Str), ws.length ≤ n → (∀ w, ws.head? = some w → '=' ∉ w) →
      ∃ ss : List Step, (∀ s ∈ ss, s.Ok) ∧ ws = ss.flatMap Step.words := by
    intro n
    induction n with
    | zero =>
      intro ws h _
      have : ws = [] := by cases ws with | nil => rfl | cons _ _ => simp at h
      subst this
      exact ⟨[], by simp, rfl⟩
    | succ n ih =>
      intro ws hl hh
      cases ws with
      | nil => exact ⟨[], by simp, rfl⟩
      | cons w rest =>
        have hw := hh w rfl
        have e := List.takeWhile_append_dropWhile (p := fun v : Str => decide ('=' ∈ v)) (l := rest)
        obtain ⟨ss, h1, h2⟩ := ih (rest.dropWhile (fun v => '=' ∈ v)) (by
            have := (List.dropWhile_sublist (l := rest) (fun v : Str => decide ('=' ∈ v))).length_le
            simp at hl; omega) (by
            intro v hv
            have := List.head?_dropWhile_not (fun v : Str => decide ('=' ∈ v)) rest
            rw [hv] at this
            simpa using this)
        have hps : ∀ p ∈ rest.takeWhile (fun v => decide ('=' ∈ v)), '=' ∈ p := by
          intro p hp
          have := List.all_takeWhile (l := rest) (p := fun v : Str => decide ('=' ∈ v))
          rw [List.all_eq_true] at this
          simpa using this p hp
        refine ⟨⟨w, (rest.takeWhile (fun v => '=' ∈ v)).map (fun v => ((splitOnce '=' v).1, (splitOnce '=' v).2.getD []))⟩ :: ss,
          ?_, ?_⟩
        · intro s hs
          rcases List.mem_cons.1 hs with rfl | hs
          · refine ⟨hw, ?_⟩
            intro p hp
            obtain ⟨v, _, rfl⟩ := List.mem_map.1 hp
            exact not_mem_splitOnce _ _
          · exact h1 s hs
        · show w :: rest = _
          rw [List.flatMap_cons, ← h2]
          unfold Step.words
          simp only [List.cons_append, List.map_map]
          congr 1
          have : ((rest.takeWhile (fun v => decide ('=' ∈ v))).map ((fun p : Str × Str => p.1 ++ '=' :: p.2) ∘
              fun v => ((splitOnce '=' v).1, (splitOnce '=' v).2.getD []))) =
              rest.takeWhile (fun v => decide ('=' ∈ v)) := by
            conv => rhs; rw [← List.map_id (rest.takeWhile (fun v => decide ('=' ∈ v)))]
            apply List.map_congr_left
            intro v hv
            have hm := hps v hv
            have he := splitOnce_eq '=' v
            cases hs : (splitOnce '=' v).2 with
            | none => exact absurd hm (splitOnce_snd_none hs)
            | some r =>
              rw [hs] at he
              show (splitOnce '=' v).1 ++ '=' :: ((splitOnce '=' v).2.getD []) = v
              rw [hs]
              exact he
          rw [this]
          exact e.symm
  cases ws with
  | nil => exact Or.inl ⟨[], by simp, rfl, by simp [parseCommandLine, parseArgs]⟩
  | cons w rest =>
    by_cases hw : '=' ∈ w
    · refine Or.inr ⟨w, rest, rfl, hw, ?_⟩
      unfold parseCommandLine parseArgs
      rw [if_neg (by simpa using hw)]
      simp
    · left
      obtain ⟨ss, h1, h2⟩ := key (rest.length + 1) (w :: rest) (by simp) (by
        intro v hv; simp at hv; subst hv; exact hw)
      refine ⟨ss, h1, h2, ?_⟩
      rw [h2, parseCommandLine, parse_steps ss [] [] h1]
      simp

/-- C42: a block name is cut at its last dot. -/
theorem C42_block_name (path cls : Str) (hc : '.' ∉ cls) :
    parseBlockName (path ++ '.' :: cls) = (path, cls) ∧ parseBlockName cls = ([], cls) := by
  have h1 : split '.' cls = [cls] := split_of_not_mem hc
  constructor
  · have h2 : split '.' (path ++ '.' :: cls) = split '.' path ++ [cls] := by
      have hj := join_split '.' path
      have hn := not_mem_split '.' path
      have hne := split_ne_nil '.' path
      have : path ++ '.' :: cls = join ['.'] (split '.' path ++ [cls]) := by
        conv => lhs; rw [← hj]
        generalize split '.' path = ps at *
        clear hj hn
        induction ps with
        | nil => exact absurd rfl hne
        | cons a ps ih =>
          cases ps with
          | nil => simp [join]
          | cons b ps =>
            have := ih (by simp)
            simp only [join, List.cons_append, List.append_assoc] at this ⊢
            rw [this]
      rw [this]
      exact split_join (by simp) (by
        intro p hp
        rcases List.mem_append.1 hp with h | h
        · exact hn p h
        · simp at h; subst h; exact hc)
    unfold parseBlockName
    simp only [h2]
    have hne := split_ne_nil '.' path
    have hlen : (split '.' path ++ [cls]).length ≠ 1 := by
      simp; exact hne
    rw [if_neg hlen, List.dropLast_concat, List.getLast?_concat, join_split]
    rfl
  · unfold parseBlockName
    simp [h1]

def demoSteps : List Step :=
  [⟨"read.Conllu".toList, [("files".toList, "a=b".toList), ("max_docs".toList, "12".toList), ("files".toList, "c".toList)]⟩,
   ⟨"write.Conllu".toList, []⟩]

example : (∀ s ∈ demoSteps, s.Ok) ∧
    parseCommandLine (demoSteps.flatMap Step.words) = some (["read.Conllu".toList, "write.Conllu".toList],
      [[("files".toList, .str "c".toList), ("max_docs".toList, .int 12)], []]) := by
  constructor
  · unfold Step.Ok; decide
  · decide

example : parseCommandLine ["x=1".toList, "read.Conllu".toList] = none := by decide

end Verif.Run
