import Verif.Py.Num

/-!
# Property C191: trees in the JSON of write.Html (udapi/block/write/html.py)

`readString` is the reader of strings of JSON, the reference for the statements. The ords of a tree are 0 for the root and 1, 2, ...
for the words. Simplified: the description of the sentence (`desc`, html.py:102-124,149-152) and the surrounding page are left out.
-/

namespace Verif.Write.HtmlJson
open Verif.Py

def replace1 (c : Char) (r : Str) (s : Str) : Str := s.flatMap fun x => if x = c then r else [x]

/-- `_esc` (html.py:163-166) of a string. -/
def esc (s : Str) : Str := replace1 '"' ['\\', '"'] (replace1 '\\' ['\\', '\\'] s)

/-- `_id` (html.py:157-160) of a node with an address, without the quotation marks. -/
def domId (address : Str) : Str := 'n' :: (address.map fun c => if c = '#' then '-' else c).map fun c => if c = '/' then '-' else c

/-- The hint of a node (html.py:142,148), without the closing quotation mark. -/
def hint (lemma_ feats : Str) : Str :=
  ['l', 'e', 'm', 'm', 'a', '='] ++ esc lemma_ ++ ['\\', 'n'] ++ replace1 '|' ['\\', 'n'] (esc feats)

/-- The children of a node in a tree with `n` words (C02). -/
def children (n : Nat) (parent : Nat → Nat) (p : Nat) : List Nat := (List.range' 1 n).filter fun k => parent k == p

/-- `firstson` (html.py:116,138). -/
def firstson (n : Nat) (parent : Nat → Nat) (p : Nat) : Option Nat := (children n parent p).head?

/-- `rbrother` (html.py:139). -/
def rbrother (n : Nat) (parent : Nat → Nat) (k : Nat) : Option Nat := (children n parent (parent k)).find? fun m => decide (k < m)

/-! ## Strings -/

/-- What the character after a backslash stands for in JSON (`\u` is left out). -/
def escaped (c : Char) : Option Char :=
  if c = '"' ∨ c = '\\' ∨ c = '/' then some c
  else if c = 'n' then some '\n'
  else if c = 't' then some '\t'
  else if c = 'r' then some '\r'
  else none

/-- The string up to the closing quotation mark and the rest; `none` if this is not JSON. -/
def readString : Str → Option (Str × Str)
  | [] => none
  | '"' :: r => some ([], r)
  | '\\' :: c :: r => (escaped c).bind fun x => (readString r).map fun y => (x :: y.1, y.2)
  | c :: r => if c.toNat < 32 then none else (readString r).map fun y => (c :: y.1, y.2)

/-- `e` is a part of a string of JSON that is read as `s`. -/
def Reads (e s : Str) : Prop := ∀ r, readString (e ++ r) = (readString r).map fun y => (s ++ y.1, y.2)

theorem reads_nil : Reads [] [] := by
  intro r
  cases h : readString r <;> simp [h]

theorem reads_append {e s e' s' : Str} (h : Reads e s) (h' : Reads e' s') : Reads (e ++ e') (s ++ s') := by
  intro r
  rw [List.append_assoc, h, h']
  cases readString r <;> simp

theorem readString_other {c : Char} (h1 : c ≠ '"') (h2 : c ≠ '\\') (r : Str) :
    readString (c :: r) = if c.toNat < 32 then none else (readString r).map fun y => (c :: y.1, y.2) := by
  rw [readString]
  · exact h1
  · intro d r' hc
    exact absurd hc h2

theorem reads_char {c : Char} (h1 : c ≠ '"') (h2 : c ≠ '\\') (h3 : ¬ c.toNat < 32) : Reads [c] [c] := by
  intro r
  show readString (c :: r) = _
  rw [readString_other h1 h2, if_neg h3]
  rfl

theorem reads_quote : Reads ['\\', '"'] ['"'] := by intro r; rfl
theorem reads_backslash : Reads ['\\', '\\'] ['\\'] := by intro r; rfl
theorem reads_newline : Reads ['\\', 'n'] ['\n'] := by intro r; rfl

def code (c : Char) : Str := if c = '"' then ['\\', '"'] else if c = '\\' then ['\\', '\\'] else [c]

theorem esc_eq (s : Str) : esc s = s.flatMap code := by
  induction s with
  | nil => rfl
  | cons c s ih =>
    have h : esc (c :: s) = esc [c] ++ esc s := by simp [esc, replace1, List.flatMap_append]
    rw [h, ih, List.flatMap_cons]
    congr 1
    by_cases h1 : c = '"'
    · subst h1; decide
    by_cases h2 : c = '\\'
    · subst h2; decide
    simp [esc, replace1, code, h1, h2]

theorem reads_code {c : Char} (h : ¬ c.toNat < 32) : Reads (code c) [c] := by
  unfold code
  split
  · rename_i hc; subst hc; exact reads_quote
  · split
    · rename_i hc; subst hc; exact reads_backslash
    · rename_i h1 h2
      exact reads_char h1 h2 h

theorem reads_esc {s : Str} (h : ∀ c ∈ s, ¬ c.toNat < 32) : Reads (esc s) s := by
  rw [esc_eq]
  induction s with
  | nil => exact reads_nil
  | cons c s ih =>
    rw [List.flatMap_cons]
    exact reads_append (reads_code (h c (by simp))) (ih fun d hd => h d (by simp [hd]))

theorem reads_multiline {s : Str} (h : ∀ c ∈ s, ¬ c.toNat < 32) :
    Reads (replace1 '|' ['\\', 'n'] (esc s)) (s.map fun c => if c = '|' then '\n' else c) := by
  rw [esc_eq]
  induction s with
  | nil => exact reads_nil
  | cons c s ih =>
    have e : replace1 '|' ['\\', 'n'] ((c :: s).flatMap code) = replace1 '|' ['\\', 'n'] (code c) ++ replace1 '|' ['\\', 'n'] (s.flatMap code) := by
      simp [replace1, List.flatMap_append]
    rw [e, List.map_cons]
    refine reads_append (e := replace1 '|' ['\\', 'n'] (code c)) (s := [if c = '|' then '\n' else c]) ?_ (ih fun d hd => h d (by simp [hd]))
    by_cases h0 : c = '|'
    · subst h0
      exact reads_newline
    · by_cases h1 : c = '"'
      · subst h1; exact reads_quote
      by_cases h2 : c = '\\'
      · subst h2; exact reads_backslash
      have : replace1 '|' ['\\', 'n'] (code c) = [c] := by simp [code, h1, h2, replace1, h0]
      rw [this, if_neg h0]
      exact reads_char h1 h2 (h c (by simp))

/-- **C191.** A value of a node is read from the page as it is, whatever quotation marks and backslashes it has, if it has no control
characters. -/
theorem C191_values {s : Str} (h : ∀ c ∈ s, ¬ c.toNat < 32) (rest : Str) : readString (esc s ++ '"' :: rest) = some (s, rest) := by
  rw [reads_esc h]
  show (some ([], rest)).map _ = _
  simp

/-- **C191.** The hint shows the lemma and each feature in a line. -/
theorem C191_hint {l f : Str} (hl : ∀ c ∈ l, ¬ c.toNat < 32) (hf : ∀ c ∈ f, ¬ c.toNat < 32) (rest : Str) :
    readString (hint l f ++ '"' :: rest) =
      some (['l', 'e', 'm', 'm', 'a', '='] ++ l ++ ['\n'] ++ (f.map fun c => if c = '|' then '\n' else c), rest) := by
  have h0 : Reads ['l', 'e', 'm', 'm', 'a', '='] ['l', 'e', 'm', 'm', 'a', '='] := by
    have hc : ∀ c ∈ (['l', 'e', 'm', 'm', 'a', '='] : Str), ¬ c.toNat < 32 := by decide
    exact reads_esc (s := ['l', 'e', 'm', 'm', 'a', '=']) hc
  have := reads_append (reads_append (reads_append h0 (reads_esc hl)) reads_newline) (reads_multiline hf)
  rw [hint, this]
  show (some ([], rest)).map _ = _
  simp

/-- **C191, violated.** With a control character in a value, such as the tabulator in a text, the page is no JSON. -/
theorem C191_control_violated (a b rest : Str) (x : Char) (ha : ∀ c ∈ a, ¬ c.toNat < 32) (hx : x.toNat < 32) :
    readString (esc (a ++ x :: b) ++ '"' :: rest) = none := by
  have e : esc (a ++ x :: b) = esc a ++ code x ++ esc b := by rw [esc_eq, esc_eq, esc_eq]; simp
  have h1 : x ≠ '"' := by rintro rfl; revert hx; decide
  have h2 : x ≠ '\\' := by rintro rfl; revert hx; decide
  have hc : code x = [x] := by simp [code, h1, h2]
  rw [e, hc, List.append_assoc, List.append_assoc, reads_esc ha]
  show Option.map _ (readString (x :: _)) = none
  rw [readString_other h1 h2, if_pos hx]
  rfl

/-- **C191, violated.** Addresses and zones are not escaped: an id with a quotation mark is cut there, and the rest of it is left in
the page. -/
theorem C191_address_violated (a b rest : Str) (ha : ∀ c ∈ a, c ≠ '"' ∧ c ≠ '\\' ∧ ¬ c.toNat < 32) :
    readString (a ++ '"' :: b ++ '"' :: rest) = some (a, b ++ '"' :: rest) := by
  have : Reads a a := by
    induction a with
    | nil => exact reads_nil
    | cons c a ih =>
      obtain ⟨h1, h2, h3⟩ := ha c (by simp)
      exact reads_append (e := [c]) (s := [c]) (reads_char h1 h2 h3) (ih fun d hd => ha d (by simp [hd]))
  rw [List.append_assoc, this]
  show (some ([], _)).map _ = _
  simp

/-- **C191, violated.** A word `</script>` is printed as it is and so ends the script. -/
theorem C191_script_violated (a b : Str) : esc (a ++ ['<', '/', 's', 'c', 'r', 'i', 'p', 't', '>'] ++ b) =
    esc a ++ ['<', '/', 's', 'c', 'r', 'i', 'p', 't', '>'] ++ esc b := by
  simp [esc, replace1, List.flatMap_append]

/-! ## Ids -/

theorem domId_append (a b : Str) : domId (a ++ b) = domId a ++ (domId b).tail := by simp [domId]

theorem domId_digits (n : Nat) : (domId (natStr n)).tail = natStr n := by
  have : ∀ l : Str, (∀ c ∈ l, 48 ≤ c.toNat ∧ c.toNat ≤ 57) → (domId l).tail = l := by
    intro l
    induction l with
    | nil => intro _; rfl
    | cons c l ih =>
      intro h
      have ih := ih fun d hd => h d (by simp [hd])
      have hc := h c (by simp)
      have h1 : c ≠ '#' := by rintro rfl; revert hc; decide
      have h2 : c ≠ '/' := by rintro rfl; revert hc; decide
      simp only [domId, List.tail_cons, List.map_cons, h1, h2, if_false] at ih ⊢
      rw [ih]
  exact this _ (natStr_digits n)

/-- **C191.** The nodes of one tree have different ids, and they have not the id of the root. -/
theorem C191_ids (tree : Str) (m n : Nat) (h : domId (tree ++ '#' :: natStr m) = domId (tree ++ '#' :: natStr n)) : m = n := by
  rw [domId_append, domId_append] at h
  have h := List.append_cancel_left h
  have e : ∀ k, (domId ('#' :: natStr k)).tail = '-' :: natStr k := by
    intro k
    have h1 := domId_append ['#'] (natStr k)
    rw [domId_digits] at h1
    have h2 : domId ('#' :: natStr k) = 'n' :: '-' :: natStr k := h1
    rw [h2]
    rfl
  rw [e, e] at h
  simp only [List.cons.injEq, true_and] at h
  exact natStr_inj h

theorem C191_root_id (tree : Str) (m : Nat) : domId (tree ++ '#' :: natStr m) ≠ domId tree := by
  intro h
  have := congrArg List.length h
  simp [domId] at this

/-- **C191, violated.** A node and the root of another zone can have the same id, as can nodes of different sentences. -/
theorem C191_ids_violated (s z : Str) (n : Nat) : domId (s ++ '#' :: natStr n) = domId (s ++ '/' :: natStr n) ∧
    domId (s ++ '/' :: z ++ '#' :: natStr n) = domId (s ++ '-' :: z ++ '#' :: natStr n) := by
  simp [domId]

/-! ## Links -/

/-- The reference: the nodes that are reached from a node by the links. -/
def follow (next : Nat → Option Nat) : Nat → Option Nat → List Nat
  | 0, _ => []
  | _, none => []
  | fuel + 1, some k => k :: follow next fuel (next k)

theorem follow_sorted : ∀ {cs : List Nat}, cs.Pairwise (· < ·) → ∀ (fuel : Nat) (pre post : List Nat), cs = pre ++ post → post.length ≤ fuel →
    follow (fun k => cs.find? fun m => decide (k < m)) fuel post.head? = post := by
  intro cs hs fuel
  induction fuel with
  | zero =>
    intro pre post _ hl
    have : post = [] := List.length_eq_zero_iff.1 (by omega)
    subst this
    rfl
  | succ fuel ih =>
    intro pre post he hl
    cases post with
    | nil => rfl
    | cons k post =>
      have hfind : cs.find? (fun m => decide (k < m)) = post.head? := by
        rw [he] at hs ⊢
        rw [List.find?_append]
        obtain ⟨h1, h2, h3⟩ := List.pairwise_append.1 hs
        have hpre : pre.find? (fun m => decide (k < m)) = none := by
          rw [List.find?_eq_none]
          intro x hx
          have := h3 x hx k (by simp)
          simp
          omega
        rw [hpre, Option.none_or, List.find?_cons]
        simp only [Nat.lt_irrefl, decide_false]
        cases post with
        | nil => rfl
        | cons j post =>
          have := (List.pairwise_cons.1 h2).1 j (by simp)
          simp [this]
      show k :: follow _ fuel (cs.find? fun m => decide (k < m)) = _
      rw [hfind, ih (pre ++ [k]) post (by simp [he]) (by simp at hl; omega)]

theorem follow_congr {f g : Nat → Option Nat} {P : Nat → Prop} (hfg : ∀ k, P k → f k = g k) (hg : ∀ k m, P k → g k = some m → P m) :
    ∀ (fuel : Nat) (o : Option Nat), (∀ k, o = some k → P k) → follow f fuel o = follow g fuel o := by
  intro fuel
  induction fuel with
  | zero => intro o _; rfl
  | succ fuel ih =>
    intro o ho
    cases o with
    | none => rfl
    | some k =>
      have hk := ho k rfl
      show k :: follow f fuel (f k) = k :: follow g fuel (g k)
      rw [hfg k hk, ih (g k) fun m hm => hg k m hk hm]

/-- **C191.** The links determine the tree: from the first son of a node, the right brothers lead through exactly its children, in their
order. -/
theorem C191_links (n : Nat) (parent : Nat → Nat) (p : Nat) :
    follow (rbrother n parent) n (firstson n parent p) = (List.range' 1 n).filter fun k => parent k == p := by
  have hs : (children n parent p).Pairwise (· < ·) := List.Pairwise.sublist List.filter_sublist List.pairwise_lt_range'
  have hlen : (children n parent p).length ≤ n := by
    have := List.length_filter_le (fun k => parent k == p) (List.range' 1 n)
    simpa [children] using this
  rw [follow_congr (g := fun k => (children n parent p).find? fun m => decide (k < m)) (P := fun k => parent k = p)]
  · exact follow_sorted hs n [] _ rfl hlen
  · intro k hk
    rw [rbrother, hk]
  · intro k m _ hm
    have := List.mem_of_find?_eq_some hm
    simpa using (List.mem_filter.1 this).2
  · intro k hk
    have := List.mem_of_head? hk
    simpa using (List.mem_filter.1 this).2

/-! ## Examples -/

example : esc ['a', '\\', '"'] = ['a', '\\', '\\', '\\', '"'] := by decide
example : hint ['a'] ['b', '|', 'c'] = ['l', 'e', 'm', 'm', 'a', '=', 'a', '\\', 'n', 'b', '\\', 'n', 'c'] := by decide
example : domId ['s', '1', '/', 'e', 'n', '#', '2'] = ['n', 's', '1', '-', 'e', 'n', '-', '2'] := by decide
/-- A tree with the words 1 and 3 below 2 and 4 below the root. -/
example : (List.range' 1 4).map (rbrother 4 fun k => [0, 2, 0, 2, 0].getD k 0) = [some 3, some 4, none, none] ∧
    firstson 4 (fun k => [0, 2, 0, 2, 0].getD k 0) 2 = some 1 := by decide

end Verif.Write.HtmlJson
