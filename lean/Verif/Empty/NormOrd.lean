import Verif.Py.Num
import Verif.Py.Str

/-!
# Property C153: util.Normalize with `empty_node_ord` (udapi/block/util/normalize.py)

The nodes of a tree are given by their ords, in the order of `tree.descendants_and_empty`: integers for words, floats or `OrdTuple`s for
empty nodes. A float is kept as its integer part and its decimal digits without zeros at the end; this is exact as long as the digits are
few enough for a Python float. The enhanced dependencies (which are only parsed here) are left out.
-/

namespace Verif.Empty.NormOrd
open Verif.Py

inductive Ord where
  | int (k : Nat)
  | float (n : Nat) (ds : Str)
  | tuple (n m : Nat)
  deriving DecidableEq, Repr

/-- `str(node.ord)` -/
def Ord.str : Ord → Str
  | .int k => natStr k
  | .float n ds => natStr n ++ '.' :: (if ds = [] then ['0'] else ds)
  | .tuple n m => natStr n ++ '.' :: natStr m

/-- `float(f"{n}.{j}")` -/
def toFloat (n j : Nat) : Ord := .float n ((natStr j).reverse.dropWhile (fun c => c == '0')).reverse

/-- The loop over `tree.descendants_and_empty` (normalize.py:74-87) -/
def renum : Nat → Nat → List Ord → List Ord
  | _, _, [] => []
  | _, _, .int k :: l => .int k :: renum k 0 l
  | n, j, o :: l =>
    (if o.str ≠ natStr n ++ '.' :: natStr (j + 1) then toFloat n (j + 1) else o) :: renum n (j + 1) l

/-- `process_tree(tree)` with `empty_node_ord` -/
def normOrd (l : List Ord) : List Ord := renum 0 0 l

/-! ## What the properties say -/

def Ord.IsWord : Ord → Prop
  | .int _ => True
  | _ => False

/-- The ord of the `j`-th empty node after the word `n`. -/
def nth (n j : Nat) : Ord := if j < 10 then .float n (natStr j) else .tuple n j

/-- The empty nodes after each word have the numbers 1, 2, 3 and so on; `n` is the last word, followed by `j` empty nodes. -/
inductive Canon : Nat → Nat → List Ord → Prop
  | nil (n j : Nat) : Canon n j []
  | word (n j k : Nat) (l : List Ord) : Canon k 0 l → Canon n j (.int k :: l)
  | empty (n j : Nat) (l : List Ord) : Canon n (j + 1) l → Canon n j (nth n (j + 1) :: l)

/-- No word is followed by ten empty nodes; there are `j` of them before the list. -/
inductive AtMost9 : Nat → List Ord → Prop
  | nil (j : Nat) : AtMost9 j []
  | word (j k : Nat) (l : List Ord) : AtMost9 0 l → AtMost9 j (.int k :: l)
  | empty (j : Nat) (o : Ord) (l : List Ord) : ¬ o.IsWord → j < 9 → AtMost9 (j + 1) l → AtMost9 j (o :: l)

/-! ## Proofs -/

theorem natStr_digit {j : Nat} (h : 1 ≤ j) (h' : j < 10) : ((natStr j).reverse.dropWhile (fun c => c == '0')).reverse = natStr j := by
  have : j = 1 ∨ j = 2 ∨ j = 3 ∨ j = 4 ∨ j = 5 ∨ j = 6 ∨ j = 7 ∨ j = 8 ∨ j = 9 := by omega
  rcases this with rfl | rfl | rfl | rfl | rfl | rfl | rfl | rfl | rfl <;> decide +kernel

theorem toFloat_nth {n j : Nat} (h : 1 ≤ j) (h' : j < 10) : toFloat n j = nth n j := by
  rw [toFloat, nth, if_pos h', natStr_digit h h']

theorem str_nth (n j : Nat) : (nth n j).str = natStr n ++ '.' :: natStr j := by
  unfold nth
  split
  · rw [Ord.str, if_neg (natStr_ne_nil j)]
  · rfl

theorem renum_empty {n j : Nat} {o : Ord} {l : List Ord} (ho : ¬ o.IsWord) : renum n j (o :: l) =
    (if o.str ≠ natStr n ++ '.' :: natStr (j + 1) then toFloat n (j + 1) else o) :: renum n (j + 1) l := by
  cases o with
  | int k => exact absurd trivial ho
  | float a b => rw [renum]; intro k h; cases h
  | tuple a b => rw [renum]; intro k h; cases h

theorem nth_word (n j : Nat) : ¬ (nth n j).IsWord := by
  unfold nth
  split <;> exact fun h => h

/-- **C153 (unchanged).** If the empty nodes are numbered already, no matter how many, nothing changes. -/
theorem C153_fixed {l : List Ord} (h : Canon 0 0 l) : normOrd l = l := by
  unfold normOrd
  have : ∀ n j l, Canon n j l → renum n j l = l := by
    intro n j l h
    induction h with
    | nil => rfl
    | word n j k l _ ih => rw [renum, ih]
    | empty n j l _ ih =>
      rw [renum_empty (nth_word _ _), ih, if_neg]
      rw [str_nth]
      simp
  exact this 0 0 l h

theorem digits_eq {a b c d : Str} (h : a ++ '.' :: b = c ++ '.' :: d) (ha : '.' ∉ a) (hc : '.' ∉ c) : a = c ∧ b = d := by
  induction a generalizing c with
  | nil =>
    cases c with
    | nil => simp at h; exact ⟨rfl, h⟩
    | cons x c =>
      simp only [List.nil_append, List.cons_append, List.cons.injEq] at h
      exact absurd (by rw [← h.1]; simp) hc
  | cons x a ih =>
    cases c with
    | nil =>
      simp only [List.nil_append, List.cons_append, List.cons.injEq] at h
      exact absurd (by rw [h.1]; simp) ha
    | cons y c =>
      simp only [List.cons_append, List.cons.injEq] at h
      obtain ⟨e1, e2⟩ := ih h.2 (fun k => ha (List.mem_cons_of_mem _ k)) (fun k => hc (List.mem_cons_of_mem _ k))
      exact ⟨by rw [h.1, e1], e2⟩

/-- The ords that occur: the digits of a float are those of a number, the second part of a tuple is at least 10. -/
def Ord.Ok : Ord → Prop
  | .int _ => True
  | .float _ ds => ds ≠ []
  | .tuple _ m => 10 ≤ m

theorem nodot (n : Nat) : '.' ∉ natStr n := not_mem_natStr (by decide) n

theorem str_ok {o : Ord} (ho : ¬ o.IsWord) (hok : o.Ok) {n j : Nat} (hj : 1 ≤ j) (hj' : j < 10) (h : o.str = natStr n ++ '.' :: natStr j) :
    o = nth n j := by
  unfold nth
  rw [if_pos hj']
  cases o with
  | int k => exact absurd trivial ho
  | float a ds =>
    rw [Ord.str, if_neg hok] at h
    obtain ⟨e1, e2⟩ := digits_eq h (nodot _) (nodot _)
    rw [natStr_inj e1, e2]
  | tuple a m =>
    rw [Ord.str] at h
    obtain ⟨_, e2⟩ := digits_eq h (nodot _) (nodot _)
    have := natStr_inj e2
    have hm : 10 ≤ m := hok
    omega

/-- **C153 (at most nine).** If no word is followed by ten or more empty nodes, then afterwards the empty nodes after each word have
the numbers 1, 2, 3 and so on, and the words stay. A second run changes nothing. -/
theorem C153_result_partial {l : List Ord} (hok : ∀ o ∈ l, o.Ok) (h9 : AtMost9 0 l) :
    Canon 0 0 (normOrd l) ∧ (normOrd l).length = l.length ∧
    (∀ (i k : Nat), l[i]? = some (.int k) ↔ (normOrd l)[i]? = some (.int k)) ∧ normOrd (normOrd l) = normOrd l := by
  have key : ∀ (l : List Ord) (n j : Nat), (∀ o ∈ l, o.Ok) → AtMost9 j l → Canon n j (renum n j l) ∧ (renum n j l).length = l.length ∧
      ∀ (i k : Nat), l[i]? = some (.int k) ↔ (renum n j l)[i]? = some (.int k) := by
    intro l
    induction l with
    | nil => intro n j _ _; exact ⟨.nil _ _, rfl, fun i k => by simp [renum]⟩
    | cons o l ih =>
      intro n j hok h
      have hok' : ∀ o ∈ l, o.Ok := fun x hx => hok x (List.mem_cons_of_mem _ hx)
      cases h with
      | word _ k _ h =>
        obtain ⟨h1, h2, h3⟩ := ih k 0 hok' h
        rw [renum]
        refine ⟨.word _ _ _ _ h1, by simp [h2], ?_⟩
        intro i k'
        cases i with
        | zero => simp
        | succ i => simpa using h3 i k'
      | empty _ _ _ ho hj h =>
        obtain ⟨h1, h2, h3⟩ := ih n (j + 1) hok' h
        rw [renum_empty ho]
        have e : (if o.str ≠ natStr n ++ '.' :: natStr (j + 1) then toFloat n (j + 1) else o) = nth n (j + 1) := by
          split
          · exact toFloat_nth (by omega) (by omega)
          · rename_i hs
            exact str_ok ho (hok o List.mem_cons_self) (by omega) (by omega) (Classical.not_not.1 hs)
        rw [e]
        refine ⟨.empty _ _ _ h1, by simp [h2], ?_⟩
        intro i k'
        cases i with
        | zero =>
          simp only [List.getElem?_cons_zero, Option.some.injEq]
          constructor
          · rintro rfl; exact absurd trivial ho
          · intro h; exact absurd (by rw [h]; trivial) (nth_word n (j + 1))
        | succ i => simpa using h3 i k'
  obtain ⟨h1, h2, h3⟩ := key l 0 0 hok h9
  exact ⟨h1, h2, h3, C153_fixed h1⟩

/-- **C153 violated (ten).** If ten empty nodes follow the word `n` and the ord of the tenth is not `n.10` already, then it gets the same
ord as the first one. -/
theorem C153_tenth_violated {A B : List Ord} {n : Nat} {es : List Ord} {o : Ord} (hes : ∀ e ∈ es, ¬ e.IsWord ∧ e.Ok) (hlen : es.length = 9)
    (ho : ¬ o.IsWord) (hs : o.str ≠ natStr n ++ '.' :: ['1', '0']) :
    ∃ A' es' B', normOrd (A ++ .int n :: es ++ o :: B) = A' ++ .int n :: es' ++ .float n ['1'] :: B' ∧ es'.length = 9 ∧ es'.head? = some (.float n ['1']) := by
  have pre : ∀ (A l : List Ord) (a b : Nat), ∃ A', renum a b (A ++ .int n :: l) = A' ++ .int n :: renum n 0 l := by
    intro A
    induction A with
    | nil => intro l a b; exact ⟨[], by rw [List.nil_append, renum]; rfl⟩
    | cons x A ih =>
      intro l a b
      rw [List.cons_append]
      by_cases hx : x.IsWord
      · cases x with
        | int k => obtain ⟨A', e⟩ := ih l k 0; exact ⟨.int k :: A', by rw [renum, e]; rfl⟩
        | float _ _ => exact absurd hx (fun h => h)
        | tuple _ _ => exact absurd hx (fun h => h)
      · obtain ⟨A', e⟩ := ih l a (b + 1)
        exact ⟨_ :: A', by rw [renum_empty hx, e]; rfl⟩
  have mid : ∀ (es l : List Ord) (j : Nat), (∀ e ∈ es, ¬ e.IsWord) → ∃ es', renum n j (es ++ l) = es' ++ renum n (j + es.length) l ∧ es'.length = es.length := by
    intro es
    induction es with
    | nil => intro l j _; exact ⟨[], by simp, rfl⟩
    | cons x es ih =>
      intro l j h
      obtain ⟨es', e, hl⟩ := ih l (j + 1) (fun y hy => h y (List.mem_cons_of_mem _ hy))
      refine ⟨(if x.str ≠ natStr n ++ '.' :: natStr (j + 1) then toFloat n (j + 1) else x) :: es', ?_, by simp [hl]⟩
      rw [List.cons_append, renum_empty (h x List.mem_cons_self), e, List.length_cons, show j + 1 + es.length = j + (es.length + 1) by omega]
      rfl
  unfold normOrd
  rw [List.append_assoc, List.cons_append]
  obtain ⟨A', e1⟩ := pre A (es ++ o :: B) 0 0
  obtain ⟨x, es, rfl⟩ := List.exists_cons_of_ne_nil (l := es) (by intro e; rw [e] at hlen; cases hlen)
  simp only [List.length_cons] at hlen
  have hlen' : es.length = 8 := by omega
  obtain ⟨es', e2, hl⟩ := mid es (o :: B) 1 (fun e he => (hes e (List.mem_cons_of_mem _ he)).1)
  obtain ⟨hx1, hx2⟩ := hes x List.mem_cons_self
  have e3 : (if x.str ≠ natStr n ++ '.' :: natStr (0 + 1) then toFloat n (0 + 1) else x) = nth n 1 := by
    split
    · exact toFloat_nth (by omega) (by omega)
    · rename_i h
      exact str_ok hx1 hx2 (by omega) (by omega) (Classical.not_not.1 h)
  refine ⟨A', nth n 1 :: es', renum n 10 B, ?_, by simp [hl, hlen'], ?_⟩
  · rw [e1, List.cons_append, renum_empty hx1, e3, e2, hlen', renum_empty ho]
    have e4 : natStr (1 + 8 + 1) = ['1', '0'] := by decide +kernel
    rw [e4, if_pos hs]
    have e5 : toFloat n (1 + 8 + 1) = .float n ['1'] := by
      have : ((natStr (1 + 8 + 1)).reverse.dropWhile (fun c => c == '0')).reverse = ['1'] := by decide +kernel
      rw [toFloat, this]
    rw [e5]
    simp
  · have : nth n 1 = .float n ['1'] := by
      have h : natStr 1 = ['1'] := by decide +kernel
      rw [nth, if_pos (by omega), h]
    rw [this]; rfl

/-- Empty nodes 0.2, 1.2, 1.5 become 0.1, 1.1, 1.2. -/
example : normOrd [.float 0 ['2'], .int 1, .float 1 ['2'], .float 1 ['5'], .int 2] =
    [.float 0 ['1'], .int 1, .float 1 ['1'], .float 1 ['2'], .int 2] := by decide +kernel
example : AtMost9 0 [.float 0 ['2'], .int 1, .float 1 ['2'], .float 1 ['5'], .int 2] :=
  .empty _ _ _ (fun h => h) (by decide) (.word _ _ _ (.empty _ _ _ (fun h => h) (by decide) (.empty _ _ _ (fun h => h) (by decide)
    (.word _ _ _ (.nil _)))))

end Verif.Empty.NormOrd
