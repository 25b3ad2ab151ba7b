import Verif.Py.Num
import Verif.Py.Str

/-!
# Property C154: sentence ids given by util.Normalize (udapi/block/util/normalize.py)

Bundles of one or more documents in the order in which they are processed. `stem` is `Path(bundle.document.meta["loaded_from"]).stem`, and
`newdoc` says whether a tree of the bundle starts a document. `start_sent_id` is not negative. The parameters feats, misc,
empty_node_ord and newdoc_from_filename do not concern the ids.
-/

namespace Verif.Bundle.NormIds
open Verif.Py

structure Opt where
  sentId : Bool
  start : Nat
  pre : Str
  fromFile : Bool
  reset : Bool

structure B where
  newdoc : Bool
  stem : Str
  id : Option Str

/-- `Normalize.__init__` (normalize.py:24-51); `none` is the `ValueError`. -/
def init (o : Opt) : Option Opt :=
  if o.reset = true ∧ ¬ o.fromFile = true then none
  else if o.pre ≠ [] ∨ o.start ≠ 1 ∨ o.fromFile = true then some { o with sentId := true }
  else some o

/-- `process_bundle` (normalize.py:55-67) for all bundles: `next` is `self.next_sent_id`; the ids of the bundles. -/
def run (o : Opt) : Nat → List B → List (Option Str)
  | _, [] => []
  | next, b :: bs =>
    if o.sentId then
      let next := if o.reset = true ∧ b.newdoc = true then 1 else next
      let pre := if o.fromFile then b.stem ++ o.pre else o.pre
      some (pre ++ natStr next) :: run o (next + 1) bs
    else b.id :: run o next bs

/-- The block applied to all bundles; `none` is the `ValueError`. -/
def normIds (o : Opt) (bs : List B) : Option (List (Option Str)) :=
  match init o with
  | none => none
  | some o' => some (run o' o'.start bs)

/-! ## What the properties say -/

/-- The ids of the list are given and pairwise different. -/
def Distinct (ids : List (Option Str)) : Prop :=
  (∀ x ∈ ids, x ≠ none) ∧ ∀ i j : Nat, i < j → j < ids.length → ids[i]? ≠ ids[j]?

/-- The last character is not a digit. -/
def NoDigitEnd (s : Str) : Prop := ∃ a c, s = a ++ [c] ∧ ¬ (48 ≤ c.toNat ∧ c.toNat ≤ 57)

/-! ## Proofs -/

def isDigit (c : Char) : Bool := 48 ≤ c.toNat && c.toNat ≤ 57

theorem takeWhile_app {p : Char → Bool} {a b : Str} (ha : ∀ c ∈ a, p c = true) (hb : ∀ c, b.head? = some c → p c = false) :
    (a ++ b).takeWhile p = a := by
  induction a with
  | nil =>
    cases b with
    | nil => rfl
    | cons c b => simp [hb c rfl]
  | cons c a ih => simp [ha c List.mem_cons_self, ih (fun d hd => ha d (List.mem_cons_of_mem _ hd))]

theorem digits_tail {a b : Str} {m n : Nat} (h : a ++ natStr m = b ++ natStr n) (hab : a = b ∨ NoDigitEnd a ∧ NoDigitEnd b) : m = n ∧ a = b := by
  rcases hab with rfl | ⟨⟨a', c, rfl, hc⟩, b', d, rfl, hd⟩
  · exact ⟨natStr_inj (List.append_cancel_left h), rfl⟩
  · have h' := congrArg List.reverse h
    simp only [List.reverse_append, List.reverse_cons, List.reverse_nil, List.nil_append] at h'
    have dig : ∀ k, ∀ c ∈ (natStr k).reverse, isDigit c = true := fun k c hc => by
      have := natStr_digits k c (List.mem_reverse.1 hc)
      simp [isDigit, this]
    have nd : ∀ (c : Char) (s : Str), ¬ (48 ≤ c.toNat ∧ c.toNat ≤ 57) → ∀ x, ([c] ++ s).head? = some x → isDigit x = false := by
      intro c s hc x hx
      cases hx
      simpa [isDigit] using hc
    have e1 := takeWhile_app (dig m) (nd c a'.reverse hc)
    have e2 := takeWhile_app (dig n) (nd d b'.reverse hd)
    rw [h', e2] at e1
    have hmn := natStr_inj (List.reverse_inj.1 e1)
    subst hmn
    exact ⟨rfl, List.append_cancel_right h⟩

/-- The number given to the bundle at position `i`. -/
def num (o : Opt) : Nat → List B → Nat → Nat
  | next, [], i => next + i
  | next, b :: bs, i =>
    let next := if o.reset = true ∧ b.newdoc = true then 1 else next
    match i with
    | 0 => next
    | i + 1 => num o (next + 1) bs i

def full (o : Opt) (b : B) : Str := if o.fromFile then b.stem ++ o.pre else o.pre

theorem run_get {o : Opt} (ho : o.sentId = true) : ∀ (bs : List B) (next i : Nat),
    (run o next bs)[i]? = (bs[i]?).map (fun b => some (full o b ++ natStr (num o next bs i))) := by
  intro bs
  induction bs with
  | nil => intro next i; simp [run]
  | cons b bs ih =>
    intro next i
    rw [run, if_pos ho]
    cases i with
    | zero => rfl
    | succ i =>
      rw [List.getElem?_cons_succ, ih, List.getElem?_cons_succ]
      rfl

theorem num_plain {o : Opt} (ho : o.reset = false) : ∀ (bs : List B) (next i : Nat), num o next bs i = next + i := by
  intro bs
  induction bs with
  | nil => intro next i; simp [num]
  | cons b bs ih =>
    intro next i
    cases i with
    | zero => simp [num, ho]
    | succ i => simp [num, ho, ih]; omega

/-- The numbers grow until the next document starts. -/
theorem num_grow {o : Opt} : ∀ (bs : List B) (next i d : Nat),
    (∀ k b, i < k → k ≤ i + d → bs[k]? = some b → b.newdoc = false) → num o next bs (i + d) = num o next bs i + d := by
  intro bs
  induction bs with
  | nil => intro next i d _; simp [num]; omega
  | cons b bs ih =>
    intro next i d h
    cases i with
    | zero =>
      cases d with
      | zero => rfl
      | succ d =>
        rw [show 0 + (d + 1) = (0 + d) + 1 by omega]
        simp only [num]
        rw [ih _ 0 d (by
          intro k b' h1 h2 hb
          exact h (k + 1) b' (by omega) (by omega) (by simpa using hb))]
        have : ∀ (bs : List B) next, (∀ b, bs[0]? = some b → b.newdoc = false) → num o next bs 0 = next := by
          intro bs next h
          cases bs with
          | nil => rfl
          | cons c bs =>
            have := h c rfl
            simp [num, this]
        rw [this bs _ (fun b' hb => h 1 b' (by omega) (by omega) (by simpa using hb))]
        omega
    | succ i =>
      rw [show i + 1 + d = (i + d) + 1 by omega]
      simp only [num]
      exact ih _ i d (by
        intro k b' h1 h2 hb
        exact h (k + 1) b' (by omega) (by omega) (by simpa using hb))

theorem num_newdoc {o : Opt} (ho : o.reset = true) : ∀ (bs : List B) (next i : Nat) (b : B), bs[i]? = some b → b.newdoc = true → num o next bs i = 1 := by
  intro bs
  induction bs with
  | nil => intro next i b h; simp at h
  | cons c bs ih =>
    intro next i b h hb
    cases i with
    | zero =>
      simp only [List.getElem?_cons_zero, Option.some.injEq] at h
      subst h
      simp [num, ho, hb]
    | succ i => exact ih _ i b (by simpa using h) hb

theorem run_distinct {o : Opt} (ho : o.sentId = true) {bs : List B} {next : Nat}
    (h : ∀ (i j : Nat) (b c : B), i < j → bs[i]? = some b → bs[j]? = some c → full o b ++ natStr (num o next bs i) ≠ full o c ++ natStr (num o next bs j)) :
    Distinct (run o next bs) := by
  constructor
  · intro x hx
    obtain ⟨i, hi⟩ := List.mem_iff_getElem?.1 hx
    rw [run_get ho] at hi
    cases hb : bs[i]? with
    | none => rw [hb] at hi; cases hi
    | some b => rw [hb] at hi; cases hi; simp
  · intro i j hij hj he
    have hlen : (run o next bs).length = bs.length := by
      have : ∀ (bs : List B) next, (run o next bs).length = bs.length := by
        intro bs
        induction bs with
        | nil => intro _; rfl
        | cons b bs ih => intro next; rw [run, if_pos ho]; simp [ih]
      exact this bs next
    rw [hlen] at hj
    rw [run_get ho, run_get ho, List.getElem?_eq_getElem hj, List.getElem?_eq_getElem (by omega)] at he
    simp only [Option.map_some, Option.some.injEq] at he
    exact h i j _ _ hij (List.getElem?_eq_getElem _) (List.getElem?_eq_getElem _) he

/-- The ids are renumbered if asked for, also by the other parameters. -/
theorem init_some {o : Opt} (h : o.reset = true → o.fromFile = true) (hs : o.sentId = true ∨ o.pre ≠ [] ∨ o.start ≠ 1 ∨ o.fromFile = true) :
    ∃ o', init o = some o' ∧ o'.sentId = true ∧ o'.start = o.start ∧ o'.pre = o.pre ∧ o'.fromFile = o.fromFile ∧ o'.reset = o.reset := by
  unfold init
  rw [if_neg (fun k => k.2 (h k.1))]
  split
  · exact ⟨_, rfl, rfl, rfl, rfl, rfl, rfl⟩
  · rename_i hn
    exact ⟨o, rfl, hs.resolve_right hn, rfl, rfl, rfl, rfl⟩

/-- **C154 (numbers).** Without `sent_id_reset_at_newdoc` the bundles are numbered from `start_sent_id` over all documents. -/
theorem C154_numbers {o : Opt} (hr : o.reset = false) (hs : o.sentId = true ∨ o.pre ≠ [] ∨ o.start ≠ 1 ∨ o.fromFile = true) (bs : List B) :
    ∃ ids, normIds o bs = some ids ∧ ids.length = bs.length ∧
      ∀ (i : Nat) (b : B), bs[i]? = some b → ids[i]? = some (some ((if o.fromFile then b.stem else []) ++ o.pre ++ natStr (o.start + i))) := by
  obtain ⟨o', e, h1, h2, h3, h4, h5⟩ := init_some (o := o) (fun k => by rw [hr] at k; cases k) hs
  refine ⟨run o' o'.start bs, by rw [normIds, e], ?_, ?_⟩
  · have : ∀ (bs : List B) next, (run o' next bs).length = bs.length := by
      intro bs
      induction bs with
      | nil => intro _; rfl
      | cons b bs ih => intro next; rw [run, if_pos h1]; simp [ih]
    exact this bs _
  · intro i b hb
    rw [run_get h1, hb, num_plain (by rw [h5, hr]), h2]
    simp only [Option.map_some, full, h3, h4]
    cases o.fromFile <;> simp

/-- **C154 (different ids).** Without `sent_id_reset_at_newdoc` the ids are different, if file names are not used or are the same, or the
prefix ends with a character that is not a digit. -/
theorem C154_distinct_partial {o : Opt} (hr : o.reset = false) (hs : o.sentId = true ∨ o.pre ≠ [] ∨ o.start ≠ 1 ∨ o.fromFile = true) {bs : List B}
    (h : o.fromFile = false ∨ (∀ b ∈ bs, ∀ c ∈ bs, b.stem = c.stem) ∨ NoDigitEnd o.pre) : ∃ ids, normIds o bs = some ids ∧ Distinct ids := by
  obtain ⟨o', e, h1, h2, h3, h4, h5⟩ := init_some (o := o) (fun k => by rw [hr] at k; cases k) hs
  refine ⟨run o' o'.start bs, by rw [normIds, e], run_distinct h1 ?_⟩
  intro i j b c hij hb hc heq
  rw [num_plain (by rw [h5, hr]), num_plain (by rw [h5, hr])] at heq
  have : full o' b = full o' c ∨ NoDigitEnd (full o' b) ∧ NoDigitEnd (full o' c) := by
    unfold full
    rw [h4, h3]
    rcases h with h | h | ⟨a, x, ha, hx⟩
    · rw [h]; exact Or.inl rfl
    · rw [h b (List.mem_of_getElem? hb) c (List.mem_of_getElem? hc)]; exact Or.inl rfl
    · right
      constructor
      · split
        · exact ⟨b.stem ++ a, x, by rw [ha]; simp, hx⟩
        · exact ⟨a, x, ha, hx⟩
      · split
        · exact ⟨c.stem ++ a, x, by rw [ha]; simp, hx⟩
        · exact ⟨a, x, ha, hx⟩
  have := (digits_tail heq this).1
  omega

/-- **C154 (file names).** With file names the ids are different, also with `sent_id_reset_at_newdoc`, if the prefix ends with a character that is not a
digit and each file has only one document. -/
theorem C154_reset_partial {o : Opt} (hf : o.fromFile = true) (hp : NoDigitEnd o.pre) {bs : List B}
    (h : ∀ (i j : Nat) (b c : B), i < j → bs[i]? = some b → bs[j]? = some c → b.stem = c.stem →
      ∀ (k : Nat) (x : B), i < k → k ≤ j → bs[k]? = some x → x.newdoc = false) : ∃ ids, normIds o bs = some ids ∧ Distinct ids := by
  obtain ⟨o', e, h1, h2, h3, h4, h5⟩ := init_some (o := o) (fun _ => hf) (Or.inr (Or.inr (Or.inr hf)))
  refine ⟨run o' o'.start bs, by rw [normIds, e], run_distinct h1 ?_⟩
  intro i j b c hij hb hc heq
  obtain ⟨a, x, ha, hx⟩ := hp
  have hfull : ∀ b, full o' b = b.stem ++ o.pre := fun b => by rw [full, h4, hf, h3]; rfl
  rw [hfull, hfull] at heq
  obtain ⟨hn, hst⟩ := digits_tail heq (Or.inr ⟨⟨b.stem ++ a, x, by rw [ha]; simp, hx⟩, c.stem ++ a, x, by rw [ha]; simp, hx⟩)
  have hst := List.append_cancel_right hst
  have := num_grow (o := o') bs o'.start i (j - i) (fun k y h1 h2 hy => h i j b c hij hb hc hst k y h1 (by omega) hy)
  rw [show i + (j - i) = j by omega, ← hn] at this
  omega

/-- **C154 violated (several documents in a file).** With `sent_id_reset_at_newdoc` the first bundles of two documents from one file get the
same id. -/
theorem C154_reset_violated {o : Opt} (hr : o.reset = true) (hf : o.fromFile = true) {bs : List B} {i j : Nat} {b c : B}
    (hb : bs[i]? = some b) (hc : bs[j]? = some c) (hbn : b.newdoc = true) (hcn : c.newdoc = true) (hs : b.stem = c.stem) :
    ∃ ids x, normIds o bs = some ids ∧ ids[i]? = some (some x) ∧ ids[j]? = some (some x) := by
  obtain ⟨o', e, h1, h2, h3, h4, h5⟩ := init_some (o := o) (fun _ => hf) (Or.inr (Or.inr (Or.inr hf)))
  refine ⟨run o' o'.start bs, b.stem ++ o.pre ++ natStr 1, by rw [normIds, e], ?_, ?_⟩
  · rw [run_get h1, hb, num_newdoc (by rw [h5, hr]) _ _ _ _ hb hbn]
    simp [full, h4, hf, h3]
  · rw [run_get h1, hc, num_newdoc (by rw [h5, hr]) _ _ _ _ hc hcn]
    simp [full, h4, hf, h3, hs]

/-- **C154 violated (file names).** A sentence of a file `a1` and ten sentences of a file `a` do not get different ids. -/
theorem C154_files_violated : ∃ ids, normIds ⟨false, 1, [], true, false⟩ (⟨true, ['a', '1'], none⟩ :: List.replicate 10 ⟨false, ['a'], none⟩) = some ids ∧
    ids[0]? = some (some ['a', '1', '1']) ∧ ids[10]? = some (some ['a', '1', '1']) := by
  obtain ⟨ids, h1, _, h2⟩ := C154_numbers (o := ⟨false, 1, [], true, false⟩) rfl (Or.inr (Or.inr (Or.inr rfl)))
    (⟨true, ['a', '1'], none⟩ :: List.replicate 10 ⟨false, ['a'], none⟩)
  refine ⟨ids, h1, ?_, ?_⟩
  · rw [h2 0 _ rfl]; decide +kernel
  · rw [h2 10 _ rfl]; decide +kernel

/-- Without file names and with them, restarting for each document. -/
example : normIds ⟨true, 5, ['s'], false, false⟩ [⟨true, ['f'], none⟩, ⟨true, ['g'], none⟩] = some [some ['s', '5'], some ['s', '6']] := by decide +kernel
example : normIds ⟨false, 1, ['-'], true, true⟩ [⟨true, ['f'], none⟩, ⟨false, ['f'], none⟩, ⟨true, ['g'], none⟩] =
    some [some ['f', '-', '1'], some ['f', '-', '2'], some ['g', '-', '1']] := by decide +kernel
example : normIds ⟨false, 1, [], false, true⟩ [] = none := by decide

end Verif.Bundle.NormIds
