/-!
# `util.Split` (udapi/block/util/split.py)
-/

namespace Verif.Run

/-- `self.bundles_per_doc`, `self.buffer` and `self.finished`. A buffer that is `None` behaves like an empty one. -/
structure Split (α : Type) where
  perDoc : Option Nat
  parts : Nat
  buffer : List α := []
  finished : Bool := false

/-- `math.ceil(a / b)` for `b > 0`. Simplified: exact division in place of floating point division. -/
def ceilDiv (a b : Nat) : Nat := (a + b - 1) / b

/-- `process_document` (split.py:30-39): the bundles of the document before, the state and the bundles after. -/
def Split.process {α : Type} (s : Split α) (bundles : List α) : Split α × List α :=
  let (s, bundles) :=
    if s.buffer.isEmpty then
      ({ s with buffer := bundles, perDoc := some (s.perDoc.getD (ceilDiv bundles.length s.parts)) }, [])
    else (s, bundles)
  let buffer := s.buffer ++ bundles
  let k := s.perDoc.getD 0
  ({ s with buffer := buffer.drop k, finished := (buffer.drop k).isEmpty }, buffer.take k)

/-- The rounds of the scenario (run.py:191-201) with `util.Split` after a reader that gives one document with all
bundles; in the rounds after the first one the reader leaves the document empty (basereader.py:119-123).
`none`: more rounds than `fuel`. -/
def Split.rounds {α : Type} (s : Split α) : Nat → List α → Option (List (List α))
  | 0, _ => none
  | fuel + 1, bundles =>
    let (s', out) := s.process bundles
    if s'.finished then some [out]
    else
      match s'.rounds fuel [] with
      | some rest => some (out :: rest)
      | none => none

/-- `util.Split bundles_per_doc=k` and `util.Split parts=p` on a document (split.py:12-24). -/
def splitPerDoc {α : Type} (k : Nat) (bundles : List α) : Option (List (List α)) :=
  ({ perDoc := some k, parts := 0 } : Split α).rounds (bundles.length + 1) bundles

def splitParts {α : Type} (p : Nat) (bundles : List α) : Option (List (List α)) :=
  ({ perDoc := none, parts := p } : Split α).rounds (bundles.length + 1) bundles

/-! ## Proofs -/

/-- All documents but the last have `k` bundles, and the last has at most `k`, and at least one unless it is the only
document. -/
def Chunked {α : Type} (k : Nat) (docs : List (List α)) : Prop :=
  docs ≠ [] ∧ (∀ d ∈ docs.dropLast, d.length = k) ∧ (∀ d, docs.getLast? = some d → d.length ≤ k) ∧
  (2 ≤ docs.length → ∀ d, docs.getLast? = some d → d ≠ [])

theorem process_buffer {α : Type} (k p : Nat) (f : Bool) (b : List α) (hb : b ≠ []) :
    ({ perDoc := some k, parts := p, buffer := b, finished := f } : Split α).process [] =
      ({ perDoc := some k, parts := p, buffer := b.drop k, finished := (b.drop k).isEmpty }, b.take k) := by
  unfold Split.process
  have : b.isEmpty = false := by simp [hb]
  simp [this]

theorem rounds_buffer {α : Type} (k p : Nat) (hk : 0 < k) : ∀ (fuel : Nat) (b : List α) (f : Bool), b ≠ [] → b.length ≤ fuel →
    ∃ docs, ({ perDoc := some k, parts := p, buffer := b, finished := f } : Split α).rounds fuel [] = some docs ∧
      docs.flatten = b ∧ Chunked k docs ∧ (∀ d ∈ docs, d ≠ []) ∧ docs.length = ceilDiv b.length k := by
  intro fuel
  induction fuel with
  | zero => intro b f hb hl; exfalso; apply hb; cases b with | nil => rfl | cons _ _ => simp at hl
  | succ fuel ih =>
    intro b f hb hl
    unfold Split.rounds
    rw [process_buffer k p f b hb]
    simp only
    have htake : b.take k ≠ [] := by
      intro h
      have := congrArg List.length h
      simp at this
      rcases this with h | h
      · omega
      · exact hb h
    have hbl : 0 < b.length := by cases b with | nil => exact absurd rfl hb | cons _ _ => simp
    by_cases hd : b.drop k = []
    · rw [hd]
      simp only [List.isEmpty_nil, if_true]
      have hle : b.length ≤ k := by simpa using hd
      refine ⟨_, rfl, by simp [List.take_of_length_le hle], ⟨by simp, by simp, by simp; omega, by simp⟩, by simpa using htake, ?_⟩
      show 1 = (b.length + k - 1) / k
      symm
      rw [Nat.div_eq_iff hk]
      omega
    · have he : (b.drop k).isEmpty = false := by simpa using hd
      rw [he]
      have hdl : k < b.length := by simpa using hd
      obtain ⟨docs, e, h1, h2, h3, h4⟩ := ih (b.drop k) false hd (by simp; omega)
      simp only [Bool.false_eq_true, if_false]
      rw [e]
      refine ⟨_, rfl, by simp [h1], ?_, ?_, ?_⟩
      · obtain ⟨c1, c2, c3, c4⟩ := h2
        obtain ⟨x, xs, rfl⟩ := List.exists_cons_of_ne_nil c1
        refine ⟨by simp, ?_, ?_, ?_⟩
        · intro d hdm
          rw [List.dropLast_cons_of_ne_nil (by simp)] at hdm
          rcases List.mem_cons.1 hdm with rfl | hdm
          · simp; omega
          · exact c2 d hdm
        · intro d hdm
          rw [List.getLast?_cons_cons] at hdm
          exact c3 d hdm
        · intro _ d hdm
          rw [List.getLast?_cons_cons] at hdm
          exact h3 d (List.mem_of_getLast? hdm)
      · intro d hdm
        rcases List.mem_cons.1 hdm with rfl | hdm
        · exact htake
        · exact h3 d hdm
      · rw [List.length_cons, h4]
        unfold ceilDiv
        have : (b.drop k).length = b.length - k := by simp
        rw [this]
        have : b.length + k - 1 = (b.length - k + k - 1) + k := by omega
        rw [this, Nat.add_div_right _ hk]

/-- All rounds, from a fresh block. -/
theorem rounds_fresh {α : Type} (o : Option Nat) (p : Nat) (bundles : List α) (hk : 0 < o.getD (ceilDiv bundles.length p))
    (hne : bundles ≠ []) :
    ∃ docs, ({ perDoc := o, parts := p } : Split α).rounds (bundles.length + 1) bundles = some docs ∧
      docs.flatten = bundles ∧ Chunked (o.getD (ceilDiv bundles.length p)) docs ∧ (∀ d ∈ docs, d ≠ []) ∧
      docs.length = ceilDiv bundles.length (o.getD (ceilDiv bundles.length p)) := by
  have e : ({ perDoc := o, parts := p } : Split α).process bundles =
      ({ perDoc := some (o.getD (ceilDiv bundles.length p)), parts := p, buffer := bundles } : Split α).process [] := by
    unfold Split.process
    have : bundles.isEmpty = false := by simpa using hne
    simp [this]
  have : ({ perDoc := o, parts := p } : Split α).rounds (bundles.length + 1) bundles =
      ({ perDoc := some (o.getD (ceilDiv bundles.length p)), parts := p, buffer := bundles } : Split α).rounds
        (bundles.length + 1) [] := by
    unfold Split.rounds
    rw [e]
  rw [this]
  exact rounds_buffer _ p hk (bundles.length + 1) bundles false hne (by omega)

/-- C53 (bundles_per_doc): for every document and every `k > 0` the documents produced, one after the other, are the
bundles of the input in order; all but the last have `k` bundles, the last has at most `k`, and none is empty if the
input is not. -/
theorem C53_per_doc_partial {α : Type} (k : Nat) (hk : 0 < k) (bundles : List α) :
    ∃ docs, splitPerDoc k bundles = some docs ∧ docs.flatten = bundles ∧ Chunked k docs ∧
      (bundles ≠ [] → ∀ d ∈ docs, d ≠ []) := by
  by_cases hne : bundles = []
  · subst hne
    exact ⟨[[]], by simp [splitPerDoc, Split.rounds, Split.process], rfl, ⟨by simp, by simp, by simp, by simp⟩, by simp⟩
  · obtain ⟨docs, h1, h2, h3, h4, _⟩ := rounds_fresh (some k) 0 bundles hk hne
    exact ⟨docs, h1, h2, h3, fun _ => h4⟩

theorem ceilDiv_pos {n p : Nat} (hn : 0 < n) (hp : 0 < p) : 0 < ceilDiv n p := by
  unfold ceilDiv
  exact Nat.div_pos (by omega) hp

theorem le_mul_ceilDiv (n p : Nat) (hp : 0 < p) : n ≤ p * ceilDiv n p := by
  unfold ceilDiv
  have := Nat.div_add_mod (n + p - 1) p
  have := Nat.mod_lt (n + p - 1) hp
  omega

/-- C53 (parts): the documents produced are the bundles of the input in order, and there are at most `p` of them; there
are exactly `p` if `p` divides the number of bundles. Missing: exactly `p` in the other cases, which is false
(`C53_parts_violated`). -/
theorem C53_parts_partial {α : Type} (p : Nat) (hp : 0 < p) (bundles : List α) (hne : bundles ≠ []) :
    ∃ docs, splitParts p bundles = some docs ∧ docs.flatten = bundles ∧ (∀ d ∈ docs, d ≠ []) ∧ docs.length ≤ p ∧
      (p ∣ bundles.length → docs.length = p ∧ ∀ d ∈ docs, d.length = bundles.length / p) := by
  have hlen : 0 < bundles.length := by cases bundles with | nil => exact absurd rfl hne | cons _ _ => simp
  have hk := ceilDiv_pos hlen hp
  obtain ⟨docs, h1, h2, h3, h4, h5⟩ := rounds_fresh none p bundles hk hne
  simp only [Option.getD_none] at h3 h5
  refine ⟨docs, h1, h2, h4, ?_, ?_⟩
  · rw [h5]
    have := le_mul_ceilDiv bundles.length p hp
    generalize ceilDiv bundles.length p = k at *
    unfold ceilDiv
    rw [Nat.div_le_iff_le_mul_add_pred hk]
    rw [Nat.mul_comm] at this
    omega
  · rintro ⟨q, hq⟩
    have hq0 : 0 < q := by
      rcases Nat.eq_zero_or_pos q with h | h
      · subst h; omega
      · exact h
    have hc : ceilDiv bundles.length p = q := by
      unfold ceilDiv
      rw [hq, Nat.div_eq_iff hp]
      rw [Nat.mul_comm]
      omega
    rw [hc] at h3 h5
    have hl : docs.length = p := by
      rw [h5, hq]
      unfold ceilDiv
      rw [Nat.div_eq_iff hq0]
      omega
    refine ⟨hl, ?_⟩
    have hdiv : bundles.length / p = q := by rw [hq]; exact Nat.mul_div_cancel_left q hp
    rw [hdiv]
    obtain ⟨c1, c2, c3, _⟩ := h3
    have hdl := List.dropLast_concat_getLast c1
    have hlast : (docs.getLast c1).length = q := by
      have hs : docs.flatten.length = p * q := by rw [h2, hq]
      rw [← hdl] at hs
      rw [List.flatten_append, List.length_append, List.length_flatten] at hs
      have : (docs.dropLast.map List.length).sum = (p - 1) * q := by
        have : docs.dropLast.map List.length = List.replicate (p - 1) q := by
          rw [List.eq_replicate_iff]
          refine ⟨by simp [hl], ?_⟩
          intro b hb
          obtain ⟨d, hd, rfl⟩ := List.mem_map.1 hb
          exact c2 d hd
        rw [this]
        simp
      rw [this] at hs
      simp at hs
      obtain ⟨p', rfl⟩ : ∃ p', p = p' + 1 := ⟨p - 1, by omega⟩
      simp only [Nat.add_sub_cancel, Nat.succ_mul] at hs
      omega
    intro d hd
    rw [← hdl] at hd
    rcases List.mem_append.1 hd with hd | hd
    · exact c2 d hd
    · simp at hd; subst hd; exact hlast

/-- C53 is violated: for every `p > 2`, a document of `p + 1` bundles is not split into `p` parts but into fewer. -/
theorem C53_parts_violated {α : Type} (p : Nat) (hp : 2 < p) (bundles : List α) (hl : bundles.length = p + 1) :
    ∃ docs, splitParts p bundles = some docs ∧ docs.length < p := by
  have hne : bundles ≠ [] := by rintro rfl; simp at hl
  have hc : ceilDiv bundles.length p = 2 := by
    unfold ceilDiv
    rw [hl, Nat.div_eq_iff (by omega)]
    omega
  obtain ⟨docs, h1, h2, h3, h4, h5⟩ := rounds_fresh none p bundles (by rw [Option.getD_none, hc]; omega) hne
  refine ⟨docs, h1, ?_⟩
  simp only [Option.getD_none] at h5
  rw [h5, hc, hl]
  unfold ceilDiv
  omega

example : splitPerDoc 2 [1, 2, 3, 4, 5] = some [[1, 2], [3, 4], [5]] := by decide
example : splitParts 3 [1, 2, 3, 4, 5, 6] = some [[1, 2], [3, 4], [5, 6]] := by decide
example : splitParts 4 [1, 2, 3, 4, 5, 6] = some [[1, 2], [3, 4], [5, 6]] := by decide

end Verif.Run
