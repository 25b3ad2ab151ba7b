import Verif.Blocks.Proj

/-!
# Property C147: `reattach_coordinations` of ud.Convert1to2 (udapi/block/ud/convert1to2.py)

The `ToDo` marks in MISC and enhanced dependencies are left out.
-/

namespace Verif.Blocks.Coord
open Verif.Py Verif.Tree Verif.Blocks

def rCc : Str := ['c', 'c']
def rConj : Str := ['c', 'o', 'n', 'j']
def rPunct : Str := ['p', 'u', 'n', 'c', 't']

/-- `node.deprel == 'cc' or (node.deprel == 'punct' and node.lemma in [',', ';'])` -/
def isDelim (d : Rels) (lemma : Nat → Option Str) (n : Nat) : Bool :=
  d n = some rCc || (d n = some rPunct && (lemma n = some [','] || lemma n = some [';']))

/-- `reattach_coordinations(node)` (convert1to2.py:235-266). `next` on an empty list (StopIteration) is written as `indexError`. -/
def coordStep (d : Rels) (lemma : Nat → Option Str) (h : Heap) (n : Nat) : Heap × Option Err :=
  if isDelim d lemma n then
    match h.parent n with
    | none => (h, some .attributeError)
    | some p =>
      match (h.children p).filter (fun z => d z = some rConj) with
      | [] => (h, none)
      | c0 :: cs =>
        if h.ord n < h.ord c0 ∧ h.ord n < h.ord p then (h, none)
        else
          match (c0 :: cs).filter (fun z => h.ord n < h.ord z) with
          | [] => (h, none)
          | c :: _ =>
            match (h.children p).filter (fun z => h.ord n < h.ord z ∧ d z ≠ some rCc) with
            | [] => (h, some .indexError)
            | s :: _ => if s ≠ c then (h, none) else setParent h n (some c)
  else (h, none)

/-- The loop over the words (convert1to2.py:87-88) -/
def coordTree (d : Rels) (lemma : Nat → Option Str) (h : Heap) (r : Nat) : Heap × Option Err := forNodes (coordStep d lemma) h (h.words r)

/-! ## Specification vocabulary -/

/-- A conjunction, or a punctuation mark with the lemma `,` or `;`. -/
def Delim (d : Rels) (lemma : Nat → Option Str) (n : Nat) : Prop :=
  d n = some rCc ∨ d n = some rPunct ∧ (lemma n = some [','] ∨ lemma n = some [';'])

/-- `c` is the conjunct to which the delimiter `n` below `p` belongs: the next conjunct, with nothing but conjunctions in between. Delimiters
before the whole coordination belong to no conjunct. -/
def Target (h : Heap) (d : Rels) (r n p c : Nat) : Prop :=
  c ∈ h.words r ∧ h.parent c = some p ∧ d c = some rConj ∧ h.ord n < h.ord c ∧
    (∀ z ∈ h.words r, h.parent z = some p → h.ord n < h.ord z → h.ord z < h.ord c → d z = some rCc) ∧
    ¬ (h.ord n < h.ord p ∧ ∀ z ∈ h.words r, h.parent z = some p → d z = some rConj → h.ord n < h.ord z)

/-! ## Proofs -/

section Lemmas
variable {h : Heap} {d : Rels} {lemma : Nat → Option Str} {r : Nat}

theorem not_delim_conj {n : Nat} (hd : d n = some rConj) : isDelim d lemma n = false := by
  unfold isDelim
  rw [hd]
  have h1 : rConj ≠ rCc := by decide
  have h2 : rConj ≠ rPunct := by decide
  simp [h1, h2]

/-- The result of one step. `h` gives the old edges, `s` the present ones; they agree on conjuncts and on the words after `n`. -/
theorem step_ok {s : Heap} (w : WF h r) (i : Inv s) (t : IsTree s r) (w' : s.words = h.words) (o' : s.ord = h.ord) {n p : Nat} (hn : n ∈ h.words r)
    (hp : h.parent n = some p) (hsame : ∀ z ∈ h.words r, (d z = some rConj ∨ h.ord n ≤ h.ord z) → s.parent z = h.parent z)
    (hdel : isDelim d lemma n = true) :
    ∃ s', coordStep d lemma s n = (s', none) ∧ Inv s' ∧ IsTree s' r ∧ s'.words = h.words ∧ s'.ord = h.ord ∧
      (∀ c, Target h d r n p c → s'.parent = upd s.parent n (some c)) ∧ ((∀ c, ¬ Target h d r n p c) → s'.parent = s.parent) := by
  have ws := i r t
  have hsp : s.parent n = some p := by rw [hsame n hn (.inr (Nat.le_refl _)), hp]
  have hpin : InTree s r p := ws.parent_in (by rw [w']; exact hn) hsp
  have hconj : ∀ z, z ∈ (s.children p).filter (fun z => d z = some rConj) ↔ z ∈ h.words r ∧ h.parent z = some p ∧ d z = some rConj := by
    intro z
    rw [List.mem_filter, ws.childIff p hpin, w']
    simp only [decide_eq_true_eq]
    constructor
    · rintro ⟨⟨k1, k2⟩, k3⟩
      exact ⟨k1, by rw [← hsame z k1 (.inl k3)]; exact k2, k3⟩
    · rintro ⟨k1, k2, k3⟩
      exact ⟨⟨k1, by rw [hsame z k1 (.inl k3)]; exact k2⟩, k3⟩
  have hsib : ∀ z, z ∈ (s.children p).filter (fun z => s.ord n < s.ord z ∧ d z ≠ some rCc) ↔
      z ∈ h.words r ∧ h.parent z = some p ∧ h.ord n < h.ord z ∧ d z ≠ some rCc := by
    intro z
    rw [List.mem_filter, ws.childIff p hpin, w', o']
    simp only [decide_eq_true_eq]
    constructor
    · rintro ⟨⟨k1, k2⟩, k3, k4⟩
      exact ⟨k1, by rw [← hsame z k1 (.inr (Nat.le_of_lt k3))]; exact k2, k3, k4⟩
    · rintro ⟨k1, k2, k3, k4⟩
      exact ⟨⟨k1, by rw [hsame z k1 (.inr (Nat.le_of_lt k3))]; exact k2⟩, k3, k4⟩
  have hs1 : ((s.children p).filter (fun z => d z = some rConj)).Pairwise (fun x y => h.ord x < h.ord y) := by
    rw [← o']
    exact (ws.childSorted p hpin).filter _
  have hs2 : ((s.children p).filter (fun z => s.ord n < s.ord z ∧ d z ≠ some rCc)).Pairwise (fun x y => h.ord x < h.ord y) := by
    have : h.ord = s.ord := o'.symm
    rw [this]
    exact (ws.childSorted p hpin).filter _
  have hcc : rConj ≠ rCc := by decide
  have stay : (∀ c, ¬ Target h d r n p c) → coordStep d lemma s n = (s, none) →
      ∃ s', coordStep d lemma s n = (s', none) ∧ Inv s' ∧ IsTree s' r ∧ s'.words = h.words ∧ s'.ord = h.ord ∧
      (∀ c, Target h d r n p c → s'.parent = upd s.parent n (some c)) ∧ ((∀ c, ¬ Target h d r n p c) → s'.parent = s.parent) :=
    fun hno e => ⟨s, e, i, t, w', o', fun c hc => absurd hc (hno c), fun _ => rfl⟩
  have huniq : ∀ c c', Target h d r n p c → Target h d r n p c' → c = c' := by
    rintro c c' ⟨a1, a2, a3, a4, a5, -⟩ ⟨b1, b2, b3, b4, b5, -⟩
    rcases Nat.lt_trichotomy (h.ord c) (h.ord c') with k | k | k
    · have := b5 c a1 a2 a4 k
      rw [a3] at this
      exact absurd (Option.some.inj this) hcc
    · exact w.ord_inj (.inr a1) (.inr b1) k
    · have := a5 c' b1 b2 b4 k
      rw [b3] at this
      exact absurd (Option.some.inj this) hcc
  cases hc : (s.children p).filter (fun z => d z = some rConj) with
  | nil =>
    refine stay (fun c hT => ?_) (by unfold coordStep; rw [if_pos hdel]; simp only [hsp, hc])
    have := (hconj c).2 ⟨hT.1, hT.2.1, hT.2.2.1⟩
    rw [hc] at this
    cases this
  | cons c0 cs =>
    rw [hc] at hs1 hconj
    have hfirst : ∀ z ∈ h.words r, h.parent z = some p → d z = some rConj → h.ord c0 ≤ h.ord z := by
      intro z k1 k2 k3
      rcases List.mem_cons.1 ((hconj z).2 ⟨k1, k2, k3⟩) with rfl | k
      · exact Nat.le_refl _
      · exact Nat.le_of_lt ((List.pairwise_cons.1 hs1).1 z k)
    by_cases hb : s.ord n < s.ord c0 ∧ s.ord n < s.ord p
    · refine stay (fun c hT => ?_) (by unfold coordStep; rw [if_pos hdel]; simp only [hsp, hc]; rw [if_pos hb])
      rw [o'] at hb
      exact hT.2.2.2.2.2 ⟨hb.2, fun z k1 k2 k3 => Nat.lt_of_lt_of_le hb.1 (hfirst z k1 k2 k3)⟩
    · have hnb : ¬ (h.ord n < h.ord p ∧ ∀ z ∈ h.words r, h.parent z = some p → d z = some rConj → h.ord n < h.ord z) := by
        rintro ⟨k1, k2⟩
        obtain ⟨c1, c2, c3⟩ := (hconj c0).1 (List.mem_cons_self ..)
        rw [o'] at hb
        exact hb ⟨k2 c0 c1 c2 c3, k1⟩
      have hs3 : ((c0 :: cs).filter (fun z => s.ord n < s.ord z)).Pairwise (fun x y => h.ord x < h.ord y) := hs1.filter _
      have hnext : ∀ z, z ∈ (c0 :: cs).filter (fun z => s.ord n < s.ord z) ↔ z ∈ h.words r ∧ h.parent z = some p ∧ d z = some rConj ∧ h.ord n < h.ord z := by
        intro z
        rw [List.mem_filter, hconj, o']
        simp [and_assoc]
      cases hc2 : (c0 :: cs).filter (fun z => s.ord n < s.ord z) with
      | nil =>
        refine stay (fun c hT => ?_) (by unfold coordStep; rw [if_pos hdel]; simp only [hsp, hc]; rw [if_neg hb, hc2])
        have := (hnext c).2 ⟨hT.1, hT.2.1, hT.2.2.1, hT.2.2.2.1⟩
        rw [hc2] at this
        cases this
      | cons c ct =>
        rw [hc2] at hs3 hnext
        obtain ⟨c1, c2, c3, c4⟩ := (hnext c).1 (List.mem_cons_self ..)
        cases hc3 : (s.children p).filter (fun z => s.ord n < s.ord z ∧ d z ≠ some rCc) with
        | nil =>
          have := (hsib c).2 ⟨c1, c2, c4, by rw [c3]; exact fun k => hcc (Option.some.inj k)⟩
          rw [hc3] at this
          cases this
        | cons q qt =>
          rw [hc3] at hs2 hsib
          have hqfirst : ∀ z ∈ h.words r, h.parent z = some p → h.ord n < h.ord z → d z ≠ some rCc → h.ord q ≤ h.ord z := by
            intro z k1 k2 k3 k4
            rcases List.mem_cons.1 ((hsib z).2 ⟨k1, k2, k3, k4⟩) with rfl | k
            · exact Nat.le_refl _
            · exact Nat.le_of_lt ((List.pairwise_cons.1 hs2).1 z k)
          obtain ⟨q1, q2, q3, q4⟩ := (hsib q).1 (List.mem_cons_self ..)
          by_cases hqc : q = c
          · subst hqc
            have hT : Target h d r n p q := by
              refine ⟨c1, c2, c3, c4, fun z k1 k2 k3 k4 => ?_, hnb⟩
              refine Decidable.by_contra (fun k => ?_)
              have := hqfirst z k1 k2 k3 k
              omega
            have hqn : q ≠ n := fun e => by rw [e] at q3; exact Nat.lt_irrefl _ q3
            have hsq : s.parent q = some p := by rw [hsame q c1 (.inl c3), c2]
            obtain ⟨s', e', i', t', w'', -, o'', p''⟩ := attach_one i t (by rw [w']; exact hn) (.inr (by rw [w']; exact c1)) hqn (fun ha => by
              rcases anc_iff.1 ha with ⟨p', hp', e⟩
              rw [hsq] at hp'
              obtain rfl := Option.some.inj hp'
              rcases e with rfl | e
              · exact ws.anc_irrefl hpin (.parent hsp)
              · exact ws.anc_irrefl hpin (.trans (.parent hsp) e))
            refine ⟨s', ?_, i', t', by rw [w'', w'], by rw [o'', o'], fun c hc => by rw [← huniq q c hT hc, p''], fun k => absurd hT (k q)⟩
            unfold coordStep
            rw [if_pos hdel]
            simp only [hsp, hc]
            rw [if_neg hb, hc2]
            simp only [hc3]
            rw [if_neg (by simp)]
            exact e'
          · refine stay (fun c' hT => ?_) (by
              unfold coordStep
              rw [if_pos hdel]
              simp only [hsp, hc]
              rw [if_neg hb, hc2]
              simp only [hc3]
              rw [if_pos hqc])
            -- the first sibling after `n` that is not cc is not the next conjunct
            have hcc' : h.ord c ≤ h.ord c' := by
              rcases List.mem_cons.1 ((hnext c').2 ⟨hT.1, hT.2.1, hT.2.2.1, hT.2.2.2.1⟩) with rfl | k
              · exact Nat.le_refl _
              · exact Nat.le_of_lt ((List.pairwise_cons.1 hs3).1 c' k)
            have hqle := hqfirst c c1 c2 c4 (by rw [c3]; exact fun k => hcc (Option.some.inj k))
            have hqlt : h.ord q < h.ord c := by
              rcases Nat.lt_or_ge (h.ord q) (h.ord c) with k | k
              · exact k
              · exact absurd (w.ord_inj (.inr q1) (.inr c1) (by omega)) hqc
            exact q4 (hT.2.2.2.2.1 q q1 q2 q3 (by omega))

theorem result (hi : Inv h) (hr : IsTree h r) :
    ∃ h', coordTree d lemma h r = (h', none) ∧ WF h' r ∧ h'.words = h.words ∧ h'.ord = h.ord ∧
      ∀ n ∈ h.words r, ∀ p, h.parent n = some p →
        (isDelim d lemma n = true → ∀ c, Target h d r n p c → h'.parent n = some c) ∧
        ((isDelim d lemma n = true → ∀ c, ¬ Target h d r n p c) → h'.parent n = some p) := by
  have w := hi r hr
  have hsort := aligned_pairwise w.aligned
  obtain ⟨h', e, i, t, w', o', -, hdone⟩ := forNodes_inv (coordStep d lemma) (fun done s => Inv s ∧ IsTree s r ∧ s.words = h.words ∧ s.ord = h.ord ∧
      (∀ n ∈ h.words r, (isDelim d lemma n = false ∨ n ∉ done) → s.parent n = h.parent n) ∧
      ∀ n ∈ h.words r, n ∈ done → ∀ p, h.parent n = some p →
        (isDelim d lemma n = true → ∀ c, Target h d r n p c → s.parent n = some c) ∧
        ((isDelim d lemma n = true → ∀ c, ¬ Target h d r n p c) → s.parent n = some p)) (h.words r) (by
    intro done x rest s hle ⟨i, t, w', o', hun, hdone⟩
    have hx : x ∈ h.words r := by rw [hle]; simp
    rw [hle, List.pairwise_append, List.pairwise_cons] at hsort
    have hxd : x ∉ done := fun k => Nat.lt_irrefl _ (hsort.2.2 x k x (List.mem_cons_self ..))
    obtain ⟨p, hp, _⟩ := w.parentIn x hx
    have fin : ∀ s' : Heap, Inv s' → IsTree s' r → s'.words = h.words → s'.ord = h.ord → (∀ z, z ≠ x → s'.parent z = s.parent z) →
        (isDelim d lemma x = true → ∀ c, Target h d r x p c → s'.parent x = some c) →
        ((isDelim d lemma x = true → ∀ c, ¬ Target h d r x p c) → s'.parent x = some p) →
        Inv s' ∧ IsTree s' r ∧ s'.words = h.words ∧ s'.ord = h.ord ∧
      (∀ n ∈ h.words r, (isDelim d lemma n = false ∨ n ∉ done ++ [x]) → s'.parent n = h.parent n) ∧
      ∀ n ∈ h.words r, n ∈ done ++ [x] → ∀ p, h.parent n = some p →
        (isDelim d lemma n = true → ∀ c, Target h d r n p c → s'.parent n = some c) ∧
        ((isDelim d lemma n = true → ∀ c, ¬ Target h d r n p c) → s'.parent n = some p) := by
      intro s' i' t' w'' o'' hfr h1 h2
      refine ⟨i', t', w'', o'', fun n hn hc => ?_, fun n hn hnd p' hp' => ?_⟩
      · by_cases hnx : n = x
        · subst hnx
          rcases hc with k | k
          · rw [h2 (fun k' => absurd k' (by simp [k])), hp]
          · exact absurd (by simp) k
        · rw [hfr n hnx]
          exact hun n hn (hc.imp_right (fun k k' => k (by simp [k'])))
      · by_cases hnx : n = x
        · subst hnx
          obtain rfl := Option.some.inj (hp.symm.trans hp')
          exact ⟨h1, h2⟩
        · rw [hfr n hnx]
          refine hdone n hn ?_ p' hp'
          rcases List.mem_append.1 hnd with k | k
          · exact k
          · exact absurd (List.mem_singleton.1 k) hnx
    cases hdel : isDelim d lemma x with
    | false =>
      refine ⟨s, by unfold coordStep; rw [if_neg (by simp [hdel])], fin s i t w' o' (fun _ _ => rfl) (fun k => ?_) (fun _ => ?_)⟩
      · rw [hdel] at k
        cases k
      · rw [hun x hx (.inl hdel), hp]
    | true =>
      obtain ⟨s', e', i', t', w'', o'', h1, h2⟩ := step_ok (lemma := lemma) w i t w' o' hx hp (fun z hz hc => by
        rcases hc with k | k
        · exact hun z hz (.inl (not_delim_conj k))
        · refine hun z hz (.inr (fun hzd => ?_))
          have := hsort.2.2 z hzd x (List.mem_cons_self ..)
          omega) hdel
      have hsx : s.parent x = some p := by rw [hun x hx (.inr hxd), hp]
      by_cases hT : ∃ c, Target h d r x p c
      · obtain ⟨c, hc⟩ := hT
        have p'' := h1 c hc
        refine ⟨s', e', fin s' i' t' w'' o'' (fun z hz => by rw [p'', upd_ne _ _ hz]) (fun _ c' hc' => by rw [h1 c' hc', upd_same])
          (fun k => absurd hc (k hdel c))⟩
      · have p'' := h2 (fun c hc => hT ⟨c, hc⟩)
        exact ⟨s', e', fin s' i' t' w'' o'' (fun z _ => by rw [p'']) (fun _ c hc => absurd ⟨c, hc⟩ hT) (fun _ => by rw [p'', hsx])⟩) h
    ⟨hi, hr, rfl, rfl, fun _ _ _ => rfl, fun _ _ k => absurd k List.not_mem_nil⟩
  exact ⟨h', e, i r t, w', o', fun n hn => hdone n hn hn⟩

/-! ### Projectivity -/

/-- In a projective tree subtrees are contiguous. -/
theorem convex (w : WF h r) (hproj : ∀ x ∈ h.words r, ¬ NonProj h r x) {s y z : Nat} (hs : s ∈ h.words r) (hy : Anc h s y) (hyw : y ∈ h.words r)
    (hz : z ∈ h.words r) (hb : Between h s y z) : InSubtree h s z := by
  refine Classical.byContradiction (fun hn => ?_)
  have hA : ∀ a, InTree h r a → InSubtree h s a → h.ord a ≠ h.ord z := by
    intro a ha hsa e
    exact hn (w.ord_inj ha (.inr hz) e ▸ hsa)
  have fin : ∀ a p, a ∈ h.words r → h.parent a = some p → InSubtree h s p → Between h a p z → False := by
    intro a p ha hp hsp hbz
    have : Anc h p z := Classical.byContradiction (fun k => hproj a ha ⟨p, hp, z, hz, hbz, k⟩)
    refine hn ?_
    rcases hsp with rfl | k
    · exact .inr this
    · exact .inr (k.trans this)
  rcases hb with ⟨b1, b2⟩ | ⟨b1, b2⟩
  · obtain ⟨a, p, ha, hp, hsp, k1, k2⟩ := crossing_down w hA hy (.inr hyw) b2 b1
    exact fin a p ha hp hsp (.inr ⟨k2, k1⟩)
  · obtain ⟨a, p, ha, hp, hsp, k1, k2⟩ := crossing_up w hA hy (.inr hyw) b1 b2
    exact fin a p ha hp hsp (.inl ⟨k1, k2⟩)

/-- A child of `p` above `y`. -/
theorem child_above {p y : Nat} (ha : Anc h p y) : ∃ s, h.parent s = some p ∧ InSubtree h s y := by
  induction ha with
  | @parent y e => exact ⟨y, e, .inl rfl⟩
  | @step y q e _ ih =>
    obtain ⟨s, h1, h2⟩ := ih
    refine ⟨s, h1, .inr ?_⟩
    rcases h2 with rfl | k
    · exact .parent e
    · exact .step e k

/-- If the tree is projective and all conjuncts follow their heads, the tree is projective afterwards. -/
theorem C147_projective_partial (hi : Inv h) (hr : IsTree h r) (hproj : ∀ x ∈ h.words r, ¬ NonProj h r x)
    (hhead : ∀ c ∈ h.words r, d c = some rConj → ∀ p, h.parent c = some p → h.ord p < h.ord c) :
    ∃ h', coordTree d lemma h r = (h', none) ∧ ∀ x ∈ h.words r, ¬ NonProj h' r x := by
  have w := hi r hr
  obtain ⟨h', e, -, w', o', hres⟩ := result (d := d) (lemma := lemma) hi hr
  refine ⟨h', e, ?_⟩
  have hstep : ∀ y ∈ h.words r, ∀ p, h.parent y = some p → h'.parent y = some p ∨
      (isDelim d lemma y = true ∧ ∃ c, Target h d r y p c ∧ h'.parent y = some c ∧ h'.parent c = some p) := by
    intro y hy p hp
    obtain ⟨h1, h2⟩ := hres y hy p hp
    by_cases hT : isDelim d lemma y = true ∧ ∃ c, Target h d r y p c
    · obtain ⟨hd, c, hc⟩ := hT
      refine .inr ⟨hd, c, hc, h1 hd c hc, ?_⟩
      exact (hres c hc.1 p hc.2.1).2 (fun k => absurd k (by simp [not_delim_conj hc.2.2.1]))
    · exact .inl (h2 (fun hd c hc => hT ⟨hd, c, hc⟩))
  have hanc : ∀ a y, Anc h a y → y ∈ h.words r → Anc h' a y := by
    intro a y ha
    induction ha with
    | @parent y e =>
      intro hy
      rcases hstep y hy _ e with k | ⟨-, c, -, k1, k2⟩
      · exact .parent k
      · exact .step k1 (.parent k2)
    | @step y q e ha ih =>
      intro hy
      have hq : q ∈ h.words r := w.word_of_anc (w.parent_in hy e) ha
      rcases hstep y hy _ e with k | ⟨-, c, -, k1, k2⟩
      · exact .step k (ih hq)
      · exact .step k1 (.step k2 (ih hq))
  rintro x hx ⟨q, hq, y, hy, hb, hny⟩
  rw [w'] at hy
  unfold Between at hb
  rw [o'] at hb
  obtain ⟨p, hp, hpin⟩ := w.parentIn x hx
  rcases hstep x hx p hp with k | ⟨hd, c, hT, k1, k2⟩
  · -- the edge is an old one
    rw [k] at hq
    obtain rfl := Option.some.inj hq
    refine hny (hanc _ _ (Classical.byContradiction (fun k' => hproj x hx ⟨p, hp, y, hy, hb, k'⟩)) hy)
  · rw [k1] at hq
    obtain rfl := Option.some.inj hq
    obtain ⟨c1, c2, c3, c4, c5, c6⟩ := hT
    have hpc := hhead c c1 c3 p c2
    have hpx : h.ord p < h.ord x := by
      rcases Nat.lt_trichotomy (h.ord p) (h.ord x) with k | k | k
      · exact k
      · have := w.ord_inj hpin (.inr hx) k
        subst this
        exact absurd (Anc.parent hp) (w.anc_irrefl hpin)
      · exact absurd ⟨k, fun z hz hzp hzc => Nat.lt_trans k (hhead z hz hzc p hzp)⟩ c6
    have hb' : h.ord x < h.ord y ∧ h.ord y < h.ord c := by
      rcases hb with k | k
      · exact k
      · omega
    have hpy : Anc h p y := Classical.byContradiction (fun k' => hproj c c1 ⟨p, c2, y, hy, .inr ⟨by omega, hb'.2⟩, k'⟩)
    obtain ⟨s, hsp, hsy⟩ := child_above hpy
    have hsw : s ∈ h.words r := by
      rcases hsy with rfl | k
      · exact hy
      · exact (w.anc_in (.inr hy) k).resolve_left (fun e => by
          subst e
          rw [w.rootParent] at hsp
          cases hsp)
    have hcs : ∀ z ∈ h.words r, h.parent z = some p → z ≠ s → ¬ InSubtree h s z := by
      rintro z hz hzp hzs (k | k)
      · exact hzs k
      · rcases anc_iff.1 k with ⟨p', hp', e'⟩
        rw [hzp] at hp'
        obtain rfl := Option.some.inj hp'
        rcases e' with rfl | e'
        · exact w.anc_irrefl hpin (.parent hsp)
        · exact w.anc_irrefl hpin (.trans (.parent hsp) e')
    have hcv : ∀ z ∈ h.words r, h.parent z = some p → z ≠ s → ¬ Between h s y z := by
      intro z hz hzp hzs hbz
      rcases hsy with e | k
      · subst e
        rcases hbz with k | k <;> omega
      · exact hcs z hz hzp hzs (convex w hproj hsw k hy hz hbz)
    -- `s` lies between `x` and `c`, or is one of them
    have hcsub : ∀ s', h'.parent s' = some c → InSubtree h s' y → Anc h' c y := by
      intro s' h1 h2
      rcases h2 with rfl | k
      · exact .parent h1
      · exact .trans (.parent h1) (hanc _ _ k hy)
    by_cases hsx : s = x
    · subst hsx
      exact hny (hcsub s k1 hsy)
    · by_cases hsc : s = c
      · subst hsc
        rcases hsy with e | k
        · subst e
          omega
        · exact hny (hanc _ _ k hy)
      · have hlt1 : h.ord x < h.ord s := by
          rcases Nat.lt_trichotomy (h.ord x) (h.ord s) with k | k | k
          · exact k
          · exact absurd (w.ord_inj (.inr hsw) (.inr hx) k.symm) hsx
          · exact absurd (.inl ⟨k, hb'.1⟩) (hcv x hx hp (fun e => hsx e.symm))
        have hlt2 : h.ord s < h.ord c := by
          rcases Nat.lt_trichotomy (h.ord s) (h.ord c) with k | k | k
          · exact k
          · exact absurd (w.ord_inj (.inr hsw) (.inr c1) k) hsc
          · exact absurd (.inr ⟨hb'.2, k⟩) (hcv c c1 c2 (fun e => hsc e.symm))
        have hcc := c5 s hsw hsp hlt1 hlt2
        have hTs : Target h d r s p c := by
          refine ⟨c1, c2, c3, hlt2, fun z hz hzp h1 h2 => c5 z hz hzp (by omega) h2, fun k => ?_⟩
          omega
        have hds : isDelim d lemma s = true := by
          unfold isDelim
          simp [hcc]
        exact hny (hcsub s ((hres s hsw p hsp).1 hds c hTs) hsy)

/-- If the first conjunct precedes the head, which lies between a conjunction and the next conjunct, the block makes the tree non-projective. -/
theorem C147_before_violated (hi : Inv h) (hr : IsTree h r) {c0 n p c : Nat} (h0 : c0 ∈ h.words r) (hn : n ∈ h.words r) (hp : p ∈ h.words r)
    (hc : c ∈ h.words r) (p0 : h.parent c0 = some p) (pn : h.parent n = some p) (pc : h.parent c = some p) (d0 : d c0 = some rConj) (dn : d n = some rCc)
    (dc : d c = some rConj) (o1 : h.ord c0 < h.ord n) (o2 : h.ord n < h.ord p) (o3 : h.ord p < h.ord c)
    (hno : ∀ z ∈ h.words r, h.parent z = some p → h.ord n < h.ord z → h.ord z < h.ord c → d z = some rCc) :
    ∃ h', coordTree d lemma h r = (h', none) ∧ NonProj h' r n := by
  have w := hi r hr
  obtain ⟨h', e, wf', w', o', hres⟩ := result (d := d) (lemma := lemma) hi hr
  refine ⟨h', e, c, ?_, p, by rw [w']; exact hp, ?_, ?_⟩
  · refine (hres n hn p pn).1 (by unfold isDelim; simp [dn]) c ⟨hc, pc, dc, by omega, hno, fun k => ?_⟩
    have := k.2 c0 h0 p0 d0
    omega
  · unfold Between
    rw [o']
    exact .inl ⟨o2, o3⟩
  · intro ha
    have : h'.parent c = some p := (hres c hc p pc).2 (fun k => absurd k (by simp [not_delim_conj dc]))
    exact wf'.anc_irrefl (.inr (by rw [w']; exact hc)) (.step this ha)

theorem isDelim_iff {n : Nat} : isDelim d lemma n = true ↔ Delim d lemma n := by
  unfold isDelim Delim
  simp

/-- No exception is raised, the words and their order stay, and the tree is well formed again. Commas, semicolons and conjunctions with a target
depend on it afterwards; all other words keep their parents. -/
theorem C147_result (hi : Inv h) (hr : IsTree h r) :
    ∃ h', coordTree d lemma h r = (h', none) ∧ WF h' r ∧ h'.words = h.words ∧ h'.ord = h.ord ∧
      ∀ n ∈ h.words r, ∀ p, h.parent n = some p →
        (Delim d lemma n → ∀ c, Target h d r n p c → h'.parent n = some c) ∧
        ((Delim d lemma n → ∀ c, ¬ Target h d r n p c) → h'.parent n = some p) := by
  simp only [← isDelim_iff]
  exact result hi hr

end Lemmas

/-- 1 "apples", 2 "," 3 "pears" 4 "and" 5 "plums": all below 1. -/
def exCo : Heap := runOps Heap.init [.newTree, .createChild 0, .createChild 1, .createChild 1, .createChild 1, .createChild 1]

def exCoD : Rels := fun x => if x = 2 then some rPunct else if x = 4 then some rCc else if x = 1 then some ['r'] else some rConj

example : let res := coordTree exCoD (fun _ => some [',']) exCo 0
    res.2 = none ∧ [1, 2, 3, 4, 5].map res.1.parent = [some 0, some 3, some 1, some 5, some 1] := by decide

end Verif.Blocks.Coord
