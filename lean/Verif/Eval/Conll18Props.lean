import Verif.Eval.Conll18

/-!
# Property C114: what `eval.Conll18` and `eval.Conll17` count
-/

namespace Verif.Eval
namespace Conll
open Verif.Py Verif.Coref Diff

/-! ## Specification -/

/-- Two nodes (by their ords) correspond: both are the technical root, or they are aligned. -/
def Corr (al : List (Nat × Nat)) (x y : Nat) : Prop := (x = 0 ∧ y = 0) ∨ ∃ p ∈ al, x = p.1 + 1 ∧ y = p.2 + 1

/-- The alignment: words with the same lowercased form, in the same order. -/
def IsAlignment (lower : Str → Str) (pred gold : List Word) (al : List (Nat × Nat)) : Prop :=
  al.Pairwise (fun p q => p.1 < q.1 ∧ p.2 < q.2) ∧
  ∀ x ∈ al, x.1 < pred.length ∧ x.2 < gold.length ∧ lower (wordAt pred x.1).form = lower (wordAt gold x.2).form

/-- The parent was found. -/
def SameHead (pred gold : List Word) (al : List (Nat × Nat)) (x : Nat × Nat) : Prop :=
  Corr al (wordAt pred x.1).parent (wordAt gold x.2).parent ∧ (wordAt pred x.1).rehanged = false

/-- The parent and the universal relation were found. -/
def SameEdge (pred gold : List Word) (al : List (Nat × Nat)) (x : Nat × Nat) : Prop :=
  SameHead pred gold al x ∧ (wordAt pred x.1).udeprel = (wordAt gold x.2).udeprel

/-- The same multiset of universal features. -/
def SameFeats (a b : Str) : Prop := ((split '|' a).filter isUniv).Perm ((split '|' b).filter isUniv)

/-- The same part of speech and universal features. -/
def SameMorph (p g : Word) : Prop := p.upos = g.upos ∧ SameFeats p.feats g.feats

/-- A function word depending on the node at position `i`. -/
def FuncChild (ws : List Word) (i c : Nat) : Prop :=
  c < ws.length ∧ (wordAt ws c).parent = i + 1 ∧ inSet functional (wordAt ws c).udeprel = true

/-- The function words depending on the two words correspond to each other, including their relations and morphology. -/
def SameFunc (pred gold : List Word) (al : List (Nat × Nat)) (x : Nat × Nat) : Prop :=
  (∀ c, FuncChild pred x.1 c → (wordAt pred c).rehanged = false → ∃ d, FuncChild gold x.2 d ∧ (c, d) ∈ al ∧
    (wordAt pred c).udeprel = (wordAt gold d).udeprel ∧ SameMorph (wordAt pred c) (wordAt gold d)) ∧
  (∀ d, FuncChild gold x.2 d → ∃ c, FuncChild pred x.1 c ∧ (wordAt pred c).rehanged = false ∧ (c, d) ∈ al ∧
    (wordAt pred c).udeprel = (wordAt gold d).udeprel ∧ SameMorph (wordAt pred c) (wordAt gold d))

/-! ## The alignment -/

theorem wordAt_lt {ws : List Word} {i : Nat} (h : i < ws.length) : wordAt ws i = ws[i] := by
  simp [wordAt, List.getD, h]

theorem align_inc (lower : Str → Str) (pred gold : List Word) :
    (align lower pred gold).Pairwise (fun p q => p.1 < q.1 ∧ p.2 < q.2) :=
  (aligned_spec _ _).inc

/-- C114: only words with the same lowercased form are aligned, and in the same order. -/
theorem C114_alignment (lower : Str → Str) (pred gold : List Word) :
    IsAlignment lower pred gold (align lower pred gold) := by
  refine ⟨align_inc lower pred gold, ?_⟩
  intro x hx
  obtain ⟨h1, h2, h3⟩ := (aligned_spec _ _).same x hx
  simp only [List.length_map] at h1 h2
  refine ⟨h1, h2, ?_⟩
  rw [List.getElem?_map, List.getElem?_map, List.getElem?_eq_getElem h1, List.getElem?_eq_getElem h2] at h3
  rw [wordAt_lt h1, wordAt_lt h2]
  simpa using h3

theorem lookup_unique {β : Type} : ∀ {l : List (Nat × β)} {x : Nat} {y : β}, l.Pairwise (fun p q => p.1 ≠ q.1) →
    (l.lookup x = some y ↔ (x, y) ∈ l)
  | [], _, _, _ => by simp
  | (a, b) :: l, x, y, h => by
    rw [List.pairwise_cons] at h
    rw [List.lookup_cons]
    by_cases e : x = a
    · subst e
      simp only [beq_self_eq_true, List.mem_cons, Prod.mk.injEq, true_and]
      constructor
      · intro h'; left; simpa using h'.symm
      · rintro (h' | h')
        · simp [h']
        · exact (h.1 (x, y) h' rfl).elim
    · have : (x == a) = false := by simpa using e
      rw [this]
      simp only [List.mem_cons, Prod.mk.injEq, e, false_and, false_or]
      exact lookup_unique h.2

theorem mapGet_iff {al : List (Nat × Nat)} (h : al.Pairwise (fun p q => p.1 < q.1 ∧ p.2 < q.2)) {x y : Nat} :
    mapGet al x = some y ↔ Corr al x y := by
  unfold mapGet
  rw [lookup_unique]
  · rw [List.mem_reverse, List.mem_cons, List.mem_map, Prod.mk.injEq]
    unfold Corr
    constructor
    · rintro (h | ⟨p, hp, e⟩)
      · exact Or.inl h
      · rw [Prod.mk.injEq] at e; exact Or.inr ⟨p, hp, e.1.symm, e.2.symm⟩
    · rintro (h | ⟨p, hp, e1, e2⟩)
      · exact Or.inl h
      · exact Or.inr ⟨p, hp, by rw [e1, e2]⟩
  · rw [List.pairwise_reverse, List.pairwise_cons]
    constructor
    · intro q hq
      obtain ⟨p, _, rfl⟩ := List.mem_map.1 hq
      simp
    · rw [List.pairwise_map]
      exact h.imp (fun {p q} hpq => by simp only; omega)

/-! ## The features -/

theorem strLe_trans (a b c : Str) (h1 : strLe a b = true) (h2 : strLe b c = true) : strLe a c = true := by
  simp only [strLe, Bool.not_eq_true'] at *
  cases h : strLt c a with
  | false => rfl
  | true =>
    cases h3 : strLt a b with
    | true => rw [strLt_trans h h3] at h2; cases h2
    | false => rw [strLt_total h3 h1] at h; rw [h] at h2; cases h2

theorem strLe_total (a b : Str) : strLe a b = true ∨ strLe b a = true := by
  simp only [strLe, Bool.not_eq_true']
  cases h : strLt b a with
  | false => exact Or.inl rfl
  | true =>
    right
    cases h2 : strLt a b with
    | false => rfl
    | true =>
      have h3 := strLt_trans h h2
      rw [strLt_irrefl] at h3
      cases h3

theorem strLe_antisymm {a b : Str} (h1 : strLe a b = true) (h2 : strLe b a = true) : a = b := by
  simp only [strLe, Bool.not_eq_true'] at *
  exact strLt_total h2 h1

theorem sorted_unique : ∀ {l m : List Str}, l.Pairwise (fun x y => strLe x y = true) →
    m.Pairwise (fun x y => strLe x y = true) → l.Perm m → l = m
  | [], m, _, _, h => (List.nil_perm.1 h).symm
  | a :: l, [], _, _, h => absurd h.symm (by simp)
  | a :: l, b :: m, h1, h2, h => by
    rw [List.pairwise_cons] at h1 h2
    have e : a = b := by
      rcases List.mem_cons.1 (h.mem_iff.1 (List.mem_cons_self (a := a) (l := l))) with e | e
      · exact e
      · rcases List.mem_cons.1 (h.symm.mem_iff.1 (List.mem_cons_self (a := b) (l := m))) with e' | e'
        · exact e'.symm
        · exact strLe_antisymm (h1.1 b e') (h2.1 a e)
    subst e
    rw [sorted_unique h1.2 h2.2 (List.Perm.cons_inv h)]

theorem join_inj {ps qs : List Str} (hp : ∀ p ∈ ps, '|' ∉ p ∧ p ≠ []) (hq : ∀ p ∈ qs, '|' ∉ p ∧ p ≠ [])
    (h : join ['|'] ps = join ['|'] qs) : ps = qs := by
  have nil : ∀ {rs : List Str}, (∀ p ∈ rs, '|' ∉ p ∧ p ≠ []) → join ['|'] rs = [] → rs = [] := by
    intro rs hr e
    rcases join_eq_nil (by simp) e with e | e
    · exact e
    · exact absurd rfl ((hr [] (by simp [e])).2)
  by_cases h1 : ps = []
  · subst h1; exact (nil hq h.symm).symm
  · by_cases h2 : qs = []
    · subst h2; exact nil hp h
    · rw [← split_join h1 (fun p hx => (hp p hx).1), h, split_join h2 (fun p hx => (hq p hx).1)]

/-- C114: `_ufeats` compares exactly the universal features, in any order. -/
theorem C114_feats (a b : Str) : ufeats a = ufeats b ↔ SameFeats a b := by
  have ok : ∀ s : Str, ∀ p ∈ pySort strLe ((split '|' s).filter isUniv), '|' ∉ p ∧ p ≠ [] := by
    intro s p hp
    rw [mem_pySort, List.mem_filter] at hp
    refine ⟨not_mem_split '|' s p hp.1, ?_⟩
    rintro rfl
    exact absurd hp.2 (by decide)
  constructor
  · intro h
    have := join_inj (ok a) (ok b) h
    exact (pySort_perm strLe _).symm.trans (this ▸ pySort_perm strLe _)
  · intro h
    unfold ufeats
    congr 1
    exact sorted_unique (pySort_pairwise strLe_trans strLe_total _) (pySort_pairwise strLe_trans strLe_total _)
      ((pySort_perm strLe _).trans (h.trans (pySort_perm strLe _).symm))

/-! ## Function words -/

/-- Two increasing lists related by an order-preserving relation both ways correspond item by item. -/
theorem zip_of_mono {R : Nat → Nat → Prop} (mono : ∀ p g p' g', R p g → R p' g' → (p < p' ↔ g < g')) :
    ∀ {ps gs : List Nat}, ps.Pairwise (· < ·) → gs.Pairwise (· < ·) →
    ((ps.length = gs.length ∧ ∀ x ∈ ps.zip gs, R x.1 x.2) ↔
      ((∀ p ∈ ps, ∃ g ∈ gs, R p g) ∧ ∀ g ∈ gs, ∃ p ∈ ps, R p g))
  | [], [], _, _ => by simp
  | [], g :: gs, _, _ => by
    constructor
    · intro h; simp at h
    · rintro ⟨_, h⟩
      obtain ⟨p, hp, _⟩ := h g (by simp)
      exact absurd hp List.not_mem_nil
  | p :: ps, [], _, _ => by
    constructor
    · intro h; simp at h
    · rintro ⟨h, _⟩
      obtain ⟨g, hg, _⟩ := h p (by simp)
      exact absurd hg List.not_mem_nil
  | p :: ps, g :: gs, h1, h2 => by
    rw [List.pairwise_cons] at h1 h2
    have ih := zip_of_mono mono h1.2 h2.2
    simp only [List.zip_cons_cons, List.length_cons, Nat.add_right_cancel_iff]
    constructor
    · rintro ⟨hl, hz⟩
      obtain ⟨i1, i2⟩ := ih.1 ⟨hl, fun x hx => hz x (by simp [hx])⟩
      have h0 := hz (p, g) (by simp)
      constructor
      · intro p' hp'
        rcases List.mem_cons.1 hp' with rfl | hp'
        · exact ⟨g, by simp, h0⟩
        · obtain ⟨g', hg', r⟩ := i1 p' hp'
          exact ⟨g', by simp [hg'], r⟩
      · intro g' hg'
        rcases List.mem_cons.1 hg' with rfl | hg'
        · exact ⟨p, by simp, h0⟩
        · obtain ⟨p', hp', r⟩ := i2 g' hg'
          exact ⟨p', by simp [hp'], r⟩
    · rintro ⟨i1, i2⟩
      have h0 : R p g := by
        obtain ⟨g', hg', r⟩ := i1 p (by simp)
        obtain ⟨p', hp', r'⟩ := i2 g (by simp)
        rcases List.mem_cons.1 hp' with rfl | hp'
        · exact r'
        · have := (mono _ _ _ _ r r').1 (h1.1 p' hp')
          rcases List.mem_cons.1 hg' with rfl | hg'
          · omega
          · have := h2.1 g' hg'; omega
      have key := ih.2 ⟨by
        intro p' hp'
        obtain ⟨g', hg', r⟩ := i1 p' (by simp [hp'])
        rcases List.mem_cons.1 hg' with rfl | hg'
        · have := (mono _ _ _ _ h0 r).1 (h1.1 p' hp'); omega
        · exact ⟨g', hg', r⟩, by
        intro g' hg'
        obtain ⟨p', hp', r⟩ := i2 g' (by simp [hg'])
        rcases List.mem_cons.1 hp' with rfl | hp'
        · have := (mono _ _ _ _ h0 r).2 (h2.1 g' hg'); omega
        · exact ⟨p', hp', r⟩⟩
      refine ⟨key.1, ?_⟩
      intro x hx
      rcases List.mem_cons.1 hx with rfl | hx
      · exact h0
      · exact key.2 x hx

theorem mem_kids {ws : List Word} {o : Nat} {f : Word → Bool} {c : Nat} :
    c ∈ kids ws o f ↔ c < ws.length ∧ (wordAt ws c).parent = o ∧ f (wordAt ws c) = true := by
  simp [kids]

theorem kids_sorted (ws : List Word) (o : Nat) (f : Word → Bool) : (kids ws o f).Pairwise (· < ·) :=
  List.Pairwise.filter _ List.pairwise_lt_range

theorem inc_mono {al : List (Nat × Nat)} (h : al.Pairwise (fun p q => p.1 < q.1 ∧ p.2 < q.2)) {p q : Nat × Nat}
    (hp : p ∈ al) (hq : q ∈ al) : (p.1 < q.1 ↔ p.2 < q.2) ∧ (p.1 = q.1 ↔ p.2 = q.2) := by
  induction al with
  | nil => exact absurd hp List.not_mem_nil
  | cons a al ih =>
    rw [List.pairwise_cons] at h
    rcases List.mem_cons.1 hp with rfl | hp'
    · rcases List.mem_cons.1 hq with rfl | hq'
      · simp
      · have := h.1 q hq'; omega
    · rcases List.mem_cons.1 hq with rfl | hq'
      · have := h.1 p hp'; omega
      · exact ih h.2 hp' hq'

/-- What a pair of children has to satisfy. -/
def ChildOk (pred gold : List Word) (al : List (Nat × Nat)) (c d : Nat) : Prop :=
  (c, d) ∈ al ∧ (wordAt pred c).udeprel = (wordAt gold d).udeprel ∧ SameMorph (wordAt pred c) (wordAt gold d)

theorem corr_succ {al : List (Nat × Nat)} {c d : Nat} : Corr al (c + 1) (d + 1) ↔ (c, d) ∈ al := by
  unfold Corr
  constructor
  · rintro (h | ⟨p, hp, h1, h2⟩)
    · omega
    · have : p = (c, d) := Prod.ext (by omega) (by omega)
      exact this ▸ hp
  · intro h
    exact Or.inr ⟨(c, d), h, rfl, rfl⟩

theorem childrenMatch_iff {pred gold : List Word} {al : List (Nat × Nat)}
    (h : al.Pairwise (fun p q => p.1 < q.1 ∧ p.2 < q.2)) : ∀ (l : List (Nat × Nat)),
    childrenMatch pred gold al l = true ↔ ∀ x ∈ l, ChildOk pred gold al x.1 x.2
  | [] => by simp [childrenMatch]
  | (c, d) :: l => by
    have ih := childrenMatch_iff (pred := pred) (gold := gold) h l
    have hm : mapGet al (c + 1) = some (d + 1) ↔ (c, d) ∈ al := by rw [mapGet_iff h, corr_succ]
    unfold childrenMatch
    constructor
    · intro e
      split at e
      · cases e
      · next e1 =>
        split at e
        · cases e
        · next e2 =>
          split at e
          · cases e
          · next e3 =>
            intro x hx
            rcases List.mem_cons.1 hx with rfl | hx
            · simp only [Classical.not_not, not_or] at e1 e2 e3
              exact ⟨hm.1 e1, e2, e3.1, (C114_feats _ _).1 e3.2⟩
            · exact ih.1 e x hx
    · intro e
      obtain ⟨h1, h2, h3, h4⟩ := e (c, d) (by simp)
      have h4' := (C114_feats _ _).2 h4
      simp only at h1 h2 h3 h4'
      rw [if_neg (by simpa using hm.2 h1), if_neg (by simpa using h2), if_neg (by simp [h3, h4'])]
      exact ih.2 (fun x hx => e x (by simp [hx]))

theorem morphoMatch_iff {pred gold : List Word} {al : List (Nat × Nat)}
    (h : al.Pairwise (fun p q => p.1 < q.1 ∧ p.2 < q.2)) (x : Nat × Nat) :
    morphoMatch pred gold al x.1 x.2 = true ↔
      SameMorph (wordAt pred x.1) (wordAt gold x.2) ∧ SameFunc pred gold al x := by
  have mono : ∀ p g p' g', ChildOk pred gold al p g → ChildOk pred gold al p' g' → (p < p' ↔ g < g') :=
    fun p g p' g' h1 h2 => (inc_mono h h1.1 h2.1).1
  have z := zip_of_mono mono (kids_sorted pred (x.1 + 1) (fun w => inSet functional w.udeprel && !w.rehanged))
    (kids_sorted gold (x.2 + 1) (fun w => inSet functional w.udeprel))
  have fp : ∀ c, c ∈ kids pred (x.1 + 1) (fun w => inSet functional w.udeprel && !w.rehanged) ↔
      FuncChild pred x.1 c ∧ (wordAt pred c).rehanged = false := by
    intro c; rw [mem_kids]; simp [FuncChild, and_assoc]
  have fg : ∀ c, c ∈ kids gold (x.2 + 1) (fun w => inSet functional w.udeprel) ↔ FuncChild gold x.2 c := by
    intro c; rw [mem_kids]; simp [FuncChild]
  have s0 : SameFunc pred gold al x ↔
    ((∀ p ∈ kids pred (x.1 + 1) (fun w => inSet functional w.udeprel && !w.rehanged),
        ∃ g ∈ kids gold (x.2 + 1) (fun w => inSet functional w.udeprel), ChildOk pred gold al p g) ∧
      ∀ g ∈ kids gold (x.2 + 1) (fun w => inSet functional w.udeprel),
        ∃ p ∈ kids pred (x.1 + 1) (fun w => inSet functional w.udeprel && !w.rehanged), ChildOk pred gold al p g) := by
    unfold SameFunc ChildOk
    simp only [fp, fg]
    constructor
    · rintro ⟨a, b⟩
      refine ⟨fun p hp => a p hp.1 hp.2, fun g hg => ?_⟩
      obtain ⟨c, c1, c2, c3⟩ := b g hg
      exact ⟨c, ⟨c1, c2⟩, c3⟩
    · rintro ⟨a, b⟩
      refine ⟨fun p hp hp' => a p ⟨hp, hp'⟩, fun g hg => ?_⟩
      obtain ⟨c, ⟨c1, c2⟩, c3⟩ := b g hg
      exact ⟨c, c1, c2, c3⟩
  have s := s0.trans z.symm
  rw [s]
  unfold morphoMatch
  constructor
  · intro e
    split at e
    · cases e
    · next e1 =>
      simp only at e
      split at e
      · cases e
      · next e2 =>
        simp only [Classical.not_not, not_or] at e1 e2
        exact ⟨⟨e1.1, (C114_feats _ _).1 e1.2⟩, e2, (childrenMatch_iff h _).1 e⟩
  · rintro ⟨⟨e1, e2⟩, e3, e4⟩
    have e2' := (C114_feats _ _).2 e2
    rw [if_neg (by simp [e1, e2'])]
    simp only
    rw [if_neg (by simpa using e3)]
    exact (childrenMatch_iff h _).2 e4

/-! ## The counts -/

theorem fold_add {φ : Count → Nat} (hφ : ∀ a b, φ (a.add b) = φ a + φ b) : ∀ (l : List Count) (c : Count),
    φ (l.foldl Count.add c) = φ c + (l.map φ).sum
  | [], c => by simp
  | a :: l, c => by
    rw [List.foldl_cons, fold_add hφ l, hφ, List.map_cons, List.sum_cons]
    omega

open Classical in
/-- How many items have a property. -/
noncomputable def howMany {β : Type} (l : List β) (P : β → Prop) : Nat := l.countP (fun x => decide (P x))

theorem howMany_sum {β : Type} (P : β → Prop) (f : β → Nat) (h : ∀ x, (P x → f x = 1) ∧ (¬ P x → f x = 0)) :
    ∀ l : List β, (l.map f).sum = howMany l P
  | [] => rfl
  | x :: l => by
    have ih := howMany_sum P f h l
    unfold howMany at ih ⊢
    rw [List.map_cons, List.sum_cons, ih, List.countP_cons]
    by_cases e : P x
    · rw [(h x).1 e]; simp [e]; omega
    · rw [(h x).2 e]; simp [e]

theorem howMany_filter {β : Type} (f : β → Bool) (l : List β) : (l.filter f).length = howMany l (fun x => f x = true) := by
  unfold howMany
  rw [List.countP_eq_length_filter]
  congr 2
  funext x
  cases h : f x <;> simp [h]

theorem howMany_le {β : Type} {al : List β} {P Q : β → Prop} (h : ∀ x ∈ al, P x → Q x) :
    howMany al P ≤ howMany al Q := by
  unfold howMany
  exact List.countP_mono_left (fun x hx hp => by simpa using h x hx (by simpa using hp))

theorem howMany_le_length {β : Type} (al : List β) (P : β → Prop) : howMany al P ≤ al.length :=
  List.countP_le_length

theorem howMany_all {β : Type} {al : List β} {P : β → Prop} : howMany al P = al.length ↔ ∀ x ∈ al, P x := by
  unfold howMany
  rw [List.countP_eq_length]
  simp

/-- The lemma agrees: an underscore in the gold data agrees with everything. -/
def SameLemma (p g : Word) : Prop := g.lemma = ['_'] ∨ p.lemma = g.lemma

/-- A content word according to the gold data. -/
def Content (w : Word) : Prop := inSet content w.udeprel = true

theorem nest {a : Prop} [Decidable a] {n : Nat} (h : a → n = 0) : (if a then n else 0) = 0 := by
  split
  · exact h (by assumption)
  · rfl

attribute [local irreducible] ufeats mapGet morphoMatch inSet

theorem meaning_aux {pred gold : List Word} {al : List (Nat × Nat)}
    (hi : al.Pairwise (fun p q => p.1 < q.1 ∧ p.2 < q.2)) (c : Count)
    (hc : c = (al.map (pairCount pred gold al)).foldl Count.add (baseCount pred gold al)) :
    c.pred = pred.length ∧ c.gold = gold.length ∧ c.words = al.length ∧
    c.predCont = howMany pred Content ∧ c.goldCont = howMany gold Content ∧
    c.aligCont = howMany al (fun x => Content (wordAt gold x.2)) ∧
    c.upos = howMany al (fun x => (wordAt pred x.1).upos = (wordAt gold x.2).upos) ∧
    c.xpos = howMany al (fun x => (wordAt pred x.1).xpos = (wordAt gold x.2).xpos) ∧
    c.lemmas = howMany al (fun x => SameLemma (wordAt pred x.1) (wordAt gold x.2)) ∧
    c.ufeats = howMany al (fun x => SameFeats (wordAt pred x.1).feats (wordAt gold x.2).feats) ∧
    c.allTags = howMany al (fun x => (wordAt pred x.1).upos = (wordAt gold x.2).upos ∧ (wordAt pred x.1).xpos = (wordAt gold x.2).xpos ∧
      SameFeats (wordAt pred x.1).feats (wordAt gold x.2).feats) ∧
    c.uas = howMany al (SameHead pred gold al) ∧
    c.las = howMany al (SameEdge pred gold al) ∧
    c.clas = howMany al (fun x => SameEdge pred gold al x ∧ Content (wordAt gold x.2)) ∧
    c.blex = howMany al (fun x => (SameEdge pred gold al x ∧ Content (wordAt gold x.2)) ∧ SameLemma (wordAt pred x.1) (wordAt gold x.2)) ∧
    c.mlas = howMany al (fun x => (SameEdge pred gold al x ∧ Content (wordAt gold x.2)) ∧ SameMorph (wordAt pred x.1) (wordAt gold x.2) ∧
      SameFunc pred gold al x ∧ (wordAt pred x.1).funcMissing = false) := by
  have hd : ∀ x : Nat × Nat, (decide (mapGet al (wordAt pred x.1).parent = some (wordAt gold x.2).parent) && !(wordAt pred x.1).rehanged) = true ↔
      SameHead pred gold al x := by
    intro x
    rw [Bool.and_eq_true, decide_eq_true_iff, mapGet_iff hi, Bool.not_eq_true']
    rfl
  have hf : ∀ x : Nat × Nat, (Conll.ufeats (wordAt pred x.1).feats = Conll.ufeats (wordAt gold x.2).feats) ↔ SameFeats (wordAt pred x.1).feats (wordAt gold x.2).feats :=
    fun x => C114_feats _ _
  have base : ∀ (φ : Count → Nat) (P : Nat × Nat → Prop), (∀ a b, φ (a.add b) = φ a + φ b) →
      φ (baseCount pred gold al) = 0 →
      (∀ x, (P x → φ (pairCount pred gold al x) = 1) ∧ (¬ P x → φ (pairCount pred gold al x) = 0)) →
      φ c = howMany al P := by
    intro φ P h1 h2 h3
    rw [hc, fold_add h1, List.map_map]
    have h4 := howMany_sum P (φ ∘ pairCount pred gold al) h3 al
    exact (congrArg (· + _) h2).trans ((Nat.zero_add _).trans h4)
  have fix : ∀ (φ : Count → Nat), (∀ a b, φ (a.add b) = φ a + φ b) → (∀ x, φ (pairCount pred gold al x) = 0) →
      φ c = φ (baseCount pred gold al) := by
    intro φ h1 h2
    rw [hc, fold_add h1, List.map_map]
    have : (List.map (φ ∘ pairCount pred gold al) al).sum = 0 := by
      rw [List.sum_eq_zero_iff_forall_eq_nat]
      intro n hn
      obtain ⟨x, _, rfl⟩ := List.mem_map.1 hn
      exact h2 x
    rw [this, Nat.add_zero]
  refine ⟨fix (·.pred) (fun _ _ => rfl) (fun _ => rfl), fix (·.gold) (fun _ _ => rfl) (fun _ => rfl),
    fix (·.words) (fun _ _ => rfl) (fun _ => rfl), ?_, ?_, ?_, ?_, ?_, ?_, ?_, ?_, ?_, ?_, ?_, ?_, ?_⟩
  · rw [fix (·.predCont) (fun _ _ => rfl) (fun _ => rfl)]; exact howMany_filter _ _
  · rw [fix (·.goldCont) (fun _ _ => rfl) (fun _ => rfl)]; exact howMany_filter _ _
  · rw [fix (·.aligCont) (fun _ _ => rfl) (fun _ => rfl)]; exact howMany_filter _ _
  · refine base (·.upos) _ (fun _ _ => rfl) rfl (fun x => ⟨fun h => if_pos h, fun h => if_neg h⟩)
  · refine base (·.xpos) _ (fun _ _ => rfl) rfl (fun x => ⟨fun h => if_pos h, fun h => if_neg h⟩)
  · refine base (·.lemmas) _ (fun _ _ => rfl) rfl (fun x => ⟨fun h => if_pos h, fun h => if_neg h⟩)
  · refine base (·.ufeats) _ (fun _ _ => rfl) rfl (fun x => ⟨fun h => if_pos ?_, fun h => if_neg ?_⟩)
    · exact decide_eq_true ((hf x).2 h)
    · intro e; exact h ((hf x).1 (of_decide_eq_true e))
  · refine base (·.allTags) _ (fun _ _ => rfl) rfl (fun x => ⟨fun h => if_pos ?_, fun h => if_neg ?_⟩)
    · exact ⟨decide_eq_true ((hf x).2 h.2.2), h.1, h.2.1⟩
    · intro e; exact h ⟨e.2.1, e.2.2, (hf x).1 (of_decide_eq_true e.1)⟩
  · refine base (·.uas) _ (fun _ _ => rfl) rfl (fun x => ⟨fun h => if_pos ((hd x).2 h), fun h => if_neg (fun e => h ((hd x).1 e))⟩)
  · refine base (·.las) _ (fun _ _ => rfl) rfl (fun x => ⟨fun h => ?_, fun h => ?_⟩)
    · exact (if_pos ((hd x).2 h.1)).trans (if_pos h.2)
    · exact nest fun e1 => if_neg fun e2 => h ⟨(hd x).1 e1, e2⟩
  · refine base (·.clas) _ (fun _ _ => rfl) rfl (fun x => ⟨fun h => ?_, fun h => ?_⟩)
    · exact (if_pos ((hd x).2 h.1.1)).trans ((if_pos h.1.2).trans (if_pos h.2))
    · exact nest fun e1 => nest fun e2 => if_neg fun e3 => h ⟨⟨(hd x).1 e1, e2⟩, e3⟩
  · refine base (·.blex) _ (fun _ _ => rfl) rfl (fun x => ⟨fun h => ?_, fun h => ?_⟩)
    · refine (if_pos ((hd x).2 h.1.1.1)).trans ((if_pos h.1.1.2).trans ((if_pos h.1.2).trans (if_pos ?_)))
      exact h.2.imp_right Eq.symm
    · exact nest fun e1 => nest fun e2 => nest fun e3 => if_neg fun e4 => h ⟨⟨⟨(hd x).1 e1, e2⟩, e3⟩, e4.imp_right Eq.symm⟩
  · refine base (·.mlas) _ (fun _ _ => rfl) rfl (fun x => ⟨fun h => ?_, fun h => ?_⟩)
    · obtain ⟨⟨⟨h1, h2⟩, h3⟩, h4, h5, h6⟩ := h
      refine (if_pos ((hd x).2 h1)).trans ((if_pos h2).trans ((if_pos h3).trans
        ((if_pos ((morphoMatch_iff hi x).2 ⟨h4, h5⟩)).trans (if_neg ?_))))
      intro e
      rw [show (wordAt pred x.1).funcMissing = false from h6] at e
      cases e
    · refine nest fun e1 => nest fun e2 => nest fun e3 => nest fun e4 => if_pos ?_
      obtain ⟨e5, e6⟩ := (morphoMatch_iff hi x).1 e4
      cases e7 : (wordAt pred x.1).funcMissing with
      | true => rfl
      | false => exact (h ⟨⟨⟨(hd x).1 e1, e2⟩, e3⟩, e5, e6, e7⟩).elim

/-- C114: what each number counts. -/
theorem C114_meaning (lower : Str → Str) (pred gold : List Word) :
    let al := align lower pred gold
    let c := treeCount lower pred gold
    let p := fun x : Nat × Nat => wordAt pred x.1
    let g := fun x : Nat × Nat => wordAt gold x.2
    c.pred = pred.length ∧ c.gold = gold.length ∧ c.words = al.length ∧
    c.predCont = howMany pred Content ∧ c.goldCont = howMany gold Content ∧
    c.aligCont = howMany al (fun x => Content (g x)) ∧
    c.upos = howMany al (fun x => (p x).upos = (g x).upos) ∧
    c.xpos = howMany al (fun x => (p x).xpos = (g x).xpos) ∧
    c.lemmas = howMany al (fun x => SameLemma (p x) (g x)) ∧
    c.ufeats = howMany al (fun x => SameFeats (p x).feats (g x).feats) ∧
    c.allTags = howMany al (fun x => (p x).upos = (g x).upos ∧ (p x).xpos = (g x).xpos ∧
      SameFeats (p x).feats (g x).feats) ∧
    c.uas = howMany al (SameHead pred gold al) ∧
    c.las = howMany al (SameEdge pred gold al) ∧
    c.clas = howMany al (fun x => SameEdge pred gold al x ∧ Content (g x)) ∧
    c.blex = howMany al (fun x => (SameEdge pred gold al x ∧ Content (g x)) ∧ SameLemma (p x) (g x)) ∧
    c.mlas = howMany al (fun x => (SameEdge pred gold al x ∧ Content (g x)) ∧ SameMorph (p x) (g x) ∧
      SameFunc pred gold al x ∧ (p x).funcMissing = false) := by
  exact meaning_aux (align_inc lower pred gold) _ rfl

end Conll
end Verif.Eval
