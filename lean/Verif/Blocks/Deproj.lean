import Verif.Blocks.Proj
import Verif.Deprel.Props

/-!
# Property C155: transform.Deproj (udapi/block/transform/deproj.py)
-/

namespace Verif.Blocks.Deproj
open Verif.Py Verif.Tree Verif.Deprel Verif.Blocks

/-- The loop of `head_strategy` (deproj.py:36-43); at most `fuel` rounds. -/
def bfs (h : Heap) (ok : Nat → Bool) : Nat → List Nat → Except Err (Option Nat)
  | 0, _ => .error .diverges
  | _ + 1, [] => .ok none
  | fuel + 1, a :: queue => if ok a then .ok (some a) else bfs h ok fuel (queue ++ h.children a)

/-- `head_strategy(node, label)` (deproj.py:36-43) -/
def headStrategy (h : Heap) (rel : Rels) (x : Nat) (label : Str) : Except Err (Option Nat) :=
  match h.parent x with
  | none => .error .attributeError
  | some p => bfs h (fun a => decide (getU (rel a) = some label)) (h.next + 1) ((h.children p).filter (fun n => n != x))

/-- The label, and the relation without it (deproj.py:19-29). -/
def readLabel (label : Label) (s : ProjState) (x : Nat) : Except Err (Str × Option Str) :=
  match label with
  | .misc => .ok ((s.pproj x).getD [], s.rel x)
  | .deprel =>
    match getU (s.rel x), getS (s.rel x) with
    | some u, some sub =>
      match splitOnce '+' sub with
      | (a, some l) => .ok (l, some (u ++ if a ≠ [] then [':'] ++ a else []))
      | (_, none) => .ok ([], s.rel x)
    | _, _ => .error .attributeError
  | .other => .error .valueError

/-- `process_node(node)` (deproj.py:18-34) -/
def deprojNode (label : Label) (s : ProjState) (x : Nat) : ProjState × Option Err :=
  match readLabel label s x with
  | .error e => (s, some e)
  | .ok (l, d) =>
    let s1 := { s with rel := upd s.rel x d }
    if l = [] then (s1, none)
    else
      match headStrategy s1.heap s1.rel x l with
      | .error e => (s1, some e)
      | .ok none => (s1, none)
      | .ok (some y) =>
        match setParent s1.heap x (some y) with
        | (h', e) => ({ s1 with heap := h' }, e)

/-- All words of the tree with the root `r`. -/
def deprojTree (label : Label) (s : ProjState) (r : Nat) : ProjState × Option Err := forNodes (deprojNode label) s (s.heap.words r)

/-! ## Specification vocabulary -/

/-- `a` is reached from `y` by `n` steps to the parent. -/
inductive Up (h : Heap) : Nat → Nat → Nat → Prop
  | zero (y : Nat) : Up h y 0 y
  | succ {y z a n : Nat} : h.parent y = some z → Up h z n a → Up h y (n + 1) a

/-- `y` comes before `z` in the breadth-first order below `p`: it is nearer to `p`, or equally near, and at the place where the paths
separate it is on the left. -/
def Earlier (h : Heap) (p y z : Nat) : Prop :=
  ∃ n m, Up h y n p ∧ Up h z m p ∧ (n < m ∨ n = m ∧ ∃ k a b q, Up h y k a ∧ Up h z k b ∧ h.parent a = some q ∧ h.parent b = some q ∧ h.ord a < h.ord b)

/-- `y` is below `p`, but not in the subtree of `x`, and has the relation `l`. -/
def Cand (h : Heap) (r : Nat) (rel : Rels) (p x : Nat) (l : Str) (y : Nat) : Prop :=
  y ∈ h.words r ∧ Anc h p y ∧ y ≠ x ∧ ¬ Anc h x y ∧ getU (rel y) = some l

/-- `y` is the first such word in the breadth-first order. -/
def Chosen (h : Heap) (r : Nat) (rel : Rels) (p x : Nat) (l : Str) (y : Nat) : Prop :=
  Cand h r rel p x l y ∧ ∀ z, Cand h r rel p x l z → z = y ∨ Earlier h p y z

/-- The word `x` has the label `l`. -/
def Marked (label : Label) (s : ProjState) (x : Nat) (l : Str) : Prop :=
  match label with
  | .misc => s.pproj x = some l
  | .deprel => ∃ u a, ':' ∉ u ∧ '+' ∉ a ∧ s.rel x = some (u ++ [':'] ++ a ++ ['+'] ++ l)
  | .other => False

/-- `d` is the relation of `x` without the label. -/
def Clean (label : Label) (s : ProjState) (x : Nat) (d : Option Str) : Prop :=
  (label = .deprel ∧ ∃ u a l, ':' ∉ u ∧ '+' ∉ a ∧ s.rel x = some (u ++ [':'] ++ a ++ ['+'] ++ l) ∧ d = some (if a = [] then u else u ++ [':'] ++ a)) ∨
  ((label = .deprel → ∀ l, ¬ Marked label s x l) ∧ d = s.rel x)

/-! ## Paths -/

variable {h : Heap} {r p x : Nat}

theorem Up.fn {y n a b : Nat} (h1 : Up h y n a) (h2 : Up h y n b) : a = b := by
  induction h1 generalizing b with
  | zero y => cases h2; rfl
  | succ e _ ih =>
    cases h2 with
    | succ e' h2 => rw [e] at e'; cases e'; exact ih h2

theorem Up.trans {y n a m b : Nat} (h1 : Up h y n a) (h2 : Up h a m b) : Up h y (n + m) b := by
  induction h1 with
  | zero y => rw [Nat.zero_add]; exact h2
  | succ e _ ih => rw [Nat.succ_add]; exact .succ e (ih h2)

theorem Up.anc {y n a : Nat} (hu : Up h y (n + 1) a) : Anc h a y := by
  generalize hm : n + 1 = m at hu
  induction hu generalizing n with
  | zero => cases hm
  | succ e h1 ih =>
    rename_i y z a k
    cases k with
    | zero => cases h1; exact .parent e
    | succ k => exact .step e (ih rfl)

theorem up_of_anc {a y : Nat} (ha : Anc h a y) : ∃ n, Up h y (n + 1) a := by
  induction ha with
  | parent e => exact ⟨0, .succ e (.zero _)⟩
  | step e _ ih => obtain ⟨n, hn⟩ := ih; exact ⟨n + 1, .succ e hn⟩

theorem Up.split {y n m a b : Nat} (h1 : Up h y n a) (h2 : Up h y (n + m) b) : Up h a m b := by
  induction h1 with
  | zero y => rwa [Nat.zero_add] at h2
  | succ e _ ih =>
    rw [Nat.succ_add] at h2
    cases h2 with
    | succ e' h2 => rw [e] at e'; cases e'; exact ih h2

theorem Up.num (w : WF h r) {y n m : Nat} (hp : InTree h r p) (h1 : Up h y n p) (h2 : Up h y m p) : n = m := by
  have key : ∀ n m, n ≤ m → Up h y n p → Up h y m p → n = m := by
    intro n m hle h1 h2
    obtain ⟨d, rfl⟩ := Nat.exists_eq_add_of_le hle
    cases d with
    | zero => rfl
    | succ d => exact absurd (h1.split h2).anc (w.anc_irrefl hp)
  rcases Nat.le_total n m with hle | hle
  · exact key n m hle h1 h2
  · exact (key m n hle h2 h1).symm

theorem earlier_irrefl (w : WF h r) (hp : InTree h r p) (y : Nat) : ¬ Earlier h p y y := by
  rintro ⟨n, m, h1, h2, hlt | ⟨_, k, a, b, q, h3, h4, _, _, h5⟩⟩
  · have := h1.num w hp h2; omega
  · rw [h3.fn h4] at h5; omega

/-! ## Levels -/

/-- The words below `p` at the distance `k + 1` outside the subtree of `x`, in breadth-first order. -/
def lev (h : Heap) (p x : Nat) : Nat → List Nat
  | 0 => (h.children p).filter (fun n => n != x)
  | k + 1 => (lev h p x k).flatMap h.children

theorem mem_lev (w : WF h r) (hp : InTree h r p) (hx : h.parent x = some p) : ∀ (k y : Nat),
    y ∈ lev h p x k ↔ y ∈ h.words r ∧ Up h y (k + 1) p ∧ y ≠ x ∧ ¬ Anc h x y := by
  intro k
  induction k with
  | zero =>
    intro y
    rw [lev, List.mem_filter, w.childIff p hp]
    constructor
    · rintro ⟨⟨h1, h2⟩, h3⟩
      refine ⟨h1, .succ h2 (.zero _), by simpa using h3, ?_⟩
      intro ha
      obtain ⟨n, hn⟩ := up_of_anc ha
      cases hn with
      | succ e hn =>
        rw [h2] at e; cases e
        have := (Up.trans hn (.succ hx (.zero _))).anc
        exact w.anc_irrefl hp this
    · rintro ⟨h1, h2, h3, _⟩
      cases h2 with
      | succ e h2 => cases h2; exact ⟨⟨h1, e⟩, by simpa using h3⟩
  | succ k ih =>
    intro y
    rw [lev, List.mem_flatMap]
    constructor
    · rintro ⟨z, hz, hy⟩
      obtain ⟨z1, z2, z3, z4⟩ := (ih z).1 hz
      obtain ⟨y1, y2⟩ := (w.childIff z (.inr z1) y).1 hy
      refine ⟨y1, .succ y2 z2, ?_, ?_⟩
      · rintro rfl
        have : p = z := by rw [hx] at y2; exact Option.some.inj y2
        rw [← this] at z2
        exact w.anc_irrefl hp z2.anc
      · intro ha
        cases ha with
        | parent e => rw [y2] at e; cases e; exact z3 rfl
        | step e ha => rw [y2] at e; cases e; exact z4 ha
    · rintro ⟨y1, y2, y3, y4⟩
      cases y2 with
      | succ e y2 =>
        rename_i z
        have hz : z ∈ h.words r := by
          rcases w.parent_in y1 e with hz | hz
          · subst hz
            cases y2 with
            | succ e' _ => rw [w.rootParent] at e'; cases e'
          · exact hz
        refine ⟨z, (ih z).2 ⟨hz, y2, ?_, ?_⟩, (w.childIff z (.inr hz) y).2 ⟨y1, e⟩⟩
        · rintro rfl; exact y4 (.parent e)
        · intro ha; exact y4 (.step e ha)

/-- In a level the paths separate from left to right. -/
def Left (h : Heap) (y z : Nat) : Prop :=
  ∃ k a b q, Up h y k a ∧ Up h z k b ∧ h.parent a = some q ∧ h.parent b = some q ∧ h.ord a < h.ord b

theorem lev_left (w : WF h r) (hp : InTree h r p) (hx : h.parent x = some p) : ∀ k, (lev h p x k).Pairwise (Left h) := by
  have sib : ∀ q, InTree h r q → (h.children q).Pairwise (Left h) := by
    intro q hq
    have hs := w.childSorted q hq
    rw [List.pairwise_iff_forall_sublist] at hs ⊢
    intro a b hab
    have ha := (w.childIff q hq a).1 (hab.subset (by simp))
    have hb := (w.childIff q hq b).1 (hab.subset (by simp))
    exact ⟨0, a, b, q, .zero _, .zero _, ha.2, hb.2, hs hab⟩
  intro k
  induction k with
  | zero => exact (sib p hp).filter _
  | succ k ih =>
    rw [lev, List.pairwise_flatMap]
    refine ⟨fun z hz => sib z (.inr ((mem_lev w hp hx k z).1 hz).1), ?_⟩
    refine List.Pairwise.imp_of_mem ?_ ih
    intro y z hy hz hl c hc d hd
    obtain ⟨j, a, b, q, h1, h2, h3⟩ := hl
    have hc' := (w.childIff y (.inr ((mem_lev w hp hx k y).1 hy).1) c).1 hc
    have hd' := (w.childIff z (.inr ((mem_lev w hp hx k z).1 hz).1) d).1 hd
    exact ⟨j + 1, a, b, q, .succ hc'.2 h1, .succ hd'.2 h2, h3⟩

theorem left_ne {y : Nat} : ¬ Left h y y := by
  rintro ⟨k, a, b, q, h1, h2, _, _, h3⟩
  rw [h1.fn h2] at h3
  omega

/-- The levels from `k` on, `m` of them. -/
def levs (h : Heap) (p x : Nat) : Nat → Nat → List Nat
  | _, 0 => []
  | k, m + 1 => lev h p x k ++ levs h p x (k + 1) m

theorem mem_levs {y : Nat} : ∀ m k, y ∈ levs h p x k m ↔ ∃ j, k ≤ j ∧ j < k + m ∧ y ∈ lev h p x j := by
  intro m
  induction m with
  | zero => intro k; simp [levs]; intro j h1 h2; omega
  | succ m ih =>
    intro k
    rw [levs, List.mem_append, ih]
    constructor
    · rintro (h1 | ⟨j, h1, h2, h3⟩)
      · exact ⟨k, Nat.le_refl _, by omega, h1⟩
      · exact ⟨j, by omega, by omega, h3⟩
    · rintro ⟨j, h1, h2, h3⟩
      by_cases hj : j = k
      · subst hj; exact Or.inl h3
      · exact Or.inr ⟨j, by omega, by omega, h3⟩

theorem levs_nodup (w : WF h r) (hp : InTree h r p) (hx : h.parent x = some p) : ∀ m k, (levs h p x k m).Nodup := by
  intro m
  induction m with
  | zero => intro k; exact List.nodup_nil
  | succ m ih =>
    intro k
    rw [levs, List.nodup_append]
    refine ⟨?_, ih _, ?_⟩
    · refine (lev_left w hp hx k).imp ?_
      intro a b hl e
      rw [e] at hl
      exact left_ne hl
    · intro y hy z hz e
      subst e
      obtain ⟨j, h1, _, h3⟩ := (mem_levs m (k + 1)).1 hz
      have e1 := ((mem_lev w hp hx k y).1 hy).2.1
      have e2 := ((mem_lev w hp hx j y).1 h3).2.1
      have := e1.num w hp e2
      omega

theorem levs_len (w : WF h r) (hp : InTree h r p) (hx : h.parent x = some p) (m k : Nat) : (levs h p x k m).length ≤ (h.words r).length :=
  length_le_of_nodup_subset (levs_nodup w hp hx m k) (fun y hy => by
    obtain ⟨j, _, _, h3⟩ := (mem_levs m k).1 hy
    exact ((mem_lev w hp hx j y).1 h3).1)

/-- After as many levels as there are words nothing is left. -/
theorem lev_empty (w : WF h r) (hp : InTree h r p) (hx : h.parent x = some p) {k : Nat} (hk : (h.words r).length ≤ k) : lev h p x k = [] := by
  cases hl : lev h p x k with
  | nil => rfl
  | cons y l =>
    exfalso
    have ne : ∀ j, j ≤ k → lev h p x j ≠ [] := by
      intro j
      induction hd : k - j generalizing j with
      | zero => intro hj e; have : j = k := by omega
                rw [this, hl] at e; cases e
      | succ d ih =>
        intro hj e
        apply ih (j + 1) (by omega) (by omega)
        rw [lev, e]; rfl
    have cnt : ∀ m j, j + m ≤ k + 1 → m ≤ (levs h p x j m).length := by
      intro m
      induction m with
      | zero => intro j _; omega
      | succ m ih =>
        intro j hj
        rw [levs, List.length_append]
        have h1 := ih (j + 1) (by omega)
        have h2 := List.length_pos_iff.2 (ne j (by omega))
        omega
    have h1 := cnt (k + 1) 0 (by omega)
    have h2 := levs_len w hp hx (k + 1) 0
    omega

/-! ## The search -/

theorem bfs_level (ok : Nat → Bool) : ∀ (A B : List Nat) (fuel : Nat), A.length < fuel →
    (∃ A1 a A2, A = A1 ++ a :: A2 ∧ ok a = true ∧ (∀ b ∈ A1, ok b = false) ∧ bfs h ok fuel (A ++ B) = .ok (some a)) ∨
    ((∀ b ∈ A, ok b = false) ∧ bfs h ok fuel (A ++ B) = bfs h ok (fuel - A.length) (B ++ A.flatMap h.children)) := by
  intro A
  induction A with
  | nil => intro B fuel _; right; simp
  | cons a A ih =>
    intro B fuel hf
    obtain ⟨f, rfl⟩ : ∃ f, fuel = f + 1 := ⟨fuel - 1, by simp at hf; omega⟩
    cases hok : ok a with
    | true =>
      left
      exact ⟨[], a, A, rfl, hok, by simp, by rw [List.cons_append, bfs, if_pos hok]⟩
    | false =>
      have e : bfs h ok (f + 1) (a :: A ++ B) = bfs h ok f (A ++ (B ++ h.children a)) := by
        rw [List.cons_append, bfs, if_neg (by simp [hok]), List.append_assoc]
      rcases ih (B ++ h.children a) f (by simp at hf; omega) with ⟨A1, a', A2, h1, h2, h3, h4⟩ | ⟨h1, h2⟩
      · left
        refine ⟨a :: A1, a', A2, by rw [h1]; rfl, h2, ?_, by rw [e, h4]⟩
        intro b hb
        rcases List.mem_cons.1 hb with rfl | hb
        · exact hok
        · exact h3 b hb
      · right
        refine ⟨?_, ?_⟩
        · intro b hb
          rcases List.mem_cons.1 hb with rfl | hb
          · exact hok
          · exact h1 b hb
        · rw [e, h2, List.flatMap_cons]
          simp

theorem bfs_levels (w : WF h r) (hp : InTree h r p) (hx : h.parent x = some p) (ok : Nat → Bool) : ∀ (d k fuel : Nat),
    (h.words r).length ≤ k + d → (levs h p x k d).length < fuel →
    (∃ j A1 a A2, k ≤ j ∧ lev h p x j = A1 ++ a :: A2 ∧ ok a = true ∧ (∀ b ∈ A1, ok b = false) ∧
      (∀ i, k ≤ i → i < j → ∀ b ∈ lev h p x i, ok b = false) ∧ bfs h ok fuel (lev h p x k) = .ok (some a)) ∨
    ((∀ i, k ≤ i → ∀ b ∈ lev h p x i, ok b = false) ∧ bfs h ok fuel (lev h p x k) = .ok none) := by
  intro d
  induction d with
  | zero =>
    intro k fuel hk hf
    right
    refine ⟨?_, ?_⟩
    · intro i hi b hb
      rw [lev_empty w hp hx (by omega)] at hb
      cases hb
    · rw [lev_empty w hp hx (by omega)]
      obtain ⟨f, rfl⟩ : ∃ f, fuel = f + 1 := ⟨fuel - 1, by omega⟩
      rw [bfs]
  | succ d ih =>
    intro k fuel hk hf
    rw [levs, List.length_append] at hf
    rcases bfs_level (h := h) ok (lev h p x k) [] fuel (by omega) with ⟨A1, a, A2, h1, h2, h3, h4⟩ | ⟨h1, h2⟩
    · left
      rw [List.append_nil] at h4
      exact ⟨k, A1, a, A2, Nat.le_refl _, h1, h2, h3, fun i hi hi' => by omega, h4⟩
    · rw [List.append_nil, List.nil_append] at h2
      have e : (lev h p x k).flatMap h.children = lev h p x (k + 1) := rfl
      rw [e] at h2
      rcases ih (k + 1) (fuel - (lev h p x k).length) (by omega) (by omega) with ⟨j, A1, a, A2, g1, g2, g3, g4, g5, g6⟩ | ⟨g1, g2⟩
      · left
        refine ⟨j, A1, a, A2, by omega, g2, g3, g4, ?_, by rw [h2, g6]⟩
        intro i hi hi' b hb
        by_cases hik : i = k
        · subst hik; exact h1 b hb
        · exact g5 i (by omega) hi' b hb
      · right
        refine ⟨?_, by rw [h2, g2]⟩
        intro i hi b hb
        by_cases hik : i = k
        · subst hik; exact h1 b hb
        · exact g1 i (by omega) b hb

/-- The search finds the first word in breadth-first order, or nothing if there is none. -/
theorem head_spec (w : WF h r) (hr : IsTree h r) (hxw : x ∈ h.words r) (hx : h.parent x = some p) (rel : Rels) (l : Str) :
    (∃ y, headStrategy h rel x l = .ok (some y) ∧ Chosen h r rel p x l y) ∨
    (headStrategy h rel x l = .ok none ∧ ∀ y, ¬ Cand h r rel p x l y) := by
  have hp := w.parent_in hxw hx
  have hlen := words_lt_next w hr
  have hle := levs_len w hp hx (h.words r).length 0
  have cand_lev : ∀ y, Cand h r rel p x l y → ∃ j, y ∈ lev h p x j ∧ Up h y (j + 1) p := by
    rintro y ⟨h1, h2, h3, h4, _⟩
    obtain ⟨n, hn⟩ := up_of_anc h2
    exact ⟨n, (mem_lev w hp hx n y).2 ⟨h1, hn, h3, h4⟩, hn⟩
  unfold headStrategy
  simp only [hx]
  rcases bfs_levels w hp hx (fun a => decide (getU (rel a) = some l)) (h.words r).length 0 (h.next + 1) (by omega) (by omega) with
    ⟨j, A1, a, A2, g1, g2, g3, g4, g5, g6⟩ | ⟨g1, g2⟩
  · left
    refine ⟨a, g6, ?_⟩
    have ha : a ∈ lev h p x j := by rw [g2]; simp
    obtain ⟨a1, a2, a3, a4⟩ := (mem_lev w hp hx j a).1 ha
    refine ⟨⟨a1, a2.anc, a3, a4, by simpa using g3⟩, ?_⟩
    intro z hz
    obtain ⟨i, hi, hu⟩ := cand_lev z hz
    have hzok : getU (rel z) = some l := hz.2.2.2.2
    rcases Nat.lt_trichotomy i j with hij | hij | hij
    · have := g5 i (Nat.zero_le _) hij z hi
      simp [hzok] at this
    · subst hij
      have hl := lev_left w hp hx i
      rw [g2] at hi hl
      rcases List.mem_append.1 hi with hi | hi
      · have := g4 z hi
        simp [hzok] at this
      · rcases List.mem_cons.1 hi with hi | hi
        · exact Or.inl hi
        · right
          have := (List.pairwise_cons.1 (List.pairwise_append.1 hl).2.1).1 z hi
          exact ⟨_, _, a2, hu, Or.inr ⟨rfl, this⟩⟩
    · exact Or.inr ⟨_, _, a2, hu, Or.inl (by omega)⟩
  · right
    refine ⟨g2, ?_⟩
    intro y hy
    obtain ⟨i, hi, _⟩ := cand_lev y hy
    have := g1 i (Nat.zero_le _) y hi
    simp [hy.2.2.2.2] at this

theorem chosen_unique (w : WF h r) (hp : InTree h r p) {rel : Rels} {l : Str} {y z : Nat} (h1 : Chosen h r rel p x l y) (h2 : Chosen h r rel p x l z) : y = z := by
  have asymm : Earlier h p y z → Earlier h p z y → False := by
    rintro ⟨n, m, a1, a2, a3⟩ ⟨m', n', b1, b2, b3⟩
    have e1 := a1.num w hp b2
    have e2 := a2.num w hp b1
    subst e1 e2
    rcases a3 with a3 | ⟨a3, k, a, b, q, c1, c2, c3, c4, c5⟩
    · rcases b3 with b3 | ⟨b3, _⟩ <;> omega
    · rcases b3 with b3 | ⟨b3, k', a', b', q', d1, d2, d3, d4, d5⟩
      · omega
      · -- two separations of the same paths
        rcases Nat.lt_trichotomy k k' with hk | hk | hk
        · obtain ⟨e, rfl⟩ := Nat.exists_eq_add_of_lt hk
          have u1 := c1.split (m := e + 1) (by rw [← Nat.add_assoc]; exact d2)
          have u2 := c2.split (m := e + 1) (by rw [← Nat.add_assoc]; exact d1)
          cases u1 with
          | succ f1 u1 =>
            cases u2 with
            | succ f2 u2 =>
              rw [c3] at f1; rw [c4] at f2; cases f1; cases f2
              rw [u1.fn u2] at d5; omega
        · subst hk
          rw [c1.fn d2, c2.fn d1] at c5
          omega
        · obtain ⟨e, rfl⟩ := Nat.exists_eq_add_of_lt hk
          have u1 := d1.split (m := e + 1) (by rw [← Nat.add_assoc]; exact c2)
          have u2 := d2.split (m := e + 1) (by rw [← Nat.add_assoc]; exact c1)
          cases u1 with
          | succ f1 u1 =>
            cases u2 with
            | succ f2 u2 =>
              rw [d3] at f1; rw [d4] at f2; cases f1; cases f2
              rw [u1.fn u2] at c5; omega
  rcases h1.2 z h2.1 with e | e1
  · exact e.symm
  · rcases h2.2 y h1.1 with e | e2
    · exact e
    · exact absurd (asymm e1 e2) (fun k => k)

/-! ## Reading the label -/

theorem read_spec {label : Label} {s : ProjState} {x : Nat} (hl : label ≠ .other) (hd : label = .deprel → s.rel x ≠ none) :
    ∃ l d, readLabel label s x = .ok (l, d) ∧ (l ≠ [] → Marked label s x l) ∧ (∀ l', Marked label s x l' → l' = l) ∧ Clean label s x d ∧
      getU d = getU (s.rel x) := by
  cases label with
  | other => exact absurd rfl hl
  | misc =>
    refine ⟨_, _, rfl, ?_, ?_, Or.inr ⟨fun e => (by cases e), rfl⟩, rfl⟩
    · intro hne
      simp only [Marked]
      cases hp : s.pproj x with
      | none => rw [hp] at hne; exact absurd rfl hne
      | some t => rfl
    · intro l' h
      simp only [Marked] at h
      rw [h]; rfl
  | deprel =>
    cases hr : s.rel x with
    | none => exact absurd hr (hd rfl)
    | some t =>
      obtain ⟨hc, hp⟩ : Parts t (splitOnce ':' t).1 ((splitOnce ':' t).2.getD []) := parts_iff.2 ⟨rfl, rfl⟩
      generalize hu : (splitOnce ':' t).1 = u at hc hp
      generalize hs : (splitOnce ':' t).2.getD [] = sub at hp
      have gU : getU (some t) = some u := by rw [getU_some, hu]
      have gS : getS (some t) = some sub := by rw [getS_some, hs]
      have mk : ∀ u' a' l', ':' ∉ u' → t = u' ++ [':'] ++ a' ++ ['+'] ++ l' → u' = u ∧ a' ++ '+' :: l' = sub := by
        intro u' a' l' h1 h2
        have := parts_iff.1 (⟨h1, Or.inr (by rw [h2]; simp)⟩ : Parts t u' (a' ++ '+' :: l'))
        exact ⟨this.1 ▸ hu.symm ▸ rfl, this.2 ▸ hs.symm ▸ rfl⟩
      simp only [readLabel, hr, gU, gS]
      by_cases hplus : '+' ∈ sub
      · obtain ⟨a, l, e, ha⟩ : ∃ a l, sub = a ++ '+' :: l ∧ '+' ∉ a := by
          have h1 := splitOnce_eq '+' sub
          have h2 := not_mem_splitOnce '+' sub
          cases h3 : (splitOnce '+' sub).2 with
          | none => exact absurd hplus (splitOnce_snd_none h3)
          | some l => rw [h3] at h1; exact ⟨_, l, h1.symm, h2⟩
        rw [e, splitOnce_append ha]
        have ht : t = u ++ [':'] ++ a ++ ['+'] ++ l := by
          rcases hp with ⟨_, hp⟩ | hp
          · rw [hp] at hplus; cases hplus
          · rw [hp, e]; simp
        refine ⟨_, _, rfl, ?_, ?_, Or.inl ⟨rfl, u, a, l, hc, ha, by rw [hr, ht], ?_⟩, ?_⟩
        · intro _
          exact ⟨u, a, hc, ha, by rw [hr, ht]⟩
        · rintro l' ⟨u', a', h1, h2, h3⟩
          rw [hr] at h3
          obtain ⟨_, h4⟩ := mk u' a' l' h1 (Option.some.inj h3)
          rw [e] at h4
          have h5 := congrArg (splitOnce '+') h4
          rw [splitOnce_append h2, splitOnce_append ha] at h5
          simpa using congrArg Prod.snd h5
        · by_cases h0 : a = []
          · rw [if_neg (by simpa using h0), if_pos h0, List.append_nil]
          · rw [if_pos h0, if_neg h0, List.append_assoc]
        · by_cases h0 : a = []
          · rw [if_neg (by simpa using h0), List.append_nil]
            exact ((C06_get _ _ _).1 ⟨hc, Or.inl ⟨rfl, rfl⟩⟩).1.trans gU.symm |>.trans (by rw [gU])
          · rw [if_pos h0]
            exact ((C06_get _ _ a).1 ⟨hc, Or.inr (by rw [List.append_assoc])⟩).1
      · rw [splitOnce_of_not_mem hplus]
        have hno : ∀ l, ¬ Marked .deprel s x l := by
          rintro l' ⟨u', a', h1, h2, h3⟩
          rw [hr] at h3
          obtain ⟨_, h4⟩ := mk u' a' l' h1 (Option.some.inj h3)
          exact hplus (by rw [← h4]; simp)
        exact ⟨_, _, rfl, fun h => absurd rfl h, fun l' h => absurd h (hno l'), Or.inr ⟨fun _ => hno, hr.symm⟩, gU⟩

theorem cand_congr {rel rel' : Rels} (hg : ∀ y, getU (rel' y) = getU (rel y)) {l : Str} {y : Nat} : Cand h r rel' p x l y ↔ Cand h r rel p x l y := by
  unfold Cand; rw [hg]

theorem chosen_congr {rel rel' : Rels} (hg : ∀ y, getU (rel' y) = getU (rel y)) {l : Str} {y : Nat} : Chosen h r rel' p x l y ↔ Chosen h r rel p x l y := by
  unfold Chosen
  rw [cand_congr hg]
  exact and_congr_right fun _ => forall_congr' fun z => by rw [cand_congr hg]

/-- One word. -/
theorem step_spec {label : Label} {s : ProjState} (hl : label ≠ .other) (hi : Inv s.heap) (hr : IsTree s.heap r) (hx : x ∈ s.heap.words r)
    (hd : label = .deprel → s.rel x ≠ none) :
    ∃ s' d, deprojNode label s x = (s', none) ∧ Inv s'.heap ∧ IsTree s'.heap r ∧ s'.heap.words = s.heap.words ∧ s'.heap.root = s.heap.root ∧
      s'.heap.ord = s.heap.ord ∧ s'.pproj = s.pproj ∧ s'.rel = upd s.rel x d ∧ Clean label s x d ∧ (∀ y, getU (s'.rel y) = getU (s.rel y)) ∧
      ((∀ l, l ≠ [] → ¬ Marked label s x l) → s'.heap = s.heap) ∧
      ∀ l p, l ≠ [] → Marked label s x l → s.heap.parent x = some p →
        (∃ y, Chosen s.heap r s.rel p x l y ∧ s'.heap.parent = upd s.heap.parent x (some y)) ∨
        ((∀ y, ¬ Cand s.heap r s.rel p x l y) ∧ s'.heap.parent = s.heap.parent) := by
  have w := hi r hr
  obtain ⟨l, d, e, h1, h2, h3, h4⟩ := read_spec (x := x) hl hd
  have hg : ∀ y, getU (upd s.rel x d y) = getU (s.rel y) := by
    intro y
    by_cases hy : y = x
    · subst hy; rw [upd_same, h4]
    · rw [upd_ne _ _ hy]
  unfold deprojNode
  rw [e]
  by_cases hl0 : l = []
  · refine ⟨{ s with rel := upd s.rel x d }, d, by simp only; rw [if_pos hl0], hi, hr, rfl, rfl, rfl, rfl, rfl, h3, hg, fun _ => rfl, ?_⟩
    intro l' p hne hm
    exact absurd ((h2 l' hm).trans hl0) hne
  · simp only
    rw [if_neg hl0]
    obtain ⟨p, hp, hpin⟩ := w.parentIn x hx
    rcases head_spec w hr hx hp (upd s.rel x d) l with ⟨y, e1, e2⟩ | ⟨e1, e2⟩
    · simp only [e1]
      have hc := (chosen_congr hg).1 e2
      obtain ⟨⟨c1, _, c3, c4, _⟩, _⟩ := id e2
      obtain ⟨h', e3, i', t', w', r', o', p'⟩ := attach_one hi hr hx (.inr c1) c3 c4
      rw [e3]
      refine ⟨_, d, rfl, i', t', w', r', o', rfl, rfl, h3, hg, fun hno => absurd (h1 hl0) (hno l hl0), ?_⟩
      intro l' q _ hm hq
      rw [hp] at hq; cases hq
      rw [h2 l' hm]
      exact Or.inl ⟨y, hc, p'⟩
    · simp only [e1]
      refine ⟨_, d, rfl, hi, hr, rfl, rfl, rfl, rfl, rfl, h3, hg, fun _ => rfl, ?_⟩
      intro l' q _ hm hq
      rw [hp] at hq; cases hq
      rw [h2 l' hm]
      exact Or.inr ⟨fun y hy => e2 y ((cand_congr hg).2 hy), rfl⟩

theorem marked_congr {label : Label} {s s' : ProjState} {x : Nat} {l : Str} (hp : s'.pproj x = s.pproj x) (hr : s'.rel x = s.rel x) :
    Marked label s' x l ↔ Marked label s x l := by
  cases label <;> simp only [Marked, hp, hr]

theorem clean_congr {label : Label} {s s' : ProjState} {x : Nat} {d : Option Str} (hp : s'.pproj x = s.pproj x) (hr : s'.rel x = s.rel x) :
    Clean label s' x d ↔ Clean label s x d := by
  unfold Clean
  rw [hr]
  exact or_congr Iff.rfl (and_congr (forall_congr' fun _ => forall_congr' fun l => not_congr (marked_congr hp hr)) Iff.rfl)

/-! ## Theorems -/

/-- **C155, every tree.** No exception is raised and the result is a tree with the same words in the same order. The marks in MISC and the
universal parts of the relations stay; a label in the relation is removed. Only words with a label move, and the universal relation of the
new parent is the label. -/
theorem C155_tree {label : Label} {s : ProjState} (hl : label ≠ .other) (hi : Inv s.heap) (hr : IsTree s.heap r)
    (hd : label = .deprel → ∀ x ∈ s.heap.words r, s.rel x ≠ none) :
    ∃ s', deprojTree label s r = (s', none) ∧ Inv s'.heap ∧ IsTree s'.heap r ∧ s'.heap.words = s.heap.words ∧ s'.heap.root = s.heap.root ∧
      s'.heap.ord = s.heap.ord ∧ s'.pproj = s.pproj ∧ (∀ y, getU (s'.rel y) = getU (s.rel y)) ∧
      (∀ y ∈ s.heap.words r, Clean label s y (s'.rel y)) ∧ (∀ y, y ∉ s.heap.words r → s'.rel y = s.rel y) ∧
      ∀ y, s'.heap.parent y = s.heap.parent y ∨
        (y ∈ s.heap.words r ∧ ∃ l q, l ≠ [] ∧ Marked label s y l ∧ s'.heap.parent y = some q ∧ q ∈ s.heap.words r ∧ getU (s.rel q) = some l) := by
  have w := hi r hr
  obtain ⟨s', e, i', t', w', r', o', m', g', c', k', p'⟩ := forNodes_inv (deprojNode label)
    (fun done k => Inv k.heap ∧ IsTree k.heap r ∧ k.heap.words = s.heap.words ∧ k.heap.root = s.heap.root ∧
      k.heap.ord = s.heap.ord ∧ k.pproj = s.pproj ∧ (∀ y, getU (k.rel y) = getU (s.rel y)) ∧
      (∀ y ∈ done, Clean label s y (k.rel y)) ∧ (∀ y, y ∉ done → k.rel y = s.rel y) ∧
      ∀ y, k.heap.parent y = s.heap.parent y ∨
        (y ∈ done ∧ ∃ l q, l ≠ [] ∧ Marked label s y l ∧ k.heap.parent y = some q ∧ q ∈ s.heap.words r ∧ getU (s.rel q) = some l))
    (s.heap.words r) (fun done x rest k hsplit pk => by
      obtain ⟨ik, tk, wk, rk, ok, mk, gk, ck, kk, pk⟩ := pk
      have hx : x ∈ s.heap.words r := by rw [hsplit]; simp
      have hnd := w.nodup
      rw [hsplit, List.nodup_append] at hnd
      have hxd : x ∉ done := fun h => hnd.2.2 x h x List.mem_cons_self rfl
      have hrel := kk x hxd
      obtain ⟨k', d, e, i', t', w', r', o', m', l', c', g', n', p'⟩ := step_spec (x := x) hl ik tk (by rw [wk]; exact hx) (by rw [hrel]; exact fun e => hd e x hx)
      refine ⟨k', e, i', t', w'.trans wk, r'.trans rk, o'.trans ok, m'.trans mk, fun y => (g' y).trans (gk y), ?_, ?_, ?_⟩
      · intro y hy
        rw [l']
        by_cases hyx : y = x
        · subst hyx; rw [upd_same]; exact (clean_congr (by rw [mk]) hrel).1 c'
        · rw [upd_ne _ _ hyx]
          rcases List.mem_append.1 hy with hy | hy
          · exact ck y hy
          · exact absurd (List.mem_singleton.1 hy) hyx
      · intro y hy
        have hyx : y ≠ x := fun e => hy (by rw [e]; simp)
        rw [l', upd_ne _ _ hyx]
        exact kk y (fun h => hy (List.mem_append_left _ h))
      · have keep : ∀ y, k'.heap.parent y = k.heap.parent y → k'.heap.parent y = s.heap.parent y ∨
            (y ∈ done ++ [x] ∧ ∃ l q, l ≠ [] ∧ Marked label s y l ∧ k'.heap.parent y = some q ∧ q ∈ s.heap.words r ∧ getU (s.rel q) = some l) := by
          intro y hy
          rw [hy]
          rcases pk y with h | ⟨h1, h2⟩
          · exact Or.inl h
          · exact Or.inr ⟨List.mem_append_left _ h1, h2⟩
        intro y
        by_cases hm : ∃ l, l ≠ [] ∧ Marked label k x l
        · obtain ⟨l, hne, hm⟩ := hm
          obtain ⟨p, hp, _⟩ := (ik r tk).parentIn x (by rw [wk]; exact hx)
          rcases p' l p hne hm hp with ⟨z, hz, e⟩ | ⟨_, e⟩
          · by_cases hyx : y = x
            · subst hyx
              right
              refine ⟨by simp, l, z, hne, (marked_congr (by rw [mk]) hrel).1 hm, by rw [e, upd_same], ?_, ?_⟩
              · rw [← wk]; exact hz.1.1
              · rw [← gk]; exact hz.1.2.2.2.2
            · exact keep y (by rw [e, upd_ne _ _ hyx])
          · exact keep y (by rw [e])
        · exact keep y (by rw [n' (fun l hne hm' => hm ⟨l, hne, hm'⟩)]))
    s ⟨hi, hr, rfl, rfl, rfl, rfl, fun _ => rfl, fun y hy => (by cases hy), fun _ _ => rfl, fun _ => Or.inl rfl⟩
  exact ⟨s', e, i', t', w', r', o', m', g', c', k', p'⟩

/-- **C155, one label.** If `x` is the only word with a label, it moves to the first word in breadth-first order that is below its parent,
outside its own subtree, and has the label as its universal relation; if there is none, it stays. -/
theorem C155_one {label : Label} {s : ProjState} (hl : label ≠ .other) (hi : Inv s.heap) (hr : IsTree s.heap r)
    (hd : label = .deprel → ∀ x ∈ s.heap.words r, s.rel x ≠ none) {l : Str} (hx : x ∈ s.heap.words r) (hp : s.heap.parent x = some p)
    (hne : l ≠ []) (hm : Marked label s x l) (hone : ∀ y ∈ s.heap.words r, ∀ l', l' ≠ [] → Marked label s y l' → y = x) :
    ∃ s', deprojTree label s r = (s', none) ∧
      ((∃ y, Chosen s.heap r s.rel p x l y ∧ s'.heap.parent = upd s.heap.parent x (some y)) ∨
       ((∀ y, ¬ Cand s.heap r s.rel p x l y) ∧ s'.heap.parent = s.heap.parent)) := by
  have w := hi r hr
  obtain ⟨s', e, _, _, _, _, _, _, _, p'⟩ := forNodes_inv (deprojNode label)
    (fun done k => Inv k.heap ∧ IsTree k.heap r ∧ k.heap.words = s.heap.words ∧
      k.heap.ord = s.heap.ord ∧ k.pproj = s.pproj ∧ (∀ y, getU (k.rel y) = getU (s.rel y)) ∧
      (∀ y, y ∉ done → k.rel y = s.rel y) ∧
      (x ∉ done → k.heap = s.heap) ∧ (x ∈ done →
      ((∃ y, Chosen s.heap r s.rel p x l y ∧ k.heap.parent = upd s.heap.parent x (some y)) ∨
       ((∀ y, ¬ Cand s.heap r s.rel p x l y) ∧ k.heap.parent = s.heap.parent))))
    (s.heap.words r) (fun done z rest k hsplit pk => by
      obtain ⟨ik, tk, wk, ok, mk, gk, kk, hk, pk⟩ := pk
      have hz : z ∈ s.heap.words r := by rw [hsplit]; simp
      have hnd := w.nodup
      rw [hsplit, List.nodup_append] at hnd
      have hzd : z ∉ done := fun h => hnd.2.2 z h z List.mem_cons_self rfl
      have hrel := kk z hzd
      obtain ⟨k', d, e, i', t', w', r', o', m', l', c', g', n', p'⟩ := step_spec (x := z) hl ik tk (by rw [wk]; exact hz) (by rw [hrel]; exact fun e => hd e z hz)
      refine ⟨k', e, i', t', w'.trans wk, o'.trans ok, m'.trans mk, fun y => (g' y).trans (gk y), ?_, ?_, ?_⟩
      · intro y hy
        have hyx : y ≠ z := fun e => hy (by rw [e]; simp)
        rw [l', upd_ne _ _ hyx]
        exact kk y (fun h => hy (List.mem_append_left _ h))
      · intro hxd
        have hzx : z ≠ x := fun e => hxd (by rw [e]; simp)
        rw [n' (fun l' hne' hm' => hzx (hone z hz l' hne' ((marked_congr (by rw [mk]) hrel).1 hm')))]
        exact hk (fun h => hxd (List.mem_append_left _ h))
      · intro hxd
        by_cases hzx : z = x
        · subst hzx
          have hh := hk hzd
          have := p' l p hne ((marked_congr (by rw [mk]) hrel).2 hm) (by rw [hh]; exact hp)
          rw [hh] at this
          simpa only [chosen_congr gk, cand_congr gk] using this
        · have hno : ∀ l, l ≠ [] → ¬ Marked label k z l := fun l' hne' hm' => hzx (hone z hz l' hne' ((marked_congr (by rw [mk]) hrel).1 hm'))
          rw [n' hno]
          refine pk ?_
          rcases List.mem_append.1 hxd with h | h
          · exact h
          · exact absurd (List.mem_singleton.1 h).symm hzx)
    s ⟨hi, hr, rfl, rfl, rfl, fun _ => rfl, fun _ _ => rfl, fun _ => rfl, fun h => (by cases h)⟩
  exact ⟨s', e, p'.2 hx⟩

theorem clean_not_marked {s s' : ProjState} {x : Nat} (hc : Clean .deprel s x (s'.rel x)) (l : Str) : ¬ Marked .deprel s' x l := by
  rcases hc with ⟨_, u, a, l', h1, h2, _, h3⟩ | ⟨h1, h2⟩
  · rintro ⟨u', a', k1, k2, k3⟩
    rw [h3] at k3
    have e := Option.some.inj k3
    have p1 := parts_iff.1 (⟨k1, Or.inr (by rw [e]; simp)⟩ : Parts (if a = [] then u else u ++ [':'] ++ a) u' (a' ++ '+' :: l))
    have p2 := parts_iff.1 (⟨h1, by by_cases h0 : a = []; · exact Or.inl ⟨by rw [if_pos h0], h0⟩
                                    · exact Or.inr (by rw [if_neg h0])⟩ : Parts (if a = [] then u else u ++ [':'] ++ a) u a)
    have : a = a' ++ '+' :: l := p2.2.symm.trans p1.2
    exact h2 (by rw [this]; simp)
  · intro hm
    obtain ⟨u', a', k1, k2, k3⟩ := hm
    exact h1 rfl l ⟨u', a', k1, k2, by rw [← h2]; exact k3⟩

/-- **C155, labels in the relations.** The labels are removed, so a second run changes nothing. -/
theorem C155_again {s : ProjState} (hi : Inv s.heap) (hr : IsTree s.heap r) (hd : ∀ x ∈ s.heap.words r, s.rel x ≠ none) :
    ∃ s' s'', deprojTree .deprel s r = (s', none) ∧ deprojTree .deprel s' r = (s'', none) ∧ s''.heap.parent = s'.heap.parent ∧ s''.rel = s'.rel := by
  obtain ⟨s', e, i', t', w', _, _, _, g', c', k', _⟩ := C155_tree (label := .deprel) (fun e => by cases e) hi hr (fun _ => hd)
  have hd' : ∀ x ∈ s'.heap.words r, s'.rel x ≠ none := by
    intro x hx hn
    rw [w'] at hx
    have := g' x
    rw [hn] at this
    cases hs : s.rel x with
    | none => exact hd x hx hs
    | some t => rw [hs, getU_some] at this; cases this
  obtain ⟨s'', e2, _, _, w2, _, _, _, _, c2, k2, p2⟩ := C155_tree (label := .deprel) (fun e => by cases e) i' t' (fun _ => hd')
  have hno : ∀ x ∈ s'.heap.words r, ∀ l, ¬ Marked .deprel s' x l := fun x hx l => clean_not_marked (c' x (by rw [← w']; exact hx)) l
  refine ⟨s', s'', e, e2, ?_, ?_⟩
  · funext y
    rcases p2 y with h | ⟨h1, l, q, _, h2, _⟩
    · exact h
    · exact absurd h2 (hno y h1 l)
  · funext y
    by_cases hy : y ∈ s'.heap.words r
    · rcases c2 y hy with ⟨_, u, a, l, h1, h2, h3, _⟩ | ⟨_, h⟩
      · exact absurd (⟨u, a, h1, h2, h3⟩ : Marked .deprel s' y l) (hno y hy l)
      · exact h
    · exact k2 y hy

/-- **C155 violated (a second run).** The mark in MISC stays. If the word moved to `y` and another child of `y` has the label as its
relation, then a second run moves the word away from `y`. -/
theorem C155_again_violated {s : ProjState} (hi : Inv s.heap) (hr : IsTree s.heap r) {l : Str} {y z : Nat} (hx : x ∈ s.heap.words r)
    (hp : s.heap.parent x = some p) (hne : l ≠ []) (hm : s.pproj x = some l)
    (hone : ∀ y ∈ s.heap.words r, y ≠ x → s.pproj y = none) (hy : Chosen s.heap r s.rel p x l y) (hz : z ∈ s.heap.words r)
    (hzy : s.heap.parent z = some y) (hzx : z ≠ x) (hzl : getU (s.rel z) = some l) :
    ∃ s' s'', deprojTree .misc s r = (s', none) ∧ deprojTree .misc s' r = (s'', none) ∧ s'.heap.parent x = some y ∧ s''.heap.parent x ≠ some y := by
  have w := hi r hr
  have hl : Label.misc ≠ .other := fun e => by cases e
  have hd : ∀ s : ProjState, Label.misc = .deprel → ∀ x ∈ s.heap.words r, s.rel x ≠ none := fun _ e => by cases e
  have hone' : ∀ y ∈ s.heap.words r, ∀ l', l' ≠ [] → Marked .misc s y l' → y = x := by
    intro y hy l' _ hm'
    by_cases hyx : y = x
    · exact hyx
    · have h := hone y hy hyx
      simp only [Marked] at hm'
      rw [h] at hm'; cases hm'
  obtain ⟨s', e, i', t', w', _, _, m', g', c', _⟩ := C155_tree hl hi hr (hd s)
  obtain ⟨s1, e1, hcase⟩ := C155_one hl hi hr (hd s) hx hp hne hm hone'
  rw [e] at e1
  cases e1
  have hpar : s'.heap.parent = upd s.heap.parent x (some y) := by
    rcases hcase with ⟨y', h1, h2⟩ | ⟨h1, _⟩
    · rw [h2, chosen_unique w (w.parent_in hx hp) h1 hy]
    · exact absurd hy.1 (h1 y)
  have hxy : s'.heap.parent x = some y := by rw [hpar, upd_same]
  have wn := i' r t'
  have hx' : x ∈ s'.heap.words r := by rw [w']; exact hx
  have hyin : InTree s'.heap r y := wn.parent_in hx' hxy
  obtain ⟨s'', e2, hc2⟩ := C155_one hl i' t' (hd s') hx' hxy hne (by show s'.pproj x = some l; rw [m', hm]) (by
    intro v hv l' hl' hm'
    rw [w'] at hv
    exact hone' v hv l' hl' ((marked_congr (label := .misc) (s := s) (s' := s') (by rw [m']) (by
      rcases c' v hv with ⟨h, _⟩ | ⟨_, h⟩
      · cases h
      · exact h)).1 hm'))
  refine ⟨s', s'', e, e2, hxy, ?_⟩
  have hzpar : s'.heap.parent z = some y := by rw [hpar, upd_ne _ _ hzx, hzy]
  have hcz : Cand s'.heap r s'.rel y x l z := by
    refine ⟨by rw [w']; exact hz, .parent hzpar, hzx, ?_, by rw [g', hzl]⟩
    intro ha
    rcases anc_iff.1 ha with ⟨a, ha1, ha2⟩
    rw [hzpar] at ha1; cases ha1
    have hyx : Anc s'.heap y x := .parent hxy
    rcases ha2 with h | h
    · rw [h] at hyx; exact wn.anc_irrefl (.inr hx') hyx
    · exact wn.anc_irrefl hyin (hyx.trans h)
  rcases hc2 with ⟨y2, h1, h2⟩ | ⟨h1, _⟩
  · rw [h2, upd_same]
    intro h
    cases h
    exact wn.anc_irrefl hyin h1.1.2.1
  · exact absurd hcz (h1 z)

/-! ## transform.Proj and back -/

theorem Up.anc_or {y n a : Nat} (hu : Up h y n a) : a = y ∨ Anc h a y := by
  cases n with
  | zero => cases hu; exact Or.inl rfl
  | succ n => exact Or.inr hu.anc

section move
variable {h1 : Heap} {o : Option Nat}

theorem anc_same (w : WF h r) (hx : x ∈ h.words r) (hp : h1.parent = upd h.parent x o) {y : Nat} (ha : Anc h x y) : Anc h1 x y := by
  induction ha with
  | parent e =>
    refine .parent ?_
    rw [hp, upd_ne _ _ (fun e' => ?_), e]
    subst e'
    exact w.anc_irrefl (.inr hx) (.parent e)
  | step e ha ih =>
    refine .step ?_ ih
    rw [hp, upd_ne _ _ (fun e' => ?_), e]
    subst e'
    exact w.anc_irrefl (.inr hx) (.step e ha)

theorem up_same (hp : h1.parent = upd h.parent x o) {y n a : Nat} (hu : Up h y n a) (hy : y ≠ x) (hn : ¬ Anc h x y) : Up h1 y n a := by
  induction hu with
  | zero => exact .zero _
  | succ e _ ih =>
    refine .succ (by rw [hp, upd_ne _ _ hy, e]) (ih ?_ ?_)
    · rintro rfl; exact hn (.parent e)
    · intro ha; exact hn (.step e ha)

theorem out_of {y n a : Nat} (hu : Up h y n a) (hy : y ≠ x) (hn : ¬ Anc h x y) : a ≠ x := by
  rcases hu.anc_or with rfl | ha
  · exact hy
  · rintro rfl; exact hn ha

theorem earlier_same (hp : h1.parent = upd h.parent x o) (ho : h1.ord = h.ord) {q y z : Nat} (he : Earlier h q y z) (hy : y ≠ x) (hyn : ¬ Anc h x y)
    (hz : z ≠ x) (hzn : ¬ Anc h x z) : Earlier h1 q y z := by
  obtain ⟨n, m, e1, e2, e3⟩ := he
  refine ⟨n, m, up_same hp e1 hy hyn, up_same hp e2 hz hzn, ?_⟩
  rcases e3 with e3 | ⟨e3, k, a, b, c, f1, f2, f3, f4, f5⟩
  · exact Or.inl e3
  · refine Or.inr ⟨e3, k, a, b, c, up_same hp f1 hy hyn, up_same hp f2 hz hzn, ?_, ?_, by rw [ho]; exact f5⟩
    · rw [hp, upd_ne _ _ (out_of f1 hy hyn), f3]
    · rw [hp, upd_ne _ _ (out_of f2 hz hzn), f4]

theorem upd_back (hp : h1.parent = upd h.parent x o) : h.parent = upd h1.parent x (h.parent x) := by
  funext y
  by_cases hy : y = x
  · subst hy; rw [upd_same]
  · rw [upd_ne _ _ hy, hp, upd_ne _ _ hy]

theorem cand_same (w : WF h r) (w1 : WF h1 r) (hx : x ∈ h.words r) (hw : h1.words = h.words) (hp : h1.parent = upd h.parent x o) {rel : Rels} {q y : Nat} {l : Str} :
    Cand h r rel q x l y ↔ Cand h1 r rel q x l y := by
  have hx1 : x ∈ h1.words r := by rw [hw]; exact hx
  constructor
  · rintro ⟨c1, c2, c3, c4, c5⟩
    obtain ⟨n, hn⟩ := up_of_anc c2
    exact ⟨by rw [hw]; exact c1, (up_same hp hn c3 c4).anc, c3, fun ha => c4 (anc_same w1 hx1 (upd_back hp) ha), c5⟩
  · rintro ⟨c1, c2, c3, c4, c5⟩
    obtain ⟨n, hn⟩ := up_of_anc c2
    exact ⟨by rw [← hw]; exact c1, (up_same (upd_back hp) hn c3 c4).anc, c3, fun ha => c4 (anc_same w hx hp ha), c5⟩

theorem chosen_same (w : WF h r) (w1 : WF h1 r) (hx : x ∈ h.words r) (hw : h1.words = h.words) (ho : h1.ord = h.ord) (hp : h1.parent = upd h.parent x o)
    {rel : Rels} {q y : Nat} {l : Str} : Chosen h r rel q x l y ↔ Chosen h1 r rel q x l y := by
  constructor
  · rintro ⟨c, h2⟩
    refine ⟨(cand_same w w1 hx hw hp).1 c, fun z hz => ?_⟩
    have hz' := (cand_same w w1 hx hw hp).2 hz
    exact (h2 z hz').imp_right (fun e => earlier_same hp ho e c.2.2.1 c.2.2.2.1 hz'.2.2.1 hz'.2.2.2.1)
  · rintro ⟨c, h2⟩
    refine ⟨(cand_same w w1 hx hw hp).2 c, fun z hz => ?_⟩
    have hz' := (cand_same w w1 hx hw hp).1 hz
    exact (h2 z hz').imp_right (fun e => earlier_same (upd_back hp) ho.symm e c.2.2.1 c.2.2.2.1 hz'.2.2.1 hz'.2.2.2.1)

end move

/-- **C155, back from transform.Proj, partial.** If `x` is the only word whose edge is not projective, transform.Proj moves it up from its
parent `p` to a word `q`. transform.Deproj then restores the tree exactly if `p` is the first word in breadth-first order below `q`, outside
the subtree of `x`, with the relation of `p`. Missing: several such words. -/
theorem C155_roundtrip_partial (shortest : Bool) {s : ProjState} (hi : Inv s.heap) (hr : IsTree s.heap r) {l : Str} (hx : x ∈ s.heap.words r)
    (hp : s.heap.parent x = some p) (hnp : NonProj s.heap r x) (honly : ∀ y ∈ s.heap.words r, NonProj s.heap r y → y = x)
    (hpp : ∀ y ∈ s.heap.words r, s.pproj y = none) (hne : l ≠ []) (hl : getU (s.rel p) = some l) :
    ∃ q s1 s2, projTree shortest .misc s r = (s1, none) ∧ deprojTree .misc s1 r = (s2, none) ∧ Anc s.heap q p ∧
      s1.heap.parent = upd s.heap.parent x (some q) ∧ (s2.heap.parent = s.heap.parent ↔ Chosen s.heap r s.rel q x l p) := by
  have w := hi r hr
  have hlab : Label.misc ≠ .other := fun e => by cases e
  have hd : ∀ s : ProjState, Label.misc = .deprel → ∀ x ∈ s.heap.words r, s.rel x ≠ none := fun _ e => by cases e
  obtain ⟨s1, e1, i1, t1, w1, o1, r1, k1, a1⟩ := C94_ancestors_partial shortest (label := .misc) hlab hi hr
  obtain ⟨s1', e1', rel1, m1⟩ := C94_marks_partial shortest hi hr
  rw [e1] at e1'; cases e1'
  obtain ⟨s1', e1', n1⟩ := C94_projective_partial shortest (label := .misc) hlab hi hr (by
    intro a ha b hb h1 h2
    rw [honly a ha h1, honly b hb h2]
    exact w.anc_irrefl (.inr hx))
  rw [e1] at e1'; cases e1'
  obtain ⟨q, hq, hqx⟩ := a1 x hx
  have hpar : s1.heap.parent = upd s.heap.parent x (some q) := by
    funext y
    by_cases hy : y = x
    · subst hy; rw [upd_same, hq]
    · rw [upd_ne _ _ hy]
      refine k1 y ?_
      by_cases hyw : y ∈ s.heap.words r
      · exact Or.inr (fun h => hy (honly y hyw h))
      · exact Or.inl hyw
  have hqp : q ≠ p := by
    intro e
    subst e
    apply n1 x hx
    refine (nonproj_congr ?_ o1 w1 x).2 hnp
    rw [hpar]
    funext y
    by_cases hy : y = x
    · subst hy; rw [upd_same, hp]
    · rw [upd_ne _ _ hy]
  have hqp' : Anc s.heap q p := by
    rcases anc_iff.1 hqx with ⟨a, ha, hor⟩
    rw [hp] at ha; cases ha
    exact hor.resolve_left (fun e => hqp e.symm)
  have hx1 : x ∈ s1.heap.words r := by rw [w1]; exact hx
  have hmx : s1.pproj x = some l := by
    rw [m1 x p hp, hq, if_neg (fun e => hqp (Option.some.inj e)), hl]
  have hmy : ∀ y ∈ s.heap.words r, y ≠ x → s1.pproj y = none := by
    intro y hy hyx
    obtain ⟨a, ha, _⟩ := w.parentIn y hy
    rw [m1 y a ha, hpar, upd_ne _ _ hyx, if_pos ha, hpp y hy]
  obtain ⟨s2, e2, hc⟩ := C155_one (label := .misc) hlab i1 t1 (hd s1) hx1 hq hne hmx (by
    intro y hy l' _ hm
    by_cases hyx : y = x
    · exact hyx
    · simp only [Marked] at hm
      rw [hmy y (by rw [← w1]; exact hy) hyx] at hm; cases hm)
  refine ⟨q, s1, s2, e1, e2, hqp', hpar, ?_⟩
  have hcp : Cand s.heap r s.rel q x l p := by
    have hpw : p ∈ s.heap.words r := by
      rcases w.parent_in hx hp with h | h
      · subst h
        exact absurd hqp' w.not_anc_root
      · exact h
    refine ⟨hpw, hqp', ?_, ?_, hl⟩
    · rintro rfl; exact w.anc_irrefl (.inr hx) (.parent hp)
    · intro ha; exact w.anc_irrefl (.inr hx) (.step hp ha)
  rw [rel1] at hc
  rcases hc with ⟨y, hy, e⟩ | ⟨hno, _⟩
  · have hy' := (chosen_same w (i1 r t1) hx w1 o1 hpar).2 hy
    rw [e, hpar]
    constructor
    · intro he
      have := congrFun he x
      rw [upd_same, hp] at this
      cases this
      exact hy'
    · intro hch
      rw [chosen_unique w (w.anc_in (.inr hx) hqx) hy' hch]
      funext z
      by_cases hz : z = x
      · subst hz; rw [upd_same, hp]
      · rw [upd_ne _ _ hz, upd_ne _ _ hz]
  · exact absurd ((cand_same w (i1 r t1) hx w1 hpar).1 hcp) (hno p)

/-- **C155, labels in the relations.** A label that transform.Proj put into a relation without a plus is read back, and the relation is
restored. -/
theorem C155_label {s : ProjState} {x : Nat} {u t l : Str} (hc : ':' ∉ u) (ht : '+' ∉ t) (hr : s.rel x = some (if t = [] then u else u ++ [':'] ++ t)) :
    Marked .deprel (projMark .deprel s x (some l)).1 x l ∧ ∀ d, Clean .deprel (projMark .deprel s x (some l)).1 x d → d = s.rel x := by
  have hP : Parts (if t = [] then u else u ++ [':'] ++ t) u t := by
    refine ⟨hc, ?_⟩
    by_cases h0 : t = []
    · exact Or.inl ⟨by rw [if_pos h0], h0⟩
    · exact Or.inr (by rw [if_neg h0])
  obtain ⟨g1, g2⟩ := (C06_get _ _ _).1 hP
  have hm : (projMark .deprel s x (some l)).1.rel x = some (u ++ [':'] ++ t ++ ['+'] ++ l) := by
    simp only [projMark]
    rw [upd_same, hr, g1, g2]; rfl
  have hM : Marked .deprel (projMark .deprel s x (some l)).1 x l := ⟨u, t, hc, ht, hm⟩
  refine ⟨hM, ?_⟩
  rintro d (⟨_, u', a', l', k1, k2, k3, k4⟩ | ⟨h, _⟩)
  · rw [hm] at k3
    have e := Option.some.inj k3
    have p1 := parts_iff.1 (⟨k1, Or.inr (by rw [e]; simp)⟩ : Parts (u ++ [':'] ++ t ++ ['+'] ++ l) u' (a' ++ '+' :: l'))
    have p2 := parts_iff.1 (⟨hc, Or.inr (by simp)⟩ : Parts (u ++ [':'] ++ t ++ ['+'] ++ l) u (t ++ '+' :: l))
    have e1 : u' = u := p1.1.symm.trans p2.1
    have e2 : a' ++ '+' :: l' = t ++ '+' :: l := p1.2.symm.trans p2.2
    have e3 : a' = t := by
      have := congrArg (splitOnce '+') e2
      rw [splitOnce_append k2, splitOnce_append ht] at this
      exact congrArg Prod.fst this
    rw [k4, hr, e1, e3]
  · exact absurd hM (h rfl l)

/-- **C155 violated (a plus).** If the subtype of the relation contains a plus, another label is read and the relation is not restored. -/
theorem C155_plus_violated {s : ProjState} {x : Nat} {u a b l : Str} (hc : ':' ∉ u) (ha : '+' ∉ a) (hr : s.rel x = some (u ++ [':'] ++ a ++ ['+'] ++ b)) :
    (∀ l', Marked .deprel (projMark .deprel s x (some l)).1 x l' → l' ≠ l) ∧
    ∀ d, Clean .deprel (projMark .deprel s x (some l)).1 x d → d ≠ s.rel x := by
  have hP : Parts (u ++ [':'] ++ a ++ ['+'] ++ b) u (a ++ '+' :: b) := ⟨hc, Or.inr (by simp)⟩
  obtain ⟨g1, g2⟩ := (C06_get _ _ _).1 hP
  have hm : (projMark .deprel s x (some l)).1.rel x = some (u ++ [':'] ++ a ++ ['+'] ++ (b ++ ['+'] ++ l)) := by
    simp only [projMark]
    rw [upd_same, hr, g1, g2]
    simp [fmt]
  have hM : Marked .deprel (projMark .deprel s x (some l)).1 x (b ++ ['+'] ++ l) := ⟨u, a, hc, ha, hm⟩
  have key : ∀ u' a' l', ':' ∉ u' → '+' ∉ a' → (projMark .deprel s x (some l)).1.rel x = some (u' ++ [':'] ++ a' ++ ['+'] ++ l') →
      u' = u ∧ a' = a ∧ l' = b ++ ['+'] ++ l := by
    intro u' a' l' k1 k2 k3
    rw [hm] at k3
    have e := Option.some.inj k3
    have p1 := parts_iff.1 (⟨k1, Or.inr (by rw [e]; simp)⟩ : Parts (u ++ [':'] ++ a ++ ['+'] ++ (b ++ ['+'] ++ l)) u' (a' ++ '+' :: l'))
    have p2 := parts_iff.1 (⟨hc, Or.inr (by simp)⟩ : Parts (u ++ [':'] ++ a ++ ['+'] ++ (b ++ ['+'] ++ l)) u (a ++ '+' :: (b ++ ['+'] ++ l)))
    have e2 : a' ++ '+' :: l' = a ++ '+' :: (b ++ ['+'] ++ l) := p1.2.symm.trans p2.2
    have := congrArg (splitOnce '+') e2
    rw [splitOnce_append k2, splitOnce_append ha] at this
    exact ⟨p1.1.symm.trans p2.1, congrArg Prod.fst this, by simpa using congrArg Prod.snd this⟩
  constructor
  · rintro l' ⟨u', a', k1, k2, k3⟩ e
    have := congrArg List.length ((key u' a' l' k1 k2 k3).2.2)
    rw [e] at this
    simp at this
    omega
  · rintro d (⟨_, u', a', l', k1, k2, k3, k4⟩ | ⟨h, _⟩) e
    · obtain ⟨rfl, rfl, _⟩ := key u' a' l' k1 k2 k3
      rw [k4, hr] at e
      have := congrArg List.length (Option.some.inj e)
      by_cases h0 : a' = []
      · rw [if_pos h0] at this; simp at this
      · rw [if_neg h0] at this; simp at this
    · exact absurd hM (h rfl _)

/-! ## Examples -/

/-- Word 1 depends on 4, words 3 and 4 on 2; the edge of word 1 crosses word 2. -/
def exHeap : Heap := runOps Heap.init [.newTree, .createChild 0, .createChild 0, .createChild 2, .createChild 2, .setParent 1 (some 4)]

theorem exHeap_reachable : Reachable exHeap := by
  unfold exHeap runOps
  simp only [List.foldl]
  refine .step (.setParent 1 (some 4)) (.step (.createChild 2) (.step (.createChild 2) (.step (.createChild 0)
    (.step (.createChild 0) (.step .newTree .init trivial) ?_) ?_) ?_) ?_) ?_
  · exact ⟨0, ⟨by decide, by decide⟩, .inl rfl⟩
  · exact ⟨0, ⟨by decide, by decide⟩, .inl rfl⟩
  · exact ⟨0, ⟨by decide, by decide⟩, .inr (by decide)⟩
  · exact ⟨0, ⟨by decide, by decide⟩, .inr (by decide)⟩
  · exact ⟨0, ⟨by decide, by decide⟩, .inr (by decide), .inr (by decide)⟩

/-- Word 4 is an object, and so is word 3 unless `b`. -/
def exRel (b : Bool) : Rels := fun n => if n = 4 ∨ (n = 3 ∧ b = false) then some ['o', 'b', 'j'] else some ['o', 'b', 'l', ':', 'x']

/-- **C155 violated (transform.Proj and back).** The word left of the old parent with the same relation is taken instead. -/
theorem C155_roundtrip_violated : ∃ s r, Reachable s.heap ∧ IsTree s.heap r ∧ (∀ y, s.pproj y = none) ∧ ∀ shortest,
    ∃ s1 s2, projTree shortest .misc s r = (s1, none) ∧ deprojTree .misc s1 r = (s2, none) ∧ s.heap.parent 1 = some 4 ∧ s2.heap.parent 1 = some 3 := by
  have hi := inv_reachable exHeap_reachable
  have ht : IsTree exHeap 0 := ⟨by decide +kernel, by decide +kernel⟩
  refine ⟨⟨exHeap, exRel false, fun _ => none⟩, 0, exHeap_reachable, ht, fun _ => rfl, fun shortest => ?_⟩
  obtain ⟨s1, e1, i1, t1, _⟩ := C94_ancestors_partial shortest (label := .misc) (fun e => by cases e)
    (s := ⟨exHeap, exRel false, fun _ => none⟩) hi ht
  obtain ⟨s2, e2, _⟩ := C155_tree (label := .misc) (s := s1) (fun e => by cases e) i1 t1 (fun e => by cases e)
  refine ⟨s1, s2, e1, e2, by decide +kernel, ?_⟩
  have hh : ∀ b, (deprojTree .misc (projTree b .misc ⟨exHeap, exRel false, fun _ => none⟩ 0).1 0).1.heap.parent 1 = some 3 := by decide +kernel
  have := hh shortest
  rwa [e1, e2] at this

/-- With another relation of word 3 the parent is restored; the labels may also stand in the relations, which are restored too. -/
example : (deprojTree .misc (projTree true .misc ⟨exHeap, exRel true, fun _ => none⟩ 0).1 0).1.heap.parent 1 = some 4 ∧
    (projTree true .misc ⟨exHeap, exRel true, fun _ => none⟩ 0).1.heap.parent 1 = some 2 := by decide +kernel
example : (projTree true .deprel ⟨exHeap, exRel true, fun _ => none⟩ 0).1.rel 1 = some ['o', 'b', 'l', ':', 'x', '+', 'o', 'b', 'j'] ∧
    (deprojTree .deprel (projTree true .deprel ⟨exHeap, exRel true, fun _ => none⟩ 0).1 0).1.rel 1 = exRel true 1 := by decide +kernel

/-- Words 1 and 3 depend on the root and word 2 on 1; word 3 has a label that is the relation of 1 and 2. It moves twice. -/
def exTwice : ProjState := ⟨runOps Heap.init [.newTree, .createChild 0, .createChild 1, .createChild 0],
  fun n => if n = 3 then some ['b'] else some ['a'], fun n => if n = 3 then some ['a'] else none⟩

example : (deprojTree .misc exTwice 0).1.heap.parent 3 = some 1 ∧
    (deprojTree .misc (deprojTree .misc exTwice 0).1 0).1.heap.parent 3 = some 2 := by decide +kernel

end Verif.Blocks.Deproj
