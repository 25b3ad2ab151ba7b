import Verif.Blocks.Basic

/-!
# Property C136: ud.FixPseudoCop (udapi/block/ud/fixpseudocop.py)

`lemma` are the lemmas of the nodes, `ls` is the parameter `lemmas` split at commas, `na` the parameter `noncopaux`.
-/

namespace Verif.Blocks.PseudoCop
open Verif.Py Verif.Tree Verif.Deprel Verif.Blocks

def rCop : Str := ['c', 'o', 'p']
def rAux : Str := ['a', 'u', 'x']
def rXcomp : Str := ['x', 'c', 'o', 'm', 'p']
def pVerb : Str := ['V', 'E', 'R', 'B']
def pAux : Str := ['A', 'U', 'X']

/-- The alternatives of the regular expression (fixpseudocop.py:41). -/
def clausal : List Str :=
  [['n', 's', 'u', 'b', 'j'], ['c', 's', 'u', 'b', 'j'], ['a', 'd', 'v', 'm', 'o', 'd'], ['a', 'd', 'v', 'c', 'l'], ['o', 'b', 'j'],
   ['i', 'o', 'b', 'j'], ['o', 'b', 'l'], ['a', 'u', 'x'], ['m', 'a', 'r', 'k'], ['p', 'u', 'n', 'c', 't'], ['c', 'c'], ['e', 'x', 'p', 'l'],
   ['d', 'i', 's', 'l', 'o', 'c', 'a', 't', 'e', 'd'], ['v', 'o', 'c', 'a', 't', 'i', 'v', 'e'],
   ['d', 'i', 's', 'c', 'o', 'u', 'r', 's', 'e'], ['p', 'a', 'r', 'a', 't', 'a', 'x', 'i', 's']]

/-- `re.match("(...|...)", u)`: one of the alternatives is a prefix of `u`. -/
def isClausal (u : Str) : Bool := clausal.any (fun c => c.isPrefixOf u)

/-- Heap, relations and parts of speech. -/
structure St where
  heap : Heap
  rel : Rels
  upos : Nat → Option Str

/-- The body of the loop over the children (fixpseudocop.py:37-42); `None` as second argument of `re.match` is a TypeError. -/
def childStep (d : Rels) (x : Nat) (h : Heap) (c : Nat) : Heap × Option Err :=
  match getU (d c) with
  | none => (h, some .typeError)
  | some u => if isClausal u then setParent h c (some x) else (h, none)

/-- fixpseudocop.py:25-42 -/
def lift (s : St) (x : Nat) : St × Option Err :=
  match s.heap.parent x with
  | none => (s, some .attributeError)
  | some p =>
    match setParent s.heap x (s.heap.parent p) with
    | (h1, some e) => ({ s with heap := h1 }, some e)
    | (h1, none) =>
      let d1 := upd s.rel x (s.rel p)
      match setParent h1 p (some x) with
      | (h2, some e) => (⟨h2, d1, s.upos⟩, some e)
      | (h2, none) =>
        let d2 := upd d1 p (some rXcomp)
        let u2 := upd s.upos x (some pVerb)
        match forNodes (childStep d2 x) h2 (h2.children p) with
        | (h3, e) => (⟨h3, d2, u2⟩, e)

/-- `process_node(node)` (fixpseudocop.py:20-45) -/
def copStep (lemma : Nat → Option Str) (ls : List Str) (na : Bool) (s : St) (x : Nat) : St × Option Err :=
  if ∃ l ∈ ls, lemma x = some l then
    if getU (s.rel x) = some rCop ∨ (na = true ∧ getU (s.rel x) = some rAux) then lift s x
    else if na = true ∧ s.upos x = some pAux then ({ s with upos := upd s.upos x (some pVerb) }, none)
    else (s, none)
  else (s, none)

/-- The block on one tree. -/
def fixCop (lemma : Nat → Option Str) (ls : List Str) (na : Bool) (s : St) (r : Nat) : St × Option Err :=
  forNodes (copStep lemma ls na) s (s.heap.words r)

/-! ## Specification vocabulary -/

/-- `x` is attached as a copula, or as an auxiliary if these are to be fixed, too. -/
def IsCop (na : Bool) (d : Rels) (x : Nat) : Prop := getU (d x) = some rCop ∨ (na = true ∧ getU (d x) = some rAux)

/-- `c` is another dependent of `p` that belongs to the clause. -/
def Moves (h : Heap) (d : Rels) (r p x c : Nat) : Prop :=
  c ∈ h.words r ∧ c ≠ x ∧ h.parent c = some p ∧ ∃ u v, getU (d c) = some u ∧ v ∈ clausal ∧ v <+: u

/-- `x` has taken the place of its parent `p`. -/
structure Lifted (r p x : Nat) (s s' : St) : Prop where
  top : s'.heap.parent x = s.heap.parent p ∧ s'.rel x = s.rel p
  pred : s'.heap.parent p = some x ∧ s'.rel p = some rXcomp
  verb : s'.upos = upd s.upos x (some pVerb)
  moved : ∀ c, Moves s.heap s.rel r p x c → s'.heap.parent c = some x
  parents : ∀ y, y ≠ x → y ≠ p → ¬ Moves s.heap s.rel r p x y → s'.heap.parent y = s.heap.parent y
  rels : ∀ y, y ≠ x → y ≠ p → s'.rel y = s.rel y

/-! ## Proofs -/

theorem isClausal_iff (u : Str) : isClausal u = true ↔ ∃ v ∈ clausal, v <+: u := by
  unfold isClausal
  rw [List.any_eq_true]
  simp only [List.isPrefixOf_iff_prefix]

/-- Moving a word below `a` does not change the ancestors of `a`. -/
theorem anc_target {h h1 : Heap} {c a : Nat} {v : Option Nat} (p1 : h1.parent = upd h.parent c v) (c2 : c ≠ a) (c3 : ¬ Anc h c a) {z : Nat} :
    Anc h1 z a ↔ Anc h z a := by
  have key : ∀ {x y}, Anc h1 x y → Anc h x y ∨ (Anc h c y ∨ y = c) := by
    intro x y hxy
    induction hxy with
    | @parent b hb =>
      rw [p1] at hb
      by_cases hbc : b = c
      · exact .inr (.inr hbc)
      · rw [upd_ne _ _ hbc] at hb
        exact .inl (.parent hb)
    | @step b q hb _ ih =>
      rw [p1] at hb
      by_cases hbc : b = c
      · exact .inr (.inr hbc)
      · rw [upd_ne _ _ hbc] at hb
        rcases ih with ih | ih | ih
        · exact .inl (.step hb ih)
        · exact .inr (.inl (.step hb ih))
        · exact .inr (.inl (.parent (ih ▸ hb)))
  constructor
  · intro h'
    rcases key h' with k | k | k
    · exact k
    · exact absurd k c3
    · exact absurd k.symm c2
  · intro h'
    have : ∀ {y}, Anc h z y → (y = a ∨ Anc h y a) → Anc h1 z y := by
      intro y hy
      induction hy with
      | @parent b hb =>
        intro hba
        have hbc : b ≠ c := by
          rintro rfl
          exact hba.elim c2 c3
        exact .parent (by rw [p1, upd_ne _ _ hbc, hb])
      | @step b q hb _ ih =>
        intro hba
        have hbc : b ≠ c := by
          rintro rfl
          exact hba.elim c2 c3
        refine .step (by rw [p1, upd_ne _ _ hbc, hb]) (ih (.inr ?_))
        rcases hba with e | e
        · exact .parent (e ▸ hb)
        · exact (Anc.parent hb).trans e
    exact this h' (.inl rfl)

/-- The loop over the children. -/
theorem children_spec {d : Rels} {r x : Nat} : ∀ (cs : List Nat) (h : Heap), Inv h → IsTree h r → x ∈ h.words r → cs.Nodup →
    (∀ c ∈ cs, c ∈ h.words r ∧ c ≠ x ∧ ¬ Anc h c x ∧ getU (d c) ≠ none) →
    ∃ h', forNodes (childStep d x) h cs = (h', none) ∧ Inv h' ∧ IsTree h' r ∧ h'.words = h.words ∧ h'.ord = h.ord ∧ h'.root = h.root ∧
      ∀ z, h'.parent z = if z ∈ cs ∧ (∃ u, getU (d z) = some u ∧ isClausal u = true) then some x else h.parent z
  | [], h, hi, hr, _, _, _ => ⟨h, rfl, hi, hr, rfl, rfl, rfl, fun z => by simp⟩
  | c :: cs, h, hi, hr, hx, hn, hcs => by
    rw [List.nodup_cons] at hn
    obtain ⟨c1, c2, c3, c4⟩ := hcs c (List.mem_cons_self ..)
    cases hu : getU (d c) with
    | none => exact absurd hu c4
    | some u =>
      by_cases hcl : isClausal u = true
      · obtain ⟨h1, e1, i1, t1, w1, r1, o1, p1⟩ := attach_one hi hr c1 (.inr hx) (Ne.symm c2) c3
        obtain ⟨h2, e2, i2, t2, w2, o2, r2, p2⟩ := children_spec cs h1 i1 t1 (by rw [w1]; exact hx) hn.2 (fun z hz => by
          obtain ⟨z1, z2, z3, z4⟩ := hcs z (List.mem_cons_of_mem _ hz)
          exact ⟨by rw [w1]; exact z1, z2, fun e => z3 ((anc_target p1 c2 c3).1 e), z4⟩)
        refine ⟨h2, ?_, i2, t2, by rw [w2, w1], by rw [o2, o1], by rw [r2, r1], ?_⟩
        · unfold forNodes childStep
          simp only [hu, if_pos hcl, e1]
          exact e2
        · intro z
          rw [p2, p1]
          by_cases hz : z = c
          · subst hz
            rw [if_neg (fun e => hn.1 e.1), upd_same, if_pos ⟨List.mem_cons_self .., u, hu, hcl⟩]
          · rw [upd_ne _ _ hz]
            simp [hz]
      · obtain ⟨h2, e2, i2, t2, w2, o2, r2, p2⟩ := children_spec cs h hi hr hx hn.2 (fun z hz => hcs z (List.mem_cons_of_mem _ hz))
        refine ⟨h2, ?_, i2, t2, w2, o2, r2, ?_⟩
        · unfold forNodes childStep
          simp only [hu, if_neg hcl]
          exact e2
        · intro z
          rw [p2]
          by_cases hz : z = c
          · subst hz
            rw [if_neg (fun e => hn.1 e.1), if_neg]
            rintro ⟨_, v, hv, hvc⟩
            rw [hu] at hv
            exact hcl (Option.some.inj hv ▸ hvc)
          · simp [hz]

theorem lift_spec {s : St} {r x p : Nat} (hi : Inv s.heap) (hr : IsTree s.heap r) (hx : x ∈ s.heap.words r) (hp : s.heap.parent x = some p)
    (hpr : p ≠ r) (hd : ∀ c ∈ s.heap.words r, s.heap.parent c = some p → getU (s.rel c) ≠ none) :
    ∃ s', lift s x = (s', none) ∧ Inv s'.heap ∧ IsTree s'.heap r ∧ s'.heap.words = s.heap.words ∧ s'.heap.ord = s.heap.ord ∧ Lifted r p x s s' := by
  have w := hi r hr
  have hpw : p ∈ s.heap.words r := (w.parent_in hx hp).resolve_left hpr
  obtain ⟨g, hg, hgin, hgx, hxg⟩ := lift_target w hx hp hpr
  have hpx : p ≠ x := fun e => w.anc_irrefl (.inr hx) (.parent (e ▸ hp))
  have hpg : p ≠ g := fun e => w.anc_irrefl (.inr hpw) (.parent (e ▸ hg))
  have hpg' : ¬ Anc s.heap p g := fun e => w.anc_irrefl (.inr hpw) (.step hg e)
  obtain ⟨h1, e1, i1, t1, w1, r1, o1, p1⟩ := attach_one hi hr hx hgin hgx hxg
  -- `p` is not above `x` any more
  have hpx1 : ¬ Anc h1 p x := by
    intro ha
    obtain ⟨q, hq, hqp⟩ := anc_iff.1 ha
    rw [p1, upd_same] at hq
    obtain rfl := Option.some.inj hq
    rcases hqp with e | e
    · exact hpg e.symm
    · exact hpg' ((anc_target p1 (Ne.symm hgx) hxg).1 e)
  obtain ⟨h2, e2, i2, t2, w2, r2, o2, p2⟩ := attach_one i1 t1 (by rw [w1]; exact hpw) (p := x) (.inr (by rw [w1]; exact hx)) (Ne.symm hpx) hpx1
  have W2 : h2.words = s.heap.words := by rw [w2, w1]
  have wf2 := i2 r t2
  have hch : ∀ c, c ∈ h2.children p ↔ (c ∈ s.heap.words r ∧ c ≠ x ∧ s.heap.parent c = some p) := by
    intro c
    rw [wf2.childIff p (.inr (by rw [W2]; exact hpw)), W2, p2, p1]
    by_cases hcp : c = p
    · rw [hcp, upd_same]
      constructor
      · rintro ⟨_, e⟩
        exact absurd (Option.some.inj e).symm hpx
      · rintro ⟨_, _, e⟩
        exact absurd (.parent e) (w.anc_irrefl (.inr hpw))
    · rw [upd_ne _ _ hcp]
      by_cases hcx : c = x
      · rw [hcx, upd_same]
        constructor
        · rintro ⟨_, e⟩
          exact absurd (Option.some.inj e).symm hpg
        · rintro ⟨_, e, _⟩
          exact absurd rfl e
      · rw [upd_ne _ _ hcx]
        constructor
        · rintro ⟨a, b⟩
          exact ⟨a, hcx, b⟩
        · rintro ⟨a, _, b⟩
          exact ⟨a, b⟩
  have hcpne : ∀ c, s.heap.parent c = some p → c ≠ p := fun c hc e => w.anc_irrefl (.inr hpw) (.parent (e ▸ hc))
  obtain ⟨h3, e3, i3, t3, w3, o3, r3, p3⟩ := children_spec (d := upd (upd s.rel x (s.rel p)) p (some rXcomp)) (r := r) (x := x) (h2.children p) h2 i2 t2
    (by rw [W2]; exact hx) (wf2.children_nodup (.inr (by rw [W2]; exact hpw))) (by
      intro c hc
      have hc2 := (wf2.childIff p (.inr (by rw [W2]; exact hpw)) c).1 hc
      obtain ⟨c1, c2, c3⟩ := (hch c).1 hc
      refine ⟨by rw [W2]; exact c1, c2, ?_, ?_⟩
      · intro ha
        have hpx2 : h2.parent p = some x := by rw [p2, upd_same]
        exact wf2.anc_irrefl (x := c) (.inr hc2.1) (ha.trans (.step hc2.2 (.parent hpx2)))
      · rw [upd_ne _ _ (hcpne c c3), upd_ne _ _ c2]
        exact hd c c1 c3)
  refine ⟨⟨h3, upd (upd s.rel x (s.rel p)) p (some rXcomp), upd s.upos x (some pVerb)⟩, ?_, i3, t3, by rw [w3, W2], by rw [o3, o2, o1], ?_⟩
  · unfold lift
    rw [hp]
    simp only [hg, e1, e2, e3]
  · have hcond : ∀ z, (z ∈ h2.children p ∧ (∃ u, getU (upd (upd s.rel x (s.rel p)) p (some rXcomp) z) = some u ∧ isClausal u = true)) ↔
        Moves s.heap s.rel r p x z := by
      intro z
      rw [hch]
      unfold Moves
      constructor
      · rintro ⟨⟨z1, z2, z3⟩, u, hu, hcl⟩
        rw [upd_ne _ _ (hcpne z z3), upd_ne _ _ z2] at hu
        obtain ⟨v, hv, hvp⟩ := (isClausal_iff u).1 hcl
        exact ⟨z1, z2, z3, u, v, hu, hv, hvp⟩
      · rintro ⟨z1, z2, z3, u, v, hu, hv, hvp⟩
        refine ⟨⟨z1, z2, z3⟩, u, ?_, (isClausal_iff u).2 ⟨v, hv, hvp⟩⟩
        rw [upd_ne _ _ (hcpne z z3), upd_ne _ _ z2]
        exact hu
    have hpar : ∀ z, Moves s.heap s.rel r p x z → h3.parent z = some x := fun z hz => by rw [p3, if_pos ((hcond z).2 hz)]
    have hpar' : ∀ z, ¬ Moves s.heap s.rel r p x z → h3.parent z = h2.parent z := fun z hz => by rw [p3, if_neg (fun e => hz ((hcond z).1 e))]
    have nx : ¬ Moves s.heap s.rel r p x x := fun e => e.2.1 rfl
    have np : ¬ Moves s.heap s.rel r p x p := fun e => hcpne p e.2.2.1 rfl
    refine ⟨⟨?_, ?_⟩, ⟨?_, ?_⟩, rfl, hpar, ?_, ?_⟩
    · show h3.parent x = _
      rw [hpar' x nx, p2, upd_ne _ _ (Ne.symm hpx), p1, upd_same, hg]
    · show upd (upd s.rel x (s.rel p)) p (some rXcomp) x = _
      rw [upd_ne _ _ (Ne.symm hpx), upd_same]
    · show h3.parent p = _
      rw [hpar' p np, p2, upd_same]
    · exact upd_same ..
    · intro y hy1 hy2 hy3
      show h3.parent y = _
      rw [hpar' y hy3, p2, upd_ne _ _ hy2, p1, upd_ne _ _ hy1]
    · intro y hy1 hy2
      show upd (upd s.rel x (s.rel p)) p (some rXcomp) y = _
      rw [upd_ne _ _ hy2, upd_ne _ _ hy1]

section Props
variable {lemma : Nat → Option Str} {ls : List Str} {na : Bool} {s : St} {r : Nat}

/-- A word with one of the given lemmas that is attached as a copula to a word takes the place of that word. -/
theorem C136_lift (hi : Inv s.heap) (hr : IsTree s.heap r) {x p : Nat} (hx : x ∈ s.heap.words r) (hl : ∃ l ∈ ls, lemma x = some l)
    (hc : IsCop na s.rel x) (hp : s.heap.parent x = some p) (hpr : p ≠ r)
    (hd : ∀ c ∈ s.heap.words r, s.heap.parent c = some p → getU (s.rel c) ≠ none) :
    ∃ s', copStep lemma ls na s x = (s', none) ∧ Inv s'.heap ∧ s'.heap.words = s.heap.words ∧ s'.heap.ord = s.heap.ord ∧ Lifted r p x s s' := by
  obtain ⟨s', e, i, t, w, o, l⟩ := lift_spec hi hr hx hp hpr hd
  refine ⟨s', ?_, i, w, o, l⟩
  unfold copStep
  rw [if_pos hl, if_pos (show getU (s.rel x) = some rCop ∨ (na = true ∧ getU (s.rel x) = some rAux) from hc)]
  exact e

/-- What holds during the run for a tree without chains of copulas. -/
structure Good (na : Bool) (r : Nat) (s : St) : Prop where
  inv : Inv s.heap
  tree : IsTree s.heap r
  rels : ∀ x ∈ s.heap.words r, getU (s.rel x) ≠ none
  chain : ∀ x ∈ s.heap.words r, IsCop na s.rel x → ∀ p, s.heap.parent x = some p → p ∈ s.heap.words r ∧ ¬ IsCop na s.rel p

theorem xcomp_not_cop (na : Bool) {d : Rels} {x : Nat} (h : d x = some rXcomp) : ¬ IsCop na d x := by
  unfold IsCop
  rw [h]
  rintro (e | ⟨_, e⟩)
  · exact absurd e (by decide)
  · exact absurd e (by decide)

theorem isCop_congr (na : Bool) {d d' : Rels} {x y : Nat} (h : d' x = d y) : IsCop na d' x ↔ IsCop na d y := by
  unfold IsCop
  rw [h]

theorem copStep_good {x : Nat} (g : Good na r s) (hx : x ∈ s.heap.words r) :
    ∃ s', copStep lemma ls na s x = (s', none) ∧ Good na r s' ∧ s'.heap.words = s.heap.words ∧ s'.heap.ord = s.heap.ord ∧
      (∀ y ∈ s.heap.words r, IsCop na s'.rel y → IsCop na s.rel y) ∧ (∀ y, s'.upos y = some pAux → s.upos y = some pAux) ∧
      ((∃ l ∈ ls, lemma x = some l) → ¬ IsCop na s'.rel x ∧ (na = true → s'.upos x ≠ some pAux)) ∧
      (∀ y, (¬ ∃ l ∈ ls, lemma y = some l) → (s'.rel y = s.rel y ∨ s'.rel y = some rXcomp) ∧ s'.upos y = s.upos y) := by
  have w := g.inv r g.tree
  unfold copStep
  by_cases hl : ∃ l ∈ ls, lemma x = some l
  · rw [if_pos hl]
    by_cases hc : IsCop na s.rel x
    · rw [if_pos (show getU (s.rel x) = some rCop ∨ (na = true ∧ getU (s.rel x) = some rAux) from hc)]
      obtain ⟨p, hp, hpin⟩ := w.parentIn x hx
      obtain ⟨hpw, hpc⟩ := g.chain x hx hc p hp
      have hpr : p ≠ r := fun e => w.root_not_mem (e ▸ hpw)
      have hpx : p ≠ x := fun e => w.anc_irrefl (.inr hx) (.parent (e ▸ hp))
      obtain ⟨s', e, i, t, ws, o, l⟩ := lift_spec g.inv g.tree hx hp hpr (fun c hc _ => g.rels c hc)
      have hxc : ¬ IsCop na s'.rel x := fun e => hpc ((isCop_congr na l.top.2).1 e)
      have hpc' : ¬ IsCop na s'.rel p := xcomp_not_cop na l.pred.2
      have hmono : ∀ y, IsCop na s'.rel y → y ≠ x ∧ y ≠ p ∧ IsCop na s.rel y := by
        intro y hy
        have h1 : y ≠ x := by rintro rfl; exact hxc hy
        have h2 : y ≠ p := by rintro rfl; exact hpc' hy
        exact ⟨h1, h2, (isCop_congr na (l.rels y h1 h2)).1 hy⟩
      refine ⟨s', e, ⟨i, t, ?_, ?_⟩, ws, o, fun y _ hy => (hmono y hy).2.2, ?_, fun _ => ⟨hxc, fun _ => ?_⟩, ?_⟩
      · intro y hy
        rw [ws] at hy
        by_cases h1 : y = x
        · rw [h1, l.top.2]
          exact g.rels p hpw
        · by_cases h2 : y = p
          · rw [h2, l.pred.2]
            decide
          · rw [l.rels y h1 h2]
            exact g.rels y hy
      · intro y hy hyc q hq
        rw [ws] at hy ⊢
        obtain ⟨h1, h2, h3⟩ := hmono y hyc
        by_cases hm : Moves s.heap s.rel r p x y
        · rw [l.moved y hm] at hq
          obtain rfl := Option.some.inj hq
          exact ⟨hx, hxc⟩
        · rw [l.parents y h1 h2 hm] at hq
          obtain ⟨k1, k2⟩ := g.chain y hy h3 q hq
          exact ⟨k1, fun e => k2 (hmono q e).2.2⟩
      · intro y hy
        rw [l.verb] at hy
        by_cases h1 : y = x
        · rw [h1, upd_same] at hy
          exact absurd hy (by decide)
        · rwa [upd_ne _ _ h1] at hy
      · rw [l.verb, upd_same]
        decide
      · intro y hy
        have h1 : y ≠ x := by rintro rfl; exact hy hl
        refine ⟨?_, by rw [l.verb, upd_ne _ _ h1]⟩
        by_cases h2 : y = p
        · rw [h2]
          exact .inr l.pred.2
        · exact .inl (l.rels y h1 h2)
    · rw [if_neg (show ¬ (getU (s.rel x) = some rCop ∨ (na = true ∧ getU (s.rel x) = some rAux)) from hc)]
      by_cases ha : na = true ∧ s.upos x = some pAux
      · rw [if_pos ha]
        refine ⟨_, rfl, ⟨g.inv, g.tree, g.rels, g.chain⟩, rfl, rfl, fun _ _ h => h, ?_, fun _ => ⟨hc, fun _ => ?_⟩, ?_⟩
        · intro y hy
          by_cases h1 : y = x
          · rw [h1]
            exact ha.2
          · exact (upd_ne _ _ h1).symm.trans hy
        · show upd s.upos x (some pVerb) x ≠ _
          rw [upd_same]
          decide
        · intro y hy
          have h1 : y ≠ x := by rintro rfl; exact hy hl
          exact ⟨.inl rfl, upd_ne _ _ h1⟩
      · rw [if_neg ha]
        exact ⟨s, rfl, g, rfl, rfl, fun _ _ h => h, fun _ h => h, fun _ => ⟨hc, fun hna e => ha ⟨hna, e⟩⟩, fun _ _ => ⟨.inl rfl, rfl⟩⟩
  · rw [if_neg hl]
    exact ⟨s, rfl, g, rfl, rfl, fun _ _ h => h, fun _ h => h, fun h => absurd h hl, fun _ _ => ⟨.inl rfl, rfl⟩⟩

/-- For trees in which copulas (and auxiliaries, if these are to be fixed) depend on words that are no copulas: after the block no word
with one of the given lemmas is a copula, and with `noncopaux` none is tagged AUX. Other words keep their parts of speech, and their relations
except for new xcomp. What is missing: chains and copulas below the technical root, see below. -/
theorem C136_tree_partial (g : Good na r s) :
    ∃ s', fixCop lemma ls na s r = (s', none) ∧ Inv s'.heap ∧ s'.heap.words = s.heap.words ∧ s'.heap.ord = s.heap.ord ∧
      (∀ x ∈ s.heap.words r, (∃ l ∈ ls, lemma x = some l) → ¬ IsCop na s'.rel x ∧ (na = true → s'.upos x ≠ some pAux)) ∧
      (∀ y, (¬ ∃ l ∈ ls, lemma y = some l) → (s'.rel y = s.rel y ∨ s'.rel y = some rXcomp) ∧ s'.upos y = s.upos y) := by
  obtain ⟨s', e, g', w', o', hd, hf⟩ := forNodes_inv (copStep lemma ls na)
    (fun done (k : St) => Good na r k ∧ k.heap.words = s.heap.words ∧ k.heap.ord = s.heap.ord ∧
      (∀ x ∈ done, (∃ l ∈ ls, lemma x = some l) → ¬ IsCop na k.rel x ∧ (na = true → k.upos x ≠ some pAux)) ∧
      (∀ y, (¬ ∃ l ∈ ls, lemma y = some l) → (k.rel y = s.rel y ∨ k.rel y = some rXcomp) ∧ k.upos y = s.upos y))
    (s.heap.words r)
    (by
      rintro done x rest k hl ⟨gk, wk, ok, hk, fk⟩
      have hxw : x ∈ k.heap.words r := by rw [wk, hl]; simp
      obtain ⟨k', e, g', w', o', m1, m2, hx, hf⟩ := copStep_good (lemma := lemma) (ls := ls) gk hxw
      refine ⟨k', e, g', w'.trans wk, o'.trans ok, ?_, ?_⟩
      · intro y hy hyl
        rcases List.mem_append.1 hy with hy | hy
        · obtain ⟨a, b⟩ := hk y hy hyl
          exact ⟨fun e => a (m1 y (by rw [wk, hl]; simp [hy]) e), fun e c => b e (m2 y c)⟩
        · rw [List.mem_singleton] at hy
          rw [hy] at hyl ⊢
          exact hx hyl
      · intro y hy
        obtain ⟨a, b⟩ := hf y hy
        obtain ⟨a', b'⟩ := fk y hy
        refine ⟨?_, b.trans b'⟩
        rcases a with a | a
        · rw [a]
          exact a'
        · exact .inr a)
    s ⟨g, rfl, rfl, fun x hx => absurd hx List.not_mem_nil, fun _ _ => ⟨.inl rfl, rfl⟩⟩
  exact ⟨s', e, g'.inv, w', o', hd, hf⟩

/-- A copula below the technical root ends the block with an exception. -/
theorem C136_root_violated (hi : Inv s.heap) (hr : IsTree s.heap r) {x : Nat} {A B : List Nat} (hw : s.heap.words r = A ++ x :: B)
    (hA : ∀ y ∈ A, ¬ ∃ l ∈ ls, lemma y = some l) (hl : ∃ l ∈ ls, lemma x = some l) (hc : IsCop na s.rel x) (hp : s.heap.parent x = some r) :
    (fixCop lemma ls na s r).2 = some .valueError := by
  have w := hi r hr
  have hx : x ∈ s.heap.words r := by rw [hw]; simp
  have hstep : (copStep lemma ls na s x) = (s, some .valueError) := by
    unfold copStep lift
    rw [if_pos hl, if_pos (show getU (s.rel x) = some rCop ∨ (na = true ∧ getU (s.rel x) = some rAux) from hc), hp]
    simp only [w.rootParent, setParent_none w hx]
  unfold fixCop
  rw [hw]
  have key : ∀ l : List Nat, (∀ y ∈ l, ¬ ∃ m ∈ ls, lemma y = some m) →
      forNodes (copStep lemma ls na) s (l ++ x :: B) = (s, some .valueError) := by
    intro l
    induction l with
    | nil =>
      intro _
      rw [List.nil_append]
      unfold forNodes
      rw [hstep]
    | cons y l ih =>
      intro hy
      rw [List.cons_append]
      unfold forNodes
      have : copStep lemma ls na s y = (s, none) := by
        unfold copStep
        rw [if_neg (hy y (List.mem_cons_self ..))]
      rw [this]
      exact ih (fun z hz => hy z (List.mem_cons_of_mem _ hz))
  rw [key A hA]

/-- In a chain the copula becomes a copula: it takes over the relation of its parent. -/
theorem C136_chain_violated (hi : Inv s.heap) (hr : IsTree s.heap r) {x p : Nat} (hx : x ∈ s.heap.words r) (hl : ∃ l ∈ ls, lemma x = some l)
    (hc : IsCop na s.rel x) (hp : s.heap.parent x = some p) (hpr : p ≠ r) (hpc : IsCop na s.rel p)
    (hd : ∀ c ∈ s.heap.words r, s.heap.parent c = some p → getU (s.rel c) ≠ none) :
    ∃ s', copStep lemma ls na s x = (s', none) ∧ IsCop na s'.rel x := by
  obtain ⟨s', e, _, _, _, l⟩ := C136_lift (na := na) hi hr hx hl hc hp hpr hd
  exact ⟨s', e, (isCop_congr na l.top.2).2 hpc⟩

end Props

/-- Of the universal relations, the regular expression moves those listed, and `ccomp`, which begins with `cc`. -/
example : isClausal ['c', 'c', 'o', 'm', 'p'] = true ∧ isClausal ['o', 'b', 'j'] = true ∧ isClausal ['d', 'e', 't'] = false ∧
    isClausal ['c', 'o', 'n', 'j'] = false := by decide

/-- A subject (1), a pseudo-copula (2), a determiner (3) and the predicate (4). -/
def exSt : St where
  heap := { parent := fun x => if x = 4 then some 0 else if x = 1 ∨ x = 2 ∨ x = 3 then some 4 else none
            children := fun x => if x = 0 then [4] else if x = 4 then [1, 2, 3] else []
            ord := fun x => x, root := fun _ => 0, words := fun x => if x = 0 then [1, 2, 3, 4] else [], next := 5 }
  rel := fun x => if x = 1 then some ['n', 's', 'u', 'b', 'j'] else if x = 2 then some rCop else if x = 3 then some ['d', 'e', 't']
    else some ['r', 'o', 'o', 't']
  upos := fun x => if x = 2 then some pAux else none

example :
    let s := fixCop (fun x => if x = 2 then some ['s', 'e', 'e', 'm'] else none) [['s', 'e', 'e', 'm']] false exSt 0
    s.2 = none ∧ s.1.heap.parent 2 = some 0 ∧ s.1.heap.parent 4 = some 2 ∧ s.1.heap.parent 1 = some 2 ∧ s.1.heap.parent 3 = some 4 ∧
      s.1.rel 2 = some ['r', 'o', 'o', 't'] ∧ s.1.rel 4 = some rXcomp ∧ s.1.upos 2 = some pVerb := by decide +kernel

end Verif.Blocks.PseudoCop
