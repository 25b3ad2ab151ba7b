import Verif.Blocks.GoogleSwap

/-!
# Property C217: spurious auxiliaries become the heads of their verbs

Source: `udapi/block/ud/kk/fixspuriousaux.py:8-30`, `udapi/block/ud/ug/fixspuriousaux.py:8-50` and the phase verbs of `udapi/block/ud/hi/fixaux.py:47-72`. The tree is given by parents and
relations as in `Verif/Blocks/GoogleSwap.lean`. `listed n` says that the lemma of `n` is one of those listed (and, for kk and hi, that its UPOS is AUX); `isAux` that the universal relation
is `aux`; `mv` which children of the verb move. The UPOS set is not modelled, nor are the other parts of hi.FixAux, which change no head.
-/

namespace Verif.Blocks.SpuriousAux
open Verif.Blocks.GoogleSwap

variable {R : Type}

/-- `process_node` of kk and ug (for hi the verb is hung on the auxiliary before its children are moved, which gives the same). -/
def step (listed : Nat → Bool) (isAux mv : R → Bool) (xcomp : R) : (Nat → Nat) × (Nat → R) → Nat → Option ((Nat → Nat) × (Nat → R)) :=
  lift (fun n r => listed n && isAux r) mv xcomp

/-- The block on one tree with the words `ns`. -/
def block (listed : Nat → Bool) (isAux mv : R → Bool) (xcomp : R) (ns : List Nat) (s : (Nat → Nat) × (Nat → R)) : Option ((Nat → Nat) × (Nat → R)) :=
  loop (step listed isAux mv xcomp) ns s

theorem step_cases {listed : Nat → Bool} {isAux mv : R → Bool} {xcomp : R} {s s' : (Nat → Nat) × (Nat → R)} {n : Nat} (h : step listed isAux mv xcomp s n = some s') :
    s' = s ∨ (listed n = true ∧ isAux (s.2 n) = true ∧ s.1 n ≠ 0 ∧
      s' = (promote s.1 (fun x => mv (s.2 x)) n (s.1 n), fun x => if x = s.1 n then xcomp else if x = n then s.2 (s.1 n) else s.2 x)) := by
  unfold step lift at h
  split at h
  · rename_i g
    rw [Bool.and_eq_true] at g
    split at h
    · cases h
    · rename_i g0
      injection h with h
      exact Or.inr ⟨g.1, g.2, g0, h.symm⟩
  · injection h with h; exact Or.inl h.symm

/-- One auxiliary `n` on the verb `v`: it takes the place and relation of the verb, the verb becomes its `xcomp`, exactly the other children of the verb with the relations listed move to the auxiliary, and nothing
else changes. -/
theorem C217_places (listed : Nat → Bool) (isAux mv : R → Bool) (xcomp : R) (par par' : Nat → Nat) (rel rel' : Nat → R) (n v : Nat) (ht : Tree par) (hv : par n = v)
    (hl : listed n = true) (ha : isAux (rel n) = true) (h : step listed isAux mv xcomp (par, rel) n = some (par', rel')) :
    par' n = par v ∧ rel' n = rel v ∧ par' v = n ∧ rel' v = xcomp ∧
    (∀ x, x ≠ n → par x = v → rel' x = rel x ∧ par' x = if mv (rel x) then n else v) ∧ (∀ x, x ≠ n → x ≠ v → par x ≠ v → par' x = par x ∧ rel' x = rel x) := by
  subst hv
  rcases step_cases h with e | ⟨_, _, h0, e⟩
  · -- the step cannot leave everything unless it does nothing, which it does not
    unfold step lift at h
    simp only [hl, ha, Bool.and_self, if_true] at h
    by_cases h0 : par n = 0
    · rw [if_pos h0] at h; cases h
    · exfalso
      rw [if_neg h0] at h
      simp only [Prod.mk.injEq] at e
      have hp := congrFun e.1 n
      injection h with h
      simp only [Prod.mk.injEq] at h
      rw [← h.1] at hp
      simp only [promote, if_true] at hp
      exact (no_cycle ht h0).1 hp
  · simp only [Prod.mk.injEq] at e
    obtain ⟨rfl, rfl⟩ := e
    have hn0 : n ≠ 0 := by rintro rfl; exact h0 ht.1
    have hpn : par n ≠ n := (no_cycle ht hn0).1
    have hpp : par (par n) ≠ par n := (no_cycle ht h0).1
    refine ⟨by simp [promote], by simp [Ne.symm hpn], by simp [promote, hpn], by simp, ?_, ?_⟩
    · intro x g1 g2
      have g3 : x ≠ par n := by rintro rfl; exact hpp g2
      refine ⟨by simp [g1, g3], ?_⟩
      simp only [promote, if_neg g1, if_neg g3, g2, true_and]
    · intro x g1 g2 g3
      exact ⟨by simp [promote, g1, g2, g3], by simp [g1, g2]⟩

/-- The block leaves a tree. -/
theorem C217_tree (listed : Nat → Bool) (isAux mv : R → Bool) (xcomp : R) (ns : List Nat) (par par' : Nat → Nat) (rel rel' : Nat → R) (ht : Tree par)
    (h : block listed isAux mv xcomp ns (par, rel) = some (par', rel')) : Tree par' := by
  refine loop_inv (P := fun s => Tree s.1) ?_ ns _ _ ht h
  intro s n s' hs hstep
  rcases step_cases hstep with rfl | ⟨_, _, h0, rfl⟩
  · exact hs
  · exact promote_tree hs _ rfl h0

/-- If `root` is the relation of exactly the words on the technical root, it is so after the block; and there is one such word if there was one. -/
theorem C217_root (listed : Nat → Bool) (isAux mv : R → Bool) (xcomp root : R) (ns : List Nat) (par par' : Nat → Nat) (rel rel' : Nat → R) (hx : xcomp ≠ root) (ht : Tree par)
    (hr : ∀ x, x ≠ 0 → (rel x = root ↔ par x = 0)) (h : block listed isAux mv xcomp ns (par, rel) = some (par', rel')) :
    (∀ x, x ≠ 0 → (rel' x = root ↔ par' x = 0)) ∧ ((∃ r, ∀ x, (x ≠ 0 ∧ par x = 0) ↔ x = r) → ∃ r, ∀ x, (x ≠ 0 ∧ par' x = 0) ↔ x = r) := by
  suffices H : Tree par' ∧ (∀ x, x ≠ 0 → (rel' x = root ↔ par' x = 0)) ∧ ((∃ r, ∀ x, (x ≠ 0 ∧ par x = 0) ↔ x = r) → ∃ r, ∀ x, (x ≠ 0 ∧ par' x = 0) ↔ x = r) from H.2
  refine loop_inv (P := fun s => Tree s.1 ∧ (∀ x, x ≠ 0 → (s.2 x = root ↔ s.1 x = 0)) ∧ ((∃ r, ∀ x, (x ≠ 0 ∧ par x = 0) ↔ x = r) → ∃ r, ∀ x, (x ≠ 0 ∧ s.1 x = 0) ↔ x = r)) ?_
    ns _ _ ⟨ht, hr, fun g => g⟩ h
  rintro s n s' ⟨hs, hrel, hone⟩ hstep
  rcases step_cases hstep with rfl | ⟨_, _, h0, rfl⟩
  · exact ⟨hs, hrel, hone⟩
  · have hn0 : n ≠ 0 := by rintro rfl; exact h0 hs.1
    have hpn : s.1 n ≠ n := (no_cycle hs hn0).1
    have hpp : s.1 (s.1 n) ≠ s.1 n := (no_cycle hs h0).1
    -- the words on the technical root, with the auxiliary instead of the verb
    have key : ∀ x, x ≠ 0 → (promote s.1 (fun x => mv (s.2 x)) n (s.1 n) x = 0 ↔ (x = n ∧ s.1 (s.1 n) = 0) ∨ (x ≠ n ∧ x ≠ s.1 n ∧ s.1 x = 0)) := by
      intro x _
      unfold promote
      by_cases g1 : x = n
      · simp [g1]
      · by_cases g2 : x = s.1 n
        · simp [g2, hpn, hn0]
        · rw [if_neg g1, if_neg g2]
          split
          · rename_i g3
            simp only [g1, false_and, false_or, hn0, false_iff]
            rintro ⟨_, _, e⟩
            rw [g3.1] at e
            exact h0 e
          · simp [g1, g2]
    refine ⟨promote_tree hs _ rfl h0, ?_, ?_⟩
    · intro x hx0
      rw [key x hx0]
      simp only []
      by_cases g2 : x = s.1 n
      · rw [if_pos g2]
        constructor
        · intro e; exact absurd e hx
        · rintro (⟨e, _⟩ | ⟨_, e, _⟩)
          · exact absurd (g2.symm.trans e) hpn
          · exact absurd g2 e
      · rw [if_neg g2]
        by_cases g1 : x = n
        · rw [if_pos g1, hrel _ h0]
          simp [g1]
        · rw [if_neg g1, hrel x hx0]
          simp [g1, g2]
    · intro g
      obtain ⟨r, hr'⟩ := hone g
      by_cases e : s.1 (s.1 n) = 0
      · have er : s.1 n = r := (hr' _).mp ⟨h0, e⟩
        refine ⟨n, fun x => ?_⟩
        constructor
        · rintro ⟨a, b⟩
          rcases (key x a).mp b with k | ⟨_, k2, k3⟩
          · exact k.1
          · exact absurd (((hr' x).mp ⟨a, k3⟩).trans er.symm) k2
        · rintro rfl
          exact ⟨hn0, (key x hn0).mpr (Or.inl ⟨rfl, e⟩)⟩
      · have hrr := (hr' r).mpr rfl
        refine ⟨r, fun x => ?_⟩
        constructor
        · rintro ⟨a, b⟩
          rcases (key x a).mp b with k | ⟨_, _, k3⟩
          · exact absurd k.2 e
          · exact (hr' x).mp ⟨a, k3⟩
        · rintro rfl
          refine ⟨hrr.1, (key x hrr.1).mpr (Or.inr ⟨?_, ?_, hrr.2⟩)⟩
          · rintro rfl; exact h0 hrr.2
          · rintro g'; rw [g'] at hrr; exact e hrr.2

/-- The full claim: the block ends and no listed word is left with the relation `aux`. -/
def Fixed (listed : Nat → Bool) (isAux mv : R → Bool) (xcomp : R) (ns : List Nat) (s : (Nat → Nat) × (Nat → R)) : Prop :=
  ∃ s', block listed isAux mv xcomp ns s = some s' ∧ ∀ n ∈ ns, listed n = true → isAux (s'.2 n) = false

/-- It holds if no listed auxiliary hangs on a word that is itself `aux`, or on the technical root; several on one verb are fine. -/
theorem C217_fixed_partial (listed : Nat → Bool) (isAux mv : R → Bool) (xcomp : R) (ns : List Nat) (par : Nat → Nat) (rel : Nat → R) (hx : isAux xcomp = false) (nd : ns.Nodup) (h0 : 0 ∉ ns)
    (h : ∀ n ∈ ns, listed n = true → isAux (rel n) = true → par n ≠ 0 ∧ isAux (rel (par n)) = false) : Fixed listed isAux mv xcomp ns (par, rel) := by
  obtain ⟨s', e, h1, _⟩ := lift_none_left (go := fun n r => listed n && isAux r) (bad := isAux) (mv := mv) (new := xcomp)
    (fun _ _ g => ((Bool.and_eq_true _ _).mp g).2) hx ns (par, rel) nd h0 (fun n hn g => h n hn ((Bool.and_eq_true _ _).mp g).1 ((Bool.and_eq_true _ _).mp g).2)
  refine ⟨s', e, fun n hn hl => ?_⟩
  have := h1 n hn
  simpa [hl] using this

/-- For every sentence with a listed auxiliary on an auxiliary that is not listed: it takes over that relation, so it is left with `aux`, now above the other one. -/
theorem C217_chain_violated (listed : Nat → Bool) (isAux mv : R → Bool) (xcomp : R) (pre post : List Nat) (n : Nat) (par : Nat → Nat) (rel : Nat → R)
    (hl : listed n = true) (ha : isAux (rel n) = true) (h0 : par n ≠ 0) (hn : par n ≠ n) (hp : isAux (rel (par n)) = true)
    (others : ∀ x ∈ pre ++ post, listed x = false) : ¬ Fixed listed isAux mv xcomp (pre ++ n :: post) (par, rel) := by
  have idle : ∀ (l : List Nat) (s : (Nat → Nat) × (Nat → R)), (∀ x ∈ l, listed x = false) → ∀ r, loop (step listed isAux mv xcomp) (l ++ r) s = loop (step listed isAux mv xcomp) r s := by
    intro l
    induction l with
    | nil => intro s _ r; rfl
    | cons x l ih =>
      intro s g r
      have : step listed isAux mv xcomp s x = some s := by unfold step lift; simp [g x (List.mem_cons_self ..)]
      rw [List.cons_append, loop, this]
      exact ih s (fun y hy => g y (List.mem_cons_of_mem _ hy)) r
  rintro ⟨s', e, hs⟩
  have hstep : step listed isAux mv xcomp (par, rel) n =
      some (promote par (fun x => mv (rel x)) n (par n), fun x => if x = par n then xcomp else if x = n then rel (par n) else rel x) := by
    unfold step lift; simp [hl, ha, h0]
  rw [block, idle pre _ (fun x hx => others x (List.mem_append_left _ hx)), loop, hstep, Option.bind_some] at e
  have hpost := idle post (promote par (fun x => mv (rel x)) n (par n), fun x => if x = par n then xcomp else if x = n then rel (par n) else rel x)
    (fun x hx => others x (List.mem_append_right _ hx)) []
  rw [List.append_nil] at hpost
  rw [hpost, loop] at e
  injection e with e
  have := hs n (List.mem_append_right _ (List.mem_cons_self ..)) hl
  rw [← e] at this
  simp only [if_neg (Ne.symm hn), if_true] at this
  rw [hp] at this
  cases this

/-- A listed auxiliary on the technical root stops the block. -/
theorem C217_root_violated (listed : Nat → Bool) (isAux mv : R → Bool) (xcomp : R) (n : Nat) (post : List Nat) (par : Nat → Nat) (rel : Nat → R) (hl : listed n = true)
    (ha : isAux (rel n) = true) (h0 : par n = 0) : ¬ Fixed listed isAux mv xcomp (n :: post) (par, rel) := by
  rintro ⟨s', e, _⟩
  have : step listed isAux mv xcomp (par, rel) n = none := by unfold step lift; simp [hl, ha, h0]
  rw [block, loop, this] at e
  cases e

/-- Verb 2 with subject 1 and object 3 and the auxiliaries 4 and 5 (relation 9; subjects, relation 1, and auxiliaries move; 8 is xcomp; 0 is root). -/
def exPar : Nat → Nat := fun x => if x = 2 then 0 else if x = 0 then 0 else 2
def exRel : Nat → Nat := fun x => if x = 2 then 0 else if x ≥ 4 then 9 else x
example : (block (fun n => n ≥ 4) (fun r => r == 9) (fun r => r == 1 || r == 9) 8 [1, 2, 3, 4, 5] (exPar, exRel)).map (fun s => ([1, 2, 3, 4, 5].map s.1, [1, 2, 3, 4, 5].map s.2)) =
    some ([5, 4, 2, 5, 0], [1, 8, 3, 8, 0]) := by decide

end Verif.Blocks.SpuriousAux
