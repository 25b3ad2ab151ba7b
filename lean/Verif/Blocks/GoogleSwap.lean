import Verif.Py.Str

/-!
# Property C214: ud.Google2ud turns heads round and keeps a tree

Source: `udapi/block/ud/google2ud.py`: copulas (lines 209-217), Turkish coordination (lines 184-191), `pobj`/`pcomp` below prepositions (lines 443-466) and
`fix_multiword_prep` (lines 290-331). A tree is given by the parent of every word (a number from 1 on; 0 is the technical root) and its relation. Relations are abstract; the
conditions on languages, forms and tags are parameters. Logging is not modelled.
-/

namespace Verif.Blocks.GoogleSwap

/-- `k` steps up. -/
def iter (par : Nat → Nat) : Nat → Nat → Nat
  | 0, x => x
  | k + 1, x => iter par k (par x)

/-- Every word reaches the technical root by going up. -/
def Tree (par : Nat → Nat) : Prop := par 0 = 0 ∧ ∀ x, ∃ k, iter par k x = 0

/-- `n` takes the place of its parent `p`, which is hung on `n` together with those other children of `p` for which `mv` holds. -/
def promote (par : Nat → Nat) (mv : Nat → Bool) (n p : Nat) : Nat → Nat :=
  fun x => if x = n then par p else if x = p then n else if par x = p ∧ mv x = true then n else par x

/-- One node of the copula loop (lines 209-217). `none`: the parent is the technical root, which has no parent to hang the node on. `isAttr` is `acomp` or `attr`. -/
def copStep {R : Type} (isAttr : R → Bool) (cop : R) (s : (Nat → Nat) × (Nat → R)) (n : Nat) : Option ((Nat → Nat) × (Nat → R)) :=
  if isAttr (s.2 n) then
    if s.1 n = 0 then none
    else some (promote s.1 (fun _ => true) n (s.1 n), fun x => if x = s.1 n then cop else if x = n then s.2 (s.1 n) else s.2 x)
  else some s

def loop {S : Type} (f : S → Nat → Option S) : List Nat → S → Option S
  | [], s => some s
  | n :: ns, s => (f s n).bind (loop f ns)

/-- One node of the loop on Turkish coordination (lines 184-191); `ns` are the words in their order. -/
def conjStep {R : Type} [DecidableEq R] (conj : R) (ns : List Nat) (s : (Nat → Nat) × (Nat → R)) (n : Nat) : Option ((Nat → Nat) × (Nat → R)) :=
  match ns.filter fun c => s.1 c == n && decide (s.2 c = conj) with
  | [] => some s
  | c :: _ => some (promote s.1 (fun x => decide (x ∈ ns ∧ s.2 x = conj)) c n, fun x => if x = n then conj else if x = c then s.2 n else s.2 x)

/-- Lines 443-466: the object `n` of a preposition takes its place; `keep` are the words with `fixed` or `mwe`. -/
def pobj (par : Nat → Nat) (keep : Nat → Bool) (n : Nat) : Nat → Nat := promote par (fun x => !keep x) n (par n)

/-- The four outcomes of `fix_multiword_prep` (lines 303-331) for `node` below `lo` below `hi`. -/
inductive Prep
  | siblings | caseMark | para | fixed
deriving DecidableEq

/-- The tree after `fix_multiword_prep`. -/
def prep (k : Prep) (loFirst : Bool) (par : Nat → Nat) (node lo hi : Nat) : Nat → Nat :=
  match k with
  | .siblings => fun x => if x = lo then par hi else par x
  | .caseMark => fun x => if x = node then hi else if x = lo then node else par x
  | .para => fun x => if x = node then par hi else if x = lo ∨ x = hi then node else par x
  | .fixed =>
    if loFirst then promote par (fun _ => true) lo hi
    else fun x => if par x = lo then hi else par x

/-- A changed tree is a tree if every word reaches the root in the new tree as soon as all nearer ones do. -/
theorem tree_of {par par' : Nat → Nat} (h : Tree par) (h0 : par' 0 = 0)
    (step : ∀ (k x : Nat), x ≠ 0 → iter par (k + 1) x = 0 → (∀ (j y : Nat), j ≤ k → iter par j y = 0 → ∃ m, iter par' m y = 0) → ∃ m, iter par' m x = 0) : Tree par' := by
  refine ⟨h0, ?_⟩
  have all : ∀ (k j x : Nat), j ≤ k → iter par j x = 0 → ∃ m, iter par' m x = 0 := by
    intro k
    induction k with
    | zero =>
      intro j x hj hx
      have : j = 0 := by omega
      subst this
      exact ⟨0, hx⟩
    | succ k ih =>
      intro j x hj hx
      by_cases hx0 : x = 0
      · exact ⟨0, hx0⟩
      · cases j with
        | zero => exact absurd hx hx0
        | succ j => exact step j x hx0 hx fun i y hi hy => ih i y (by omega) hy
  intro x
  obtain ⟨k, hk⟩ := h.2 x
  exact all k k x (Nat.le_refl _) hk

theorem up {par' : Nat → Nat} {x : Nat} (h : ∃ m, iter par' m (par' x) = 0) : ∃ m, iter par' m x = 0 := by
  obtain ⟨m, hm⟩ := h
  exact ⟨m + 1, hm⟩

theorem up_to {par' : Nat → Nat} {x y : Nat} (e : par' x = y) (h : ∃ m, iter par' m y = 0) : ∃ m, iter par' m x = 0 := up (by rw [e]; exact h)

/-- No word is its own parent or grandparent, unless it is the technical root. -/
theorem no_cycle {par : Nat → Nat} (h : Tree par) {x : Nat} (hx : x ≠ 0) : par x ≠ x ∧ par (par x) ≠ x := by
  constructor
  · intro e
    have : ∀ k, iter par k x = x := by
      intro k
      induction k with
      | zero => rfl
      | succ k ih => rw [iter, e]; exact ih
    obtain ⟨k, hk⟩ := h.2 x
    rw [this k] at hk
    exact hx hk
  · intro e
    have : ∀ k, iter par k x ≠ 0 ∧ iter par k (par x) ≠ 0 := by
      intro k
      induction k with
      | zero =>
        refine ⟨hx, ?_⟩
        intro g
        change par x = 0 at g
        rw [g, h.1] at e
        exact hx e.symm
      | succ k ih => exact ⟨ih.2, by rw [iter, e]; exact ih.1⟩
    obtain ⟨k, hk⟩ := h.2 x
    exact (this k).1 hk

theorem promote_tree {par : Nat → Nat} (h : Tree par) (mv : Nat → Bool) {n p : Nat} (hp : par n = p) (hp0 : p ≠ 0) : Tree (promote par mv n p) := by
  have hn0 : n ≠ 0 := by rintro rfl; rw [h.1] at hp; exact hp0 hp.symm
  have hpn : p ≠ n := by rintro rfl; exact (no_cycle h hp0).1 hp
  have en : promote par mv n p n = par p := by simp [promote]
  have ep : promote par mv n p p = n := by simp [promote, hpn]
  have e0 : promote par mv n p 0 = 0 := by
    unfold promote
    rw [if_neg (Ne.symm hn0), if_neg (Ne.symm hp0), if_neg (by rw [h.1]; exact fun g => hp0 g.1.symm)]
    exact h.1
  refine tree_of h e0 ?_
  intro k x hx0 hk ih
  -- the place of `p` is reached from everything that hung on it
  have viaN : ∀ j, j ≤ k → iter par j (par p) = 0 → ∃ m, iter (promote par mv n p) m n = 0 := fun j hj g => up_to en (ih j _ hj g)
  by_cases h1 : x = p
  · subst h1
    exact up_to ep (viaN k (Nat.le_refl _) hk)
  · by_cases h2 : par x = p
    · rw [iter, h2] at hk
      cases k with
      | zero => exact absurd hk hp0
      | succ k =>
        have hN := viaN k (by omega) hk
        by_cases h3 : x = n
        · rw [h3]; exact hN
        · by_cases h4 : mv x = true
          · exact up_to (by unfold promote; rw [if_neg h3, if_neg h1, if_pos ⟨h2, h4⟩]) hN
          · exact up_to (y := p) (by unfold promote; rw [if_neg h3, if_neg h1, if_neg (fun g => h4 g.2)]; exact h2) (up_to ep hN)
    · have h3 : x ≠ n := by rintro rfl; exact h2 hp
      exact up_to (y := par x) (by unfold promote; rw [if_neg h3, if_neg h1, if_neg (fun g => h2 g.1)]) (ih k _ (Nat.le_refl _) hk)

/-! ## C214 -/

/-- One copula: the predicate takes the place and the relation of the copula, which becomes its child `cop` without children; the former siblings hang on the predicate; all
other words stay where they were. -/
theorem C214_copula {R : Type} (isAttr : R → Bool) (cop : R) (par par' : Nat → Nat) (rel rel' : Nat → R) (n : Nat) (ht : Tree par) (ha : isAttr (rel n) = true)
    (h : copStep isAttr cop (par, rel) n = some (par', rel')) :
    par n ≠ 0 ∧ par' n = par (par n) ∧ rel' n = rel (par n) ∧ par' (par n) = n ∧ rel' (par n) = cop ∧ (∀ x, par' x ≠ par n) ∧
    (∀ x, x ≠ n → par x = par n → par' x = n ∧ rel' x = rel x) ∧ (∀ x, x ≠ n → x ≠ par n → par x ≠ par n → par' x = par x ∧ rel' x = rel x) := by
  unfold copStep at h
  simp only [ha, if_true] at h
  split at h
  · cases h
  · rename_i h0
    simp only [Option.some.injEq, Prod.mk.injEq] at h
    obtain ⟨rfl, rfl⟩ := h
    have hn0 : n ≠ 0 := by rintro rfl; exact h0 ht.1
    have hpn : par n ≠ n := (no_cycle ht hn0).1
    have hpp : par (par n) ≠ par n := (no_cycle ht h0).1
    have oth : ∀ x, x ≠ n → par x = par n → x ≠ par n := by
      rintro x _ e rfl
      exact hpp e
    refine ⟨h0, by simp [promote], by simp [Ne.symm hpn], by simp [promote, hpn], by simp, ?_, ?_, ?_⟩
    · intro x
      unfold promote
      split
      · exact hpp
      · split
        · exact Ne.symm hpn
        · split
          · exact Ne.symm hpn
          · rename_i g; exact fun e => g ⟨e, rfl⟩
    · intro x g1 g2
      have g3 := oth x g1 g2
      exact ⟨by simp [promote, g1, g2, g3], by simp [g1, g3]⟩
    · intro x g1 g2 g3
      exact ⟨by simp [promote, g1, g2, g3], by simp [g1, g2]⟩

theorem loop_inv {S : Type} {f : S → Nat → Option S} {P : S → Prop} (step : ∀ s n s', P s → f s n = some s' → P s') :
    ∀ (ns : List Nat) (s s' : S), P s → loop f ns s = some s' → P s'
  | [], s, s', hs, h => by simp only [loop, Option.some.injEq] at h; exact h ▸ hs
  | n :: ns, s, s', hs, h => by
    rw [loop, Option.bind_eq_some_iff] at h
    obtain ⟨s1, h1, h2⟩ := h
    exact loop_inv step ns s1 s' (step s n s1 hs h1) h2

/-- The copula loop and the coordination loop leave a tree. -/
theorem C214_tree {R : Type} [DecidableEq R] (isAttr : R → Bool) (cop conj : R) (all ns : List Nat) (par par' : Nat → Nat) (rel rel' : Nat → R)
    (h0 : 0 ∉ ns) (ht : Tree par) :
    (loop (copStep isAttr cop) ns (par, rel) = some (par', rel') → Tree par') ∧ (loop (conjStep conj all) ns (par, rel) = some (par', rel') → Tree par') := by
  constructor
  · intro h
    refine loop_inv (P := fun s => Tree s.1) ?_ ns _ _ ht h
    rintro ⟨p, r⟩ n s' hs hstep
    unfold copStep at hstep
    split at hstep
    · split at hstep
      · cases hstep
      · rename_i g
        injection hstep with hstep
        subst hstep
        exact promote_tree hs _ rfl g
    · injection hstep with hstep; subst hstep; exact hs
  · -- the loop visits words only, never the technical root
    suffices H : ∀ (ns : List Nat) (s s' : (Nat → Nat) × (Nat → R)), 0 ∉ ns → Tree s.1 → loop (conjStep conj all) ns s = some s' → Tree s'.1 from
      fun h => H ns _ _ h0 ht h
    intro ns
    induction ns with
    | nil => intro s s' _ hs h; simp only [loop, Option.some.injEq] at h; exact h ▸ hs
    | cons n ns ih =>
      intro s s' hz hs h
      rw [loop, Option.bind_eq_some_iff] at h
      obtain ⟨s1, h1, h2⟩ := h
      refine ih s1 s' (fun g => hz (List.mem_cons_of_mem _ g)) ?_ h2
      unfold conjStep at h1
      split at h1
      · injection h1 with h1; subst h1; exact hs
      · rename_i c cs hc
        injection h1 with h1; subst h1
        have hm : c ∈ all.filter fun c => s.1 c == n && decide (s.2 c = conj) := by rw [hc]; exact List.mem_cons_self ..
        simp only [List.mem_filter, Bool.and_eq_true, beq_iff_eq] at hm
        exact promote_tree hs _ hm.2.1 (fun g => hz (g ▸ List.mem_cons_self ..))

/-- Turkish coordination at one word `n` with conjuncts: the first conjunct `c` takes its place and relation; `n` and the other conjuncts hang on `c` as `conj`; the other children of `n` stay
with it. -/
theorem C214_conj {R : Type} [DecidableEq R] (conj : R) (ns : List Nat) (par par' : Nat → Nat) (rel rel' : Nat → R) (n c : Nat) (cs : List Nat) (ht : Tree par) (hn : n ≠ 0)
    (hc : (ns.filter fun c => par c == n && decide (rel c = conj)) = c :: cs) (nd : ns.Nodup) (h : conjStep conj ns (par, rel) n = some (par', rel')) :
    par' c = par n ∧ rel' c = rel n ∧ par' n = c ∧ rel' n = conj ∧ (∀ x ∈ cs, par' x = c ∧ rel' x = conj) ∧
    (∀ x, x ∉ c :: cs → x ∈ ns → x ≠ n → par' x = par x ∧ rel' x = rel x) := by
  have mem : ∀ x, x ∈ c :: cs ↔ x ∈ ns ∧ par x = n ∧ rel x = conj := by
    intro x; rw [← hc]; simp
  have hcm := (mem c).mp (List.mem_cons_self ..)
  have ndc : (c :: cs).Nodup := by rw [← hc]; exact nd.filter _
  unfold conjStep at h
  simp only [hc, Option.some.injEq, Prod.mk.injEq] at h
  obtain ⟨rfl, rfl⟩ := h
  have hcn : c ≠ n := by
    intro e
    rw [e] at hcm
    exact (no_cycle ht hn).1 hcm.2.1
  refine ⟨by simp [promote], by simp [hcn], by simp [promote, Ne.symm hcn], by simp, ?_, ?_⟩
  · intro x hx
    have hxm := (mem x).mp (List.mem_cons_of_mem _ hx)
    have hxc : x ≠ c := by rintro rfl; exact (List.nodup_cons.mp ndc).1 hx
    have hxn : x ≠ n := by rintro rfl; exact (no_cycle ht hn).1 hxm.2.1
    exact ⟨by simp [promote, hxc, hxn, hxm.1, hxm.2.1, hxm.2.2], by simp [hxc, hxn, hxm.2.2]⟩
  · intro x hx hxns hxn
    have hxc : x ≠ c := fun e => hx (e ▸ List.mem_cons_self ..)
    have : ¬(par x = n ∧ rel x = conj) := fun g => hx ((mem x).mpr ⟨hxns, g.1, g.2⟩)
    refine ⟨?_, by simp [hxc, hxn]⟩
    unfold promote
    rw [if_neg hxc, if_neg hxn, if_neg]
    rintro ⟨g1, g2⟩
    simp only [decide_eq_true_eq] at g2
    exact this ⟨g1, g2.2⟩

/-- The object of a preposition takes its place: still a tree; the preposition keeps only children with `fixed` or `mwe`. -/
theorem C214_pobj (par : Nat → Nat) (keep : Nat → Bool) (n : Nat) (ht : Tree par) (hp : par n ≠ 0) :
    Tree (pobj par keep n) ∧ pobj par keep n n = par (par n) ∧ pobj par keep n (par n) = n ∧ ∀ x, pobj par keep n x = par n → keep x = true := by
  have hn0 : n ≠ 0 := by rintro rfl; exact hp ht.1
  have hpn := (no_cycle ht hn0).1
  have hpp := (no_cycle ht hp).1
  refine ⟨promote_tree ht _ rfl hp, by simp [pobj, promote], by simp [pobj, promote, hpn], ?_⟩
  intro x hx
  unfold pobj promote at hx
  split at hx
  · exact absurd hx hpp
  · split at hx
    · exact absurd hx (Ne.symm hpn)
    · split at hx
      · exact absurd hx (Ne.symm hpn)
      · rename_i g
        refine Classical.byContradiction fun hk => g ⟨hx, ?_⟩
        simpa using hk

/-- `fix_multiword_prep` leaves a tree in all four cases. -/
theorem C214_prep (k : Prep) (loFirst : Bool) (par : Nat → Nat) (node lo hi : Nat) (ht : Tree par) (h1 : par node = lo) (h2 : par lo = hi) (h3 : hi ≠ 0) :
    Tree (prep k loFirst par node lo hi) := by
  have lo0 : lo ≠ 0 := by rintro rfl; rw [ht.1] at h2; exact h3 h2.symm
  have no0 : node ≠ 0 := by rintro rfl; rw [ht.1] at h1; exact lo0 h1.symm
  have lohi : lo ≠ hi := by rintro rfl; exact (no_cycle ht h3).1 h2
  have nolo : node ≠ lo := by rintro rfl; exact (no_cycle ht lo0).1 h1
  have nohi : node ≠ hi := by rintro rfl; exact (no_cycle ht lo0).2 (by rw [h2, h1])
  cases k with
  | siblings =>
    refine tree_of ht (by simp [prep, Ne.symm lo0, ht.1]) ?_
    intro k x hx hk ih
    by_cases e : x = lo
    · subst e
      rw [iter, h2] at hk
      cases k with
      | zero => exact absurd hk h3
      | succ k => exact up_to (y := par hi) (by simp [prep]) (ih k _ (by omega) hk)
    · exact up_to (y := par x) (by simp [prep, e]) (ih k _ (Nat.le_refl _) hk)
  | caseMark =>
    refine tree_of ht (by simp [prep, Ne.symm lo0, Ne.symm no0, ht.1]) ?_
    intro k x hx hk ih
    by_cases e : x = node
    · subst e
      rw [iter, h1] at hk
      cases k with
      | zero => exact absurd hk lo0
      | succ k =>
        rw [iter, h2] at hk
        exact up_to (y := hi) (by simp [prep]) (ih k _ (by omega) hk)
    · by_cases e2 : x = lo
      · subst e2
        rw [iter, h2] at hk
        exact up_to (y := node) (by simp [prep, Ne.symm nolo]) (up_to (y := hi) (by simp [prep]) (ih k _ (Nat.le_refl _) hk))
      · exact up_to (y := par x) (by simp [prep, e, e2]) (ih k _ (Nat.le_refl _) hk)
  | para =>
    refine tree_of ht (by simp [prep, Ne.symm lo0, Ne.symm no0, Ne.symm h3, ht.1]) ?_
    intro k x hx hk ih
    have viaNode : ∀ j, j ≤ k → iter par j (par hi) = 0 → ∃ m, iter (prep .para loFirst par node lo hi) m node = 0 :=
      fun j hj g => up_to (y := par hi) (by simp [prep]) (ih j _ hj g)
    by_cases e : x = node
    · subst e
      rw [iter, h1] at hk
      cases k with
      | zero => exact absurd hk lo0
      | succ k =>
        rw [iter, h2] at hk
        cases k with
        | zero => exact absurd hk h3
        | succ k => exact viaNode k (by omega) hk
    · by_cases e2 : x = lo
      · subst e2
        rw [iter, h2] at hk
        cases k with
        | zero => exact absurd hk h3
        | succ k => exact up_to (y := node) (by simp [prep, e]) (viaNode k (by omega) hk)
      · by_cases e3 : x = hi
        · subst e3
          exact up_to (y := node) (by simp [prep, e]) (viaNode k (Nat.le_refl _) hk)
        · exact up_to (y := par x) (by simp [prep, e, e2, e3]) (ih k _ (Nat.le_refl _) hk)
  | fixed =>
    cases loFirst with
    | true => exact promote_tree ht _ h2 h3
    | false =>
      refine tree_of ht (by simp [prep, ht.1, Ne.symm lo0]) ?_
      intro k x hx hk ih
      by_cases e : par x = lo
      · rw [iter, e] at hk
        cases k with
        | zero => exact absurd hk lo0
        | succ k =>
          rw [iter, h2] at hk
          exact up_to (y := hi) (by simp [prep, e]) (ih k _ (by omega) hk)
      · exact up_to (y := par x) (by simp [prep, e]) (ih k _ (Nat.le_refl _) hk)

/-- Where the words are after `fix_multiword_prep`: siblings; or the lower preposition on the noun; or both on the noun, which is in the place of the upper one; or a fixed expression, in which
the first of the two has the place of the upper one and all children of both, and the second hangs on it without children. -/
theorem C214_prep_places (loFirst : Bool) (par : Nat → Nat) (node lo hi : Nat) (ht : Tree par) (h1 : par node = lo) (h2 : par lo = hi) (h3 : hi ≠ 0) :
    (let f := prep .siblings loFirst par node lo hi; f lo = f hi ∧ f hi = par hi ∧ f node = lo) ∧
    (let f := prep .caseMark loFirst par node lo hi; f lo = node ∧ f node = hi ∧ f hi = par hi) ∧
    (let f := prep .para loFirst par node lo hi; f lo = node ∧ f hi = node ∧ f node = par hi) ∧
    (let f := prep .fixed loFirst par node lo hi
     let first := if loFirst then lo else hi
     let second := if loFirst then hi else lo
     f first = par hi ∧ f second = first ∧ (∀ x, f x ≠ second) ∧ ∀ x, x ≠ lo → x ≠ hi → (par x = lo ∨ par x = hi) → f x = first) := by
  have lo0 : lo ≠ 0 := by rintro rfl; rw [ht.1] at h2; exact h3 h2.symm
  have lohi : lo ≠ hi := by rintro rfl; exact (no_cycle ht h3).1 h2
  have nolo : node ≠ lo := by rintro rfl; exact (no_cycle ht lo0).1 h1
  have nohi : node ≠ hi := by rintro rfl; exact (no_cycle ht lo0).2 (by rw [h2, h1])
  have hihi : par hi ≠ hi := (no_cycle ht h3).1
  have hilo : par hi ≠ lo := fun e => (no_cycle ht lo0).2 (by rw [h2, e])
  refine ⟨?_, ?_, ?_, ?_⟩
  · simp [prep, Ne.symm lohi, nolo, h1]
  · simp [prep, Ne.symm lohi, Ne.symm nolo, Ne.symm nohi]
  · simp [prep, Ne.symm nolo, Ne.symm nohi]
  · cases loFirst with
    | true =>
      refine ⟨by simp [prep, promote], by simp [prep, promote, Ne.symm lohi], ?_, ?_⟩
      · intro x
        simp only [prep, promote, if_true]
        split
        · exact hihi
        · split
          · exact lohi
          · split
            · exact lohi
            · rename_i g; exact fun e => g ⟨e, trivial⟩
      · intro x g1 g2 g3
        simp only [prep, promote, if_true, if_neg g1, if_neg g2]
        rcases g3 with g3 | g3
        · split
          · rfl
          · exact g3
        · simp [g3]
    | false =>
      refine ⟨by simp [prep, hilo], by simp [prep, h2, Ne.symm lohi], ?_, ?_⟩
      · intro x
        simp only [prep, Bool.false_eq_true, if_false]
        split
        · exact Ne.symm lohi
        · assumption
      · intro x _ _ g3
        simp only [prep, Bool.false_eq_true, if_false]
        split
        · rfl
        · rename_i g; exact g3.resolve_left g

/-- The full claim of the copula loop: no word with `acomp` or `attr` is left. -/
def NoneLeft {R : Type} (isAttr : R → Bool) (cop : R) (ns : List Nat) (s : (Nat → Nat) × (Nat → R)) : Prop :=
  ∃ s', loop (copStep isAttr cop) ns s = some s' ∧ ∀ x ∈ ns, isAttr (s'.2 x) = false

theorem loop_idle {R : Type} {isAttr : R → Bool} {cop : R} : ∀ (ns : List Nat) (s : (Nat → Nat) × (Nat → R)), (∀ x ∈ ns, isAttr (s.2 x) = false) →
    loop (copStep isAttr cop) ns s = some s
  | [], _, _ => rfl
  | n :: ns, s, h => by
    have : copStep isAttr cop s n = some s := by unfold copStep; rw [h n (List.mem_cons_self ..)]; rfl
    rw [loop, this]
    exact loop_idle ns s fun x hx => h x (List.mem_cons_of_mem _ hx)

/-- A loop in which words `n` with some relation take the place of their parent: what has to hold of the words still to be visited. -/
def Ready {R : Type} (go : Nat → R → Bool) (bad : R → Bool) (todo : List Nat) (s : (Nat → Nat) × (Nat → R)) : Prop :=
  ∀ n ∈ todo, go n (s.2 n) = true → s.1 n ≠ 0 ∧ bad (s.2 (s.1 n)) = false

/-- The general step of such a loop: relation `new` for the former parent, whose children with `mv` move. -/
def lift {R : Type} (go : Nat → R → Bool) (mv : R → Bool) (new : R) (s : (Nat → Nat) × (Nat → R)) (n : Nat) : Option ((Nat → Nat) × (Nat → R)) :=
  if go n (s.2 n) then
    if s.1 n = 0 then none
    else some (promote s.1 (fun x => mv (s.2 x)) n (s.1 n), fun x => if x = s.1 n then new else if x = n then s.2 (s.1 n) else s.2 x)
  else some s

theorem copStep_eq {R : Type} (isAttr : R → Bool) (cop : R) : copStep isAttr cop = lift (fun _ r => isAttr r) (fun _ => true) cop := rfl

/-- If `bad` relations are those with which a word may have to move, no word to be visited has a parent with one, then there is no exception and no word visited is left with one. -/
theorem lift_none_left {R : Type} {go : Nat → R → Bool} {bad : R → Bool} {mv : R → Bool} {new : R} (hgo : ∀ n r, go n r = true → bad r = true) (hnew : bad new = false) :
    ∀ (todo : List Nat) (s : (Nat → Nat) × (Nat → R)), todo.Nodup → 0 ∉ todo → Ready go bad todo s →
    ∃ s', loop (lift go mv new) todo s = some s' ∧ (∀ n ∈ todo, go n (s'.2 n) = false) ∧ ∀ x, bad (s.2 x) = false → bad (s'.2 x) = false
  | [], s, _, _, _ => ⟨s, rfl, (fun _ h => by cases h), fun _ h => h⟩
  | n :: todo, s, nd, h0, hr => by
    have nd' := List.nodup_cons.mp nd
    have h0' : 0 ∉ todo := fun g => h0 (List.mem_cons_of_mem _ g)
    have nb : ∀ m r, bad r = false → go m r = false := by
      intro m r g
      cases e : go m r with
      | false => rfl
      | true => rw [hgo m r e] at g; cases g
    cases hg : go n (s.2 n) with
    | false =>
      have hstep : lift go mv new s n = some s := by unfold lift; rw [hg]; rfl
      obtain ⟨s', e, h1, h2⟩ := lift_none_left (mv := mv) hgo hnew todo s nd'.2 h0' fun m hm => hr m (List.mem_cons_of_mem _ hm)
      have keep : ∀ (todo : List Nat) (s s' : (Nat → Nat) × (Nat → R)), loop (lift go mv new) todo s = some s' → n ∉ todo → go n (s.2 n) = false →
          (s'.2 n = s.2 n ∨ s'.2 n = new) := by
        intro todo
        induction todo with
        | nil => intro s s' e _ _; simp only [loop, Option.some.injEq] at e; exact Or.inl (e ▸ rfl)
        | cons m todo ih =>
          intro s s' e hn hb
          rw [loop, Option.bind_eq_some_iff] at e
          obtain ⟨s1, e1, e2⟩ := e
          have hmn : n ≠ m := fun g => hn (g ▸ List.mem_cons_self ..)
          have hs1 : s1.2 n = s.2 n ∨ s1.2 n = new := by
            unfold lift at e1
            split at e1
            · split at e1
              · cases e1
              · injection e1 with e1
                subst e1
                simp only [if_neg hmn]
                split
                · exact Or.inr rfl
                · exact Or.inl rfl
            · injection e1 with e1; subst e1; exact Or.inl rfl
          have hb1 : go n (s1.2 n) = false := hs1.elim (fun g => by rw [g]; exact hb) fun g => by rw [g]; exact nb n _ hnew
          rcases ih s1 s' e2 (fun g => hn (List.mem_cons_of_mem _ g)) hb1 with g | g
          · rw [g]; exact hs1
          · exact Or.inr g
      refine ⟨s', by rw [loop, hstep]; exact e, ?_, h2⟩
      intro m hm
      rcases List.mem_cons.mp hm with g | g
      · subst g
        rcases keep todo s s' e nd'.1 hg with k | k
        · rw [k]; exact hg
        · rw [k]; exact nb m _ hnew
      · exact h1 m g
    | true =>
      obtain ⟨hp, hb⟩ := hr n (List.mem_cons_self ..) hg
      generalize hs1 : ((promote s.1 (fun x => mv (s.2 x)) n (s.1 n), fun x => if x = s.1 n then new else if x = n then s.2 (s.1 n) else s.2 x) : (Nat → Nat) × (Nat → R)) = s1
      have hstep : lift go mv new s n = some s1 := by unfold lift; rw [hg, ← hs1]; simp [hp]
      -- no relation gets worse
      have mono : ∀ x, bad (s.2 x) = false → bad (s1.2 x) = false := by
        intro x hx
        rw [← hs1]
        simp only []
        split
        · exact hnew
        · split
          · exact hb
          · exact hx
      have hn1 : bad (s1.2 n) = false := by
        rw [← hs1]
        simp only []
        split
        · exact hnew
        · simpa using hb
      have ready : Ready go bad todo s1 := by
        intro m hm hgm
        have hmn : m ≠ n := by rintro rfl; exact nd'.1 hm
        have hmp : m ≠ s.1 n := by
          intro g
          rw [← hs1] at hgm
          simp only [if_pos g] at hgm
          rw [nb m _ hnew] at hgm
          cases hgm
        have hrel : s1.2 m = s.2 m := by rw [← hs1]; simp only [if_neg hmn, if_neg hmp]
        rw [hrel] at hgm
        obtain ⟨g1, g2⟩ := hr m (List.mem_cons_of_mem _ hm) hgm
        have hpar : s1.1 m = if s.1 m = s.1 n ∧ mv (s.2 m) = true then n else s.1 m := by rw [← hs1]; simp only [promote, if_neg hmn, if_neg hmp]
        rw [hpar]
        split
        · exact ⟨fun g => h0 (g ▸ List.mem_cons_self ..), hn1⟩
        · exact ⟨g1, mono _ g2⟩
      obtain ⟨s', e, h1, h2⟩ := lift_none_left (mv := mv) hgo hnew todo s1 nd'.2 h0' ready
      refine ⟨s', by rw [loop, hstep]; exact e, ?_, fun x hx => h2 x (mono x hx)⟩
      intro m hm
      rcases List.mem_cons.mp hm with g | g
      · rw [g]; exact nb n _ (h2 n hn1)
      · exact h1 m g

/-- When no such word hangs on another such word or on the technical root, none is left and there is no exception, whatever else the sentence contains. -/
theorem C214_none_left_partial {R : Type} (isAttr : R → Bool) (cop : R) (ns : List Nat) (par : Nat → Nat) (rel : Nat → R) (hcop : isAttr cop = false) (nd : ns.Nodup) (h0 : 0 ∉ ns)
    (h : ∀ n ∈ ns, isAttr (rel n) = true → par n ≠ 0 ∧ isAttr (rel (par n)) = false) : NoneLeft isAttr cop ns (par, rel) := by
  unfold NoneLeft
  rw [copStep_eq]
  obtain ⟨s', e, h1, _⟩ := lift_none_left (go := fun _ r => isAttr r) (bad := isAttr) (mv := fun _ => true) (fun _ _ g => g) hcop ns (par, rel) nd h0 h
  exact ⟨s', e, h1⟩

/-- For every tree in which such a word `x` hangs on another such word `y` that comes later: `x` takes over the relation of `y` after it has been visited, so it is left with
`acomp` or `attr`. -/
theorem C214_chain_violated {R : Type} (isAttr : R → Bool) (cop : R) (rest : List Nat) (x : Nat) (par : Nat → Nat) (rel : Nat → R) (hcop : isAttr cop = false)
    (hx : isAttr (rel x) = true) (hy : isAttr (rel (par x)) = true) (h0 : par x ≠ 0) (hne : par x ≠ x) (hr : ∀ z ∈ rest, z ≠ x ∧ (z ≠ par x → isAttr (rel z) = false)) :
    ¬ NoneLeft isAttr cop (x :: rest) (par, rel) := by
  rintro ⟨s', hs, hl⟩
  have hstep : copStep isAttr cop (par, rel) x =
      some (promote par (fun _ => true) x (par x), fun z => if z = par x then cop else if z = x then rel (par x) else rel z) := by
    unfold copStep
    simp [hx, h0]
  rw [loop, hstep, Option.bind_some, loop_idle] at hs
  · injection hs with hs
    have := hl x (List.mem_cons_self ..)
    rw [← hs] at this
    simp only [if_neg (Ne.symm hne), if_true] at this
    rw [hy] at this
    cases this
  · intro z hz
    obtain ⟨g1, g2⟩ := hr z hz
    simp only []
    split
    · exact hcop
    · rename_i g
      first
        | exact g2 g
        | (rw [if_neg g1]; exact g2 g)

/-- A word with `acomp` or `attr` on the technical root stops the block with an exception. -/
theorem C214_root_violated {R : Type} (isAttr : R → Bool) (cop : R) (pre post : List Nat) (n : Nat) (par : Nat → Nat) (rel : Nat → R) (hn : isAttr (rel n) = true) (h0 : par n = 0)
    (hpre : ∀ x ∈ pre, isAttr (rel x) = false) : loop (copStep isAttr cop) (pre ++ n :: post) (par, rel) = none := by
  induction pre with
  | nil =>
    have : copStep isAttr cop (par, rel) n = none := by unfold copStep; simp [hn, h0]
    rw [List.nil_append, loop, this]; rfl
  | cons y pre ih =>
    have : copStep isAttr cop (par, rel) y = some (par, rel) := by unfold copStep; simp [hpre y (List.mem_cons_self ..)]
    rw [List.cons_append, loop, this]
    exact ih fun x hx => hpre x (List.mem_cons_of_mem _ hx)

/-- 1 "it" and 3 "red" (attr) hang on 2 "is": 3 becomes the head. In `exChain` 1 is an attr of 2, which is an attr of 3: 1 is left with attr. -/
def exPar : Nat → Nat := fun x => if x = 1 ∨ x = 3 then 2 else 0
def exRel : Nat → Nat := fun x => if x = 3 then 7 else x
example : (loop (copStep (fun r => r == 7) 9) [1, 2, 3] (exPar, exRel)).map (fun s => ([1, 2, 3].map s.1, [1, 2, 3].map s.2)) = some ([3, 3, 0], [1, 9, 2]) := by decide
def exChain : Nat → Nat := fun x => if x = 0 then 0 else if x = 3 then 0 else x + 1
example : (loop (copStep (fun r => r == 7) 9) [1, 2, 3] (exChain, fun x => if x = 3 then 1 else 7)).map (fun s => ([1, 2, 3].map s.1, [1, 2, 3].map s.2)) =
    some ([3, 1, 0], [7, 9, 1]) := by decide

end Verif.Blocks.GoogleSwap
