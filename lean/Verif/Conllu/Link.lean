import Verif.Conllu.Model
import Verif.Tree.Lemmas

/-!
# The loop that sets the parents
-/

namespace Verif.Conllu
open Verif.Py
open Verif.Tree

/-- Following parent links from `x` ends. -/
inductive Ends (h : Heap) : Nat → Prop
  | stop {x : Nat} : h.parent x = none → Ends h x
  | step {x p : Nat} : h.parent x = some p → Ends h p → Ends h x

theorem anc_trans_step {h : Heap} {a x p : Nat} (hp : h.parent x = some p) :
    Anc h a x ↔ p = a ∨ Anc h a p := by
  constructor
  · intro ha
    cases ha with
    | parent e => rw [hp] at e; exact Or.inl (Option.some.inj e)
    | step e ha => rw [hp] at e; rw [Option.some.inj e]; exact Or.inr ha
  · rintro (rfl | ha)
    · exact .parent hp
    · exact .step hp ha

theorem not_anc_of_none {h : Heap} {a x : Nat} (hp : h.parent x = none) : ¬ Anc h a x := by
  intro ha
  cases ha with
  | parent e => rw [hp] at e; simp at e
  | step e _ => rw [hp] at e; simp at e

theorem anc_tr {h : Heap} {a b x : Nat} (h1 : Anc h a b) (h2 : Anc h b x) : Anc h a x := by
  induction h2 with
  | parent e => exact .step e h1
  | step e _ ih => exact .step e ih

theorem Ends.irrefl {h : Heap} {x : Nat} (he : Ends h x) : ¬ Anc h x x := by
  induction he with
  | stop e => exact not_anc_of_none e
  | step e _ ih =>
    intro ha
    rcases (anc_trans_step e).1 ha with rfl | ha
    · exact ih (.parent e)
    · exact ih (anc_tr (.parent e) ha)

theorem anc_has_child {h : Heap} {a x : Nat} (ha : Anc h a x) : ∃ c, h.parent c = some a := by
  induction ha with
  | parent e => exact ⟨_, e⟩
  | step _ _ ih => exact ih

/-- The climbing loop ends and tells whether `a` is above `x`. -/
theorem climb_aux {h : Heap} {N : Nat} (hb : ∀ x p, h.parent x = some p → p < N) (he : ∀ x, Ends h x)
    (a x : Nat) : ∀ (fuel : Nat) (c : Nat) (V : List Nat), V.Nodup → (∀ v ∈ V, v < N ∧ Anc h v x) →
    (h.parent c = none ∨ ∃ p, h.parent c = some p) → (∀ v ∈ V, v = c ∨ Anc h c v) → (c = x ∨ Anc h c x) →
    (∀ v ∈ V, v ≠ a) → N < fuel + V.length →
    ∃ b, climbTo h a fuel (h.parent c) = some b ∧ (b = true ↔ Anc h a c) := by
  intro fuel
  induction fuel with
  | zero =>
    intro c V hn hV _ _ _ _ hf
    have := length_le_of_nodup_lt hn (fun v hv => (hV v hv).1)
    omega
  | succ fuel ih =>
    intro c V hn hV _ hc hx ha hf
    cases hp : h.parent c with
    | none =>
      refine ⟨false, rfl, ?_⟩
      simp only [Bool.false_eq_true, false_iff]
      exact not_anc_of_none hp
    | some p =>
      simp only [climbTo]
      by_cases hpa : p = a
      · refine ⟨true, by rw [if_pos hpa], ?_⟩
        simp only [true_iff]
        exact .parent (hpa ▸ hp)
      · rw [if_neg hpa]
        have hpx : Anc h p x := by
          rcases hx with rfl | hx
          · exact .parent hp
          · exact anc_tr (.parent hp) hx
        have hpv : p ∉ V := by
          intro hm
          rcases hc p hm with e | hcp
          · exact (he c).irrefl (.parent (e ▸ hp))
          · exact (he c).irrefl (anc_tr hcp (.parent hp))
        obtain ⟨b, h1, h2⟩ := ih p (p :: V) (List.nodup_cons.2 ⟨hpv, hn⟩)
          (by
            intro v hv
            rcases List.mem_cons.1 hv with rfl | hv
            · exact ⟨hb c v hp, hpx⟩
            · exact hV v hv)
          (by cases h.parent p <;> simp)
          (by
            intro v hv
            rcases List.mem_cons.1 hv with rfl | hv
            · exact Or.inl rfl
            · right
              rcases hc v hv with rfl | hcv
              · exact .parent hp
              · exact anc_tr (.parent hp) hcv)
          (Or.inr hpx)
          (by
            intro v hv
            rcases List.mem_cons.1 hv with rfl | hv
            · exact hpa
            · exact ha v hv)
          (by simp only [List.length_cons]; omega)
        refine ⟨b, h1, ?_⟩
        rw [h2, anc_trans_step hp]
        constructor
        · exact Or.inr
        · rintro (e | e)
          · exact absurd e hpa
          · exact e

theorem climb_spec {h : Heap} {N fuel : Nat} (hb : ∀ x p, h.parent x = some p → p < N)
    (he : ∀ x, Ends h x) (hf : N < fuel) (a x : Nat) :
    ∃ b, climbTo h a fuel (h.parent x) = some b ∧ (b = true ↔ Anc h a x) :=
  climb_aux hb he a x fuel x [] List.nodup_nil (by simp) (by cases h.parent x <;> simp) (by simp)
    (Or.inl rfl) (by simp) (by simpa using hf)

/-- The state before word `k` gets its parent, in a tree of `n` words. -/
structure LInv (n k : Nat) (h : Heap) : Prop where
  pnone : ∀ j, (j = 0 ∨ k ≤ j) → h.parent j = none
  psome : ∀ j, 1 ≤ j → j < k → ∃ p, h.parent j = some p ∧ p ≤ n
  ch : ∀ p, h.children p = (List.range' 1 (k - 1)).filter (fun j => h.parent j = some p)
  ends : ∀ j, Ends h j

theorem LInv.bound {n k : Nat} {h : Heap} (I : LInv n k h) (x p : Nat) (hp : h.parent x = some p) : p < n + 1 := by
  by_cases h1 : x = 0 ∨ k ≤ x
  · rw [I.pnone x h1] at hp; simp at hp
  · obtain ⟨q, e, hq⟩ := I.psome x (by omega) (by omega)
    rw [hp] at e
    have := Option.some.inj e
    omega

/-- Attaching a word to a node that is not below it. -/
theorem LInv.attach {n k p : Nat} {h : Heap} (I : LInv n k h) (hk : 1 ≤ k) (hpk : p ≠ k) (hpn : p ≤ n)
    (hna : ¬ Anc h k p) : LInv n (k + 1) (attach h k p) := by
  have hpar : ∀ j, (Conllu.attach h k p).parent j = if j = k then some p else h.parent j := by
    intro j; simp only [Conllu.attach, upd]
  have endp : ∀ j, Ends h j → j ≠ k → ¬ Anc h k j → Ends (Conllu.attach h k p) j := by
    intro j hj
    induction hj with
    | stop e => intro hne _; exact .stop (by rw [hpar, if_neg hne]; exact e)
    | @step x q e _ ih =>
      intro hne hna
      have : q ≠ k ∧ ¬ Anc h k q := by
        rw [anc_trans_step e] at hna
        exact ⟨fun e => hna (Or.inl e), fun e => hna (Or.inr e)⟩
      exact .step (by rw [hpar, if_neg hne]; exact e) (ih this.1 this.2)
  have endk : Ends (Conllu.attach h k p) k :=
    .step (by rw [hpar, if_pos rfl]) (endp p (I.ends p) hpk hna)
  refine ⟨?_, ?_, ?_, ?_⟩
  · intro j hj
    rw [hpar, if_neg (by omega)]
    exact I.pnone j (by omega)
  · intro j h1 h2
    rw [hpar]
    by_cases e : j = k
    · rw [if_pos e]; exact ⟨p, rfl, hpn⟩
    · rw [if_neg e]; exact I.psome j h1 (by omega)
  · intro q
    have hr : List.range' 1 (k + 1 - 1) = List.range' 1 (k - 1) ++ [k] := by
      have : k + 1 - 1 = (k - 1) + 1 := by omega
      rw [this, List.range'_concat]
      congr 2
      omega
    rw [hr, List.filter_append]
    have hf : (List.range' 1 (k - 1)).filter (fun j => (Conllu.attach h k p).parent j = some q) =
        (List.range' 1 (k - 1)).filter (fun j => h.parent j = some q) := by
      apply List.filter_congr
      intro j hj
      have := List.mem_range'_1.1 hj
      rw [hpar, if_neg (by omega)]
    rw [hf]
    by_cases e : q = p
    · subst e
      simp only [Conllu.attach, upd, if_true]
      rw [I.ch q]
      simp
    · simp only [Conllu.attach, upd, if_neg e]
      rw [I.ch q]
      have : ¬ p = q := fun h => e h.symm
      simp [this]
  · intro j
    have := I.ends j
    induction this with
    | @stop x e =>
      by_cases hx : x = k
      · rw [hx]; exact endk
      · exact .stop (by rw [hpar, if_neg hx]; exact e)
    | @step x q e _ ih =>
      by_cases hx : x = k
      · rw [hx]; exact endk
      · exact .step (by rw [hpar, if_neg hx]; exact e) ih

/-- The root is above no cycle. -/
theorem LInv.not_anc_root {n k x : Nat} {h : Heap} (I : LInv n k h) : ¬ Anc h x 0 :=
  not_anc_of_none (I.pnone 0 (Or.inl rfl))

/-- A word without children is above nothing. -/
theorem LInv.not_anc_leaf {n k x p : Nat} {h : Heap} (I : LInv n k h) (hc : h.children x = []) :
    ¬ Anc h x p := by
  intro ha
  obtain ⟨c, e⟩ := anc_has_child ha
  have : c ∈ h.children x := by
    rw [I.ch x, List.mem_filter]
    refine ⟨?_, by simpa using e⟩
    rw [List.mem_range'_1]
    by_cases h1 : c = 0 ∨ k ≤ c
    · rw [I.pnone c h1] at e; simp at e
    · omega
  rw [hc] at this
  simp at this

/-- One turn of the loop, unless a word attached to itself is to be "fixed". -/
theorem linkOne_spec {o : Opts} {n k fuel : Nat} {h : Heap} (I : LInv n k h)
    (hf : n + 1 < fuel) (i : Int)
    (hself : o.fixCycles = true → pyIdx (n + 1) i ≠ some k) :
    linkOne o n fuel h k i =
      match pyIdx (n + 1) i with
      | none => .error .valueError
      | some p =>
        if k = p then .error .valueError
        else if h.children k = [] then .ok (Conllu.attach h k p)
        else match climbTo h k fuel (h.parent p) with
          | some false => .ok (Conllu.attach h k p)
          | _ => if o.fixCycles then .ok (Conllu.attach h k 0) else .error .valueError := by
  unfold linkOne
  cases hi : pyIdx (n + 1) i with
  | none => rfl
  | some p =>
    simp only
    by_cases hkp : k = p
    · simp only [if_pos hkp]
      cases hfx : o.fixCycles with
      | true => exact absurd (by rw [hi, hkp]) (hself hfx)
      | false => simp
    · simp only [if_neg hkp]
      by_cases hc : h.children k = []
      · simp only [if_pos hc]
      · simp only [if_neg hc]
        obtain ⟨b, h1, _⟩ := climb_spec I.bound I.ends hf k p
        rw [h1]
        cases b <;> rfl

theorem pyIdx_lt {n p : Nat} {i : Int} (h : pyIdx (n + 1) i = some p) : p ≤ n := by
  unfold pyIdx at h
  split at h
  · split at h
    · have := Option.some.inj h; omega
    · simp at h
  · split at h
    · have := Option.some.inj h; omega
    · simp at h

/-- What a turn leaves behind: the word hangs on the node of its HEAD, or (when cycles are fixed, and the
node is below the word) on the root. -/
theorem linkOne_ok {o : Opts} {n k fuel : Nat} {h h' : Heap} (I : LInv n k h) (hk : 1 ≤ k)
    (hf : n + 1 < fuel) (i : Int)
    (hself : o.fixCycles = true → pyIdx (n + 1) i ≠ some k)
    (hok : linkOne o n fuel h k i = .ok h') :
    ∃ p, pyIdx (n + 1) i = some p ∧
      ((¬ Anc h k p ∧ h' = Conllu.attach h k p) ∨ (o.fixCycles = true ∧ Anc h k p ∧ h' = Conllu.attach h k 0)) ∧
      LInv n (k + 1) h' := by
  rw [linkOne_spec I hf i hself] at hok
  cases hi : pyIdx (n + 1) i with
  | none => rw [hi] at hok; simp at hok
  | some p =>
    rw [hi] at hok
    simp only at hok
    refine ⟨p, rfl, ?_⟩
    have hpn := pyIdx_lt hi
    by_cases hkp : k = p
    · simp [if_pos hkp] at hok
    · rw [if_neg hkp] at hok
      have hpk : p ≠ k := fun e => hkp e.symm
      by_cases hc : h.children k = []
      · rw [if_pos hc] at hok
        have e := (Except.ok.inj hok).symm
        exact ⟨Or.inl ⟨I.not_anc_leaf hc, e⟩, e ▸ I.attach hk hpk hpn (I.not_anc_leaf hc)⟩
      · rw [if_neg hc] at hok
        obtain ⟨b, h1, h2⟩ := climb_spec I.bound I.ends hf k p
        rw [h1] at hok
        cases b with
        | false =>
          have e := (Except.ok.inj hok).symm
          have hna : ¬ Anc h k p := fun ha => by simpa using h2.2 ha
          exact ⟨Or.inl ⟨hna, e⟩, e ▸ I.attach hk hpk hpn hna⟩
        | true =>
          simp only at hok
          cases hfx : o.fixCycles with
          | false => rw [hfx] at hok; simp at hok
          | true =>
            rw [hfx] at hok
            have e : h' = Conllu.attach h k 0 := (Except.ok.inj hok).symm
            exact ⟨Or.inr ⟨rfl, h2.1 rfl, e⟩, e ▸ I.attach hk (by omega) (by omega) I.not_anc_root⟩

theorem linkOne_succeeds {o : Opts} {n k fuel p : Nat} {h : Heap} (I : LInv n k h)
    (hf : n + 1 < fuel) (i : Int) (hi : pyIdx (n + 1) i = some p) (hpk : p ≠ k)
    (hna : ¬ Anc h k p) : linkOne o n fuel h k i = .ok (Conllu.attach h k p) := by
  rw [linkOne_spec I hf i (fun _ => by rw [hi]; intro e; exact hpk (Option.some.inj e)), hi]
  simp only
  rw [if_neg (fun e => hpk e.symm)]
  by_cases hc : h.children k = []
  · rw [if_pos hc]
  · rw [if_neg hc]
    obtain ⟨b, h1, h2⟩ := climb_spec I.bound I.ends hf k p
    rw [h1]
    cases b with
    | false => rfl
    | true => exact absurd (h2.1 rfl) hna

/-- Nothing but parents and children changes, and parents already set stay. -/
structure Grown (h h' : Heap) : Prop where
  par : ∀ x p, h.parent x = some p → h'.parent x = some p
  ord : h'.ord = h.ord
  root : h'.root = h.root
  words : h'.words = h.words
  next : h'.next = h.next

theorem Grown.refl (h : Heap) : Grown h h := ⟨fun _ _ e => e, rfl, rfl, rfl, rfl⟩

theorem Grown.trans {a b c : Heap} (h1 : Grown a b) (h2 : Grown b c) : Grown a c :=
  ⟨fun x p e => h2.par x p (h1.par x p e), h2.ord.trans h1.ord, h2.root.trans h1.root,
    h2.words.trans h1.words, h2.next.trans h1.next⟩

theorem Grown.anc {h h' : Heap} (g : Grown h h') {a x : Nat} (ha : Anc h a x) : Anc h' a x := by
  induction ha with
  | parent e => exact .parent (g.par _ _ e)
  | step e _ ih => exact .step (g.par _ _ e) ih

theorem grown_attach {n k p : Nat} {h : Heap} (I : LInv n k h) : Grown h (attach h k p) := by
  refine ⟨?_, rfl, rfl, rfl, rfl⟩
  intro x q e
  have : x ≠ k := by
    rintro rfl
    rw [I.pnone x (Or.inr (Nat.le_refl _))] at e
    simp at e
  simp only [attach]
  rw [upd_ne _ _ this]
  exact e

/-- Where word `x` with HEAD `i` hangs in the tree `h` of `n` words: on the node of its HEAD, or, if cycles
are fixed and that node is below `x`, on the root. -/
def HangsOn (o : Opts) (n : Nat) (h : Heap) (x : Nat) (i : Int) : Prop :=
  ∃ p, pyIdx (n + 1) i = some p ∧
    (h.parent x = some p ∨ (o.fixCycles = true ∧ h.parent x = some 0 ∧ Anc h x p))

/-- The loop, when it ends without an exception. -/
theorem linkAll_ok {o : Opts} {n fuel : Nat} (hf : n + 1 < fuel) : ∀ (is : List Int) (k : Nat) (h h' : Heap),
    LInv n k h → 1 ≤ k →
    (o.fixCycles = true → ∀ (j : Nat) (i : Int), is[j]? = some i → pyIdx (n + 1) i ≠ some (k + j)) →
    linkAll o n fuel h k is = .ok h' →
    LInv n (k + is.length) h' ∧ Grown h h' ∧
      ∀ (j : Nat) (i : Int), is[j]? = some i → HangsOn o n h' (k + j) i
  | [], k, h, h', I, hk, _, hok => by
    simp only [linkAll, Except.ok.injEq] at hok
    subst hok
    exact ⟨I, Grown.refl h, by simp⟩
  | i :: is, k, h, h', I, hk, hself, hok => by
    simp only [linkAll] at hok
    cases h1 : linkOne o n fuel h k i with
    | error e => rw [h1] at hok; simp at hok
    | ok h2 =>
      rw [h1] at hok
      simp only at hok
      obtain ⟨p, hi, hor, I2⟩ := linkOne_ok I hk hf i (fun hfx => hself hfx 0 i rfl) h1
      have g1 : Grown h h2 := by
        rcases hor with ⟨_, e⟩ | ⟨_, _, e⟩ <;> rw [e] <;> exact grown_attach I
      obtain ⟨I3, g2, hh⟩ := linkAll_ok hf is (k + 1) h2 h' I2 (by omega)
        (fun hfx j i' e => by
          have := hself hfx (j + 1) i' (by simpa using e)
          rw [show k + (j + 1) = k + 1 + j from by omega] at this
          exact this) hok
      refine ⟨?_, g1.trans g2, ?_⟩
      · rw [show k + (i :: is).length = k + 1 + is.length from by simp only [List.length_cons]; omega]
        exact I3
      · intro j i' e
        cases j with
        | zero =>
          simp only [List.getElem?_cons_zero, Option.some.injEq] at e
          subst e
          refine ⟨p, hi, ?_⟩
          have hat : ∀ q, (attach h k q).parent k = some q := by
            intro q; simp only [attach, upd, if_true]
          rcases hor with ⟨_, e⟩ | ⟨hfx, ha, e⟩
          · exact Or.inl (g2.par _ _ (by rw [e]; exact hat p))
          · exact Or.inr ⟨hfx, g2.par _ _ (by rw [e]; exact hat 0), g2.anc (g1.anc ha)⟩
        | succ j =>
          have := hh j i' (by simpa using e)
          rw [show k + (j + 1) = k + 1 + j from by omega]
          exact this

/-- The loop succeeds if the HEADs are the parents of a tree. -/
theorem linkAll_succeeds {o : Opts} {n fuel : Nat} (hf : n + 1 < fuel) {H : Heap} (hends : ∀ x, Ends H x) :
    ∀ (is : List Int) (k : Nat) (h : Heap), LInv n k h → 1 ≤ k →
    (∀ x p, h.parent x = some p → H.parent x = some p) →
    (∀ (j : Nat) (i : Int), is[j]? = some i → ∃ p, pyIdx (n + 1) i = some p ∧ H.parent (k + j) = some p) →
    ∃ h', linkAll o n fuel h k is = .ok h' ∧ ∀ x p, h'.parent x = some p → H.parent x = some p
  | [], k, h, _, _, hH, _ => ⟨h, rfl, hH⟩
  | i :: is, k, h, I, hk, hH, hp => by
    obtain ⟨p, hi, hHk⟩ := hp 0 i rfl
    have hna : ¬ Anc h k p := by
      intro ha
      have : Anc H k p := by
        clear hp hi hHk
        induction ha with
        | parent e => exact .parent (hH _ _ e)
        | step e _ ih => exact .step (hH _ _ e) ih
      exact (hends k).irrefl (.step hHk this)
    have hpk : p ≠ k := by
      rintro rfl
      exact (hends p).irrefl (.parent hHk)
    have h1 := linkOne_succeeds (o := o) I hf i hi hpk hna
    simp only [linkAll, h1]
    refine linkAll_succeeds hf hends is (k + 1) _ (I.attach hk hpk (pyIdx_lt hi) hna) (by omega) ?_ ?_
    · intro x q e
      by_cases hx : x = k
      · subst hx
        simp only [attach, upd, if_true] at e
        rw [← e]; exact hHk
      · simp only [attach] at e
        rw [upd_ne _ _ hx] at e
        exact hH x q e
    · intro j i' e
      obtain ⟨q, h2, h3⟩ := hp (j + 1) i' (by simpa using e)
      exact ⟨q, h2, by rw [show k + 1 + j = k + (j + 1) from by omega]; exact h3⟩

theorem linv_start (ords : List Nat) (n : Nat) : LInv n 1 (startHeap ords) :=
  ⟨fun _ _ => rfl, fun _ h1 h2 => by omega, fun p => by simp [startHeap], fun _ => .stop rfl⟩

/-- The linked heap is a well-formed tree, if the words are numbered 1, 2, ... -/
theorem wf_of_linked {ords : List Nat} {h : Heap} (hids : ords = List.range' 1 ords.length)
    (I : LInv ords.length (ords.length + 1) h) (g : Grown (startHeap ords) h) : WF h 0 := by
  have hw : h.words 0 = List.range' 1 ords.length := by rw [g.words]; rfl
  have hord : ∀ x, 1 ≤ x → x ≤ ords.length → h.ord x = x := by
    intro x h1 h2
    rw [g.ord]
    show (0 :: ords).getD x 0 = x
    obtain ⟨y, rfl⟩ : ∃ y, x = y + 1 := ⟨x - 1, by omega⟩
    rw [hids]
    rw [List.getD_cons_succ, List.getD_eq_getElem?_getD, List.getElem?_range' (by omega)]
    simp; omega
  have hroot : ∀ x, h.root x = 0 := by intro x; rw [g.root]; rfl
  have hin : ∀ p, InTree h 0 p ↔ p ≤ ords.length := by
    intro p
    unfold InTree
    rw [hw, List.mem_range'_1]
    omega
  refine ⟨?_, ?_, ?_, ?_, ?_, ?_, ?_, ?_, ?_⟩
  · rw [hw, List.length_range']
    conv => rhs; rw [← List.map_id (List.range' 1 ords.length)]
    apply List.map_congr_left
    intro x hx
    have := List.mem_range'_1.1 hx
    exact hord x this.1 (by omega)
  · rw [g.ord]; rfl
  · exact I.pnone 0 (Or.inl rfl)
  · intro x _; exact hroot x
  · intro x hx
    rw [hw, List.mem_range'_1] at hx
    obtain ⟨p, e, hp⟩ := I.psome x hx.1 (by omega)
    exact ⟨p, e, (hin p).2 hp⟩
  · intro x hx
    rw [hw, List.mem_range'_1] at hx
    have hx' : 1 ≤ x ∧ x ≤ ords.length := by omega
    clear hx
    have he := I.ends x
    induction he with
    | @stop y e =>
      obtain ⟨p, e', _⟩ := I.psome y hx'.1 (by omega)
      rw [e] at e'; simp at e'
    | @step y p e _ ih =>
      obtain ⟨p', e', hp'⟩ := I.psome y hx'.1 (by omega)
      rw [e] at e'
      have := Option.some.inj e'
      subst this
      by_cases hp0 : p = 0
      · subst hp0; exact .parent e
      · exact .step e (ih (by omega))
  · intro p _ x
    rw [I.ch p, List.mem_filter, hw]
    simp
  · intro p _
    rw [I.ch p]
    apply List.Pairwise.filter
    have : (List.range' 1 (ords.length + 1 - 1)).Pairwise (· < ·) := List.pairwise_lt_range'
    refine this.imp_of_mem ?_
    intro a b ha hb hab
    rw [List.mem_range'_1] at ha hb
    rw [hord a ha.1 (by omega), hord b hb.1 (by omega)]
    exact hab
  · intro x hx
    rw [hw, List.mem_range'_1] at hx
    rw [g.next]
    show x < ords.length + 1
    omega

end Verif.Conllu
