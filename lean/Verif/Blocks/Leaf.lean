import Verif.Blocks.Basic

/-!
# Property C92: ud.FixLeaf (udapi/block/ud/fixleaf.py)

Simplified: enhanced dependencies (fixleaf.py:39-42) are left out.
-/

namespace Verif.Blocks
open Verif.Py Verif.Tree Verif.Deprel

def lFixed : Str := ['f', 'i', 'x', 'e', 'd']
def lPunct : Str := ['p', 'u', 'n', 'c', 't']
def lGoeswith : Str := ['g', 'o', 'e', 's', 'w', 'i', 't', 'h']
def lReparandum : Str := ['r', 'e', 'p', 'a', 'r', 'a', 'n', 'd', 'u', 'm']
def lConj : Str := ['c', 'o', 'n', 'j']
def lCc : Str := ['c', 'c']

/-- `allowed` (fixleaf.py:28-30) -/
def allowed (D : Str) : List Str :=
  [lFixed, lPunct, lGoeswith, lReparandum] ++ (if D ≠ lCc then [lConj, lCc] else [])

/-- `u in l`, where `u` may be `None`. -/
def inList (u : Option Str) (l : List Str) : Bool :=
  match u with
  | none => false
  | some s => s ∈ l

/-- `while ancestor.udeprel in self.deprels: ancestor = ancestor.parent` (fixleaf.py:34-35); at most `fuel` rounds. -/
def climbOver (deprels : List Str) (d : Rels) (h : Heap) : Nat → Nat → Except Err Nat
  | 0, _ => .error .diverges
  | fuel + 1, a =>
    if inList (getU (d a)) deprels then
      match h.parent a with
      | none => .error .attributeError
      | some b => climbOver deprels d h fuel b
    else .ok a

/-- The body of the loop over relations (fixleaf.py:25-37). -/
def leafStep (deprels : List Str) (d : Rels) (x : Nat) (h : Heap) (D : Str) : Heap × Option Err :=
  if getU (d x) = some D then
    let cs := (h.children x).filter (fun c => !inList (getU (d c)) (allowed D))
    match h.parent x with
    | none => (h, some .attributeError)
    | some p =>
      match climbOver deprels d h (h.next + 1) p with
      | .error e => (h, some e)
      | .ok a => forNodes (fun h c => setParent h c (some a)) h cs
  else (h, none)

/-- `ud.FixLeaf` on one tree (fixleaf.py:23-42); `deprels` is the parameter split at commas. -/
def fixLeaf (deprels : List Str) (h : Heap) (d : Rels) (r : Nat) : Heap × Option Err :=
  forNodes (fun h x => forNodes (leafStep deprels d x) h deprels) h (h.words r)

/-! ## Specification vocabulary -/

/-- A function word: its universal relation is one of `deprels`. -/
def IsFun (deprels : List Str) (d : Rels) (x : Nat) : Prop := ∃ D ∈ deprels, getU (d x) = some D

/-- `c` may depend on a function word with the universal relation `D`. -/
def MayDepend (d : Rels) (D : Str) (c : Nat) : Prop :=
  ∃ u, getU (d c) = some u ∧ (u = lFixed ∨ u = lPunct ∨ u = lGoeswith ∨ u = lReparandum ∨ (D ≠ lCc ∧ (u = lConj ∨ u = lCc)))

/-- `c` depends on a function word but should not. -/
def Misplaced (deprels : List Str) (h : Heap) (d : Rels) (c : Nat) : Prop :=
  ∃ p D, h.parent c = some p ∧ D ∈ deprels ∧ getU (d p) = some D ∧ ¬ MayDepend d D c

/-! ## Proofs -/

theorem allowed_iff (d : Rels) (D : Str) (c : Nat) : inList (getU (d c)) (allowed D) = true ↔ MayDepend d D c := by
  unfold MayDepend inList
  cases getU (d c) with
  | none => simp
  | some s =>
    simp only [decide_eq_true_eq, Option.some.injEq, exists_eq_left']
    unfold allowed
    by_cases hD : D = lCc <;> simp [hD]

theorem isFun_iff (deprels : List Str) (d : Rels) (x : Nat) : inList (getU (d x)) deprels = true ↔ IsFun deprels d x := by
  unfold IsFun inList
  cases getU (d x) with
  | none => simp
  | some s => simp

/-- The climb ends at the nearest node that is no function word. -/
theorem climbOver_spec {deprels : List Str} {d : Rels} {h : Heap} {r : Nat} (w : WF h r) (hdr : ¬ IsFun deprels d r) :
    ∀ (fuel n p x : Nat), InTree h r p → h.parent x = some p → Depth h r p n → n < fuel →
    ∃ a, climbOver deprels d h fuel p = .ok a ∧ Near h (IsFun deprels d) x a
  | 0, n, p, x, _, _, _, hf => absurd hf (Nat.not_lt_zero _)
  | fuel + 1, n, p, x, hpin, hp, hd, hf => by
    unfold climbOver
    by_cases hs : IsFun deprels d p
    · rw [if_pos ((isFun_iff ..).2 hs)]
      cases hd with
      | root => exact absurd hs hdr
      | step hg hd' =>
        rename_i g m
        rw [hg]
        have hpw : p ∈ h.words r := hpin.resolve_left (fun e => hdr (e ▸ hs))
        obtain ⟨a, ha, hn⟩ := climbOver_spec w hdr fuel m g p (w.parent_in hpw hg) hg hd' (by omega)
        exact ⟨a, ha, .up hp hs hn⟩
    · rw [if_neg (fun e => hs ((isFun_iff ..).1 e))]
      exact ⟨p, rfl, .here hp hs⟩

/-- Attaching a list of words to their common nearest node. -/
theorem attach_list {skip : Nat → Prop} {r a : Nat} : ∀ (cs : List Nat) (h : Heap), Inv h → IsTree h r → cs.Nodup →
    (∀ c ∈ cs, c ∈ h.words r ∧ Near h skip c a) →
    ∃ h', forNodes (fun h c => setParent h c (some a)) h cs = (h', none) ∧ Inv h' ∧ IsTree h' r ∧ h'.words = h.words ∧ h'.ord = h.ord ∧
      h'.root = h.root ∧ (∀ z, h'.parent z = if z ∈ cs then some a else h.parent z) ∧
      ∀ y q, Near h skip y q → Near h' skip y q
  | [], h, hi, hr, _, _ => ⟨h, rfl, hi, hr, rfl, rfl, rfl, fun z => by simp, fun _ _ hn => hn⟩
  | c :: cs, h, hi, hr, hn, hcs => by
    rw [List.nodup_cons] at hn
    have w := hi r hr
    obtain ⟨hc, hna⟩ := hcs c (List.mem_cons_self ..)
    have hanc := hna.anc.1
    have hain := w.anc_in (.inr hc) hanc
    obtain ⟨h1, e1, i1, t1, w1, r1, o1, p1⟩ := attach_one hi hr hc hain
      (fun e => w.anc_irrefl (.inr hc) (e ▸ hanc)) (fun e => w.anc_asymm hain e hanc)
    obtain ⟨h2, e2, i2, t2, w2, o2, r2, p2, n2⟩ := attach_list cs h1 i1 t1 hn.2 (fun z hz => by
      have := hcs z (List.mem_cons_of_mem _ hz)
      exact ⟨by rw [w1]; exact this.1, hna.jump p1 this.2⟩)
    refine ⟨h2, ?_, i2, t2, by rw [w2, w1], by rw [o2, o1], by rw [r2, r1], ?_, fun y q hq => n2 y q (hna.jump p1 hq)⟩
    · unfold forNodes
      rw [e1]
      exact e2
    · intro z
      rw [p2, p1]
      by_cases hz : z = c
      · subst hz
        rw [if_neg hn.1, upd_same, if_pos (List.mem_cons_self ..)]
      · rw [upd_ne _ _ hz]
        simp [hz]

/-- One word of the block. -/
theorem leafWord_spec {deprels : List Str} (hnd : deprels.Nodup) {d : Rels} {r x : Nat} (hdr : ¬ IsFun deprels d r) {h : Heap} (hi : Inv h)
    (hr : IsTree h r) (hx : x ∈ h.words r) :
    ∃ h', forNodes (leafStep deprels d x) h deprels = (h', none) ∧ Inv h' ∧ IsTree h' r ∧ h'.words = h.words ∧ h'.ord = h.ord ∧
      h'.root = h.root ∧ (∀ y q, Near h (IsFun deprels d) y q → Near h' (IsFun deprels d) y q) ∧
      (∀ z, (h.parent z ≠ some x ∨ z ∉ h.words r ∨ ¬ Misplaced deprels h d z) → h'.parent z = h.parent z) ∧
      ∀ z ∈ h.words r, h.parent z = some x → Misplaced deprels h d z → ∃ q, h'.parent z = some q ∧ ¬ IsFun deprels d q := by
  have w := hi r hr
  by_cases hf : IsFun deprels d x
  · obtain ⟨D, hD, hDx⟩ := hf
    have hrun : forNodes (leafStep deprels d x) h deprels = leafStep deprels d x h D := by
      rw [forNodes_single (leafStep deprels d x) D ?_ deprels h hnd, if_pos hD]
      intro s E hE
      unfold leafStep
      rw [if_neg]
      rw [hDx]
      exact fun e => hE (Option.some.inj e).symm
    obtain ⟨p, hp, hpin⟩ := w.parentIn x hx
    obtain ⟨n, hn, hd⟩ := depth_exists w p hpin
    have hlt := words_lt_next w hr
    obtain ⟨a, ha, hna⟩ := climbOver_spec w hdr (h.next + 1) n p x hpin hp hd (by omega)
    have hcn := w.children_nodup (p := x) (.inr hx)
    have hmem : ∀ c, c ∈ (h.children x).filter (fun c => !inList (getU (d c)) (allowed D)) ↔
        c ∈ h.words r ∧ h.parent c = some x ∧ Misplaced deprels h d c := by
      intro c
      rw [List.mem_filter, w.childIff x (.inr hx), Bool.not_eq_true', ← Bool.not_eq_true, allowed_iff]
      constructor
      · rintro ⟨⟨h1, h2⟩, h3⟩
        exact ⟨h1, h2, x, D, h2, hD, hDx, h3⟩
      · rintro ⟨h1, h2, x', D', h3, _, h5, h6⟩
        rw [h2] at h3
        obtain rfl := Option.some.inj h3
        rw [hDx] at h5
        obtain rfl := Option.some.inj h5
        exact ⟨⟨h1, h2⟩, h6⟩
    obtain ⟨h1, e1, i1, t1, w1, o1, r1, p1, n1⟩ := attach_list (skip := IsFun deprels d) (a := a)
      ((h.children x).filter (fun c => !inList (getU (d c)) (allowed D))) h hi hr (hcn.filter _) (fun c hc => by
        have := (hmem c).1 hc
        exact ⟨this.1, .up this.2.1 ⟨D, hD, hDx⟩ hna⟩)
    refine ⟨h1, ?_, i1, t1, w1, o1, r1, n1, ?_, ?_⟩
    · rw [hrun]
      unfold leafStep
      rw [if_pos hDx, hp]
      simp only [ha]
      exact e1
    · intro z hz
      rw [p1, if_neg]
      intro hm
      have := (hmem z).1 hm
      rcases hz with h | h | h
      · exact h this.2.1
      · exact h this.1
      · exact h this.2.2
    · intro z hz hpz hm
      exact ⟨a, by rw [p1, if_pos ((hmem z).2 ⟨hz, hpz, hm⟩)], hna.anc.2⟩
  · have hrun : forNodes (leafStep deprels d x) h deprels = (h, none) := by
      have hstep : ∀ D ∈ deprels, leafStep deprels d x h D = (h, none) := by
        intro D hD
        unfold leafStep
        rw [if_neg (fun e => hf ⟨D, hD, e⟩)]
      have : ∀ l : List Str, (∀ D ∈ l, D ∈ deprels) → forNodes (leafStep deprels d x) h l = (h, none) := by
        intro l
        induction l with
        | nil => intro _; rfl
        | cons D l ih =>
          intro hl
          unfold forNodes
          rw [hstep D (hl D (List.mem_cons_self ..))]
          exact ih (fun E hE => hl E (List.mem_cons_of_mem _ hE))
      exact this deprels (fun _ h => h)
    refine ⟨h, hrun, hi, hr, rfl, rfl, rfl, fun _ _ h => h, fun _ _ => rfl, ?_⟩
    intro z _ hpz ⟨p, D, h1, h2, h3, _⟩
    rw [hpz] at h1
    obtain rfl := Option.some.inj h1
    exact absurd ⟨D, h2, h3⟩ hf

/-- C92: ud.FixLeaf accepts every tree, keeps the words, their order and all other trees, and leaves a well-formed tree. A word that
depends on a function word but should not is attached to its nearest ancestor that is no function word. All other words keep their
parents. -/
theorem C92_nearest {h : Heap} {r : Nat} (hi : Inv h) (hr : IsTree h r) (deprels : List Str) (hnd : deprels.Nodup) (d : Rels)
    (hdr : ¬ IsFun deprels d r) :
    ∃ h', fixLeaf deprels h d r = (h', none) ∧ Inv h' ∧ IsTree h' r ∧ h'.words = h.words ∧ h'.ord = h.ord ∧ h'.root = h.root ∧
      (∀ z, z ∉ h.words r ∨ ¬ Misplaced deprels h d z → h'.parent z = h.parent z) ∧
      ∀ x ∈ h.words r, Misplaced deprels h d x → ∃ q, h'.parent x = some q ∧ Nearest h (IsFun deprels d) x q := by
  have w := hi r hr
  obtain ⟨h', e, i', t', w', o', r', n', a', b', c'⟩ := forNodes_inv (fun h x => forNodes (leafStep deprels d x) h deprels)
    (fun done k => Inv k ∧ IsTree k r ∧ k.words = h.words ∧ k.ord = h.ord ∧ k.root = h.root ∧
      (∀ y q, Near h (IsFun deprels d) y q → Near k (IsFun deprels d) y q) ∧
      (∀ z, z ∉ h.words r ∨ ¬ Misplaced deprels h d z → k.parent z = h.parent z) ∧
      (∀ z p, h.parent z = some p → p ∉ done → k.parent z = some p) ∧
      ∀ z ∈ h.words r, Misplaced deprels h d z → ∀ p, h.parent z = some p → p ∈ done → ∃ q, k.parent z = some q ∧ ¬ IsFun deprels d q)
    (h.words r) (by
      intro done x rest k hl ⟨i1, t1, w1, o1, r1, n1, a1, b1, c1⟩
      have hx : x ∈ h.words r := by rw [hl]; simp
      have hxd : x ∉ done := by
        have := w.nodup
        rw [hl, List.nodup_append] at this
        intro hm
        exact this.2.2 x hm x (List.mem_cons_self ..) rfl
      obtain ⟨h2, e2, i2, t2, w2, o2, r2, n2, k2, m2⟩ := leafWord_spec hnd hdr i1 t1 (by rw [w1]; exact hx)
      -- a misplaced word of the current heap is one of the first heap
      have hback : ∀ z ∈ h.words r, k.parent z = some x → Misplaced deprels k d z → h.parent z = some x ∧ Misplaced deprels h d z := by
        intro z hz hpz ⟨p, D, h3, h4, h5, h6⟩
        rw [hpz] at h3
        obtain rfl := Option.some.inj h3
        have hsame : h.parent z = some x := by
          by_cases hm : Misplaced deprels h d z
          · obtain ⟨p, hp, _⟩ := w.parentIn z hz
            by_cases hpd : p ∈ done
            · obtain ⟨q, hq, hnf⟩ := c1 z hz hm p hp hpd
              rw [hpz] at hq
              obtain rfl := Option.some.inj hq
              exact absurd ⟨D, h4, h5⟩ hnf
            · have := b1 z p hp hpd
              rw [hpz] at this
              rw [hp, this]
          · rw [← a1 z (.inr hm), hpz]
        exact ⟨hsame, x, D, hsame, h4, h5, h6⟩
      refine ⟨h2, e2, i2, t2, by rw [w2, w1], by rw [o2, o1], by rw [r2, r1], fun y q hq => n2 y q (n1 y q hq), ?_, ?_, ?_⟩
      · intro z hz
        rw [k2 z ?_, a1 z hz]
        rcases hz with hz | hz
        · exact .inr (.inl (by rw [w1]; exact hz))
        · by_cases hzw : z ∈ h.words r
          · by_cases hpz : k.parent z = some x
            · exact .inr (.inr (fun hm => hz (hback z hzw hpz hm).2))
            · exact .inl hpz
          · exact .inr (.inl (by rw [w1]; exact hzw))
      · intro z p hp hpd
        have hpx : p ≠ x := fun e => hpd (by rw [e]; simp)
        have hk := b1 z p hp (fun e => hpd (List.mem_append_left _ e))
        rw [k2 z (.inl (by rw [hk]; exact fun e => hpx (Option.some.inj e))), hk]
      · intro z hz hm p hp hpd
        by_cases hpx : p = x
        · subst hpx
          have hk := b1 z p hp hxd
          refine m2 z (by rw [w1]; exact hz) hk ?_
          obtain ⟨p', D, h3, h4, h5, h6⟩ := hm
          rw [hp] at h3
          obtain rfl := Option.some.inj h3
          exact ⟨p, D, hk, h4, h5, h6⟩
        · rw [List.mem_append, List.mem_singleton] at hpd
          obtain ⟨q, hq, hnf⟩ := c1 z hz hm p hp (hpd.resolve_right hpx)
          refine ⟨q, ?_, hnf⟩
          rw [k2 z ?_, hq]
          refine .inr (.inr ?_)
          rintro ⟨p', D, h3, h4, h5, _⟩
          rw [hq] at h3
          obtain rfl := Option.some.inj h3
          exact hnf ⟨D, h4, h5⟩)
    h ⟨hi, hr, rfl, rfl, rfl, fun _ _ hn => hn, fun _ _ => rfl, fun _ _ hp _ => hp, fun _ _ _ _ _ hp => absurd hp List.not_mem_nil⟩
  refine ⟨h', e, i', t', w', o', r', a', ?_⟩
  intro x hx hm
  obtain ⟨p, hp, hpin⟩ := w.parentIn x hx
  have hpw : p ∈ h.words r := by
    refine hpin.resolve_left ?_
    rintro rfl
    obtain ⟨p', D, h3, h4, h5, _⟩ := hm
    rw [hp] at h3
    obtain rfl := Option.some.inj h3
    exact hdr ⟨D, h4, h5⟩
  obtain ⟨q, hq, hnq⟩ := c' x hx hm p hp hpw
  obtain ⟨q0, hn0, _⟩ := near_exists w hdr x hx
  have : q = q0 := by
    cases n' x q0 hn0 with
    | here e' _ => rw [hq] at e'; exact Option.some.inj e'
    | up e' hs _ =>
      rw [hq] at e'
      obtain rfl := Option.some.inj e'
      exact absurd hs hnq
  subst this
  exact ⟨q, hq, hn0.nearest w hx⟩

/-- C92: after the block, no word depends on a function word unless it may. -/
theorem C92_leaves {h : Heap} {r : Nat} (hi : Inv h) (hr : IsTree h r) (deprels : List Str) (hnd : deprels.Nodup) (d : Rels)
    (hdr : ¬ IsFun deprels d r) : ∀ x ∈ h.words r, ¬ Misplaced deprels (fixLeaf deprels h d r).1 d x := by
  obtain ⟨h', e, _, _, _, _, _, hkeep, hmove⟩ := C92_nearest hi hr deprels hnd d hdr
  rw [e]
  intro x hx hm
  obtain ⟨p, D, h1, h2, h3, h4⟩ := hm
  by_cases hm0 : Misplaced deprels h d x
  · obtain ⟨q, hq, hn⟩ := hmove x hx hm0
    rw [h1] at hq
    obtain rfl := Option.some.inj hq
    exact hn.2.1 ⟨D, h2, h3⟩
  · exact hm0 ⟨p, D, by rw [← hkeep x (.inr hm0)]; exact h1, h2, h3, h4⟩

def lCase : Str := ['c', 'a', 's', 'e']
def lNmod : Str := ['n', 'm', 'o', 'd']

/-- Word 1 is the root; 2 (`case`) depends on it, 3 (`case`) on 2, and 4 (`nmod`) and 5 (`fixed`) on 3. -/
def exLeaf : Heap := createChild (createChild (createChild (createChild (createChild (newTree Heap.init) 0) 1) 2) 3) 3

def exLeafRels : Rels := fun x => if x = 2 ∨ x = 3 then some lCase else if x = 4 then some lNmod else if x = 5 then some lFixed else none

example : (fixLeaf [lCase, lCc] exLeaf exLeafRels 0).1.children 1 = [2, 3, 4] ∧ (fixLeaf [lCase, lCc] exLeaf exLeafRels 0).1.children 3 = [5] ∧
    (fixLeaf [lCase, lCc] exLeaf exLeafRels 0).2 = none := by decide +kernel

end Verif.Blocks
