import Verif.Blocks.Basic

/-!
# Property C135: ud.FixCompoundName (udapi/block/ud/fixcompoundname.py)

`dig x` stands for `re.search(r"\d", x.form)`; forms are taken to be strings. `logging.fatal` (line 40) does not end the program and is left
out, as are the enhanced dependencies.
-/

namespace Verif.Blocks.Names
open Verif.Py Verif.Tree Verif.Deprel Verif.Blocks

def pPropn : Str := ['P', 'R', 'O', 'P', 'N']
def rCompound : Str := ['c', 'o', 'm', 'p', 'o', 'u', 'n', 'd']
def rFlat : Str := ['f', 'l', 'a', 't', ':', 'n', 'a', 'm', 'e']

/-- `[x for x in origparent.children(add_self=True) if ...]` (fixcompoundname.py:29; node.py:1167-1176) -/
def nameWords (upos : Nat → Option Str) (h : Heap) (d : Rels) (q : Nat) : List Nat :=
  (sortNodes h.ord (h.children q ++ [q])).filter (fun y => upos y = some pPropn ∧ (getU (d y) = some rCompound ∨ y = q))

/-- `n.parent = head; n.deprel = 'flat:name'` (fixcompoundname.py:45-47) -/
def flatStep (hd : Nat) (s : Heap × Rels) (n : Nat) : (Heap × Rels) × Option Err :=
  match setParent s.1 n (some hd) with
  | (h, some e) => ((h, s.2), some e)
  | (h, none) => ((h, upd s.2 n (some rFlat)), none)

/-- The loop body for a name with the words `ns` (fixcompoundname.py:33-47). -/
def convert (q : Nat) (s : Heap × Rels) : List Nat → (Heap × Rels) × Option Err
  | [] => (s, some .indexError)
  | hd :: rest =>
    if hd ≠ q then
      match setParent s.1 hd (s.1.parent q) with
      | (h, some e) => ((h, s.2), some e)
      | (h, none) => forNodes (flatStep hd) (h, upd s.2 hd (s.2 q)) rest
    else forNodes (flatStep hd) s rest

/-- `process_node(node)` (fixcompoundname.py:21-46) -/
def nameStep (upos : Nat → Option Str) (dig : Nat → Bool) (s : Heap × Rels) (x : Nat) : (Heap × Rels) × Option Err :=
  if upos x = some pPropn ∧ getU (s.2 x) = some rCompound then
    match s.1.parent x with
    | none => (s, some .attributeError)
    | some q =>
      if upos q = some pPropn then
        if (nameWords upos s.1 s.2 q).any dig then convert q s (nameWords upos s.1 s.2 q) else (s, none)
      else (s, none)
  else (s, none)

/-- The block on one tree. -/
def fixNames (upos : Nat → Option Str) (dig : Nat → Bool) (h : Heap) (d : Rels) (r : Nat) : (Heap × Rels) × Option Err :=
  forNodes (nameStep upos dig) (h, d) (h.words r)

/-! ## Specification vocabulary -/

/-- `n` is one of the words of the name with the head `q`. -/
def NameWord (upos : Nat → Option Str) (h : Heap) (d : Rels) (r q n : Nat) : Prop :=
  n ∈ h.words r ∧ (n = q ∨ (h.parent n = some q ∧ upos n = some pPropn ∧ getU (d n) = some rCompound))

/-- `x` is a proper noun attached as a compound to the proper noun `q`. -/
def Compound (upos : Nat → Option Str) (h : Heap) (d : Rels) (x q : Nat) : Prop :=
  h.parent x = some q ∧ upos x = some pPropn ∧ upos q = some pPropn ∧ getU (d x) = some rCompound

/-- The name `q` has become flat: the first word `f` has the place of `q`, the other ones depend on it, and nothing else has changed. -/
structure Flat (upos : Nat → Option Str) (r q : Nat) (h : Heap) (d : Rels) (h' : Heap) (d' : Rels) (f : Nat) : Prop where
  word : NameWord upos h d r q f
  first : ∀ n, NameWord upos h d r q n → n ≠ f → h.ord f < h.ord n
  place : h'.parent f = h.parent q ∧ d' f = d q
  others : ∀ n, NameWord upos h d r q n → n ≠ f → h'.parent n = some f ∧ d' n = some rFlat
  frame : ∀ y, ¬ NameWord upos h d r q y → h'.parent y = h.parent y ∧ d' y = d y

/-! ## Proofs -/

/-- Hanging words below a node that is not below any of them. -/
theorem flat_list {r a : Nat} : ∀ (cs : List Nat) (h : Heap) (d : Rels), Inv h → IsTree h r → InTree h r a → cs.Nodup →
    (∀ c ∈ cs, c ∈ h.words r ∧ c ≠ a ∧ ¬ Anc h c a) →
    ∃ h' d', forNodes (flatStep a) (h, d) cs = ((h', d'), none) ∧ Inv h' ∧ IsTree h' r ∧ h'.words = h.words ∧ h'.ord = h.ord ∧
      h'.root = h.root ∧ (∀ z, h'.parent z = if z ∈ cs then some a else h.parent z) ∧ ∀ z, d' z = if z ∈ cs then some rFlat else d z
  | [], h, d, hi, hr, _, _, _ => ⟨h, d, rfl, hi, hr, rfl, rfl, rfl, fun z => by simp, fun z => by simp⟩
  | c :: cs, h, d, hi, hr, ha, hn, hcs => by
    rw [List.nodup_cons] at hn
    obtain ⟨c1, c2, c3⟩ := hcs c (List.mem_cons_self ..)
    obtain ⟨h1, e1, i1, t1, w1, r1, o1, p1⟩ := attach_one hi hr c1 ha (Ne.symm c2) c3
    have hanc : ∀ {x y}, Anc h1 x y → Anc h x y ∨ (Anc h c y ∨ y = c) := by
      intro x y hxy
      induction hxy with
      | @parent b hb =>
        rw [p1] at hb
        by_cases hbc : b = c
        · exact .inr (.inr hbc)
        · rw [upd_ne _ _ hbc] at hb
          exact .inl (.parent hb)
      | @step b q hb _ ih =>
        rw [p1] at hb
        by_cases hbc : b = c
        · exact .inr (.inr hbc)
        · rw [upd_ne _ _ hbc] at hb
          rcases ih with ih | ih | ih
          · exact .inl (.step hb ih)
          · exact .inr (.inl (.step hb ih))
          · exact .inr (.inl (.parent (ih ▸ hb)))
    obtain ⟨h2, d2, e2, i2, t2, w2, o2, r2, p2, q2⟩ := flat_list cs h1 (upd d c (some rFlat)) i1 t1 (by unfold InTree; rw [w1]; exact ha) hn.2
      (fun z hz => by
        obtain ⟨z1, z2, z3⟩ := hcs z (List.mem_cons_of_mem _ hz)
        refine ⟨by rw [w1]; exact z1, z2, fun hza => ?_⟩
        rcases hanc hza with k | k | k
        · exact z3 k
        · exact c3 k
        · exact c2 k.symm)
    refine ⟨h2, d2, ?_, i2, t2, by rw [w2, w1], by rw [o2, o1], by rw [r2, r1], ?_, ?_⟩
    · unfold forNodes flatStep
      rw [e1]
      exact e2
    · intro z
      rw [p2, p1]
      by_cases hz : z = c
      · subst hz
        rw [if_neg hn.1, upd_same, if_pos (List.mem_cons_self ..)]
      · rw [upd_ne _ _ hz]
        simp [hz]
    · intro z
      rw [q2]
      by_cases hz : z = c
      · subst hz
        rw [if_neg hn.1, upd_same, if_pos (List.mem_cons_self ..)]
      · rw [upd_ne _ _ hz]
        simp [hz]

theorem mem_nameWords {upos : Nat → Option Str} {h : Heap} {d : Rels} {r q : Nat} (w : WF h r) (hq : q ∈ h.words r) (hu : upos q = some pPropn)
    (n : Nat) : n ∈ nameWords upos h d q ↔ NameWord upos h d r q n := by
  unfold nameWords NameWord
  rw [List.mem_filter, mem_sortNodes, List.mem_append, List.mem_singleton, w.childIff q (.inr hq), decide_eq_true_eq]
  constructor
  · rintro ⟨h1 | h1, h2, h3⟩
    · rcases h3 with h3 | h3
      · exact ⟨h1.1, .inr ⟨h1.2, h2, h3⟩⟩
      · exact ⟨h1.1, .inl h3⟩
    · exact ⟨h1 ▸ hq, .inl h1⟩
  · rintro ⟨h1, h2 | ⟨h2, h3, h4⟩⟩
    · exact ⟨.inr h2, h2 ▸ hu, .inr h2⟩
    · exact ⟨.inl ⟨h1, h2⟩, h3, .inl h4⟩

theorem nameWords_sorted {upos : Nat → Option Str} {h : Heap} {d : Rels} {r q : Nat} (w : WF h r) (hq : q ∈ h.words r) :
    (nameWords upos h d q).Pairwise (fun a b => h.ord a < h.ord b) := by
  unfold nameWords
  refine List.Pairwise.filter _ (sortNodes_pairwise ?_ ?_)
  · rw [List.nodup_append]
    refine ⟨w.children_nodup (.inr hq), by simp, ?_⟩
    intro a ha b hb e
    rw [List.mem_singleton] at hb
    have := (w.childIff q (.inr hq) a).1 ha
    rw [e, hb] at this
    exact w.anc_irrefl (.inr hq) (.parent this.2)
  · intro a ha b hb e
    have hin : ∀ y ∈ h.children q ++ [q], InTree h r y := by
      intro y hy
      rw [List.mem_append, List.mem_singleton] at hy
      rcases hy with hy | hy
      · exact .inr ((w.childIff q (.inr hq) y).1 hy).1
      · exact .inr (hy ▸ hq)
    exact w.ord_inj (hin a ha) (hin b hb) e

/-- Converting the name `q`. -/
theorem convert_spec {upos : Nat → Option Str} {h : Heap} {d : Rels} {r q : Nat} (hi : Inv h) (hr : IsTree h r) (hq : q ∈ h.words r)
    (hu : upos q = some pPropn) :
    ∃ h' d' f, convert q (h, d) (nameWords upos h d q) = ((h', d'), none) ∧ Inv h' ∧ IsTree h' r ∧ h'.words = h.words ∧ h'.ord = h.ord ∧
      h'.root = h.root ∧ Flat upos r q h d h' d' f := by
  have w := hi r hr
  have hm := fun n => mem_nameWords (d := d) w hq hu n
  have hs := nameWords_sorted (upos := upos) (d := d) w hq
  cases hnw : nameWords upos h d q with
  | nil =>
    have := (hm q).2 ⟨hq, .inl rfl⟩
    rw [hnw] at this
    cases this
  | cons f rest =>
    rw [hnw] at hs hm
    have hnd := pairwise_ord_nodup hs
    rw [List.pairwise_cons] at hs
    rw [List.nodup_cons] at hnd
    have hf := (hm f).1 (List.mem_cons_self ..)
    have hrest : ∀ n, n ∈ rest ↔ NameWord upos h d r q n ∧ n ≠ f := by
      intro n
      constructor
      · intro hn
        exact ⟨(hm n).1 (List.mem_cons_of_mem _ hn), fun e => hnd.1 (e ▸ hn)⟩
      · rintro ⟨h1, h2⟩
        rcases List.mem_cons.1 ((hm n).2 h1) with e | e
        · exact absurd e h2
        · exact e
    have finish : ∀ (h' : Heap) (d' : Rels), (∀ z, h'.parent z = if z ∈ rest then some f else if z = f then h.parent q else h.parent z) →
        (∀ z, d' z = if z ∈ rest then some rFlat else if z = f then d q else d z) → Flat upos r q h d h' d' f := by
      intro h' d' hp hd
      refine ⟨hf, fun n hn hne => hs.1 n ((hrest n).2 ⟨hn, hne⟩), ?_, ?_, ?_⟩
      · rw [hp, hd, if_neg hnd.1, if_neg hnd.1, if_pos rfl, if_pos rfl]
        exact ⟨rfl, rfl⟩
      · intro n hn hne
        rw [hp, hd, if_pos ((hrest n).2 ⟨hn, hne⟩), if_pos ((hrest n).2 ⟨hn, hne⟩)]
        exact ⟨rfl, rfl⟩
      · intro y hy
        have h1 : y ∉ rest := fun e => hy ((hrest y).1 e).1
        have h2 : y ≠ f := fun e => hy (e ▸ hf)
        rw [hp, hd, if_neg h1, if_neg h1, if_neg h2, if_neg h2]
        exact ⟨rfl, rfl⟩
    simp only [convert]
    by_cases hfq : f = q
    · rw [if_neg (show ¬ f ≠ q from fun e => e hfq)]
      obtain ⟨h1, d1, e1, i1, t1, w1, o1, r1, p1, q1⟩ := flat_list (a := f) rest h d hi hr (.inr hf.1) hnd.2 (by
        intro c hc
        obtain ⟨c1, c2⟩ := (hrest c).1 hc
        refine ⟨c1.1, c2, fun ha => ?_⟩
        rcases c1.2 with e | e
        · exact c2 (e.trans hfq.symm)
        · rw [hfq] at ha
          exact w.anc_irrefl (.inr hq) ((Anc.parent e.1).trans ha))
      refine ⟨h1, d1, f, e1, i1, t1, w1, o1, r1, finish _ _ ?_ ?_⟩
      · intro z
        rw [p1]
        by_cases hz : z = f
        · rw [hz, hfq, if_pos rfl]
        · rw [if_neg hz]
      · intro z
        rw [q1]
        by_cases hz : z = f
        · rw [hz, hfq, if_pos rfl]
        · rw [if_neg hz]
    · rw [if_pos (show f ≠ q from hfq)]
      have hpf : h.parent f = some q := (hf.2.resolve_left hfq).1
      obtain ⟨g, hg, hgin⟩ := w.parentIn q hq
      have hgq : g ≠ q := fun e => w.anc_irrefl (.inr hq) (.parent (e ▸ hg))
      have hgf : g ≠ f := fun e => w.anc_irrefl (.inr hq) (.step hg (.parent (e ▸ hpf)))
      have hfg : ¬ Anc h f g := fun e => w.anc_irrefl (.inr hf.1) (.step hpf (.step hg e))
      obtain ⟨h1, e1, i1, t1, w1, r1, o1, p1⟩ := attach_one hi hr hf.1 hgin hgf hfg
      -- the ancestors of `g` do not change
      have hg1 : ∀ a b, Anc h1 a b → (b = g ∨ Anc h b g) → Anc h a b := by
        intro a b hab
        induction hab with
        | @parent b hb =>
          intro hbg
          have hbf : b ≠ f := by
            rintro rfl
            rcases hbg with e | e
            · exact hgf e.symm
            · exact hfg e
          rw [p1, upd_ne _ _ hbf] at hb
          exact .parent hb
        | @step b p hb _ ih =>
          intro hbg
          have hbf : b ≠ f := by
            rintro rfl
            rcases hbg with e | e
            · exact hgf e.symm
            · exact hfg e
          rw [p1, upd_ne _ _ hbf] at hb
          refine .step hb (ih (.inr ?_))
          rcases hbg with e | e
          · exact .parent (e ▸ hb)
          · exact (Anc.parent hb).trans e
      obtain ⟨h2, d2, e2, i2, t2, w2, o2, r2, p2, q2⟩ := flat_list (a := f) rest h1 (upd d f (d q)) i1 t1 (by rw [InTree, w1]; exact .inr hf.1) hnd.2 (by
        intro c hc
        obtain ⟨c1, c2⟩ := (hrest c).1 hc
        refine ⟨by rw [w1]; exact c1.1, c2, fun ha => ?_⟩
        obtain ⟨p, hp, hpc⟩ := anc_iff.1 ha
        rw [p1, upd_same] at hp
        obtain rfl := Option.some.inj hp
        have hcg : c = g ∨ Anc h c g := hpc.imp Eq.symm (fun e => hg1 _ _ e (.inl rfl))
        rcases c1.2 with e | e
        · rw [e] at hcg
          rcases hcg with e' | e'
          · exact hgq e'.symm
          · exact w.anc_irrefl (.inr hq) (.step hg e')
        · rcases hcg with e' | e'
          · rw [e'] at e
            exact w.anc_irrefl (.inr hq) (.step hg (.parent e.1))
          · exact w.anc_irrefl (.inr hq) (.step hg ((Anc.parent e.1).trans e')))
      refine ⟨h2, d2, f, ?_, i2, t2, by rw [w2, w1], by rw [o2, o1], by rw [r2, r1], finish _ _ ?_ ?_⟩
      · show (match setParent h f (h.parent q) with
          | (h, some e) => ((h, d), some e)
          | (h, none) => forNodes (flatStep f) (h, upd d f (d q)) rest) = _
        rw [hg, e1]
        exact e2
      · intro z
        rw [p2, p1, hg]
        rfl
      · intro z
        rw [q2]
        rfl

/-- A call changes nothing, or it converts one name that contains digits. -/
theorem nameStep_spec {upos : Nat → Option Str} {dig : Nat → Bool} {h : Heap} {d : Rels} {r x : Nat} (hi : Inv h) (hr : IsTree h r)
    (hur : upos r ≠ some pPropn) (hx : x ∈ h.words r) :
    (nameStep upos dig (h, d) x = ((h, d), none) ∧
      ∀ q, Compound upos h d x q → ∀ n, NameWord upos h d r q n → dig n = false) ∨
    ∃ h' d' q f, nameStep upos dig (h, d) x = ((h', d'), none) ∧ Inv h' ∧ IsTree h' r ∧ h'.words = h.words ∧ h'.ord = h.ord ∧
      h'.root = h.root ∧ q ∈ h.words r ∧ Compound upos h d x q ∧ (∃ n, NameWord upos h d r q n ∧ dig n = true) ∧ Flat upos r q h d h' d' f := by
  have w := hi r hr
  unfold nameStep
  obtain ⟨q, hq, hqin⟩ := w.parentIn x hx
  by_cases hc : upos x = some pPropn ∧ getU (d x) = some rCompound
  · rw [if_pos hc]
    simp only [hq]
    by_cases huq : upos q = some pPropn
    · rw [if_pos huq]
      have hqw : q ∈ h.words r := hqin.resolve_left (fun e => hur (e ▸ huq))
      have hm := fun n => mem_nameWords (d := d) w hqw huq n
      by_cases hd : (nameWords upos h d q).any dig = true
      · rw [if_pos hd]
        obtain ⟨h', d', f, h1, h2, h3, h4, h5, h6, h7⟩ := convert_spec (d := d) hi hr hqw huq
        obtain ⟨n, hn1, hn2⟩ := List.any_eq_true.1 hd
        exact .inr ⟨h', d', q, f, h1, h2, h3, h4, h5, h6, hqw, ⟨hq, hc.1, huq, hc.2⟩, ⟨n, (hm n).1 hn1, hn2⟩, h7⟩
      · rw [if_neg hd]
        refine .inl ⟨rfl, fun q' hq' n hn => ?_⟩
        rw [hq'.1] at hq
        obtain rfl := Option.some.inj hq
        exact Bool.eq_false_iff.2 (fun e => hd (List.any_eq_true.2 ⟨n, (hm n).2 hn, e⟩))
    · rw [if_neg huq]
      refine .inl ⟨rfl, fun q' hq' => ?_⟩
      rw [hq'.1] at hq
      obtain rfl := Option.some.inj hq
      exact absurd hq'.2.2.1 huq
  · rw [if_neg hc]
    exact .inl ⟨rfl, fun q' hq' => absurd ⟨hq'.2.1, hq'.2.2.2⟩ hc⟩

/-- The whole block, for an invariant `P` of the conversions. -/
theorem names_run {upos : Nat → Option Str} {dig : Nat → Bool} {h : Heap} {r : Nat} (hi : Inv h) (hr : IsTree h r) (d : Rels)
    (hur : upos r ≠ some pPropn) (P : Heap → Rels → Prop) (h0 : P h d) (l : List Nat) (hl : ∀ x ∈ l, x ∈ h.words r)
    (hP : ∀ x ∈ l, ∀ k c k' c' q f, k.words = h.words → P k c → q ∈ h.words r → Compound upos k c x q →
      (∃ n, NameWord upos k c r q n ∧ dig n = true) → Flat upos r q k c k' c' f → P k' c') :
    ∃ h' d', forNodes (nameStep upos dig) (h, d) l = ((h', d'), none) ∧ Inv h' ∧ IsTree h' r ∧ h'.words = h.words ∧
      h'.ord = h.ord ∧ h'.root = h.root ∧ P h' d' := by
  obtain ⟨⟨h', d'⟩, e, i', t', w', o', r', p'⟩ := forNodes_inv (nameStep upos dig)
    (fun _ (s : Heap × Rels) => Inv s.1 ∧ IsTree s.1 r ∧ s.1.words = h.words ∧ s.1.ord = h.ord ∧ s.1.root = h.root ∧ P s.1 s.2) l
    (by
      rintro done x rest ⟨k, c⟩ hl' ⟨i1, t1, w1, o1, r1, p1⟩
      have hxl : x ∈ l := by rw [hl']; simp
      rcases nameStep_spec (dig := dig) (d := c) i1 t1 hur (by rw [w1]; exact hl x hxl) with ⟨e, _⟩ | ⟨k', c', q, f, e, i2, t2, w2, o2, r2, hq, hc, hd, hf⟩
      · exact ⟨(k, c), e, i1, t1, w1, o1, r1, p1⟩
      · refine ⟨(k', c'), e, i2, t2, ?_, ?_, ?_, hP x hxl k c k' c' q f w1 p1 (by rw [← w1]; exact hq) hc hd hf⟩
        · exact w2.trans w1
        · exact o2.trans o1
        · exact r2.trans r1)
    (h, d) ⟨hi, hr, rfl, rfl, rfl, h0⟩
  exact ⟨h', d', e, i', t', w', o', r', p'⟩

section Props
variable {upos : Nat → Option Str} {dig : Nat → Bool} {h : Heap} {d : Rels} {r : Nat}

/-- A name whose words contain a digit becomes flat at the call for any of its compound members. -/
theorem C135_name (hi : Inv h) (hr : IsTree h r) (hur : upos r ≠ some pPropn) {x q : Nat} (hx : x ∈ h.words r) (hc : Compound upos h d x q)
    (hdig : ∃ n, NameWord upos h d r q n ∧ dig n = true) :
    ∃ h' d' f, nameStep upos dig (h, d) x = ((h', d'), none) ∧ Inv h' ∧ h'.words = h.words ∧ h'.ord = h.ord ∧ Flat upos r q h d h' d' f := by
  rcases nameStep_spec (dig := dig) (d := d) hi hr hur hx with ⟨_, hno⟩ | ⟨h', d', q', f, e, i, _, w, o, _, _, hc', _, hf⟩
  · obtain ⟨n, hn, hd⟩ := hdig
    rw [hno q hc n hn] at hd
    cases hd
  · have := hc.1
    rw [hc'.1] at this
    obtain rfl := Option.some.inj this
    exact ⟨h', d', f, e, i, w, o, hf⟩

/-- The block accepts every tree and leaves a well-formed tree with the same words in the same order. Words that are not proper nouns keep
their parents and relations. -/
theorem C135_tree (hi : Inv h) (hr : IsTree h r) (hur : upos r ≠ some pPropn) :
    ∃ h' d', fixNames upos dig h d r = ((h', d'), none) ∧ Inv h' ∧ IsTree h' r ∧ h'.words = h.words ∧ h'.ord = h.ord ∧
      ∀ y, upos y ≠ some pPropn → h'.parent y = h.parent y ∧ d' y = d y := by
  obtain ⟨h', d', e, i, t, w, o, _, p⟩ := names_run (dig := dig) hi hr d hur
    (fun k c => ∀ y, upos y ≠ some pPropn → k.parent y = h.parent y ∧ c y = d y) (fun _ _ => ⟨rfl, rfl⟩) (h.words r) (fun _ hx => hx) (by
      intro x _ k c k' c' q f _ hk _ hc _ hf y hy
      obtain ⟨h1, h2⟩ := hf.frame y (by
        rintro ⟨_, e | e⟩
        · exact hy (e ▸ hc.2.2.1)
        · exact hy e.2.1)
      rw [h1, h2]
      exact hk y hy)
  exact ⟨h', d', e, i, t, w, o, p⟩

/-- Contrary to the documentation of the block, a tree without digits in proper nouns is never changed, although it may have compounds of
proper nouns. -/
theorem C135_plain_violated (hi : Inv h) (hr : IsTree h r) (hur : upos r ≠ some pPropn)
    (hdig : ∀ x ∈ h.words r, upos x = some pPropn → dig x = false) : fixNames upos dig h d r = ((h, d), none) := by
  have key : ∀ l : List Nat, (∀ x ∈ l, x ∈ h.words r) → forNodes (nameStep upos dig) (h, d) l = ((h, d), none) := by
    intro l
    induction l with
    | nil => intro _; rfl
    | cons x l ih =>
      intro hl
      unfold forNodes
      rcases nameStep_spec (dig := dig) (d := d) hi hr hur (hl x (List.mem_cons_self ..)) with ⟨e, _⟩ |
        ⟨_, _, q, _, _, _, _, _, _, _, _, hc, ⟨n, hn, hd⟩, _⟩
      · rw [e]
        exact ih (fun y hy => hl y (List.mem_cons_of_mem _ hy))
      · have : upos n = some pPropn := by
          rcases hn.2 with e | e
          · exact e ▸ hc.2.2.1
          · exact e.2.1
        rw [hdig n hn.1 this] at hd
        cases hd
  exact key _ (fun _ hx => hx)

/-- The relation flat:name does not go away. -/
theorem flat_stays {k k' : Heap} {c c' : Rels} {q f y : Nat} (hf : Flat upos r q k c k' c' f) (hy : c y = some rFlat) : c' y = some rFlat := by
  by_cases hn : NameWord upos k c r q y
  · by_cases hyf : y = f
    · subst hyf
      rcases hn.2 with e | e
      · rw [hf.place.2, ← e, hy]
      · rw [hy] at e
        exact absurd e.2.2 (by decide)
    · exact (hf.others y hn hyf).2
  · rw [(hf.frame y hn).2, hy]

/-- Names with digits, which should be skipped, are converted: after the block the tree has a word with flat:name. -/
theorem C135_digits_violated (hi : Inv h) (hr : IsTree h r) (hur : upos r ≠ some pPropn) {x q : Nat} (hx : x ∈ h.words r)
    (hc : Compound upos h d x q) (hdig : ∃ n, NameWord upos h d r q n ∧ dig n = true) :
    ∃ h' d', fixNames upos dig h d r = ((h', d'), none) ∧ ∃ y ∈ h.words r, d' y = some rFlat := by
  have key : ∀ l : List Nat, (∀ y ∈ l, y ∈ h.words r) → x ∈ l → ∃ h' d', forNodes (nameStep upos dig) (h, d) l = ((h', d'), none) ∧
      ∃ y ∈ h.words r, d' y = some rFlat := by
    intro l
    induction l with
    | nil => intro _ hxl; cases hxl
    | cons z l ih =>
      intro hl hxl
      have hl' : ∀ y ∈ l, y ∈ h.words r := fun y hy => hl y (List.mem_cons_of_mem _ hy)
      unfold forNodes
      rcases nameStep_spec (dig := dig) (d := d) hi hr hur (hl z (List.mem_cons_self ..)) with ⟨e, hno⟩ |
        ⟨h1, d1, q', f, e, i1, t1, w1, _, _, _, hc', _, hf⟩
      · rw [e]
        rcases List.mem_cons.1 hxl with hxz | hxl
        · obtain ⟨n, hn, hd⟩ := hdig
          rw [hno q (hxz ▸ hc) n hn] at hd
          cases hd
        · exact ih hl' hxl
      · rw [e]
        have hzw : z ∈ h.words r := hl z (List.mem_cons_self ..)
        have hz : NameWord upos h d r q' z := ⟨hzw, .inr ⟨hc'.1, hc'.2.1, hc'.2.2.2⟩⟩
        have hq' : NameWord upos h d r q' q' :=
          ⟨((hi r hr).parent_in hzw hc'.1).resolve_left (fun e => hur (e ▸ hc'.2.2.1)), .inl rfl⟩
        have hzq : z ≠ q' := fun e => (hi r hr).anc_irrefl (.inr hzw) (.parent (by rw [hc'.1, ← e]))
        have hex : ∃ y ∈ h.words r, d1 y = some rFlat := by
          by_cases hzf : z = f
          · exact ⟨q', hq'.1, (hf.others q' hq' (fun e => hzq (hzf.trans e.symm))).2⟩
          · exact ⟨z, hzw, (hf.others z hz hzf).2⟩
        obtain ⟨h2, d2, e2, _, _, _, _, _, p2⟩ := names_run (dig := dig) i1 t1 d1 hur (fun _ c => ∃ y ∈ h.words r, c y = some rFlat) hex l
          (fun y hy => by rw [w1]; exact hl' y hy) (by
            intro _ _ k c k' c' q f _ ⟨y, hy, hyc⟩ _ _ _ hf
            exact ⟨y, hy, flat_stays hf hyc⟩)
        exact ⟨h2, d2, e2, p2⟩
  exact key _ (fun _ hy => hy) hx

end Props

/-- A verb (1) and a name of three words with its head at the end (2, 3, 4). -/
def exHeap : Heap where
  parent := fun x => if x = 1 then some 0 else if x = 2 ∨ x = 3 then some 4 else if x = 4 then some 1 else none
  children := fun x => if x = 0 then [1] else if x = 1 then [4] else if x = 4 then [2, 3] else []
  ord := fun x => x
  root := fun _ => 0
  words := fun x => if x = 0 then [1, 2, 3, 4] else []
  next := 5

example :
    let upos : Nat → Option Str := fun x => if 2 ≤ x then some pPropn else none
    let d : Rels := fun x => if x = 2 ∨ x = 3 then some rCompound else if x = 4 then some ['o', 'b', 'j'] else none
    let s := (fixNames upos (fun x => x = 3) exHeap d 0).1
    s.1.parent 2 = some 1 ∧ s.1.parent 3 = some 2 ∧ s.1.parent 4 = some 2 ∧ s.2 2 = some ['o', 'b', 'j'] ∧ s.2 3 = some rFlat ∧
      s.2 4 = some rFlat := by decide +kernel

end Verif.Blocks.Names
