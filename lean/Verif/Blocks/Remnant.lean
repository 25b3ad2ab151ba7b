import Verif.Blocks.HeadFinal
import Verif.Deps.SingleParent

/-!
# Property C148: `fix_remnants_in_tree` of ud.Convert1to2 (udapi/block/ud/convert1to2.py)

MISC (`orig_deprel`, `ToDo`) and enhanced dependencies are left out.
-/

namespace Verif.Blocks.Remnant
open Verif.Py Verif.Tree Verif.Blocks Verif.Blocks.HeadFinal

def rRemnant : Str := ['r', 'e', 'm', 'n', 'a', 'n', 't']
def rConj : Str := ['c', 'o', 'n', 'j']
def rOrphan : Str := ['o', 'r', 'p', 'h', 'a', 'n']

/-- `HEAD_PROMOTION` (convert1to2.py:276-277) -/
def promotion : List (Str × Nat) :=
  [(['n', 's', 'u', 'b', 'j'], 9), (['o', 'b', 'j'], 8), (['i', 'o', 'b', 'j'], 7), (['o', 'b', 'l'], 6), (['a', 'd', 'v', 'm', 'o', 'd'], 5),
    (['c', 's', 'u', 'b', 'j'], 4), (['x', 'c', 'o', 'm', 'p'], 3), (['c', 'c', 'o', 'm', 'p'], 2), (['a', 'd', 'v', 'c', 'l'], 1)]

/-- `self.HEAD_PROMOTION.get(n.parent.deprel, 0)` -/
def prio (h : Heap) (d : Rels) (n : Nat) : Nat :=
  match (h.parent n).bind d with
  | none => 0
  | some x => (promotion.lookup x).getD 0

/-- `remnant.deprel = 'orphan'` for all nodes of the list -/
def orphans (d : Rels) (l : List Nat) : Rels := l.foldl (fun d x => upd d x (some rOrphan)) d

/-- `_recursive_fix_remnants(remnants, _, first_conjunct)` (convert1to2.py:312-336). The relations of the orphans are set after all moves. -/
def fixRec (t : Nat) : Nat → Heap × Rels → List Nat → (Heap × Rels) × Option Err
  | 0, s, _ => (s, some .diverges)
  | fuel + 1, s, l =>
    let chained := l.flatMap (fun x => (s.1.children x).filter (fun z => s.2 z = some rRemnant))
    match l.getLast? with
    | none => (s, some .indexError)
    | some promoted =>
      match setParent s.1 promoted (some t) with
      | (h1, some e) => ((h1, s.2), some e)
      | (h1, none) =>
        match attachTo promoted h1 l.dropLast with
        | (h2, some e) => ((h2, upd s.2 promoted (some rConj)), some e)
        | (h2, none) =>
          let s' := (h2, orphans (upd s.2 promoted (some rConj)) l.dropLast)
          if chained = [] then (s', none) else fixRec t fuel s' chained

/-- `top_remnants` after sorting (convert1to2.py:307-308) -/
def tops (h : Heap) (d : Rels) (remnants : List Nat) : List Nat :=
  pySort (fun a b => decide (prio h d a ≤ prio h d b)) (remnants.filter (fun n => (h.parent n).bind d ≠ some rRemnant))

/-- `fix_remnants_in_tree(root)` (convert1to2.py:279-310) -/
def fixRemnants (h : Heap) (d : Rels) (r : Nat) : (Heap × Rels) × Option Err :=
  match (h.words r).filter (fun n => d n = some rRemnant) with
  | [] => ((h, d), none)
  | x :: rest =>
    match grandparent h x with
    | none => ((h, d), some .attributeError)
    | some g =>
      match treelet h (g :: x :: rest) with
      | none => ((h, d), some .attributeError)
      | some (t, _) => if t = r then ((h, d), none) else fixRec t (h.words r).length (h, d) (tops h d (x :: rest))

/-! ## Proofs -/

section Lemmas
variable {h : Heap} {d : Rels} {r t : Nat}

theorem orphans_eq (d : Rels) (l : List Nat) (x : Nat) : orphans d l x = if x ∈ l then some rOrphan else d x := by
  unfold orphans
  induction l generalizing d with
  | nil => simp
  | cons a l ih =>
    rw [List.foldl_cons, ih]
    by_cases hx : x ∈ l
    · simp [hx]
    · by_cases hxa : x = a
      · subst hxa
        simp [hx, upd_same]
      · simp [hx, hxa, upd_ne _ _ hxa]

/-- The state when the remnants `l` are to be treated next. -/
structure Mid (h : Heap) (d : Rels) (r t : Nat) (s : Heap × Rels) : Prop where
  inv : Inv s.1
  tree : IsTree s.1 r
  words : s.1.words = h.words
  ord : s.1.ord = h.ord
  top : ∀ x ∈ h.words r, d x = some rRemnant → ¬ Anc s.1 x t
  other : ∀ x ∈ h.words r, d x ≠ some rRemnant → s.1.parent x = h.parent x ∧ s.2 x = d x
  pending : ∀ x ∈ h.words r, s.2 x = some rRemnant → s.1.parent x = h.parent x ∧ d x = some rRemnant
  treated : ∀ x ∈ h.words r, d x = some rRemnant → s.2 x ≠ some rRemnant →
    (s.2 x = some rConj ∧ s.1.parent x = some t) ∨
      (s.2 x = some rOrphan ∧ ∃ y ∈ h.words r, d y = some rRemnant ∧ s.2 y = some rConj ∧ s.1.parent x = some y)

theorem rec_ok (w : WF h r) (ht : InTree h r t) (htr : d t ≠ some rRemnant) :
    ∀ (fuel : Nat) (s : Heap × Rels) (l : List Nat), Mid h d r t s → l ≠ [] → l.Nodup → (∀ x ∈ l, x ∈ h.words r ∧ s.2 x = some rRemnant) →
      (∀ x ∈ l, ∀ p ∈ h.words r, h.parent x = some p → s.2 p ≠ some rRemnant) →
      (∀ x ∈ h.words r, s.2 x = some rRemnant → x ∉ l → ∃ p ∈ h.words r, h.parent x = some p ∧ s.2 p = some rRemnant) →
      ((h.words r).filter (fun x => s.2 x = some rRemnant)).length ≤ fuel →
      ∃ s', fixRec t fuel s l = (s', none) ∧ Mid h d r t s' ∧ (∀ x ∈ h.words r, s'.2 x ≠ some rRemnant) ∧
        (∀ x ∈ l.getLast?, s'.2 x = some rConj) ∧ (∀ x ∈ l.dropLast, s'.2 x = some rOrphan ∧ s'.1.parent x = l.getLast?) ∧
        ∀ x, s.2 x ≠ some rRemnant → s'.2 x = s.2 x ∧ (x ∈ h.words r → s'.1.parent x = s.1.parent x)
  | 0, s, l, _, hne, _, hl, _, _, hf => by
    obtain ⟨x, hx⟩ := List.exists_mem_of_ne_nil l hne
    have : x ∈ (h.words r).filter (fun x => s.2 x = some rRemnant) := List.mem_filter.2 ⟨(hl x hx).1, by simpa using (hl x hx).2⟩
    have := List.length_pos_of_mem this
    omega
  | fuel + 1, (s, ds), l, m, hne, hnd, hl, hlp, hrest, hf => by
    have ws := m.inv r m.tree
    have hw : s.words = h.words := m.words
    have hrc : rConj ≠ rRemnant := by decide
    have hro : rOrphan ≠ rRemnant := by decide
    obtain ⟨x, hx⟩ : ∃ x, l.getLast? = some x := by
      cases hc : l.getLast? with
      | none => exact absurd (List.getLast?_eq_none_iff.1 hc) hne
      | some x => exact ⟨x, rfl⟩
    have hle : l = l.dropLast ++ [x] := by
      obtain ⟨l', rfl⟩ := List.getLast?_eq_some_iff.1 hx
      simp
    have hxl : x ∈ l := by rw [hle]; simp
    have hdl : ∀ y ∈ l.dropLast, y ∈ l := fun y hy => by rw [hle]; exact List.mem_append_left _ hy
    have hml : ∀ y ∈ l, y = x ∨ y ∈ l.dropLast := by
      intro y hy
      rw [hle] at hy
      rcases List.mem_append.1 hy with k | k
      · exact .inr k
      · exact .inl (List.mem_singleton.1 k)
    have hxn : x ∉ l.dropLast := by
      intro k
      rw [hle] at hnd
      exact (List.nodup_append.1 hnd).2.2 x k x (by simp) rfl
    have hd : ∀ y ∈ l, d y = some rRemnant := fun y hy => (m.pending y (hl y hy).1 (hl y hy).2).2
    have hxt : t ≠ x := fun e => htr (e ▸ hd x hxl)
    obtain ⟨h1, e1, i1, t1, w1, -, o1, p1⟩ := attach_one m.inv m.tree (show x ∈ s.words r by rw [hw]; exact (hl x hxl).1)
      (show InTree s r t by unfold InTree; rw [hw]; exact ht) hxt (m.top x (hl x hxl).1 (hd x hxl))
    have hanc1 : ∀ b, Anc h1 b t ↔ Anc s b t := fun b => anc_upd p1 (m.top x (hl x hxl).1 (hd x hxl)) hxt.symm b
    obtain ⟨h2, e2, i2, t2, w2, o2, p2⟩ := attachTo_ok i1 t1 (f := x) (by rw [w1, hw]; exact (hl x hxl).1) l.dropLast (by
      intro a ha
      refine ⟨by rw [w1, hw]; exact (hl a (hdl a ha)).1, fun e => hxn (e ▸ ha), fun k => ?_⟩
      rcases anc_iff.1 k with ⟨t', ht', e'⟩
      rw [p1, upd_same] at ht'
      obtain rfl := Option.some.inj ht'
      rcases e' with rfl | e'
      · exact htr (hd _ (hdl _ ha))
      · exact m.top a (hl a (hdl a ha)).1 (hd a (hdl a ha)) ((hanc1 a).1 e'))
    -- the new state
    have hds : ∀ z, (orphans (upd ds x (some rConj)) l.dropLast) z = if z = x then some rConj else if z ∈ l.dropLast then some rOrphan else ds z := by
      intro z
      rw [orphans_eq]
      by_cases hz : z = x
      · subst hz
        rw [if_neg hxn, if_pos rfl, upd_same]
      · rw [if_neg hz, upd_ne _ _ hz]
    have hpar : ∀ z, h2.parent z = if z = x then some t else if z ∈ l.dropLast then some x else s.parent z := by
      intro z
      rw [p2]
      by_cases hz : z = x
      · subst hz
        rw [if_neg hxn, if_pos rfl, p1, upd_same]
      · rw [if_neg hz, p1, upd_ne _ _ hz]
    have hout : ∀ z, z ∉ l → h2.parent z = s.parent z ∧ (orphans (upd ds x (some rConj)) l.dropLast) z = ds z := by
      intro z hz
      have h1 : z ≠ x := fun e => hz (e ▸ hxl)
      have h2 : z ∉ l.dropLast := fun k => hz (hdl z k)
      rw [hpar, hds, if_neg h1, if_neg h1, if_neg h2, if_neg h2]
      exact ⟨rfl, rfl⟩
    have hgone : ∀ z ∈ l, (orphans (upd ds x (some rConj)) l.dropLast) z ≠ some rRemnant := by
      intro z hz
      rw [hds]
      rcases hml z hz with rfl | k
      · rw [if_pos rfl]
        exact fun k => hrc (Option.some.inj k)
      · rw [if_neg (fun e : z = x => hxn (e ▸ k)), if_pos k]
        exact fun k => hro (Option.some.inj k)
    have hpend : ∀ z, (orphans (upd ds x (some rConj)) l.dropLast) z = some rRemnant ↔ ds z = some rRemnant ∧ z ∉ l := by
      intro z
      by_cases hz : z ∈ l
      · exact ⟨fun k => absurd k (hgone z hz), fun k => absurd hz k.2⟩
      · rw [(hout z hz).2]
        exact ⟨fun k => ⟨k, hz⟩, fun k => k.1⟩
    have hancT : ∀ b, Anc h2 b t ↔ Anc s b t := by
      intro b
      rw [← hanc1]
      -- the ancestors of `t` are not moved
      have hnot : ∀ a ∈ l.dropLast, a ≠ t ∧ ¬ Anc h1 a t := by
        intro a ha
        refine ⟨fun e => htr (e ▸ hd a (hdl a ha)), fun k => m.top a (hl a (hdl a ha)).1 (hd a (hdl a ha)) ((hanc1 a).1 k)⟩
      constructor
      · intro k
        have : ∀ c b, Anc h2 b c → (∀ a ∈ l.dropLast, a ≠ c ∧ ¬ Anc h1 a c) → Anc h1 b c := by
          intro c b k
          induction k with
          | @parent c e =>
            intro hn
            rw [p2, if_neg (fun k => (hn c k).1 rfl)] at e
            exact .parent e
          | @step c q e _ ih =>
            intro hn
            rw [p2, if_neg (fun k => (hn c k).1 rfl)] at e
            exact .step e (ih (fun a ha => ⟨fun k => (hn a ha).2 (.parent (k ▸ e)), fun k => (hn a ha).2 (.step e k)⟩))
        exact this t b k hnot
      · intro k
        have : ∀ c b, Anc h1 b c → (∀ a ∈ l.dropLast, a ≠ c ∧ ¬ Anc h1 a c) → Anc h2 b c := by
          intro c b k
          induction k with
          | @parent c e =>
            intro hn
            exact .parent (by rw [p2, if_neg (fun k => (hn c k).1 rfl), e])
          | @step c q e _ ih =>
            intro hn
            refine .step (by rw [p2, if_neg (fun k => (hn c k).1 rfl), e]) (ih (fun a ha => ⟨fun k => (hn a ha).2 (.parent (k ▸ e)), fun k => (hn a ha).2 (.step e k)⟩))
        exact this t b k hnot
    have m' : Mid h d r t (h2, orphans (upd ds x (some rConj)) l.dropLast) := by
      refine ⟨i2, t2, by rw [w2, w1]; exact hw, by rw [o2, o1]; exact m.ord, ?_, ?_, ?_, ?_⟩
      · intro y hy hdy k
        exact m.top y hy hdy ((hancT y).1 k)
      · intro y hy hdy
        have hyl : y ∉ l := fun k => hdy (hd y k)
        obtain ⟨k1, k2⟩ := m.other y hy hdy
        obtain ⟨k3, k4⟩ := hout y hyl
        exact ⟨k3.trans k1, k4.trans k2⟩
      · intro y hy hdy
        obtain ⟨k1, k2⟩ := (hpend y).1 hdy
        obtain ⟨k3, k4⟩ := m.pending y hy k1
        exact ⟨(hout y k2).1.trans k3, k4⟩
      · intro y hy hdy hne'
        by_cases hyl : y ∈ l
        · simp only
          rcases hml y hyl with rfl | k
          · exact .inl ⟨by rw [hds, if_pos rfl], by rw [hpar, if_pos rfl]⟩
          · have hyx : y ≠ x := fun e => hxn (e ▸ k)
            refine .inr ⟨by rw [hds, if_neg hyx, if_pos k], x, (hl x hxl).1, hd x hxl, by rw [hds, if_pos rfl], by rw [hpar, if_neg hyx, if_pos k]⟩
        · obtain ⟨k3, k4⟩ := hout y hyl
          simp only at hne' ⊢
          rw [k4] at hne'
          rw [k3, k4]
          rcases m.treated y hy hdy hne' with k | ⟨k1, z, k2, k3, k4, k5⟩
          · exact .inl k
          · refine .inr ⟨k1, z, k2, k3, ?_, k5⟩
            have hzl : z ∉ l := by
              intro hz
              have := (hl z hz).2
              rw [k4] at this
              exact hrc (Option.some.inj this)
            rw [(hout z hzl).2]
            exact k4
    have hlast : ∀ y ∈ l.getLast?, (orphans (upd ds x (some rConj)) l.dropLast) y = some rConj := by
      intro y hy
      rw [hx] at hy
      obtain rfl := Option.some.inj hy
      rw [hds, if_pos rfl]
    have hinit : ∀ y ∈ l.dropLast, (orphans (upd ds x (some rConj)) l.dropLast) y = some rOrphan ∧ h2.parent y = l.getLast? := by
      intro y hy
      have hyx : y ≠ x := fun e => hxn (e ▸ hy)
      rw [hds, hpar, if_neg hyx, if_pos hy, if_neg hyx, if_pos hy, hx]
      exact ⟨rfl, rfl⟩
    have hch : ∀ z, z ∈ l.flatMap (fun x => (s.children x).filter (fun z => ds z = some rRemnant)) ↔
        z ∈ h.words r ∧ ds z = some rRemnant ∧ ∃ y ∈ l, h.parent z = some y := by
      intro z
      rw [List.mem_flatMap]
      constructor
      · rintro ⟨y, hy, hz⟩
        rw [List.mem_filter, ws.childIff y (.inr (by rw [hw]; exact (hl y hy).1)), hw] at hz
        obtain ⟨⟨k1, k2⟩, k3⟩ := hz
        have k3 : ds z = some rRemnant := by simpa using k3
        exact ⟨k1, k3, y, hy, by rw [← (m.pending z k1 k3).1]; exact k2⟩
      · rintro ⟨k1, k2, y, hy, k3⟩
        refine ⟨y, hy, ?_⟩
        rw [List.mem_filter, ws.childIff y (.inr (by rw [hw]; exact (hl y hy).1)), hw]
        exact ⟨⟨k1, by rw [(m.pending z k1 k2).1]; exact k3⟩, by simpa using k2⟩
    have hchl : ∀ z ∈ l.flatMap (fun x => (s.children x).filter (fun z => ds z = some rRemnant)), z ∉ l := by
      intro z hz hzl
      obtain ⟨k1, k2, y, hy, k3⟩ := (hch z).1 hz
      exact hlp z hzl y (hl y hy).1 k3 (hl y hy).2
    have heq : fixRec t (fuel + 1) (s, ds) l = if l.flatMap (fun x => (s.children x).filter (fun z => ds z = some rRemnant)) = [] then
        ((h2, orphans (upd ds x (some rConj)) l.dropLast), none)
        else fixRec t fuel (h2, orphans (upd ds x (some rConj)) l.dropLast) (l.flatMap (fun x => (s.children x).filter (fun z => ds z = some rRemnant))) := by
      simp only [fixRec, hx, e1, e2]
    rw [heq]
    split
    · rename_i hnil
      refine ⟨_, rfl, m', ?_, hlast, hinit, fun y hy => ⟨(hout y (fun k => hy (hl y k).2)).2, fun _ => (hout y (fun k => hy (hl y k).2)).1⟩⟩
      -- nothing is left: an untreated remnant would have an untreated remnant as its parent
      have key : ∀ y, InTree h r y → y ∈ h.words r → ds y = some rRemnant → y ∉ l → False := by
        refine w.induct (fun y => y ∈ h.words r → ds y = some rRemnant → y ∉ l → False) ?_ ?_
        · exact fun k => absurd k w.root_not_mem
        · intro y p hy hp _ ih _ hdy hyl
          obtain ⟨p', hp', k1, k2⟩ := hrest y hy hdy hyl
          obtain rfl := Option.some.inj (hp.symm.trans k1)
          by_cases hpl : p ∈ l
          · have := (hch y).2 ⟨hy, hdy, p, hpl, hp⟩
            rw [hnil] at this
            cases this
          · exact ih hp' k2 hpl
      intro y hy k
      obtain ⟨k1, k2⟩ := (hpend y).1 k
      exact key y (.inr hy) hy k1 k2
    · rename_i hnn
      have hgo := rec_ok w ht htr fuel _ _ m' hnn ?_ ?_ ?_ ?_ ?_
      · obtain ⟨s', e', m'', k1, -, -, hkept⟩ := hgo
        refine ⟨s', e', m'', k1, fun y hy => (hkept y (by
            rw [hx] at hy
            obtain rfl := Option.some.inj hy
            exact hgone _ hxl)).1.trans (hlast y hy), fun y hy => ?_, fun y hy => ?_⟩
        · obtain ⟨k2, k3⟩ := hkept y (hgone y (hdl y hy))
          exact ⟨k2.trans (hinit y hy).1, (k3 (hl y (hdl y hy)).1).trans (hinit y hy).2⟩
        have hyl : y ∉ l := fun k => hy (hl y k).2
        have hy' : (orphans (upd ds x (some rConj)) l.dropLast) y ≠ some rRemnant := by rw [(hout y hyl).2]; exact hy
        exact ⟨(hkept y hy').1.trans (hout y hyl).2, fun hyw => ((hkept y hy').2 hyw).trans (hout y hyl).1⟩
      · rw [List.Nodup, List.pairwise_flatMap]
        refine ⟨fun y hy => ?_, hnd.imp_of_mem ?_⟩
        · exact (ws.childSorted y (.inr (by rw [hw]; exact (hl y hy).1))).filter _ |>.imp (fun k e => by subst e; omega)
        · intro a b ha hb hab u hu v hv e
          subst e
          have ka := ((ws.childIff a (.inr (by rw [hw]; exact (hl a ha).1)) _).1 (List.mem_filter.1 hu).1).2
          have kb := ((ws.childIff b (.inr (by rw [hw]; exact (hl b hb).1)) _).1 (List.mem_filter.1 hv).1).2
          exact hab (Option.some.inj (ka.symm.trans kb))
      · intro z hz
        obtain ⟨k1, k2, -⟩ := (hch z).1 hz
        exact ⟨k1, (hpend z).2 ⟨k2, hchl z hz⟩⟩
      · intro z hz p hp hzp
        obtain ⟨k1, k2, y, hy, k3⟩ := (hch z).1 hz
        obtain rfl := Option.some.inj (hzp.symm.trans k3)
        exact hgone p hy
      · intro z hz hdz hzc
        obtain ⟨k1, k2⟩ := (hpend z).1 hdz
        obtain ⟨p, hp, k3, k4⟩ := hrest z hz k1 k2
        refine ⟨p, hp, k3, (hpend p).2 ⟨k4, fun hpl => hzc ((hch z).2 ⟨hz, k1, p, hpl, k3⟩)⟩⟩
      · have hlt : ((h.words r).filter (fun y => (orphans (upd ds x (some rConj)) l.dropLast) y = some rRemnant)).length <
            ((h.words r).filter (fun y => ds y = some rRemnant)).length := by
          have hsub := Verif.Tree.length_le_of_nodup_subset
            (l := x :: (h.words r).filter (fun y => (orphans (upd ds x (some rConj)) l.dropLast) y = some rRemnant))
            (m := (h.words r).filter (fun y => ds y = some rRemnant)) (by
              rw [List.nodup_cons]
              refine ⟨fun k => ?_, w.nodup.filter _⟩
              have := (List.mem_filter.1 k).2
              exact hgone x hxl (by simpa using this)) (by
              intro y hy
              rcases List.mem_cons.1 hy with rfl | hy
              · exact List.mem_filter.2 ⟨(hl _ hxl).1, by simpa using (hl _ hxl).2⟩
              · obtain ⟨k1, k2⟩ := List.mem_filter.1 hy
                exact List.mem_filter.2 ⟨k1, by simpa using ((hpend y).1 (by simpa using k2)).1⟩)
          rw [List.length_cons] at hsub
          exact hsub
        simp only at hf ⊢
        omega

/-- The correlates of the remnants that are not below other remnants, from the most to the least important relation. -/
def ranking : List Str :=
  [['n', 's', 'u', 'b', 'j'], ['o', 'b', 'j'], ['i', 'o', 'b', 'j'], ['o', 'b', 'l'], ['a', 'd', 'v', 'm', 'o', 'd'], ['c', 's', 'u', 'b', 'j'],
    ['x', 'c', 'o', 'm', 'p'], ['c', 'c', 'o', 'm', 'p'], ['a', 'd', 'v', 'c', 'l']]

/-- A remnant whose parent is not a remnant. -/
def Top (h : Heap) (d : Rels) (r x : Nat) : Prop := x ∈ h.words r ∧ d x = some rRemnant ∧ (h.parent x).bind d ≠ some rRemnant

theorem lookup_ranking (x : Str) (m : Nat) (hm : promotion.lookup x = some m) : 1 ≤ m ∧ m ≤ 9 ∧ ranking[9 - m]? = some x := by
  unfold promotion at hm
  simp only [List.lookup] at hm
  repeat' split at hm
  all_goals first
    | (rename_i k
       have hx := eq_of_beq k
       obtain rfl := Option.some.inj hm
       subst hx
       decide)
    | cases hm

theorem ranking_lookup : ∀ k x, ranking[k]? = some x → k < 9 ∧ promotion.lookup x = some (9 - k) := by
  intro k x hk
  have : k < 9 := by
    have := (List.getElem?_eq_some_iff.1 hk).1
    exact this
  refine ⟨this, ?_⟩
  match k, this with
  | 0, _ | 1, _ | 2, _ | 3, _ | 4, _ | 5, _ | 6, _ | 7, _ | 8, _ =>
    obtain rfl := Option.some.inj hk
    decide

theorem prio_ranking {p q : Nat} (hle : prio h d q ≤ prio h d p) {k : Nat} {x : Str} (hk : ranking[k]? = some x) (hq : (h.parent q).bind d = some x) :
    ∃ j ≤ k, ranking[j]? = (h.parent p).bind d := by
  obtain ⟨k1, k2⟩ := ranking_lookup k x hk
  unfold prio at hle
  rw [hq] at hle
  simp only [k2, Option.getD_some] at hle
  cases hp : (h.parent p).bind d with
  | none =>
    rw [hp] at hle
    simp only at hle
    omega
  | some y =>
    rw [hp] at hle
    simp only at hle
    cases hy : promotion.lookup y with
    | none =>
      rw [hy] at hle
      simp only [Option.getD_none] at hle
      omega
    | some m =>
      rw [hy] at hle
      simp only [Option.getD_some] at hle
      obtain ⟨m1, m2, m3⟩ := lookup_ranking y m hy
      exact ⟨9 - m, by omega, m3⟩

theorem mem_tops {R : List Nat} (hR : (h.words r).filter (fun n => d n = some rRemnant) = R) (x : Nat) : x ∈ tops h d R ↔ Top h d r x := by
  subst hR
  unfold tops Top
  rw [mem_pySort, List.mem_filter, List.mem_filter]
  simp [and_assoc]

theorem tops_nodup (w : WF h r) {R : List Nat} (hR : (h.words r).filter (fun n => d n = some rRemnant) = R) : (tops h d R).Nodup := by
  subst hR
  exact (pySort_perm _ _).nodup_iff.2 ((w.nodup.filter _).filter _)

/-- The last node has the highest priority. -/
theorem tops_last {R : List Nat} {p : Nat} (hp : (tops h d R).getLast? = some p) : ∀ q ∈ tops h d R, prio h d q ≤ prio h d p := by
  obtain ⟨l', hl⟩ := List.getLast?_eq_some_iff.1 hp
  have hs : (tops h d R).Pairwise (fun a b => decide (prio h d a ≤ prio h d b) = true) :=
    pySort_pairwise (by intro a b c; simp; omega) (by intro a b; simp; omega) _
  rw [hl] at hs ⊢
  intro q hq
  rcases List.mem_append.1 hq with k | k
  · have := (List.pairwise_append.1 hs).2.2 q k p (by simp)
    simpa using this
  · obtain rfl := List.mem_singleton.1 k
    exact Nat.le_refl _

/-- Some remnant is not below another remnant. -/
theorem exists_top (w : WF h r) (hroot : d r ≠ some rRemnant) {x : Nat} (hx : x ∈ h.words r) (hd : d x = some rRemnant) : ∃ y, Top h d r y := by
  refine w.induct (fun x => d x = some rRemnant → ∃ y, Top h d r y) (fun k => absurd k hroot) ?_ x (.inr hx) hd
  intro y p hy hp _ ih hdy
  by_cases hdp : d p = some rRemnant
  · exact ih hdp
  · exact ⟨y, hy, hdy, by rw [hp]; exact hdp⟩

/-- A node that is not deeper than `x` is not below `x`. -/
theorem shallow (hh : Reachable h) (hr : IsTree h r) {I : List Nat} (hin : ∀ i ∈ I, InTree h r i) {added : List Nat} (ht : treelet h I = some (t, added)) :
    InTree h r t ∧ ∀ x ∈ I, ¬ Anc h x t := by
  have w := inv_reachable hh r hr
  cases I with
  | nil =>
    have : treelet h [] = none := by unfold treelet tlClimb; cases h.next <;> simp [tlLoop]
    rw [this] at ht
    cases ht
  | cons i I =>
    obtain ⟨t', added', e, hit, n, hn, hmin⟩ := TreeletAny.C21_any_partial hh hr (List.cons_ne_nil i I) hin
    rw [e] at ht
    obtain rfl := (Prod.mk.inj (Option.some.inj ht)).1
    refine ⟨hit, fun x hx k => ?_⟩
    have h1 := Verif.Deps.SingleParent.anc_depth w hr k hit
    have h2 := hmin x hx _ (TreeletAny.depth_D w hr (hin x hx))
    have h3 := depth_unique hn (TreeletAny.depth_D w hr hit)
    omega

/-- A tree without remnants is not changed, and neither is a tree whose remnants have no common governor but the technical root. -/
theorem C148_idle :
    ((∀ x ∈ h.words r, d x ≠ some rRemnant) → fixRemnants h d r = ((h, d), none)) ∧
    ∀ x rest g added, (h.words r).filter (fun n => d n = some rRemnant) = x :: rest → grandparent h x = some g →
      treelet h (g :: x :: rest) = some (r, added) → fixRemnants h d r = ((h, d), none) := by
  constructor
  · intro hno
    have : (h.words r).filter (fun n => d n = some rRemnant) = [] := by
      rw [List.filter_eq_nil_iff]
      intro x hx
      simpa using hno x hx
    unfold fixRemnants
    simp only [this]
  · intro x rest g added hR hg ht
    unfold fixRemnants
    simp only [hR, hg, ht, if_pos]

/-- C148 if the treelet of the remnants and the first one's grandparent has a top `t` that is a word and not a remnant: no exception; other words
keep parent and relation; every remnant becomes a conjunct of `t` or an orphan below such a conjunct; of the remnants that are not below
other remnants exactly one becomes a conjunct, no other has a correlate with a more important relation, and the others depend on it as
orphans; nothing is left for a second run. -/
theorem C148_result_partial (hh : Reachable h) (hr : IsTree h r) (hroot : d r ≠ some rRemnant) {x g : Nat} {rest added : List Nat}
    (hR : (h.words r).filter (fun n => d n = some rRemnant) = x :: rest) (hg : grandparent h x = some g)
    (ht : treelet h (g :: x :: rest) = some (t, added)) (htr : t ≠ r) (htd : d t ≠ some rRemnant) :
    ∃ h' d', fixRemnants h d r = ((h', d'), none) ∧ WF h' r ∧ h'.words = h.words ∧ h'.ord = h.ord ∧
      (∀ y ∈ h.words r, d y ≠ some rRemnant → h'.parent y = h.parent y ∧ d' y = d y) ∧
      (∀ y ∈ h.words r, d y = some rRemnant → (d' y = some rConj ∧ h'.parent y = some t) ∨
        (d' y = some rOrphan ∧ ∃ z ∈ h.words r, d z = some rRemnant ∧ d' z = some rConj ∧ h'.parent y = some z)) ∧
      (∃ p, Top h d r p ∧ d' p = some rConj ∧ ∀ q, Top h d r q → q ≠ p → d' q = some rOrphan ∧ h'.parent q = some p ∧
        ∀ (k : Nat) (y : Str), ranking[k]? = some y → (h.parent q).bind d = some y → ∃ j ≤ k, ranking[j]? = (h.parent p).bind d) ∧
      fixRemnants h' d' r = ((h', d'), none) := by
  have w := inv_reachable hh r hr
  have hRm : ∀ y, y ∈ x :: rest ↔ y ∈ h.words r ∧ d y = some rRemnant := by
    intro y
    rw [← hR, List.mem_filter]
    simp
  have hxw := (hRm x).1 (List.mem_cons_self ..)
  have hgin : InTree h r g := by
    obtain ⟨p, hp, hpi⟩ := w.parentIn x hxw.1
    unfold grandparent at hg
    rw [hp] at hg
    exact TreeletAny.parent_inTree w hpi hg
  obtain ⟨hit, hsh⟩ := shallow hh hr (I := g :: x :: rest) (by
    intro i hi
    rcases List.mem_cons.1 hi with rfl | hi
    · exact hgin
    · exact .inr ((hRm i).1 hi).1) ht
  obtain ⟨y0, hy0⟩ := exists_top w hroot hxw.1 hxw.2
  have hne : tops h d (x :: rest) ≠ [] := List.ne_nil_of_mem ((mem_tops hR y0).2 hy0)
  have m : Mid h d r t (h, d) := ⟨inv_reachable hh, hr, rfl, rfl,
    fun y hy hdy => hsh y (List.mem_cons_of_mem _ ((hRm y).2 ⟨hy, hdy⟩)), fun y _ _ => ⟨rfl, rfl⟩, fun y _ k => ⟨rfl, k⟩, fun y _ k k' => absurd k k'⟩
  obtain ⟨⟨h', d'⟩, e, m', k1, k2, k3, -⟩ := rec_ok w hit htd (h.words r).length (h, d) (tops h d (x :: rest)) m hne (tops_nodup w hR)
    (fun y hy => by obtain ⟨j1, j2, -⟩ := (mem_tops hR y).1 hy; exact ⟨j1, j2⟩)
    (fun y hy p _ hp => by obtain ⟨-, -, j3⟩ := (mem_tops hR y).1 hy; rw [hp] at j3; exact j3)
    (fun y hy hdy hyl => by
      obtain ⟨p, hp, hpi⟩ := w.parentIn y hy
      have hdp : d p = some rRemnant := by
        refine Classical.byContradiction fun k => hyl ((mem_tops hR y).2 ⟨hy, hdy, by rw [hp]; exact k⟩)
      rcases hpi with rfl | hpi
      · exact absurd hdp hroot
      · exact ⟨p, hpi, hp, hdp⟩) (List.length_filter_le _ _)
  have hw' : h'.words = h.words := m'.words
  refine ⟨h', d', ?_, m'.inv r m'.tree, m'.words, m'.ord, m'.other, fun y hy hdy => m'.treated y hy hdy (k1 y hy), ?_, ?_⟩
  · unfold fixRemnants
    simp only [hR, hg, ht, if_neg htr]
    exact e
  · obtain ⟨p, hp⟩ : ∃ p, (tops h d (x :: rest)).getLast? = some p := by
      cases hc : (tops h d (x :: rest)).getLast? with
      | none => exact absurd (List.getLast?_eq_none_iff.1 hc) hne
      | some p => exact ⟨p, rfl⟩
    refine ⟨p, (mem_tops hR p).1 (List.mem_of_getLast? hp), k2 p hp, fun q hq hqp => ?_⟩
    have hq' := (mem_tops hR q).2 hq
    have hqd : q ∈ (tops h d (x :: rest)).dropLast := by
      obtain ⟨l', hl⟩ := List.getLast?_eq_some_iff.1 hp
      rw [hl] at hq' ⊢
      rcases List.mem_append.1 hq' with k | k
      · simpa using k
      · exact absurd (List.mem_singleton.1 k) hqp
    obtain ⟨j1, j2⟩ := k3 q hqd
    exact ⟨j1, j2.trans hp, fun k y hk hy => prio_ranking (tops_last hp q hq') hk hy⟩
  · have : (h'.words r).filter (fun n => d' n = some rRemnant) = [] := by
      rw [List.filter_eq_nil_iff, hw']
      intro y hy
      simpa using k1 y hy
    unfold fixRemnants
    simp only [this]

/-- If the first remnant is a child of the technical root, the block raises an exception. -/
theorem C148_root_violated {x : Nat} {rest : List Nat} (w : WF h r) (hR : (h.words r).filter (fun n => d n = some rRemnant) = x :: rest)
    (hx : h.parent x = some r) : fixRemnants h d r = ((h, d), some .attributeError) := by
  have : grandparent h x = none := by
    unfold grandparent
    rw [hx]
    exact w.rootParent
  unfold fixRemnants
  simp only [hR, this]

theorem attachTo_append {f : Nat} {h1 : Heap} : ∀ (A B : List Nat) (h : Heap), attachTo f h A = (h1, none) → attachTo f h (A ++ B) = attachTo f h1 B := by
  intro A
  induction A with
  | nil =>
    intro B h e
    simp only [attachTo, forNodes, Prod.mk.injEq, and_true] at e
    rw [e]
    rfl
  | cons a A ih =>
    intro B h e
    rw [List.cons_append]
    simp only [attachTo, forNodes] at e ⊢
    split at e
    · simp at e
    · exact ih B _ e

/-- If the node found as the first conjunct is itself a remnant, the block raises an exception. -/
theorem C148_top_violated (hh : Reachable h) (hr : IsTree h r) (hroot : d r ≠ some rRemnant) {x g : Nat} {rest added : List Nat}
    (hR : (h.words r).filter (fun n => d n = some rRemnant) = x :: rest) (hg : grandparent h x = some g)
    (ht : treelet h (g :: x :: rest) = some (t, added)) (htd : d t = some rRemnant) :
    (fixRemnants h d r).2 = some .cycleError := by
  have w := inv_reachable hh r hr
  have hi := inv_reachable hh
  have htr : t ≠ r := fun e => hroot (e ▸ htd)
  have hRm : ∀ y, y ∈ x :: rest ↔ y ∈ h.words r ∧ d y = some rRemnant := by
    intro y
    rw [← hR, List.mem_filter]
    simp
  have hxw := (hRm x).1 (List.mem_cons_self ..)
  have hgin : InTree h r g := by
    obtain ⟨p, hp, hpi⟩ := w.parentIn x hxw.1
    unfold grandparent at hg
    rw [hp] at hg
    exact TreeletAny.parent_inTree w hpi hg
  obtain ⟨hit, hsh⟩ := shallow hh hr (I := g :: x :: rest) (by
    intro i hi
    rcases List.mem_cons.1 hi with rfl | hi
    · exact hgin
    · exact .inr ((hRm i).1 hi).1) ht
  have htw : t ∈ h.words r := hit.resolve_left htr
  have hsh' : ∀ y ∈ h.words r, d y = some rRemnant → ¬ Anc h y t := fun y hy hdy => hsh y (List.mem_cons_of_mem _ ((hRm y).2 ⟨hy, hdy⟩))
  have htop : t ∈ tops h d (x :: rest) := by
    refine (mem_tops hR t).2 ⟨htw, htd, fun k => ?_⟩
    obtain ⟨p, hp, hpi⟩ := w.parentIn t htw
    rw [hp] at k
    have hpr : p ≠ r := fun e => hroot (e ▸ k)
    exact hsh' p (hpi.resolve_left hpr) k (.parent hp)
  have hlen : ∃ n, (h.words r).length = n + 1 := ⟨(h.words r).length - 1, by have := List.length_pos_of_mem htw; omega⟩
  obtain ⟨n, hn⟩ := hlen
  obtain ⟨p, hp⟩ : ∃ p, (tops h d (x :: rest)).getLast? = some p := by
    cases hc : (tops h d (x :: rest)).getLast? with
    | none => rw [List.getLast?_eq_none_iff.1 hc] at htop; cases htop
    | some p => exact ⟨p, rfl⟩
  have hpt := (mem_tops hR p).1 (List.mem_of_getLast? hp)
  have heq : fixRemnants h d r = fixRec t (n + 1) (h, d) (tops h d (x :: rest)) := by
    unfold fixRemnants
    simp only [hR, hg, ht, if_neg htr, hn]
  rw [heq]
  by_cases hpe : p = t
  · subst hpe
    have := setParent_cycle w hr htw hit (.inl rfl)
    simp only [fixRec, hp, this]
  · obtain ⟨h1, e1, i1, t1, w1, -, o1, p1⟩ := attach_one hi hr hpt.1 hit (fun e => hpe e.symm) (hsh' p hpt.1 hpt.2.1)
    have hanc1 : ∀ b, Anc h1 b t ↔ Anc h b t := fun b => anc_upd p1 (hsh' p hpt.1 hpt.2.1) hpe b
    obtain ⟨l', hl⟩ := List.getLast?_eq_some_iff.1 hp
    have hnd := tops_nodup w hR
    have htl : t ∈ l' := by
      rw [hl] at htop
      rcases List.mem_append.1 htop with k | k
      · exact k
      · exact absurd (List.mem_singleton.1 k).symm hpe
    have hdl : (tops h d (x :: rest)).dropLast = l' := by rw [hl]; simp
    obtain ⟨A, B, hAB⟩ := List.append_of_mem htl
    have htA : t ∉ A := by
      intro k
      rw [hl, hAB] at hnd
      have := (List.nodup_append.1 (List.nodup_append.1 hnd).1).2.2 t k t (by simp)
      exact this rfl
    have hA : ∀ a ∈ A, a ∈ h.words r ∧ d a = some rRemnant ∧ a ≠ p := by
      intro a ha
      have hal : a ∈ l' := by rw [hAB]; exact List.mem_append_left _ ha
      have := (mem_tops hR a).1 (by rw [hl]; exact List.mem_append_left _ hal)
      refine ⟨this.1, this.2.1, fun e => ?_⟩
      rw [hl] at hnd
      exact (List.nodup_append.1 hnd).2.2 a hal p (by simp) e
    obtain ⟨h2, e2, i2, t2, w2, o2, p2⟩ := attachTo_ok i1 t1 (f := p) (by rw [w1]; exact hpt.1) A (by
      intro a ha
      obtain ⟨a1, a2, a3⟩ := hA a ha
      refine ⟨by rw [w1]; exact a1, a3, fun k => ?_⟩
      rcases anc_iff.1 k with ⟨t', ht', e'⟩
      rw [p1, upd_same] at ht'
      obtain rfl := Option.some.inj ht'
      rcases e' with rfl | e'
      · exact htA ha
      · exact hsh' a a1 a2 ((hanc1 a).1 e'))
    have hpp : h2.parent p = some t := by
      rw [p2, if_neg (fun k => (hA p k).2.2 rfl), p1, upd_same]
    have hcyc := setParent_cycle (h := h2) (i2 r t2) t2 (x := t) (p := p) (by rw [w2, w1]; exact htw) (.inr (by rw [w2, w1]; exact hpt.1)) (.inr (.parent hpp))
    have : attachTo p h1 l' = (h2, some .cycleError) := by
      rw [hAB, attachTo_append _ _ _ e2]
      simp only [attachTo, forNodes, hcyc]
    simp only [fixRec, hp, e1, hdl, this]

end Lemmas

/-- "Marie went to Paris and Miriam to Prague": 1 went, 2 Marie, 3 Paris, 4 Miriam, 5 Prague, 6 Anna; `remnant(Marie, Miriam)`,
`remnant(Paris, Prague)`, `remnant(Miriam, Anna)`. -/
def exRe : Heap := runOps Heap.init [.newTree, .createChild 0, .createChild 1, .createChild 1, .createChild 2, .createChild 3, .createChild 4]

def exReD : Rels := fun x => if x = 0 then some ['R'] else if x = 1 then some ['r'] else if x = 2 then some ['n', 's', 'u', 'b', 'j'] else
  if x = 3 then some ['o', 'b', 'l'] else some rRemnant

theorem exRe_reachable : Reachable exRe := by
  unfold exRe runOps
  simp only [List.foldl]
  refine .step (.createChild 4) (.step (.createChild 3) (.step (.createChild 2) (.step (.createChild 1)
    (.step (.createChild 1) (.step (.createChild 0) (.step .newTree .init trivial) ?_) ?_) ?_) ?_) ?_) ?_
  · exact ⟨0, ⟨by decide, by decide⟩, Or.inl rfl⟩
  all_goals exact ⟨0, ⟨by decide, by decide⟩, Or.inr (by decide)⟩

example : (exRe.words 0).filter (fun n => exReD n = some rRemnant) = [4, 5, 6] ∧ grandparent exRe 4 = some 1 ∧
    (treelet exRe [1, 4, 5, 6]).map (·.1) = some 1 := by decide

example : let res := fixRemnants exRe exReD 0
    res.2 = none ∧ [1, 2, 3, 4, 5, 6].map res.1.1.parent = [some 0, some 1, some 1, some 1, some 4, some 1] ∧
      [1, 2, 3, 4, 5, 6].map res.1.2 = [some ['r'], some ['n', 's', 'u', 'b', 'j'], some ['o', 'b', 'l'], some rConj, some rOrphan, some rConj] := by decide

/-- The remnant 3 governs the other one, 2, and its grandparent: it is taken for the first conjunct. -/
def exReT : Heap := runOps Heap.init [.newTree, .createChild 0, .createChild 0, .createChild 1, .createChild 3, .createChild 4, .setParent 2 (some 5)]

example : let d : Rels := fun x => if x = 0 then some ['R'] else if x = 2 ∨ x = 3 then some rRemnant else some ['x']
    (exReT.words 0).filter (fun n => d n = some rRemnant) = [2, 3] ∧ grandparent exReT 2 = some 4 ∧ (treelet exReT [4, 2, 3]).map (·.1) = some 3 ∧
      (fixRemnants exReT d 0).2 = some .cycleError := by decide

end Verif.Blocks.Remnant
