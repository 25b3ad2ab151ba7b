import Verif.Blocks.SplitSent

/-!
# `segment.Merge` (property C103)

All zones are processed (`zones=all`). Left out: the texts of the sentences, which the block sets to `compute_text()` (C84).
-/

namespace Verif.Sent
open Verif.Tree Verif.Py

inductive MErr where
  | valueError
  | indexError
  | doc (e : Err)
  deriving DecidableEq, Repr

/-- `_get_our_tree` (merge.py:26-30) -/
def ourTree (d : Doc) (b : Nat) : Except MErr Nat :=
  match d.trees b with
  | [] => .error .valueError
  | r :: _ => .ok r

/-- `should_merge_bundles` (merge.py:19-23): `first_tree.descendants[-1].form[-1] == ';'`, and `second_tree.descendants[0]` is
evaluated. -/
def shouldMerge (form : Nat → Str) (d : Doc) (pb b : Nat) : Except MErr Bool :=
  match ourTree d pb with
  | .error e => .error e
  | .ok p =>
    match ourTree d b with
    | .error e => .error e
    | .ok r =>
      match (d.heap.words p).getLast?, d.heap.words r with
      | some x, _ :: _ =>
        match (form x).getLast? with
        | some c => .ok (c = ';')
        | none => .error .indexError
      | _, _ => .error .indexError

/-- `for tree in bundle: prev_bundle.get_tree(tree.zone).steal_nodes(tree.descendants)` (merge.py:39-42) -/
def mergeTrees (pb : Nat) : List Nat → Doc → Doc × Option MErr
  | [], d => (d, none)
  | r :: rs, d =>
    match getTree d pb (d.zone r) with
    | .error e => (d, some (.doc e))
    | .ok p =>
      match steal d.heap d.mwts p (d.heap.words r) with
      | (h, m, some e) => ({ d with heap := h, mwts := m }, some (.doc (.steal e)))
      | (h, m, none) => mergeTrees pb rs { d with heap := h, mwts := m }

/-- The loop (merge.py:37-46); `acc` is `new_bundles`. -/
def mergeLoop (form : Nat → Str) : Nat → List Nat → List Nat → Doc → Doc × Option MErr
  | _, acc, [], d => ({ d with bundles := acc }, none)
  | pb, acc, b :: bs, d =>
    match shouldMerge form d pb b with
    | .error e => (d, some e)
    | .ok false => mergeLoop form b (acc ++ [b]) bs d
    | .ok true =>
      match mergeTrees pb (d.trees b) d with
      | (d1, some e) => (d1, some e)
      | (d1, none) => mergeLoop form pb acc bs d1

/-- `segment.Merge().process_document(doc)` (merge.py:33-46) -/
def merge (form : Nat → Str) (d : Doc) : Doc × Option MErr :=
  match d.bundles with
  | [] => (d, some .indexError)
  | b :: bs => mergeLoop form b [b] bs d

/-! ## Specification vocabulary -/

/-- The last form of a sentence ends with a semicolon. -/
def semi (form : Nat → Str) (W : List Nat) : Bool := (W.getLast?.bind (fun x => (form x).getLast?)) = some ';'

/-- The sentences, each with the flag whether the one before ends with a semicolon. -/
def flags (form : Nat → Str) : Bool → List (List Nat) → List (Bool × List Nat)
  | _, [] => []
  | f, W :: Ws => (f, W) :: flags form (semi form W) Ws

/-- The bundles that are not joined with the one before; `f`: the one before ends with a semicolon. -/
def kept (form : Nat → Str) (sent : Nat → List Nat) : Bool → List Nat → List Nat
  | _, [] => []
  | true, b :: bs => kept form sent (semi form (sent b)) bs
  | false, b :: bs => b :: kept form sent (semi form (sent b)) bs

/-! ## Proofs -/

theorem kept_length (form : Nat → Str) (sent : Nat → List Nat) : ∀ (bs : List Nat) (f : Bool), (kept form sent f bs).length ≤ bs.length
  | [], _ => Nat.le_refl _
  | _ :: bs, true => Nat.le_succ_of_le (kept_length form sent bs _)
  | _ :: bs, false => Nat.succ_le_succ (kept_length form sent bs _)

theorem kept_lt {form : Nat → Str} {sent : Nat → List Nat} : ∀ {L : List Nat} {bs : List Nat} (f : Bool), bs ≠ [] → (∃ c ∈ L, semi form (sent c) = true) →
    (kept form sent f (L ++ bs)).length < (L ++ bs).length
  | [], _, _, _, ⟨_, h, _⟩ => absurd h List.not_mem_nil
  | b :: L, bs, f, h0, ⟨c, hc, hs⟩ => by
    rcases List.mem_cons.1 hc with rfl | hc
    · obtain ⟨x, l, hl⟩ : ∃ x l, L ++ bs = x :: l := by
        cases L with
        | nil =>
          cases bs with
          | nil => exact absurd rfl h0
          | cons x l => exact ⟨x, l, rfl⟩
        | cons x l => exact ⟨x, l ++ bs, rfl⟩
      have h2 := kept_length form sent l (semi form (sent x))
      rw [List.cons_append, hl]
      cases f
      · simp only [kept, hs, List.length_cons]
        omega
      · simp only [kept, hs, List.length_cons]
        omega
    · have ih := kept_lt (form := form) (sent := sent) (semi form (sent b)) h0 ⟨c, hc, hs⟩
      rw [List.cons_append]
      cases f
      · simp only [kept, List.length_cons]
        omega
      · simp only [kept, List.length_cons]
        omega

theorem kept_last {form : Nat → Str} {sent : Nat → List Nat} {a b : Nat} (h : semi form (sent a) = false) : ∀ (L : List Nat) (f : Bool),
    (kept form sent f (L ++ [a, b])).getLast? = some b
  | [], f => by cases f <;> simp [kept, h]
  | c :: L, f => by
    have ih := kept_last (b := b) h L (semi form (sent c))
    rw [List.cons_append]
    cases f
    · rw [kept, List.getLast?_cons, ih]
      rfl
    · rw [kept, ih]

theorem kept_sub {form : Nat → Str} {sent : Nat → List Nat} : ∀ (l : List Nat) (f : Bool), ∀ x ∈ kept form sent f l, x ∈ l
  | [], _, _, hx => hx
  | _ :: l, true, x, hx => List.mem_cons_of_mem _ (kept_sub l _ x hx)
  | y :: l, false, x, hx => by
    rcases List.mem_cons.1 hx with rfl | hx
    · exact List.mem_cons_self ..
    · exact List.mem_cons_of_mem _ (kept_sub l _ x hx)

theorem kept_congr {form : Nat → Str} {s1 s2 : Nat → List Nat} : ∀ {bs : List Nat} (f : Bool), (∀ c ∈ bs, s1 c = s2 c) → kept form s1 f bs = kept form s2 f bs
  | [], _, _ => rfl
  | b :: bs, f, h => by
    have ih := kept_congr (form := form) (semi form (s2 b)) (fun c hc => h c (List.mem_cons_of_mem _ hc))
    cases f <;> simp only [kept, h b (List.mem_cons_self ..), ih]

theorem Good.congr {d d' : Doc} (g : Good d) (h1 : d'.heap = d.heap) (h2 : d'.bundles = d.bundles) (h3 : d'.trees = d.trees) (h4 : d'.zone = d.zone)
    (h5 : d'.nextB = d.nextB) : Good d' := by
  refine ⟨by rw [h1]; exact g.inv, by rw [h2]; exact g.nodup, ?_, ?_, ?_⟩
  · rw [h1, h2, h3, h4]
    exact g.tree
  · rw [h2, h3]
    exact g.own
  · rw [h2, h5]
    exact g.fresh

theorem flags_words (form : Nat → Str) : ∀ (Ws : List (List Nat)) (f : Bool), (flags form f Ws).map (·.2) = Ws
  | [], _ => rfl
  | W :: Ws, f => by rw [flags, List.map_cons, flags_words form Ws]

/-- The document with other bundles. -/
abbrev withBundles (d : Doc) (l : List Nat) : Doc := { d with bundles := l }

theorem shouldMerge_eq {form : Nat → Str} {d : Doc} {pb b p r : Nat} (hp : d.trees pb = [p]) (hr : d.trees b = [r]) (h1 : sentence d pb ≠ [])
    (h2 : sentence d b ≠ []) (hf : ∀ x ∈ sentence d pb, form x ≠ []) : shouldMerge form d pb b = .ok (semi form (sentence d pb)) := by
  unfold shouldMerge ourTree semi
  rw [hp, hr]
  rw [Good.sentence_eq hp] at *
  rw [Good.sentence_eq hr] at *
  simp only
  cases hl : (d.heap.words p).getLast? with
  | none => exact absurd (List.getLast?_eq_none_iff.1 hl) h1
  | some x =>
    cases hw : d.heap.words r with
    | nil => exact absurd hw h2
    | cons y l =>
      simp only [Option.bind_some]
      obtain ⟨c, hc⟩ : ∃ c, (form x).getLast? = some c := by
        cases hc : (form x).getLast? with
        | none => exact absurd (List.getLast?_eq_none_iff.1 hc) (hf x (List.mem_of_getLast? hl))
        | some c => exact ⟨c, rfl⟩
      simp [hc]

theorem merge_loop (form : Nat → Str) : ∀ (bs acc : List Nat) (pb p : Nat) (d : Doc), Good (withBundles d (acc ++ pb :: bs)) → d.trees pb = [p] →
    (∀ b ∈ pb :: bs, sentence d b ≠ []) → (∀ b ∈ pb :: bs, ∀ x ∈ sentence d b, form x ≠ []) →
    ∃ d' M, mergeLoop form pb (acc ++ [pb]) bs d = (d', none) ∧ Good d' ∧ d'.bundles = acc ++ pb :: M ∧ M = kept form (sentence d) (semi form (sentence d pb)) bs ∧
      acc.map (sentence d') = acc.map (sentence d) ∧
      sentence d' pb :: M.map (sentence d') =
        (sentence d pb ++ (attach (flags form (semi form (sentence d pb)) (bs.map (sentence d)))).1) ::
          (attach (flags form (semi form (sentence d pb)) (bs.map (sentence d)))).2 ∧
      (∀ x ∈ docWords (withBundles d (acc ++ pb :: bs)), ∀ q, d.heap.parent x = some q →
        (q ∈ docWords (withBundles d (acc ++ pb :: bs)) → d'.heap.parent x = some q) ∧
        (q ∉ docWords (withBundles d (acc ++ pb :: bs)) → d'.heap.parent x = some (d'.heap.root x))) ∧
      d'.number = d.number ∧ d'.trees = d.trees ∧ d'.empty = d.empty ∧ d'.nextB = d.nextB
  | [], acc, pb, p, d, g, htp, _, _ => by
    refine ⟨withBundles d (acc ++ [pb]), [], rfl, g, rfl, rfl, rfl, ?_, ?_, rfl, rfl, rfl, rfl⟩
    · simp only [List.map_nil, flags, attach, List.append_nil]
      rfl
    · intro x hx q hq
      refine ⟨fun _ => hq, fun hn => ?_⟩
      obtain ⟨c, hcb, hxc⟩ := Good.mem_docWords.1 hx
      obtain ⟨s, h4, _, h6⟩ := g.tree c hcb
      have hrx := g.root_eq hcb h4 hxc
      rw [Good.sentence_eq h4] at hxc
      show d.heap.parent x = some (d.heap.root x)
      rcases (g.inv s h6).parent_in hxc hq with hqs | hqw
      · rw [hq, hqs]
        exact congrArg some hrx.symm
      · exact absurd (Good.mem_docWords.2 ⟨c, hcb, by rw [Good.sentence_eq h4]; exact hqw⟩) hn
  | b :: bs, acc, pb, p, d, g, htp, hne, hfo => by
    have hb : b ∈ acc ++ pb :: b :: bs := by simp
    have hpb : pb ∈ acc ++ pb :: b :: bs := by simp
    have hnd : (acc ++ pb :: b :: bs).Nodup := g.nodup
    obtain ⟨r, ht, hz, hr⟩ := g.tree b hb
    obtain ⟨p', ht', hzp, hp⟩ := g.tree pb hpb
    have ht : d.trees b = [r] := ht
    have hz : d.zone r = [] := hz
    obtain rfl : p = p' := by
      have : [p] = [p'] := htp.symm.trans ht'
      simpa using this
    have hzp : d.zone p = [] := hzp
    have hneb : b ≠ pb := by
      rintro rfl
      simp [List.nodup_append] at hnd
    have hsm := shouldMerge_eq (form := form) htp ht (hne pb (by simp)) (hne b (by simp)) (hfo pb (by simp))
    conv => enter [1, d', 1, M, 1, 1]; unfold mergeLoop
    rw [hsm]
    cases hs : semi form (sentence d pb) with
    | false =>
      simp only
      obtain ⟨d', M, e, g', b', hsub, hacc, hse, hed, hn, htr, hem, hnB⟩ := merge_loop form bs (acc ++ [pb]) b r d (by simpa using g) ht
        (fun c hc => hne c (List.mem_cons_of_mem _ hc)) (fun c hc => hfo c (List.mem_cons_of_mem _ hc))
      rw [List.map_append, List.map_append] at hacc
      have hacc' := List.append_inj hacc (by simp)
      refine ⟨d', b :: M, e, g', by rw [b']; simp, by rw [hsub]; rfl, hacc'.1, ?_, ?_, hn, htr, hem, hnB⟩
      · rw [List.map_cons, List.map_cons, hse]
        have : sentence d' pb = sentence d pb := by simpa using hacc'.2
        simp [flags, attach, this]
      · simpa using hed
    | true =>
      simp only
      obtain ⟨h, m, e, g1, s1, s2, ed, hit⟩ := join_step g hb hpb hneb ht htp (cmds := d.heap.words r)
        (by rw [← Good.sentence_eq ht]; exact hne b (by simp)) (fun _ h => h)
      have emt : mergeTrees pb (d.trees b) d = ({ d with heap := h, mwts := m }, none) := by
        rw [ht]
        unfold mergeTrees
        rw [hz, Good.getTree_eq htp hzp]
        simp only
        rw [show steal d.heap d.mwts p (d.heap.words r) = (h, m, none) from e]
        rfl
      rw [emt]
      simp only
      have hbs : (acc ++ pb :: b :: bs).filter (fun c => decide (c ≠ b)) = acc ++ pb :: bs := by
        have hb1 : b ∉ acc := by
          intro hm
          exact (List.nodup_append.1 hnd).2.2 b hm b (by simp) rfl
        have hb2 : b ∉ bs := by
          have := (List.nodup_append.1 hnd).2.1
          simp only [List.nodup_cons] at this
          exact this.2.1
        rw [List.filter_append, List.filter_cons_of_pos (by simp [Ne.symm hneb]), List.filter_cons_of_neg (by simp)]
        rw [List.filter_eq_self.2, List.filter_eq_self.2]
        · intro c hcm
          have : c ≠ b := fun e => hb2 (e ▸ hcm)
          simp [this]
        · intro c hcm
          have : c ≠ b := fun e => hb1 (e ▸ hcm)
          simp [this]
      generalize hd1 : ({ d with heap := h, mwts := m } : Doc) = d1
      have hh1 : d1.heap = h := by rw [← hd1]
      have ht1 : d1.trees = d.trees := by rw [← hd1]
      have g1' : Good (withBundles d1 (acc ++ pb :: bs)) := by
        refine g1.congr ?_ ?_ ?_ ?_ ?_
        · exact hh1
        · exact hbs.symm
        · exact ht1
        · show d1.zone = d.zone
          rw [← hd1]
        · show d1.nextB = d.nextB
          rw [← hd1]
      have hsent : ∀ c, (d.trees c).flatMap h.words = sentence d1 c := by
        intro c
        unfold sentence
        rw [ht1, hh1]
      have s1 : sentence d1 pb = sentence d pb ++ sentence d b := by rw [← hsent]; exact s1
      have s2 : ∀ c ∈ acc ++ pb :: b :: bs, c ≠ b → c ≠ pb → sentence d1 c = sentence d c := by
        intro c hc h1 h2
        rw [← hsent]
        exact s2 c hc h1 h2
      have hbsm : ∀ c ∈ bs, c ∈ acc ++ pb :: b :: bs ∧ c ≠ b ∧ c ≠ pb := by
        intro c hcm
        refine ⟨by simp [hcm], ?_, ?_⟩
        · rintro rfl
          simp [List.nodup_append, hcm] at hnd
        · rintro rfl
          simp [List.nodup_append, hcm] at hnd
      have hdw : ∀ x, x ∈ docWords (withBundles d1 (acc ++ pb :: bs)) ↔ x ∈ docWords (withBundles d (acc ++ pb :: b :: bs)) := by
        intro x
        rw [Good.mem_docWords, Good.mem_docWords]
        constructor
        · rintro ⟨c, hcm0, hx0⟩
          have hcm : c ∈ acc ++ pb :: bs := hcm0
          have hx : x ∈ sentence d1 c := hx0
          clear hcm0 hx0
          have hcd : c ∈ acc ++ pb :: b :: bs := by
            rw [← hbs] at hcm
            exact (List.mem_filter.1 hcm).1
          have hcb : c ≠ b := by
            rw [← hbs] at hcm
            simpa using (List.mem_filter.1 hcm).2
          by_cases hcp : c = pb
          · subst hcp
            rw [s1] at hx
            rcases List.mem_append.1 hx with hx | hx
            · exact ⟨c, hcd, hx⟩
            · exact ⟨b, hb, hx⟩
          · rw [s2 c hcd hcb hcp] at hx
            exact ⟨c, hcd, hx⟩
        · rintro ⟨c, hcm0, hx0⟩
          have hcm : c ∈ acc ++ pb :: b :: bs := hcm0
          have hx : x ∈ sentence d c := hx0
          clear hcm0 hx0
          by_cases hcb : c = b
          · subst hcb
            refine ⟨pb, by simp, ?_⟩
            show x ∈ sentence d1 pb
            rw [s1]
            exact List.mem_append_right _ hx
          · refine ⟨c, ?_, ?_⟩
            · show c ∈ acc ++ pb :: bs
              rw [← hbs]
              exact List.mem_filter.2 ⟨hcm, by simpa using hcb⟩
            · show x ∈ sentence d1 c
              by_cases hcp : c = pb
              · subst hcp
                rw [s1]
                exact List.mem_append_left _ hx
              · rw [s2 c hcm hcb hcp]
                exact hx
      have hmem1 : ∀ c ∈ pb :: bs, ∀ x ∈ sentence d1 c, ∃ c' ∈ pb :: b :: bs, x ∈ sentence d c' := by
        intro c hc x hx
        rcases List.mem_cons.1 hc with rfl | hc
        · rw [s1] at hx
          rcases List.mem_append.1 hx with hx | hx
          · exact ⟨c, by simp, hx⟩
          · exact ⟨b, by simp, hx⟩
        · rw [s2 c (hbsm c hc).1 (hbsm c hc).2.1 (hbsm c hc).2.2] at hx
          exact ⟨c, by simp [hc], hx⟩
      obtain ⟨d', M, e', g', b', hsub, hacc, hse, hed, hn, htr, hem, hnB⟩ := merge_loop form bs acc pb p d1 g1' (by rw [ht1]; exact htp)
        (by
          intro c hc
          rcases List.mem_cons.1 hc with rfl | hc
          · rw [s1]
            intro e0
            exact hne b (by simp) (List.append_eq_nil_iff.1 e0).2
          · rw [s2 c (hbsm c hc).1 (hbsm c hc).2.1 (hbsm c hc).2.2]
            exact hne c (by simp [hc]))
        (by
          intro c hc x hx
          obtain ⟨c', h1, h2⟩ := hmem1 c hc x hx
          exact hfo c' h1 x h2)
      have hmapbs : bs.map (sentence d1) = bs.map (sentence d) := by
        apply List.map_congr_left
        intro c hc
        exact s2 c (hbsm c hc).1 (hbsm c hc).2.1 (hbsm c hc).2.2
      have hsemi : semi form (sentence d1 pb) = semi form (sentence d b) := by
        have hl : (sentence d pb ++ sentence d b).getLast? = (sentence d b).getLast? := by
          rw [List.getLast?_append]
          cases hl : (sentence d b).getLast? with
          | none => exact absurd (List.getLast?_eq_none_iff.1 hl) (hne b (by simp))
          | some x => simp
        unfold semi
        rw [s1, hl]
      refine ⟨d', M, e', g', b', ?_, ?_, ?_, ?_, by rw [hn, ← hd1], by rw [htr, ht1], by rw [hem, ← hd1], by rw [hnB, ← hd1]⟩
      · rw [hsub, hsemi]
        exact kept_congr _ (fun c hc => s2 c (hbsm c hc).1 (hbsm c hc).2.1 (hbsm c hc).2.2)
      · rw [hacc]
        apply List.map_congr_left
        intro c hc
        refine s2 c (by simp [hc]) ?_ ?_
        · rintro rfl
          exact (List.nodup_append.1 hnd).2.2 c hc c (by simp) rfl
        · rintro rfl
          exact (List.nodup_append.1 hnd).2.2 c hc c (by simp) rfl
      · rw [hse, hsemi, hmapbs, s1]
        simp [flags, attach]
      · intro x hx q hq
        obtain ⟨e1, e2⟩ := ed x hx q hq
        have hx1 := (hdw x).2 hx
        refine ⟨fun hqd => ?_, fun hqd => ?_⟩
        · exact (hed x hx1 q (by rw [hh1]; exact e1 hqd)).1 ((hdw q).2 hqd)
        · refine (hed x hx1 (h.root x) (by rw [hh1]; exact e2 hqd)).2 ?_
          obtain ⟨c, hcb, hxc⟩ := Good.mem_docWords.1 hx1
          obtain ⟨s, k4, _, k6⟩ := g1'.tree c hcb
          have := g1'.root_eq hcb k4 hxc
          rw [show (withBundles d1 (acc ++ pb :: bs)).heap = h from hh1] at this
          rw [this]
          exact g1'.tree_not_word k6

/-- C103, the part that holds: `segment.Merge` joins every sentence with the one before if that ends with a semicolon. No word is lost and
the order stays. All trees are well formed. Every word keeps its parent; those attached to the technical root of a joined sentence are
attached to the technical root they now belong to.
What is missing: sentences without words or with empty forms, several zones, empty nodes, and the numbers of the bundles. -/
theorem C103_merge_partial (form : Nat → Str) {d : Doc} (g : Good d) (h0 : d.bundles ≠ []) (hne : ∀ b ∈ d.bundles, sentence d b ≠ [])
    (hfo : ∀ x ∈ docWords d, form x ≠ []) : ∃ d', merge form d = (d', none) ∧ Good d' ∧ d'.bundles = kept form (sentence d) false d.bundles ∧
      d'.bundles.map (sentence d') = (attach (flags form false (d.bundles.map (sentence d)))).2 ∧ docWords d' = docWords d ∧
      (∀ x ∈ docWords d, ∀ q, d.heap.parent x = some q →
        d'.heap.parent x = some (if q ∈ docWords d then q else d'.heap.root x)) ∧ d'.number = d.number ∧ d'.empty = d.empty ∧ d'.trees = d.trees ∧
      d'.nextB = d.nextB := by
  cases hbs : d.bundles with
  | nil => exact absurd hbs h0
  | cons b bs =>
    obtain ⟨r, ht, _, _⟩ := g.tree b (by rw [hbs]; simp)
    have hd : withBundles d (b :: bs) = d := by rw [← hbs]
    obtain ⟨d', M, e, g', b', hsub, _, hse, hed, hn, hrest⟩ := merge_loop form bs [] b r d (by rw [List.nil_append, hd]; exact g) ht
      (by rw [← hbs]; exact hne) (by rw [← hbs]; exact fun c hc x hx => hfo x (Good.mem_docWords.2 ⟨c, hc, hx⟩))
    rw [List.nil_append, hd] at hed
    have hmap : d'.bundles.map (sentence d') = (attach (flags form false (d.bundles.map (sentence d)))).2 := by
      rw [b', List.nil_append, List.map_cons, hse, hbs]
      simp [flags, attach]
    refine ⟨d', ?_, g', ?_, by rw [hmap, hbs], ?_, ?_, hn, hrest.2.1, hrest.1, hrest.2.2⟩
    · unfold merge
      rw [hbs]
      exact e
    · rw [b', hsub]
      rfl
    · unfold docWords
      rw [List.flatMap_def, hmap]
      have := attach_flatten (flags form false (d.bundles.map (sentence d)))
      rw [flags_words] at this
      rw [List.flatMap_def, ← this, hbs]
      simp [flags, attach]
    · intro x hx q hq
      obtain ⟨h1, h2⟩ := hed x hx q hq
      by_cases hqd : q ∈ docWords d
      · rw [if_pos hqd]
        exact h1 hqd
      · rw [if_neg hqd]
        exact h2 hqd

/-- C103 does not hold: a document without sentences raises. -/
theorem C103_nothing_violated (form : Nat → Str) {d : Doc} (h : d.bundles = []) : merge form d = (d, some .indexError) := by
  unfold merge
  rw [h]

/-- C103 does not hold: if the second sentence has no words, an exception is raised and nothing is merged, also if the first does not end
with a semicolon. -/
theorem C103_empty_violated (form : Nat → Str) {d : Doc} (g : Good d) {b c : Nat} {bs : List Nat} (hbs : d.bundles = b :: c :: bs)
    (hc : sentence d b = [] ∨ sentence d c = []) : merge form d = (d, some .indexError) := by
  obtain ⟨p, htp, _, _⟩ := g.tree b (by rw [hbs]; simp)
  obtain ⟨r, ht, _, _⟩ := g.tree c (by rw [hbs]; simp)
  rw [Good.sentence_eq ht, Good.sentence_eq htp] at hc
  have : shouldMerge form d b c = .error .indexError := by
    unfold shouldMerge ourTree
    rw [htp, ht]
    simp only
    rcases hc with hc | hc
    · rw [hc]
      rfl
    · rw [hc]
      cases (d.heap.words p).getLast? <;> rfl
  unfold merge
  rw [hbs]
  simp only
  unfold mergeLoop
  rw [this]

/-- C103 does not hold: if a sentence is merged but not the last one, the bundles are not numbered by their positions, and the next bundle that
is created gets a number that is not larger than the one of the bundle before it. -/
theorem C103_number_violated (form : Nat → Str) {d : Doc} (g : Good d) (hne : ∀ b ∈ d.bundles, sentence d b ≠ []) (hfo : ∀ x ∈ docWords d, form x ≠ [])
    (hn : Aligned d.number 1 d.bundles) {L : List Nat} {a b : Nat} (hbs : d.bundles = L ++ [a, b]) (hlast : semi form (sentence d a) = false)
    (hsome : ∃ c ∈ L, semi form (sentence d c) = true) (id : Str) :
    ∃ d', merge form d = (d', none) ∧ d'.bundles.getLast? = some b ∧ (newBundle d' id).number d.nextB ≤ d'.number b := by
  obtain ⟨d', e, g', hk, _, _, _, hnum, _, _, hB⟩ := C103_merge_partial form g (by rw [hbs]; simp) hne hfo
  refine ⟨d', e, ?_, ?_⟩
  · rw [hk, hbs]
    exact kept_last hlast L false
  · have hlt : d'.bundles.length < d.bundles.length := by
      rw [hk, hbs]
      exact kept_lt (bs := [a, b]) false (by simp) hsome
    have hb : d'.number b = d.bundles.length := by
      rw [hnum]
      rw [hbs, show L ++ [a, b] = (L ++ [a]) ++ [b] by simp, aligned_append, aligned_cons] at hn
      rw [hn.2.1, hbs]
      simp
      omega
    rw [hb]
    show upd d'.number d'.nextB (d'.bundles.length + 1) d.nextB ≤ _
    rw [hB]
    simp only [upd, if_true]
    exact hlt

/-- C103 does not hold: the empty nodes of every merged sentence are in no sentence any more. -/
theorem C103_lost_violated (form : Nat → Str) {d : Doc} (g : Good d) (h0 : d.bundles ≠ []) (hne : ∀ b ∈ d.bundles, sentence d b ≠ [])
    (hfo : ∀ x ∈ docWords d, form x ≠ []) {L bs : List Nat} {a c r e : Nat} (hbs : d.bundles = L ++ a :: c :: bs) (hs : semi form (sentence d a) = true)
    (hr : d.trees c = [r]) (he : e ∈ d.empty r) (hown : ∀ s, s ≠ r → e ∉ d.empty s) :
    ∃ d', merge form d = (d', none) ∧ ∀ c' ∈ d'.bundles, ∀ s ∈ d'.trees c', e ∉ d'.empty s := by
  obtain ⟨d', e', g', hk, _, _, _, _, hem, htr, _⟩ := C103_merge_partial form g h0 hne hfo
  refine ⟨d', e', ?_⟩
  intro c' hc' s hs'
  rw [htr] at hs'
  rw [hem]
  apply hown
  rintro rfl
  have key : ∀ (L : List Nat) (f : Bool), (L ++ a :: c :: bs).Nodup → c ∉ kept form (sentence d) f (L ++ a :: c :: bs) := by
    intro L
    induction L with
    | nil =>
      intro f hnd
      simp only [List.nil_append, List.nodup_cons, List.mem_cons, not_or] at hnd
      have hcb : c ∉ kept form (sentence d) (semi form (sentence d c)) bs := fun hm => hnd.2.1 (kept_sub _ _ c hm)
      cases f
      · simp only [List.nil_append, kept, hs, List.mem_cons, not_or]
        exact ⟨fun h => hnd.1.1 h.symm, hcb⟩
      · simp only [List.nil_append, kept, hs]
        exact hcb
    | cons y L ih =>
      intro f hnd
      rw [List.cons_append, List.nodup_cons] at hnd
      have := ih (semi form (sentence d y)) hnd.2
      rw [List.cons_append]
      cases f
      · simp only [kept, List.mem_cons, not_or]
        refine ⟨?_, this⟩
        rintro rfl
        exact hnd.1 (by simp)
      · simp only [kept]
        exact this
  have hnd := g.nodup
  rw [hbs] at hnd
  rw [hk, hbs] at hc'
  have hcd : c' ∈ d.bundles := by rw [hbs]; exact kept_sub _ _ c' hc'
  have : c' = c := g.own c' hcd c (by rw [hbs]; simp) s hs' (by simp [hr])
  subst this
  exact key L false hnd hc'

/-! ## Example -/

/-- The first sentence ends with a semicolon; the next bundle gets the number of the last one. -/
example : let r := merge (fun x => if x = 2 then ['a', ';'] else ['b']) (exDoc (fun _ => []))
    r.2 = none ∧ r.1.bundles.map (sentence r.1) = [[1, 2, 4], [6, 7]] ∧ r.1.heap.parent 4 = some 0 ∧ r.1.heap.parent 7 = some 6 ∧ r.1.number 2 = 3 ∧
    (newBundle r.1 []).number 3 = 3 := by decide +kernel

end Verif.Sent
