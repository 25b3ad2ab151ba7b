import Verif.Text.AddMwtProps

/-!
# Property C130: ud.JoinAsMwt (udapi/block/ud/joinasmwt.py)

The trees of `Verif.Text.AddMwt`. `str.isalpha` is a parameter. `none` is an `IndexError` (a word with an empty form). Simplified: a
MISC attribute `OrigForm` that is not a string is left alone. Lines 33-36 do nothing, because `create_multiword_token` has moved the
attribute `SpaceAfter` already (root.py:187-190).
-/

namespace Verif.Text.JoinMwt
open Verif.Py Verif.DualDict Verif.Text.AddMwt
open Verif.DualDict.Spec (Map)

/-- `'OrigForm'` -/
def orig : Str := ['O', 'r', 'i', 'g', 'F', 'o', 'r', 'm']

/-- The condition of the loop for a word and the next word (joinasmwt.py:27-28). -/
def cond (alpha : Char → Bool) (mwts : List Tk) (w x : Wd) : Option Bool :=
  if noSpace w.misc = false then some false
  else if (mwtOf mwts x.id).isSome then some false
  else
    match w.form.getLast? with
    | none => none
    | some c =>
      if alpha c = false then some false
      else match x.form.head? with | none => none | some d => some (alpha d)

/-- The loop (joinasmwt.py:27-30): the words after `w` that are joined with it. -/
def chain (alpha : Char → Bool) (mwts : List Tk) (w : Wd) : List Wd → Option (List Wd)
  | [] => some []
  | x :: r =>
    match cond alpha mwts w x with
    | none => none
    | some false => some []
    | some true => (chain alpha mwts x r).map (x :: ·)

/-- The form from `OrigForm` (joinasmwt.py:37-41) for the words of the token. -/
def revert (l : List Nat) (w : Wd) : Wd :=
  if w.id ∈ l then
    match w.misc orig with
    | some (.str (c :: f)) => { w with form := c :: f, misc := put w.misc orig none }
    | _ => w
  else w

/-- `process_node(node)` (joinasmwt.py:21-40) -/
def joinNode (alpha : Char → Bool) (rev : Bool) (s : Sent) (v : Nat) : Option Sent :=
  match mwtOf s.mwts v with
  | some _ => some s
  | none =>
    (locate v s.ws).bind fun (_, o, post) =>
    (chain alpha s.mwts o post).map fun r =>
    if r = [] then s
    else
      let ids := (o :: r).map (·.id)
      let (ws, mwts) := create s.ws s.mwts ids ((o :: r).flatMap (·.form)) (fun _ => none)
      { s with ws := if rev then ws.map (revert ids) else ws, mwts := mwts }

/-- `process_tree` (core/block.py:55-62) -/
def run (alpha : Char → Bool) (rev : Bool) (s : Sent) : Option Sent := (s.ws.map (·.id)).foldlM (joinNode alpha rev) s

/-! ## What it should do -/

/-- The word belongs to no multi-word token. -/
def Free (mwts : List Tk) (w : Wd) : Prop := ∀ t ∈ mwts, w.id ∉ t.words

/-- There is no space between the two words, both belong to no multi-word token, and there are letters at the boundary. -/
def Joins (alpha : Char → Bool) (mwts : List Tk) (w x : Wd) : Prop :=
  Free mwts w ∧ Free mwts x ∧ w.misc sa = some (.str ['N', 'o']) ∧
    (∃ c, w.form.getLast? = some c ∧ alpha c = true) ∧ ∃ d, x.form.head? = some d ∧ alpha d = true

/-- The words are divided into the groups; `J` holds for the words next to each other in one group, but not between groups. -/
inductive Groups (J : Wd → Wd → Prop) : List Wd → List (List Wd) → Prop
  | nil : Groups J [] []
  | cons {g ws : List Wd} {gs : List (List Wd)} (hne : g ≠ []) (hin : ∀ A w x B, g = A ++ w :: x :: B → J w x)
      (hout : ∀ w x, g.getLast? = some w → ws.head? = some x → ¬ J w x) (hr : Groups J ws gs) : Groups J (g ++ ws) (g :: gs)

/-- The multi-word token of a group: its words, the forms together, and the space after its last word. -/
def tokOf (g : List Wd) : Tk where
  words := g.map (·.id)
  form := g.flatMap (·.form)
  misc := if g.getLast?.any (fun w => noSpace w.misc) then (fun k => if k = sa then some (.str ['N', 'o']) else none) else fun _ => none

/-- A word of a multi-word token: the original form, without `SpaceAfter` and `OrigForm`. -/
def wordOf (rev : Bool) (w : Wd) : Wd :=
  match (if rev then w.misc orig else none) with
  | some (.str (c :: f)) => { w with form := c :: f, misc := fun k => if k = sa ∨ k = orig then none else w.misc k }
  | _ => { w with misc := fun k => if k = sa then none else w.misc k }

/-- The words of a group. -/
def wordsOf (rev : Bool) (g : List Wd) : List Wd := if 2 ≤ g.length then g.map (wordOf rev) else g

/-! ## Proofs -/

theorem noSpace_iff (m : Map) : noSpace m = true ↔ m sa = some (.str ['N', 'o']) := by
  unfold noSpace; simp

theorem mwtOf_none_iff {m : List Tk} {w : Wd} : mwtOf m w.id = none ↔ Free m w := by
  refine ⟨mwtOf_none, fun h => ?_⟩
  unfold mwtOf
  rw [List.find?_eq_none]
  intro t ht
  simpa using h t ht

theorem mwtOf_isSome {m : List Tk} {w : Wd} : (mwtOf m w.id).isSome = true ↔ ¬ Free m w := by
  rw [← mwtOf_none_iff]
  cases mwtOf m w.id <;> simp

theorem cond_true {alpha : Char → Bool} {m : List Tk} {w x : Wd} (hw : Free m w) (h : cond alpha m w x = some true) : Joins alpha m w x := by
  unfold cond at h
  by_cases h1 : noSpace w.misc = false
  · rw [if_pos h1] at h; cases h
  · rw [if_neg h1] at h
    by_cases h2 : (mwtOf m x.id).isSome = true
    · rw [if_pos h2] at h; cases h
    · rw [if_neg h2] at h
      cases hc : w.form.getLast? with
      | none => rw [hc] at h; cases h
      | some c =>
        rw [hc] at h
        simp only at h
        by_cases h3 : alpha c = false
        · rw [if_pos h3] at h; cases h
        · rw [if_neg h3] at h
          cases hd : x.form.head? with
          | none => rw [hd] at h; cases h
          | some d =>
            rw [hd] at h
            refine ⟨hw, ?_, (noSpace_iff _).1 (by simpa using h1), ⟨c, hc, by simpa using h3⟩, ⟨d, hd, Option.some.inj h⟩⟩
            rw [mwtOf_isSome] at h2
            exact Classical.not_not.1 h2

theorem cond_false {alpha : Char → Bool} {m : List Tk} {w x : Wd} (h : cond alpha m w x = some false) : ¬ Joins alpha m w x := by
  rintro ⟨_, h2, h1, ⟨c, hc, hca⟩, ⟨d, hd, hda⟩⟩
  unfold cond at h
  rw [if_neg (by rw [(noSpace_iff _).2 h1]; simp), if_neg (by rw [mwtOf_isSome]; exact fun h => h h2)] at h
  rw [hc] at h
  simp only at h
  rw [if_neg (by rw [hca]; simp), hd] at h
  simp only at h
  rw [hda] at h
  cases h

theorem chain_spec {alpha : Char → Bool} {m : List Tk} : ∀ {post r : List Wd} {w : Wd}, Free m w → chain alpha m w post = some r →
    ∃ q, post = r ++ q ∧ (∀ x ∈ r, Free m x) ∧ (∀ A y x B, w :: r = A ++ y :: x :: B → Joins alpha m y x) ∧
      (∀ y x, (w :: r).getLast? = some y → q.head? = some x → ¬ Joins alpha m y x)
  | [], r, w, hw, h => by
    cases h
    refine ⟨[], rfl, by simp, ?_, by simp⟩
    intro A y x B e
    exact absurd (congrArg List.length e) (by simp; omega)
  | x :: post, r, w, hw, h => by
    unfold chain at h
    cases hc : cond alpha m w x with
    | none => rw [hc] at h; cases h
    | some b =>
      rw [hc] at h
      cases b with
      | false =>
        cases h
        refine ⟨x :: post, rfl, by simp, ?_, ?_⟩
        · intro A y x B e
          exact absurd (congrArg List.length e) (by simp; omega)
        · intro y z hy hz
          cases hy
          cases hz
          exact cond_false hc
      | true =>
        simp only at h
        obtain ⟨r', hr', e⟩ := Option.map_eq_some_iff.1 h
        subst e
        have hj := cond_true hw hc
        obtain ⟨q, e1, e2, e3, e4⟩ := chain_spec hj.2.1 hr'
        refine ⟨q, by rw [e1]; rfl, ?_, ?_, ?_⟩
        · intro y hy
          rcases List.mem_cons.1 hy with h | h
          · rw [h]; exact hj.2.1
          · exact e2 y h
        · intro A y z B e
          cases A with
          | nil => cases e; exact hj
          | cons a A => exact e3 A y z B (by simpa using (List.cons.inj e).2)
        · intro y z hy hz
          rw [List.getLast?_cons_cons] at hy
          exact e4 y z hy hz

theorem locate_at {v : Nat} : ∀ {P : List Wd} {o : Wd} {Q : List Wd}, (∀ w ∈ P, w.id ≠ v) → o.id = v → locate v (P ++ o :: Q) = some (P, o, Q)
  | [], o, Q, _, ho => by show locate v (o :: Q) = _; unfold locate; rw [if_pos ho]
  | p :: P, o, Q, hP, ho => by
    show locate v (p :: (P ++ o :: Q)) = _
    unfold locate
    rw [if_neg (hP p (List.mem_cons_self ..)), locate_at (fun w hw => hP w (List.mem_cons_of_mem _ hw)) ho]
    rfl

theorem word_eq (rev : Bool) {l : List Nat} {w : Wd} (h : w.id ∈ l) :
    (if rev then revert l (unspace l w) else unspace l w) = wordOf rev w := by
  have hu : unspace l w = { w with misc := fun k => if k = sa then none else w.misc k } := by
    unfold unspace
    rw [if_pos h]
    congr 1
  have hso : (orig = sa) = False := by simp [orig, sa]
  unfold wordOf
  cases rev with
  | false => simp [hu]
  | true =>
    rw [if_pos rfl, if_pos rfl, hu]
    unfold revert
    rw [if_pos h]
    simp only [hso, if_false]
    split
    · rename_i c f hc
      congr 1
      funext k
      unfold put truthy
      by_cases h1 : k = orig
      · simp [h1]
      · by_cases h2 : k = sa
        · simp [h2]
        · simp [h1, h2]
    · rfl

theorem word_other (rev : Bool) {l : List Nat} {w : Wd} (h : w.id ∉ l) :
    (if rev then revert l (unspace l w) else unspace l w) = w := by
  rw [unspace_other h]
  unfold revert
  rw [if_neg h]
  cases rev <;> rfl

theorem find_id {P : List Wd} {o : Wd} {Q : List Wd} (hP : ∀ w ∈ P, w.id ≠ o.id) :
    (P ++ o :: Q).find? (fun w => decide (some w.id = some o.id)) = some o := by
  rw [List.find?_append, List.find?_eq_none.2 (fun w hw => by simpa using hP w hw)]
  simp

/-- One call that makes a multi-word token. -/
theorem join_made {alpha : Char → Bool} {rev : Bool} {m : List Tk} {n : Nat} {P r q : List Wd} {o : Wd} (hn : ((P ++ (o :: r ++ q)).map (·.id)).Nodup)
    (hf : Free m o) (hc : chain alpha m o (r ++ q) = some r) (hr : r ≠ []) :
    joinNode alpha rev ⟨P ++ (o :: r ++ q), m, n⟩ o.id = some ⟨P ++ ((o :: r).map (wordOf rev) ++ q), m ++ [tokOf (o :: r)], n⟩ := by
  have hP : ∀ w ∈ P, w.id ≠ o.id := by
    intro w hw e
    rw [List.map_append, List.nodup_append] at hn
    exact hn.2.2 w.id (List.mem_map_of_mem hw) o.id (by simp) e
  have hPg : ∀ w ∈ P, w.id ∉ (o :: r).map (·.id) := by
    intro w hw hi
    rw [List.map_append, List.nodup_append] at hn
    refine hn.2.2 w.id (List.mem_map_of_mem hw) w.id ?_ rfl
    rw [List.map_append]
    exact List.mem_append_left _ hi
  have hqg : ∀ w ∈ q, w.id ∉ (o :: r).map (·.id) := by
    intro w hw hi
    rw [List.map_append, List.nodup_append] at hn
    have h2 := hn.2.1
    rw [List.map_append, List.nodup_append] at h2
    exact h2.2.2 w.id hi w.id (List.mem_map_of_mem hw) rfl
  unfold joinNode
  rw [mwtOf_none_iff.2 hf]
  simp only
  rw [show P ++ (o :: r ++ q) = P ++ o :: (r ++ q) from rfl, locate_at hP rfl]
  simp only [Option.bind_some, hc, Option.map_some, if_neg hr]
  congr 1
  have hlast : (o :: r).map (·.id) ≠ [] := by simp
  obtain ⟨g', y, hg⟩ : ∃ g' y, o :: r = g' ++ [y] :=
    ⟨(o :: r).dropLast, (o :: r).getLast (by simp), (List.dropLast_concat_getLast (by simp)).symm⟩
  have hfind : (P ++ o :: (r ++ q)).find? (fun w => decide (some w.id = ((o :: r).map (·.id)).getLast?)) = some y := by
    have e1 : P ++ o :: (r ++ q) = (P ++ g') ++ y :: q := by
      rw [show P ++ o :: (r ++ q) = P ++ ((o :: r) ++ q) from rfl, hg]; simp
    have e2 : ((o :: r).map (·.id)).getLast? = some y.id := by rw [hg]; simp
    rw [e2, e1]
    refine find_id ?_
    intro w hw e
    have : ((P ++ g' ++ y :: q).map (·.id)).Nodup := by rw [← e1]; exact hn
    rw [List.map_append, List.nodup_append] at this
    exact this.2.2 w.id (List.mem_map_of_mem hw) y.id (by simp) e
  unfold create
  rw [hfind]
  simp only [Option.map_some, Option.getD_some]
  have hw : (if rev = true then List.map (revert ((o :: r).map (·.id))) (List.map (unspace ((o :: r).map (·.id))) (P ++ o :: (r ++ q)))
      else List.map (unspace ((o :: r).map (·.id))) (P ++ o :: (r ++ q))) = P ++ ((o :: r).map (wordOf rev) ++ q) := by
    have : (if rev = true then List.map (revert ((o :: r).map (·.id))) (List.map (unspace ((o :: r).map (·.id))) (P ++ o :: (r ++ q)))
      else List.map (unspace ((o :: r).map (·.id))) (P ++ o :: (r ++ q))) =
      (P ++ ((o :: r) ++ q)).map (fun w => if rev then revert ((o :: r).map (·.id)) (unspace ((o :: r).map (·.id)) w) else unspace ((o :: r).map (·.id)) w) := by
      cases rev
      · rfl
      · rw [if_pos rfl, List.map_map]; rfl
    rw [this, List.map_append, List.map_append]
    congr 1
    · conv => rhs; rw [← List.map_id P]
      exact List.map_congr_left (fun w hw => word_other rev (hPg w hw))
    · congr 1
      · exact List.map_congr_left (fun w hw => word_eq rev (List.mem_map_of_mem hw))
      · conv => rhs; rw [← List.map_id q]
        exact List.map_congr_left (fun w hw => word_other rev (hqg w hw))
  rw [hw]
  congr 2
  unfold tokOf
  have hl : (o :: r).getLast? = some y := by rw [hg]; simp
  rw [hl]
  simp only [Option.any_some]
  congr 1

/-- A call that changes nothing. -/
theorem join_kept {alpha : Char → Bool} {rev : Bool} {s : Sent} {v : Nat} (h : mwtOf s.mwts v ≠ none) : joinNode alpha rev s v = some s := by
  unfold joinNode
  cases hm : mwtOf s.mwts v with
  | none => exact absurd hm h
  | some t => rfl

theorem fold_kept {alpha : Char → Bool} {rev : Bool} {s : Sent} : ∀ {l : List Nat}, (∀ v ∈ l, joinNode alpha rev s v = some s) →
    l.foldlM (joinNode alpha rev) s = some s
  | [], _ => rfl
  | v :: l, h => by
    rw [List.foldlM_cons, h v (List.mem_cons_self ..)]
    exact fold_kept (fun x hx => h x (List.mem_cons_of_mem _ hx))

/-- The multi-word tokens of the groups. -/
def newToks (gs : List (List Wd)) : List Tk := (gs.filter (fun g => decide (2 ≤ g.length))).map tokOf

theorem joins_mono {alpha : Char → Bool} {m N : List Tk} {w x : Wd} (hw : Free N w) (hx : Free N x) :
    Joins alpha (m ++ N) w x ↔ Joins alpha m w x := by
  have key : ∀ y : Wd, Free N y → (Free (m ++ N) y ↔ Free m y) := by
    intro y hy
    constructor
    · exact fun h t ht => h t (List.mem_append_left _ ht)
    · intro h t ht
      rcases List.mem_append.1 ht with ht | ht
      · exact h t ht
      · exact hy t ht
  unfold Joins
  rw [key w hw, key x hx]

theorem wordOf_id (rev : Bool) (w : Wd) : (wordOf rev w).id = w.id := by
  unfold wordOf
  split <;> rfl

theorem loop {alpha : Char → Bool} {rev : Bool} {m : List Tk} {n : Nat} : ∀ (k : Nat) (P R : List Wd) (N : List Tk) {s' : Sent},
    R.length ≤ k → ((P ++ R).map (·.id)).Nodup → (∀ t ∈ N, ∀ x ∈ t.words, x ∈ P.map (·.id)) →
    (R.map (·.id)).foldlM (joinNode alpha rev) ⟨P ++ R, m ++ N, n⟩ = some s' →
    ∃ gs, Groups (Joins alpha m) R gs ∧ s' = ⟨P ++ gs.flatMap (wordsOf rev), m ++ N ++ newToks gs, n⟩
  | _, P, [], N, s', _, _, _, h => by
    cases h
    exact ⟨[], .nil, by simp [newToks]⟩
  | 0, P, w :: R, N, s', hk, _, _, h => by simp at hk
  | k + 1, P, w :: R, N, s', hk, hn, hN, h => by
    have hfree : ∀ y ∈ w :: R, Free N y := by
      intro y hy t ht hx
      have := hN t ht y.id hx
      rw [List.map_append, List.nodup_append] at hn
      exact hn.2.2 y.id this y.id (List.mem_map_of_mem hy) rfl
    have single : joinNode alpha rev ⟨P ++ w :: R, m ++ N, n⟩ w.id = some ⟨P ++ w :: R, m ++ N, n⟩ →
        (∀ x, R.head? = some x → ¬ Joins alpha m w x) →
        ∃ gs, Groups (Joins alpha m) (w :: R) gs ∧ s' = ⟨P ++ gs.flatMap (wordsOf rev), m ++ N ++ newToks gs, n⟩ := by
      intro h1 h2
      rw [List.map_cons, List.foldlM_cons, h1] at h
      have h' : (R.map (·.id)).foldlM (joinNode alpha rev) ⟨(P ++ [w]) ++ R, m ++ N, n⟩ = some s' := by
        rw [List.append_assoc]; exact h
      obtain ⟨gs, g1, g2⟩ := loop k (P ++ [w]) R N (by simpa using hk) (by rw [List.append_assoc]; exact hn)
        (fun t ht x hx => by rw [List.map_append]; exact List.mem_append_left _ (hN t ht x hx)) h'
      refine ⟨[w] :: gs, .cons (g := [w]) (by simp) ?_ ?_ g1, ?_⟩
      · intro A y x B e
        exact absurd (congrArg List.length e) (by simp; omega)
      · intro y x hy hx
        cases hy
        exact h2 x hx
      · rw [g2]
        simp [wordsOf, newToks]
    by_cases hw : Free (m ++ N) w
    · have hm := mwtOf_none_iff.2 hw
      have hloc : locate w.id (P ++ w :: R) = some (P, w, R) := by
        refine locate_at ?_ rfl
        intro y hy e
        rw [List.map_append, List.nodup_append] at hn
        exact hn.2.2 y.id (List.mem_map_of_mem hy) w.id (by simp) e
      cases hc : chain alpha (m ++ N) w R with
      | none =>
        rw [List.map_cons, List.foldlM_cons] at h
        unfold joinNode at h
        rw [show ({ ws := P ++ w :: R, mwts := m ++ N, next := n } : Sent).mwts = m ++ N from rfl, hm] at h
        simp only [hloc, Option.bind_some, hc, Option.map_none] at h
        cases h
      | some r =>
        obtain ⟨q, e1, e2, e3, e4⟩ := chain_spec hw hc
        by_cases hr : r = []
        · refine single ?_ ?_
          · unfold joinNode
            rw [show ({ ws := P ++ w :: R, mwts := m ++ N, next := n } : Sent).mwts = m ++ N from rfl, hm]
            simp only [hloc, Option.bind_some, hc, Option.map_some, if_pos hr]
          · intro x hx
            rw [← joins_mono (hfree w (List.mem_cons_self ..)) (hfree x (List.mem_cons_of_mem _ (List.mem_of_head? hx)))]
            refine e4 w x (by rw [hr]; rfl) ?_
            rw [e1, hr] at hx
            exact hx
        · subst e1
          have hmade := join_made (rev := rev) (n := n) hn hw hc hr
          rw [show w :: (r ++ q) = w :: r ++ q from rfl, List.map_append, List.foldlM_append, List.map_cons, List.foldlM_cons, hmade] at h
          have hskip : (r.map (·.id)).foldlM (joinNode alpha rev)
              ⟨P ++ ((w :: r).map (wordOf rev) ++ q), m ++ N ++ [tokOf (w :: r)], n⟩ =
              some ⟨P ++ ((w :: r).map (wordOf rev) ++ q), m ++ N ++ [tokOf (w :: r)], n⟩ := by
            refine fold_kept ?_
            intro v hv
            refine join_kept ?_
            intro hnone
            have := mwtOf_none hnone (tokOf (w :: r)) (by simp)
            exact this (List.mem_cons_of_mem _ hv)
          simp only [Option.bind_eq_bind, Option.bind_some] at h
          rw [hskip] at h
          have h' : (q.map (·.id)).foldlM (joinNode alpha rev) ⟨(P ++ (w :: r).map (wordOf rev)) ++ q, m ++ (N ++ [tokOf (w :: r)]), n⟩ = some s' := by
            rw [List.append_assoc, ← List.append_assoc m]; exact h
          have hids : ((w :: r).map (wordOf rev)).map (·.id) = (w :: r).map (·.id) := by
            rw [List.map_map]
            exact List.map_congr_left (fun y _ => wordOf_id rev y)
          obtain ⟨gs, g1, g2⟩ := loop k (P ++ (w :: r).map (wordOf rev)) q (N ++ [tokOf (w :: r)])
            (by simp at hk; omega) (by
              rw [List.map_append, List.map_append, hids, ← List.map_append, ← List.map_append, List.append_assoc]
              exact hn) (by
              intro t ht x hx
              rw [List.map_append, hids]
              rcases List.mem_append.1 ht with ht | ht
              · exact List.mem_append_left _ (hN t ht x hx)
              · cases List.mem_singleton.1 ht
                exact List.mem_append_right _ hx) h'
          have hlen : 2 ≤ (w :: r).length := by
            cases r with
            | nil => exact absurd rfl hr
            | cons => simp
          refine ⟨(w :: r) :: gs, .cons (g := w :: r) (by simp) ?_ ?_ g1, ?_⟩
          · intro A y x B e
            have hy : y ∈ w :: r := by rw [e]; simp
            have hx : x ∈ w :: r := by rw [e]; simp
            exact (joins_mono (hfree y (List.mem_append_left q hy)) (hfree x (List.mem_append_left q hx))).1 (e3 A y x B e)
          · intro y x hy hx
            rw [← joins_mono (hfree y (List.mem_append_left q (List.mem_of_getLast? hy)))
              (hfree x (List.mem_append_right (w :: r) (List.mem_of_head? hx)))]
            exact e4 y x hy hx
          · rw [g2]
            congr 1
            · rw [List.flatMap_cons, wordsOf, if_pos hlen, List.append_assoc]
            · unfold newToks
              rw [List.filter_cons, if_pos (by simpa using hlen)]
              simp
    · refine single (join_kept ?_) ?_
      · intro hnone
        exact hw (mwtOf_none_iff.1 hnone)
      · intro x _ hj
        refine hw ?_
        intro t ht
        rcases List.mem_append.1 ht with ht | ht
        · exact hj.1 t ht
        · exact hfree w (List.mem_cons_self ..) t ht

/-- C130: for every tree, every definition of letters: the words are divided into the longest groups of words of which all neighbours are
to be joined. Each group of two or more words becomes a multi-word token, whose form is the forms of its words together, and which has
`SpaceAfter=No` if its last word had it; its words lose `SpaceAfter` and get their form from `OrigForm`. All other words and
multi-word tokens stay as they were. -/
theorem C130_groups {alpha : Char → Bool} {rev : Bool} {s s' : Sent} (hn : (s.ws.map (·.id)).Nodup) (h : run alpha rev s = some s') :
    ∃ gs, Groups (Joins alpha s.mwts) s.ws gs ∧ s'.ws = gs.flatMap (wordsOf rev) ∧
      s'.mwts = s.mwts ++ (gs.filter (fun g => decide (2 ≤ g.length))).map tokOf := by
  unfold run at h
  have h' : (s.ws.map (·.id)).foldlM (joinNode alpha rev) ⟨[] ++ s.ws, s.mwts ++ [], s.next⟩ = some s' := by
    rw [List.append_nil]; exact h
  obtain ⟨gs, g1, g2⟩ := loop s.ws.length [] s.ws [] (Nat.le_refl _) hn (by simp) h'
  refine ⟨gs, g1, ?_, ?_⟩
  · rw [g2]; rfl
  · rw [g2, List.append_nil]; rfl

/-! ### The text -/

theorem join_cases {alpha : Char → Bool} {rev : Bool} {s s1 : Sent} {v : Nat} (hn : (s.ws.map (·.id)).Nodup)
    (h : joinNode alpha rev s v = some s1) :
    s1 = s ∨ ∃ P o r q, s.ws = P ++ (o :: r ++ q) ∧ Free s.mwts o ∧ chain alpha s.mwts o (r ++ q) = some r ∧ r ≠ [] ∧
      s1 = ⟨P ++ ((o :: r).map (wordOf rev) ++ q), s.mwts ++ [tokOf (o :: r)], s.next⟩ := by
  have h0 := h
  unfold joinNode at h
  cases hm : mwtOf s.mwts v with
  | some t => rw [hm] at h; cases h; exact .inl rfl
  | none =>
    rw [hm] at h
    simp only at h
    cases hl : locate v s.ws with
    | none => rw [hl] at h; cases h
    | some x =>
      obtain ⟨P, o, post⟩ := x
      rw [hl] at h
      obtain ⟨e1, e2⟩ := locate_spec hl
      simp only [Option.bind_some] at h
      cases hc : chain alpha s.mwts o post with
      | none => rw [hc] at h; cases h
      | some r =>
        rw [hc] at h
        simp only [Option.map_some] at h
        by_cases hr : r = []
        · rw [if_pos hr] at h; cases h; exact .inl rfl
        · have hf : Free s.mwts o := mwtOf_none_iff.1 (by rw [e2]; exact hm)
          obtain ⟨q, e3, _⟩ := chain_spec hf hc
          subst e3
          refine .inr ⟨P, o, r, q, e1, hf, hc, hr, ?_⟩
          have := join_made (rev := rev) (n := s.next) (by rw [← show s.ws = P ++ (o :: r ++ q) from e1]; exact hn) hf hc hr
          rw [← show s.ws = P ++ (o :: r ++ q) from e1, e2, h0] at this
          exact Option.some.inj this

theorem tiles_words {m : List Tk} {P q : List Wd} : ∀ {g : List Wd} {l : List (Str × Bool)}, Tiles m (P ++ (g ++ q)) l →
    (∀ w ∈ g, Free m w) → g ≠ [] →
    ∃ l1 l2, l = l1 ++ (g.map (fun w => (w.form, noSpace w.misc)) ++ l2) ∧ Tiles m P l1 ∧ Tiles m q l2
  | [], _, _, _, hne => absurd rfl hne
  | [w], l, h, hf, _ => by
    obtain ⟨l1, l2, e, h1, h2⟩ := h.at_word (pre := P) (o := w) (post := q) rfl (hf w (List.mem_cons_self ..))
    exact ⟨l1, l2, by rw [e]; rfl, h1, h2⟩
  | w :: x :: g, l, h, hf, _ => by
    obtain ⟨l1, l2, e, h1, h2⟩ := h.at_word (pre := P) (o := w) (post := x :: g ++ q) rfl (hf w (List.mem_cons_self ..))
    obtain ⟨k1, k2, e', h1', h2'⟩ := tiles_words (P := []) (g := x :: g) h2 (fun y hy => hf y (List.mem_cons_of_mem _ hy)) (by simp)
    have hk : k1 = [] := by
      generalize hE : ([] : List Wd) = E at h1'
      cases h1' with
      | nil => rfl
      | word => cases hE
      | mwt _ _ hne => exact absurd (List.append_eq_nil_iff.1 hE.symm).1 hne
    subst hk
    exact ⟨l1, k2, by rw [e, e']; rfl, h1, h2'⟩

theorem detok_group : ∀ (g : List Wd), (∀ A w x B, g = A ++ w :: x :: B → noSpace w.misc = true) → g ≠ [] →
    detok (g.map (fun w => (w.form, noSpace w.misc))) = detok [(g.flatMap (·.form), g.getLast?.any (fun w => noSpace w.misc))]
  | [], _, h => absurd rfl h
  | [w], _, _ => by simp [detok]
  | w :: x :: g, h, _ => by
    have h1 := h [] w x g rfl
    have ih := detok_group (x :: g) (fun A y z B e => h (w :: A) y z B (by rw [e]; rfl)) (by simp)
    have e1 : detok ((w :: x :: g).map (fun w => (w.form, noSpace w.misc))) = w.form ++ detok ((x :: g).map (fun w => (w.form, noSpace w.misc))) := by
      unfold detok
      rw [List.map_cons, List.flatMap_cons, h1, if_pos rfl]
    rw [e1, ih, List.getLast?_cons_cons]
    unfold detok
    simp only [List.flatMap_cons, List.flatMap_nil, List.append_nil]
    split
    · simp
    · simp [List.append_assoc]

theorem detok_append (a b : List (Str × Bool)) : detok (a ++ b) = detok a ++ detok b := by
  unfold detok; rw [List.flatMap_append]

theorem step_text {alpha : Char → Bool} {rev : Bool} {s s1 : Sent} {v : Nat} {l : List (Str × Bool)} (hn : (s.ws.map (·.id)).Nodup)
    (ht : Tiles s.mwts s.ws l) (h : joinNode alpha rev s v = some s1) :
    (s1.ws.map (·.id)) = s.ws.map (·.id) ∧ ∃ l', Tiles s1.mwts s1.ws l' ∧ detok l' = detok l := by
  rcases join_cases hn h with rfl | ⟨P, o, r, q, e1, hf, hc, hr, rfl⟩
  · exact ⟨rfl, l, ht, rfl⟩
  · obtain ⟨q', e2, f1, f2, _⟩ := chain_spec hf hc
    have hfree : ∀ w ∈ o :: r, Free s.mwts w := by
      intro w hw
      rcases List.mem_cons.1 hw with h | h
      · rw [h]; exact hf
      · exact f1 w h
    rw [e1] at ht hn
    have hids : ((o :: r).map (wordOf rev)).map (·.id) = (o :: r).map (·.id) := by
      rw [List.map_map]
      exact List.map_congr_left (fun y _ => wordOf_id rev y)
    obtain ⟨l1, l2, e, t1, t2⟩ := tiles_words ht hfree (by simp)
    constructor
    · show (P ++ ((o :: r).map (wordOf rev) ++ q)).map (·.id) = _
      rw [e1, List.map_append, List.map_append, hids, ← List.map_append, ← List.map_append]
    · refine ⟨_, tiles_group (t := tokOf (o :: r)) t1 t2 hids (by simp) ?_ ?_, ?_⟩
      · intro w hw hi
        have hi : w.id ∈ (o :: r).map (·.id) := hi
        rw [List.map_append, List.map_append, List.nodup_append, List.nodup_append] at hn
        rcases List.mem_append.1 hw with hw | hw
        · exact hn.2.2 w.id (List.mem_map_of_mem hw) w.id (List.mem_append_left _ hi) rfl
        · exact hn.2.1.2.2 w.id hi w.id (List.mem_map_of_mem hw) rfl
      · intro t' ht' x hx
        obtain ⟨w, hw, e⟩ := List.mem_map.1 hx
        rw [← e]
        exact hfree w hw t' ht'
      · rw [e, detok_append, detok_append, show ((tokOf (o :: r)).form, noSpace (tokOf (o :: r)).misc) :: l2 =
          [((tokOf (o :: r)).form, noSpace (tokOf (o :: r)).misc)] ++ l2 from rfl, detok_append, detok_append _ l2,
          detok_group (o :: r) (fun A y x B e => (noSpace_iff _).2 (f2 A y x B e).2.2.1) (by simp)]
        congr 4
        unfold tokOf noSpace
        simp only
        split <;> simp_all

theorem run_text {alpha : Char → Bool} {rev : Bool} : ∀ (ids : List Nat) {s s' : Sent} {l : List (Str × Bool)}, (s.ws.map (·.id)).Nodup →
    Tiles s.mwts s.ws l → ids.foldlM (joinNode alpha rev) s = some s' →
    (s'.ws.map (·.id)).Nodup ∧ ∃ l', Tiles s'.mwts s'.ws l' ∧ detok l' = detok l
  | [], s, s', l, hn, ht, h => by cases h; exact ⟨hn, l, ht, rfl⟩
  | v :: ids, s, s', l, hn, ht, h => by
    rw [List.foldlM_cons] at h
    obtain ⟨s1, hs, h⟩ := Option.bind_eq_some_iff.1 h
    obtain ⟨h1, l1, h2, h3⟩ := step_text hn ht hs
    obtain ⟨k1, l2, k2, k3⟩ := run_text ids (by rw [h1]; exact hn) h2 h
    exact ⟨k1, l2, k2, k3.trans h3⟩

/-- C130: the text of the tree is the same, and each word is again in exactly one token. -/
theorem C130_text {alpha : Char → Bool} {rev : Bool} {s s' : Sent} {l : List (Str × Bool)} (hn : (s.ws.map (·.id)).Nodup)
    (ht : Tiles s.mwts s.ws l) (h : run alpha rev s = some s') :
    computeText true s'.toTree = computeText true s.toTree ∧ ∃ l', Tiles s'.mwts s'.ws l' := by
  obtain ⟨h1, l', h2, h3⟩ := run_text _ hn ht h
  refine ⟨?_, l', h2⟩
  rw [C84_text, C84_text, tiles_tokens h1 h2, tiles_tokens hn ht, h3]

/-! ### Exceptions -/

theorem cond_total {alpha : Char → Bool} {m : List Tk} {w x : Wd} (hw : w.form ≠ []) (hx : Free m x → x.form ≠ []) :
    cond alpha m w x ≠ none := by
  unfold cond
  split
  · simp
  · split
    · simp
    · rename_i h
      rw [mwtOf_isSome] at h
      have hx := hx (Classical.not_not.1 h)
      cases hf : w.form.getLast? with
      | none => exact absurd (List.getLast?_eq_none_iff.1 hf) hw
      | some c =>
        simp only
        split
        · simp
        · cases hd : x.form.head? with
          | none => exact absurd (List.head?_eq_none_iff.1 hd) hx
          | some d => simp

theorem chain_total {alpha : Char → Bool} {m : List Tk} : ∀ {post : List Wd} {w : Wd}, w.form ≠ [] → Free m w →
    (∀ x ∈ post, Free m x → x.form ≠ []) → chain alpha m w post ≠ none
  | [], _, _, _, _ => by unfold chain; simp
  | x :: post, w, hw, hf, hp => by
    unfold chain
    cases hc : cond alpha m w x with
    | none => exact absurd hc (cond_total hw (hp x (List.mem_cons_self ..)))
    | some b =>
      cases b with
      | false => simp
      | true =>
        simp only
        have hx := (cond_true hf hc).2.1
        have := chain_total (alpha := alpha) (post := post) (w := x) (hp x (List.mem_cons_self ..) hx) hx (fun y hy => hp y (List.mem_cons_of_mem _ hy))
        cases h : chain alpha m x post with
        | none => exact absurd h this
        | some r => simp

theorem locate_total {v : Nat} : ∀ {ws : List Wd}, v ∈ ws.map (·.id) → ∃ P o Q, locate v ws = some (P, o, Q)
  | [], h => by cases h
  | w :: ws, h => by
    unfold locate
    by_cases hw : w.id = v
    · rw [if_pos hw]; exact ⟨_, _, _, rfl⟩
    · rw [if_neg hw]
      rcases List.mem_cons.1 h with h | h
      · exact absurd h.symm hw
      · obtain ⟨P, o, Q, e⟩ := locate_total h
        rw [e]
        exact ⟨_, _, _, rfl⟩

theorem run_total {alpha : Char → Bool} {rev : Bool} : ∀ (ids : List Nat) {s : Sent}, (s.ws.map (·.id)).Nodup →
    (∀ v ∈ ids, v ∈ s.ws.map (·.id)) → (∀ w ∈ s.ws, Free s.mwts w → w.form ≠ []) → ∃ s', ids.foldlM (joinNode alpha rev) s = some s'
  | [], s, _, _, _ => ⟨s, rfl⟩
  | v :: ids, s, hn, hv, hf => by
    have h1 : ∃ s1, joinNode alpha rev s v = some s1 := by
      unfold joinNode
      cases hm : mwtOf s.mwts v with
      | some t => exact ⟨_, rfl⟩
      | none =>
        obtain ⟨P, o, Q, e⟩ := locate_total (hv v (List.mem_cons_self ..))
        obtain ⟨e1, e2⟩ := locate_spec e
        simp only [e, Option.bind_some]
        have ho : Free s.mwts o := mwtOf_none_iff.1 (by rw [e2]; exact hm)
        have := chain_total (alpha := alpha) (post := Q) (hf o (by rw [e1]; simp) ho) ho
          (fun x hx => hf x (by rw [e1]; simp [hx]))
        cases hc : chain alpha s.mwts o Q with
        | none => exact absurd hc this
        | some r => exact ⟨_, rfl⟩
    obtain ⟨s1, h1⟩ := h1
    have h2 : (s1.ws.map (·.id)) = s.ws.map (·.id) ∧ ∀ w ∈ s1.ws, Free s1.mwts w → w.form ≠ [] := by
      rcases join_cases hn h1 with rfl | ⟨P, o, r, q, e1, _, _, _, rfl⟩
      · exact ⟨rfl, hf⟩
      · have hids : ((o :: r).map (wordOf rev)).map (·.id) = (o :: r).map (·.id) := by
          rw [List.map_map]
          exact List.map_congr_left (fun y _ => wordOf_id rev y)
        constructor
        · show (P ++ ((o :: r).map (wordOf rev) ++ q)).map (·.id) = _
          rw [e1, List.map_append, List.map_append, hids, ← List.map_append, ← List.map_append]
        · intro w hw hfw
          have old : Free s.mwts w := fun t ht => hfw t (List.mem_append_left _ ht)
          rcases List.mem_append.1 hw with hw | hw
          · exact hf w (by rw [e1]; exact List.mem_append_left _ hw) old
          · rcases List.mem_append.1 hw with hw | hw
            · refine absurd ?_ (hfw (tokOf (o :: r)) (List.mem_append_right _ (List.mem_singleton.2 rfl)))
              show w.id ∈ (o :: r).map (·.id)
              rw [← hids]
              exact List.mem_map_of_mem hw
            · exact hf w (by rw [e1]; exact List.mem_append_right _ (List.mem_append_right _ hw)) old
    obtain ⟨s', h3⟩ := run_total (alpha := alpha) (rev := rev) ids (s := s1) (by rw [h2.1]; exact hn)
      (fun x hx => by rw [h2.1]; exact hv x (List.mem_cons_of_mem _ hx)) h2.2
    exact ⟨s', by rw [List.foldlM_cons, h1]; exact h3⟩

/-- C130: no exception is raised if no word has an empty form. -/
theorem C130_total {alpha : Char → Bool} {rev : Bool} {s : Sent} (hn : (s.ws.map (·.id)).Nodup) (hf : ∀ w ∈ s.ws, w.form ≠ []) :
    ∃ s', run alpha rev s = some s' := run_total _ hn (fun _ h => h) (fun w hw _ => hf w hw)

/-! ### A second run -/

theorem wordsOf_ids (rev : Bool) (g : List Wd) : (wordsOf rev g).map (·.id) = g.map (·.id) := by
  unfold wordsOf
  split
  · rw [List.map_map]
    exact List.map_congr_left (fun y _ => wordOf_id rev y)
  · rfl

theorem groups_ids {J : Wd → Wd → Prop} {rev : Bool} {ws : List Wd} {gs : List (List Wd)} (h : Groups J ws gs) :
    (gs.flatMap (wordsOf rev)).map (·.id) = ws.map (·.id) := by
  induction h with
  | nil => rfl
  | cons _ _ _ _ ih => rw [List.flatMap_cons, List.map_append, ih, wordsOf_ids, List.map_append]

theorem wordsOf_ne {rev : Bool} {g : List Wd} (h : g ≠ []) : wordsOf rev g ≠ [] := by
  intro e
  have := congrArg (List.map (·.id)) e
  rw [wordsOf_ids] at this
  simp at this
  exact h this

/-- In the result, a word of a multi-word token stays, and a word that belongs to none was a group of its own. -/
theorem second {alpha : Char → Bool} {rev : Bool} {m M : List Tk} {n : Nat} {W : List Wd} (hm : ∀ t ∈ m, t ∈ M) {R : List Wd} {gs : List (List Wd)}
    (h : Groups (Joins alpha m) R gs) : ∀ (P : List Wd), W = P ++ gs.flatMap (wordsOf rev) → (W.map (·.id)).Nodup →
    (∀ t ∈ newToks gs, t ∈ M) → (∀ w ∈ R, w.form ≠ []) → ∀ v ∈ R.map (·.id), joinNode alpha rev ⟨W, M, n⟩ v = some ⟨W, M, n⟩ := by
  induction h with
  | nil => intro P _ _ _ _ v hv; cases hv
  | @cons g ws gs hne hin hout hr ih =>
    intro P hW hn hM hf v hv
    rw [List.map_append] at hv
    rcases List.mem_append.1 hv with hv | hv
    · by_cases hfree : mwtOf M v = none
      · by_cases hlen : 2 ≤ g.length
        · have : tokOf g ∈ M := hM _ (by unfold newToks; rw [List.filter_cons, if_pos (by simpa using hlen)]; simp)
          exact absurd hv (mwtOf_none hfree _ this)
        · obtain ⟨w, rfl⟩ : ∃ w, g = [w] := by
            match g, hne, hlen with
            | [w], _, _ => exact ⟨w, rfl⟩
            | _ :: _ :: _, _, hlen => simp at hlen
          cases List.mem_singleton.1 hv
          have hg : wordsOf rev [w] = [w] := rfl
          rw [List.flatMap_cons, hg] at hW
          have hloc : locate w.id W = some (P, w, gs.flatMap (wordsOf rev)) := by
            rw [hW]
            refine locate_at ?_ rfl
            intro y hy e
            rw [hW, List.map_append, List.nodup_append] at hn
            exact hn.2.2 y.id (List.mem_map_of_mem hy) w.id (by simp) e
          have hchain : chain alpha M w (gs.flatMap (wordsOf rev)) = some [] := by
            cases hr with
            | nil => rfl
            | @cons g' ws' gs' hne' hin' hout' hr' =>
              obtain ⟨x, g'', rfl⟩ := List.exists_cons_of_ne_nil hne'
              rw [List.flatMap_cons]
              have hw0 : w.form ≠ [] := hf w (by simp)
              by_cases hlen' : 2 ≤ (x :: g'').length
              · have : tokOf (x :: g'') ∈ M := hM _ (by
                  unfold newToks
                  rw [List.filter_cons, if_neg (by simp), List.filter_cons, if_pos (by simpa using hlen')]; simp)
                unfold wordsOf
                rw [if_pos hlen']
                rw [List.map_cons, List.cons_append]
                unfold chain
                have hc : cond alpha M w (wordOf rev x) = some false := by
                  unfold cond
                  split
                  · rfl
                  · rw [if_pos]
                    rw [mwtOf_isSome]
                    intro hfr
                    refine hfr _ this ?_
                    rw [wordOf_id]
                    exact List.mem_cons_self ..
                rw [hc]
              · have hx : g'' = [] := by
                  cases g'' with
                  | nil => rfl
                  | cons => simp at hlen'
                subst hx
                show chain alpha M w (x :: gs'.flatMap (wordsOf rev)) = some []
                have hxf : x.form ≠ [] := hf x (by simp)
                unfold chain
                cases hc : cond alpha M w x with
                | none => exact absurd hc (cond_total hw0 (fun _ => hxf))
                | some b =>
                  cases b with
                  | false => rfl
                  | true =>
                    have hj := cond_true (mwtOf_none_iff.1 hfree) hc
                    exact absurd ⟨fun t ht => hj.1 t (hm t ht), fun t ht => hj.2.1 t (hm t ht), hj.2.2⟩ (hout w x rfl rfl)
          unfold joinNode
          rw [show ({ ws := W, mwts := M, next := n } : Sent).mwts = M from rfl, hfree]
          simp only [hloc, Option.bind_some, hchain, Option.map_some, if_true]
      · exact join_kept hfree
    · refine ih (P ++ wordsOf rev g) (by rw [hW, List.flatMap_cons, List.append_assoc]) hn ?_ (fun w hw => hf w (List.mem_append_right _ hw)) v hv
      intro t ht
      refine hM t ?_
      unfold newToks at ht ⊢
      rw [List.filter_cons]
      split
      · exact List.mem_cons_of_mem _ ht
      · exact ht

/-- C130: a second run of the block changes nothing. -/
theorem C130_again {alpha : Char → Bool} {rev : Bool} {s s' : Sent} (hn : (s.ws.map (·.id)).Nodup) (hf : ∀ w ∈ s.ws, w.form ≠ [])
    (h : run alpha rev s = some s') : run alpha rev s' = some s' := by
  obtain ⟨gs, g1, g2, g3⟩ := C130_groups hn h
  unfold run
  refine fold_kept ?_
  intro v hv
  have hids : s'.ws.map (·.id) = s.ws.map (·.id) := by rw [g2, groups_ids g1]
  have := second (rev := rev) (M := s'.mwts) (n := s'.next) (W := s'.ws) (fun t ht => by rw [g3]; exact List.mem_append_left _ ht) g1 []
    (by rw [g2]; rfl) (by rw [hids]; exact hn) (fun t ht => by rw [g3]; exact List.mem_append_right _ ht) hf v (by rw [← hids]; exact hv)
  exact this

/-! ## Examples -/

section Examples

/-- `a` `b` `c` `.` with no spaces; `b` has an original form -/
def exSent : Sent where
  ws := [
    { id := 1, parent := 0, form := ['a'], misc := fun k => if k = sa then some (.str ['N', 'o']) else none },
    { id := 2, parent := 1, form := ['b'], misc := fun k => if k = sa then some (.str ['N', 'o']) else if k = orig then some (.str ['x']) else none },
    { id := 3, parent := 1, form := ['c'], misc := fun k => if k = sa then some (.str ['N', 'o']) else none },
    { id := 4, parent := 1, form := ['.'] }, { id := 5, parent := 1, form := ['d'] }]
  mwts := []
  next := 6

example : (run Char.isAlpha true exSent).map (fun s => (s.ws.map (fun w => (w.form, noSpace w.misc)), s.mwts.map (fun t => (t.words, t.form, noSpace t.misc)))) =
    some ([(['a'], false), (['x'], false), (['c'], false), (['.'], false), (['d'], false)], [([1, 2, 3], ['a', 'b', 'c'], true)]) := by
  decide +kernel

end Examples

end Verif.Text.JoinMwt
