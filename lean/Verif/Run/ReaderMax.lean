import Verif.Run.ReaderDocs

/-!
# `max_docs`, and the ids of bundles whose sentences have none
-/

namespace Verif.Run
open Verif.Py

/-! ## C72: `max_docs` with `split_docs` -/

/-- The sentences of a document of a file: the first one, and only that, is marked as the start of a document, and there
are at least two. -/
def IsDoc (d : List Sent) : Prop := ∃ t u r, d = t :: u :: r ∧ t.newdoc = true ∧ ∀ x ∈ u :: r, x.newdoc = false

theorem place_all (c : RConf) (hk : c.perDoc = 0) (s : Loop) (t : Sent) (add : Bool) :
    ∃ doc', place c s t add = ({ s with doc := doc' }, false) ∧ sentsOf doc' = sentsOf s.doc ++ [t] ∧ doc' ≠ [] := by
  unfold place
  simp only [hk, ne_eq, not_true_eq_false, false_and, if_false, decide_false]
  by_cases h : s.doc = [] ∨ add = false
  · rw [if_pos h]
    exact ⟨_, rfl, by rw [sentsOf_append]; simp [sentsOf], by simp⟩
  · rw [if_neg h]
    have hd : s.doc ≠ [] := fun e => h (Or.inl e)
    refine ⟨_, rfl, sentsOf_addLast t _ hd, ?_⟩
    intro e
    have := congrArg List.length e
    rw [length_addLast] at this
    exact hd (List.eq_nil_of_length_eq_zero this)

/-- A sentence that does not start a document. -/
theorem step_inner (c : RConf) (hk : c.perDoc = 0) (s : Loop) (t : Sent) (ht : t.newdoc = false)
    (h : s.loaded = 0 → s.docsLoaded < c.maxDocs) :
    ∃ s', readStep c s t = (s', false) ∧ sentsOf s'.doc = sentsOf s.doc ++ [t] ∧ s'.doc ≠ [] ∧
      s'.loaded = s.loaded + 1 ∧ s'.docsLoaded = s.docsLoaded + (if s.loaded = 0 then 1 else 0) ∧
      s'.buffer = s.buffer ∧ s'.finished = s.finished := by
  unfold readStep
  rw [if_neg (by rintro ⟨h1, _, _, h2⟩; have := h h1; omega)]
  have main : ∀ (s1 : Loop) (add : Bool), s1.doc = s.doc → s1.loaded = s.loaded + 1 →
      s1.docsLoaded = s.docsLoaded + (if s.loaded = 0 then 1 else 0) → s1.buffer = s.buffer → s1.finished = s.finished →
      ∃ s', newdocThenPlace c s1 t add = (s', false) ∧ sentsOf s'.doc = sentsOf s.doc ++ [t] ∧ s'.doc ≠ [] ∧
        s'.loaded = s.loaded + 1 ∧ s'.docsLoaded = s.docsLoaded + (if s.loaded = 0 then 1 else 0) ∧
        s'.buffer = s.buffer ∧ s'.finished = s.finished := by
    intro s1 add h1 h2 h3 h4 h5
    unfold newdocThenPlace
    rw [if_neg (by simp [ht])]
    obtain ⟨doc', e, e1, e2⟩ := place_all c hk s1 t add
    exact ⟨_, e, by rw [← h1]; exact e1, e2, h2, h3, h4, h5⟩
  cases bundleOf c t with
  | some b => exact main _ _ (by split <;> rfl) (by split <;> rfl) (by simp only [ht]; split <;> simp_all) (by split <;> rfl) (by split <;> rfl)
  | none => exact main _ _ (by split <;> rfl) (by split <;> rfl) (by simp only [ht]; split <;> simp_all) (by split <;> rfl) (by split <;> rfl)

theorem file_inner (c : RConf) (hk : c.perDoc = 0) (ts : List Sent) : ∀ (r : List Sent) (s : Loop),
    (∀ x ∈ r, x.newdoc = false) → s.loaded ≠ 0 → s.doc ≠ [] →
    ∃ s', readFile c s (r ++ ts) = readFile c s' ts ∧ sentsOf s'.doc = sentsOf s.doc ++ r ∧ s'.doc ≠ [] ∧
      s'.loaded ≠ 0 ∧ s'.docsLoaded = s.docsLoaded ∧ s'.buffer = s.buffer ∧ s'.finished = s.finished := by
  intro r
  induction r with
  | nil => intro s _ h1 h2; exact ⟨s, rfl, by simp, h2, h1, rfl, rfl, rfl⟩
  | cons x r ih =>
    intro s h h1 h2
    obtain ⟨s1, e, a1, a2, a3, a4, a5, a6⟩ := step_inner c hk s x (h x (List.mem_cons_self ..)) (fun e => absurd e h1)
    obtain ⟨s', b0, b1, b2, b3, b4, b5, b6⟩ := ih s1 (fun y hy => h y (List.mem_cons_of_mem _ hy)) (by omega) a2
    refine ⟨s', ?_, ?_, b2, b3, ?_, b5.trans a5, b6.trans a6⟩
    · rw [← b0, List.cons_append]
      conv => lhs; unfold readFile; rw [e]
    · rw [b1, a1]; simp
    · rw [b4, a4, if_neg h1]; rfl

/-- What is read of the documents `ds` after the first one, when `p` more may be loaded. -/
def tailDocs : Nat → List (List Sent) → List (List Sent)
  | _, [] => []
  | 0, _ :: _ => []
  | 1, d :: _ => [d.take 1]
  | 2, d :: _ => [d]
  | p + 3, d :: ds => d :: tailDocs (p + 1) ds

/-- The end of a document within a file: the next document starts, or the file ends. -/
theorem end_of_doc (c : RConf) (hs : c.splitDocs = true) (s : Loop) (hd : s.doc ≠ []) (ds : List (List Sent)) (hds : ∀ d ∈ ds, IsDoc d) :
    (c.maxDocs ≠ 0 ∧ c.maxDocs ≤ s.docsLoaded →
      (readLoop c s ds.flatten []).1.finished = true ∧ (readLoop c s ds.flatten []).1.doc = s.doc) ∧
    (ds = [] → (readLoop c s ds.flatten []).1.finished = true ∧ (readLoop c s ds.flatten []).1.doc = s.doc) ∧
    (¬ (c.maxDocs ≠ 0 ∧ c.maxDocs ≤ s.docsLoaded) → ∀ t u r ds', ds = (t :: u :: r) :: ds' →
      ∃ s', readLoop c s ds.flatten [] = (s', u :: r ++ ds'.flatten, []) ∧ s'.finished = false ∧ s'.buffer = some t ∧
        s'.docsLoaded = s.docsLoaded ∧ s'.doc = s.doc) := by
  have stop : ∀ (t : Sent) (ts : List Sent), t.newdoc = true → c.maxDocs ≠ 0 ∧ c.maxDocs ≤ s.docsLoaded →
      (readLoop c s (t :: ts) []).1.finished = true ∧ (readLoop c s (t :: ts) []).1.doc = s.doc := by
    intro t ts ht hm
    have hstep : (readStep c s t).2 = true ∧ (readStep c s t).1.finished = true ∧ (readStep c s t).1.doc = s.doc := by
      unfold readStep
      rw [if_neg (by simp [ht])]
      cases bundleOf c t with
      | some b => simp [newdocThenPlace, ht, hm]
      | none => simp [newdocThenPlace, ht, hm]
    unfold readLoop readFile
    generalize readStep c s t = q at *
    obtain ⟨s', ret⟩ := q
    simp only at hstep
    obtain ⟨e, h1, h2⟩ := hstep
    subst e
    exact ⟨h1, h2⟩
  have split : ∀ (t : Sent) (ts : List Sent), t.newdoc = true → ¬ (c.maxDocs ≠ 0 ∧ c.maxDocs ≤ s.docsLoaded) →
      ∃ s', readLoop c s (t :: ts) [] = (s', ts, []) ∧ s'.finished = false ∧ s'.buffer = some t ∧
        s'.docsLoaded = s.docsLoaded ∧ s'.doc = s.doc := by
    intro t ts ht hm
    have hstep : ∃ s', readStep c s t = (s', true) ∧ s'.finished = false ∧ s'.buffer = some t ∧
        s'.docsLoaded = s.docsLoaded ∧ s'.doc = s.doc := by
      unfold readStep
      rw [if_neg (by simp [ht])]
      cases bundleOf c t with
      | some b =>
        simp only [ht, newdocThenPlace, if_neg hm, if_true, Bool.true_eq_false, and_false, if_false]
        rw [if_pos ⟨hd, hs⟩]
        exact ⟨_, rfl, rfl, rfl, rfl, rfl⟩
      | none =>
        simp only [ht, newdocThenPlace, if_neg hm, if_true, Bool.true_eq_false, and_false, if_false]
        rw [if_pos ⟨hd, hs⟩]
        exact ⟨_, rfl, rfl, rfl, rfl, rfl⟩
    obtain ⟨s', e, h1, h2, h3, h4⟩ := hstep
    refine ⟨s', ?_, h1, h2, h3, h4⟩
    unfold readLoop readFile
    rw [e]
  refine ⟨fun hm => ?_, fun e => ?_, fun hm t u r ds' e => ?_⟩
  · cases ds with
    | nil => exact ⟨rfl, rfl⟩
    | cons d ds =>
      obtain ⟨t, u, r, e, ht, _⟩ := hds d (List.mem_cons_self ..)
      rw [e, List.flatten_cons, List.cons_append]
      exact stop t _ ht hm
  · subst e; exact ⟨rfl, rfl⟩
  · obtain ⟨t', u', r', e', ht, _⟩ := hds (t :: u :: r) (by rw [e]; exact List.mem_cons_self ..)
    have : t = t' := by simpa using congrArg List.head? e'
    subst this
    rw [e, List.flatten_cons, List.cons_append]
    exact split t _ ht hm

theorem all_finished {c : RConf} {fuel : Nat} {r : Reader} {docs : List (List Group)} (h : r.all c fuel = some docs)
    (hf : r.finished = true) : docs = [] := by
  cases fuel <;> (unfold Reader.all at h; rw [if_pos hf] at h; cases h; rfl)

theorem loop_of_file {c : RConf} {s s' : Loop} {a b : List Sent} (h : readFile c s a = readFile c s' b) :
    readLoop c s a [] = readLoop c s' b [] := by
  unfold readLoop; rw [h]

theorem tail_docs (c : RConf) (hk : c.perDoc = 0) (hs : c.splitDocs = true) : ∀ (fuel p : Nat) (ds : List (List Sent))
    (t u : Sent) (r : List Sent) (m : Nat), p ≠ 0 → c.maxDocs = m + p → (∀ d ∈ (t :: u :: r) :: ds, IsDoc d) →
    ∀ docs, Reader.all c fuel ⟨some (u :: r ++ ds.flatten), [], some t, false, m⟩ = some docs →
    docs.map sentsOf = tailDocs p ((t :: u :: r) :: ds) := by
  intro fuel
  induction fuel with
  | zero => intro p ds t u r m _ _ _ docs h; unfold Reader.all at h; simp at h
  | succ fuel ih =>
    intro p ds t u r m hp hm hds docs h
    obtain ⟨fuel', rest, e, hd, hr⟩ := all_some h rfl
    cases e
    obtain ⟨t', u', r', e', ht, hnew⟩ := hds _ (List.mem_cons_self ..)
    simp only [List.cons.injEq] at e'
    obtain ⟨rfl, rfl, rfl⟩ := e'
    have hst : startLoop c ⟨some (u :: r ++ ds.flatten), [], some t, false, m⟩ =
        { doc := [⟨bufferedId c t, [t]⟩], docsLoaded := m + 1, finished := false } := by
      unfold startLoop; simp [ht]
    generalize hs0 : ({ doc := [⟨bufferedId c t, [t]⟩], docsLoaded := m + 1, finished := false } : Loop) = s0 at hst
    have hs0d : sentsOf s0.doc = [t] ∧ s0.loaded = 0 ∧ s0.docsLoaded = m + 1 ∧ s0.buffer = none ∧ s0.finished = false ∧ s0.doc ≠ [] := by
      rw [← hs0]; exact ⟨rfl, rfl, rfl, rfl, rfl, by simp⟩
    have hproc : Reader.process c ⟨some (u :: r ++ ds.flatten), [], some t, false, m⟩ =
        (⟨some (readLoop c s0 (u :: r ++ ds.flatten) []).2.1, (readLoop c s0 (u :: r ++ ds.flatten) []).2.2,
          (readLoop c s0 (u :: r ++ ds.flatten) []).1.buffer, (readLoop c s0 (u :: r ++ ds.flatten) []).1.finished,
          (readLoop c s0 (u :: r ++ ds.flatten) []).1.docsLoaded⟩, (readLoop c s0 (u :: r ++ ds.flatten) []).1.doc) := by
      unfold Reader.process
      simp only [hst]
    have hu : u.newdoc = false := hnew u (List.mem_cons_self ..)
    by_cases h1 : p = 1
    · subst h1
      -- the limit is reached by the second sentence
      have hstep : readStep c s0 u = ({ s0 with finished := true }, true) := by
        unfold readStep
        rw [if_pos ⟨hs0d.2.1, hu, by omega, by rw [hs0d.2.2.1]; omega⟩]
      have hloop : readLoop c s0 (u :: r ++ ds.flatten) [] = ({ s0 with finished := true }, r ++ ds.flatten, []) := by
        rw [List.cons_append]
        unfold readLoop readFile
        rw [hstep]
      rw [hproc, hloop] at hd hr
      have := all_finished hr rfl
      subst this
      rw [hd]
      simp [tailDocs, hs0d.1]
    · obtain ⟨s1, e, a1, a2, a3, a4, a5, a6⟩ := step_inner c hk s0 u hu (fun _ => by rw [hs0d.2.2.1]; omega)
      obtain ⟨s2, b0, b1, b2, b3, b4, b5, b6⟩ := file_inner c hk ds.flatten r s1
        (fun x hx => hnew x (List.mem_cons_of_mem _ hx)) (by omega) a2
      have hfile : readFile c s0 (u :: r ++ ds.flatten) = readFile c s2 ds.flatten := by
        rw [← b0, List.cons_append]
        conv => lhs; unfold readFile; rw [e]
      have hloop := loop_of_file hfile
      have hdl : s2.docsLoaded = m + 2 := by rw [b4, a4, hs0d.2.2.1, if_pos hs0d.2.1]
      have hsents : sentsOf s2.doc = t :: u :: r := by rw [b1, a1, hs0d.1]; simp
      obtain ⟨g1, g2, g3⟩ := end_of_doc c hs s2 b2 ds (fun d hd => hds d (List.mem_cons_of_mem _ hd))
      rw [hproc, hloop] at hd hr
      by_cases h2 : p = 2
      · subst h2
        obtain ⟨f1, f2⟩ := g1 ⟨by omega, by rw [hdl]; omega⟩
        have := all_finished hr f1
        subst this
        rw [hd]
        simp only [List.map_cons, List.map_nil, f2, hsents, tailDocs]
      · obtain ⟨q, rfl⟩ : ∃ q, p = q + 3 := ⟨p - 3, by omega⟩
        cases ds with
        | nil =>
          obtain ⟨f1, f2⟩ := g2 rfl
          have := all_finished hr f1
          subst this
          rw [hd]
          simp only [List.map_cons, List.map_nil, f2, hsents, tailDocs]
        | cons d ds =>
          obtain ⟨t2, u2, r2, e2, _, _⟩ := hds d (List.mem_cons_of_mem _ (List.mem_cons_self ..))
          subst e2
          obtain ⟨s3, k0, k1, k2, k3, k4⟩ := g3 (by rw [hdl]; omega) t2 u2 r2 ds rfl
          rw [k0] at hd hr
          simp only [k1, k2, k3, hdl] at hr
          have := ih (q + 1) ds t2 u2 r2 (m + 2) (by omega) (by omega)
            (fun d hd => hds d (List.mem_cons_of_mem _ hd)) rest hr
          rw [hd]
          simp only [List.map_cons, this, k4, hsents, tailDocs]

theorem tailDocs_eq : ∀ (p : Nat) (ds : List (List Sent)),
    tailDocs p ds = ds.take (p / 2) ++ (if p % 2 = 1 then ((ds.drop (p / 2)).take 1).map (·.take 1) else [])
  | _, [] => by simp [tailDocs]
  | 0, _ :: _ => by simp [tailDocs]
  | 1, d :: ds => by simp [tailDocs]
  | 2, d :: ds => by simp [tailDocs]
  | p + 3, d :: ds => by
    rw [tailDocs, tailDocs_eq (p + 1) ds]
    have h1 : (p + 3) / 2 = (p + 1) / 2 + 1 := by omega
    have h2 : (p + 3) % 2 = (p + 1) % 2 := by omega
    rw [h1, h2]
    simp

/-- What `split_docs=1 max_docs=n` really reads. -/
theorem max_docs_eq (c : RConf) (hk : c.perDoc = 0) (hs : c.splitDocs = true) (hm : c.maxDocs ≠ 0)
    (ds : List (List Sent)) (hne : ds ≠ []) (hds : ∀ d ∈ ds, IsDoc d) (docs : List (List Group)) (fuel : Nat)
    (h : ({ files := [ds.flatten] } : Reader).all c fuel = some docs) :
    docs.map sentsOf = ds.take ((c.maxDocs + 1) / 2) ++
      (if c.maxDocs % 2 = 0 then ((ds.drop (c.maxDocs / 2)).take 1).map (·.take 1) else []) := by
  obtain ⟨fuel', rest, e, hd, hr⟩ := all_some h rfl
  cases ds with
  | nil => exact absurd rfl hne
  | cons d ds =>
    obtain ⟨t, u, r, rfl, ht, hnew⟩ := hds d (List.mem_cons_self ..)
    -- the first sentence
    have hstep : ∃ s, readStep c {} t = (s, false) ∧ sentsOf s.doc = [t] ∧ s.doc ≠ [] ∧ s.loaded = 1 ∧ s.docsLoaded = 1 ∧
        s.buffer = none ∧ s.finished = false := by
      unfold readStep
      rw [if_neg (by simp [ht])]
      cases bundleOf c t with
      | some b =>
        simp only [ht, Bool.true_eq_false, and_false, if_false, newdocThenPlace, if_true]
        rw [if_neg (by simp), if_neg (by simp)]
        obtain ⟨doc', e, e1, e2⟩ := place_all c hk { lastId := b, loaded := 0 + 1, docsLoaded := 0 + 1 } t (decide (b = []))
        exact ⟨_, e, by simpa [sentsOf] using e1, e2, rfl, rfl, rfl, rfl⟩
      | none =>
        simp only [ht, Bool.true_eq_false, and_false, if_false, newdocThenPlace, if_true]
        rw [if_neg (by simp), if_neg (by simp)]
        obtain ⟨doc', e, e1, e2⟩ := place_all c hk { loaded := 0 + 1, docsLoaded := 0 + 1 } t false
        exact ⟨_, e, by simpa [sentsOf] using e1, e2, rfl, rfl, rfl, rfl⟩
    obtain ⟨s1, e, a1, a2, a3, a4, a5, a6⟩ := hstep
    obtain ⟨s2, b0, b1, b2, b3, b4, b5, b6⟩ := file_inner c hk ds.flatten (u :: r) s1 hnew (by omega) a2
    have hfile : readFile c {} ((t :: u :: r) :: ds).flatten = readFile c s2 ds.flatten := by
      rw [← b0, List.flatten_cons, List.cons_append]
      conv => lhs; unfold readFile; rw [e]
    have hloop := loop_of_file hfile
    have hsents : sentsOf s2.doc = t :: u :: r := by rw [b1, a1]; rfl
    obtain ⟨g1, g2, g3⟩ := end_of_doc c hs s2 b2 ds (fun d hd => hds d (List.mem_cons_of_mem _ hd))
    have hproc : Reader.process c { files := [((t :: u :: r) :: ds).flatten] } =
        (⟨some (readLoop c s2 ds.flatten []).2.1, (readLoop c s2 ds.flatten []).2.2,
          (readLoop c s2 ds.flatten []).1.buffer, (readLoop c s2 ds.flatten []).1.finished,
          (readLoop c s2 ds.flatten []).1.docsLoaded⟩, (readLoop c s2 ds.flatten []).1.doc) := by
      rw [← hloop]; rfl
    rw [hproc] at hd hr
    have hdl : s2.docsLoaded = 1 := by rw [b4, a4]
    have hgoal : docs.map sentsOf = (t :: u :: r) :: tailDocs (c.maxDocs - 1) ds := by
      by_cases h1 : c.maxDocs = 1
      · obtain ⟨f1, f2⟩ := g1 ⟨hm, by omega⟩
        have := all_finished hr f1
        subst this
        rw [hd, h1]
        simp only [List.map_cons, List.map_nil, f2, hsents]
        cases ds <;> rfl
      · cases ds with
        | nil =>
          obtain ⟨f1, f2⟩ := g2 rfl
          have := all_finished hr f1
          subst this
          rw [hd]
          simp only [List.map_cons, List.map_nil, f2, hsents, tailDocs]
        | cons d ds =>
          obtain ⟨t2, u2, r2, e2, _, _⟩ := hds d (List.mem_cons_of_mem _ (List.mem_cons_self ..))
          subst e2
          obtain ⟨s3, k0, k1, k2, k3, k4⟩ := g3 (by omega) t2 u2 r2 ds rfl
          rw [k0] at hd hr
          simp only [k1, k2, k3, hdl] at hr
          have := tail_docs c hk hs fuel' (c.maxDocs - 1) ds t2 u2 r2 1 (by omega) (by omega)
            (fun d hd => hds d (List.mem_cons_of_mem _ hd)) rest hr
          rw [hd]
          simp only [List.map_cons, this, k4, hsents]
    rw [hgoal, tailDocs_eq]
    obtain ⟨q, hq⟩ : ∃ q, c.maxDocs = q + 1 := ⟨c.maxDocs - 1, by omega⟩
    rw [hq]
    have h1 : (q + 1 + 1) / 2 = q / 2 + 1 := by omega
    rw [h1, Nat.add_sub_cancel]
    by_cases hodd : q % 2 = 1
    · have h2 : (q + 1) / 2 = q / 2 + 1 := by omega
      rw [if_pos hodd, if_pos (by omega), h2]
      simp
    · rw [if_neg hodd, if_neg (by omega)]
      simp

/-- C72 is violated: with `split_docs=1 max_docs=n`, for every `n > 1` and every file of at least `n` documents with at
least two sentences each, the documents read are not the first `n` documents of the file: every second one is counted
twice, and the last one may be cut after its first sentence. -/
theorem C72_max_docs_violated (c : RConf) (hk : c.perDoc = 0) (hs : c.splitDocs = true) (hm : 2 ≤ c.maxDocs)
    (ds : List (List Sent)) (hl : c.maxDocs ≤ ds.length) (hds : ∀ d ∈ ds, IsDoc d) (docs : List (List Group))
    (fuel : Nat) (h : ({ files := [ds.flatten] } : Reader).all c fuel = some docs) :
    docs.map (fun d => d.flatMap (·.sents)) ≠ ds.take c.maxDocs := by
  have h1 := max_docs_eq c hk hs (by omega) ds (by intro e; rw [e] at hl; simp at hl; omega) hds docs fuel h
  have e0 : docs.map (fun d => d.flatMap (·.sents)) = docs.map sentsOf := rfl
  rw [e0, h1]
  intro e
  have hlen := congrArg List.length e
  simp only [List.length_append, List.length_take] at hlen
  by_cases h2 : c.maxDocs = 2
  · rw [h2] at e hl
    cases ds with
    | nil => simp at hl
    | cons d ds =>
      cases ds with
      | nil => simp at hl
      | cons d' ds =>
        simp at e
        obtain ⟨t, u, r, rfl, _⟩ := hds d' (by simp)
        simp at e
  · split at hlen
    · simp at hlen; omega
    · simp at hlen; omega

/-- C72 (partial): with `max_docs=1` exactly the first document is read. -/
theorem C72_max_docs_partial (c : RConf) (hk : c.perDoc = 0) (hs : c.splitDocs = true) (hm : c.maxDocs = 1)
    (ds : List (List Sent)) (hne : ds ≠ []) (hds : ∀ d ∈ ds, IsDoc d) (docs : List (List Group))
    (fuel : Nat) (h : ({ files := [ds.flatten] } : Reader).all c fuel = some docs) :
    docs.map (fun d => d.flatMap (·.sents)) = ds.take 1 := by
  have h1 := max_docs_eq c hk hs (by omega) ds hne hds docs fuel h
  rw [hm] at h1
  have e0 : docs.map (fun d => d.flatMap (·.sents)) = docs.map sentsOf := rfl
  rw [e0]
  simpa using h1

def docSents : List (List Sent) := [[⟨1, none, true⟩, ⟨2, none, false⟩], [⟨3, none, true⟩, ⟨4, none, false⟩, ⟨5, none, false⟩]]

example : (∀ d ∈ docSents, IsDoc d) ∧
    (readAll { splitDocs := true, maxDocs := 2 } [docSents.flatten]).map (·.map (fun d => (sentsOf d).map (·.id))) =
      some [[1, 2], [3]] := by
  refine ⟨?_, by decide⟩
  intro d hd
  simp [docSents] at hd
  rcases hd with rfl | rfl
  · exact ⟨_, _, _, rfl, rfl, by decide⟩
  · exact ⟨_, _, _, rfl, rfl, by decide⟩

/-! ## C75: sentences without ids -/

/-- The id of the last bundle is the last one seen. -/
def LastInv (s : Loop) : Prop :=
  ∀ g, s.doc.getLast? = some g → g.bundleId = (if s.lastId = [] then none else some s.lastId)

theorem getLast_addLast (t : Sent) {doc : List Group} {g : Group} (h : doc.getLast? = some g) :
    ∃ D, doc = D ++ [g] ∧ addLast t doc = D ++ [{ g with sents := g.sents ++ [t] }] := by
  rcases List.eq_nil_or_concat doc with e | ⟨D, x, e⟩
  · rw [e] at h; cases h
  · rw [List.concat_eq_append] at e
    have : x = g := by rw [e] at h; simpa using h
    subst this
    exact ⟨D, e, by rw [e, addLast_append]⟩

theorem step_last (c : RConf) (hk : c.perDoc = 0) (hs : c.splitDocs = false) (hm : c.maxDocs = 0) (s : Loop)
    (h : LastInv s) (t : Sent) : LastInv (readStep c s t).1 := by
  have new : ∀ (s : Loop) (doc : List Group) (t : Sent), s.doc = doc ++ [⟨if s.lastId = [] then none else some s.lastId, [t]⟩] →
      LastInv s := by
    intro s doc t e g hg
    rw [e] at hg
    simp only [List.getLast?_append, List.getLast?_singleton, Option.some_or, Option.some.injEq] at hg
    rw [← hg]
  cases hb : bundleOf c t with
  | some b =>
    obtain ⟨dl, e⟩ := readStep_eq c hm hs s t hb
    rw [e]
    unfold place
    simp only [hk, ne_eq, not_true_eq_false, false_and, if_false]
    by_cases h1 : s.doc = [] ∨ decide (b = s.lastId) = false
    · rw [if_pos h1]
      exact new _ s.doc t rfl
    · rw [if_neg h1]
      have h2 : b = s.lastId := by
        have : ¬ decide (b = s.lastId) = false := fun e => h1 (Or.inr e)
        simpa using this
      intro g hg
      simp only at hg ⊢
      cases hl : s.doc.getLast? with
      | none => rw [List.getLast?_eq_none_iff] at hl; exact absurd (Or.inl hl) h1
      | some x =>
        obtain ⟨D, e1, e2⟩ := getLast_addLast t hl
        rw [e2] at hg
        simp only [List.getLast?_append, List.getLast?_singleton, Option.some_or, Option.some.injEq] at hg
        rw [← hg, h2]
        exact h x hl
  | none =>
    obtain ⟨dl, e⟩ := readStep_none c hm hs s t hb
    rw [e]
    unfold place
    simp only [hk, ne_eq, not_true_eq_false, false_and, if_false]
    rw [if_pos (Or.inr trivial)]
    exact new _ s.doc t rfl

theorem file_append (c : RConf) (hk : c.perDoc = 0) (hs : c.splitDocs = false) (hm : c.maxDocs = 0) (ts : List Sent) :
    ∀ (as : List Sent) (s : Loop), s.buffer = none → LastInv s → ∃ s', readFile c s (as ++ ts) = readFile c s' ts ∧
      s'.buffer = none ∧ LastInv s' := by
  intro as
  induction as with
  | nil => intro s hb h; exact ⟨s, rfl, hb, h⟩
  | cons a as ih =>
    intro s hb h
    have h1 := step_goesOn c hk hs hm s a
    obtain ⟨s', i1, i2, i3⟩ := ih (readStep c s a).1 ((readStep_ok c hm s hb a).goOn h1) (step_last c hk hs hm s h a)
    refine ⟨s', ?_, i2, i3⟩
    rw [← i1, List.cons_append]
    conv => lhs; unfold readFile
    have : readStep c s a = ((readStep c s a).1, false) := Prod.ext rfl h1
    rw [this]

/-- C75 is violated: in every file, a sentence without an id that follows a sentence with an id is put into a bundle of its
own, but that bundle gets the same id as the bundle before it. -/
theorem C75_ids_violated (c : RConf) (hk : c.perDoc = 0) (hs : c.splitDocs = false) (hm : c.maxDocs = 0)
    (hi : c.ignoreIds = false) (as : List Sent) (t u : Sent) (b : Str) (hne : b ≠ []) (ht : HasBundle b t)
    (hu : u.sentId = none) :
    ∃ D g, readAll c [as ++ [t, u]] = some [D ++ [g, ⟨some b, [u]⟩]] ∧ t ∈ g.sents ∧ g.bundleId = some b := by
  obtain ⟨s, e, hb, hl⟩ := file_append c hk hs hm [t, u] as {} rfl (by intro g hg; cases hg)
  obtain ⟨dl, e1⟩ := readStep_eq c hm hs s t (bundleOf_of_has hi ht)
  have h1 := step_goesOn c hk hs hm s t
  have hl1 := step_last c hk hs hm s hl t
  have hlast : (readStep c s t).1.lastId = b := by
    rw [e1]
    unfold place
    simp only [hk, ne_eq, not_true_eq_false, false_and, if_false]
    split <;> rfl
  have hsome : ∃ D g, (readStep c s t).1.doc = D ++ [g] ∧ t ∈ g.sents := by
    rw [e1]
    unfold place
    simp only [hk, ne_eq, not_true_eq_false, false_and, if_false]
    by_cases h2 : s.doc = [] ∨ decide (b = s.lastId) = false
    · rw [if_pos h2]; exact ⟨s.doc, _, rfl, by simp⟩
    · rw [if_neg h2]
      cases hl : s.doc.getLast? with
      | none => rw [List.getLast?_eq_none_iff] at hl; exact absurd (Or.inl hl) h2
      | some x =>
        obtain ⟨D, _, e2⟩ := getLast_addLast t hl
        exact ⟨D, _, e2, by simp⟩
  obtain ⟨D, g, hD, hg⟩ := hsome
  have hgid : g.bundleId = some b := by
    have := hl1 g (by rw [hD]; simp)
    rw [hlast, if_neg hne] at this
    exact this
  have hb1 : (readStep c s t).1.buffer = none := (readStep_ok c hm s hb t).goOn h1
  obtain ⟨dl2, e3⟩ := readStep_none c hm hs (readStep c s t).1 u (by unfold bundleOf; rw [hu]; simp)
  have h3 : readStep c (readStep c s t).1 u = (Loop.mk (D ++ [g, ⟨some b, [u]⟩]) b ((readStep c s t).1.loaded + 1) dl2
      none (readStep c s t).1.finished, false) := by
    rw [e3]
    unfold place
    simp only [hk, ne_eq, not_true_eq_false, false_and, if_false, decide_false]
    rw [if_pos (Or.inr trivial), hlast, if_neg hne, hb1, hD]
    simp
  have hfile : readFile c {} (as ++ [t, u]) = (Loop.mk (D ++ [g, ⟨some b, [u]⟩]) b ((readStep c s t).1.loaded + 1) dl2
      none (readStep c s t).1.finished, [], false) := by
    rw [e]
    unfold readFile
    have : readStep c s t = ((readStep c s t).1, false) := Prod.ext rfl h1
    rw [this]
    simp only
    unfold readFile
    rw [h3]
    rfl
  have hloop : readLoop c {} (as ++ [t, u]) [] = (Loop.mk (D ++ [g, ⟨some b, [u]⟩]) b ((readStep c s t).1.loaded + 1) dl2
      none true, [], []) := by
    unfold readLoop
    rw [hfile]
  refine ⟨D, g, ?_, hg, hgid⟩
  unfold readAll
  have hproc : Reader.process c { files := [as ++ [t, u]] } = (⟨some [], [], none, true, dl2⟩, D ++ [g, ⟨some b, [u]⟩]) := by
    have : Reader.process c { files := [as ++ [t, u]] } =
        (⟨some (readLoop c {} (as ++ [t, u]) []).2.1, (readLoop c {} (as ++ [t, u]) []).2.2,
          (readLoop c {} (as ++ [t, u]) []).1.buffer, (readLoop c {} (as ++ [t, u]) []).1.finished,
          (readLoop c {} (as ++ [t, u]) []).1.docsLoaded⟩, (readLoop c {} (as ++ [t, u]) []).1.doc) := rfl
    rw [this, hloop]
  unfold Reader.all
  rw [if_neg (by simp)]
  simp only [hproc]
  have : Reader.all c ([as ++ [t, u]].flatten.length) ⟨some [], [], none, true, dl2⟩ = some [] := by
    cases [as ++ [t, u]].flatten.length <;> rfl
  rw [this]

/-- Nothing has an id. -/
def NoIds (s : Loop) : Prop := s.lastId = [] ∧ ∀ g ∈ s.doc, g.bundleId = none

theorem place_noIds (c : RConf) (s : Loop) (h : NoIds s) (t : Sent) : NoIds (place c s t false).1 := by
  unfold place
  rw [if_pos (Or.inr rfl)]
  split
  · exact h
  · refine ⟨h.1, ?_⟩
    intro g hg
    rcases List.mem_append.1 hg with hg | hg
    · exact h.2 g hg
    · rw [List.mem_singleton] at hg
      rw [hg, h.1]; rfl

theorem step_noIds (c : RConf) (s : Loop) (h : NoIds s) (t : Sent) (ht : bundleOf c t = none) :
    NoIds (readStep c s t).1 := by
  have hn : ∀ s : Loop, NoIds s → NoIds (newdocThenPlace c s t false).1 := by
    intro s h
    unfold newdocThenPlace
    split
    · split
      · exact h
      · split
        · exact h
        · exact place_noIds c { s with docsLoaded := s.docsLoaded + 1 } h t
    · exact place_noIds c s h t
  unfold readStep
  split
  · exact h
  · simp only [ht]
    apply hn
    split <;> exact h

theorem file_noIds (c : RConf) : ∀ (ts : List Sent) (s : Loop), NoIds s → (∀ t ∈ ts, bundleOf c t = none) →
    NoIds (readFile c s ts).1 ∧ (∀ t ∈ (readFile c s ts).2.1, bundleOf c t = none) := by
  intro ts
  induction ts with
  | nil => intro s h _; exact ⟨h, by simp [readFile]⟩
  | cons t ts ih =>
    intro s h ht
    have h1 := step_noIds c s h t (ht t (List.mem_cons_self ..))
    unfold readFile
    generalize readStep c s t = r at *
    obtain ⟨s', ret⟩ := r
    cases ret with
    | true => exact ⟨h1, fun x hx => ht x (List.mem_cons_of_mem _ hx)⟩
    | false => exact ih s' h1 (fun x hx => ht x (List.mem_cons_of_mem _ hx))

theorem step_bufferNone (c : RConf) (s : Loop) (t : Sent) (hb : ∀ x, s.buffer = some x → bundleOf c x = none)
    (ht : bundleOf c t = none) : ∀ x, (readStep c s t).1.buffer = some x → bundleOf c x = none := by
  have hp : ∀ (s : Loop) (add : Bool), (∀ x, s.buffer = some x → bundleOf c x = none) →
      ∀ x, (place c s t add).1.buffer = some x → bundleOf c x = none := by
    intro s add hb x
    unfold place
    split
    · split
      · intro e; cases e; exact ht
      · exact hb x
    · exact hb x
  have hn : ∀ (s : Loop) (add : Bool), (∀ x, s.buffer = some x → bundleOf c x = none) →
      ∀ x, (newdocThenPlace c s t add).1.buffer = some x → bundleOf c x = none := by
    intro s add hb x
    unfold newdocThenPlace
    split
    · split
      · exact hb x
      · split
        · intro e; cases e; exact ht
        · exact hp { s with docsLoaded := s.docsLoaded + 1 } add hb x
    · exact hp s add hb x
  unfold readStep
  split
  · exact hb
  · simp only [ht]
    apply hn
    split <;> exact hb

theorem file_bufferNone (c : RConf) : ∀ (ts : List Sent) (s : Loop), (∀ x, s.buffer = some x → bundleOf c x = none) →
    (∀ t ∈ ts, bundleOf c t = none) → ∀ x, (readFile c s ts).1.buffer = some x → bundleOf c x = none := by
  intro ts
  induction ts with
  | nil => intro s h _; exact h
  | cons t ts ih =>
    intro s h ht
    have h1 := step_bufferNone c s t h (ht t (List.mem_cons_self ..))
    unfold readFile
    generalize readStep c s t = r at *
    obtain ⟨s', ret⟩ := r
    cases ret with
    | true => exact h1
    | false => exact ih s' h1 (fun x hx => ht x (List.mem_cons_of_mem _ hx))

theorem loop_noIds (c : RConf) : ∀ (fs : List (List Sent)) (ts : List Sent) (s : Loop), NoIds s →
    (∀ x, s.buffer = some x → bundleOf c x = none) → (∀ t ∈ ts, bundleOf c t = none) →
    (∀ f ∈ fs, ∀ t ∈ f, bundleOf c t = none) →
    NoIds (readLoop c s ts fs).1 ∧ (∀ x, (readLoop c s ts fs).1.buffer = some x → bundleOf c x = none) ∧
      (∀ t ∈ (readLoop c s ts fs).2.1, bundleOf c t = none) := by
  intro fs
  induction fs with
  | nil =>
    intro ts s h hb ht _
    have h1 := file_noIds c ts s h ht
    have h2 := file_bufferNone c ts s hb ht
    unfold readLoop
    generalize readFile c s ts = r at *
    obtain ⟨s', rest, ret⟩ := r
    cases ret <;> exact ⟨h1.1, h2, h1.2⟩
  | cons f fs ih =>
    intro ts s h hb ht hfs
    have h1 := file_noIds c ts s h ht
    have h2 := file_bufferNone c ts s hb ht
    unfold readLoop
    generalize readFile c s ts = r at *
    obtain ⟨s', rest, ret⟩ := r
    cases ret with
    | true => exact ⟨h1.1, h2, h1.2⟩
    | false =>
      simp only
      split
      · exact ih f s' h1.1 h2 (hfs f (List.mem_cons_self ..)) (fun x hx => hfs x (List.mem_cons_of_mem _ hx))
      · exact ⟨h1.1, h2, h1.2⟩

/-- C75 (partial): if no sentence has an id (or `ignore_sent_id` is set) and `zone` is not set, every bundle gets its id
from the document. Missing: files in which only some sentences have ids (`C75_ids_violated`), and `zone`
(`C75_zone_violated`). -/
theorem C75_ids_partial (c : RConf) (hz : c.zoned = false) (files : List (List Sent))
    (hf : ∀ f ∈ files, ∀ t ∈ f, c.ignoreIds = true ∨ t.sentId = none) (fuel : Nat) (docs : List (List Group))
    (h : ({ files := files } : Reader).all c fuel = some docs) : ∀ d ∈ docs, ∀ g ∈ d, g.bundleId = none := by
  have main : ∀ (fuel : Nat) (r : Reader), (∀ x, r.buffer = some x → bundleOf c x = none) →
      (∀ ts, r.current = some ts → ∀ t ∈ ts, bundleOf c t = none) → (∀ f ∈ r.files, ∀ t ∈ f, bundleOf c t = none) →
      ∀ docs, r.all c fuel = some docs → ∀ d ∈ docs, ∀ g ∈ d, g.bundleId = none := by
    intro fuel
    induction fuel with
    | zero =>
      intro r _ _ _ docs h
      unfold Reader.all at h
      split at h <;> cases h
      simp
    | succ fuel ih =>
      intro r hb hc hfs docs h
      by_cases hfin : r.finished = true
      · have := all_finished h hfin
        subst this; simp
      · replace hfin : r.finished = false := by simpa using hfin
        obtain ⟨fuel', rest, e, hd, hr⟩ := all_some h hfin
        cases e
        have hs : NoIds (startLoop c r) ∧ (startLoop c r).buffer = none := by
          unfold startLoop
          cases hbuf : r.buffer with
          | none => exact ⟨⟨rfl, by simp⟩, rfl⟩
          | some x =>
            refine ⟨⟨rfl, ?_⟩, rfl⟩
            intro g hg
            simp only [List.mem_singleton] at hg
            rw [hg]
            simp [bufferedId, hb x hbuf, hz]
        have key : (∀ g ∈ (r.process c).2, g.bundleId = none) ∧
            (∀ x, (r.process c).1.buffer = some x → bundleOf c x = none) ∧
            (∀ ts, (r.process c).1.current = some ts → ∀ t ∈ ts, bundleOf c t = none) ∧
            (∀ f ∈ (r.process c).1.files, f ∈ r.files) := by
          obtain ⟨cur, files, buf, fin, dl⟩ := r
          generalize hst : startLoop c ⟨cur, files, buf, fin, dl⟩ = s at *
          simp only at hc hfs
          have go : ∀ (ts : List Sent) (fs : List (List Sent)), (∀ t ∈ ts, bundleOf c t = none) →
              (∀ f ∈ fs, f ∈ files) → ∀ q : Reader × List Group, q =
                (⟨some (readLoop c s ts fs).2.1, (readLoop c s ts fs).2.2, (readLoop c s ts fs).1.buffer,
                  (readLoop c s ts fs).1.finished, (readLoop c s ts fs).1.docsLoaded⟩, (readLoop c s ts fs).1.doc) →
              (∀ g ∈ q.2, g.bundleId = none) ∧ (∀ x, q.1.buffer = some x → bundleOf c x = none) ∧
                (∀ ts, q.1.current = some ts → ∀ t ∈ ts, bundleOf c t = none) ∧ (∀ f ∈ q.1.files, f ∈ files) := by
            intro ts fs h1 h2 q e
            obtain ⟨a1, a2, a3⟩ := loop_noIds c fs ts s hs.1 (by rw [hs.2]; simp) h1 (fun f hf => hfs f (h2 f hf))
            subst e
            refine ⟨a1.2, a2, ?_, fun f hf => h2 f (loop_files_sub c fs ts s f hf)⟩
            intro ts' e; cases e; exact a3
          cases cur with
          | some cur =>
            apply go cur files (hc cur rfl) (fun f hf => hf)
            unfold Reader.process
            simp only [hst]
          | none =>
            cases files with
            | nil =>
              unfold Reader.process
              simp only [hst]
              exact ⟨hs.1.2, by simp, by simp, by simp⟩
            | cons f fs =>
              apply go f fs (hfs f (List.mem_cons_self ..)) (fun x hx => List.mem_cons_of_mem _ hx)
              unfold Reader.process
              simp only [hst]
        rw [hd]
        intro x hx
        rcases List.mem_cons.1 hx with e | e
        · rw [e]; exact key.1
        · exact ih _ key.2.1 key.2.2.1 (fun f hf => hfs f (key.2.2.2 f hf)) rest hr x e
  apply main fuel { files := files } (by simp) (by simp) ?_ docs h
  intro f hf' t ht
  unfold bundleOf
  rcases hf f hf' t ht with e | e
  · rw [if_pos e]
  · rw [e]; simp

/-- Sentences without ids, for a reader of several zones, while there is room. -/
theorem file_room (c : RConf) (hm : c.maxDocs = 0) (hs : c.splitDocs = false) (hz : c.multizone = true)
    (ts : List Sent) : ∀ (as : List Sent) (s : Loop), (∀ t ∈ as, t.sentId = none) →
    s.doc.length + as.length ≤ c.perDoc → s.buffer = none →
    ∃ s', readFile c s (as ++ ts) = readFile c s' ts ∧ s'.finished = s.finished ∧ s'.buffer = none ∧
      s'.doc.length = s.doc.length + as.length := by
  intro as
  induction as with
  | nil => intro s _ _ hb; exact ⟨s, rfl, rfl, hb, rfl⟩
  | cons a as ih =>
    intro s h1 h3 hb
    have hnone : bundleOf c a = none := by
      unfold bundleOf
      rw [h1 a (List.mem_cons_self ..)]
      simp
    obtain ⟨dl, e⟩ := readStep_none c hm hs s a hnone
    simp only [List.length_cons] at h3
    have hp : readStep c s a = (Loop.mk (s.doc ++ [⟨if s.lastId = [] then none else some s.lastId, [a]⟩])
        s.lastId (s.loaded + 1) dl s.buffer s.finished, false) := by
      rw [e]
      unfold place
      simp only
      rw [if_pos (Or.inr trivial), if_neg (by intro ⟨_, _, e⟩; omega)]
      simp [hz]
    obtain ⟨s', i1, i2, i3, i4⟩ := ih (Loop.mk (s.doc ++ [⟨if s.lastId = [] then none else some s.lastId, [a]⟩])
        s.lastId (s.loaded + 1) dl s.buffer s.finished) (fun t ht => h1 t (List.mem_cons_of_mem _ ht))
        (by simp only [List.length_append, List.length_singleton]; omega) hb
    refine ⟨s', ?_, i2, i3, ?_⟩
    · rw [← i1, List.cons_append]
      conv => lhs; unfold readFile; rw [hp]
    · rw [i4]; simp; omega

/-- C75 is violated: with `bundles_per_doc=k` and `zone` set, in every file of `k + 1` sentences without ids the last one is
put into a bundle with the id `?`. -/
theorem C75_zone_violated (c : RConf) (hm : c.maxDocs = 0) (hs : c.splitDocs = false) (hz : c.multizone = true)
    (hzone : c.zoned = true) (hk : c.perDoc ≠ 0) (as : List Sent) (hl : as.length = c.perDoc) (t : Sent)
    (hn : ∀ x ∈ as ++ [t], x.sentId = none) :
    ∃ d, readAll c [as ++ [t]] = some [d, [⟨some ['?'], [t]⟩]] := by
  obtain ⟨s, e, h1, h2, h3⟩ := file_room c hm hs hz [t] as {} (fun x hx => hn x (List.mem_append_left _ hx))
    (by simp [hl]) rfl
  have hnone : bundleOf c t = none := by
    unfold bundleOf
    rw [hn t (List.mem_append_right _ (List.mem_singleton.2 rfl))]
    simp
  have hlen : s.doc.length = c.perDoc := by rw [h3, ← hl]; simp
  obtain ⟨dl, e1⟩ := readStep_none c hm hs s t hnone
  have hstep : readStep c s t = (Loop.mk s.doc s.lastId (s.loaded + 1) dl (some t) s.finished, true) := by
    rw [e1]
    unfold place
    simp only
    rw [if_pos (Or.inr trivial), if_pos ⟨hk, fun e => hk (by rw [e] at hlen; simpa using hlen.symm), hlen.symm⟩]
  have hfile : readFile c {} (as ++ [t]) = (Loop.mk s.doc s.lastId (s.loaded + 1) dl (some t) s.finished, [], true) := by
    rw [e]
    unfold readFile
    rw [hstep]
  have hproc : Reader.process c { files := [as ++ [t]] } = (⟨some [], [], some t, false, dl⟩, s.doc) := by
    have : Reader.process c { files := [as ++ [t]] } =
        (⟨some (readLoop c {} (as ++ [t]) []).2.1, (readLoop c {} (as ++ [t]) []).2.2,
          (readLoop c {} (as ++ [t]) []).1.buffer, (readLoop c {} (as ++ [t]) []).1.finished,
          (readLoop c {} (as ++ [t]) []).1.docsLoaded⟩, (readLoop c {} (as ++ [t]) []).1.doc) := rfl
    rw [this]
    unfold readLoop
    rw [hfile]
    simp only at h1 ⊢
    rw [h1]
  have hproc2 : Reader.process c ⟨some [], [], some t, false, dl⟩ =
      (⟨some [], [], none, true, dl + (if t.newdoc then 1 else 0)⟩, [⟨some ['?'], [t]⟩]) := by
    unfold Reader.process startLoop readLoop readFile
    simp [bufferedId, hnone, hzone]
  refine ⟨s.doc, ?_⟩
  unfold readAll
  have hfl : [as ++ [t]].flatten.length + 1 = (as.length + 1) + 1 := by simp
  rw [hfl]
  unfold Reader.all
  rw [if_neg (by simp)]
  simp only [hproc]
  unfold Reader.all
  rw [if_neg (by simp)]
  simp only [hproc2]
  have : Reader.all c as.length ⟨some [], [], none, true, dl + (if t.newdoc then 1 else 0)⟩ = some [] := by
    cases as.length <;> rfl
  rw [this]

example : readAll {} [[rs 1 ['a'], ⟨2, none, false⟩]] = some [[⟨some ['a'], [rs 1 ['a']]⟩, ⟨some ['a'], [⟨2, none, false⟩]⟩]] := by
  decide

end Verif.Run
