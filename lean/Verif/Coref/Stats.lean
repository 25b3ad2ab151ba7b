import Verif.Py.Str

/-!
# corefud.Stats

Model of `udapi/block/corefud/stats.py`: the counting of entities and mentions (lines 45-97) and the
resetting of the counters after each document (lines 99-110).

A word of a mention is a number; `parent w` is the number of its parent (`none` for an empty node) and
`deps w` are the parents in its enhanced dependencies.  A `Counter` with string keys is the list of the
keys incremented so far, so that the value of a key is the number of its occurrences; the keys are
`Key` instead of strings.  `report_basics` is not modelled, nor the number of all nodes.
-/

namespace Verif.Coref.Stats
open Verif.Py

/-- What is read from a mention: its words, the UPOS of its head, whether `','` is in its span. -/
structure Mention where
  words : List Nat
  upos : Str
  gap : Bool
deriving DecidableEq

/-- The nodes of the document: emptiness, parents, enhanced parents. -/
structure Nodes where
  empty : Nat → Bool
  parent : Nat → Option Nat
  deps : Nat → List Nat

/-- The parameters (lines 8-12); `selected = []` stands for `all` (and for an empty list). -/
structure Cfg where
  mMax : Nat
  eMax : Nat
  mentions : Bool
  details : Bool
  noSingletons : Bool
  noNonsingletons : Bool
  selected : List Str

/-- The keys of `self.counter` which are incremented by one. -/
inductive Key where
  | cLen (n : Nat)
  | mLen (n : Nat)
  | upos (u : Str)
  | withEmpty
  | withGaps
  | nontreelet
deriving DecidableEq

/-- The attributes of the block (lines 36-43). -/
structure St where
  keys : List Key := []
  cTotal : Nat := 0
  mTotal : Nat := 0
  mentions : Nat := 0
  entities : Nat := 0
  singletons : Nat := 0
  longestM : Nat := 0
  longestE : Nat := 0
  mWords : Nat := 0
deriving DecidableEq

/-- `'other'`. -/
def other : Str := ['o', 't', 'h', 'e', 'r']

/-- Lines 79-84: is the word counted as a head? -/
def isHead (N : Nodes) (ws : List Nat) (w : Nat) : Bool :=
  match N.parent w with
  | some p => !ws.contains p
  | none => !(N.deps w).any (fun d => ws.contains d)

/-- Lines 78-84. -/
def heads (N : Nodes) (ws : List Nat) : Nat := (ws.filter (isHead N ws)).length

/-- Lines 67-68: the words which are not empty nodes. -/
def nonEmpty (N : Nodes) (m : Mention) : Nat := (m.words.filter (fun w => !N.empty w)).length

/-- Lines 72-75. -/
def uposKey (c : Cfg) (m : Mention) : Str :=
  if c.selected = [] ∨ m.upos ∈ c.selected then m.upos else other

/-- Lines 75-85. -/
def detailKeys (N : Nodes) (c : Cfg) (m : Mention) : List Key :=
  .upos (uposKey c m) ::
    ((if nonEmpty N m < m.words.length then [.withEmpty] else []) ++
     (if m.gap then [.withGaps] else []) ++
     (if 1 < heads N m.words then [.nontreelet] else []))

/-- Lines 64-85: one mention. -/
def stepMention (N : Nodes) (c : Cfg) (s : St) (m : Mention) : St :=
  let n := nonEmpty N m
  { s with
    mentions := s.mentions + 1
    mWords := s.mWords + m.words.length
    longestM := max n s.longestM
    mTotal := s.mTotal + n
    keys := s.keys ++ .mLen (min n c.mMax) :: (if c.details then detailKeys N c m else []) }

/-- Lines 48-85: one entity, given by its mentions. -/
def stepEntity (N : Nodes) (c : Cfg) (s : St) (e : List Mention) : St :=
  let s := if e.length = 1 then { s with singletons := s.singletons + 1 } else s
  if e.length = 1 ∧ c.noSingletons = true then s
  else if 1 < e.length ∧ c.noNonsingletons = true then s
  else
    let s := { s with
      longestE := max e.length s.longestE
      cTotal := s.cTotal + e.length
      keys := s.keys ++ [.cLen (min e.length c.eMax)]
      entities := s.entities + 1 }
    if c.mentions = false ∧ c.details = false then s
    else e.foldl (stepMention N c) s

/-- Lines 45-85: one document; `N` tells about its nodes. -/
def stepDoc (c : Cfg) (s : St) (d : Nodes × List (List Mention)) : St :=
  d.2.foldl (stepEntity d.1 c) s

/-- All documents without `per_doc`. -/
def run (c : Cfg) (ds : List (Nodes × List (List Mention))) : St := ds.foldl (stepDoc c) {}

/-- Lines 99-110 with `per_doc`: the state printed for each document and the state after it. -/
def runPer (c : Cfg) : St → List (Nodes × List (List Mention)) → List St
  | _, [] => []
  | s, d :: ds => stepDoc c s d :: runPer c {} ds

/-! ## What is counted, independently of the order of counting -/

/-- The entity is reported. -/
def Kept (c : Cfg) (e : List Mention) : Prop :=
  ¬ (e.length = 1 ∧ c.noSingletons = true) ∧ ¬ (1 < e.length ∧ c.noNonsingletons = true)

instance (c : Cfg) (e : List Mention) : Decidable (Kept c e) := inferInstanceAs (Decidable (_ ∧ _))

/-- The entities of the documents which are reported. -/
def keptOf (c : Cfg) (ds : List (Nodes × List (List Mention))) : List (Nodes × List Mention) :=
  ds.flatMap fun d => (d.2.filter fun e => decide (Kept c e)).map fun e => (d.1, e)

/-- The mentions of the reported entities. -/
def mentionsOf (c : Cfg) (ds : List (Nodes × List (List Mention))) : List (Nodes × Mention) :=
  (keptOf c ds).flatMap fun e => e.2.map fun m => (e.1, m)

/-- The state after `ks` reported entities, as sums. -/
theorem foldl_mention (N : Nodes) (c : Cfg) : ∀ (e : List Mention) (s : St),
    e.foldl (stepMention N c) s =
      { s with
        mentions := s.mentions + e.length
        mWords := s.mWords + (e.map fun m => m.words.length).sum
        longestM := (e.map (nonEmpty N)).foldl (fun a b => max b a) s.longestM
        mTotal := s.mTotal + (e.map (nonEmpty N)).sum
        keys := s.keys ++ e.flatMap fun m =>
          .mLen (min (nonEmpty N m) c.mMax) :: (if c.details then detailKeys N c m else []) }
  | [], s => by simp
  | m :: e, s => by
    rw [List.foldl_cons, foldl_mention N c e]
    simp only [stepMention, List.length_cons, List.map_cons, List.sum_cons, List.foldl_cons,
      List.flatMap_cons, St.mk.injEq, List.append_assoc, true_and]
    omega

/-- The keys incremented for a reported entity. -/
def entityKeys (c : Cfg) (x : Nodes × List Mention) : List Key :=
  .cLen (min x.2.length c.eMax) ::
    (if c.mentions = false ∧ c.details = false then [] else x.2.flatMap fun m =>
      .mLen (min (nonEmpty x.1 m) c.mMax) :: (if c.details then detailKeys x.1 c m else []))

theorem stepEntity_keys (N : Nodes) (c : Cfg) (s : St) (e : List Mention) :
    (stepEntity N c s e).keys = s.keys ++ (if Kept c e then entityKeys c (N, e) else []) ∧
    (stepEntity N c s e).entities = s.entities + (if Kept c e then 1 else 0) ∧
    (stepEntity N c s e).cTotal = s.cTotal + (if Kept c e then e.length else 0) ∧
    (stepEntity N c s e).longestE = (if Kept c e then max e.length s.longestE else s.longestE) ∧
    (stepEntity N c s e).singletons = s.singletons + (if e.length = 1 then 1 else 0) ∧
    (stepEntity N c s e).mentions = s.mentions +
      (if Kept c e ∧ (c.mentions = true ∨ c.details = true) then e.length else 0) ∧
    (stepEntity N c s e).mTotal = s.mTotal +
      (if Kept c e ∧ (c.mentions = true ∨ c.details = true) then (e.map (nonEmpty N)).sum else 0) ∧
    (stepEntity N c s e).longestM =
      (if Kept c e ∧ (c.mentions = true ∨ c.details = true)
        then (e.map (nonEmpty N)).foldl (fun a b => max b a) s.longestM else s.longestM) := by
  unfold stepEntity
  by_cases h1 : e.length = 1 ∧ c.noSingletons = true
  · have hk : ¬ Kept c e := fun h => h.1 h1
    simp [h1, hk]
  · by_cases h2 : 1 < e.length ∧ c.noNonsingletons = true
    · have hk : ¬ Kept c e := fun h => h.2 h2
      have : e.length ≠ 1 := by omega
      simp [h2, hk, this]
    · have hk : Kept c e := ⟨h1, h2⟩
      rw [if_neg h1, if_neg h2]
      by_cases h3 : c.mentions = false ∧ c.details = false
      · rw [if_pos h3]
        simp only [entityKeys, hk, h3]
        split <;> simp_all
      · rw [if_neg h3, foldl_mention]
        have h4 : c.mentions = true ∨ c.details = true := by
          cases hm : c.mentions <;> cases hd : c.details <;> simp_all
        simp only [entityKeys, if_neg h3, hk, h4, and_self, if_true]
        split <;> simp_all

theorem stepDoc_spec (c : Cfg) (N : Nodes) : ∀ (es : List (List Mention)) (s : St),
    let k := keptOf c [(N, es)]
    (stepDoc c s (N, es)).keys = s.keys ++ k.flatMap (entityKeys c) ∧
    (stepDoc c s (N, es)).entities = s.entities + k.length ∧
    (stepDoc c s (N, es)).cTotal = s.cTotal + (k.map fun e => e.2.length).sum ∧
    (stepDoc c s (N, es)).singletons = s.singletons + (es.filter fun e => decide (e.length = 1)).length ∧
    (c.mentions = true ∨ c.details = true → (stepDoc c s (N, es)).mentions =
      s.mentions + (mentionsOf c [(N, es)]).length) ∧
    (c.mentions = true ∨ c.details = true → (stepDoc c s (N, es)).mTotal =
      s.mTotal + ((mentionsOf c [(N, es)]).map fun m => nonEmpty m.1 m.2).sum)
  | [], s => by simp [stepDoc, keptOf, mentionsOf]
  | e :: es, s => by
    obtain ⟨i1, i2, i3, i4, i5, i6⟩ := stepDoc_spec c N es (stepEntity N c s e)
    obtain ⟨k1, k2, k3, _, k5, k6, k7, _⟩ := stepEntity_keys N c s e
    have hs : stepDoc c s (N, e :: es) = stepDoc c (stepEntity N c s e) (N, es) := rfl
    simp only [hs]
    by_cases hk : Kept c e
    · have hkk : keptOf c [(N, e :: es)] = (N, e) :: keptOf c [(N, es)] := by simp [keptOf, hk]
      have hmm : mentionsOf c [(N, e :: es)] = (e.map fun m => (N, m)) ++ mentionsOf c [(N, es)] := by
        simp [mentionsOf, hkk]
      rw [hkk, hmm, i1, i2, i3, i4, k1, k2, k3, k5]
      refine ⟨by simp [hk], by simp [hk]; omega, by simp [hk]; omega, ?_, ?_, ?_⟩
      · by_cases h1 : e.length = 1
        · simp [h1]; omega
        · simp [h1]
      · intro h
        rw [i5 h, k6]
        simp [hk, h]; omega
      · intro h
        rw [i6 h, k7]
        have hf : ((e.map fun m => (N, m)).map fun m => nonEmpty m.1 m.2) = e.map (nonEmpty N) := by
          rw [List.map_map]
          rfl
        rw [List.map_append, hf, List.sum_append, if_pos ⟨hk, h⟩]
        omega
    · have hkk : keptOf c [(N, e :: es)] = keptOf c [(N, es)] := by simp [keptOf, hk]
      have hmm : mentionsOf c [(N, e :: es)] = mentionsOf c [(N, es)] := by simp [mentionsOf, hkk]
      rw [hkk, hmm, i1, i2, i3, i4, k1, k2, k3, k5]
      refine ⟨by simp [hk], by simp [hk], by simp [hk], ?_, ?_, ?_⟩
      · by_cases h1 : e.length = 1
        · simp [h1]; omega
        · simp [h1]
      · intro h
        rw [i5 h, k6]
        simp [hk]
      · intro h
        rw [i6 h, k7]
        simp [hk]

theorem keptOf_cons (c : Cfg) (d) (ds) : keptOf c (d :: ds) = keptOf c [d] ++ keptOf c ds := by
  simp [keptOf]

theorem mentionsOf_cons (c : Cfg) (d) (ds) : mentionsOf c (d :: ds) = mentionsOf c [d] ++ mentionsOf c ds := by
  simp [mentionsOf, keptOf_cons c d ds]

theorem foldl_doc (c : Cfg) : ∀ (ds : List (Nodes × List (List Mention))) (s : St),
    (ds.foldl (stepDoc c) s).keys = s.keys ++ (keptOf c ds).flatMap (entityKeys c) ∧
    (ds.foldl (stepDoc c) s).entities = s.entities + (keptOf c ds).length ∧
    (ds.foldl (stepDoc c) s).cTotal = s.cTotal + ((keptOf c ds).map fun e => e.2.length).sum ∧
    (c.mentions = true ∨ c.details = true → (ds.foldl (stepDoc c) s).mentions =
      s.mentions + (mentionsOf c ds).length) ∧
    (c.mentions = true ∨ c.details = true → (ds.foldl (stepDoc c) s).mTotal =
      s.mTotal + ((mentionsOf c ds).map fun m => nonEmpty m.1 m.2).sum)
  | [], s => by simp [keptOf, mentionsOf]
  | (N, es) :: ds, s => by
    obtain ⟨i1, i2, i3, i5, i6⟩ := foldl_doc c ds (stepDoc c s (N, es))
    obtain ⟨k1, k2, k3, _, k5, k6⟩ := stepDoc_spec c N es s
    rw [List.foldl_cons, keptOf_cons, mentionsOf_cons, i1, i2, i3, k1, k2, k3]
    refine ⟨by simp, by simp; omega, by simp; omega, ?_, ?_⟩
    · intro h
      rw [i5 h, k5 h]
      simp; omega
    · intro h
      rw [i6 h, k6 h]
      simp; omega

/-! ## The theorems -/

theorem count_flatMap_cLen (c : Cfg) (n : Nat) : ∀ (k : List (Nodes × List Mention)),
    (k.flatMap (entityKeys c)).count (.cLen n) =
      (k.filter fun e => decide (min e.2.length c.eMax = n)).length
  | [] => rfl
  | x :: k => by
    have h0 : ((entityKeys c x).count (.cLen n)) = if min x.2.length c.eMax = n then 1 else 0 := by
      have hz : ∀ (l : List Mention), (l.flatMap fun m =>
          Key.mLen (min (nonEmpty x.1 m) c.mMax) :: (if c.details then detailKeys x.1 c m else [])).count
            (.cLen n) = 0 := by
        intro l
        rw [List.count_eq_zero]
        intro h
        obtain ⟨m, _, hm⟩ := List.mem_flatMap.mp h
        simp only [detailKeys] at hm
        split at hm <;> simp at hm
      unfold entityKeys
      rw [List.count_cons]
      split <;> rename_i h3
      · by_cases h : min x.2.length c.eMax = n <;> simp [h]
      · rw [hz]
        by_cases h : min x.2.length c.eMax = n <;> simp [h]
    rw [List.flatMap_cons, List.count_append, count_flatMap_cLen c n k, h0, List.filter_cons]
    by_cases h : min x.2.length c.eMax = n
    · simp [h]; omega
    · simp [h]

/-- The number of entities, their average and each column of the distribution of entity lengths: column
`i` below the last one counts the reported entities with exactly `i` mentions, the last one those with
at least so many. -/
theorem C193_entities (c : Cfg) (ds : List (Nodes × List (List Mention))) :
    (run c ds).entities = (keptOf c ds).length ∧
    (run c ds).cTotal = ((keptOf c ds).map fun e => e.2.length).sum ∧
    (∀ i, i < c.eMax → (run c ds).keys.count (.cLen i) =
      ((keptOf c ds).filter fun e => decide (e.2.length = i)).length) ∧
    (run c ds).keys.count (.cLen c.eMax) =
      ((keptOf c ds).filter fun e => decide (c.eMax ≤ e.2.length)).length := by
  obtain ⟨h1, h2, h3, _, _⟩ := foldl_doc c ds {}
  refine ⟨by simpa [run] using h2, by simpa [run] using h3, ?_, ?_⟩
  · intro i hi
    unfold run
    rw [h1, List.nil_append, count_flatMap_cLen]
    congr 1
    apply List.filter_congr
    intro e _
    apply decide_eq_decide.mpr
    omega
  · unfold run
    rw [h1, List.nil_append, count_flatMap_cLen]
    congr 1
    apply List.filter_congr
    intro e _
    apply decide_eq_decide.mpr
    omega

theorem sum_buckets {α : Type} (f : α → Nat) : ∀ (l : List α) (N : Nat), (∀ x ∈ l, f x < N) →
    ((List.range N).map fun i => (l.filter fun x => decide (f x = i)).length).sum = l.length
  | [], N, _ => by
    rw [List.length_nil, List.sum_eq_zero_iff_forall_eq_nat]
    simp
  | x :: l, N, h => by
    have ih := sum_buckets f l N (fun y hy => h y (List.mem_cons_of_mem _ hy))
    have hx : ∀ i, ((x :: l).filter fun y => decide (f y = i)).length =
        (if f x = i then 1 else 0) + (l.filter fun y => decide (f y = i)).length := by
      intro i
      rw [List.filter_cons]
      by_cases hi : f x = i
      · simp [hi]; omega
      · simp [hi]
    have hone : ∀ (N : Nat), f x < N → ((List.range N).map fun i => if f x = i then 1 else 0).sum = 1 := by
      intro N
      induction N with
      | zero => omega
      | succ n ihn =>
        intro hlt
        rw [List.range_succ, List.map_append, List.sum_append]
        by_cases he : f x = n
        · have : ((List.range n).map fun i => if f x = i then 1 else 0).sum = 0 := by
            rw [List.sum_eq_zero_iff_forall_eq_nat]
            intro a ha
            obtain ⟨i, hi, rfl⟩ := List.mem_map.mp ha
            have := List.mem_range.mp hi
            rw [if_neg (by omega)]
          rw [this]
          simp [he]
        · rw [ihn (by omega)]
          simp [he]
    have hadd : ∀ (r : List Nat) (g k : Nat → Nat), (r.map fun i => g i + k i).sum = (r.map g).sum + (r.map k).sum := by
      intro r g k
      induction r with
      | nil => rfl
      | cons a r ihr => simp only [List.map_cons, List.sum_cons, ihr]; omega
    simp only [hx]
    rw [hadd, ih, hone N (h x List.mem_cons_self), List.length_cons]
    omega

/-- The printed columns `c_len_1` … `c_len_eMax` sum up to the number of entities. -/
theorem C193_entities_sum (c : Cfg) (ds : List (Nodes × List (List Mention))) (hmax : 1 ≤ c.eMax)
    (hne : ∀ d ∈ ds, ∀ e ∈ d.2, e ≠ []) :
    ((List.range' 1 c.eMax).map fun i => (run c ds).keys.count (.cLen i)).sum = (run c ds).entities := by
  obtain ⟨h1, h2, _, _, _⟩ := foldl_doc c ds {}
  have hb := sum_buckets (fun e : Nodes × List Mention => min e.2.length c.eMax) (keptOf c ds) (c.eMax + 1)
    (fun x _ => by omega)
  have h0 : ((keptOf c ds).filter fun e => decide (min e.2.length c.eMax = 0)).length = 0 := by
    rw [List.length_eq_zero_iff, List.filter_eq_nil_iff]
    intro e he
    obtain ⟨d, hd, hed⟩ := List.mem_flatMap.mp he
    obtain ⟨e', he', rfl⟩ := List.mem_map.mp hed
    have := hne d hd e' (List.mem_filter.mp he').1
    have : 0 < e'.length := List.length_pos_iff.mpr this
    simp only [decide_eq_true_eq]
    omega
  rw [List.range_eq_range', List.range'_succ, List.map_cons, List.sum_cons, h0] at hb
  have : (run c ds).keys = (keptOf c ds).flatMap (entityKeys c) := by
    unfold run
    rw [h1, List.nil_append]
  rw [this]
  simp only [count_flatMap_cLen]
  have he : (run c ds).entities = (keptOf c ds).length := by simpa [run] using h2
  rw [he]
  simpa using hb

theorem count_flatMap_mention (c : Cfg) (hr : c.mentions = true ∨ c.details = true) (K : Key)
    (hK : ∀ n, K ≠ .cLen n) : ∀ (k : List (Nodes × List Mention)),
    (k.flatMap (entityKeys c)).count K =
      ((k.flatMap fun e => e.2.map fun m => (e.1, m)).flatMap fun x =>
        Key.mLen (min (nonEmpty x.1 x.2) c.mMax) :: (if c.details then detailKeys x.1 c x.2 else [])).count K
  | [] => rfl
  | x :: k => by
    have h3 : ¬ (c.mentions = false ∧ c.details = false) := by
      rcases hr with h | h <;> simp [h]
    rw [List.flatMap_cons, List.count_append, count_flatMap_mention c hr K hK k, List.flatMap_cons,
      List.flatMap_append, List.count_append]
    congr 1
    unfold entityKeys
    rw [if_neg h3, List.count_cons, if_neg (by simpa using fun h => hK _ h.symm), List.flatMap_map]
    rfl

theorem count_flatMap_of_one {α : Type} (f : α → List Key) (p : α → Bool) (K : Key)
    (h : ∀ x, (f x).count K = if p x then 1 else 0) : ∀ (l : List α), (l.flatMap f).count K = (l.filter p).length
  | [] => rfl
  | x :: l => by
    rw [List.flatMap_cons, List.count_append, h, count_flatMap_of_one f p K h l, List.filter_cons]
    by_cases hp : p x = true
    · simp [hp]; omega
    · simp [hp]

/-- The number of mentions, their total length and the distribution of their lengths (without empty
words): column `i` below the last one counts the mentions with exactly `i` words, the last one those
with at least so many. -/
theorem C193_mentions (c : Cfg) (ds : List (Nodes × List (List Mention)))
    (hr : c.mentions = true ∨ c.details = true) :
    (run c ds).mentions = (mentionsOf c ds).length ∧
    (run c ds).mTotal = ((mentionsOf c ds).map fun m => nonEmpty m.1 m.2).sum ∧
    (∀ i, i < c.mMax → (run c ds).keys.count (.mLen i) =
      ((mentionsOf c ds).filter fun m => decide (nonEmpty m.1 m.2 = i)).length) ∧
    (run c ds).keys.count (.mLen c.mMax) =
      ((mentionsOf c ds).filter fun m => decide (c.mMax ≤ nonEmpty m.1 m.2)).length := by
  obtain ⟨h1, _, _, h4, h5⟩ := foldl_doc c ds {}
  have hcount : ∀ i, (run c ds).keys.count (.mLen i) =
      ((mentionsOf c ds).filter fun m => decide (min (nonEmpty m.1 m.2) c.mMax = i)).length := by
    intro i
    unfold run
    rw [h1, List.nil_append, count_flatMap_mention c hr _ (by simp)]
    apply count_flatMap_of_one
    intro x
    rw [List.count_cons]
    have : (if c.details then detailKeys x.1 c x.2 else []).count (.mLen i) = 0 := by
      rw [List.count_eq_zero]
      intro hm
      simp only [detailKeys] at hm
      split at hm <;> simp at hm
    rw [this]
    by_cases h : min (nonEmpty x.1 x.2) c.mMax = i <;> simp [h]
  refine ⟨by simpa [run] using h4 hr, by simpa [run] using h5 hr, ?_, ?_⟩
  · intro i hi
    rw [hcount]
    congr 1
    apply List.filter_congr
    intro e _
    apply decide_eq_decide.mpr
    omega
  · rw [hcount]
    congr 1
    apply List.filter_congr
    intro e _
    apply decide_eq_decide.mpr
    omega

/-- The columns `m_len_0` … `m_len_mMax` sum up to the number of mentions. -/
theorem C193_mentions_sum (c : Cfg) (ds : List (Nodes × List (List Mention)))
    (hr : c.mentions = true ∨ c.details = true) :
    ((List.range (c.mMax + 1)).map fun i => (run c ds).keys.count (.mLen i)).sum = (run c ds).mentions := by
  obtain ⟨h1, _, h3, h4⟩ := C193_mentions c ds hr
  have hb := sum_buckets (fun m : Nodes × Mention => min (nonEmpty m.1 m.2) c.mMax) (mentionsOf c ds)
    (c.mMax + 1) (fun x _ => by omega)
  rw [h1, ← hb]
  congr 1
  apply List.map_congr_left
  intro i hi
  have hi := List.mem_range.mp hi
  by_cases h : i < c.mMax
  · rw [h3 i h]
    congr 1
    apply List.filter_congr
    intro e _
    apply decide_eq_decide.mpr
    omega
  · have : i = c.mMax := by omega
    subst this
    rw [h4]
    congr 1
    apply List.filter_congr
    intro e _
    apply decide_eq_decide.mpr
    omega

/-- The columns of details count the mentions with an empty word, with a gap, with more heads, and with
a head of the given (selected) UPOS. -/
theorem C193_details (c : Cfg) (ds : List (Nodes × List (List Mention))) (hd : c.details = true) :
    (run c ds).keys.count .withEmpty =
      ((mentionsOf c ds).filter fun m => m.2.words.any m.1.empty).length ∧
    (run c ds).keys.count .withGaps = ((mentionsOf c ds).filter fun m => m.2.gap).length ∧
    (run c ds).keys.count .nontreelet =
      ((mentionsOf c ds).filter fun m => decide (1 < heads m.1 m.2.words)).length ∧
    (∀ u, u ∈ c.selected → u ≠ other → (run c ds).keys.count (.upos u) =
      ((mentionsOf c ds).filter fun m => decide (m.2.upos = u)).length) ∧
    (c.selected ≠ [] → other ∉ c.selected → (run c ds).keys.count (.upos other) =
      ((mentionsOf c ds).filter fun m => decide (m.2.upos ∉ c.selected)).length) := by
  obtain ⟨h1, _, _, _, _⟩ := foldl_doc c ds {}
  have hcount : ∀ (K : Key) (p : Nodes × Mention → Bool), (∀ n, K ≠ .cLen n) →
      (∀ x, (Key.mLen (min (nonEmpty x.1 x.2) c.mMax) :: detailKeys x.1 c x.2).count K =
        if p x then 1 else 0) →
      (run c ds).keys.count K = ((mentionsOf c ds).filter p).length := by
    intro K p hK h
    unfold run
    rw [h1, List.nil_append, count_flatMap_mention c (Or.inr hd) K hK]
    apply count_flatMap_of_one
    intro x
    rw [← h x]
    simp [hd]
  have hl : ∀ (x : Nodes × Mention), (nonEmpty x.1 x.2 < x.2.words.length) ↔
      x.2.words.any x.1.empty = true := by
    intro x
    unfold nonEmpty
    have hle := List.length_filter_le (fun w => !x.1.empty w) x.2.words
    have hiff : (x.2.words.filter fun w => !x.1.empty w).length = x.2.words.length ↔
        ∀ w ∈ x.2.words, (!x.1.empty w) = true := List.length_filter_eq_length_iff
    constructor
    · intro h
      by_cases ha : x.2.words.any x.1.empty = true
      · exact ha
      · have : (x.2.words.filter fun w => !x.1.empty w).length = x.2.words.length := by
          rw [hiff]
          intro w hw
          have := mt (fun he => List.any_eq_true.mpr ⟨w, hw, he⟩) ha
          simpa using this
        omega
    · intro h
      obtain ⟨w, hw, he⟩ := List.any_eq_true.mp h
      have : (x.2.words.filter fun w => !x.1.empty w).length ≠ x.2.words.length := by
        rw [Ne, hiff]
        intro hall
        have := hall w hw
        simp [he] at this
      omega
  refine ⟨hcount _ _ (by simp) ?_, hcount _ _ (by simp) ?_, hcount _ _ (by simp) ?_, ?_, ?_⟩
  · intro x
    by_cases h : nonEmpty x.1 x.2 < x.2.words.length
    · have h' := (hl x).mp h
      by_cases hg : x.2.gap = true <;> by_cases ht : 1 < heads x.1 x.2.words <;>
        simp [detailKeys, h, h', hg, ht]
    · have h' := mt (hl x).mpr h
      by_cases hg : x.2.gap = true <;> by_cases ht : 1 < heads x.1 x.2.words <;>
        simp [detailKeys, h, h', hg, ht]
  · intro x
    by_cases h : nonEmpty x.1 x.2 < x.2.words.length <;>
      by_cases hg : x.2.gap = true <;> by_cases ht : 1 < heads x.1 x.2.words <;>
        simp [detailKeys, h, hg, ht]
  · intro x
    by_cases h : nonEmpty x.1 x.2 < x.2.words.length <;>
      by_cases hg : x.2.gap = true <;> by_cases ht : 1 < heads x.1 x.2.words <;>
        simp [detailKeys, h, hg, ht]
  · intro u hu huo
    apply hcount _ _ (by simp)
    intro x
    have hk : (uposKey c x.2 = u) ↔ (x.2.upos = u) := by
      unfold uposKey
      by_cases hs : c.selected = [] ∨ x.2.upos ∈ c.selected
      · rw [if_pos hs]
      · rw [if_neg hs]
        constructor
        · exact fun h => absurd h.symm huo
        · rintro rfl
          exact absurd (Or.inr hu) hs
    by_cases hx : x.2.upos = u
    · have := hk.mpr hx
      by_cases h : nonEmpty x.1 x.2 < x.2.words.length <;>
        by_cases hg : x.2.gap = true <;> by_cases ht : 1 < heads x.1 x.2.words <;>
          simp [detailKeys, h, hg, ht, this, hx]
    · have := mt hk.mp hx
      by_cases h : nonEmpty x.1 x.2 < x.2.words.length <;>
        by_cases hg : x.2.gap = true <;> by_cases ht : 1 < heads x.1 x.2.words <;>
          simp [detailKeys, h, hg, ht, this, hx]
  · intro hne ho
    apply hcount _ _ (by simp)
    intro x
    have hk : (uposKey c x.2 = other) ↔ (x.2.upos ∉ c.selected) := by
      unfold uposKey
      by_cases hs : c.selected = [] ∨ x.2.upos ∈ c.selected
      · rw [if_pos hs]
        have hm : x.2.upos ∈ c.selected := hs.resolve_left hne
        constructor
        · intro h
          rw [h] at hm
          exact absurd hm ho
        · exact fun h => absurd hm h
      · rw [if_neg hs]
        exact ⟨fun _ h => hs (Or.inr h), fun _ => rfl⟩
    by_cases hx : x.2.upos ∉ c.selected
    · have := hk.mpr hx
      by_cases h : nonEmpty x.1 x.2 < x.2.words.length <;>
        by_cases hg : x.2.gap = true <;> by_cases ht : 1 < heads x.1 x.2.words <;>
          simp [detailKeys, h, hg, ht, this, hx]
    · have := mt hk.mp hx
      by_cases h : nonEmpty x.1 x.2 < x.2.words.length <;>
        by_cases hg : x.2.gap = true <;> by_cases ht : 1 < heads x.1 x.2.words <;>
          simp [detailKeys, h, hg, ht, this, hx]

/-- The columns of UPOS (the selected ones and `other`) sum up to the number of mentions. -/
theorem C193_upos_sum (c : Cfg) (ds : List (Nodes × List (List Mention))) (hd : c.details = true)
    (hne : c.selected ≠ []) (hnd : c.selected.Nodup) (ho : other ∉ c.selected) :
    ((c.selected ++ [other]).map fun u => (run c ds).keys.count (.upos u)).sum = (run c ds).mentions := by
  obtain ⟨_, _, _, h4, h5⟩ := C193_details c ds hd
  have hm := (C193_mentions c ds (Or.inr hd)).1
  rw [List.map_append, List.sum_append, List.map_cons, List.map_nil, List.sum_cons, List.sum_nil, h5 hne ho, hm]
  have hsel : (c.selected.map fun u => (run c ds).keys.count (.upos u)) =
      c.selected.map fun u => ((mentionsOf c ds).filter fun m => decide (m.2.upos = u)).length := by
    apply List.map_congr_left
    intro u hu
    exact h4 u hu (fun h => ho (h ▸ hu))
  rw [hsel]
  have gen : ∀ (S : List Str), S.Nodup → ∀ (l : List (Nodes × Mention)),
      (S.map fun u => (l.filter fun m => decide (m.2.upos = u)).length).sum +
        (l.filter fun m => decide (m.2.upos ∉ S)).length = l.length := by
    intro S
    induction S with
    | nil => intro _ l; simp
    | cons u S ih =>
      intro hn l
      obtain ⟨hu, hn⟩ := List.nodup_cons.mp hn
      have := ih hn l
      rw [List.map_cons, List.sum_cons]
      have hsplit : (l.filter fun m => decide (m.2.upos ∉ S)).length =
          (l.filter fun m => decide (m.2.upos = u)).length +
          (l.filter fun m => decide (m.2.upos ∉ u :: S)).length := by
        clear this
        induction l with
        | nil => rfl
        | cons m l ihl =>
          simp only [List.filter_cons]
          by_cases h1 : m.2.upos = u
          · have h2 : m.2.upos ∉ S := h1 ▸ hu
            simp [h1, hu]
            simp at ihl
            omega
          · by_cases h2 : m.2.upos ∈ S
            · simp [h1, h2]
              simpa using ihl
            · simp [h1, h2]
              simp at ihl
              omega
      omega
  have := gen c.selected hnd (mentionsOf c ds)
  omega

/-! ### The longest entity and mention -/

theorem foldl_max (l : List Nat) : ∀ (a : Nat), a ≤ l.foldl (fun a b => max b a) a ∧
    (∀ x ∈ l, x ≤ l.foldl (fun a b => max b a) a) ∧
    (l.foldl (fun a b => max b a) a = a ∨ l.foldl (fun a b => max b a) a ∈ l) := by
  induction l with
  | nil => intro a; simp
  | cons b l ih =>
    intro a
    obtain ⟨h1, h2, h3⟩ := ih (max b a)
    rw [List.foldl_cons]
    refine ⟨by omega, ?_, ?_⟩
    · intro x hx
      rcases List.mem_cons.mp hx with rfl | hx
      · omega
      · exact h2 x hx
    · rcases h3 with h3 | h3
      · rw [h3]
        rcases Nat.le_total a b with h | h
        · right; rw [Nat.max_eq_left h]; exact List.mem_cons_self
        · left; exact Nat.max_eq_right h
      · exact Or.inr (List.mem_cons_of_mem _ h3)

theorem longest_entities (c : Cfg) (N : Nodes) : ∀ (es : List (List Mention)) (s : St),
    (stepDoc c s (N, es)).longestE =
      ((keptOf c [(N, es)]).map fun e => e.2.length).foldl (fun a b => max b a) s.longestE ∧
    (c.mentions = true ∨ c.details = true → (stepDoc c s (N, es)).longestM =
      ((mentionsOf c [(N, es)]).map fun m => nonEmpty m.1 m.2).foldl (fun a b => max b a) s.longestM)
  | [], s => by simp [stepDoc, keptOf, mentionsOf]
  | e :: es, s => by
    obtain ⟨i1, i2⟩ := longest_entities c N es (stepEntity N c s e)
    obtain ⟨_, _, _, k4, _, _, _, k8⟩ := stepEntity_keys N c s e
    have hs : stepDoc c s (N, e :: es) = stepDoc c (stepEntity N c s e) (N, es) := rfl
    by_cases hk : Kept c e
    · have hkk : keptOf c [(N, e :: es)] = (N, e) :: keptOf c [(N, es)] := by simp [keptOf, hk]
      have hmm : mentionsOf c [(N, e :: es)] = (e.map fun m => (N, m)) ++ mentionsOf c [(N, es)] := by
        simp [mentionsOf, hkk]
      have hf : ((e.map fun m => (N, m)).map fun m => nonEmpty m.1 m.2) = e.map (nonEmpty N) := by
        rw [List.map_map]
        rfl
      rw [hs, hkk, hmm, i1, k4, if_pos hk]
      refine ⟨rfl, fun h => ?_⟩
      rw [i2 h, k8, if_pos ⟨hk, h⟩, List.map_append, hf, List.foldl_append]
    · have hkk : keptOf c [(N, e :: es)] = keptOf c [(N, es)] := by simp [keptOf, hk]
      have hmm : mentionsOf c [(N, e :: es)] = mentionsOf c [(N, es)] := by simp [mentionsOf, hkk]
      rw [hs, hkk, hmm, i1, k4, if_neg hk]
      refine ⟨rfl, fun h => ?_⟩
      rw [i2 h, k8, if_neg (fun hh => hk hh.1)]

theorem longest_docs (c : Cfg) : ∀ (ds : List (Nodes × List (List Mention))) (s : St),
    (ds.foldl (stepDoc c) s).longestE =
      ((keptOf c ds).map fun e => e.2.length).foldl (fun a b => max b a) s.longestE ∧
    (c.mentions = true ∨ c.details = true → (ds.foldl (stepDoc c) s).longestM =
      ((mentionsOf c ds).map fun m => nonEmpty m.1 m.2).foldl (fun a b => max b a) s.longestM)
  | [], s => by simp [keptOf, mentionsOf]
  | (N, es) :: ds, s => by
    obtain ⟨i1, i2⟩ := longest_docs c ds (stepDoc c s (N, es))
    obtain ⟨k1, k2⟩ := longest_entities c N es s
    rw [List.foldl_cons, keptOf_cons, mentionsOf_cons, i1, k1]
    refine ⟨by rw [List.map_append, List.foldl_append], fun h => ?_⟩
    rw [i2 h, k2 h, List.map_append, List.foldl_append]

/-- The longest entity and the longest mention are those of the reported entities. -/
theorem C193_longest (c : Cfg) (ds : List (Nodes × List (List Mention))) :
    (∀ e ∈ keptOf c ds, e.2.length ≤ (run c ds).longestE) ∧
    ((run c ds).longestE = 0 ∨ ∃ e ∈ keptOf c ds, e.2.length = (run c ds).longestE) ∧
    (c.mentions = true ∨ c.details = true →
      (∀ m ∈ mentionsOf c ds, nonEmpty m.1 m.2 ≤ (run c ds).longestM) ∧
      ((run c ds).longestM = 0 ∨ ∃ m ∈ mentionsOf c ds, nonEmpty m.1 m.2 = (run c ds).longestM)) := by
  obtain ⟨h1, h2⟩ := longest_docs c ds {}
  obtain ⟨_, a2, a3⟩ := foldl_max ((keptOf c ds).map fun e => e.2.length) 0
  obtain ⟨_, b2, b3⟩ := foldl_max ((mentionsOf c ds).map fun m => nonEmpty m.1 m.2) 0
  have h1' : (run c ds).longestE = _ := h1
  rw [h1']
  refine ⟨fun e he => a2 _ (List.mem_map_of_mem he), ?_, ?_⟩
  · rcases a3 with a3 | a3
    · exact Or.inl a3
    · obtain ⟨e, he, hee⟩ := List.mem_map.mp a3
      exact Or.inr ⟨e, he, hee⟩
  · intro h
    have h2' : (run c ds).longestM = _ := h2 h
    rw [h2']
    refine ⟨fun m hm => b2 (nonEmpty m.1 m.2) (List.mem_map_of_mem (f := fun m => nonEmpty m.1 m.2) hm), ?_⟩
    rcases b3 with b3 | b3
    · exact Or.inl b3
    · obtain ⟨e, he, hee⟩ := List.mem_map.mp b3
      exact Or.inr ⟨e, he, hee⟩

/-! ### Documents -/

/-- With `per_doc`, the row of each document is made from that document only. -/
theorem C193_per_doc (c : Cfg) (ds : List (Nodes × List (List Mention))) :
    runPer c {} ds = ds.map fun d => run c [d] := by
  suffices h : ∀ ds, runPer c {} ds = ds.map fun d => run c [d] from h ds
  intro ds
  induction ds with
  | nil => rfl
  | cons d ds ih => rw [runPer, ih]; rfl

theorem perm_sum {a b : List Nat} (h : a.Perm b) : a.sum = b.sum := by
  induction h with
  | nil => rfl
  | cons x _ ih => simp [ih]
  | swap x y l => simp only [List.sum_cons]; omega
  | trans _ _ i1 i2 => exact i1.trans i2

/-- The statistics do not depend on the order of documents. -/
theorem C193_order (c : Cfg) {ds ds' : List (Nodes × List (List Mention))} (h : ds.Perm ds') :
    (∀ K, (run c ds).keys.count K = (run c ds').keys.count K) ∧
    (run c ds).entities = (run c ds').entities ∧ (run c ds).cTotal = (run c ds').cTotal ∧
    (run c ds).longestE = (run c ds').longestE := by
  obtain ⟨a1, a2, a3, _, _⟩ := foldl_doc c ds {}
  obtain ⟨b1, b2, b3, _, _⟩ := foldl_doc c ds' {}
  have hp : (keptOf c ds).Perm (keptOf c ds') := List.Perm.flatMap_right _ h
  obtain ⟨c1, c2, _⟩ := C193_longest c ds
  obtain ⟨d1, d2, _⟩ := C193_longest c ds'
  unfold run at *
  refine ⟨fun K => ?_, ?_, ?_, ?_⟩
  · rw [a1, b1, List.nil_append, List.nil_append]
    exact (List.Perm.flatMap_right _ hp).count_eq K
  · rw [a2, b2, hp.length_eq]
  · rw [a3, b3, perm_sum (hp.map _)]
  · apply Nat.le_antisymm
    · rcases c2 with c2 | ⟨e, he, c2⟩
      · rw [c2]; omega
      · rw [← c2]; exact d1 e (hp.mem_iff.mp he)
    · rcases d2 with d2 | ⟨e, he, d2⟩
      · rw [d2]; omega
      · rw [← d2]; exact c1 e (hp.mem_iff.mpr he)

/-! ### Mentions which are not treelets -/

/-- `p` is a parent of `w`: in the tree, or in the enhanced graph if `w` is an empty node. -/
def Link (N : Nodes) (w p : Nat) : Prop := N.parent w = some p ∨ N.parent w = none ∧ p ∈ N.deps w

/-- `w` is dominated by `h` within the words of the mention. -/
inductive Under (N : Nodes) (ws : List Nat) (h : Nat) : Nat → Prop where
  | refl : Under N ws h h
  | step {w p} : Link N w p → p ∈ ws → Under N ws h p → Under N ws h w

theorem nodup_filter_le_one {ws : List Nat} (hn : ws.Nodup) {p : Nat → Bool} {h : Nat}
    (hall : ∀ w ∈ ws, p w = true → w = h) : (ws.filter p).length ≤ 1 := by
  have hn' : (ws.filter p).Nodup := List.Pairwise.filter p hn
  have hmem : ∀ w ∈ ws.filter p, w = h := fun w hw => hall w (List.mem_filter.mp hw).1 (List.mem_filter.mp hw).2
  cases hl : ws.filter p with
  | nil => simp
  | cons a l =>
    cases l with
    | nil => simp
    | cons b l =>
      rw [hl] at hn' hmem
      have h1 := hmem a (by simp)
      have h2 := hmem b (by simp)
      simp [h1, h2] at hn'

/-- A mention is counted as `nontreelet` iff no word of it dominates all its words, for mentions with
no cycle of words (so for all mentions without empty words). -/
theorem C193_treelet_partial (N : Nodes) (ws : List Nat) (hne : ws ≠ []) (hn : ws.Nodup) (rank : Nat → Nat)
    (hacyc : ∀ w ∈ ws, ∀ p ∈ ws, Link N w p → rank p < rank w) :
    1 < heads N ws ↔ ¬ ∃ h ∈ ws, ∀ w ∈ ws, Under N ws h w := by
  have head_iff : ∀ w, isHead N ws w = true ↔ ∀ p, Link N w p → p ∉ ws := by
    intro w
    unfold isHead Link
    cases hp : N.parent w with
    | some p =>
      simp only [Bool.not_eq_true', List.contains_eq_mem, decide_eq_false_iff_not]
      constructor
      · intro h q hq
        rcases hq with hq | hq
        · simp at hq; exact hq ▸ h
        · simp at hq
      · intro h
        exact h p (Or.inl rfl)
    | none =>
      simp
  -- a word of the least rank is a head; in general every word is under a head
  have exists_head : ∀ n, ∀ w ∈ ws, rank w ≤ n → ∃ h ∈ ws, isHead N ws h = true ∧ Under N ws h w := by
    intro n
    induction n with
    | zero =>
      intro w hw hr
      refine ⟨w, hw, (head_iff w).mpr fun p hp hpw => ?_, .refl⟩
      have := hacyc w hw p hpw hp
      omega
    | succ n ih =>
      intro w hw hr
      by_cases hh : isHead N ws w = true
      · exact ⟨w, hw, hh, .refl⟩
      · have : ∃ p, Link N w p ∧ p ∈ ws := by
          apply Classical.byContradiction
          intro hc
          exact hh ((head_iff w).mpr fun p hp hpw => hc ⟨p, hp, hpw⟩)
        obtain ⟨p, hp, hpw⟩ := this
        have hlt := hacyc w hw p hpw hp
        obtain ⟨h, hhw, hh1, hh2⟩ := ih p hpw (by omega)
        exact ⟨h, hhw, hh1, .step hp hpw hh2⟩
  constructor
  · rintro hlt ⟨h, _, hall⟩
    have : (ws.filter (isHead N ws)).length ≤ 1 := by
      apply nodup_filter_le_one hn (h := h)
      intro w hw hh
      cases hall w hw with
      | refl => rfl
      | step hl hp _ => exact absurd hp ((head_iff w).mp hh _ hl)
    unfold heads at hlt
    omega
  · intro hno
    apply Classical.byContradiction
    intro hle
    obtain ⟨w0, hw0⟩ := List.exists_mem_of_ne_nil ws hne
    obtain ⟨h0, hh0, hh1, _⟩ := exists_head _ w0 hw0 (Nat.le_refl _)
    apply hno
    refine ⟨h0, hh0, fun w hw => ?_⟩
    obtain ⟨h, hh, hhh, hu⟩ := exists_head _ w hw (Nat.le_refl _)
    have : h = h0 := by
      unfold heads at hle
      have m0 : h0 ∈ ws.filter (isHead N ws) := List.mem_filter.mpr ⟨hh0, hh1⟩
      have m1 : h ∈ ws.filter (isHead N ws) := List.mem_filter.mpr ⟨hh, hhh⟩
      cases hl : ws.filter (isHead N ws) with
      | nil => rw [hl] at m0; cases m0
      | cons a l =>
        cases l with
        | nil => rw [hl] at m0 m1; simp at m0 m1; rw [m0, m1]
        | cons b l => rw [hl] at hle; simp at hle
    rw [← this]
    exact hu

/-- Two empty words which are parents of each other are no heads, although nothing dominates them and
the third word: such a mention is not counted as `nontreelet`. -/
theorem C193_treelet_violated (N : Nodes) {x a b : Nat} (hxa : x ≠ a) (hxb : x ≠ b) (hr : N.parent x = some 0)
    (h0 : (0 : Nat) ∉ [x, a, b]) (ha : N.parent a = none) (hb : N.parent b = none)
    (hda : N.deps a = [b]) (hdb : N.deps b = [a]) :
    heads N [x, a, b] = 1 ∧ ¬ ∃ h ∈ [x, a, b], ∀ w ∈ [x, a, b], Under N [x, a, b] h w := by
  have hx : isHead N [x, a, b] x = true := by
    unfold isHead
    rw [hr]
    simpa using h0
  have hA : isHead N [x, a, b] a = false := by simp [isHead, ha, hda]
  have hB : isHead N [x, a, b] b = false := by simp [isHead, hb, hdb]
  refine ⟨by simp [heads, hx, hA, hB], ?_⟩
  rintro ⟨h, hh, hall⟩
  have hxh : x = h := by
    cases hall x (by simp) with
    | refl => rfl
    | step hl hp _ =>
      rcases hl with hl | hl
      · rw [hr] at hl
        injection hl with hl
        exact absurd (hl ▸ hp) h0
      · rw [hr] at hl; cases hl.1
  subst hxh
  have hno : ∀ w, Under N [x, a, b] x w → w ≠ a ∧ w ≠ b := by
    intro w hw
    induction hw with
    | refl => exact ⟨hxa, hxb⟩
    | step hl _ _ ih =>
      rename_i w p
      constructor
      · rintro rfl
        rcases hl with hl | hl
        · rw [ha] at hl; cases hl
        · rw [hda] at hl; exact ih.2 (by simpa using hl.2)
      · rintro rfl
        rcases hl with hl | hl
        · rw [hb] at hl; cases hl
        · rw [hdb] at hl; exact ih.1 (by simpa using hl.2)
  exact (hno a (hall a (by simp))).1 rfl

/-- If `other` is selected, its column is printed twice and the columns do not sum up to the number of
mentions. -/
theorem C193_upos_violated (c : Cfg) (N : Nodes) (m : Mention) (hd : c.details = true)
    (hs : c.selected = [other]) (h1 : c.noSingletons = false) :
    ((c.selected ++ [other]).map fun u => (run c [(N, [[m]])]).keys.count (.upos u)).sum = 2 ∧
    (run c [(N, [[m]])]).mentions = 1 := by
  have hu : uposKey c m = other := by
    unfold uposKey
    rw [hs]
    by_cases h : m.upos = other <;> simp [h]
  have hk : (run c [(N, [[m]])]).keys.count (.upos other) = 1 := by
    simp only [run, stepDoc, stepEntity, stepMention, List.foldl_cons, List.foldl_nil, List.length_cons,
      List.length_nil, h1, hd, detailKeys, hu]
    by_cases ha : nonEmpty N m < m.words.length <;> by_cases hg : m.gap = true <;>
      by_cases ht : 1 < heads N m.words <;> simp [ha, hg, ht]
  refine ⟨by rw [hs]; simp [hk], ?_⟩
  have := (C193_mentions c [(N, [[m]])] (Or.inr hd)).1
  rw [this]
  simp [mentionsOf, keptOf, Kept, h1]

/-- `NOUN`, and a tree of four words 1 ← 2 → 3, 3 ← 4 with an empty word 5. -/
private def noun : Str := ['N']
private def tree : Nodes := ⟨fun w => w == 5, fun w => if w = 5 then none else some ([0, 2, 0, 2, 3].getD w 0),
  fun w => if w = 5 then [2] else []⟩
private def cfg : Cfg := ⟨5, 2, true, true, true, false, [noun]⟩

example : run cfg [(tree, [[⟨[1, 3], noun, true⟩, ⟨[2, 5], ['X'], false⟩, ⟨[3, 4], noun, false⟩],
      [⟨[1], noun, false⟩]])] =
    { keys := [.cLen 2, .mLen 2, .upos noun, .withGaps, .nontreelet, .mLen 1, .upos other, .withEmpty,
               .mLen 2, .upos noun]
      cTotal := 3, mTotal := 5, mentions := 3, entities := 1, singletons := 1, longestM := 2,
      longestE := 3, mWords := 6 } := by decide +kernel

example : heads tree [1, 3] = 2 ∧ heads tree [1, 2, 5] = 1 := by decide +kernel

end Verif.Coref.Stats
