import Verif.DualDict.LemmasText

/-!
# Properties C01-C05 and C55: `DualDict` and `OtherDualDict`

Statements only use the model's `step`/`run` (the calls) and the specification in
`Verif.DualDict.Spec`. `lower` is `str.lower`, universally quantified.
-/

namespace Verif.DualDict
open Verif.Py

theorem dd_eq_ud : dd = Spec.ud := rfl

private theorem init_abs (cfg : Cfg) : lookup (abs cfg init) = Spec.empty := by
  funext k; rfl

private theorem nodup_init : NodupKeys init.dict := by simp [NodupKeys, init]

private theorem textInv_init : TextInv init := by intro t h; simp [init] at h

private theorem dd_lookup (lower : Str → Str) (ops : List Op) :
    lookup (abs dd (run dd lower init ops)) = Spec.run Spec.ud Spec.empty ops := by
  funext k
  rw [abs_run_lookup dd lower init ops nodup_init (Or.inl rfl), init_abs, dd_eq_ud]

/-! ## C01 -/

/-- C01: after any calls, every way of reading a `DualDict` agrees with the plain mapping obtained by
applying the same calls: `d[k]` (with `''` for absent names), `k in d`, `list(d)` (each present name
exactly once), `len(d)`. -/
theorem C01_dualDict_reads (lower : Str → Str) (ops : List Op) :
    let s := run dd lower init ops
    let m := Spec.run Spec.ud Spec.empty ops
    (∀ k, (step dd lower s (.get k)).2 = .val ((m k).getD (.str []))) ∧
    (∀ k, (step dd lower s (.contains k)).2 = .bool (m k).isSome) ∧
    (∃ ks : List Str, (step dd lower s .iter).2 = .keys ks ∧ ks.Nodup ∧ (∀ k, k ∈ ks ↔ (m k).isSome) ∧
      (step dd lower s .len).2 = .nat ks.length) := by
  intro s m
  have hm : lookup (abs dd s) = m := dd_lookup lower ops
  have hn : NodupKeys (abs dd s) := abs_nodup_aux dd (nodup_run dd lower init ops nodup_init)
  refine ⟨fun k => ?_, fun k => ?_, (abs dd s).map (fun p : Str × Val => p.1), ?_, hn, ?_, ?_⟩
  · simp only [step, read, abs_deserialize_dict, hm]
  · simp only [step, abs_deserialize_dict, hm]
  · simp only [step, abs_deserialize_dict]
  · intro k
    rw [mem_keys_iff, hm]
  · simp only [step, abs_deserialize_dict, List.length_map]

/-- C01, the other half: the result of every modifying call on a `DualDict` (`pop` returns the value
or `''`, `set_mapping` of a wrong type is refused, the rest return nothing). -/
theorem C01_dualDict_results (lower : Str → Str) (ops : List Op) (o : Op) :
    let s := run dd lower init ops
    let m := Spec.run Spec.ud Spec.empty ops
    (∀ k, o = .pop k → (step dd lower s o).2 = .val ((m k).getD (.str []))) ∧
    (o = .setOther → (step dd lower s o).2 = .valueError) ∧
    (∀ k v, o = .set k v → (step dd lower s o).2 = .unit) ∧
    (∀ k, o = .del k → (step dd lower s o).2 = .unit) := by
  intro s m
  have hm : lookup (abs dd s) = m := dd_lookup lower ops
  refine ⟨?_, ?_, ?_, ?_⟩
  · rintro k rfl; simp only [step, read, abs_deserialize_dict, hm]
  · rintro rfl; rfl
  · rintro k v rfl
    simp only [step, setItem]
    cases v with
    | none => rfl
    | some v => by_cases hv : v = .str [] <;> simp [hv, dd]
  · rintro k rfl; rfl

/-- A non-trivial history: assign a text, overwrite one item, delete one by assigning `''`. -/
example : Spec.run Spec.ud Spec.empty
    [.setStr "a=1|b=2|c".toList, .set ['a'] (some (.str ['3'])), .set ['b'] (some (.str []))] ['a']
      = some (.str ['3']) := by decide

/-! ## C02 -/

/-- C02: if the current mapping is representable in the text form (names without `|` and `=`, string
values without `|`, flags), and is not the single flag `''` or `_`, then assigning `str(d)` back
gives a `DualDict` with the same mapping. -/
theorem C02_dualDict_text_roundtrip (lower : Str → Str) (ops : List Op)
    (m : Spec.Map) (hm : m = Spec.run Spec.ud Spec.empty ops)
    (hok : ∀ k v, m k = some v → Spec.okName Spec.ud k ∧ Spec.okVal Spec.ud v)
    (h1 : m ≠ Spec.flag []) (h2 : m ≠ Spec.flag ['_']) :
    ∃ t, (step dd lower (run dd lower init ops) .str).2 = .text t ∧
      Spec.run Spec.ud Spec.empty (ops ++ [.setStr t]) = m := by
  have hl := dd_lookup lower ops
  rw [← hm] at hl
  refine ⟨_, shown_eq_str dd lower _, ?_⟩
  have hr : Representable (abs dd (run dd lower init ops)) :=
    ⟨fun k v h => (hok k v (hl ▸ h)).1, fun k v h => (hok k v (hl ▸ h)).2, hl ▸ h1, hl ▸ h2⟩
  have := shown_roundtrip lower (nodup_run dd lower init ops nodup_init)
    (textInv_run lower nodup_init textInv_init ops) hr
  rw [hl] at this
  rw [Spec.run, List.foldl_append]
  exact this

example : (step dd id (run dd id init
      [.set ['b'] (some .tru), .set ['a'] (some (.str ['x']))]) .str).2
    = .text "a=x|b".toList := by decide

/-- C02 needs its exclusions: the mapping with the single flag `_` prints as `_`, which reads back
as the empty mapping. -/
theorem C02_single_underscore_flag_lost :
    (step dd id (run dd id init [.set ['_'] (some .tru)]) .str).2 = .text ['_'] ∧
    Spec.run Spec.ud Spec.empty [.set ['_'] (some .tru)] ['_'] = some .tru ∧
    Spec.run Spec.ud Spec.empty [.set ['_'] (some .tru), .setStr ['_']] ['_'] = none := by decide

/-! ## C03 -/

/-- C03 (partial): if two histories end with an item assignment or the assignment of a dict, give the
same mapping, and no two present names are equal up to case, then they print the same text.
Missing: mappings with names equal up to case, where the claim is false
(`C03_dualDict_text_order_violated`). -/
theorem C03_dualDict_text_canonical_partial (lower : Str → Str) (ops₁ ops₂ : List Op) (o₁ o₂ : Op)
    (m : Spec.Map)
    (h₁ : Spec.run Spec.ud Spec.empty (ops₁ ++ [o₁]) = m)
    (h₂ : Spec.run Spec.ud Spec.empty (ops₂ ++ [o₂]) = m)
    (r₁ : Spec.rewrites o₁ = true) (r₂ : Spec.rewrites o₂ = true)
    (hinj : ∀ k k', (m k).isSome → (m k').isSome → lower k = lower k' → k = k') :
    (step dd lower (run dd lower init (ops₁ ++ [o₁])) .str).2 =
      (step dd lower (run dd lower init (ops₂ ++ [o₂])) .str).2 := by
  have key : ∀ ops o, Spec.rewrites o = true →
      run dd lower init (ops ++ [o]) = ⟨none, abs dd (run dd lower init (ops ++ [o]))⟩ := by
    intro ops o h
    have hs : (run dd lower init (ops ++ [o])).string = none := by
      simp only [run, List.foldl_append, List.foldl_cons, List.foldl_nil]
      exact string_none_of_rewrites lower _ o h
    generalize run dd lower init (ops ++ [o]) = s at hs
    obtain ⟨st, d⟩ := s
    simp only at hs
    subst hs
    rw [abs_of_string_none]
  have l₁ := dd_lookup lower (ops₁ ++ [o₁])
  have l₂ := dd_lookup lower (ops₂ ++ [o₂])
  rw [h₁] at l₁
  rw [h₂] at l₂
  rw [shown_eq_str, shown_eq_str, key ops₁ o₁ r₁, key ops₂ o₂ r₂]
  simp only [shown]
  congr 1
  apply serialize_perm
  · exact abs_nodup_aux dd (nodup_run dd lower init _ nodup_init)
  · exact abs_nodup_aux dd (nodup_run dd lower init _ nodup_init)
  · rw [l₁, l₂]
  · rw [l₁]; exact hinj

/-- C03, what is printed: after an item assignment the text is `_` for the empty mapping, otherwise
the items of the mapping, each once, sorted by lower-cased name, joined by `|`. -/
theorem C03_dualDict_text_form (lower : Str → Str) (ops : List Op) (o : Op)
    (r : Spec.rewrites o = true) :
    let m := Spec.run Spec.ud Spec.empty (ops ++ [o])
    ∃ items : List (Str × Val),
      (∀ k v, (k, v) ∈ items ↔ m k = some v) ∧ (items.map (·.1)).Nodup ∧
      items.Pairwise (fun a b => lower a.1 ≤ lower b.1) ∧
      (step dd lower (run dd lower init (ops ++ [o])) .str).2 =
        .text (if items = [] then ['_'] else join ['|'] (items.map (Spec.written Spec.ud))) := by
  intro m
  have hl : lookup (abs dd (run dd lower init (ops ++ [o]))) = m := dd_lookup lower (ops ++ [o])
  have hn : NodupKeys (abs dd (run dd lower init (ops ++ [o]))) :=
    abs_nodup_aux dd (nodup_run dd lower init _ nodup_init)
  have hs : (run dd lower init (ops ++ [o])).string = none := by
    simp only [run, List.foldl_append, List.foldl_cons, List.foldl_nil]
    exact string_none_of_rewrites lower _ o r
  rw [shown_eq_str]
  generalize run dd lower init (ops ++ [o]) = s at hl hn hs
  obtain ⟨st, d⟩ := s
  simp only at hs
  subst hs
  rw [abs_of_string_none] at hl hn
  have hp := pySort_perm (itemLe lower) d
  refine ⟨pySort (itemLe lower) d, ?_, (hn.perm hp.symm), ?_, ?_⟩
  · intro k v
    rw [hp.mem_iff, mem_iff_lookup hn, hl]
  · have := pySort_pairwise (itemLe_trans lower) (itemLe_total lower) d
    exact this.imp (fun h => by simpa [itemLe] using h)
  · simp only [shown, serialize]
    by_cases hd : d = []
    · subst hd; rfl
    · have : pySort (itemLe lower) d ≠ [] := by
        intro h; rw [h] at hp; exact hd hp.symm.eq_nil
      rw [if_neg hd, if_neg this]
      congr 3
      funext p
      exact showItem_eq dd p

/-- A lower-casing of ASCII `A`, enough for the witness. -/
def lowerA (s : Str) : Str := s.map (fun c => if c = 'A' then 'a' else c)

/-- C03 is violated when two names differ only in case: the text depends on the order of the
assignments. -/
theorem C03_dualDict_text_order_violated :
    Spec.run Spec.ud Spec.empty [.set ['a'] (some (.str ['1'])), .set ['A'] (some (.str ['2']))] =
      Spec.run Spec.ud Spec.empty [.set ['A'] (some (.str ['2'])), .set ['a'] (some (.str ['1']))] ∧
    (step dd lowerA (run dd lowerA init
        [.set ['a'] (some (.str ['1'])), .set ['A'] (some (.str ['2']))]) .str).2 ≠
      (step dd lowerA (run dd lowerA init
        [.set ['A'] (some (.str ['2'])), .set ['a'] (some (.str ['1']))]) .str).2 := by
  refine ⟨?_, by decide⟩
  funext k
  by_cases h1 : k = ['a'] <;> by_cases h2 : k = ['A'] <;>
    simp_all [Spec.run, List.foldl, Spec.step, Spec.deletes, Spec.ud, Spec.update]

/-- The hypotheses of `C03_dualDict_text_canonical_partial` are met by two orders of assignments. -/
example : (step dd id (run dd id init
      [.set ['b'] (some .tru), .set ['a'] (some (.str ['x']))]) .str).2 =
    (step dd id (run dd id init
      [.set ['a'] (some (.str ['x'])), .set ['b'] (some .tru)]) .str).2 := by decide

/-! ## C04 -/

/-- C04: calls that only read (`d[k]`, `get`, `in`, `list`, `len`, `str`, ...) inserted anywhere into
a history of a `DualDict` change no later result. -/
theorem C04_dualDict_reads_invisible (lower : Str → Str) (before after : List Op) (r o : Op)
    (hr : Spec.readOnly r = true) :
    (step dd lower (run dd lower init (before ++ [r] ++ after)) o).2 =
      (step dd lower (run dd lower init (before ++ after)) o).2 := by
  have h : Same dd lower (run dd lower init (before ++ [r] ++ after))
      (run dd lower init (before ++ after)) := by
    simp only [run, List.foldl_append, List.foldl_cons, List.foldl_nil]
    exact run_same dd lower (readOnly_same dd lower _ r hr) after
  exact (step_same dd lower h o).2

/-- C04 for the text: a text assigned to a `DualDict` is printed unchanged (the empty text as `_`)
after any number of read-only calls. -/
theorem C04_dualDict_assigned_text_kept (lower : Str → Str) (before reads : List Op) (t : Str)
    (hr : ∀ o ∈ reads, Spec.readOnly o = true) :
    (step dd lower (run dd lower init (before ++ [.setStr t] ++ reads)) .str).2 =
      .text (if t = [] then ['_'] else t) := by
  have h : ∀ s, Same dd lower (run dd lower s reads) s := by
    induction reads with
    | nil => intro s; exact ⟨rfl, rfl⟩
    | cons o os ih =>
      intro s
      have h1 := ih (fun o' ho' => hr o' (List.mem_cons_of_mem _ ho')) (step dd lower s o).1
      have h2 := readOnly_same dd lower s o (hr o (List.mem_cons_self ..))
      exact ⟨h1.1.trans h2.1, h1.2.trans h2.2⟩
  have h' := h (run dd lower init (before ++ [.setStr t]))
  have e : run dd lower init (before ++ [.setStr t] ++ reads)
      = run dd lower (run dd lower init (before ++ [.setStr t])) reads := by
    simp [run, List.foldl_append]
  rw [e, (step_same dd lower h' .str).2]
  simp only [run, List.foldl_append, List.foldl_cons, List.foldl_nil, step, dd]

example : Spec.readOnly .str = true ∧ Spec.readOnly (.get ['a']) = true := ⟨rfl, rfl⟩

/-- An unsorted text with repeated names stays as assigned although reading parses it. -/
example : (step dd id (run dd id init [.setStr "b=1|a=2|b=3".toList, .get ['b'], .len]) .str).2
    = .text "b=1|a=2|b=3".toList := by decide

/-! ## C05 -/

private theorem escapeComma_eq (s : Str) : escapeComma s = Spec.noCommas s := by
  induction s with
  | nil => rfl
  | cons c s ih =>
    simp only [escapeComma, Spec.noCommas, List.flatMap_cons] at ih ⊢
    split <;> simp [ih]

private theorem odd_step (m : Spec.Map) (o : Op) (ho : o ≠ .clear ∧ o ≠ .setNone) :
    Spec.step odd m o = Spec.step Spec.other m o := by
  have hs : odd.storeVal = Spec.other.storeVal := by
    funext v
    cases v with
    | str s => simp only [odd, Spec.other, escapeComma_eq]
    | _ => rfl
  cases o with
  | clear => exact absurd rfl ho.1
  | setNone => exact absurd rfl ho.2
  | set k v => simp only [Spec.step, hs]
  | _ => rfl

private theorem odd_run (m : Spec.Map) (ops : List Op) (ho : ∀ o ∈ ops, o ≠ .clear ∧ o ≠ .setNone) :
    Spec.run odd m ops = Spec.run Spec.other m ops := by
  induction ops generalizing m with
  | nil => rfl
  | cons o ops ih =>
    simp only [Spec.run, List.foldl_cons] at ih ⊢
    rw [odd_step m o (ho o (List.mem_cons_self ..))]
    exact ih _ (fun o' h => ho o' (List.mem_cons_of_mem _ h))

/-- C05 (partial): after any calls other than `clear()` and `set_mapping(None)`, every way of reading
an `OtherDualDict` agrees with the plain mapping obtained by the same calls, string values being
stored with commas escaped. Missing: `clear`, after which the claim is false
(`C05_otherDualDict_clear_violated`). -/
theorem C05_otherDualDict_reads_partial (lower : Str → Str) (ops : List Op)
    (hc : ∀ o ∈ ops, o ≠ .clear ∧ o ≠ .setNone) :
    let s := run odd lower init ops
    let m := Spec.run Spec.other Spec.empty ops
    (∀ k, (step odd lower s (.get k)).2 = .val ((m k).getD (.str []))) ∧
    (∀ k, (step odd lower s (.contains k)).2 = .bool (m k).isSome) ∧
    (∃ ks : List Str, (step odd lower s .iter).2 = .keys ks ∧ ks.Nodup ∧ (∀ k, k ∈ ks ↔ (m k).isSome) ∧
      (step odd lower s .len).2 = .nat ks.length) := by
  intro s m
  have hm : lookup (abs odd s) = m := by
    funext k
    rw [abs_run_lookup odd lower init ops nodup_init (Or.inr hc), init_abs, odd_run _ _ hc]
  have hn : NodupKeys (abs odd s) := abs_nodup_aux odd (nodup_run odd lower init ops nodup_init)
  refine ⟨fun k => ?_, fun k => ?_, (abs odd s).map (fun p : Str × Val => p.1), ?_, hn, ?_, ?_⟩
  · simp only [step, read, abs_deserialize_dict, hm]
  · simp only [step, abs_deserialize_dict, hm]
  · simp only [step, abs_deserialize_dict]
  · intro k
    rw [mem_keys_iff, hm]
  · simp only [step, abs_deserialize_dict, List.length_map]

/-- C05: values stored by item assignment contain no comma, so they cannot break the item list. -/
theorem C05_otherDualDict_values_comma_free (s : Str) : ',' ∉ Spec.noCommas s := by
  induction s with
  | nil => simp [Spec.noCommas]
  | cons c s ih =>
    simp only [Spec.noCommas, List.flatMap_cons, List.mem_append] at ih ⊢
    rintro (h | h)
    · split at h
      · revert h; decide
      · rename_i hc; simp only [List.mem_singleton] at h; exact hc h.symm
    · exact ih h

/-- C05 is violated by `clear()`: afterwards the mapping has the flag `_` and prints as `_`. -/
theorem C05_otherDualDict_clear_violated :
    (step odd id (run odd id init [.clear]) (.contains ['_'])).2 = .bool true ∧
    (step odd id (run odd id init [.clear]) .len).2 = .nat 1 ∧
    Spec.run Spec.other Spec.empty [.clear] ['_'] = none := by decide

/-- C04 for `OtherDualDict`: read-only calls change no later result. -/
theorem C05_otherDualDict_reads_invisible (lower : Str → Str) (before after : List Op) (r o : Op)
    (hr : Spec.readOnly r = true) :
    (step odd lower (run odd lower init (before ++ [r] ++ after)) o).2 =
      (step odd lower (run odd lower init (before ++ after)) o).2 := by
  have h : Same odd lower (run odd lower init (before ++ [r] ++ after))
      (run odd lower init (before ++ after)) := by
    simp only [run, List.foldl_append, List.foldl_cons, List.foldl_nil]
    exact run_same odd lower (readOnly_same odd lower _ r hr) after
  exact (step_same odd lower h o).2

example : Spec.run Spec.other Spec.empty
    [.setStr "a:1,b".toList, .set ['a'] (some (.str "x,y".toList))] ['a']
      = some (.str "x%2Cy".toList) := by decide

/-! ## C55 -/

/-- C55 is violated: `d.get(k, default)` never returns the default for an absent name; it returns the
empty string, for every state, name and default. -/
theorem C55_dualDict_get_default_violated (lower : Str → Str) (ops : List Op) (k : Str) (v : Val)
    (habs : Spec.run Spec.ud Spec.empty ops k = none) :
    (step dd lower (run dd lower init ops) (.getDefault k v)).2 = .val (.str []) := by
  have hm := congrFun (dd_lookup lower ops) k
  simp only [step, read, abs_deserialize_dict, hm, habs, Option.getD_none]

/-- C55 is violated: `d.setdefault(k, default)` never sets an absent name. -/
theorem C55_dualDict_setdefault_violated (lower : Str → Str) (ops : List Op) (k k' : Str) (v : Val) :
    (step dd lower (run dd lower init (ops ++ [.setdefault k v])) (.contains k')).2 =
      (step dd lower (run dd lower init ops) (.contains k')).2 := by
  have := C04_dualDict_reads_invisible lower ops [] (.setdefault k v) (.contains k') rfl
  simpa using this

/-- C55 (partial): for present names both calls return the stored value. Missing: absent names. -/
theorem C55_dualDict_get_present_partial (lower : Str → Str) (ops : List Op) (k : Str) (v w : Val)
    (h : Spec.run Spec.ud Spec.empty ops k = some w) :
    (step dd lower (run dd lower init ops) (.getDefault k v)).2 = .val w ∧
    (step dd lower (run dd lower init ops) (.setdefault k v)).2 = .val w := by
  have hm := congrFun (dd_lookup lower ops) k
  constructor <;> simp only [step, read, abs_deserialize_dict, hm, h, Option.getD_some]

example : Spec.run Spec.ud Spec.empty [.setStr "a=1".toList] ['b'] = none ∧
    Spec.run Spec.ud Spec.empty [.setStr "a=1".toList] ['a'] = some (.str ['1']) := by decide

end Verif.DualDict
