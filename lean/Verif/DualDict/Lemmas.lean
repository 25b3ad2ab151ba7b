import Verif.DualDict.Spec

/-! # Helper facts about the `DualDict` model -/

namespace Verif.DualDict
open Verif.Py

theorem lookup_insert (d : Dict) (k : Str) (v : Val) (k' : Str) :
    lookup (insert d k v) k' = if k' = k then some v else lookup d k' := by
  induction d with
  | nil => simp [insert, lookup, eq_comm]
  | cons p r ih =>
    obtain ⟨k₀, v₀⟩ := p
    simp only [insert]
    split
    · rename_i h
      subst h
      simp only [lookup]
      by_cases h2 : k' = k₀
      · simp [h2]
      · have : ¬ k₀ = k' := fun e => h2 e.symm
        simp [h2, this]
    · rename_i h
      simp only [lookup, ih]
      by_cases h2 : k₀ = k'
      · subst h2; simp [h]
      · simp [h2]

/-- Keys of a Python dict are unique. -/
def NodupKeys (d : Dict) : Prop := (d.map (·.1)).Nodup

theorem mem_keys_iff (d : Dict) (k : Str) : k ∈ d.map (·.1) ↔ (lookup d k).isSome := by
  induction d with
  | nil => simp [lookup]
  | cons p r ih =>
    obtain ⟨k₀, v₀⟩ := p
    simp only [List.map_cons, List.mem_cons, lookup]
    by_cases h : k₀ = k
    · simp [h]
    · have h' : ¬ k = k₀ := fun e => h e.symm
      simp only [h, h', false_or, if_false]
      exact ih

theorem lookup_none_iff (d : Dict) (k : Str) : lookup d k = none ↔ k ∉ d.map (·.1) := by
  rw [mem_keys_iff]; cases lookup d k <;> simp

theorem nodup_insert {d : Dict} (h : NodupKeys d) (k : Str) (v : Val) : NodupKeys (insert d k v) := by
  induction d with
  | nil => simp [insert, NodupKeys]
  | cons p r ih =>
    obtain ⟨k₀, v₀⟩ := p
    simp only [NodupKeys, List.map_cons, List.nodup_cons] at h
    simp only [insert]
    split
    · simpa [NodupKeys] using h
    · rename_i hk
      simp only [NodupKeys, List.map_cons, List.nodup_cons]
      refine ⟨?_, ih h.2⟩
      rw [mem_keys_iff, lookup_insert]
      rw [mem_keys_iff] at h
      simp [hk, h.1]

theorem erase_sublist (d : Dict) (k : Str) : (erase d k).Sublist d := by
  induction d with
  | nil => exact List.Sublist.refl _
  | cons p r ih =>
    obtain ⟨k₀, v₀⟩ := p
    simp only [erase]
    split
    · exact List.sublist_cons_self _ _
    · exact ih.cons_cons _

theorem nodup_erase {d : Dict} (h : NodupKeys d) (k : Str) : NodupKeys (erase d k) :=
  List.Nodup.sublist ((erase_sublist d k).map _) h

theorem lookup_erase {d : Dict} (h : NodupKeys d) (k k' : Str) :
    lookup (erase d k) k' = if k' = k then none else lookup d k' := by
  induction d with
  | nil => simp [erase, lookup]
  | cons p r ih =>
    obtain ⟨k₀, v₀⟩ := p
    simp only [NodupKeys, List.map_cons, List.nodup_cons] at h
    simp only [erase]
    split
    · rename_i hk
      subst hk
      by_cases h2 : k' = k₀
      · subst h2
        simp [(lookup_none_iff _ _).2 h.1]
      · have : ¬ k₀ = k' := fun e => h2 e.symm
        simp [lookup, h2, this]
    · rename_i hk
      simp only [lookup, ih h.2]
      by_cases h2 : k₀ = k'
      · subst h2; simp [hk]
      · simp [h2]

theorem erase_of_lookup_none {d : Dict} {k : Str} (h : lookup d k = none) : erase d k = d := by
  induction d with
  | nil => rfl
  | cons p r ih =>
    obtain ⟨k₀, v₀⟩ := p
    simp only [lookup] at h
    split at h
    · simp at h
    · rename_i hk
      simp [erase, hk, ih h]

theorem foldl_insert_lookup (ps : List (Str × Val)) (d : Dict) (k : Str) :
    lookup (ps.foldl (fun d p => insert d p.1 p.2) d) k
      = ((ps.reverse.find? (fun p => p.1 = k)).map (·.2)).or (lookup d k) := by
  induction ps generalizing d with
  | nil => simp
  | cons p ps ih =>
    simp only [List.foldl_cons, List.reverse_cons, List.find?_append]
    rw [ih, lookup_insert]
    cases hf : ps.reverse.find? (fun p => p.1 = k) with
    | some q => simp
    | none =>
      by_cases h : k = p.1
      · simp [h]
      · have : ¬ p.1 = k := fun e => h e.symm
        simp [h, this]

theorem ofPairs_lookup (ps : List (Str × Val)) (k : Str) :
    lookup (ofPairs ps) k = Spec.ofPairs ps k := by
  simp [ofPairs, Spec.ofPairs, foldl_insert_lookup, lookup]

theorem foldl_insert_nodup (ps : List (Str × Val)) (d : Dict) (h : NodupKeys d) :
    NodupKeys (ps.foldl (fun d p => insert d p.1 p.2) d) := by
  induction ps generalizing d with
  | nil => exact h
  | cons p ps ih => exact ih _ (nodup_insert h _ _)

theorem ofPairs_nodup (ps : List (Str × Val)) : NodupKeys (ofPairs ps) :=
  foldl_insert_nodup ps [] (by simp [NodupKeys])

theorem insert_ne_nil (d : Dict) (k : Str) (v : Val) : insert d k v ≠ [] := by
  cases d with
  | nil => simp [insert]
  | cons p r => simp only [insert]; split <;> simp

theorem foldl_insert_ne_nil (ps : List (Str × Val)) (d : Dict) (h : d ≠ []) :
    ps.foldl (fun d p => insert d p.1 p.2) d ≠ [] := by
  induction ps generalizing d with
  | nil => exact h
  | cons p ps ih => exact ih _ (insert_ne_nil _ _ _)

theorem parse_ne_nil (cfg : Cfg) (s : Str) : parse cfg s ≠ [] := by
  unfold parse ofPairs
  cases h : split cfg.itemSep s with
  | nil => exact absurd h (split_ne_nil _ _)
  | cons p ps =>
    simp only [List.map_cons, List.foldl_cons]
    exact foldl_insert_ne_nil _ _ (insert_ne_nil _ _ _)

theorem parseItem_eq (cfg : Cfg) (item : Str) : parseItem cfg item = Spec.itemOf cfg item := by
  unfold parseItem Spec.itemOf
  rcases splitOnce cfg.kvSep item with ⟨a, _ | b⟩ <;> rfl

/-- The mapping the object stands for. -/
def abs (cfg : Cfg) (s : State) : Dict := (deserialize cfg s).dict

/-- The text the object stands for. -/
def shown (cfg : Cfg) (lower : Str → Str) (s : State) : Str :=
  match s.string with
  | some t => t
  | none => serialize cfg lower s.dict

theorem abs_of_dict (cfg : Cfg) {s : State} (h : s.dict ≠ []) : abs cfg s = s.dict := by
  obtain ⟨st, d⟩ := s
  cases d with
  | nil => exact absurd rfl h
  | cons p r => rfl

theorem abs_of_string_none (cfg : Cfg) (d : Dict) : abs cfg ⟨none, d⟩ = d := by
  cases d <;> rfl

theorem deserialize_string (cfg : Cfg) (s : State) : (deserialize cfg s).string = s.string := by
  unfold deserialize
  split
  · split <;> rfl
  · rfl

theorem abs_nil_some (cfg : Cfg) (t : Str) :
    abs cfg ⟨some t, []⟩ = if t = cfg.emptyStr then [] else parse cfg t := by
  simp only [abs, deserialize]
  split <;> rfl

theorem abs_deserialize (cfg : Cfg) (s : State) : abs cfg (deserialize cfg s) = abs cfg s := by
  obtain ⟨st, d⟩ := s
  cases d with
  | cons p r => rfl
  | nil =>
    cases st with
    | none => rfl
    | some t =>
      by_cases h : t = cfg.emptyStr
      · simp [abs, deserialize, h]
      · have : deserialize cfg ⟨some t, []⟩ = ⟨some t, parse cfg t⟩ := by simp [deserialize, h]
        rw [this, abs_of_dict _ (parse_ne_nil cfg t), abs, this]

theorem deserialize_eq (cfg : Cfg) (s : State) : deserialize cfg s = ⟨s.string, abs cfg s⟩ := by
  have := deserialize_string cfg s
  unfold abs
  rw [← this]

theorem ofText_lookup (cfg : Cfg) (t : Str) (k : Str) :
    lookup (abs cfg ⟨some t, []⟩) k = Spec.ofText cfg t k := by
  rw [abs_nil_some]
  unfold Spec.ofText
  split
  · rfl
  · rw [parse, ofPairs_lookup]
    have : parseItem cfg = Spec.itemOf cfg := by
      funext item; exact parseItem_eq cfg item
    rw [this]

theorem abs_nodup_aux (cfg : Cfg) {s : State} (h : NodupKeys s.dict) : NodupKeys (abs cfg s) := by
  obtain ⟨st, d⟩ := s
  cases d with
  | cons p r => exact h
  | nil =>
    cases st with
    | none => exact h
    | some t =>
      rw [abs_nil_some]
      split
      · exact h
      · exact ofPairs_nodup _

theorem abs_delItem (cfg : Cfg) (s : State) (k : Str) :
    abs cfg (delItem cfg s k) = erase (abs cfg s) k := by
  unfold delItem
  simp only [deserialize_eq]
  cases h : lookup (abs cfg s) k with
  | some v => exact abs_of_string_none _ _
  | none =>
    rw [erase_of_lookup_none h, ← deserialize_eq, abs_deserialize]

theorem abs_setItem (cfg : Cfg) (s : State) (k : Str) (v : Option Val) :
    abs cfg (setItem cfg s k v).1 =
      if Spec.deletes v then erase (abs cfg s) k
      else match v.bind cfg.storeVal with
        | some w => insert (abs cfg s) k w
        | none => abs cfg s := by
  unfold setItem
  simp only [deserialize_eq]
  cases v with
  | none => simp [Spec.deletes, abs_delItem, abs_of_string_none]
  | some v =>
    by_cases hv : v = .str []
    · simp [Spec.deletes, hv, abs_delItem, abs_of_string_none]
    · simp only [Spec.deletes, hv, decide_false, Option.bind_some, if_false, Bool.false_eq_true]
      cases cfg.storeVal v with
      | none => exact abs_of_string_none _ _
      | some w => exact abs_of_string_none _ _

theorem abs_deserialize_dict (cfg : Cfg) (s : State) : (deserialize cfg s).dict = abs cfg s := rfl

theorem abs_str (cfg : Cfg) (lower : Str → Str) (d : Dict) :
    abs cfg ⟨some (serialize cfg lower d), d⟩ = d := by
  cases d with
  | nil => simp [abs_nil_some, serialize]
  | cons p r => rfl

/-- The dictionary after a call depends only on the dictionary before it. -/
theorem abs_step_lookup (cfg : Cfg) (lower : Str → Str) (s : State) (o : Op)
    (hnd : NodupKeys s.dict) (hc : cfg.clearStr = cfg.emptyStr ∨ (o ≠ .clear ∧ o ≠ .setNone)) (k : Str) :
    lookup (abs cfg (step cfg lower s o).1) k = Spec.step cfg (lookup (abs cfg s)) o k := by
  have hnd' := abs_nodup_aux cfg hnd
  have hclear : cfg.clearStr = cfg.emptyStr → abs cfg (clear cfg) = [] := by
    intro h; simp [clear, abs_nil_some, h]
  cases o with
  | set k' v =>
    simp only [step, abs_setItem, Spec.step]
    split
    · rw [lookup_erase hnd']; rfl
    · cases v.bind cfg.storeVal with
      | none => rfl
      | some w => rw [lookup_insert]; rfl
  | del k' => simp only [step, abs_delItem, Spec.step, lookup_erase hnd']; rfl
  | pop k' =>
    simp only [step, abs_delItem, Spec.step, abs_deserialize, lookup_erase hnd']; rfl
  | clear =>
    rcases hc with hc | hc
    · simp [step, hclear hc, lookup, Spec.step, Spec.empty]
    · exact absurd rfl hc.1
  | setNone =>
    rcases hc with hc | hc
    · simp [step, hclear hc, lookup, Spec.step, Spec.empty]
    · exact absurd rfl hc.2
  | setStr t => simp only [step, Spec.step]; exact ofText_lookup cfg _ k
  | setDict m => simp only [step, Spec.step, abs_of_string_none]; exact ofPairs_lookup m k
  | setOther => rfl
  | get k' => simp [step, Spec.step, abs_deserialize]
  | getDefault k' _ => simp [step, Spec.step, abs_deserialize]
  | setdefault k' _ => simp [step, Spec.step, abs_deserialize]
  | contains k' => simp [step, Spec.step, abs_deserialize]
  | iter => simp [step, Spec.step, abs_deserialize]
  | len => simp [step, Spec.step, abs_deserialize]
  | str =>
    obtain ⟨st, d⟩ := s
    cases st with
    | some t => rfl
    | none => simp [step, Spec.step, abs_str, abs_of_string_none]

theorem nodup_step (cfg : Cfg) (lower : Str → Str) (s : State) (o : Op) (h : NodupKeys s.dict) :
    NodupKeys (step cfg lower s o).1.dict := by
  have h' := abs_nodup_aux cfg h
  have hdel : ∀ s' k, NodupKeys (abs cfg s') → NodupKeys (delItem cfg s' k).dict := by
    intro s' k hs
    unfold delItem
    simp only [deserialize_eq]
    cases hl : lookup (abs cfg s') k with
    | some v => exact nodup_erase hs k
    | none => exact hs
  cases o with
  | set k v =>
    simp only [step, setItem, deserialize_eq]
    cases v with
    | none => exact hdel _ _ (by rw [abs_of_string_none]; exact h')
    | some v =>
      by_cases hv : v = .str []
      · simp only [hv, if_true]; exact hdel _ _ (by rw [abs_of_string_none]; exact h')
      · simp only [hv, if_false]
        cases cfg.storeVal v with
        | none => exact h'
        | some w => exact nodup_insert h' _ _
  | del k => exact hdel _ _ h'
  | pop k => exact hdel _ _ (by rw [abs_deserialize]; exact h')
  | clear => simp [step, clear, NodupKeys]
  | setNone => simp [step, clear, NodupKeys]
  | setStr t => simp [step, NodupKeys]
  | setDict m => exact ofPairs_nodup m
  | setOther => exact h
  | get k' => exact h'
  | getDefault k' _ => exact h'
  | setdefault k' _ => exact h'
  | contains k' => exact h'
  | iter => exact h'
  | len => exact h'
  | str =>
    obtain ⟨st, d⟩ := s
    cases st <;> exact h

theorem nodup_run (cfg : Cfg) (lower : Str → Str) (s : State) (ops : List Op)
    (h : NodupKeys s.dict) : NodupKeys (run cfg lower s ops).dict := by
  induction ops generalizing s with
  | nil => exact h
  | cons o ops ih => exact ih _ (nodup_step cfg lower s o h)

theorem abs_run_lookup (cfg : Cfg) (lower : Str → Str) (s : State) (ops : List Op)
    (hnd : NodupKeys s.dict)
    (hc : cfg.clearStr = cfg.emptyStr ∨ (∀ o ∈ ops, o ≠ .clear ∧ o ≠ .setNone)) (k : Str) :
    lookup (abs cfg (run cfg lower s ops)) k = Spec.run cfg (lookup (abs cfg s)) ops k := by
  induction ops generalizing s with
  | nil => rfl
  | cons o ops ih =>
    have h1 : cfg.clearStr = cfg.emptyStr ∨ (o ≠ .clear ∧ o ≠ .setNone) := by
      rcases hc with h | h
      · exact Or.inl h
      · exact Or.inr (h o (by simp))
    have h2 : cfg.clearStr = cfg.emptyStr ∨ (∀ o ∈ ops, o ≠ .clear ∧ o ≠ .setNone) := by
      rcases hc with h | h
      · exact Or.inl h
      · exact Or.inr (fun o ho => h o (by simp [ho]))
    have := ih (step cfg lower s o).1 (nodup_step cfg lower s o hnd) h2
    have he : lookup (abs cfg (step cfg lower s o).1) = Spec.step cfg (lookup (abs cfg s)) o := by
      funext k; exact abs_step_lookup cfg lower s o hnd h1 k
    simp only [run, Spec.run, List.foldl_cons] at this ⊢
    rw [this, he]

/-! ## Behavioural equivalence of states (for read-only calls) -/

/-- Two states that no call can distinguish. -/
def Same (cfg : Cfg) (lower : Str → Str) (s t : State) : Prop :=
  abs cfg s = abs cfg t ∧ shown cfg lower s = shown cfg lower t

theorem shown_delItem (cfg : Cfg) (lower : Str → Str) (s : State) (k : Str) :
    shown cfg lower (delItem cfg s k) =
      if (lookup (abs cfg s) k).isSome then serialize cfg lower (erase (abs cfg s) k)
      else shown cfg lower s := by
  unfold delItem
  simp only [deserialize_eq]
  cases h : lookup (abs cfg s) k with
  | some v => rfl
  | none =>
    obtain ⟨st, d⟩ := s
    cases st with
    | some t => rfl
    | none => simp [shown, abs_of_string_none]

theorem step_same (cfg : Cfg) (lower : Str → Str) {s t : State} (h : Same cfg lower s t) (o : Op) :
    Same cfg lower (step cfg lower s o).1 (step cfg lower t o).1 ∧
      (step cfg lower s o).2 = (step cfg lower t o).2 := by
  obtain ⟨h1, h2⟩ := h
  have hshow : ∀ (s : State), shown cfg lower ⟨s.string, abs cfg s⟩ = shown cfg lower s := by
    rintro ⟨st, d⟩
    cases st with
    | some t => rfl
    | none => simp [shown, abs_of_string_none]
  have habs : ∀ (s : State), abs cfg ⟨s.string, abs cfg s⟩ = abs cfg s := by
    intro s; rw [← deserialize_eq, abs_deserialize]
  have hdel : ∀ (s t : State) k, abs cfg s = abs cfg t → shown cfg lower s = shown cfg lower t →
      Same cfg lower (delItem cfg s k) (delItem cfg t k) := by
    intro s t k h1 h2
    refine ⟨?_, ?_⟩
    · rw [abs_delItem, abs_delItem, h1]
    · rw [shown_delItem, shown_delItem, h1, h2]
  cases o with
  | set k v =>
    simp only [step, setItem, deserialize_eq, h1]
    refine ⟨⟨rfl, rfl⟩, trivial⟩
  | del k => exact ⟨hdel _ _ _ h1 h2, rfl⟩
  | pop k =>
    simp only [step, deserialize_eq, h1]
    refine ⟨?_, trivial⟩
    exact hdel _ _ _ (by rw [← h1, habs, h1, habs]) (by rw [← h1, hshow, h1, hshow]; exact h2)
  | clear => exact ⟨⟨rfl, rfl⟩, rfl⟩
  | setNone => exact ⟨⟨rfl, rfl⟩, rfl⟩
  | setStr t => exact ⟨⟨rfl, rfl⟩, rfl⟩
  | setDict m => exact ⟨⟨rfl, rfl⟩, rfl⟩
  | setOther => exact ⟨⟨h1, h2⟩, rfl⟩
  | get k | getDefault k _ | setdefault k _ | contains k | iter | len =>
    simp only [step, deserialize_eq]
    refine ⟨⟨?_, ?_⟩, ?_⟩
    · rw [habs, habs, h1]
    · rw [hshow, hshow, h2]
    · simp [h1]
  | str =>
    obtain ⟨st, d⟩ := s
    obtain ⟨st', d'⟩ := t
    cases st with
    | some x =>
      cases st' with
      | some y =>
        simp only [shown] at h2
        exact ⟨⟨h1, by simp [step, shown, h2]⟩, by simp [step, h2]⟩
      | none =>
        simp only [shown, abs_of_string_none] at h1 h2
        simp only [step, h2]
        refine ⟨⟨?_, rfl⟩, trivial⟩
        rw [abs_str, ← h2, h1]
    | none =>
      cases st' with
      | some y =>
        simp only [shown, abs_of_string_none] at h1 h2
        simp only [step, h2]
        refine ⟨⟨?_, rfl⟩, trivial⟩
        rw [← h2, abs_str, h2, h1]
      | none =>
        simp only [shown, abs_of_string_none] at h1 h2
        subst h1
        exact ⟨⟨rfl, rfl⟩, rfl⟩

theorem run_same (cfg : Cfg) (lower : Str → Str) {s t : State} (h : Same cfg lower s t)
    (ops : List Op) : Same cfg lower (run cfg lower s ops) (run cfg lower t ops) := by
  induction ops generalizing s t with
  | nil => exact h
  | cons o ops ih => exact ih (step_same cfg lower h o).1

theorem readOnly_same (cfg : Cfg) (lower : Str → Str) (s : State) (o : Op)
    (ho : Spec.readOnly o = true) : Same cfg lower (step cfg lower s o).1 s := by
  have hd : Same cfg lower (deserialize cfg s) s := by
    refine ⟨abs_deserialize cfg s, ?_⟩
    rw [deserialize_eq]
    obtain ⟨st, d⟩ := s
    cases st with
    | some t => rfl
    | none => simp [shown, abs_of_string_none]
  cases o with
  | set | del | pop | clear | setNone | setStr | setDict => simp [Spec.readOnly] at ho
  | setOther => exact ⟨rfl, rfl⟩
  | get k | getDefault k _ | setdefault k _ | contains k | iter | len => exact hd
  | str =>
    obtain ⟨st, d⟩ := s
    cases st with
    | some t => exact ⟨rfl, rfl⟩
    | none => exact ⟨by simp [step, abs_str, abs_of_string_none], rfl⟩

end Verif.DualDict
