import Verif.Text.ComplyCells

/-!
# Solving the differences of ud.ComplyWithText
-/

namespace Verif.Text.Comply
open Verif.Py
open Verif.Run (wsSplit)
open Verif.Eval.Diff (Op Tag)

/-! ## Numbered tokens -/

/-- The tokens numbered from `k`. -/
def num : Nat → List Tk → List Tk
  | _, [] => []
  | k, t :: ts => { t with orig := some k, words := [] } :: num (k + 1) ts

theorem number_num (toks : List Tk) : number toks = num 0 toks := by
  have : ∀ (ts : List Tk) (k : Nat), ts.mapIdx (fun i t => { t with orig := some (k + i), words := [] }) = num k ts := by
    intro ts
    induction ts with
    | nil => intro k; rfl
    | cons t ts ih =>
      intro k
      rw [List.mapIdx_cons]
      unfold num
      rw [← ih (k + 1)]
      congr 1
      congr 1
      funext i t
      rw [show k + (i + 1) = k + 1 + i by omega]
  have h := this toks 0
  simp only [Nat.zero_add] at h
  exact h

theorem num_append : ∀ (k : Nat) (a b : List Tk), num k (a ++ b) = num k a ++ num (k + a.length) b
  | k, [], b => by simp [num]
  | k, t :: a, b => by
    show _ :: num (k + 1) (a ++ b) = _ :: (num (k + 1) a ++ num (k + (a.length + 1)) b)
    rw [num_append (k + 1) a b, show k + 1 + a.length = k + (a.length + 1) by omega]

theorem num_forms : ∀ (k : Nat) (a : List Tk), (num k a).map Tk.form = a.map Tk.form
  | _, [] => rfl
  | k, t :: a => by
    show _ :: (num (k + 1) a).map Tk.form = _
    rw [num_forms (k + 1) a]
    rfl

theorem num_length : ∀ (k : Nat) (a : List Tk), (num k a).length = a.length
  | _, [] => rfl
  | k, t :: a => by
    show (num (k + 1) a).length + 1 = _
    rw [num_length (k + 1) a]
    rfl

theorem num_orig : ∀ (k : Nat) (a : List Tk), ∀ t ∈ num k a, ∃ i, t.orig = some i ∧ k ≤ i ∧ i < k + a.length
  | _, [], t, h => absurd h List.not_mem_nil
  | k, u :: a, t, h => by
    rcases List.mem_cons.1 h with rfl | h
    · exact ⟨k, rfl, Nat.le_refl _, by simp⟩
    · obtain ⟨i, h1, h2, h3⟩ := num_orig (k + 1) a t h
      exact ⟨i, h1, by omega, by simp; omega⟩

/-- Tokens that do not come from a position after `n`. -/
def Old (n : Nat) (l : List Tk) : Prop := ∀ t ∈ l, ∀ k, t.orig = some k → k < n

theorem old_append {n : Nat} {a b : List Tk} (ha : Old n a) (hb : Old n b) : Old n (a ++ b) := by
  intro t ht
  rcases List.mem_append.1 ht with h | h
  · exact ha t h
  · exact hb t h

theorem Old.mono {n m : Nat} {a : List Tk} (h : Old n a) (hm : n ≤ m) : Old m a := fun t ht k hk => by
  have := h t ht k hk
  omega

theorem old_num (k : Nat) (a : List Tk) : Old (k + a.length) (num k a) := by
  intro t ht i hi
  obtain ⟨i', h1, _, h3⟩ := num_orig k a t ht
  rw [h1] at hi
  injection hi with hi
  omega

theorem old_new {n : Nat} {l : List Tk} (h : ∀ t ∈ l, t.orig = none) : Old n l := fun t ht k hk => by
  rw [h t ht] at hk
  cases hk

/-! ## Edits -/

theorem edit_append (f : Nat → Tk → List Tk) (ks : List Nat) (a b : List Tk) : edit f ks (a ++ b) = edit f ks a ++ edit f ks b := by
  simp [edit]

theorem edit_skip {f : Nat → Tk → List Tk} {ks : List Nat} : ∀ {l : List Tk}, (∀ t ∈ l, ∀ k, t.orig = some k → k ∉ ks) → edit f ks l = l
  | [], _ => rfl
  | t :: l, h => by
    have ih : edit f ks l = l := edit_skip (fun u hu => h u (List.mem_cons_of_mem _ hu))
    unfold edit at ih ⊢
    rw [List.flatMap_cons, ih]
    split
    · next k hk =>
      have := h t (List.mem_cons_self ..) k hk
      rw [if_neg (by simpa using this)]
      rfl
    · rfl

theorem edit_old {f : Nat → Tk → List Tk} {ks : List Nat} {n : Nat} {l : List Tk} (h : Old n l) (hk : ∀ k ∈ ks, n ≤ k) : edit f ks l = l :=
  edit_skip (fun t ht k e hm => by have := h t ht k e; have := hk k hm; omega)

theorem edit_num {f : Nat → Tk → List Tk} {ks : List Nat} {m : Nat} {l : List Tk} (hk : ∀ k ∈ ks, k < m) : edit f ks (num m l) = num m l :=
  edit_skip (fun t ht k e hm => by
    obtain ⟨i, h1, h2, _⟩ := num_orig m l t ht
    rw [h1] at e
    injection e with e
    have := hk k hm
    omega)

/-- An edit of tokens in the middle. -/
theorem edit_mid {f : Nat → Tk → List Tk} {ks : List Nat} {n m : Nat} {a b c : List Tk} (ha : Old n a) (h1 : ∀ k ∈ ks, n ≤ k)
    (h2 : ∀ k ∈ ks, k < m) : edit f ks (a ++ (b ++ num m c)) = a ++ (edit f ks b ++ num m c) := by
  rw [edit_append, edit_append, edit_old ha h1, edit_num h2]

theorem edit_one (f : Nat → Tk → List Tk) {n : Nat} {t : Tk} {l : List Tk} (h : t.orig = some n) (hl : ∀ u ∈ l, u.orig = none) :
    edit f [n] (t :: l) = f n t ++ l := by
  have e : edit f [n] l = l := edit_skip (fun u hu k hk => by rw [hl u hu] at hk; cases hk)
  unfold edit at e ⊢
  rw [List.flatMap_cons, e, h]
  simp

/-- The old tokens that a token stands for. -/
def Tk.olds (t : Tk) : List Nat := t.orig.toList ++ t.words

/-- New tokens after a token, from the last one. -/
theorem foldl_after {n m : Nat} {a c : List Tk} (ha : Old n a) (hm : n < m) {t : Tk} (ht : t.orig = some n) : ∀ (fs : List Str) (l : List Tk),
    (∀ u ∈ l, u.orig = none) → ∃ l', fs.reverse.foldl (after n) (a ++ (t :: l ++ num m c)) = a ++ (t :: (l' ++ l) ++ num m c) ∧
      l'.map Tk.form = fs ∧ (∀ u ∈ l', u.orig = none) ∧ l'.flatMap Tk.olds = []
  | [], l, _ => ⟨[], rfl, rfl, fun u hu => absurd hu List.not_mem_nil, rfl⟩
  | f :: fs, l, hl => by
    obtain ⟨l', h1, h2, h3, h4⟩ := foldl_after ha hm ht fs l hl
    rw [List.reverse_cons, List.foldl_append, h1]
    refine ⟨{ form := f } :: l', ?_, by simp [h2], ?_, by rw [List.flatMap_cons, h4]; rfl⟩
    · show after n _ f = _
      unfold after
      rw [edit_mid ha (by simp) (by simp; omega), edit_one _ ht]
      · rfl
      · intro u hu
        rcases List.mem_append.1 hu with hu | hu
        · exact h3 u hu
        · exact hl u hu
    · intro u hu
      rcases List.mem_cons.1 hu with rfl | hu
      · rfl
      · exact h3 u hu

theorem find_mid {n : Nat} {a b c : List Tk} (ha : Old n a) (t : Tk) : find (a ++ (num n (t :: b) ++ c)) n = some { t with orig := some n, words := [] } := by
  unfold find
  rw [List.find?_append]
  have : a.find? (fun t => t.orig == some n) = none := by
    rw [List.find?_eq_none]
    intro u hu hx
    have := ha u hu n (by simpa using hx)
    omega
  rw [this]
  unfold num
  simp

theorem find_all : ∀ {n : Nat} {a b c : List Tk}, Old n a → (List.range' n b.length).filterMap (find (a ++ (num n b ++ c))) = num n b
  | n, a, [], c, ha => rfl
  | n, a, t :: b, c, ha => by
    rw [List.length_cons, List.range'_succ, List.filterMap_cons, find_mid ha]
    simp only
    have e : a ++ (num n (t :: b) ++ c) = (a ++ [{ t with orig := some n, words := [] }]) ++ (num (n + 1) b ++ c) := by simp [num]
    rw [e]
    rw [find_all (n := n + 1) (b := b)]
    · rfl
    · apply old_append (ha.mono (by omega))
      intro u hu k hk
      rw [List.mem_singleton.1 hu] at hk
      injection hk with hk
      omega

theorem edit_all (f : Nat → Tk → List Tk) : ∀ (n : Nat) (b : List Tk) (ks : List Nat), (∀ i, n ≤ i → i < n + b.length → i ∈ ks) →
    edit f ks (num n b) = (num n b).flatMap (fun t => f (t.orig.getD 0) t)
  | _, [], _, _ => rfl
  | n, t :: b, ks, h => by
    have ih := edit_all f (n + 1) b ks (fun i h1 h2 => h i (by omega) (by simp; omega))
    have hn : n ∈ ks := h n (Nat.le_refl _) (by simp)
    unfold edit at ih ⊢
    unfold num
    rw [List.flatMap_cons, List.flatMap_cons, ih]
    simp [hn]

theorem mwt_all (k0 : Nat) (x : Tk) : ∀ (n : Nat) (b : List Tk), k0 < n →
    (num n b).flatMap (fun t => (fun k (_ : Tk) => if k = k0 then [x] else []) (t.orig.getD 0) t) = []
  | _, [], _ => rfl
  | n, t :: b, h => by
    unfold num
    rw [List.flatMap_cons, mwt_all k0 x (n + 1) b (by omega)]
    simp
    omega

/-! ## One difference -/

theorem startsWs_strip (s : Str) : startsWs (strip s) = false := by
  unfold strip
  cases h : lstrip s with
  | nil => rfl
  | cons c r =>
    have hc : isWs c = false := by
      have := startsWs_lstrip s
      rw [h] at this
      exact this
    rw [show c :: r = [c] ++ r from rfl, rstrip_append]
    by_cases hr : rstrip r = []
    · rw [if_pos hr, rstrip_of_last]
      · exact hc
      · intro x hx
        have : c = x := by simpa using hx
        rw [← this]; exact hc
    · rw [if_neg hr]; exact hc

theorem strip_mem {s : Str} {c : Char} (h : c ∈ strip s) : c ∈ s := by
  obtain ⟨v, w, e, _, _⟩ := strip_split s
  rw [e]
  exact List.mem_append_right _ (List.mem_append_left _ h)

theorem startsWs_no_space {s : Str} (h : ∀ c ∈ s, isWs c = true → c = ' ') (hs : ' ' ∉ s) : startsWs s = false := by
  cases s with
  | nil => rfl
  | cons c s =>
    show isWs c = false
    cases hc : isWs c with
    | false => rfl
    | true =>
      exfalso
      have := h c (List.mem_cons_self ..) hc
      rw [this] at hs
      exact hs (List.mem_cons_self ..)

theorem good_num {n : Nat} {b : List Tk} (h : Good b) : ∀ t ∈ num n b, startsWs t.form = false := by
  intro t ht
  have : t.form ∈ (num n b).map Tk.form := List.mem_map_of_mem ht
  rw [num_forms] at this
  obtain ⟨u, hu, e⟩ := List.mem_map.1 this
  rw [← e]
  exact (h u hu).1

theorem lay_of_prefix {f form : Str} {fs : List Str} (hp : f.isPrefixOf form = true) (h : Lay fs (form.drop f.length)) : Lay (f :: fs) form := by
  have := h.cons f
  rwa [← prefix_split hp] at this

theorem punct_spec {p : Par} {s : Str} (h : punct p s = true) : s ≠ [] ∧ ∀ c ∈ s, p.isP c = true := by
  unfold punct at h
  rw [Bool.and_eq_true] at h
  exact ⟨by simpa using h.1, List.all_eq_true.1 h.2⟩

theorem Lay.mem : ∀ {fs : List Str} {s f : Str} {c : Char}, Lay fs s → f ∈ fs → c ∈ f → c ∈ s
  | [], _, _, _, _, h, _ => absurd h List.not_mem_nil
  | g :: fs, s, f, c, ⟨w, r, e, _, h⟩, hf, hc => by
    rw [e]
    refine List.mem_append_right _ ?_
    rcases List.mem_cons.1 hf with rfl | hf
    · exact List.mem_append_left _ hc
    · exact List.mem_append_right _ (Lay.mem h hf hc)

/-- Without white space -/
theorem Lay.filter : ∀ {fs : List Str} {s : Str}, Lay fs s → (∀ f ∈ fs, ∀ c ∈ f, isWs c = false) → s.filter (fun c => !isWs c) = fs.flatten
  | [], s, h, _ => by
    rw [List.flatten_nil, List.filter_eq_nil_iff]
    intro c hc
    rw [h c hc]
    simp
  | f :: fs, s, ⟨w, r, e, hw, h⟩, hf => by
    rw [e, List.filter_append, List.filter_append, h.filter (fun g hg => hf g (List.mem_cons_of_mem _ hg)), List.flatten_cons]
    have h1 : w.filter (fun c => !isWs c) = [] := by
      rw [List.filter_eq_nil_iff]
      intro c hc
      rw [hw c hc]
      simp
    have h2 : f.filter (fun c => !isWs c) = f := by
      rw [List.filter_eq_self]
      intro c hc
      rw [hf f (List.mem_cons_self ..) c hc]
      rfl
    rw [h1, h2, List.nil_append]

theorem infix_flatten : ∀ {fs : List Str} {f : Str}, f ∈ fs → f <:+: fs.flatten
  | [], _, h => absurd h List.not_mem_nil
  | g :: fs, f, h => by
    rw [List.flatten_cons]
    rcases List.mem_cons.1 h with rfl | h
    · exact (List.prefix_append ..).isInfix
    · exact (infix_flatten h).trans (List.suffix_append ..).isInfix

/-- The parts of a text are parts of the text without spaces. -/
theorem wsSplit_infix {form f : Str} (hform : ∀ x ∈ form, isWs x = true → x = ' ') (hf : f ∈ wsSplit form) : f <:+: form.filter (· != ' ') := by
  have e : form.filter (· != ' ') = form.filter (fun c => !isWs c) := by
    refine List.filter_congr (fun x hx => ?_)
    cases hw : isWs x with
    | true => rw [hform x hx hw]; rfl
    | false =>
      have : x ≠ ' ' := fun e => by rw [e, isWs_space] at hw; cases hw
      simp [this]
  rw [e, (lay_wsSplit form).filter (fun g hg => (wsSplit_forms form g hg).2)]
  exact infix_flatten hf

/-- A new token is a multi-word token, punctuation or a part of an old token (for `goeswith`), as the parameters permit. -/
def NewOk (p : Par) (b : List Tk) (u : Tk) : Prop :=
  u.orig = none → (u.mwt = true ∧ 2 ≤ u.words.length ∧ u.words.length ≤ p.maxMwt ∧ ∃ a, u.words = List.range' a u.words.length) ∨
    (p.addPunct = true ∧ u.form ≠ [] ∧ ∀ c ∈ u.form, p.isP c = true) ∨
    (p.goeswith = true ∧ ∃ t ∈ b, u.form <:+: t.form ∨ (p.hyphen = true ∧ u.form <:+: t.form.filter (· != '-')))

/-- A token stays, or it was punctuation that may be deleted, or it became a word of a new multi-word token. -/
def Kept (p : Par) (new : List Tk) (t : Tk) : Prop :=
  (∃ u ∈ new, u.orig = t.orig ∧ u.mwt = t.mwt) ∨ (p.deletePunct = true ∧ t.mwt = false ∧ t.form ≠ [] ∧ ∀ c ∈ t.form, p.isP c = true) ∨
    (t.mwt = false ∧ ∃ u ∈ new, u.mwt = true ∧ u.orig = none ∧ ∃ k ∈ u.words, t.orig = some k)

/-- What a step puts in the place of the tokens `num n b`; `w`: a warning was logged. -/
structure Part (p : Par) (n : Nat) (b : List Tk) (w : Bool) (s : Str) (new : List Tk) : Prop where
  sub : (new.flatMap Tk.olds).Sublist (List.range' n b.length)
  ok : ∀ u ∈ new, NewOk p b u
  kept : ∀ t ∈ num n b, Kept p new t
  head : ∀ t ∈ new, startsWs t.form = false
  lay : w = false → Lay (new.map Tk.form) s

theorem Part.old {p : Par} {n : Nat} {b : List Tk} {w : Bool} {s : Str} {new : List Tk} (h : Part p n b w s new) : Old (n + b.length) new := by
  intro t ht k hk
  have : k ∈ new.flatMap Tk.olds := List.mem_flatMap.2 ⟨t, ht, by unfold Tk.olds; rw [hk]; simp⟩
  have := List.mem_range'_1.1 (h.sub.subset this)
  omega

theorem num_ids : ∀ (n : Nat) (b : List Tk), (num n b).flatMap Tk.olds = List.range' n b.length
  | _, [] => rfl
  | n, t :: b => by
    unfold num
    rw [List.flatMap_cons, num_ids (n + 1) b, List.length_cons, List.range'_succ]
    rfl

/-- The tokens are left as they are. -/
theorem part_same (p : Par) {n : Nat} {b : List Tk} (hb : Good b) {w : Bool} {s : Str} (h : w = false → Lay (b.map Tk.form) s) :
    Part p n b w s (num n b) where
  sub := by rw [num_ids]; exact List.Sublist.refl _
  ok := fun u hu e => by
    obtain ⟨i, h1, _⟩ := num_orig n b u hu
    rw [h1] at e; cases e
  kept := fun t ht => .inl ⟨t, ht, rfl, rfl⟩
  head := good_num hb
  lay := fun hw => by rw [num_forms]; exact h hw

/-- `solve_diff` -/
theorem solveDiff_step {p : Par} {a b c res : List Tk} {n : Nat} {form : Str} (ha : Old n a) (hb : Good b)
    (hform : ∀ x ∈ form, isWs x = true → x = ' ') (h0 : startsWs form = false)
    {w : Bool} (h : solveDiff p (a ++ (num n b ++ num (n + b.length) c)) (List.range' n b.length) form = .ok (res, w)) :
    ∃ new, res = a ++ (new ++ num (n + b.length) c) ∧ Part p n b w form new := by
  cases b with
  | nil => cases h
  | cons t b =>
    have hks : ∀ k ∈ List.range' n (t :: b).length, n ≤ k ∧ k < n + (t :: b).length := fun k hk => by
      simpa [List.mem_range'_1] using hk
    have hfa := find_all (b := t :: b) (c := num (n + (t :: b).length) c) ha
    rw [List.length_cons, List.range'_succ] at h
    unfold solveDiff at h
    simp only at h
    rw [show num (n + (b.length + 1)) c = num (n + (t :: b).length) c from rfl] at h
    rw [find_mid ha] at h
    simp only at h
    rw [show List.range' n (t :: b).length = n :: List.range' (n + 1) b.length from by rw [List.length_cons, List.range'_succ]] at hfa hks
    rw [hfa] at h
    have hlt : n < n + (t :: b).length := by simp
    have same : ∀ r : List Tk × Bool, (a ++ (num n (t :: b) ++ num (n + (t :: b).length) c), true) = r → r = (res, w) →
        ∃ new, res = a ++ (new ++ num (n + (t :: b).length) c) ∧ Part p n (t :: b) w form new := by
      rintro r rfl hr
      injection hr with h1 h2
      subst h2
      exact ⟨_, h1.symm, part_same p hb (fun hx => by cases hx)⟩
    have hold1 : Old (n + (t :: b).length) [({ t with orig := some n, words := [] } : Tk)] := by
      intro u hu k hk
      rw [List.mem_singleton.1 hu] at hk
      injection hk with hk
      omega
    have hrest : List.range' (n + 1) b.length = [] ↔ b = [] := by
      cases b <;> simp [List.range'_succ]
    have hb1 := hb t (List.mem_cons_self ..)
    have set1 : ∀ f, b = [] → setForm n f (a ++ (num n (t :: b) ++ num (n + (t :: b).length) c)) =
        a ++ (({ t with orig := some n, words := [], form := f } : Tk) :: [] ++ num (n + (t :: b).length) c) := by
      intro f hbn
      subst hbn
      unfold setForm
      rw [edit_mid ha (by simp) (by simp)]
      show a ++ (edit _ [n] (({ t with orig := some n, words := [] } : Tk) :: []) ++ _) = _
      rw [edit_one _ rfl (fun u hu => absurd hu List.not_mem_nil)]
      rfl
    have num1 : b = [] → num n (t :: b) = ({ t with orig := some n, words := [] } : Tk) :: [] := fun hbn => by subst hbn; rfl
    -- new tokens after the token
    have aft : ∀ (t' : Tk) (fs : List Str), t'.orig = some n → startsWs t'.form = false → (∀ f ∈ fs, startsWs f = false) →
        Lay (t'.form :: fs) form → b = [] → t'.mwt = t.mwt → t'.words = [] →
        ((p.addPunct = true ∧ ∀ f ∈ fs, f ≠ [] ∧ ∀ x ∈ f, p.isP x = true) ∨
          (p.goeswith = true ∧ ∀ f ∈ fs, f <:+: t.form ∨ (p.hyphen = true ∧ f <:+: t.form.filter (· != '-')))) →
        ∃ new, fs.reverse.foldl (after n) (a ++ (t' :: [] ++ num (n + (t :: b).length) c)) =
          a ++ (new ++ num (n + (t :: b).length) c) ∧ Part p n (t :: b) w form new := by
      intro t' fs e1 e2 e3 e4 hbn hmw hwd hnew
      obtain ⟨l', h1, h2, h3, hids⟩ := foldl_after (c := c) ha hlt e1 fs [] (fun u hu => absurd hu List.not_mem_nil)
      refine ⟨t' :: (l' ++ []), h1, ?_, ?_, ?_, ?_, ?_⟩
      · rw [List.append_nil, List.flatMap_cons, hids, hbn, Tk.olds, e1, hwd]
        exact List.Sublist.refl _
      · intro u hu
        rw [List.append_nil] at hu
        rcases List.mem_cons.1 hu with rfl | hu
        · intro hx; rw [e1] at hx; cases hx
        · intro _
          rcases hnew with ⟨hp, hnew⟩ | hnew
          · exact .inr (.inl ⟨hp, hnew _ (h2 ▸ List.mem_map_of_mem hu)⟩)
          · exact .inr (.inr ⟨hnew.1, t, List.mem_cons_self .., hnew.2 _ (h2 ▸ List.mem_map_of_mem hu)⟩)
      · intro u hu
        rw [num1 hbn, List.mem_singleton] at hu
        exact .inl ⟨t', List.mem_cons_self .., by rw [hu, e1], by rw [hu, hmw]⟩
      · intro u hu
        rw [List.append_nil] at hu
        rcases List.mem_cons.1 hu with rfl | hu
        · exact e2
        · exact e3 _ (h2 ▸ List.mem_map_of_mem hu)
      · intro _
        rw [List.append_nil, List.map_cons, h2]
        exact e4
    have setOk : b = [] → ∀ r, setForm n form (a ++ (num n (t :: b) ++ num (n + (t :: b).length) c)) = r →
        ∃ new, r = a ++ (new ++ num (n + (t :: b).length) c) ∧ Part p n (t :: b) w form new := by
      intro hbn r hr
      rw [set1 form hbn] at hr
      refine ⟨_, hr.symm, ?_, ?_, ?_, ?_, ?_⟩
      · rw [hbn]; exact List.Sublist.refl _
      · intro u hu hx
        rw [List.mem_singleton.1 hu] at hx
        cases hx
      · intro u hu
        rw [num1 hbn, List.mem_singleton] at hu
        exact .inl ⟨_, List.mem_cons_self .., by rw [hu], by rw [hu]⟩
      · intro u hu
        rw [List.mem_singleton.1 hu]
        exact h0
      · intro _; exact lay_one form
    split at h
    · -- a space in the text
      generalize hnf : (if p.hyphen = true ∧ t.form.map (fun c => if c = '-' then ' ' else c) = form then t.form.filter (· != '-')
        else t.form) = nodeForm at h
      split at h
      · next hr =>
        have hbn := hrest.1 hr
        split at h
        · next hnform =>
          split at h
          · -- allowed space
            cases hst : storePrevious p { t with orig := some n, words := [] } with
            | error e => rw [hst] at h; cases h
            | ok u =>
              rw [hst] at h
              injection h with h
              injection h with h _
              exact setOk hbn _ h
          · split at h
            · next hgw =>
              -- goeswith
              cases hst : storePrevious p { t with orig := some n, words := [] } with
              | error e => rw [hst] at h; cases h
              | ok u =>
                rw [hst] at h
                simp only [bind, Except.bind] at h
                split at h
                · cases h
                · cases hw : wsSplit form with
                  | nil => rw [hw] at h; cases h
                  | cons f fs =>
                    rw [hw] at h
                    simp only at h
                    injection h with h
                    injection h with h _
                    rw [set1 f hbn] at h
                    rw [← h]
                    have hwf : ∀ g ∈ f :: fs, startsWs g = false := fun g hg => by
                      have := wsSplit_forms form g (hw ▸ hg)
                      have := startsWs_form (s := []) this.1 this.2
                      rw [List.append_nil] at this
                      exact this.1
                    refine aft _ fs rfl (hwf f (List.mem_cons_self ..)) (fun g hg => hwf g (List.mem_cons_of_mem _ hg))
                      (hw ▸ lay_wsSplit form) hbn rfl rfl (.inr ⟨hgw, fun g hg => ?_⟩)
                    have hinf := wsSplit_infix hform (hw ▸ List.mem_cons_of_mem f hg : g ∈ wsSplit form)
                    rw [← hnform, ← hnf] at hinf
                    split at hinf
                    · next hh => exact .inr ⟨hh.1, hinf⟩
                    · exact .inl hinf
            · injection h with h
              exact same _ rfl h
        · split at h
          · next hp =>
            split at h
            · cases h
            · injection h with h
              injection h with h _
              rw [num1 hbn] at h
              rw [← h]
              refine aft _ _ rfl hb1.1 ?_ (lay_of_prefix hp.2.1 (lay_wsSplit _)) hbn rfl rfl (.inl ⟨hp.1, ?_⟩)
              · intro g hg
                have := wsSplit_forms _ g hg
                have := startsWs_form (s := []) this.1 this.2
                rw [List.append_nil] at this
                exact this.1
              · intro g hg
                have hgf := wsSplit_forms _ g hg
                refine ⟨hgf.1, fun x hx => ?_⟩
                have hxd := (lay_wsSplit (form.drop t.form.length)).mem hg hx
                have := List.all_eq_true.1 hp.2.2.2 x hxd
                rcases Bool.or_eq_true_iff.1 this with hy | hy
                · have hy : x = ' ' := by simpa using hy
                  have hn := hgf.2 x hx
                  rw [hy, isWs_space] at hn
                  cases hn
                · exact hy
          · injection h with h
            exact same _ rfl h
      · injection h with h
        exact same _ rfl h
    · next hsp =>
      have hsp : ' ' ∉ form := by simpa using hsp
      split at h
      · next hr =>
        have hbn : b ≠ [] := fun e => hr (hrest.2 e)
        split at h
        · next hx =>
          injection h with h
          injection h with h _
          refine ⟨num n (t :: b), h.symm, part_same p hb (fun _ => ?_)⟩
          have := lay_flatten ((num n (t :: b)).map Tk.form)
          rw [hx.2, num_forms] at this
          exact this
        · split at h
          · injection h with h
            exact same _ rfl h
          · next hany =>
            split at h
            · injection h with h
              exact same _ rfl h
            · next hmax =>
              injection h with h
              injection h with h _
              rw [← h]
              unfold makeMwt
              rw [edit_mid ha (fun k hk => (hks k hk).1) (fun k hk => (hks k hk).2), edit_all]
              · show ∃ new, a ++ ((_ :: num (n + 1) b).flatMap _ ++ _) = _ ∧ _
                rw [List.flatMap_cons, mwt_all _ _ (n + 1) b (by omega)]
                refine ⟨[⟨none, form, ((num n (t :: b)).getLast?.map Tk.no).getD false, true, n :: List.range' (n + 1) b.length⟩], by simp, ?_, ?_, ?_, ?_, fun _ => lay_one form⟩
                · rw [← List.range'_succ]
                  simp [Tk.olds]
                · intro u hu _
                  rw [List.mem_singleton.1 hu]
                  refine .inl ⟨rfl, ?_, ?_, n, ?_⟩
                  · have := List.length_pos_iff.2 hbn
                    simp
                    omega
                  · rw [num_length] at hmax
                    simp only [List.length_cons, List.length_range'] at hmax ⊢
                    omega
                  · simp [List.range'_succ]
                · intro u hu
                  refine .inr (.inr ⟨?_, _, List.mem_cons_self .., rfl, rfl, ?_⟩)
                  · have := List.any_eq_false.1 (Bool.eq_false_iff.2 hany) u hu
                    simpa using this
                  · obtain ⟨i, h1, h2, h3⟩ := num_orig _ _ u hu
                    refine ⟨i, ?_, h1⟩
                    rw [← List.range'_succ, List.mem_range'_1]
                    exact ⟨h2, h3⟩
                · intro u hu
                  rw [List.mem_singleton.1 hu]
                  exact h0
              · intro i h1 h2
                rw [← List.range'_succ, List.mem_range'_1]
                simp at h2
                omega
      · next hr =>
        have hbn : b = [] := hrest.1 (Classical.not_not.1 hr)
        split at h
        · next hp =>
          split at h
          · cases h
          · injection h with h
            injection h with h _
            rw [num1 hbn] at h
            rw [← h]
            refine aft _ [_] rfl hb1.1 ?_ (lay_of_prefix hp.2.1 (lay_one _)) hbn rfl rfl (.inl ⟨hp.1, ?_⟩)
            · intro g hg
              rw [List.mem_singleton.1 hg]
              refine startsWs_no_space ?_ ?_
              · intro x hx
                exact hform x (List.mem_of_mem_drop hx)
              · intro hx
                exact hsp (List.mem_of_mem_drop hx)
            · intro g hg
              rw [List.mem_singleton.1 hg]
              exact punct_spec hp.2.2
        · cases hst : storePrevious p { t with orig := some n, words := [] } with
          | error e => rw [hst] at h; cases h
          | ok u =>
            rw [hst] at h
            injection h with h
            injection h with h _
            exact setOk hbn _ h

end Verif.Text.Comply
