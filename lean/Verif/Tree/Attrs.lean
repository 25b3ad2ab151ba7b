import Verif.Tree.Props
import Verif.Tree.ModelQueries
import Verif.Tree.Treelet
import Verif.Py.Str

/-!
# Property C142: `node.get_attrs`

Source: `udapi/core/node.py` 765-838.
-/

namespace Verif.Tree.Attrs
open Verif.Py Verif.Tree

/-- A Python value: None, a string or a number. -/
inductive Val where
  | none
  | str (s : Str)
  | int (i : Int)
  deriving DecidableEq, Repr

/-- The pseudo-attributes. `other f`: any other attribute, where `f x` is its value at the node `x`; `split f`: `feats_split` and
`misc_split`, where `f x` is the list of items. -/
inductive Name where
  | dir
  | edge
  | children
  | siblings
  | depth
  | split (f : Nat → List Val)
  | other (f : Nat → Val)

/-- The prefixes `p_`, `c_`, `l_`, `r_`. -/
inductive Pre where
  | self
  | p
  | c
  | l
  | r
  deriving DecidableEq, Repr

def sRoot : Str := ['r', 'o', 'o', 't']
def sLeft : Str := ['l', 'e', 'f', 't']
def sRight : Str := ['r', 'i', 'g', 'h', 't']

/-- `while tmp and not tmp.is_root()` (node.py:778-783). `none`: the loop does not end. -/
def depthLoop (h : Heap) : Nat → Option Nat → Nat → Option Nat
  | 0, _, _ => .none
  | _ + 1, .none, v => some v
  | f + 1, some x, v => if isRoot h x then some v else depthLoop h f (h.parent x) (v + 1)

/-- `node._get_attr(name)` (node.py:765-793), as the list of values that `get_attrs` adds (822-826). `none`: an exception, or a loop that
does not end. -/
def getAttr (h : Heap) (x : Nat) : Name → Option (List Val)
  | .dir =>
    match h.parent x with
    | .none => some [.str sRoot]
    | some p =>
      if isRoot h p then some [.str sRoot]
      else (precedes h x p).map (fun b => [.str (if b then sLeft else sRight)])
  | .edge =>
    match h.parent x with
    | .none => some [.int 0]
    | some p => some [.int (if isRoot h p then 0 else (h.ord x : Int) - h.ord p)]
  | .children => some [.int (h.children x).length]
  | .siblings =>
    match h.parent x with
    | .none => some [.int 0]
    | some p => some [.int (((h.children p).length : Int) - 1)]
  | .depth => (depthLoop h (h.next + 2) (some x) 0).map (fun n => [.int n])
  | .split f => some (f x)
  | .other f => some [f x]

/-- The nodes a prefix selects (node.py:813-821); None is left out. -/
def select (h : Heap) (x : Nat) : Pre → List Nat
  | .self => [x]
  | .p => (h.parent x).toList
  | .c => h.children x
  | .l => (prevNode h x).toList
  | .r => (nextNode h x).toList

/-- The values of one name. -/
def valuesOf (h : Heap) (n : Name) : List Nat → Option (List Val)
  | [] => some []
  | y :: ys =>
    match getAttr h y n, valuesOf h n ys with
    | some a, some b => some (a ++ b)
    | _, _ => .none

/-- The loop over the names (node.py:811-826). -/
def collect (h : Heap) (x : Nat) : List (Pre × Name) → Option (List Val)
  | [] => some []
  | (pr, n) :: rest =>
    match valuesOf h n (select h x pr), collect h x rest with
    | some a, some b => some (a ++ b)
    | _, _ => .none

/-- `node.get_attrs(attrs, undefs, stringify=False)` (node.py:795-838): `undefs` replaces None. -/
def getAttrs (h : Heap) (x : Nat) (attrs : List (Pre × Name)) (undefs : Option Val) : Option (List Val) :=
  match undefs with
  | .none => collect h x attrs
  | some u => (collect h x attrs).map (List.map (fun v => if v = .none then u else v))

/-! ## What it should do -/

/-- `y` is the node that the prefix `pr` stands for at the node `x`. -/
def Chosen (h : Heap) (x : Nat) : Pre → Nat → Prop
  | .self, y => y = x
  | .p, y => h.parent x = some y
  | .c, y => h.parent y = some x
  | .l, y => prevNode h x = some y
  | .r, y => nextNode h x = some y

/-! ## Proofs -/

variable {h : Heap} {r : Nat}

/-- The nodes on the way up to the technical root. -/
theorem exists_path (w : WF h r) : ∀ x, InTree h r x →
    ∃ (n : Nat) (L : List Nat), DepthIs h x n ∧ L.length = n ∧ L.Nodup ∧ ∀ y ∈ L, y ∈ h.words r ∧ (y = x ∨ Anc h y x) := by
  refine w.induct _ ⟨0, [], .root w.rootParent, rfl, List.nodup_nil, fun y hy => (by cases hy)⟩ ?_
  rintro x p hx hp hpin ⟨n, L, hd, hl, hn, hL⟩
  refine ⟨n + 1, x :: L, .child hp hd, by simp [hl], ?_, ?_⟩
  · rw [List.nodup_cons]
    refine ⟨fun hxL => ?_, hn⟩
    rcases (hL x hxL).2 with e | e
    · exact w.anc_irrefl (Or.inr hx) (.parent (by rw [hp, ← e]))
    · exact w.anc_irrefl (Or.inr hx) (.step hp e)
  · intro y hy
    rcases List.mem_cons.1 hy with rfl | hy
    · exact ⟨hx, Or.inl rfl⟩
    · obtain ⟨h1, h2⟩ := hL y hy
      refine ⟨h1, Or.inr ?_⟩
      rcases h2 with rfl | h2
      · exact .parent hp
      · exact .step hp h2

/-- Every node has a depth, at most the number of words. -/
theorem exists_depth (w : WF h r) {x : Nat} (hx : InTree h r x) : ∃ n, DepthIs h x n ∧ n ≤ (h.words r).length := by
  obtain ⟨n, L, h1, h2, h3, h4⟩ := exists_path w x hx
  exact ⟨n, h1, h2 ▸ length_le_of_nodup_subset h3 (fun y hy => (h4 y hy).1)⟩

theorem words_le_next (w : WF h r) : (h.words r).length ≤ h.next := by
  have := length_le_of_nodup_subset (l := h.words r) (m := List.range h.next) w.nodup (fun x hx => List.mem_range.2 (w.alloc x hx))
  simpa using this

theorem depthLoop_eq (w : WF h r) (hr : IsTree h r) : ∀ {x n : Nat}, DepthIs h x n → InTree h r x → ∀ (f v : Nat), n < f →
    depthLoop h f (some x) v = some (v + n) := by
  intro x n hd
  induction hd with
  | @root x hp =>
    intro hx f v hf
    have hxr : x = r := by
      rcases hx with e | hx
      · exact e
      · obtain ⟨p, e, _⟩ := w.parentIn x hx
        rw [hp] at e
        cases e
    subst hxr
    cases f with
    | zero => omega
    | succ f => rw [depthLoop, if_pos (by simpa [isRoot] using hr.2)]; rfl
  | @child x p n hp _ ih =>
    intro hx f v hf
    have hxw : x ∈ h.words r := by
      rcases hx with rfl | hx
      · rw [w.rootParent] at hp
        cases hp
      · exact hx
    cases f with
    | zero => omega
    | succ f =>
      rw [depthLoop, if_neg (by simp [w.not_root hxw]), hp, ih (w.parent_in hxw hp) f (v + 1) (by omega)]
      congr 1
      omega

section Props

/-- `depth` is the number of steps to the technical root: 0 for the root, and one more than that of the parent for a word. -/
theorem C142_depth (hh : Reachable h) (hr : IsTree h r) {x : Nat} (hx : InTree h r x) :
    (∃ n : Nat, DepthIs h x n ∧ getAttr h x .depth = some [.int n]) ∧
    (x = r → getAttr h x .depth = some [.int 0]) ∧
    (∀ p, h.parent x = some p → ∀ n : Int, getAttr h p .depth = some [.int n] → getAttr h x .depth = some [.int (n + 1)]) := by
  have w := inv_reachable hh r hr
  have key : ∀ y, InTree h r y → ∀ n, DepthIs h y n → getAttr h y .depth = some [.int n] := by
    intro y hy n hn
    obtain ⟨m, h1, h2⟩ := exists_depth w hy
    have := depth_unique hn h1
    have := words_le_next w
    simp only [getAttr]
    rw [depthLoop_eq w hr hn hy (h.next + 2) 0 (by omega)]
    simp
  obtain ⟨n, hn, _⟩ := exists_depth w hx
  refine ⟨⟨n, hn, key x hx n hn⟩, ?_, ?_⟩
  · rintro rfl
    exact key x hx 0 (.root w.rootParent)
  · intro p hp m hm
    have hxw : x ∈ h.words r := by
      rcases hx with rfl | hx
      · rw [w.rootParent] at hp
        cases hp
      · exact hx
    obtain ⟨k, hk, _⟩ := exists_depth w (w.parent_in hxw hp)
    rw [key p (w.parent_in hxw hp) k hk] at hm
    have : (k : Int) = m := by simpa using hm
    rw [key x hx (k + 1) (.child hp hk), ← this]
    rfl

/-- `dir` and `edge` of a word: `root` and 0 for a word below the technical root; otherwise `left` and a negative number if it precedes its
parent, `right` and a positive number if it follows it. -/
theorem C142_direction (hh : Reachable h) (hr : IsTree h r) {x p : Nat} (hx : x ∈ h.words r) (hp : h.parent x = some p) :
    (p = r → getAttr h x .dir = some [.str sRoot] ∧ getAttr h x .edge = some [.int 0]) ∧
    (p ≠ r → ∃ e : Int, getAttr h x .edge = some [.int e] ∧ e = (h.ord x : Int) - h.ord p ∧
      ((h.ord x < h.ord p ∧ e < 0 ∧ getAttr h x .dir = some [.str sLeft]) ∨
       (h.ord p < h.ord x ∧ 0 < e ∧ getAttr h x .dir = some [.str sRight]))) := by
  have w := inv_reachable hh r hr
  constructor
  · rintro rfl
    have hroot : isRoot h p = true := by simpa [isRoot] using hr.2
    simp [getAttr, hp, hroot]
  · intro hpr
    have hpw : p ∈ h.words r := (w.parent_in hx hp).resolve_left hpr
    have hroot := w.not_root hpw
    have hpre : precedes h x p = some (decide (h.ord x < h.ord p)) := by
      unfold precedes
      rw [w.rootOf x hx, w.rootOf p hpw, if_pos rfl]
    have hne : h.ord x ≠ h.ord p := by
      intro e
      have : x = p := w.ord_inj (Or.inr hx) (Or.inr hpw) e
      exact w.anc_irrefl (Or.inr hx) (.parent (by rw [hp, this]))
    refine ⟨(h.ord x : Int) - h.ord p, by simp [getAttr, hp, hroot], rfl, ?_⟩
    rcases Nat.lt_or_gt_of_ne hne with hlt | hlt
    · exact Or.inl ⟨hlt, by omega, by simp [getAttr, hp, hroot, hpre, hlt]⟩
    · exact Or.inr ⟨hlt, by omega, by simp [getAttr, hp, hroot, hpre, Nat.lt_asymm hlt]⟩

/-- `children` is the number of words whose parent the node is, and `siblings` the number of other words with the same parent. -/
theorem C142_counts (hh : Reachable h) (hr : IsTree h r) {x : Nat} (hx : InTree h r x) :
    getAttr h x .children = some [.int ((h.words r).filter (fun y => h.parent y = some x)).length] ∧
    (x ∈ h.words r → getAttr h x .siblings = some [.int ((h.words r).filter (fun y => y ≠ x ∧ h.parent y = h.parent x)).length]) := by
  have w := inv_reachable hh r hr
  have hcount : ∀ p, InTree h r p → (h.children p).Perm ((h.words r).filter (fun y => h.parent y = some p)) := by
    intro p hp
    refine (List.perm_ext_iff_of_nodup (w.children_nodup hp) (w.nodup.filter _)).2 (fun y => ?_)
    rw [w.childIff p hp, List.mem_filter]
    simp
  refine ⟨by simp [getAttr, (hcount x hx).length_eq], fun hxw => ?_⟩
  obtain ⟨p, hp, hpin⟩ := w.parentIn x hxw
  have h1 := (hcount p hpin).length_eq
  have hperm : (h.children p).Perm (x :: (h.words r).filter (fun y => y ≠ x ∧ h.parent y = h.parent x)) := by
    refine (List.perm_ext_iff_of_nodup (w.children_nodup hpin) ?_).2 (fun y => ?_)
    · rw [List.nodup_cons]
      exact ⟨by simp, w.nodup.filter _⟩
    · rw [w.childIff p hpin, List.mem_cons, List.mem_filter, hp]
      by_cases hyx : y = x
      · subst hyx
        simp [hxw, hp]
      · simp [hyx]
  have h2 := hperm.length_eq
  rw [List.length_cons] at h2
  show (match h.parent x with | .none => _ | some p => _) = _
  rw [hp]
  simp only [Option.some.injEq, List.cons.injEq, Val.int.injEq, and_true]
  rw [hp] at h2
  omega

/-- One value per name, in the order of the names, if every name has no prefix `c_`, is not one of `feats_split` and `misc_split`, and the
prefixed nodes exist. None is replaced by `undefs`. -/
theorem C142_length_partial (hh : Reachable h) (hr : IsTree h r) {x : Nat} (hx : InTree h r x) (attrs : List (Pre × Name)) (undefs : Option Val)
    (ha : ∀ a ∈ attrs, (∀ f, a.2 ≠ .split f) ∧ (a.1 = .self ∨ (a.1 = .p ∧ h.parent x ≠ .none) ∨ (a.1 = .l ∧ prevNode h x ≠ .none) ∨
      (a.1 = .r ∧ nextNode h x ≠ .none))) :
    ∃ vs, getAttrs h x attrs undefs = some vs ∧ vs.length = attrs.length ∧
      ∀ (i : Nat) pr n y v, attrs[i]? = some (pr, n) → Chosen h x pr y → getAttr h y n = some [v] →
        vs[i]? = some (if v = .none then undefs.getD .none else v) := by
  have w := inv_reachable hh r hr
  have hone : ∀ y, InTree h r y → ∀ n : Name, (∀ f, n ≠ .split f) → ∃ v, getAttr h y n = some [v] := by
    intro y hy n hn
    cases n with
    | dir =>
      rcases hy with rfl | hy
      · exact ⟨.str sRoot, by simp only [getAttr, w.rootParent]⟩
      · obtain ⟨p, hp, _⟩ := w.parentIn y hy
        obtain ⟨c1, c2⟩ := C142_direction hh hr hy hp
        by_cases e : p = r
        · exact ⟨_, (c1 e).1⟩
        · obtain ⟨_, _, _, c | c⟩ := c2 e
          · exact ⟨_, c.2.2⟩
          · exact ⟨_, c.2.2⟩
    | edge =>
      unfold getAttr
      cases h.parent y with
      | none => exact ⟨_, rfl⟩
      | some p => exact ⟨_, rfl⟩
    | children => exact ⟨_, rfl⟩
    | siblings =>
      unfold getAttr
      cases h.parent y with
      | none => exact ⟨_, rfl⟩
      | some p => exact ⟨_, rfl⟩
    | depth =>
      obtain ⟨n, _, e⟩ := (C142_depth hh hr hy).1
      exact ⟨_, e⟩
    | split f => exact absurd rfl (hn f)
    | other f => exact ⟨_, rfl⟩
  obtain ⟨hpn, -, -⟩ := C18_prev_next hh hr
  have hsel : ∀ a ∈ attrs, ∃ y, InTree h r y ∧ select h x a.1 = [y] := by
    intro a haa
    rcases (ha a haa).2 with e | ⟨e, e'⟩ | ⟨e, e'⟩ | ⟨e, e'⟩
    · exact ⟨x, hx, by rw [e]; rfl⟩
    · cases hp : h.parent x with
      | none => exact absurd hp e'
      | some p =>
        refine ⟨p, ?_, by rw [e]; simp [select, hp]⟩
        rcases hx with rfl | hx
        · rw [w.rootParent] at hp
          cases hp
        · exact w.parent_in hx hp
    · cases hp : prevNode h x with
      | none => exact absurd hp e'
      | some p =>
        refine ⟨p, ?_, by rw [e]; simp [select, hp]⟩
        unfold prevNode at hp
        rw [inTree_root w hr hx] at hp
        split at hp
        · cases hp
        · split at hp
          · injection hp with hp
            exact Or.inl hp.symm
          · exact Or.inr (List.mem_of_getElem? hp)
    · cases hp : nextNode h x with
      | none => exact absurd hp e'
      | some p =>
        refine ⟨p, ?_, by rw [e]; simp [select, hp]⟩
        unfold nextNode at hp
        rw [inTree_root w hr hx] at hp
        exact Or.inr (List.mem_of_getElem? hp)
  have hcol : ∃ vs, collect h x attrs = some vs ∧ vs.length = attrs.length ∧
      ∀ (i : Nat) pr n y v, attrs[i]? = some (pr, n) → Chosen h x pr y → getAttr h y n = some [v] → vs[i]? = some v := by
    clear hpn
    induction attrs with
    | nil => exact ⟨[], rfl, rfl, fun i pr n y v h => (by simp at h)⟩
    | cons a attrs ih =>
      obtain ⟨vs, e, hl, hv⟩ := ih (fun b hb => ha b (List.mem_cons_of_mem _ hb)) (fun b hb => hsel b (List.mem_cons_of_mem _ hb))
      obtain ⟨y, hy, es⟩ := hsel a (List.mem_cons_self ..)
      have hca := (ha a (List.mem_cons_self ..)).2
      obtain ⟨v, ev⟩ := hone y hy a.2 (ha a (List.mem_cons_self ..)).1
      refine ⟨v :: vs, ?_, by simp [hl], ?_⟩
      · obtain ⟨pr, n⟩ := a
        simp only [collect, e]
        rw [show select h x pr = [y] from es]
        simp only [valuesOf]
        rw [show getAttr h y n = some [v] from ev]
        rfl
      · intro i pr n y' v' hi hch hg
        cases i with
        | succ i => exact hv i pr n y' v' (by simpa using hi) hch hg
        | zero =>
          have hap : a = (pr, n) := by simpa using hi
          subst hap
          have hyy : y' = y := by
            have es' : select h x pr = [y] := es
            cases pr with
            | self => exact (show y' = x from hch).trans (by simpa [select] using es')
            | p => rw [select, show h.parent x = some y' from hch] at es'; simpa using es'
            | c => simp at hca
            | l => rw [select, show prevNode h x = some y' from hch] at es'; simpa using es'
            | r => rw [select, show nextNode h x = some y' from hch] at es'; simpa using es'
          subst hyy
          have : some [v] = some [v'] := ev.symm.trans hg
          have : v = v' := by simpa using this
          simp [this]
  obtain ⟨vs, e, hl, hv⟩ := hcol
  unfold getAttrs
  cases undefs with
  | none =>
    refine ⟨vs, e, hl, fun i pr n y v h1 h2 h3 => ?_⟩
    rw [hv i pr n y v h1 h2 h3]
    by_cases hn : v = .none
    · simp [hn]
    · simp [hn]
  | some u =>
    refine ⟨_, by rw [e]; rfl, by simp [hl], fun i pr n y v h1 h2 h3 => ?_⟩
    rw [List.getElem?_map, hv i pr n y v h1 h2 h3]
    rfl

/-- The prefix `c_` gives the values of all words with this parent, in word order. -/
theorem C142_children (hh : Reachable h) (hr : IsTree h r) {x : Nat} (hx : InTree h r x) (f : Nat → Val) :
    getAttrs h x [(.c, .other f)] .none = some (((h.words r).filter (fun y => h.parent y = some x)).map f) := by
  have w := inv_reachable hh r hr
  have hv : ∀ l : List Nat, valuesOf h (.other f) l = some (l.map f) := by
    intro l
    induction l with
    | nil => rfl
    | cons a l ih => rw [valuesOf, ih]; rfl
  simp only [getAttrs, collect, select, hv, List.append_nil]
  rw [w.children_eq hx]

/-- For the last word the attributes of the following node are missing, even if `undefs` is given: the values of the other attributes move to
the left. -/
theorem C142_last_violated (hh : Reachable h) (hr : IsTree h r) {x : Nat} (hx : (h.words r).getLast? = some x) (f g : Nat → Val) (hg : g x ≠ .none)
    (u : Val) : getAttrs h x [(.r, .other f), (.self, .other g)] (some u) = some [g x] := by
  have w := inv_reachable hh r hr
  have hxw : x ∈ h.words r := List.mem_of_getLast? hx
  have hn : nextNode h x = .none := by
    rw [(C18_prev_next hh hr).2.2 x (Or.inr hxw), List.getLast?_cons, hx]
    rfl
  simp [getAttrs, collect, select, valuesOf, getAttr, hn, hg]

end Props

/-- A tree of four words: `ex` of C18. -/
example : (List.range 5).map (fun x => getAttr ex x .depth) = [some [.int 0], some [.int 1], some [.int 2], some [.int 3], some [.int 2]] ∧
    getAttr ex 3 .dir = some [.str sLeft] ∧ getAttr ex 4 .dir = some [.str sRight] ∧ getAttr ex 1 .dir = some [.str sRoot] := by decide

end Verif.Tree.Attrs
