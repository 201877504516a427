import Verif.Spec.Xml

/-!
# Lemmas about trees and the insertion of children
-/
namespace Pisi.Xml

theorem all_loop (path : List Str) : ∀ l : List Xml, path.foldl (fun l t => l.flatMap (getTags · t)) l =
    l.flatMap (fun n => getAll n path) := by
  induction path with
  | nil => intro l; simp [getAll]
  | cons t ts ih =>
    intro l
    have h : ∀ n, getAll n (t :: ts) = (getTags n t).flatMap (fun n => getAll n ts) := by
      intro n
      show List.foldl _ _ ts = _
      rw [ih]; simp
    rw [List.foldl_cons, ih, List.flatMap_assoc]
    congr 1
    funext n
    exact (h n).symm

theorem getAll_nil (n : Xml) : getAll n [] = [n] := rfl

theorem getAll_cons (n : Xml) (t : Str) (ts : List Str) :
    getAll n (t :: ts) = (getTags n t).flatMap (fun n => getAll n ts) := by
  show List.foldl _ _ ts = _
  rw [all_loop]; simp

theorem getAll_one (n : Xml) (t : Str) : getAll n [t] = getTags n t := by
  rw [getAll_cons]; simp [getAll_nil]

theorem getNode_head (n : Xml) (t : Str) : getNode n t = (getAll n [t]).head? := by
  rw [getAll_one]; unfold getNode getTags; rw [List.head?_filter]

def Xml.isElem : Xml → Bool
  | .text _ => false
  | .elem _ _ _ => true

theorem isElem_of_isTag {t : Str} {x : Xml} (h : x.isTag t = true) : x.isElem = true := by
  cases x with
  | text s => cases h
  | elem u as ks => rfl

theorem isTag_unique {t u : Str} {x : Xml} (h : x.isTag t = true) : x.isTag u = decide (t = u) := by
  cases x with
  | text s => cases h
  | elem w as ks =>
    simp [Xml.isTag] at h ⊢
    subst h; rfl

theorem insertAt_isTag (q : List Str) (c n : Xml) (u : Str) : (insertAt q c n).isTag u = n.isTag u := by
  cases q with
  | nil => cases n <;> rfl
  | cons t ts =>
    cases n with
    | text s => rfl
    | elem w as ks =>
      unfold insertAt
      split <;> rfl

theorem insertAt_isElem (q : List Str) (c n : Xml) : (insertAt q c n).isElem = n.isElem := by
  cases q with
  | nil => cases n <;> rfl
  | cons t ts =>
    cases n with
    | text s => rfl
    | elem w as ks =>
      unfold insertAt
      split <;> rfl

theorem insertAt_attr (q : List Str) (c n : Xml) (a : Str) : getAttr (insertAt q c n) a = getAttr n a := by
  cases q with
  | nil => cases n <;> rfl
  | cons t ts =>
    cases n with
    | text s => rfl
    | elem w as ks =>
      unfold insertAt
      split <;> rfl

theorem modLast_none (t : Str) (f : Xml → Xml) (ks : List Xml) (h : modLast t f ks = none) :
    ∀ x ∈ ks, x.isTag t = false := by
  induction ks with
  | nil => simp
  | cons x xs ih =>
    unfold modLast at h
    cases hm : modLast t f xs with
    | some ys => rw [hm] at h; cases h
    | none =>
      rw [hm] at h
      intro y hy
      rcases List.mem_cons.1 hy with rfl | hy
      · by_cases ht : y.isTag t = true
        · rw [if_pos ht] at h; cases h
        · simpa using ht
      · exact ih hm y hy

theorem modLast_some (t : Str) (f : Xml → Xml) (ks ks' : List Xml) (h : modLast t f ks = some ks') :
    ∃ a x b, ks = a ++ x :: b ∧ x.isTag t = true ∧ (∀ y ∈ b, y.isTag t = false) ∧ ks' = a ++ f x :: b := by
  induction ks generalizing ks' with
  | nil => cases h
  | cons x xs ih =>
    unfold modLast at h
    cases hm : modLast t f xs with
    | some ys =>
      rw [hm] at h
      cases h
      obtain ⟨a, y, b, h1, h2, h3, h4⟩ := ih ys hm
      exact ⟨x :: a, y, b, by rw [h1]; rfl, h2, h3, by rw [h4]; rfl⟩
    | none =>
      rw [hm] at h
      by_cases ht : x.isTag t = true
      · rw [if_pos ht] at h
        cases h
        exact ⟨[], x, xs, rfl, ht, modLast_none t f xs hm, rfl⟩
      · rw [if_neg ht] at h; cases h

theorem getTags_elem (u t : Str) (as : List (Str × Str)) (ks : List Xml) :
    getTags (.elem u as ks) t = ks.filter (Xml.isTag t) := rfl

theorem filter_false {t : Str} {l : List Xml} (h : ∀ y ∈ l, y.isTag t = false) : l.filter (Xml.isTag t) = [] := by
  rw [List.filter_eq_nil_iff]; intro y hy; simp [h y hy]

theorem chain_isTag (t : Str) (ts : List Str) (c : Xml) (u : Str) : (chain (t :: ts) c).isTag u = decide (t = u) := rfl

theorem chain_all (u : Str) (c : Xml) (hc : c.isTag u = true) (ts : List Str) : ∀ (t : Str) (as : List (Str × Str)),
    getAll (.elem t as [chain ts c]) (ts ++ [u]) = [c] := by
  induction ts with
  | nil =>
    intro t as
    rw [List.nil_append, getAll_one, getTags_elem]
    simp [chain, hc]
  | cons w ws ih =>
    intro t as
    rw [List.cons_append, getAll_cons, getTags_elem]
    have : [chain (w :: ws) c].filter (Xml.isTag w) = [chain (w :: ws) c] := by simp [chain_isTag]
    rw [this]
    simp only [List.flatMap_cons, List.flatMap_nil, List.append_nil]
    exact ih w []

theorem chain_other (u : Str) (c : Xml) (hc : c.isTag u = true) (ts : List Str) :
    ∀ (t : Str) (as : List (Str × Str)) (p : List Str), ¬ p <+: ts ++ [u] → ¬ ts ++ [u] <+: p →
    getAll (.elem t as [chain ts c]) p = [] := by
  induction ts with
  | nil =>
    intro t as p h1 h2
    cases p with
    | nil => exact absurd List.nil_prefix h1
    | cons w p =>
      have : w ≠ u := by
        rintro rfl
        exact h2 (by simp)
      rw [getAll_cons, getTags_elem]
      have : [chain [] c].filter (Xml.isTag w) = [] := by
        simp [chain, isTag_unique (u := w) hc]
        exact fun e => this e.symm
      rw [this]; rfl
  | cons v ws ih =>
    intro t as p h1 h2
    cases p with
    | nil => exact absurd List.nil_prefix h1
    | cons w p =>
      rw [getAll_cons, getTags_elem]
      by_cases e : v = w
      · subst e
        have : [chain (v :: ws) c].filter (Xml.isTag v) = [chain (v :: ws) c] := by simp [chain_isTag]
        rw [this]
        simp only [List.flatMap_cons, List.flatMap_nil, List.append_nil]
        refine ih v [] p (fun h => h1 ?_) (fun h => h2 ?_)
        · rw [List.cons_append]; exact List.cons_prefix_cons.2 ⟨rfl, h⟩
        · rw [List.cons_append]; exact List.cons_prefix_cons.2 ⟨rfl, h⟩
      · have : [chain (v :: ws) c].filter (Xml.isTag w) = [] := by simp [chain_isTag, e]
        rw [this]; rfl

/-- A new child is the last of its path. -/
theorem insertAt_same (u : Str) (c : Xml) (hc : c.isTag u = true) (q : List Str) : ∀ n : Xml, n.isElem = true →
    getAll (insertAt q c n) (q ++ [u]) = getAll n (q ++ [u]) ++ [c] := by
  induction q with
  | nil =>
    intro n hn
    cases n with
    | text s => cases hn
    | elem w as ks =>
      simp only [List.nil_append, getAll_one]
      simp [insertAt, addKid, getTags_elem, hc]
  | cons t ts ih =>
    intro n hn
    cases n with
    | text s => cases hn
    | elem w as ks =>
      rw [List.cons_append, getAll_cons, getAll_cons]
      unfold insertAt
      cases hm : modLast t (insertAt ts c) ks with
      | none =>
        simp only [getTags_elem, List.filter_append, filter_false (modLast_none _ _ _ hm)]
        have : [chain (t :: ts) c].filter (Xml.isTag t) = [chain (t :: ts) c] := by simp [chain_isTag]
        rw [this]
        simp only [List.nil_append, List.flatMap_cons, List.flatMap_nil, List.append_nil]
        exact chain_all u c hc ts t []
      | some ks' =>
        obtain ⟨a, x, b, rfl, hx, hb, rfl⟩ := modLast_some _ _ _ _ hm
        simp only [getTags_elem, List.filter_append, List.filter_cons, filter_false hb, hx, insertAt_isTag, if_true,
          List.flatMap_append, List.flatMap_cons, List.flatMap_nil, List.append_nil, ih x (isElem_of_isTag hx),
          List.append_assoc]

/-- Elsewhere nothing changes. -/
theorem insertAt_other (u : Str) (c : Xml) (hc : c.isTag u = true) (q : List Str) : ∀ (n : Xml) (p : List Str),
    n.isElem = true → ¬ p <+: q ++ [u] → ¬ q ++ [u] <+: p → getAll (insertAt q c n) p = getAll n p := by
  induction q with
  | nil =>
    intro n p hn h1 h2
    cases n with
    | text s => cases hn
    | elem w as ks =>
      cases p with
      | nil => exact absurd List.nil_prefix h1
      | cons v p =>
        have : u ≠ v := by
          rintro rfl
          exact h2 (by simp)
        rw [getAll_cons, getAll_cons]
        simp [insertAt, addKid, getTags_elem, isTag_unique (u := v) hc, this]
  | cons t ts ih =>
    intro n p hn h1 h2
    cases n with
    | text s => cases hn
    | elem w as ks =>
      cases p with
      | nil => exact absurd List.nil_prefix h1
      | cons v p =>
        rw [getAll_cons, getAll_cons]
        unfold insertAt
        by_cases e : t = v
        · subst e
          have h1' : ¬ p <+: ts ++ [u] := fun h => h1 (by
            rw [List.cons_append]; exact List.cons_prefix_cons.2 ⟨rfl, h⟩)
          have h2' : ¬ ts ++ [u] <+: p := fun h => h2 (by
            rw [List.cons_append]; exact List.cons_prefix_cons.2 ⟨rfl, h⟩)
          cases hm : modLast t (insertAt ts c) ks with
          | none =>
            simp only [getTags_elem, List.filter_append, filter_false (modLast_none _ _ _ hm)]
            have : [chain (t :: ts) c].filter (Xml.isTag t) = [chain (t :: ts) c] := by simp [chain_isTag]
            rw [this]
            simp only [List.nil_append, List.flatMap_cons, List.flatMap_nil, List.append_nil]
            exact chain_other u c hc ts t [] p h1' h2'
          | some ks' =>
            obtain ⟨a, x, b, rfl, hx, hb, rfl⟩ := modLast_some _ _ _ _ hm
            simp only [getTags_elem, List.filter_append, List.filter_cons, filter_false hb, hx, insertAt_isTag, if_true,
              List.flatMap_append, List.flatMap_cons, List.flatMap_nil, List.append_nil,
              ih x p (isElem_of_isTag hx) h1' h2']
        · cases hm : modLast t (insertAt ts c) ks with
          | none =>
            simp only [getTags_elem, List.filter_append]
            have : [chain (t :: ts) c].filter (Xml.isTag v) = [] := by simp [chain_isTag, e]
            rw [this, List.append_nil]
          | some ks' =>
            obtain ⟨a, x, b, rfl, hx, hb, rfl⟩ := modLast_some _ _ _ _ hm
            simp only [getTags_elem, List.filter_append, List.filter_cons, insertAt_isTag, isTag_unique (u := v) hx]
            simp [e]

/-- A text in front stays there. -/
theorem insertAt_first (q : List Str) (c n : Xml) (s : Str) (ks : List Xml) (h : n.kids = .text s :: ks) :
    ∃ ks', (insertAt q c n).kids = .text s :: ks' := by
  cases n with
  | text s => cases h
  | elem w as l =>
    have h : l = .text s :: ks := h
    subst h
    cases q with
    | nil => exact ⟨ks ++ [c], rfl⟩
    | cons t ts =>
      unfold insertAt
      cases hm : modLast t (insertAt ts c) (.text s :: ks) with
      | none => exact ⟨_, rfl⟩
      | some ks' =>
        obtain ⟨a, x, b, h1, hx, hb, rfl⟩ := modLast_some _ _ _ _ hm
        cases a with
        | nil =>
          cases h1
          cases hx
        | cons y a =>
          cases h1
          exact ⟨_, rfl⟩

/-- All children of a member inserted. -/
theorem insertAll_same (u : Str) (q : List Str) (cs : List Xml) (hc : ∀ c ∈ cs, c.isTag u = true) : ∀ n : Xml,
    n.isElem = true →
    getAll (cs.foldl (fun n c => insertAt q c n) n) (q ++ [u]) = getAll n (q ++ [u]) ++ cs := by
  induction cs with
  | nil => simp
  | cons c cs ih =>
    intro n hn
    rw [List.foldl_cons, ih (fun c h => hc c (by simp [h])) _ (by rw [insertAt_isElem]; exact hn),
      insertAt_same u c (hc c (by simp)) q n hn]
    simp

theorem insertAll_other (u : Str) (q p : List Str) (cs : List Xml) (hc : ∀ c ∈ cs, c.isTag u = true)
    (h1 : ¬ p <+: q ++ [u]) (h2 : ¬ q ++ [u] <+: p) : ∀ n : Xml, n.isElem = true →
    getAll (cs.foldl (fun n c => insertAt q c n) n) p = getAll n p := by
  induction cs with
  | nil => simp
  | cons c cs ih =>
    intro n hn
    rw [List.foldl_cons, ih (fun c h => hc c (by simp [h])) _ (by rw [insertAt_isElem]; exact hn),
      insertAt_other u c (hc c (by simp)) q n p hn h1 h2]

theorem insertAll_isElem (q : List Str) (cs : List Xml) : ∀ n : Xml,
    (cs.foldl (fun n c => insertAt q c n) n).isElem = n.isElem := by
  induction cs with
  | nil => simp
  | cons c cs ih => intro n; rw [List.foldl_cons, ih, insertAt_isElem]

theorem insertAll_isTag (q : List Str) (u : Str) (cs : List Xml) : ∀ n : Xml,
    (cs.foldl (fun n c => insertAt q c n) n).isTag u = n.isTag u := by
  induction cs with
  | nil => simp
  | cons c cs ih => intro n; rw [List.foldl_cons, ih, insertAt_isTag]

theorem insertAll_attr (q : List Str) (a : Str) (cs : List Xml) : ∀ n : Xml,
    getAttr (cs.foldl (fun n c => insertAt q c n) n) a = getAttr n a := by
  induction cs with
  | nil => simp
  | cons c cs ih => intro n; rw [List.foldl_cons, ih, insertAt_attr]

theorem insertAll_first (q : List Str) (s : Str) (cs : List Xml) : ∀ (n : Xml) (ks : List Xml), n.kids = .text s :: ks →
    ∃ ks', (cs.foldl (fun n c => insertAt q c n) n).kids = .text s :: ks' := by
  induction cs with
  | nil => intro n ks h; exact ⟨ks, h⟩
  | cons c cs ih =>
    intro n ks h
    obtain ⟨ks', h'⟩ := insertAt_first q c n s ks h
    exact ih _ ks' h'

/-! ## Attributes and texts -/

theorem setAttr_some {n n' : Xml} {a v : Str} (h : setAttr n a v = some n') (hn : n.isElem = true) :
    getAttr n' a = some v ∧ (∀ b, b ≠ a → getAttr n' b = getAttr n b) ∧ n'.kids = n.kids ∧ (∀ u, n'.isTag u = n.isTag u) ∧
    n'.isElem = true := by
  unfold setAttr at h
  split at h
  · cases n with
    | text s => cases hn
    | elem t as ks =>
      cases h
      refine ⟨by simp [getAttr], fun b hb => ?_, rfl, fun _ => rfl, rfl⟩
      have : ¬ a = b := fun e => hb e.symm
      simp only [getAttr, List.find?_cons, this, decide_false]
      congr 1
      clear hn
      induction as with
      | nil => rfl
      | cons p as ih =>
        by_cases e : p.1 = a
        · rw [List.filter_cons_of_neg (by simp [e]), List.find?_cons_of_neg (by simp [e, this])]
          exact ih
        · rw [List.filter_cons_of_pos (by simp [e])]
          by_cases e' : p.1 = b
          · rw [List.find?_cons_of_pos (by simp [e']), List.find?_cons_of_pos (by simp [e'])]
          · rw [List.find?_cons_of_neg (by simp [e']), List.find?_cons_of_neg (by simp [e'])]
            exact ih
  · cases h

theorem getAll_kids {n n' : Xml} (h : n'.kids = n.kids) (t : Str) (ts : List Str) :
    getAll n' (t :: ts) = getAll n (t :: ts) := by
  rw [getAll_cons, getAll_cons]; unfold getTags; rw [h]

theorem getAll_addText (n : Xml) (s t : Str) (ts : List Str) :
    getAll (addKid (.text s) n) (t :: ts) = getAll n (t :: ts) := by
  cases n with
  | text s => rfl
  | elem u as ks => rw [getAll_cons, getAll_cons]; simp [addKid, getTags, Xml.kids, Xml.isTag]

theorem all_getAll_isTag (n x : Xml) (q : List Str) (u : Str) (h : x ∈ getAll n (q ++ [u])) : x.isTag u = true := by
  induction q generalizing n with
  | nil =>
    rw [List.nil_append, getAll_one] at h
    exact (List.mem_filter.1 h).2
  | cons t ts ih =>
    rw [List.cons_append, getAll_cons] at h
    obtain ⟨y, _, hy⟩ := List.mem_flatMap.1 h
    exact ih y hy

end Pisi.Xml
