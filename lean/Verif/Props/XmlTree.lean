import Verif.Lemmas.Xml
import Verif.Spec.XmlTree

/-!
# C203 – C206: finding and adding nodes by a path of tags, and the back ends
-/
namespace Pisi.Xml

theorem isTag_tagOf (t : Str) (k : Xml) : k.isTag t = true ↔ tagOf k = some t := by
  cases k <;> simp [Xml.isTag, tagOf]

theorem isTag_not (t : Str) (k : Xml) : k.isTag t = false ↔ tagOf k ≠ some t := by
  rw [← Bool.not_eq_true, isTag_tagOf]

theorem splitOn_ne (c : Char) (s : Str) : splitOn c s ≠ [] := by
  cases s with
  | nil => simp [splitOn]
  | cons x xs =>
    unfold splitOn
    by_cases h : x = c
    · rw [if_pos h]; simp
    · rw [if_neg h]
      cases splitOn c xs <;> simp

theorem splitOn_one (c : Char) (s : Str) (h : c ∉ s) : splitOn c s = [s] := by
  induction s with
  | nil => rfl
  | cons x xs ih =>
    unfold splitOn
    have hx : x ≠ c := fun e => h (by simp [e])
    rw [if_neg hx, ih (fun hm => h (List.mem_cons_of_mem _ hm))]

theorem nodesAt_cons (t : Str) (ts : List Str) (n : Xml) :
    nodesAt (t :: ts) n = n.kids.flatMap (fun k => if tagOf k = some t then nodesAt ts k else []) := rfl

theorem flatMap_ite (t : Str) (f : Xml → List Xml) (l : List Xml) :
    (l.filter (Xml.isTag t)).flatMap f = l.flatMap (fun k => if tagOf k = some t then f k else []) := by
  induction l with
  | nil => rfl
  | cons x l ih =>
    rw [List.flatMap_cons, List.filter_cons]
    by_cases h : tagOf x = some t
    · rw [if_pos ((isTag_tagOf t x).mpr h), List.flatMap_cons, ih, if_pos h]
    · rw [if_neg (fun hh => h ((isTag_tagOf t x).mp hh)), ih, if_neg h, List.nil_append]

theorem getAll_nodesAt (ts : List Str) (n : Xml) : getAll n ts = nodesAt ts n := by
  induction ts generalizing n with
  | nil => rfl
  | cons t ts ih =>
    rw [getAll_cons, nodesAt_cons]
    unfold getTags
    rw [flatMap_ite]
    congr 1
    funext k
    rw [ih]

theorem nodesAt_one (t : Str) (n : Xml) : nodesAt [t] n = getTags n t := by
  rw [← getAll_nodesAt, getAll_one]

theorem loop_head (ts : List Str) (n x : Xml) (h : getNodeLoop ts n = some x) : (nodesAt ts n).head? = some x := by
  induction ts generalizing n with
  | nil => simpa [getNodeLoop, nodesAt] using h
  | cons t ts ih =>
    unfold getNodeLoop at h
    obtain ⟨m, hm, hx⟩ := Option.bind_eq_some_iff.mp h
    unfold getNode at hm
    obtain ⟨h1, l, r, e, h2⟩ := List.find?_eq_some_iff_append.mp hm
    have := ih m hx
    rw [nodesAt_cons, e, List.flatMap_append, List.flatMap_cons, if_pos ((isTag_tagOf t m).mp h1)]
    have hl : l.flatMap (fun k => if tagOf k = some t then nodesAt ts k else []) = [] := by
      rw [List.flatMap_eq_nil_iff]
      intro k hk
      rw [if_neg ((isTag_not t k).mp (by simpa using h2 k hk))]
    rw [hl, List.nil_append]
    cases hn : nodesAt ts m with
    | nil => rw [hn] at this; cases this
    | cons y ys => rw [hn] at this; simpa using this

/-- Among children of which at most one has the tag, that one is the first. -/
theorem one_split {t : Str} {ks l r : List Xml} {m : Xml} (e : ks = l ++ m :: r) (hm : tagOf m = some t)
    (h : (ks.filter (fun k => tagOf k = some t)).length ≤ 1) : (∀ x ∈ l, tagOf x ≠ some t) ∧ ∀ x ∈ r, tagOf x ≠ some t := by
  rw [e, List.filter_append, List.filter_cons, if_pos (by simpa using hm), List.length_append, List.length_cons] at h
  have h1 : l.filter (fun k => tagOf k = some t) = [] := List.eq_nil_of_length_eq_zero (by omega)
  have h2 : r.filter (fun k => tagOf k = some t) = [] := List.eq_nil_of_length_eq_zero (by omega)
  rw [List.filter_eq_nil_iff] at h1 h2
  exact ⟨fun x hx => by simpa using h1 x hx, fun x hx => by simpa using h2 x hx⟩

theorem flatMap_none {t : Str} {f : Xml → List Xml} {l : List Xml} (h : ∀ x ∈ l, tagOf x ≠ some t) :
    l.flatMap (fun k => if tagOf k = some t then f k else []) = [] := by
  rw [List.flatMap_eq_nil_iff]
  intro k hk
  rw [if_neg (h k hk)]

theorem loop_single (ts : List Str) (n : Xml) (h : NoTwins ts n) : getNodeLoop ts n = (nodesAt ts n).head? := by
  induction ts generalizing n with
  | nil => rfl
  | cons t ts ih =>
    unfold getNodeLoop
    cases hm : getNode n t with
    | none =>
      unfold getNode at hm
      rw [List.find?_eq_none] at hm
      rw [nodesAt_cons, flatMap_none (fun x hx => (isTag_not t x).mp (by simpa using hm x hx))]
      rfl
    | some m =>
      unfold getNode at hm
      obtain ⟨h1, l, r, e, h2⟩ := List.find?_eq_some_iff_append.mp hm
      have ht := (isTag_tagOf t m).mp h1
      obtain ⟨hl, hr⟩ := one_split e ht h.1
      rw [nodesAt_cons, e, List.flatMap_append, List.flatMap_cons, if_pos ht, flatMap_none hl, flatMap_none hr, List.append_nil,
        List.nil_append]
      exact ih m (h.2 m (by rw [e]; simp) ht)

/-- **C203, full statement.**  `getNode` finds the first node at the path, and none only if there is none. -/
def GetNodeFull : Prop := ∀ (n : Xml) (p : Str), p ≠ [] → getNodePath n p = (nodesAt (splitOn '/' p) n).head?

/-- **C203, proved part.**  `getAllNodes` finds exactly the nodes at the path, in their order; what `getNode` finds is the first of them, and
it finds one whenever there is one if the path is a single tag, or if no node on the way has two children with the next tag. -/
theorem get_node_partial (n : Xml) (p : Str) (hp : p ≠ []) :
    getAllPath n p = nodesAt (splitOn '/' p) n ∧
    (∀ x, getNodePath n p = some x → (nodesAt (splitOn '/' p) n).head? = some x) ∧
    ('/' ∉ p ∨ NoTwins (splitOn '/' p) n → getNodePath n p = (nodesAt (splitOn '/' p) n).head?) := by
  refine ⟨getAll_nodesAt _ _, fun x hx => ?_, ?_⟩
  · unfold getNodePath at hx
    rw [if_neg hp] at hx
    exact loop_head _ _ _ hx
  · unfold getNodePath
    rw [if_neg hp]
    rintro (h | h)
    · rw [splitOn_one '/' p h, nodesAt_one, ← getAll_one, ← getNode_head]
      unfold getNodeLoop
      cases getNode n p <;> rfl
    · exact loop_single _ _ h

section Witness

def e (t : Char) (ks : List Xml) : Xml := .elem [t] [] ks

/-- Two children `a`, of which only the second has a `b`. -/
def twins : Xml := e 'r' [e 'a' [], e 'a' [e 'b' []]]

/-- **C203 is false of the code**: only the first child with the tag is looked into. -/
theorem get_node_refuted : ¬ GetNodeFull := by
  intro h
  have := h twins ['a', '/', 'b'] (by simp)
  simp [getNodePath, splitOn, getNodeLoop, getNode, twins, e, Xml.kids, Xml.isTag, nodesAt, tagOf] at this

end Witness

/-! ## Adding -/

theorem tagOf_add (rem : Nat) (ts : List Str) (c : List Xml) (n : Xml) : tagOf (addLoop rem ts c n) = tagOf n := by
  cases n with
  | text s =>
    cases ts with
    | nil => rfl
    | cons t ts =>
      unfold addLoop
      split <;> rfl
  | elem u as ks =>
    cases ts with
    | nil => rfl
    | cons t ts =>
      unfold addLoop
      split
      · simp only
        cases modLast t (addLoop rem ts c) ks <;> rfl
      · rfl

theorem chain_nodes (ts : List Str) (hts : ts ≠ []) (c : List Xml) (u : Str) (as : List (Str × Str)) :
    nodesAt ts (.elem u as (newChain ts c)) = [newNode ts c] := by
  induction ts generalizing u as with
  | nil => exact absurd rfl hts
  | cons t ts ih =>
    rw [nodesAt_cons]
    show (List.flatMap _ [Xml.elem t [] (newChain ts c)]) = _
    rw [List.flatMap_cons, List.flatMap_nil, List.append_nil, if_pos (show tagOf (Xml.elem t [] (newChain ts c)) = some t from rfl)]
    cases ts with
    | nil => rfl
    | cons t' ts =>
      rw [ih (by simp)]
      simp [newNode]

theorem kids_append (t : Str) (ts : List Str) (u : Str) (as : List (Str × Str)) (ks c : List Xml) :
    nodesAt (t :: ts) (.elem u as (ks ++ c)) = nodesAt (t :: ts) (.elem u as ks) ++ nodesAt (t :: ts) (.elem u as c) := by
  simp [nodesAt_cons, Xml.kids, List.flatMap_append]

theorem nodes_mod {t : Str} {ts : List Str} {u : Str} {as : List (Str × Str)} {a b : List Xml} {x : Xml} (hx : tagOf x = some t)
    (hb : ∀ y ∈ b, tagOf y ≠ some t) : nodesAt (t :: ts) (.elem u as (a ++ x :: b)) =
      nodesAt (t :: ts) (.elem u as a) ++ nodesAt ts x := by
  simp only [nodesAt_cons, Xml.kids]
  rw [List.flatMap_append, List.flatMap_cons, if_pos hx, flatMap_none hb, List.append_nil]

/-- With `branch` the new node is the last one at the path. -/
theorem add_branch (ts : List Str) (hts : ts ≠ []) (c : List Xml) (u : Str) (as : List (Str × Str)) (ks : List Xml) :
    nodesAt ts (addLoop 1 ts c (.elem u as ks)) = nodesAt ts (.elem u as ks) ++ [newNode ts c] := by
  induction ts generalizing u as ks with
  | nil => exact absurd rfl hts
  | cons t ts ih =>
    have made : nodesAt (t :: ts) (addKids (newChain (t :: ts) c) (.elem u as ks)) =
        nodesAt (t :: ts) (.elem u as ks) ++ [newNode (t :: ts) c] := by
      show nodesAt (t :: ts) (.elem u as (ks ++ newChain (t :: ts) c)) = _
      rw [kids_append, chain_nodes _ (by simp)]
    unfold addLoop
    by_cases hl : (t :: ts).length > 1
    · rw [if_pos hl]
      simp only
      cases hm : modLast t (addLoop 1 ts c) ks with
      | none => exact made
      | some ks' =>
        obtain ⟨a, x, b, e1, h1, h2, e2⟩ := modLast_some _ _ _ _ hm
        have hx := (isTag_tagOf t x).mp h1
        have hb : ∀ y ∈ b, tagOf y ≠ some t := fun y hy => (isTag_not t y).mp (h2 y hy)
        simp only
        rw [e1, e2, nodes_mod (by rw [tagOf_add]; exact hx) hb, nodes_mod hx hb]
        cases ts with
        | nil => simp at hl
        | cons t' ts =>
          cases x with
          | text s => cases hx
          | elem v bs js =>
            rw [ih (by simp), List.append_assoc]
            simp [newNode]
    · rw [if_neg hl]
      exact made

/-- Without `branch` the new children go to the last node that is reached by always taking the last child, and only if there is none a
new node is made. -/
theorem add_last (ts : List Str) (c : List Xml) (n : Xml) (h : ∃ u as ks, n = .elem u as ks) :
    (∀ y, LastAt ts n y → ∃ l, nodesAt ts n = l ++ [y] ∧ nodesAt ts (addLoop 0 ts c n) = l ++ [addKids c y]) ∧
    ((¬ ∃ y, LastAt ts n y) → nodesAt ts (addLoop 0 ts c n) = nodesAt ts n ++ [newNode ts c]) := by
  induction ts generalizing n with
  | nil =>
    refine ⟨fun y hy => ?_, fun hn => absurd ⟨n, .nil n⟩ hn⟩
    cases hy
    exact ⟨[], rfl, rfl⟩
  | cons t ts ih =>
    obtain ⟨u, as, ks, rfl⟩ := h
    unfold addLoop
    rw [if_pos (by simp)]
    simp only
    cases hm : modLast t (addLoop 0 ts c) ks with
    | none =>
      have hno := modLast_none _ _ _ hm
      refine ⟨fun y hy => ?_, fun _ => ?_⟩
      · cases hy with
        | cons _ _ _ _ l k r _ hk _ _ =>
          exact absurd hk ((isTag_not t k).mp (hno k (by simp)))
      · show nodesAt (t :: ts) (.elem u as (ks ++ newChain (t :: ts) c)) = _
        rw [kids_append, chain_nodes _ (by simp)]
    | some ks' =>
      obtain ⟨a, x, b, e1, h1, h2, e2⟩ := modLast_some _ _ _ _ hm
      have hx := (isTag_tagOf t x).mp h1
      have hb : ∀ y ∈ b, tagOf y ≠ some t := fun y hy => (isTag_not t y).mp (h2 y hy)
      have hel : ∃ u as ks, x = .elem u as ks := by
        cases x with
        | text s => cases hx
        | elem v bs js => exact ⟨v, bs, js, rfl⟩
      obtain ⟨i1, i2⟩ := ih x hel
      simp only
      have hf : tagOf (addLoop 0 ts c x) = some t := by rw [tagOf_add]; exact hx
      rw [e1, e2, nodes_mod hx hb, nodes_mod hf hb]
      have same : ∀ y, LastAt (t :: ts) (.elem u as (a ++ x :: b)) y ↔ LastAt ts x y := by
        intro y
        refine ⟨fun hy => ?_, fun hy => .cons t ts u as a x b y hx hb hy⟩
        generalize hz : (Xml.elem u as (a ++ x :: b)) = z at hy
        cases hy with
        | cons _ _ u' as' l k r _ hk hr hy =>
          have el : a ++ x :: b = l ++ k :: r := by injection hz
          have : x = k := by
            rcases List.append_eq_append_iff.mp el with ⟨w, e3, e4⟩ | ⟨w, e3, e4⟩
            · cases w with
              | nil => simp at e4; exact e4.1
              | cons z w =>
                simp only [List.cons_append, List.cons.injEq] at e4
                exact absurd hk (hb k (by rw [e4.2]; simp))
            · cases w with
              | nil => simp at e4; exact e4.1.symm
              | cons z w =>
                simp only [List.cons_append, List.cons.injEq] at e4
                exact absurd hx (hr x (by rw [e4.2]; simp))
          rw [this]
          exact hy
      refine ⟨fun y hy => ?_, fun hn => ?_⟩
      · obtain ⟨l, e3, e4⟩ := i1 y ((same y).mp hy)
        exact ⟨nodesAt (t :: ts) (.elem u as a) ++ l, by rw [e3, List.append_assoc], by rw [e4, List.append_assoc]⟩
      · rw [i2 (fun ⟨y, hy⟩ => hn ⟨y, (same y).mpr hy⟩), List.append_assoc]
        cases ts with
        | nil => exact absurd ⟨x, (same x).mpr (.nil x)⟩ hn
        | cons t' ts => simp [newNode]

theorem add_grown (rem : Nat) (ts : List Str) (c : List Xml) (n : Xml) (h : ∃ u as ks, n = .elem u as ks) :
    ∃ q, q <:+ ts ∧ Grown (newChain q c) n (addLoop rem ts c n) := by
  induction ts generalizing n with
  | nil =>
    obtain ⟨u, as, ks, rfl⟩ := h
    exact ⟨[], List.suffix_refl _, .here u as ks⟩
  | cons t ts ih =>
    obtain ⟨u, as, ks, rfl⟩ := h
    unfold addLoop
    by_cases hl : (t :: ts).length > rem
    · rw [if_pos hl]
      simp only
      cases hm : modLast t (addLoop rem ts c) ks with
      | none => exact ⟨t :: ts, List.suffix_refl _, .here u as ks⟩
      | some ks' =>
        obtain ⟨a, x, b, e1, h1, h2, e2⟩ := modLast_some _ _ _ _ hm
        have hel : ∃ u as ks, x = .elem u as ks := by
          cases x with
          | text s => cases h1
          | elem v bs js => exact ⟨v, bs, js, rfl⟩
        obtain ⟨q, hq, hg⟩ := ih x hel
        refine ⟨q, List.IsSuffix.trans hq (List.suffix_cons t ts), ?_⟩
        simp only
        rw [e1, e2]
        exact .there u as a x _ b hg
    · rw [if_neg hl]
      exact ⟨t :: ts, List.suffix_refl _, .here u as ks⟩

theorem newChain_nested (q : List Str) (c : List Xml) : newChain q c = nested q c := by
  induction q with
  | nil => rfl
  | cons t q ih => simp [newChain, nested, ih]

theorem last_elem {ts : List Str} {n y : Xml} (h : LastAt ts n y) (hn : ∃ u as ks, n = .elem u as ks) : ∃ u as ks, y = .elem u as ks := by
  induction h with
  | nil n => exact hn
  | cons t ts u as l k r y hk hr hl ih =>
    apply ih
    cases k with
    | text s => cases hk
    | elem v bs js => exact ⟨v, bs, js, rfl⟩

/-- **C204.**  Adding a node at a path changes an element tree at one place only, where something is appended to the children of an element.
By default there is one more node at the path afterwards, the last one, which has the new node as its only child.  With `branch=False` the
new node becomes the last child of the last node that is at the path, going to the last child at each tag, and only if there is none
such a node is made, behind all others at the path. -/
theorem add_node_exact (u : Str) (as : List (Str × Str)) (ks : List Xml) (p : Str) (hp : p ≠ []) (new : Option Xml) :
    let n := Xml.elem u as ks
    let ts := splitOn '/' p
    nodesAt ts (addNode n p new true) = nodesAt ts n ++ [newNode ts new.toList] ∧
    (∀ y, LastAt ts n y → ∃ l, nodesAt ts n = l ++ [y] ∧ ∃ z, Longer new.toList y z ∧ nodesAt ts (addNode n p new false) = l ++ [z]) ∧
    ((¬ ∃ y, LastAt ts n y) → nodesAt ts (addNode n p new false) = nodesAt ts n ++ [newNode ts new.toList]) ∧
    ∀ branch, ∃ q, q <:+ ts ∧ Grown (nested q new.toList) n (addNode n p new branch) := by
  intro n ts
  unfold addNode
  rw [if_neg hp, if_neg hp, if_pos rfl, if_neg (by simp)]
  refine ⟨add_branch ts (splitOn_ne _ _) _ _ _ _, fun y hy => ?_, (add_last ts _ n ⟨u, as, ks, rfl⟩).2, fun branch => ?_⟩
  · obtain ⟨l, h1, h2⟩ := (add_last ts new.toList n ⟨u, as, ks, rfl⟩).1 y hy
    obtain ⟨t', as', ks', rfl⟩ := last_elem hy ⟨u, as, ks, rfl⟩
    exact ⟨l, h1, _, ⟨t', as', ks', rfl, rfl⟩, h2⟩
  · rw [if_neg hp]
    obtain ⟨q, hq, hg⟩ := add_grown (if branch then 1 else 0) ts new.toList n ⟨u, as, ks, rfl⟩
    exact ⟨q, hq, newChain_nested q new.toList ▸ hg⟩

/-- An empty path is the node itself. -/
theorem add_node_empty (u : Str) (as : List (Str × Str)) (ks : List Xml) (new : Option Xml) (branch : Bool) :
    addNode (.elem u as ks) [] new branch = .elem u as (ks ++ new.toList) := by
  simp [addNode, addKids]

/-- The hypotheses of C204 can be met: in `twins` the last `a` has a `b`. -/
example : LastAt [['a'], ['b']] twins (e 'b' []) :=
  .cons ['a'] [['b']] ['r'] [] [e 'a' []] (e 'a' [e 'b' []]) [] _ rfl (by simp)
    (.cons ['b'] [] ['a'] [] [] (e 'b' []) [] _ rfl (by simp) (.nil _))

/-! ## Texts -/

theorem chain_single (ts : List Str) (c : List Xml) (u : Str) (as : List (Str × Str)) (hts : ts ≠ []) :
    NoTwins ts (.elem u as (newChain ts c)) := by
  induction ts generalizing u as with
  | nil => exact absurd rfl hts
  | cons t ts ih =>
    refine ⟨by simp [Xml.kids, newChain, tagOf], fun k hk _ => ?_⟩
    have : k = .elem t [] (newChain ts c) := by simpa [Xml.kids, newChain] using hk
    rw [this]
    cases ts with
    | nil => trivial
    | cons t' ts => exact ih _ _ (by simp)

theorem add_single (ts : List Str) (hts : ts ≠ []) (c : List Xml) (u : Str) (as : List (Str × Str)) (ks : List Xml)
    (h : NoTwins ts (.elem u as ks)) (hn : nodesAt ts (.elem u as ks) = []) : NoTwins ts (addLoop 1 ts c (.elem u as ks)) := by
  induction ts generalizing u as ks with
  | nil => exact absurd rfl hts
  | cons t ts ih =>
    have made : (∀ k ∈ ks, tagOf k ≠ some t) → NoTwins (t :: ts) (addKids (newChain (t :: ts) c) (.elem u as ks)) := by
      intro hno
      have hc := chain_single (t :: ts) c u as (by simp)
      refine ⟨?_, fun k hk hkt => ?_⟩
      · show (List.filter _ (ks ++ newChain (t :: ts) c)).length ≤ 1
        rw [List.filter_append, List.filter_eq_nil_iff.mpr (fun k hk => by simpa using hno k hk)]
        exact hc.1
      · rcases List.mem_append.mp (show k ∈ ks ++ newChain (t :: ts) c from hk) with hk | hk
        · exact absurd hkt (hno k hk)
        · exact hc.2 k hk hkt
    unfold addLoop
    by_cases hl : (t :: ts).length > 1
    · rw [if_pos hl]
      simp only
      cases hm : modLast t (addLoop 1 ts c) ks with
      | none => exact made (fun k hk => (isTag_not t k).mp (modLast_none _ _ _ hm k hk))
      | some ks' =>
        obtain ⟨a, x, b, e1, h1, h2, e2⟩ := modLast_some _ _ _ _ hm
        have hx := (isTag_tagOf t x).mp h1
        obtain ⟨ha, hb⟩ := one_split e1 hx h.1
        have hf : tagOf (addLoop 1 ts c x) = some t := by rw [tagOf_add]; exact hx
        cases ts with
        | nil => simp at hl
        | cons t' ts =>
          cases x with
          | text s => cases hx
          | elem v bs js =>
            have hin : Xml.elem v bs js ∈ ks := by rw [e1]; simp
            have hnx : nodesAt (t' :: ts) (.elem v bs js) = [] := by
              rw [nodesAt_cons, List.flatMap_eq_nil_iff] at hn
              have := hn _ hin
              rwa [if_pos hx] at this
            have := ih (by simp) v bs js (h.2 _ hin hx) hnx
            simp only
            rw [e2]
            refine ⟨?_, fun k hk hkt => ?_⟩
            · show (List.filter _ (a ++ _ :: b)).length ≤ 1
              rw [List.filter_append, List.filter_cons, if_pos (by simpa using hf),
                List.filter_eq_nil_iff.mpr (fun k hk => by simpa using ha k hk),
                List.filter_eq_nil_iff.mpr (fun k hk => by simpa using hb k hk)]
              simp
            · rcases List.mem_append.mp (show k ∈ a ++ _ :: b from hk) with hk | hk
              · exact absurd hkt (ha k hk)
              · rcases List.mem_cons.mp hk with rfl | hk
                · exact this
                · exact absurd hkt (hb k hk)
    · rw [if_neg hl]
      apply made
      have : ts = [] := by cases ts with | nil => rfl | cons _ _ => simp at hl
      subst this
      intro k hk hkt
      rw [nodesAt_cons, List.flatMap_eq_nil_iff] at hn
      have := hn k hk
      rw [if_pos hkt] at this
      cases this

/-- **C205, full statement.**  A text that is added at a path where there was nothing is read at that path, without blanks at its ends. -/
def TextFull : Prop := ∀ (u : Str) (as : List (Str × Str)) (ks : List Xml) (p s : Str), p ≠ [] →
  nodesAt (splitOn '/' p) (.elem u as ks) = [] → nodeTextPath (addText (.elem u as ks) p s) p = some (some (strip s))

/-- **C205, proved part.**  It is if no node on the way has two children with the next tag. -/
theorem text_partial (u : Str) (as : List (Str × Str)) (ks : List Xml) (p s : Str) (hp : p ≠ [])
    (hn : nodesAt (splitOn '/' p) (.elem u as ks) = []) (h : NoTwins (splitOn '/' p) (.elem u as ks)) :
    nodeTextPath (addText (.elem u as ks) p s) p = some (some (strip s)) := by
  have h1 := add_branch (splitOn '/' p) (splitOn_ne _ _) [.text s] u as ks
  have h2 := add_single (splitOn '/' p) (splitOn_ne _ _) [.text s] u as ks h hn
  rw [hn] at h1
  unfold nodeTextPath addText addNode getNodePath
  rw [if_neg hp, if_neg hp, if_neg hp, if_pos rfl]
  show (match getNodeLoop (splitOn '/' p) (addLoop 1 (splitOn '/' p) [.text s] (.elem u as ks)) with
    | none => some none
    | some m => nodeText m) = _
  rw [loop_single _ _ h2, h1]
  rfl

/-- The hypotheses of C205 can be met on a path with several tags that exists in part. -/
example : nodeTextPath (addText (e 'r' [e 'x' [], e 'a' [e 'c' []]]) "a/b".toList " t ".toList) "a/b".toList = some (some ['t']) :=
  text_partial _ _ _ _ _ (by simp) (by simp [splitOn, nodesAt, Xml.kids, tagOf, e]) (by
    simp [splitOn, NoTwins, Xml.kids, tagOf, e])

/-- **C205 is false of the code**: the text goes to the last child with a tag and is looked for in the first. -/
theorem text_refuted : ¬ TextFull := by
  intro h
  have := h ['r'] [] [e 'a' [], e 'a' []] "a/b".toList ['t'] (by simp) (by
    simp [splitOn, nodesAt, Xml.kids, tagOf, e])
  have w : nodeTextPath (addText (.elem ['r'] [] [e 'a' [], e 'a' []]) "a/b".toList ['t']) "a/b".toList = some none := by
    simp [nodeTextPath, addText, addNode, splitOn, addLoop, modLast, Xml.isTag, e, addKids, newChain, getNodePath, getNodeLoop, getNode,
      Xml.kids]
  rw [w] at this
  cases this

/-! ## Back ends -/

theorem mdom_named (t : Str) : Mdom.named t = Xml.isTag t := by
  funext x
  cases x <;> simp [Xml.isTag, Mdom.named]

theorem mdom_tags (n : Xml) (t : Str) : Mdom.getTagByName n t = getTags n t := by
  unfold Mdom.getTagByName getTags
  rw [mdom_named]

theorem mdom_all (ts : List Str) (l : List Xml) : Mdom.getAllLoop ts l = ts.foldl (fun l t => l.flatMap (getTags · t)) l := by
  induction ts generalizing l with
  | nil => rfl
  | cons t ts ih =>
    unfold Mdom.getAllLoop
    simp only [mdom_tags]
    rw [List.foldl_cons]
    by_cases h : l.flatMap (getTags · t) = []
    · rw [if_pos h, h]
      have : ∀ ts : List Str, ts.foldl (fun l t => l.flatMap (getTags · t)) ([] : List Xml) = [] := by
        intro ts
        induction ts with
        | nil => rfl
        | cons t ts ih => rw [List.foldl_cons, List.flatMap_nil, ih]
      rw [this]
    · rw [if_neg h, ih]

theorem mdom_loop (ts : List Str) (n : Xml) : Mdom.getNodeLoop ts n = getNodeLoop ts n := by
  induction ts generalizing n with
  | nil => rfl
  | cons t ts ih =>
    unfold Mdom.getNodeLoop getNodeLoop getNode
    rw [mdom_named]
    cases n.kids.find? (Xml.isTag t) with
    | none => rfl
    | some m => exact ih m

/-- **C206, full statement.**  Whichever library is there, the same files can be read and the same records written. -/
def BackendFull : Prop := ∀ (b : Backend), (∀ parse, b.read parse = Backend.piks.read parse) ∧ ∀ doc, b.write doc = Backend.piks.write doc

/-- **C206, proved part.**  With piksemel what the library reads is read and what is to be written is written; with the other two libraries
nothing is read at all, and with minidom nothing is written.  Nodes and texts are found by minidom as by piksemel, at all paths but the
empty one. -/
theorem backend_partial (b : Backend) :
    (∀ parse, b.read parse = if b = .piks then parse else none) ∧ (∀ doc, b.write doc = if b = .mdom then none else some doc) ∧
    ∀ (n : Xml) (p : Str), Mdom.getAllPath n p = getAllPath n p ∧
      (p ≠ [] → Mdom.getNodePath n p = getNodePath n p) ∧ Mdom.nodeTextPath n p = nodeTextPath n p := by
  refine ⟨fun parse => ?_, fun doc => ?_, fun n p => ⟨?_, fun hp => ?_, ?_⟩⟩
  · cases b <;> simp [Backend.read, call, Backend.readParams]
  · cases b <;> simp [Backend.write, call, Backend.writeParams]
  · exact mdom_all _ _
  · unfold Mdom.getNodePath getNodePath
    rw [if_neg hp, mdom_loop]
  · unfold Mdom.nodeTextPath nodeTextPath
    by_cases hp : p = []
    · rw [if_pos hp, if_pos hp]
      unfold Mdom.nodeText nodeText
      rfl
    · rw [if_neg hp, if_neg hp]
      unfold Mdom.getNodePath getNodePath
      rw [if_neg hp, mdom_loop]
      cases getNodeLoop (splitOn '/' p) n with
      | none => rfl
      | some m => unfold Mdom.nodeText nodeText; rfl

/-- C206: with which parameters a file can be read: python's cDomlette lacks one of those that are passed, minidom all but one. -/
theorem backend_reads (b : Backend) (given : List String) (x : Xml) : call b.readParams given (some x) = some x ↔
    ∀ g ∈ given, g = "tmpDir" ∨ (b ≠ .mdom ∧ (g = "sha1sum" ∨ g = "compress" ∨ g = "sign")) ∨ (b = .piks ∧ g = "copylocal") := by
  unfold call
  by_cases h : given.all (fun g => b.readParams.contains g) = true
  · rw [if_pos h]
    rw [List.all_eq_true] at h
    refine ⟨fun _ g hg => ?_, fun _ => rfl⟩
    have := h g hg
    cases b <;> simpa [Backend.readParams, or_assoc] using this
  · rw [if_neg h]
    refine ⟨fun h => (by cases h), fun hg => absurd ?_ h⟩
    rw [List.all_eq_true]
    intro g hm
    have := hg g hm
    cases b <;> simpa [Backend.readParams, or_assoc] using this

/-- **C206 is false of the code**: `read` passes parameters that two of the three do not have. -/
theorem backend_refuted : ¬ BackendFull := by
  intro h
  have := (h .mdom).1 (some (.text []))
  rw [(backend_partial .mdom).1, (backend_partial .piks).1] at this
  simp at this

end Pisi.Xml
