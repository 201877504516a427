import Verif.Spec.Database

/-!
# C25, C26: the item-by-repository database
-/
set_option linter.unusedSectionVars false

namespace Pisi.DB
open Pisi.DBSpec
variable {α ν : Type} [DecidableEq α]

/-! ## Store names -/

/-- C25: `str_repo` inverts `repo_str`. -/
theorem str_repo_repo_str (r : RepoId) : strRepo (repoStr r) = some r := by
  cases r with
  | repo n => simp [strRepo, repoStr]
  | thirdparty => decide
  | installed => decide

/-- C25: different stores have different keys. -/
theorem repo_str_injective {r s : RepoId} (h : repoStr r = repoStr s) : r = s := by
  have := str_repo_repo_str r
  rw [h, str_repo_repo_str] at this
  exact (Option.some.inj this).symm

/-! ## Well-formedness -/

/-- What the database file always satisfies. -/
structure ItemDB.WF (d : ItemDB α ν) : Prop where
  uniq : d.Uniq
  inner : ∀ n s, d.get n = some s → s.Uniq ∧ s ≠ []

/-- The cell of name `n` in store `r`. -/
def ItemDB.cell (d : ItemDB α ν) (n : α) (r : RepoId) : Option ν := (d.get n).bind (fun s => s.get r)

theorem wf_nil : ItemDB.WF ([] : ItemDB α ν) := ⟨Dict.uniq_nil, by simp⟩

theorem cell_nil (n : α) (r : RepoId) : ItemDB.cell ([] : ItemDB α ν) n r = none := rfl

theorem addItem_spec {d : ItemDB α ν} (h : d.WF) (n : α) (v : ν) (r : RepoId) :
    (d.addItem n v r).WF ∧ (d.addItem n v r).cell = ItemMap.set d.cell n r (some v) := by
  unfold ItemDB.addItem
  cases hg : d.get n with
  | none =>
    refine ⟨⟨Dict.uniq_put h.uniq _ _, fun m s hs => ?_⟩, ?_⟩
    · rw [Dict.get_put] at hs
      split at hs
      · cases hs; exact ⟨Dict.uniq_put Dict.uniq_nil _ _, by simp [Dict.put]⟩
      · exact h.inner m s hs
    · funext m q
      simp only [ItemDB.cell, Dict.get_put, ItemMap.set]
      by_cases hm : n = m
      · subst hm
        by_cases hq : r = q
        · subst hq; simp [Dict.get_put]
        · have : q ≠ r := fun e => hq e.symm
          simp [Dict.get_put, hq, hg, this]
      · have : m ≠ n := fun e => hm e.symm
        simp [hm, this]
  | some s0 =>
    refine ⟨⟨Dict.uniq_put h.uniq _ _, fun m s hs => ?_⟩, ?_⟩
    · rw [Dict.get_put] at hs
      split at hs
      · cases hs; exact ⟨Dict.uniq_put (h.inner n s0 hg).1 _ _, by simp [Dict.put]⟩
      · exact h.inner m s hs
    · funext m q
      simp only [ItemDB.cell, Dict.get_put, ItemMap.set]
      by_cases hm : n = m
      · subst hm
        by_cases hq : r = q
        · subst hq; simp [Dict.get_put]
        · have : q ≠ r := fun e => hq e.symm
          simp [Dict.get_put, hq, hg, this]
      · have : m ≠ n := fun e => hm e.symm
        simp [hm, this]

theorem removeItemRepo_ok_iff (d : ItemDB α ν) (n : α) (r : RepoId) :
    (∃ d', d.removeItemRepo n r = .ok d') ↔ (d.get n).isSome := by
  unfold ItemDB.removeItemRepo
  cases d.get n with
  | none => simp
  | some s => simp only []; split <;> split <;> simp

theorem removeItemRepo_spec {d d' : ItemDB α ν} (h : d.WF) {n : α} {r : RepoId}
    (hd : d.removeItemRepo n r = .ok d') :
    d'.WF ∧ d'.cell = ItemMap.set d.cell n r none ∧ ∀ m, m ≠ n → d'.get m = d.get m := by
  unfold ItemDB.removeItemRepo at hd
  cases hg : d.get n with
  | none => simp [hg] at hd
  | some s =>
    simp only [hg] at hd
    obtain ⟨hu, hne⟩ := h.inner n s hg
    have key : ∀ s' : Dict RepoId ν, s'.Uniq → (∀ q, s'.get q = if r = q then none else s.get q) →
        (if s'.length = 0 then Except.ok (Dict.del d n) else Except.ok (Dict.put d n s')) = Except.ok (ε := IErr) d' →
        d'.WF ∧ d'.cell = ItemMap.set d.cell n r none ∧ ∀ m, m ≠ n → d'.get m = d.get m := by
      intro s' hu' hs' he
      split at he
      · next hz =>
        have hz' : s' = [] := List.length_eq_zero_iff.mp hz
        cases he
        refine ⟨⟨Dict.uniq_del h.uniq _, fun m t ht => ?_⟩, ?_, ?_⟩
        · rw [Dict.get_del] at ht
          split at ht
          · cases ht
          · exact h.inner m t ht
        · funext m q
          simp only [ItemDB.cell, Dict.get_del, ItemMap.set]
          by_cases hm : n = m
          · subst hm
            simp only [if_true, true_and, Option.bind_none]
            have := hs' q
            rw [hz'] at this
            by_cases hq : r = q
            · simp [hq]
            · have hq' : q ≠ r := fun e => hq e.symm
              simp [hq] at this
              simp [hq', hg, this]
          · have : m ≠ n := fun e => hm e.symm
            simp [hm, this]
        · intro m hm
          rw [Dict.get_del]; simp [Ne.symm hm]
      · next hz =>
        cases he
        refine ⟨⟨Dict.uniq_put h.uniq _ _, fun m t ht => ?_⟩, ?_, ?_⟩
        · rw [Dict.get_put] at ht
          split at ht
          · cases ht; exact ⟨hu', fun e => hz (by simp [e])⟩
          · exact h.inner m t ht
        · funext m q
          simp only [ItemDB.cell, Dict.get_put, ItemMap.set]
          by_cases hm : n = m
          · subst hm
            simp only [if_true, true_and, Option.bind_some, hs', hg]
            by_cases hq : r = q
            · simp [hq]
            · have hq' : q ≠ r := fun e => hq e.symm
              simp [hq, hq']
          · have : m ≠ n := fun e => hm e.symm
            simp [hm, this]
        · intro m hm
          rw [Dict.get_put]; simp [Ne.symm hm]
    by_cases hr : s.has r = true
    · rw [if_pos hr] at hd
      exact key _ (Dict.uniq_del hu r) (fun q => by rw [Dict.get_del]) hd
    · rw [if_neg hr] at hd
      refine key _ hu (fun q => ?_) hd
      by_cases hq : r = q
      · subst hq; simp [Dict.has] at hr; simp [hr]
      · simp [hq]

theorem removeKeys_spec (r : RepoId) (ks : List α) (hn : ks.Nodup) :
    ∀ d : ItemDB α ν, d.WF → (∀ k ∈ ks, (d.get k).isSome) →
      ∃ d', ItemDB.removeKeys r ks d = .ok d' ∧ d'.WF ∧
        ∀ n q, d'.cell n q = if n ∈ ks ∧ q = r then none else d.cell n q := by
  induction ks with
  | nil => intro d h _; exact ⟨d, rfl, h, by simp⟩
  | cons k ks ih =>
    intro d h hk
    obtain ⟨d1, h1⟩ := (removeItemRepo_ok_iff d k r).mpr (hk k (by simp))
    obtain ⟨w1, c1, g1⟩ := removeItemRepo_spec h h1
    obtain ⟨hk1, hn1⟩ := List.nodup_cons.mp hn
    obtain ⟨d2, e2, w2, c2⟩ := ih hn1 d1 w1 (fun x hx => by
      rw [g1 x (fun e => hk1 (e ▸ hx))]; exact hk x (by simp [hx]))
    refine ⟨d2, by simp [ItemDB.removeKeys, h1, e2], w2, fun n q => ?_⟩
    rw [c2, c1]
    simp only [ItemMap.set, List.mem_cons]
    by_cases h3 : q = r <;> by_cases h4 : n = k <;> by_cases h5 : n ∈ ks <;> simp [h3, h4, h5]

theorem removeRepo_spec {d : ItemDB α ν} (h : d.WF) (r : RepoId) :
    ∃ d', d.removeRepo r = .ok d' ∧ d'.WF ∧ ∀ n q, d'.cell n q = if q = r then none else d.cell n q := by
  obtain ⟨d', e, w, c⟩ := removeKeys_spec r d.keys h.uniq d h (fun k hk => (Dict.mem_keys d k).mp hk)
  refine ⟨d', e, w, fun n q => ?_⟩
  rw [c]
  by_cases hn : n ∈ d.keys
  · simp [hn]
  · have : d.get n = none := by
      rw [Dict.mem_keys] at hn; simpa using hn
    simp [hn, ItemDB.cell, this]

/-! ## Lookups -/

theorem getItem_one (d : ItemDB α ν) (l : List Str) (n : α) (r : RepoId) :
    d.getItem l n (.one r) = match d.cell n r with
      | some v => .ok v
      | none => .error .notFound := by
  unfold ItemDB.getItem ItemDB.getItemRepo ItemDB.cell
  cases d.get n with
  | none => simp
  | some s => cases hs : s.get r <;> simp [hs]

theorem hasKey_one (d : ItemDB α ν) (n : α) (r : RepoId) : d.hasKey n (.one r) = (d.cell n r).isSome := by
  unfold ItemDB.hasKey ItemDB.cell
  cases d.get n with
  | none => simp
  | some s => simp [Dict.has]

theorem firstOf_some (s : Dict RepoId ν) (rs : List RepoId) (v : ν) (r : RepoId) :
    ItemDB.firstOf s rs = some (v, r) ↔ s.get r = some v ∧ FirstWith (fun q => (s.get q).isSome) rs r := by
  induction rs with
  | nil => simp [ItemDB.firstOf, FirstWith]
  | cons q qs ih =>
    unfold ItemDB.firstOf
    cases hq : s.get q with
    | some w =>
      simp only [Option.some.injEq, Prod.mk.injEq]
      constructor
      · rintro ⟨rfl, rfl⟩
        exact ⟨hq, [], qs, rfl, by simp [hq], by simp⟩
      · rintro ⟨h1, a, b, h2, _, h4⟩
        cases a with
        | nil =>
          simp only [List.nil_append, List.cons.injEq] at h2
          obtain ⟨rfl, _⟩ := h2
          rw [hq] at h1; exact ⟨Option.some.inj h1, rfl⟩
        | cons c a =>
          simp only [List.cons_append, List.cons.injEq] at h2
          exact absurd (by rw [← h2.1]; simp [hq]) (h4 c (by simp))
    | none =>
      simp only [ih]
      constructor
      · rintro ⟨h1, a, b, h2, h3, h4⟩
        refine ⟨h1, q :: a, b, by simp [h2], h3, ?_⟩
        intro y hy
        rcases List.mem_cons.mp hy with rfl | hy
        · simp [hq]
        · exact h4 y hy
      · rintro ⟨h1, a, b, h2, h3, h4⟩
        refine ⟨h1, ?_⟩
        cases a with
        | nil =>
          simp only [List.nil_append, List.cons.injEq] at h2
          rw [← h2.1] at h1; simp [hq] at h1
        | cons c a =>
          simp only [List.cons_append, List.cons.injEq] at h2
          exact ⟨a, b, h2.2, h3, fun y hy => h4 y (by simp [hy])⟩

theorem firstOf_none (s : Dict RepoId ν) (rs : List RepoId) :
    ItemDB.firstOf s rs = none ↔ ∀ r ∈ rs, s.get r = none := by
  induction rs with
  | nil => simp [ItemDB.firstOf]
  | cons q qs ih =>
    unfold ItemDB.firstOf
    cases hq : s.get q <;> simp [hq, ih]

theorem getItemRepo_order (d : ItemDB α ν) (l : List Str) (n : α) (q : Query) (hq : q = .repos ∨ q = .alldb)
    (v : ν) (r : RepoId) :
    d.getItemRepo l n q = .ok (v, r) ↔
      d.cell n r = some v ∧ FirstWith (fun s => (d.cell n s).isSome) (ItemDB.order l q) r := by
  unfold ItemDB.getItemRepo ItemDB.cell
  cases hg : d.get n with
  | none => simp
  | some s =>
    simp only [Option.bind_some]
    rw [← firstOf_some]
    rcases hq with rfl | rfl
    · simp only []
      cases ItemDB.firstOf s (ItemDB.order l .repos) <;> simp
    · simp only []
      cases ItemDB.firstOf s (ItemDB.order l .alldb) <;> simp

theorem firstWith_map {β γ : Type} (f : β → γ) (P : γ → Prop) (l : List β) (y : γ) :
    FirstWith P (l.map f) y ↔ ∃ x, y = f x ∧ FirstWith (fun x => P (f x)) l x := by
  constructor
  · rintro ⟨a, b, h, hp, hn⟩
    obtain ⟨a', t, h1, rfl, h2⟩ := List.map_eq_append_iff.mp h
    obtain ⟨x, b', rfl, rfl, rfl⟩ := List.map_eq_cons_iff.mp h2
    refine ⟨x, rfl, a', b', h1, hp, fun z hz => hn _ (List.mem_map.mpr ⟨z, hz, rfl⟩)⟩
  · rintro ⟨x, rfl, a, b, rfl, hp, hn⟩
    refine ⟨a.map f, b.map f, by simp, hp, ?_⟩
    intro y hy
    obtain ⟨z, hz, rfl⟩ := List.mem_map.mp hy
    exact hn z hz

theorem find?_firstWith {β : Type} (p : β → Bool) (l : List β) (x : β) :
    l.find? p = some x ↔ FirstWith (fun y => p y = true) l x := by
  rw [List.find?_eq_some_iff_append]
  constructor
  · rintro ⟨h, a, b, rfl, hn⟩
    exact ⟨a, b, rfl, h, fun y hy => by have := hn y hy; simpa using this⟩
  · rintro ⟨a, b, rfl, h, hn⟩
    exact ⟨h, a, b, rfl, fun y hy => by have := hn y hy; simpa using this⟩

theorem whichRepo_spec (d : ItemDB α ν) (l : List Str) (n : α) :
    d.whichRepo l n = match l.find? (fun x => (d.cell n (.repo x)).isSome) with
      | some x => .ok (.repo x)
      | none => .error .notFound := by
  have key := fun v r => getItemRepo_order d l n .repos (Or.inl rfl) v r
  unfold ItemDB.whichRepo
  cases hf : l.find? (fun x => (d.cell n (.repo x)).isSome) with
  | some x =>
    have hx := (find?_firstWith _ _ _).mp hf
    obtain ⟨a, b, h1, h2, h3⟩ := hx
    obtain ⟨v, hv⟩ := Option.isSome_iff_exists.mp h2
    have := (key v (.repo x)).mpr ⟨hv, (firstWith_map _ _ _ _).mpr ⟨x, rfl, a, b, h1, h2, h3⟩⟩
    simp [this]
  | none =>
    cases hg : d.getItemRepo l n .repos with
    | ok vr =>
      obtain ⟨v, r⟩ := vr
      obtain ⟨_, h2⟩ := (key v r).mp hg
      obtain ⟨x, rfl, h3⟩ := (firstWith_map _ _ _ _).mp h2
      rw [(find?_firstWith _ _ _).mpr h3] at hf
      cases hf
    | error e =>
      have he : e = .notFound := by
        unfold ItemDB.getItemRepo at hg
        cases hd : d.get n with
        | none => simp [hd] at hg; exact hg.symm
        | some s =>
          simp only [hd] at hg
          split at hg <;> simp at hg
          exact hg.symm
      simp [he]

/-! ## C25 -/

theorem step_spec {d : ItemDB α ν} (h : d.WF) (op : ItemOp α ν) :
    (op.step d).WF ∧ (op.step d).cell = ItemMap.step d.cell op := by
  have rem : ∀ n r, (∃ d', d.removeItemRepo n r = .ok d' ∧ d'.WF ∧ d'.cell = ItemMap.set d.cell n r none) ∨
      (∃ e, d.removeItemRepo n r = .error e ∧ d.cell = ItemMap.set d.cell n r none) := by
    intro n r
    cases hr : d.removeItemRepo n r with
    | ok d' =>
      obtain ⟨a, b, _⟩ := removeItemRepo_spec h hr
      exact Or.inl ⟨d', rfl, a, b⟩
    | error e =>
      refine Or.inr ⟨e, rfl, ?_⟩
      have : d.get n = none := by
        cases hg : d.get n with
        | none => rfl
        | some s =>
          obtain ⟨d', hd'⟩ := (removeItemRepo_ok_iff d n r).mpr (by simp [hg])
          rw [hr] at hd'; cases hd'
      funext m q
      simp only [ItemMap.set]
      split
      · next hmq => rw [hmq.1]; simp [ItemDB.cell, this]
      · rfl
  cases op with
  | add n v r => exact addItem_spec h n v r
  | remove n r =>
    simp only [ItemOp.step, ItemDB.removeItem, ItemMap.step]
    rcases rem n r with ⟨d', e, a, b⟩ | ⟨e, he, b⟩
    · simp [e, a, b]
    · simp only [he]; exact ⟨h, b⟩
  | removeAny l n =>
    simp only [ItemOp.step, ItemDB.removeItem, ItemMap.step, ItemDB.removeItemOnly, whichRepo_spec]
    cases hf : l.find? (fun x => (d.cell n (.repo x)).isSome) with
    | none => simp [h]
    | some x =>
      simp only []
      rcases rem n (.repo x) with ⟨d', e, a, b⟩ | ⟨e, he, b⟩
      · simp [e, a, b]
      · simp only [he]; exact ⟨h, b⟩
  | removeRepo r =>
    obtain ⟨d', e, a, b⟩ := removeRepo_spec h r
    simp only [ItemOp.step, ItemMap.step, e]
    exact ⟨a, by funext n q; exact b n q⟩

theorem run_spec (ops : List (ItemOp α ν)) :
    (ItemOp.run ops).WF ∧ (ItemOp.run ops).cell = ItemMap.run ops := by
  unfold ItemOp.run ItemMap.run
  suffices ∀ (d : ItemDB α ν) (m : ItemMap α ν), d.WF → d.cell = m →
      (ops.foldl ItemOp.step d).WF ∧ (ops.foldl ItemOp.step d).cell = ops.foldl ItemMap.step m from
    this [] _ wf_nil (by funext n r; rfl)
  induction ops with
  | nil => intro d m h e; exact ⟨h, e⟩
  | cons op ops ih =>
    intro d m h e
    obtain ⟨a, b⟩ := step_spec h op
    exact ih _ _ a (by rw [b, e])

/-- C25: after any history, looking an item up in a given store returns what the map from
(name, store) holds, `NotfoundError` otherwise, and existence agrees with it. -/
theorem item_db_is_map (ops : List (ItemOp α ν)) (l : List Str) (n : α) (r : RepoId) :
    (ItemOp.run ops).getItem l n (.one r) = (match ItemMap.run ops n r with
      | some v => .ok v
      | none => .error .notFound) ∧
    (ItemOp.run ops).hasKey n (.one r) = (ItemMap.run ops n r).isSome := by
  rw [getItem_one, hasKey_one, (run_spec ops).2]
  exact ⟨rfl, rfl⟩

/-- C25: an operation on one store never affects another one. -/
theorem item_db_frame (ops : List (ItemOp α ν)) (op : ItemOp α ν) (l : List Str) (n : α) (r : RepoId)
    (h : match op with
      | .add n' _ r' => ¬ (n' = n ∧ r' = r)
      | .remove n' r' => ¬ (n' = n ∧ r' = r)
      | .removeAny _ n' => n' ≠ n ∨ r = .installed ∨ r = .thirdparty
      | .removeRepo r' => r' ≠ r) :
    (ItemOp.run (ops ++ [op])).getItem l n (.one r) = (ItemOp.run ops).getItem l n (.one r) := by
  rw [(item_db_is_map _ _ _ _).1, (item_db_is_map _ _ _ _).1]
  have : ItemMap.run (ops ++ [op]) n r = ItemMap.run ops n r := by
    simp only [ItemMap.run, List.foldl_append, List.foldl_cons, List.foldl_nil]
    generalize List.foldl ItemMap.step (fun _ _ => none) ops = m
    cases op with
    | add n' v r' =>
      simp only [ItemMap.step, ItemMap.set]
      rw [if_neg]; rintro ⟨rfl, rfl⟩; exact h ⟨rfl, rfl⟩
    | remove n' r' =>
      simp only [ItemMap.step, ItemMap.set]
      rw [if_neg]; rintro ⟨rfl, rfl⟩; exact h ⟨rfl, rfl⟩
    | removeAny l' n' =>
      simp only [ItemMap.step]
      cases List.find? (fun x => (m n' (RepoId.repo x)).isSome) l' with
      | none => rfl
      | some x =>
        simp only [ItemMap.set]
        rw [if_neg]; rintro ⟨rfl, rfl⟩
        simp at h
    | removeRepo r' =>
      simp only [ItemMap.step]
      rw [if_neg]; rintro rfl; exact h rfl
  rw [this]

/-- C25: `list(repo)` for a single store lists exactly the names it holds, each once. -/
theorem item_db_list (ops : List (ItemOp α ν)) (r : RepoId) :
    ((ItemOp.run ops).list (.one r)).Nodup ∧
    ∀ n, n ∈ (ItemOp.run ops).list (.one r) ↔ (ItemMap.run ops n r).isSome := by
  obtain ⟨w, c⟩ := run_spec ops
  refine ⟨List.Nodup.sublist (List.Sublist.map _ List.filter_sublist) w.uniq, fun n => ?_⟩
  rw [← c]
  simp only [ItemDB.list, List.mem_map, List.mem_filter, ItemDB.cell]
  constructor
  · rintro ⟨⟨k, s⟩, ⟨hm, hs⟩, rfl⟩
    rw [(Dict.mem_iff_get w.uniq k s).mp hm]; exact hs
  · intro hn
    cases hg : (ItemOp.run ops).get n with
    | none => simp [hg] at hn
    | some s => exact ⟨(n, s), ⟨(Dict.mem_iff_get w.uniq n s).mpr hg, by simpa [hg, Dict.has] using hn⟩, rfl⟩

/-! ## C26 -/

/-- C26: an unqualified lookup returns item `v` of store `r` exactly when `r` is the first repository in priority
order holding the name and `v` is its item there; in particular never a tracking store. -/
theorem lookup_priority (ops : List (ItemOp α ν)) (l : List Str) (n : α) (v : ν) (r : RepoId) :
    (ItemOp.run ops).getItemRepo l n .repos = .ok (v, r) ↔
      ∃ x, r = .repo x ∧ ItemMap.run ops n (.repo x) = some v ∧
        FirstWith (fun y => (ItemMap.run ops n (.repo y)).isSome) l x := by
  rw [getItemRepo_order _ _ _ _ (Or.inl rfl), (run_spec ops).2]
  simp only [ItemDB.order, firstWith_map]
  constructor
  · rintro ⟨h, x, rfl, hx⟩; exact ⟨x, rfl, h, hx⟩
  · rintro ⟨x, rfl, h, hx⟩; exact ⟨h, x, rfl, hx⟩

/-- C26: `which_repo` and `get_item` report the two halves of that answer. -/
theorem lookup_which (ops : List (ItemOp α ν)) (l : List Str) (n : α) (v : ν) (r : RepoId)
    (h : (ItemOp.run ops).getItemRepo l n .repos = .ok (v, r)) :
    (ItemOp.run ops).whichRepo l n = .ok r ∧ (ItemOp.run ops).getItem l n .repos = .ok v ∧
    (ItemOp.run ops).getItem l n (.one r) = .ok v := by
  refine ⟨by simp [ItemDB.whichRepo, h], by simp [ItemDB.getItem, h], ?_⟩
  obtain ⟨x, rfl, hv, _⟩ := (lookup_priority ops l n v r).mp h
  rw [(item_db_is_map _ _ _ _).1, hv]

/-- C26: when no listed repository has the name the lookup raises `NotfoundError`. -/
theorem lookup_missing (ops : List (ItemOp α ν)) (l : List Str) (n : α) :
    (ItemOp.run ops).getItemRepo l n .repos = .error .notFound ↔
      ∀ x ∈ l, ItemMap.run ops n (.repo x) = none := by
  rw [← (run_spec ops).2]
  unfold ItemDB.getItemRepo ItemDB.cell
  cases (ItemOp.run ops).get n with
  | none => simp
  | some s =>
    simp only [Option.bind_some]
    have := firstOf_none s (ItemDB.order l .repos)
    cases hf : ItemDB.firstOf s (ItemDB.order l .repos) with
    | none =>
      simp only [true_iff]
      intro x hx
      exact this.mp hf _ (by simp [ItemDB.order]; exact hx)
    | some y =>
      simp only [reduceCtorEq, false_iff]
      intro hall
      rw [this.mpr (fun r hr => ?_)] at hf
      · cases hf
      · obtain ⟨x, hx, rfl⟩ := by simpa [ItemDB.order] using hr
        exact hall x hx

/-- Counting argument behind `not_just_tracking`. -/
theorem notJustTracking_iff (s : Dict RepoId ν) (hu : s.Uniq) (hne : s ≠ []) :
    notJustTracking s = true ↔ ∃ x, (s.get (.repo x)).isSome := by
  have hk : ∀ r, r ∈ s.keys ↔ (s.get r).isSome := Dict.mem_keys s
  have hu' : s.keys.Nodup := hu
  have hne' : s.keys ≠ [] := by simpa [Dict.keys] using hne
  simp only [← hk]
  unfold notJustTracking
  generalize s.keys = ks at hu' hne'
  have third : ∀ r, (∀ x, r ≠ RepoId.repo x) → r = .thirdparty ∨ r = .installed := by
    intro r h; cases r with
    | repo n => exact absurd rfl (h n)
    | thirdparty => simp
    | installed => simp
  match ks, hu', hne' with
  | [], _, h => exact absurd rfl h
  | [a], _, _ => cases a <;> simp
  | [a, b], hu, _ => cases a <;> cases b <;> simp_all
  | a :: b :: c :: t, hu, _ =>
    simp only [List.length_cons]
    rw [if_neg (by omega), if_neg (by omega)]
    simp only [true_iff]
    refine Classical.byContradiction (fun hno => ?_)
    have h1 := third a (fun x e => hno ⟨x, by simp [e]⟩)
    have h2 := third b (fun x e => hno ⟨x, by simp [e]⟩)
    have h3 := third c (fun x e => hno ⟨x, by simp [e]⟩)
    simp only [List.nodup_cons, List.mem_cons, not_or] at hu
    rcases h1 with rfl | rfl <;> rcases h2 with rfl | rfl <;> rcases h3 with rfl | rfl <;> simp_all

/-- C26: unqualified existence means some repository (not a tracking store) has the name. -/
theorem exists_unqualified (ops : List (ItemOp α ν)) (n : α) :
    (ItemOp.run ops).hasKey n .repos = true ↔ ∃ x, (ItemMap.run ops n (.repo x)).isSome := by
  obtain ⟨w, c⟩ := run_spec ops
  rw [← c]
  unfold ItemDB.hasKey ItemDB.cell
  cases hg : (ItemOp.run ops).get n with
  | none => simp
  | some s =>
    obtain ⟨hu, hne⟩ := w.inner n s hg
    simpa using notJustTracking_iff s hu hne

/-- C26: when every repository holding items is listed, existence and retrieval agree. -/
theorem exists_iff_lookup (ops : List (ItemOp α ν)) (l : List Str) (n : α)
    (hl : ∀ x, (ItemMap.run ops n (.repo x)).isSome → x ∈ l) :
    (ItemOp.run ops).hasKey n .repos = true ↔ ∃ v, (ItemOp.run ops).getItem l n .repos = .ok v := by
  rw [exists_unqualified]
  have hm := lookup_missing ops l n
  unfold ItemDB.getItem
  cases hg : (ItemOp.run ops).getItemRepo l n .repos with
  | ok vr =>
    obtain ⟨v, r⟩ := vr
    obtain ⟨x, _, hx, _⟩ := (lookup_priority ops l n v r).mp hg
    simp only [Except.ok.injEq, exists_eq', iff_true]
    exact ⟨x, by simp [hx]⟩
  | error e =>
    simp only [reduceCtorEq, exists_false, iff_false]
    rintro ⟨x, hx⟩
    have he : e = .notFound := by
      unfold ItemDB.getItemRepo at hg
      cases hd : (ItemOp.run ops).get n with
      | none => simp [hd] at hg; exact hg.symm
      | some s =>
        simp only [hd] at hg
        split at hg <;> simp at hg
        exact hg.symm
    rw [hg, he] at hm
    rw [hm.mp rfl x (hl x hx)] at hx
    cases hx

/-- C26: the unqualified listing is exactly the names found by an unqualified existence test. -/
theorem list_unqualified (ops : List (ItemOp α ν)) (n : α) :
    n ∈ (ItemOp.run ops).list .repos ↔ (ItemOp.run ops).hasKey n .repos = true := by
  obtain ⟨w, _⟩ := run_spec ops
  simp only [ItemDB.list, List.mem_map, List.mem_filter, ItemDB.hasKey]
  constructor
  · rintro ⟨⟨k, s⟩, ⟨hm, hs⟩, rfl⟩
    rw [(Dict.mem_iff_get w.uniq k s).mp hm]; exact hs
  · intro hn
    cases hg : (ItemOp.run ops).get n with
    | none => simp [hg] at hn
    | some s => exact ⟨(n, s), ⟨(Dict.mem_iff_get w.uniq n s).mpr hg, by simpa [hg] using hn⟩, rfl⟩

/-! ## Non-vacuity -/
section Examples

def opsEx : List (ItemOp Nat Nat) :=
  [.add 1 10 (.repo ['a']), .add 1 20 (.repo ['b']), .add 1 30 .installed, .add 2 40 .installed,
   .add 2 50 .thirdparty, .add 3 60 (.repo ['a']), .removeRepo (.repo ['a'])]

example : (ItemOp.run opsEx).getItemRepo [['a'], ['b']] 1 .repos = .ok (20, .repo ['b']) := by rfl
example : (ItemOp.run opsEx).hasKey 2 .repos = false := by rfl
example : (ItemOp.run opsEx).hasKey 1 .repos = true := by rfl
example : (ItemOp.run opsEx).getItem [] 2 (.one .installed) = .ok 40 := by rfl
example : (ItemOp.run opsEx).hasKey 3 .alldb = false := by rfl
example : ∀ x, (ItemMap.run opsEx 1 (.repo x)).isSome → x ∈ ([['a'], ['b']] : List Str) := by
  intro x
  by_cases hb : x = ['b'] <;> by_cases ha : x = ['a'] <;>
    simp [opsEx, ItemMap.run, ItemMap.step, ItemMap.set, ha, hb]

end Examples

end Pisi.DB
