import Verif.Spec.Database
import Verif.Lemmas.ListAux

/-!
# C21, C22: the install database
-/
set_option linter.unusedSectionVars false

namespace Pisi.DB
open Pisi.DBSpec
variable {α ν : Type} [DecidableEq α]

theorem since_nil {β : Type} (A : List β → β → Prop) (B : β → Prop) : ¬ Since A B [] := by
  rintro ⟨pre, x, post, h, _⟩; simp at h

theorem since_snoc {β : Type} (A : List β → β → Prop) (B : β → Prop) (ops : List β) (op : β) :
    Since A B (ops ++ [op]) ↔ A ops op ∨ (Since A B ops ∧ B op) := by
  constructor
  · rintro ⟨pre, x, post, h, ha, hb⟩
    rcases snoc_eq_append_cons.mp h with ⟨rfl, rfl, rfl⟩ | ⟨q, rfl, rfl⟩
    · exact Or.inl ha
    · exact Or.inr ⟨⟨pre, x, q, rfl, ha, fun o ho => hb o (by simp [ho])⟩, hb op (by simp)⟩
  · rintro (ha | ⟨⟨pre, x, post, rfl, ha, hb⟩, h⟩)
    · exact ⟨ops, op, [], rfl, ha, by simp⟩
    · refine ⟨pre, x, post ++ [op], by simp, ha, fun o ho => ?_⟩
      rcases List.mem_append.mp ho with ho | ho
      · exact hb o ho
      · simp at ho; subst ho; exact h

theorem installed_snoc (ops : List (InstOp α ν)) (op : InstOp α ν) (p : α) :
    Installed (ops ++ [op]) p ↔ match op with
      | .install q _ _ => q = p ∨ Installed ops p
      | .clear _ => Installed ops p
      | .remove q => q ≠ p ∧ Installed ops p
      | .purge q => q ≠ p ∧ Installed ops p := by
  unfold Installed
  rw [since_snoc]
  cases op <;> simp [and_comm]

theorem installedAs_snoc (ops : List (InstOp α ν)) (op : InstOp α ν) (p : α) (v : ν) :
    InstalledAs (ops ++ [op]) p v ↔ match op with
      | .install q w _ => (q = p ∧ w = v ∧ ¬ Installed ops p) ∨ InstalledAs ops p v
      | .clear _ => InstalledAs ops p v
      | .remove q => q ≠ p ∧ InstalledAs ops p v
      | .purge q => q ≠ p ∧ InstalledAs ops p v := by
  unfold InstalledAs
  rw [since_snoc]
  cases op <;> simp [and_comm, and_assoc]

theorem pending_snoc (ops : List (InstOp α ν)) (op : InstOp α ν) (p : α) :
    Pending (ops ++ [op]) p ↔ match op with
      | .install q _ later => (q = p ∧ later = true ∧ ¬ Installed ops p) ∨ Pending ops p
      | .clear q => q ≠ p ∧ Pending ops p
      | .remove q => q ≠ p ∧ Pending ops p
      | .purge q => q ≠ p ∧ Pending ops p := by
  unfold Pending
  rw [since_snoc]
  cases op <;> simp [and_comm, and_assoc]

theorem run_snoc (ops : List (InstOp α ν)) (op : InstOp α ν) :
    InstOp.run (ops ++ [op]) = InstOp.step (InstOp.run ops) op := by
  simp [InstOp.run]

/-! ## The relation between the database and the history -/

/-- What the record of `p` says about the history. -/
structure InstInv (ops : List (InstOp α ν)) (s : InstallDB α ν) (p : α) : Prop where
  inst : s.isInstalled p = true ↔ Installed ops p
  ver : ∀ v, InstalledAs ops p v ↔ ∃ x, s.d.get p = some x ∧ InstallDB.counts x = true ∧ x.ver = v
  pend : Pending ops p → (∃ x, s.d.get p = some x ∧ x.state = .ip) ∧ s.dp.has p = true
  ip : ∀ x, s.d.get p = some x → x.state = .ip → Pending ops p

theorem isInstalled_iff (s : InstallDB α ν) (p : α) :
    s.isInstalled p = true ↔ ∃ x, s.d.get p = some x ∧ InstallDB.counts x = true := by
  unfold InstallDB.isInstalled
  cases s.d.get p <;> simp

theorem inv_congr {ops : List (InstOp α ν)} {op : InstOp α ν} {s s' : InstallDB α ν} {p : α}
    (h : InstInv ops s p) (hd : s'.d.get p = s.d.get p) (hp : s'.dp.has p = s.dp.has p)
    (h1 : Installed (ops ++ [op]) p ↔ Installed ops p)
    (h2 : ∀ v, InstalledAs (ops ++ [op]) p v ↔ InstalledAs ops p v)
    (h3 : Pending (ops ++ [op]) p ↔ Pending ops p) : InstInv (ops ++ [op]) s' p := by
  refine ⟨?_, ?_, ?_, ?_⟩
  · rw [h1, ← h.inst, isInstalled_iff, isInstalled_iff, hd]
  · intro v; rw [h2, h.ver, hd]
  · rw [h3, hd, hp]; exact h.pend
  · rw [h3, hd]; exact h.ip

theorem inv_step {ops : List (InstOp α ν)} {s : InstallDB α ν} (h : ∀ p, InstInv ops s p) (op : InstOp α ν) (p : α) :
    InstInv (ops ++ [op]) (op.step s) p := by
  have hp := h p
  cases op with
  | install q v later =>
    by_cases hi : s.isInstalled q = true
    · have hs : InstOp.step s (.install q v later) = s := by
        simp [InstOp.step, InstOp.apply, InstallDB.install, hi]
      rw [hs]
      have hq := (h q).inst.mp hi
      refine inv_congr hp rfl rfl ?_ (fun w => ?_) ?_
      · rw [installed_snoc]
        simp only []
        exact ⟨fun x => x.elim (fun e => e ▸ hq) id, Or.inr⟩
      · rw [installedAs_snoc]
        simp only []
        exact ⟨fun x => x.elim (fun e => absurd (e.1 ▸ hq) e.2.2) id, Or.inr⟩
      · rw [pending_snoc]
        simp only []
        exact ⟨fun x => x.elim (fun e => absurd (e.1 ▸ hq) e.2.2) id, Or.inr⟩
    · have hni : ¬ Installed ops q := fun e => hi ((h q).inst.mpr e)
      have hs : InstOp.step s (.install q v later) =
          { d := s.d.put q ⟨if later then .ip else .i, v⟩, dp := if later then s.dp.put q () else s.dp } := by
        cases later <;> simp [InstOp.step, InstOp.apply, InstallDB.install, hi]
      rw [hs]
      by_cases hqp : q = p
      · subst hqp
        have hna : ∀ w, ¬ InstalledAs ops q w := fun w hw => by
          obtain ⟨x, hx, hc, _⟩ := (hp.ver w).mp hw
          exact hi ((isInstalled_iff s q).mpr ⟨x, hx, hc⟩)
        have hnp : ¬ Pending ops q := fun hw => by
          obtain ⟨⟨x, hx, hc⟩, _⟩ := hp.pend hw
          exact hi ((isInstalled_iff s q).mpr ⟨x, hx, by simp [InstallDB.counts, hc]⟩)
        refine ⟨?_, ?_, ?_, ?_⟩
        · rw [installed_snoc, isInstalled_iff]
          simp only [Dict.get_put, if_true, true_or, iff_true]
          exact ⟨_, rfl, by cases later <;> simp [InstallDB.counts]⟩
        · intro w
          rw [installedAs_snoc]
          simp only [Dict.get_put, if_true, true_and, hna, or_false]
          constructor
          · rintro ⟨rfl, _⟩
            exact ⟨_, rfl, by cases later <;> simp [InstallDB.counts], rfl⟩
          · rintro ⟨x, hx, _, rfl⟩
            cases hx
            exact ⟨rfl, hni⟩
        · rw [pending_snoc]
          simp only [true_and, hnp, or_false]
          rintro ⟨rfl, _⟩
          simp [Dict.get_put, Dict.has]
        · intro x hx hx'
          simp only [Dict.get_put, if_true, Option.some.injEq] at hx
          subst hx
          rw [pending_snoc]
          cases later
          · simp at hx'
          · exact Or.inl ⟨rfl, rfl, hni⟩
      · refine inv_congr hp ?_ ?_ ?_ (fun w => ?_) ?_
        · simp [Dict.get_put, hqp]
        · cases later <;> simp [Dict.has, Dict.get_put, hqp]
        · rw [installed_snoc]; simp [hqp]
        · rw [installedAs_snoc]; simp [hqp]
        · rw [pending_snoc]; simp [hqp]
  | clear q =>
    have h1 : ∀ p, Installed (ops ++ [.clear q]) p ↔ Installed ops p := fun p => by rw [installed_snoc]
    have h2 : ∀ p v, InstalledAs (ops ++ [.clear q]) p v ↔ InstalledAs ops p v := fun p v => by rw [installedAs_snoc]
    have h3 : ∀ p, Pending (ops ++ [.clear q]) p ↔ q ≠ p ∧ Pending ops p := fun p => by rw [pending_snoc]
    by_cases hqp : q = p
    · subst hqp
      cases hg : s.d.get q with
      | none =>
        have hs : InstOp.step s (.clear q) = s := by
          simp [InstOp.step, InstOp.apply, InstallDB.clearPending, hg]
        rw [hs]
        refine ⟨by rw [h1]; exact hp.inst, fun v => by rw [h2]; exact hp.ver v, ?_, ?_⟩
        · rw [h3]; rintro ⟨e, _⟩; exact absurd rfl e
        · rw [hg]; simp
      | some x =>
        by_cases hx : x.state = .ip
        · have hpend := hp.ip x hg hx
          have hdp := (hp.pend hpend).2
          have hi : s.isInstalled q = true := (isInstalled_iff s q).mpr ⟨x, hg, by simp [InstallDB.counts, hx]⟩
          have hs : InstOp.step s (.clear q) = { d := s.d.put q ⟨.i, x.ver⟩, dp := s.dp.del q } := by
            simp [InstOp.step, InstOp.apply, InstallDB.clearPending, hg, hi, hx, hdp]
          rw [hs]
          refine ⟨?_, ?_, ?_, ?_⟩
          · rw [h1, ← hp.inst, hi, isInstalled_iff]
            simp [Dict.get_put, InstallDB.counts]
          · intro v
            rw [h2, hp.ver, hg]
            simp [Dict.get_put, InstallDB.counts, hx]
          · rw [h3]; rintro ⟨e, _⟩; exact absurd rfl e
          · simp [Dict.get_put]
        · have hs : (InstOp.step s (.clear q)).d.get q = s.d.get q := by
            simp only [InstOp.step, InstOp.apply, InstallDB.clearPending, hg, hx, if_false]
            split
            · next hh =>
              split at hh
              · cases hh
              · split at hh
                · cases hh; simp [Dict.get_put]
                · cases hh
            · exact hg
          refine ⟨?_, ?_, ?_, ?_⟩
          · rw [h1, ← hp.inst, isInstalled_iff, isInstalled_iff, hs]
          · intro v; rw [h2, hp.ver, hs]
          · rw [h3]; rintro ⟨e, _⟩; exact absurd rfl e
          · rw [hs, hg]
            rintro y hy; cases hy; exact fun e => absurd e hx
    · have hs : (InstOp.step s (.clear q)).d.get p = s.d.get p ∧ (InstOp.step s (.clear q)).dp.has p = s.dp.has p := by
        simp only [InstOp.step, InstOp.apply, InstallDB.clearPending]
        split
        · next hh =>
          split at hh
          · cases hh
          · split at hh
            · split at hh
              · split at hh
                · cases hh; simp [Dict.get_put, Dict.has, Dict.get_del, hqp]
                · cases hh
              · cases hh
            · split at hh
              · cases hh; simp [Dict.get_put, Dict.has, Dict.get_del, hqp]
              · cases hh
        · exact ⟨rfl, rfl⟩
      exact inv_congr hp hs.1 hs.2 (h1 p) (h2 p) (by rw [h3]; simp [hqp])
  | remove q =>
    have h1 : ∀ p, Installed (ops ++ [.remove q]) p ↔ q ≠ p ∧ Installed ops p := fun p => by rw [installed_snoc]
    have h2 : ∀ p v, InstalledAs (ops ++ [.remove q]) p v ↔ q ≠ p ∧ InstalledAs ops p v :=
      fun p v => by rw [installedAs_snoc]
    have h3 : ∀ p, Pending (ops ++ [.remove q]) p ↔ q ≠ p ∧ Pending ops p := fun p => by rw [pending_snoc]
    have hs : (InstOp.step s (.remove q)).dp = s.dp ∧ ∀ p, (InstOp.step s (.remove q)).d.get p =
        if q = p then (s.d.get q).map (fun x => ⟨.r, x.ver⟩) else s.d.get p := by
      simp only [InstOp.step, InstOp.apply, InstallDB.remove]
      cases hg : s.d.get q with
      | none => refine ⟨rfl, fun p => ?_⟩; simp only []; split <;> simp_all
      | some x => refine ⟨rfl, fun p => ?_⟩; simp [Dict.get_put]
    by_cases hqp : q = p
    · subst hqp
      have hd := hs.2 q
      simp only [if_true] at hd
      refine ⟨?_, ?_, ?_, ?_⟩
      · rw [h1, isInstalled_iff, hd]
        simp only [ne_eq, not_true_eq_false, false_and, iff_false]
        rintro ⟨x, hx, hc⟩
        obtain ⟨y, _, rfl⟩ := Option.map_eq_some_iff.mp hx
        simp [InstallDB.counts] at hc
      · intro v
        rw [h2, hd]
        simp only [ne_eq, not_true_eq_false, false_and, false_iff]
        rintro ⟨x, hx, hc, _⟩
        obtain ⟨y, _, rfl⟩ := Option.map_eq_some_iff.mp hx
        simp [InstallDB.counts] at hc
      · rw [h3]; rintro ⟨e, _⟩; exact absurd rfl e
      · rw [hd]
        intro x hx hc
        obtain ⟨y, _, rfl⟩ := Option.map_eq_some_iff.mp hx
        simp at hc
    · refine inv_congr hp (by rw [hs.2]; simp [hqp]) (by rw [hs.1]) ?_ (fun v => ?_) ?_
      · rw [h1]; simp [hqp]
      · rw [h2]; simp [hqp]
      · rw [h3]; simp [hqp]
  | purge q =>
    have h1 : ∀ p, Installed (ops ++ [.purge q]) p ↔ q ≠ p ∧ Installed ops p := fun p => by rw [installed_snoc]
    have h2 : ∀ p v, InstalledAs (ops ++ [.purge q]) p v ↔ q ≠ p ∧ InstalledAs ops p v :=
      fun p v => by rw [installedAs_snoc]
    have h3 : ∀ p, Pending (ops ++ [.purge q]) p ↔ q ≠ p ∧ Pending ops p := fun p => by rw [pending_snoc]
    have hs : (InstOp.step s (.purge q)).dp = s.dp ∧ ∀ p, (InstOp.step s (.purge q)).d.get p =
        if q = p then none else s.d.get p := by
      simp only [InstOp.step, InstOp.apply, InstallDB.purge]
      by_cases hg : s.d.has q = true
      · rw [if_pos hg]; exact ⟨rfl, fun p => Dict.get_del _ _ _⟩
      · rw [if_neg hg]
        refine ⟨rfl, fun p => ?_⟩
        show s.d.get p = _
        by_cases e : q = p
        · subst e; simpa [Dict.has] using hg
        · simp [e]
    by_cases hqp : q = p
    · subst hqp
      have hd := hs.2 q
      simp only [if_true] at hd
      refine ⟨?_, ?_, ?_, ?_⟩
      · rw [h1, isInstalled_iff, hd]; simp
      · intro v; rw [h2, hd]; simp
      · rw [h3]; rintro ⟨e, _⟩; exact absurd rfl e
      · rw [hd]; simp
    · refine inv_congr hp (by rw [hs.2]; simp [hqp]) (by rw [hs.1]) ?_ (fun v => ?_) ?_
      · rw [h1]; simp [hqp]
      · rw [h2]; simp [hqp]
      · rw [h3]; simp [hqp]

theorem inv_run (ops : List (InstOp α ν)) : ∀ p, InstInv ops (InstOp.run ops) p := by
  induction ops using snoc_induction with
  | h0 =>
    intro p
    refine ⟨?_, fun v => ?_, ?_, ?_⟩
    · simp [InstOp.run, InstallDB.isInstalled, Installed, since_nil]
    · simp [InstOp.run, InstalledAs, since_nil]
    · intro h; exact absurd h (since_nil _ _)
    · simp [InstOp.run]
  | hs l a ih => intro p; rw [run_snoc]; exact inv_step ih a p

theorem dict_uniq_run (ops : List (InstOp α ν)) : (InstOp.run ops).d.Uniq ∧ (InstOp.run ops).dp.Uniq := by
  induction ops using snoc_induction with
  | h0 => exact ⟨Dict.uniq_nil, Dict.uniq_nil⟩
  | hs l a ih =>
    rw [run_snoc]
    unfold InstOp.step
    split
    · next s' hs' =>
      cases a with
      | install q v later =>
        simp only [InstOp.apply, InstallDB.install] at hs'
        split at hs'
        · cases hs'
        · split at hs' <;> cases hs'
          · exact ⟨Dict.uniq_put ih.1 _ _, Dict.uniq_put ih.2 _ _⟩
          · exact ⟨Dict.uniq_put ih.1 _ _, ih.2⟩
      | clear q =>
        simp only [InstOp.apply, InstallDB.clearPending] at hs'
        split at hs'
        · cases hs'
        · split at hs'
          · split at hs'
            · split at hs' <;> cases hs'
              exact ⟨Dict.uniq_put ih.1 _ _, Dict.uniq_del ih.2 _⟩
            · cases hs'
          · split at hs' <;> cases hs'
            exact ⟨Dict.uniq_put ih.1 _ _, Dict.uniq_del ih.2 _⟩
      | remove q =>
        simp only [InstOp.apply, InstallDB.remove] at hs'
        split at hs' <;> cases hs'
        exact ⟨Dict.uniq_put ih.1 _ _, ih.2⟩
      | purge q =>
        simp only [InstOp.apply, InstallDB.purge] at hs'
        split at hs' <;> cases hs'
        · exact ⟨Dict.uniq_del ih.1 _, ih.2⟩
        · exact ih
    · exact ih

/-! ## C21 -/

/-- C21: `is_installed(p)` is true exactly when `p` was installed and neither removed nor purged since. -/
theorem is_installed_iff (ops : List (InstOp α ν)) (p : α) :
    (InstOp.run ops).isInstalled p = true ↔ Installed ops p := (inv_run ops p).inst

/-- C21: `list_installed()` lists exactly these packages, each once. -/
theorem list_installed_exact (ops : List (InstOp α ν)) :
    (InstOp.run ops).listInstalled.Nodup ∧ ∀ p, p ∈ (InstOp.run ops).listInstalled ↔ Installed ops p := by
  have hu := (dict_uniq_run ops).1
  refine ⟨List.Nodup.sublist (List.Sublist.map _ List.filter_sublist) hu, fun p => ?_⟩
  rw [← is_installed_iff, isInstalled_iff]
  simp only [InstallDB.listInstalled, List.mem_map, List.mem_filter]
  constructor
  · rintro ⟨⟨k, x⟩, ⟨hm, hc⟩, rfl⟩
    exact ⟨x, (Dict.mem_iff_get hu _ _).mp hm, hc⟩
  · rintro ⟨x, hx, hc⟩
    exact ⟨(p, x), ⟨(Dict.mem_iff_get hu _ _).mpr hx, hc⟩, rfl⟩

/-- C21: installing an installed package is rejected; whatever is asked later is answered as if the
attempt had not happened. -/
theorem install_rejected (ops : List (InstOp α ν)) (p : α) (v : ν) (later : Bool) (h : Installed ops p) :
    (InstOp.run ops).install p v later = .error .already ∧
    InstOp.run (ops ++ [.install p v later]) = InstOp.run ops := by
  have hi := (is_installed_iff ops p).mpr h
  have : (InstOp.run ops).install p v later = .error .already := by simp [InstallDB.install, hi]
  exact ⟨this, by rw [run_snoc]; simp [InstOp.step, InstOp.apply, this]⟩

/-- C21: installing a package that is not installed succeeds. -/
theorem install_accepted (ops : List (InstOp α ν)) (p : α) (v : ν) (later : Bool) (h : ¬ Installed ops p) :
    (InstOp.run ops).install p v later = .ok (InstOp.run (ops ++ [.install p v later])) := by
  have hi : ¬ (InstOp.run ops).isInstalled p = true := fun e => h ((is_installed_iff ops p).mp e)
  rw [run_snoc]
  cases later <;> simp [InstOp.step, InstOp.apply, InstallDB.install, hi]

/-- C21: the recorded version of an installed package is that of the installation in effect. -/
theorem recorded_version (ops : List (InstOp α ν)) (p : α) (v : ν) (h : Installed ops p) :
    (InstOp.run ops).getVersion p = .ok v ↔ InstalledAs ops p v := by
  obtain ⟨x, hx, hc⟩ := (isInstalled_iff _ _).mp ((is_installed_iff ops p).mpr h)
  rw [(inv_run ops p).ver]
  simp only [InstallDB.getVersion, InstallDB.getItem, hx, Except.ok.injEq, Option.some.injEq]
  constructor
  · rintro rfl; exact ⟨x, rfl, hc, rfl⟩
  · rintro ⟨y, rfl, _, e⟩; exact e

/-- C21: an installed package always has a recorded version. -/
theorem recorded_version_exists (ops : List (InstOp α ν)) (p : α) (h : Installed ops p) :
    ∃ v, InstalledAs ops p v := by
  obtain ⟨x, hx, hc⟩ := (isInstalled_iff _ _).mp ((is_installed_iff ops p).mpr h)
  exact ⟨x.ver, ((inv_run ops p).ver _).mpr ⟨x, hx, hc, rfl⟩⟩

/-- C21: removing an installed package succeeds, afterwards it is reported as removed and its version stays known. -/
theorem remove_installed (ops : List (InstOp α ν)) (p : α) (v : ν) (h : InstalledAs ops p v) :
    ∃ s, (InstOp.run ops).remove p = .ok s ∧ s.isInstalled p = false ∧ s.isRemoved p = true ∧
      s.getVersion p = .ok v := by
  obtain ⟨x, hx, _, rfl⟩ := ((inv_run ops p).ver v).mp h
  have e : (InstOp.run ops).remove p = .ok { (InstOp.run ops) with d := (InstOp.run ops).d.put p ⟨.r, x.ver⟩ } := by
    simp only [InstallDB.remove, hx]
  refine ⟨_, e, ?_, ?_, ?_⟩ <;>
    simp [InstallDB.isInstalled, InstallDB.isRemoved, InstallDB.getVersion, InstallDB.getItem, Dict.get_put,
      InstallDB.counts]

/-! ## C22 -/

theorem collect_ok (s : InstallDB α ν) (ps : List α) (l : Dict α (InstInfo ν)) (h : s.collect ps = .ok l) :
    l.keys = ps := by
  induction ps generalizing l with
  | nil => simp [InstallDB.collect] at h; subst h; rfl
  | cons p ps ih =>
    simp only [InstallDB.collect] at h
    split at h
    · cases h
    · split at h
      · cases h
      · next l' h' => cases h; simp [Dict.keys] at ih ⊢; exact ih _ h'

theorem collect_total (s : InstallDB α ν) (ps : List α) (h : ∀ p ∈ ps, (s.d.get p).isSome) :
    ∃ l, s.collect ps = .ok l := by
  induction ps with
  | nil => exact ⟨[], rfl⟩
  | cons p ps ih =>
    obtain ⟨l, hl⟩ := ih (fun q hq => h q (by simp [hq]))
    obtain ⟨x, hx⟩ := Option.isSome_iff_exists.mp (h p (by simp))
    exact ⟨(p, x) :: l, by simp [InstallDB.collect, InstallDB.getItem, hx, hl]⟩

/-- C22, full statement: the pending list is exactly the packages with deferred configuration, and each can
be cleared. -/
def PendingExact (α ν : Type) [DecidableEq α] : Prop :=
  ∀ ops : List (InstOp α ν), ∃ l, (InstOp.run ops).listPending = .ok l ∧
    (∀ p, p ∈ l.keys ↔ Pending ops p) ∧ ∀ p ∈ l.keys, ∃ s, (InstOp.run ops).clearPending p = .ok s

/-- C22 fails: after a deferred installation, a removal and an ordinary installation the package is still listed, and
clearing it fails with an `AssertionError`. -/
theorem pending_exact_refuted : ¬ PendingExact Nat Nat := by
  intro h
  obtain ⟨l, hl, _, hc⟩ := h [.install 1 0 true, .remove 1, .install 1 1 false]
  have : l = [(1, ⟨.i, 1⟩)] := by
    have e : (InstOp.run [.install 1 0 true, .remove 1, .install 1 1 false] : InstallDB Nat Nat).listPending =
      .ok [(1, ⟨.i, 1⟩)] := by rfl
    rw [e] at hl; cases hl; rfl
  obtain ⟨s, hs⟩ := hc 1 (by subst this; decide)
  have e : (InstOp.run [.install 1 0 true, .remove 1, .install 1 1 false] : InstallDB Nat Nat).clearPending 1 =
    .error .assertion := by rfl
  rw [e] at hs; cases hs

/-- C22 fails: purging a package whose configuration is pending makes `list_pending` itself fail. -/
theorem pending_list_fails : (InstOp.run [.install 1 0 true, .purge 1] : InstallDB Nat Nat).listPending =
    .error .typeErr := by rfl

/-- No package is removed or purged while its configuration is pending. -/
def ConfiguredBeforeRemoval (ops : List (InstOp α ν)) : Prop :=
  ∀ pre p post, (ops = pre ++ .remove p :: post ∨ ops = pre ++ .purge p :: post) → ¬ Pending pre p

theorem configuredBefore_snoc {ops : List (InstOp α ν)} {op : InstOp α ν}
    (h : ConfiguredBeforeRemoval (ops ++ [op])) :
    ConfiguredBeforeRemoval ops ∧ ∀ p, op = .remove p ∨ op = .purge p → ¬ Pending ops p := by
  constructor
  · rintro pre p post (rfl | rfl)
    · exact h pre p (post ++ [op]) (Or.inl (by simp))
    · exact h pre p (post ++ [op]) (Or.inr (by simp))
  · rintro p (rfl | rfl)
    · exact h ops p [] (Or.inl rfl)
    · exact h ops p [] (Or.inr rfl)

theorem dp_exact (ops : List (InstOp α ν)) (hc : ConfiguredBeforeRemoval ops) (p : α)
    (hp : (InstOp.run ops).dp.has p = true) : Pending ops p := by
  induction ops using snoc_induction generalizing p with
  | h0 => simp [InstOp.run, Dict.has] at hp
  | hs ops op ih =>
    obtain ⟨hc1, hc2⟩ := configuredBefore_snoc hc
    have ih' := ih hc1
    rw [pending_snoc]
    rw [run_snoc] at hp
    cases op with
    | install q v later =>
      by_cases hi : (InstOp.run ops).isInstalled q = true
      · have hs : InstOp.step (InstOp.run ops) (.install q v later) = InstOp.run ops := by
          simp [InstOp.step, InstOp.apply, InstallDB.install, hi]
        rw [hs] at hp
        exact Or.inr (ih' p hp)
      · have hs : InstOp.step (InstOp.run ops) (.install q v later) =
            { d := (InstOp.run ops).d.put q ⟨if later then .ip else .i, v⟩,
              dp := if later then (InstOp.run ops).dp.put q () else (InstOp.run ops).dp } := by
          cases later <;> simp [InstOp.step, InstOp.apply, InstallDB.install, hi]
        rw [hs] at hp
        cases later with
        | false => exact Or.inr (ih' p hp)
        | true =>
          by_cases hqp : q = p
          · exact Or.inl ⟨hqp, rfl, fun e => hi (by subst hqp; exact (is_installed_iff ops q).mpr e)⟩
          · simp [Dict.has, Dict.get_put, hqp] at hp
            exact Or.inr (ih' p (by simpa [Dict.has] using hp))
    | clear q =>
      simp only []
      by_cases hqp : q = p
      · subst hqp
        exfalso
        by_cases hdp : (InstOp.run ops).dp.has q = true
        · have hpend := ih' q hdp
          obtain ⟨⟨x, hx, hst⟩, _⟩ := (inv_run ops q).pend hpend
          have hi := (isInstalled_iff (InstOp.run ops) q).mpr ⟨x, hx, by simp [InstallDB.counts, hst]⟩
          simp only [InstOp.step, InstOp.apply, InstallDB.clearPending, hx, hi, hst, hdp, if_true] at hp
          simp [Dict.has, Dict.get_del] at hp
        · have hs : InstOp.step (InstOp.run ops) (.clear q) = InstOp.run ops := by
            simp only [InstOp.step, InstOp.apply, InstallDB.clearPending, hdp]
            split
            · next hh =>
              split at hh
              · cases hh
              · split at hh
                · split at hh <;> simp at hh
                · simp at hh
            · rfl
          rw [hs] at hp; exact hdp hp
      · refine ⟨hqp, ih' p ?_⟩
        simp only [InstOp.step, InstOp.apply, InstallDB.clearPending] at hp
        split at hp
        · next hh =>
          split at hh
          · cases hh
          · split at hh
            · split at hh
              · split at hh
                · cases hh; simpa [Dict.has, Dict.get_del, hqp] using hp
                · cases hh
              · cases hh
            · split at hh
              · cases hh; simpa [Dict.has, Dict.get_del, hqp] using hp
              · cases hh
        · exact hp
    | remove q =>
      have hs : (InstOp.step (InstOp.run ops) (.remove q)).dp = (InstOp.run ops).dp := by
        simp only [InstOp.step, InstOp.apply, InstallDB.remove]
        cases (InstOp.run ops).d.get q <;> rfl
      rw [hs] at hp
      exact ⟨fun e => hc2 q (Or.inl rfl) (e ▸ ih' p hp), ih' p hp⟩
    | purge q =>
      have hs : (InstOp.step (InstOp.run ops) (.purge q)).dp = (InstOp.run ops).dp := by
        simp only [InstOp.step, InstOp.apply, InstallDB.purge]
        cases (InstOp.run ops).d.has q <;> rfl
      rw [hs] at hp
      exact ⟨fun e => hc2 q (Or.inr rfl) (e ▸ ih' p hp), ih' p hp⟩

/-- C22, for every history: a package whose configuration is pending is never lost from the pending list,
and clearing it succeeds and makes it an ordinary installed package.  Missing for the full statement: stale entries
(`pending_exact_refuted`, `pending_list_fails`). -/
theorem pending_complete_partial (ops : List (InstOp α ν)) (p : α) (h : Pending ops p) :
    p ∈ (InstOp.run ops).dp.keys ∧ (∀ l, (InstOp.run ops).listPending = .ok l → p ∈ l.keys) ∧
    ∃ s, (InstOp.run ops).clearPending p = .ok s ∧ s.isInstalled p = true ∧ p ∉ s.dp.keys := by
  obtain ⟨⟨x, hx, hst⟩, hdp⟩ := (inv_run ops p).pend h
  have hi := (isInstalled_iff (InstOp.run ops) p).mpr ⟨x, hx, by simp [InstallDB.counts, hst]⟩
  have hk : p ∈ (InstOp.run ops).dp.keys := (Dict.mem_keys _ _).mpr hdp
  refine ⟨hk, fun l hl => ?_, _, by simp [InstallDB.clearPending, hx, hi, hst, hdp]; rfl, ?_, ?_⟩
  · rw [collect_ok _ _ _ hl]; exact hk
  · simp [InstallDB.isInstalled, Dict.get_put, InstallDB.counts]
  · rw [Dict.mem_keys]; simp [Dict.get_del]

/-- C22 for histories in which no package is removed or purged while its configuration is pending: the list is
exact and every listed package can be cleared.  Missing for the full statement: the excluded histories, for which it is false. -/
theorem pending_exact_partial (ops : List (InstOp α ν)) (hc : ConfiguredBeforeRemoval ops) :
    ∃ l, (InstOp.run ops).listPending = .ok l ∧ l.keys.Nodup ∧
      (∀ p, p ∈ l.keys ↔ Pending ops p) ∧ ∀ p ∈ l.keys, ∃ s, (InstOp.run ops).clearPending p = .ok s := by
  have hpend : ∀ p ∈ (InstOp.run ops).dp.keys, Pending ops p :=
    fun p hp => dp_exact ops hc p ((Dict.mem_keys _ _).mp hp)
  obtain ⟨l, hl⟩ := collect_total (InstOp.run ops) (InstOp.run ops).dp.keys (fun p hp => by
    obtain ⟨⟨x, hx, _⟩, _⟩ := (inv_run ops p).pend (hpend p hp)
    simp [hx])
  have hk := collect_ok _ _ _ hl
  refine ⟨l, hl, by rw [hk]; exact (dict_uniq_run ops).2, fun p => ?_, fun p hp => ?_⟩
  · rw [hk]
    exact ⟨hpend p, fun h => (pending_complete_partial ops p h).1⟩
  · obtain ⟨_, _, s, hs, _⟩ := pending_complete_partial ops p (hpend p (hk ▸ hp))
    exact ⟨s, hs⟩

/-! ## Non-vacuity -/
section Examples

def opsInst : List (InstOp Nat Nat) := [.install 1 7 true, .install 2 8 false, .remove 2, .install 2 9 true, .clear 1]

example : (InstOp.run opsInst).isInstalled 2 = true := by rfl
example : (InstOp.run opsInst).getVersion 2 = .ok 9 := by rfl
example : (InstOp.run opsInst).listPending = .ok [(2, ⟨.ip, 9⟩)] := by rfl
example : Installed opsInst 2 := (is_installed_iff _ _).mp rfl
example : InstalledAs opsInst 2 9 := (recorded_version _ _ _ ((is_installed_iff _ _).mp rfl)).mp rfl
example : Pending opsInst 2 := (inv_run opsInst 2).ip ⟨.ip, 9⟩ rfl rfl
example : ¬ Installed opsInst 3 := fun h => by
  have := (is_installed_iff _ _).mpr h
  revert this; decide

example : ConfiguredBeforeRemoval opsInst := by
  rintro pre p post (h | h)
  · unfold opsInst at h
    match pre, h with
    | [], h => simp at h
    | [_], h => simp at h
    | [_, _], h =>
      simp at h; obtain ⟨rfl, rfl, rfl, _⟩ := h
      intro hp
      obtain ⟨⟨x, hx, hs⟩, _⟩ := (inv_run _ _).pend hp
      have : (InstOp.run [.install 1 7 true, .install 2 8 false] : InstallDB Nat Nat).d.get 2 = some ⟨.i, 8⟩ := by rfl
      rw [this] at hx; cases hx; cases hs
    | [_, _, _], h => simp at h
    | [_, _, _, _], h => simp at h
    | _ :: _ :: _ :: _ :: _ :: t, h => simp at h
  · unfold opsInst at h
    have : InstOp.purge p ∈ ([.install 1 7 true, .install 2 8 false, .remove 2, .install 2 9 true, .clear 1] :
      List (InstOp Nat Nat)) := by rw [h]; simp
    simp at this

end Examples

end Pisi.DB
