/-
C144: the records agree with the system after operations that fail.
C145: an operation that failed can be repeated.
-/
import Verif.Spec.InstallOp

set_option linter.unusedSectionVars false

namespace Pisi.InstallOp

open Pisi.InstallOpSpec

variable {α ν φ : Type} [DecidableEq α] [DecidableEq ν] [DecidableEq φ]

theorem upd_same {β : Type} (f : α → β) (p : α) (b : β) : upd f p b p = b := by simp [upd]

theorem upd_other {β : Type} (f : α → β) {p q : α} (b : β) (h : q ≠ p) : upd f p b q = f q := by
  simp [upd, h]

/-! ### Operations touch one package only -/

theorem OnlyAt.refl (p : α) (s : Sys α ν φ) : OnlyAt p s s := fun _ _ => ⟨rfl, rfl, rfl, rfl⟩

theorem onlyAt_trans {p : α} {s t u : Sys α ν φ} (h1 : OnlyAt p s t) (h2 : OnlyAt p t u) :
    OnlyAt p s u := by
  intro q hq
  obtain ⟨a1, a2, a3, a4⟩ := h1 q hq
  obtain ⟨b1, b2, b3, b4⟩ := h2 q hq
  exact ⟨b1.trans a1, b2.trans a2, b3.trans a3, b4.trans a4⟩

theorem onlyAt_andThen {p : α} {s : Sys α ν φ} {r : Sys α ν φ × Option Stage}
    {f : Sys α ν φ → Sys α ν φ × Option Stage} (h1 : OnlyAt p s r.1)
    (h2 : ∀ t, OnlyAt p t (f t).1) : OnlyAt p s (andThen r f).1 := by
  rcases r with ⟨t, o⟩
  cases o with
  | none => exact onlyAt_trans h1 (h2 t)
  | some e => exact h1

theorem onlyAt_preRemove (l : Luck φ) (s : Sys α ν φ) (p : α) : OnlyAt p s (preRemove l s p).1 := by
  intro q hq
  unfold preRemove
  cases l.comar <;> cases l.preCalls <;> cases l.unregister <;> simp [upd, hq]

theorem onlyAt_checkReinstall (l : Luck φ) (s : Sys α ν φ) (p : α) :
    OnlyAt p s (checkReinstall l s p).1 := by
  unfold checkReinstall
  cases s.db p with
  | none => exact OnlyAt.refl p s
  | some x =>
    simp only []
    by_cases hi : s.info p x.1 = true
    · rw [if_pos hi]; exact onlyAt_preRemove l s p
    · rw [if_neg hi]; exact OnlyAt.refl p s

theorem onlyAt_extract (P : Pkgs α ν φ) (l : Luck φ) (s : Sys α ν φ) (p : α) (v : ν) :
    OnlyAt p s (extractInstall P l s p v).1 := by
  intro q hq
  unfold extractInstall
  cases l.extract with
  | some got => simp [upd, hq]
  | none =>
    cases s.db p with
    | none => simp [upd, hq]
    | some x =>
      simp only []
      by_cases hl : leftover P p x.1 v = []
      · rw [if_pos hl]; simp [upd, hq]
      · rw [if_neg hl]; simp [upd, hq]

theorem onlyAt_store (l : Luck φ) (s : Sys α ν φ) (p : α) (v : ν) :
    OnlyAt p s (storeFiles l s p v).1 := by
  intro q hq
  unfold storeFiles
  cases l.store <;> simp [upd, hq]

theorem onlyAt_post (P : Pkgs α ν φ) (l : Luck φ) (s : Sys α ν φ) (p : α) (v : ν) :
    OnlyAt p s (postInstall P l s p v).1 := by
  intro q hq
  unfold postInstall
  cases l.comar <;> cases l.register <;> cases l.postCalls <;> simp [upd, hq]

theorem onlyAt_record (l : Luck φ) (s : Sys α ν φ) (p : α) (v : ν) :
    OnlyAt p s (record l s p v).1 := by
  intro q hq
  unfold record
  cases l.commit <;> simp [upd, hq]

/-- An operation, however it ends, touches nothing of other packages. -/
theorem only_at (P : Pkgs α ν φ) (l : Luck φ) (s : Sys α ν φ) (o : Op α ν) :
    OnlyAt o.pkg s (step P l s o).1 := by
  cases o with
  | install p v =>
    show OnlyAt p s (install P l s p v).1
    unfold install
    cases l.checks with
    | false => exact OnlyAt.refl p s
    | true =>
      rw [if_pos rfl]
      exact onlyAt_andThen (onlyAt_checkReinstall l s p) fun t =>
        onlyAt_andThen (onlyAt_extract P l t p v) fun t =>
        onlyAt_andThen (onlyAt_store l t p v) fun t =>
        onlyAt_andThen (onlyAt_post P l t p v) fun t => onlyAt_record l t p v
  | remove p =>
    show OnlyAt p s (remove P l s p).1
    unfold remove
    cases s.db p with
    | none => exact OnlyAt.refl p s
    | some x =>
      refine onlyAt_andThen (onlyAt_preRemove l s p) fun t => ?_
      intro q hq
      by_cases hi : t.info p x.1 = true
      · cases l.commit <;> simp [upd, hq, hi]
      · cases l.commit <;> simp [upd, hq, hi]

/-! ### What an operation does, stage by stage -/

/-- Failing before anything is changed. -/
def early : List Stage := [.checks, .fileList, .preCalls, .unregister, .notInstalled]

theorem preRemove_fail {l : Luck φ} {s : Sys α ν φ} {p : α} {e : Stage}
    (h : (preRemove l s p).2 = some e) :
    (preRemove l s p).1 = s ∧ (e = .preCalls ∨ e = .unregister) := by
  unfold preRemove at h ⊢
  cases hc : l.comar <;> cases hp : l.preCalls <;> cases hu : l.unregister <;>
    simp [hc, hp, hu] at h ⊢ <;>
    first
      | exact Or.inl h.symm
      | exact Or.inr h.symm

/-- The state after a removal was prepared. -/
def prepared (l : Luck φ) (s : Sys α ν φ) (p : α) : Sys α ν φ :=
  if l.comar then { s with reg := upd s.reg p none } else s

theorem preRemove_ok {l : Luck φ} {s : Sys α ν φ} {p : α} (h : (preRemove l s p).2 = none) :
    preRemove l s p = (prepared l s p, none) ∧
    (l.comar = true → l.preCalls = true ∧ l.unregister = true) := by
  unfold preRemove at h ⊢
  unfold prepared
  cases hc : l.comar <;> cases hp : l.preCalls <;> cases hu : l.unregister <;>
    simp [hc, hp, hu] at h ⊢

/-- The state after the checks of an installation. -/
def checked (l : Luck φ) (s : Sys α ν φ) (p : α) : Sys α ν φ :=
  match s.db p with
  | none => s
  | some _ => prepared l s p

theorem checked_db (l : Luck φ) (s : Sys α ν φ) (p q : α) :
    (checked l s p).db q = s.db q ∧ (checked l s p).info q = s.info q ∧
    (checked l s p).disk q = s.disk q := by
  unfold checked prepared
  cases s.db p <;> cases l.comar <;> exact ⟨rfl, rfl, rfl⟩

theorem checkReinstall_fail {l : Luck φ} {s : Sys α ν φ} {p : α} {e : Stage}
    (h : (checkReinstall l s p).2 = some e) : (checkReinstall l s p).1 = s ∧ e ∈ early := by
  unfold checkReinstall at h ⊢
  cases hd : s.db p with
  | none => rw [hd] at h; cases h
  | some x =>
    rw [hd] at h
    simp only [] at h ⊢
    by_cases hi : s.info p x.1 = true
    · rw [if_pos hi] at h ⊢
      obtain ⟨h1, h2⟩ := preRemove_fail h
      refine ⟨h1, ?_⟩
      rcases h2 with rfl | rfl <;> simp [early]
    · rw [if_neg hi] at h ⊢
      simp only [Option.some.injEq] at h
      subst h
      exact ⟨rfl, by simp [early]⟩

theorem checkReinstall_ok {l : Luck φ} {s : Sys α ν φ} {p : α}
    (h : (checkReinstall l s p).2 = none) :
    checkReinstall l s p = (checked l s p, none) ∧
    (∀ x, s.db p = some x → s.info p x.1 = true) := by
  unfold checkReinstall at h ⊢
  unfold checked
  cases hd : s.db p with
  | none => exact ⟨rfl, fun x hx => by cases hx⟩
  | some x =>
    rw [hd] at h
    simp only [] at h ⊢
    by_cases hi : s.info p x.1 = true
    · rw [if_pos hi] at h ⊢
      refine ⟨(preRemove_ok h).1, ?_⟩
      intro y hy
      cases hy
      exact hi
    · rw [if_neg hi] at h
      cases h

/-- Every way in which an installation can end. -/
theorem install_cases (P : Pkgs α ν φ) (l : Luck φ) (s : Sys α ν φ) (p : α) (v : ν) :
    (∃ e ∈ early, install P l s p v = (s, some e)) ∨
    (l.checks = true ∧ (∀ x, s.db p = some x → s.info p x.1 = true) ∧
      checkReinstall l s p = (checked l s p, none) ∧
      install P l s p v = andThen (extractInstall P l (checked l s p) p v) fun s =>
        andThen (storeFiles l s p v) fun s =>
        andThen (postInstall P l s p v) fun s => record l s p v) := by
  unfold install
  cases l.checks with
  | false => exact Or.inl ⟨.checks, by simp [early], rfl⟩
  | true =>
    rw [if_pos rfl]
    rcases hr : checkReinstall l s p with ⟨t, o⟩
    cases o with
    | some e =>
      left
      have := checkReinstall_fail (l := l) (s := s) (p := p) (e := e) (by rw [hr])
      rw [hr] at this
      refine ⟨e, this.2, ?_⟩
      have h1 : t = s := this.1
      subst h1
      rfl
    | none =>
      right
      obtain ⟨h1, h2⟩ := checkReinstall_ok (l := l) (s := s) (p := p) (by rw [hr])
      rw [hr] at h1
      refine ⟨rfl, h2, h1, ?_⟩
      cases h1
      rfl

/-- Every way in which an installation can end that got through its checks. -/
theorem install_late (P : Pkgs α ν φ) (l : Luck φ) (s : Sys α ν φ) (p : α) (v : ν)
    {r : Sys α ν φ × Option Stage}
    (hr : r = andThen (extractInstall P l (checked l s p) p v) fun s =>
        andThen (storeFiles l s p v) fun s =>
        andThen (postInstall P l s p v) fun s => record l s p v) :
    (∃ got, l.extract = some got ∧ r.2 = some .extract ∧ r.1.db = s.db ∧ r.1.info = s.info ∧
      ∀ x, r.1.disk p x = (s.disk p x || decide (x ∈ got ∧ x ∈ P.files p v))) ∨
    (l.extract = none ∧ (∀ x, r.1.disk p x = (s.disk p x || decide (x ∈ P.files p v))) ∧
      ((∃ v0 b, s.db p = some (v0, b) ∧ leftover P p v0 v ≠ [] ∧ r.2 = some .leftover ∧
          r.1.db = s.db ∧ r.1.info = s.info) ∨
       ((∀ v0 b, s.db p = some (v0, b) → leftover P p v0 v = []) ∧
        ((l.store = false ∧ r.2 = some .store ∧ r.1.db = s.db ∧
            ∀ w, r.1.info p w = (s.info p w && !decide ((s.db p).map Prod.fst = some w))) ∨
         (l.store = true ∧
            (∀ w, r.1.info p w =
              (decide (w = v) || (s.info p w && !decide ((s.db p).map Prod.fst = some w)))) ∧
            ((∃ e, r.2 = some e ∧ (e = .register ∨ e = .postCalls ∨ e = .commit) ∧
                r.1.db = s.db ∧ ¬ (l.commit = true ∧ (l.comar = true → l.register = true ∧ l.postCalls = true))) ∨
             (r.2 = none ∧ r.1.db = upd s.db p (some (v, !l.comar)) ∧ l.commit = true ∧
                (l.comar = true → l.register = true ∧ l.postCalls = true ∧
                  r.1.reg p = if P.scripts p v then some v else (checked l s p).reg p)))))))) := by
  subst hr
  obtain ⟨c1, c2, c3⟩ := checked_db l s p p
  have c1' : (checked l s p).db = s.db := by funext q; exact (checked_db l s p q).1
  have c2' : (checked l s p).info = s.info := by funext q; exact (checked_db l s p q).2.1
  cases hx : l.extract with
  | some got =>
    left
    refine ⟨got, rfl, ?_⟩
    simp only [extractInstall, hx, andThen, upd, c1', c2', c3]
    simp
  | none =>
    right
    refine ⟨rfl, ?_⟩
    cases hd : s.db p with
    | none =>
      have e1 : extractInstall P l (checked l s p) p v =
          ({ checked l s p with
              disk := upd (checked l s p).disk p
                (fun x => (checked l s p).disk p x || decide (x ∈ P.files p v)) }, none) := by
        simp only [extractInstall, hx, c1, hd]
      rw [e1]
      cases hst : l.store with
      | false =>
        simp only [andThen, storeFiles, c1, hd, hst]
        refine ⟨by simp [upd, c3], Or.inr ⟨by simp, Or.inl ⟨trivial, rfl, c1', ?_⟩⟩⟩
        intro w; simp [upd, c2]
      | true =>
        cases hco : l.comar <;> cases hre : l.register <;> cases hpo : l.postCalls <;>
          cases hcm : l.commit <;>
          simp [andThen, storeFiles, postInstall, record, c1, c1', c2, c3, hd, hst, hco, hre, hpo, hcm, upd]
    | some x =>
      obtain ⟨v0, b0⟩ := x
      by_cases hl : leftover P p v0 v = []
      · have e1 : extractInstall P l (checked l s p) p v =
          ({ checked l s p with
              disk := upd (checked l s p).disk p
                (fun x => (checked l s p).disk p x || decide (x ∈ P.files p v)) }, none) := by
          simp only [extractInstall, hx, c1, hd, hl, if_true]
        rw [e1]
        cases hst : l.store with
        | false =>
          simp only [andThen, storeFiles, c1, hd, hst]
          refine ⟨by simp [upd, c3], Or.inr ⟨?_, Or.inl ⟨trivial, rfl, c1', ?_⟩⟩⟩
          · intro w b h; cases h; exact hl
          · intro w
            by_cases hw : w = v0
            · subst hw; simp [upd]
            · have : ¬ v0 = w := fun h => hw h.symm
              simp [upd, c2, hw, this]
        | true =>
          refine ⟨?_, Or.inr ⟨?_, Or.inr ⟨rfl, ?_, ?_⟩⟩⟩
          · intro y
            cases hco : l.comar <;> cases hre : l.register <;> cases hpo : l.postCalls <;>
              cases hcm : l.commit <;>
              simp [andThen, storeFiles, postInstall, record, c1, c3, hd, hst, hco, hre, hpo, hcm, upd]
          · intro w b h; cases h; exact hl
          · intro w
            have hw : (upd (upd ((checked l s p).info p) v0 false) v true) w =
                (decide (w = v) || (s.info p w && !decide ((some (v0, b0)).map Prod.fst = some w))) := by
              by_cases hwv : w = v
              · simp [upd, hwv]
              · by_cases hw : w = v0
                · subst hw; simp [upd, hwv]
                · have : ¬ v0 = w := fun h => hw h.symm
                  simp [upd, c2, hw, hwv, this]
            rw [← hw]
            cases hco : l.comar <;> cases hre : l.register <;> cases hpo : l.postCalls <;>
              cases hcm : l.commit <;>
              simp [andThen, storeFiles, postInstall, record, c1, hd, hst, hco, hre, hpo, hcm, upd]
          · cases hco : l.comar <;> cases hre : l.register <;> cases hpo : l.postCalls <;>
              cases hcm : l.commit <;>
              simp [andThen, storeFiles, postInstall, record, c1, c1', hd, hst, hco, hre, hpo, hcm, upd]
      · have e1 : extractInstall P l (checked l s p) p v =
          ({ checked l s p with
              disk := upd (checked l s p).disk p
                (fun x => (checked l s p).disk p x || decide (x ∈ P.files p v)) }, some .leftover) := by
          simp only [extractInstall, hx, c1, hd, hl, if_false]
        rw [e1]
        simp only [andThen]
        exact ⟨by simp [upd, c3], Or.inl ⟨v0, b0, rfl, hl, trivial, c1', c2'⟩⟩

/-! ### Removal -/

/-- Every way in which a removal can end. -/
theorem remove_cases (P : Pkgs α ν φ) (l : Luck φ) (s : Sys α ν φ) (p : α) :
    (∃ e ∈ early, remove P l s p = (s, some e)) ∨
    (∃ v0 b, s.db p = some (v0, b) ∧
      (∀ x, (remove P l s p).1.disk p x =
        (s.disk p x && !(s.info p v0 && decide (x ∈ P.files p v0)))) ∧
      (remove P l s p).1.reg = (prepared l s p).reg ∧
      ((l.commit = false ∧ (remove P l s p).2 = some .commit ∧ (remove P l s p).1.db = s.db ∧
          (remove P l s p).1.info = s.info) ∨
       (l.commit = true ∧ (remove P l s p).2 = none ∧ (remove P l s p).1.db = upd s.db p none ∧
          (remove P l s p).1.info = upd s.info p (upd (s.info p) v0 false)))) := by
  unfold remove
  cases hd : s.db p with
  | none => exact Or.inl ⟨.notInstalled, by simp [early], rfl⟩
  | some x =>
    obtain ⟨v0, b⟩ := x
    simp only []
    cases hr : (preRemove l s p).2 with
    | some e =>
      left
      obtain ⟨h1, h2⟩ := preRemove_fail hr
      refine ⟨e, by rcases h2 with rfl | rfl <;> simp [early], ?_⟩
      rcases hp : preRemove l s p with ⟨t, o⟩
      rw [hp] at hr h1
      simp only [] at hr h1
      subst hr; subst h1
      rfl
    | none =>
      right
      obtain ⟨h1, _⟩ := preRemove_ok hr
      rw [h1]
      have hp : (prepared l s p).db = s.db ∧ (prepared l s p).info = s.info ∧
          (prepared l s p).disk = s.disk := by
        unfold prepared; cases l.comar <;> exact ⟨rfl, rfl, rfl⟩
      refine ⟨v0, b, rfl, ?_⟩
      cases hi : s.info p v0 <;> cases hc : l.commit <;>
        simp [andThen, hp.1, hp.2.1, hp.2.2, hi, upd]

/-! ### C144 -/

/-- A failed operation leaves the records of all packages as they were. -/
theorem fail_keeps_db (P : Pkgs α ν φ) (l : Luck φ) (s : Sys α ν φ) (o : Op α ν)
    (h : (step P l s o).2 ≠ none) : (step P l s o).1.db = s.db := by
  cases o with
  | install p v =>
    simp only [step] at h ⊢
    rcases install_cases P l s p v with ⟨e, _, h1⟩ | ⟨_, _, _, h1⟩
    · rw [h1]
    · rcases install_late P l s p v h1 with ⟨_, _, _, h2, _⟩ | ⟨_, _, h2 | ⟨_, h2 | ⟨_, _, h2 | h2⟩⟩⟩
      · exact h2
      · obtain ⟨_, _, _, _, _, h3, _⟩ := h2; exact h3
      · exact h2.2.2.1
      · obtain ⟨_, _, _, h3, _⟩ := h2; exact h3
      · exact absurd h2.1 h
  | remove p =>
    simp only [step] at h ⊢
    rcases remove_cases P l s p with ⟨e, _, h1⟩ | ⟨_, _, _, _, _, h1 | h1⟩
    · rw [h1]
    · exact h1.2.2.1
    · exact absurd h1.2.1 h

/-- An operation that fails in its checks or in the calls before a removal
leaves everything as it was. -/
theorem fail_early (P : Pkgs α ν φ) (l : Luck φ) (s : Sys α ν φ) (o : Op α ν) (e : Stage)
    (h : (step P l s o).2 = some e)
    (he : e = .checks ∨ e = .fileList ∨ e = .preCalls ∨ e = .unregister ∨ e = .notInstalled) :
    (step P l s o).1 = s := by
  cases o with
  | install p v =>
    simp only [step] at h ⊢
    rcases install_cases P l s p v with ⟨e, _, h1⟩ | ⟨_, _, _, h1⟩
    · rw [h1]
    · exfalso
      rcases install_late P l s p v h1 with ⟨_, _, h2, _⟩ | ⟨_, _, h2 | ⟨_, h2 | ⟨_, _, h2 | h2⟩⟩⟩
      · rw [h] at h2; simp at h2; subst h2; simp at he
      · obtain ⟨_, _, _, _, h2, _, _⟩ := h2
        rw [h] at h2; simp at h2; subst h2; simp at he
      · obtain ⟨_, h2, _⟩ := h2
        rw [h] at h2; simp at h2; subst h2; simp at he
      · obtain ⟨e', h2, h3, _⟩ := h2
        rw [h] at h2; simp at h2; subst h2
        rcases h3 with rfl | rfl | rfl <;> simp at he
      · rw [h] at h2; cases h2.1
  | remove p =>
    simp only [step] at h ⊢
    rcases remove_cases P l s p with ⟨e, _, h1⟩ | ⟨_, _, _, _, _, h1 | h1⟩
    · rw [h1]
    · rw [h] at h1
      have := h1.2.1
      simp at this
      subst this
      simp at he
    · rw [h] at h1; cases h1.2.1

/-- Agreement about a package depends on nothing else. -/
theorem agrees_frame {P : Pkgs α ν φ} {s t : Sys α ν φ} {p q : α} (h : OnlyAt p s t) (hq : q ≠ p)
    (ha : Agrees P s q) : Agrees P t q := by
  obtain ⟨h1, h2, h3, _⟩ := h q hq
  unfold Agrees at ha ⊢
  rw [h1, h2, h3]
  exact ha

theorem registered_frame {P : Pkgs α ν φ} {s t : Sys α ν φ} {p q : α} (h : OnlyAt p s t)
    (hq : q ≠ p) (ha : Registered P s q) : Registered P t q := by
  obtain ⟨h1, _, _, h4⟩ := h q hq
  unfold Registered at ha ⊢
  rw [h1, h4]
  exact ha

/-- The files of the old version that the new one does not have. -/
theorem leftover_nil {P : Pkgs α ν φ} {p : α} {v0 v : ν} :
    leftover P p v0 v = [] ↔ ∀ x ∈ P.files p v0, x ∈ P.files p v := by
  unfold leftover
  rw [List.filter_eq_nil_iff]
  simp

/-- A successful operation establishes agreement from agreement. -/
theorem success_agrees (P : Pkgs α ν φ) (l : Luck φ) (s : Sys α ν φ) (o : Op α ν)
    (ha : Agrees P s o.pkg) (h : (step P l s o).2 = none) :
    Agrees P (step P l s o).1 o.pkg := by
  cases o with
  | install p v =>
    simp only [step, Op.pkg] at h ha ⊢
    rcases install_cases P l s p v with ⟨e, _, h1⟩ | ⟨_, hinfo, _, h1⟩
    · rw [h1] at h; cases h
    · rcases install_late P l s p v h1 with ⟨_, _, h2, _⟩ | ⟨_, hdisk, h2 | ⟨hl, h2 | ⟨_, hi, h2 | h2⟩⟩⟩
      · rw [h] at h2; cases h2
      · obtain ⟨_, _, _, _, h2, _⟩ := h2; rw [h] at h2; cases h2
      · rw [h] at h2; cases h2.2.1
      · obtain ⟨_, h2, _⟩ := h2; rw [h] at h2; cases h2
      · have hdb : (install P l s p v).1.db p = some (v, !l.comar) := by
          rw [h2.2.1]; simp [upd]
        unfold Agrees
        rw [hdb]
        simp only []
        unfold Agrees at ha
        cases hd : s.db p with
        | none =>
          rw [hd] at ha
          refine ⟨fun w => ?_, fun x => ?_⟩
          · rw [hi w]; simp [ha.1 w]
          · rw [hdisk x]; simp [ha.2 x]
        | some y =>
          obtain ⟨v0, b⟩ := y
          rw [hd] at ha
          have hsub := leftover_nil.1 (hl v0 b hd)
          refine ⟨fun w => ?_, fun x => ?_⟩
          · rw [hi w, hd]
            by_cases hwv : w = v
            · simp [hwv]
            · simp only [hwv, decide_false, Bool.false_or, Bool.and_eq_true, iff_false]
              rintro ⟨h3, h4⟩
              have := (ha.1 w).1 h3
              subst this
              simp at h4
          · rw [hdisk x]
            simp only [Bool.or_eq_true, decide_eq_true_eq]
            constructor
            · rintro (h3 | h3)
              · exact hsub x ((ha.2 x).1 h3)
              · exact h3
            · exact Or.inr
  | remove p =>
    simp only [step, Op.pkg] at h ha ⊢
    rcases remove_cases P l s p with ⟨e, _, h1⟩ | ⟨v0, b, hd, hdisk, _, h1 | h1⟩
    · rw [h1] at h; cases h
    · rw [h] at h1; cases h1.2.1
    · have hdb : (remove P l s p).1.db p = none := by rw [h1.2.2.1]; simp [upd]
      unfold Agrees at ha ⊢
      rw [hdb]
      rw [hd] at ha
      simp only [] at ha ⊢
      have hv : s.info p v0 = true := (ha.1 v0).2 rfl
      refine ⟨fun w => ?_, fun x => ?_⟩
      · rw [h1.2.2.2]
        by_cases hw : w = v0
        · simp [upd, hw]
        · simp only [upd, if_true, hw, if_false]
          have := ha.1 w
          cases hi : s.info p w with
          | false => rfl
          | true => exact absurd (this.1 hi) hw
      · rw [hdisk x, hv]
        have := ha.2 x
        cases hx : s.disk p x with
        | false => simp
        | true => simp [this.1 hx]

/-- The operations of a history on a package failed, if at all, before they
changed anything. -/
def Fine (P : Pkgs α ν φ) (p : α) : Sys α ν φ → List (Op α ν × Luck φ) → Prop
  | _, [] => True
  | s, (o, l) :: h =>
    (o.pkg = p → ∀ e, (step P l s o).2 = some e →
      e = .checks ∨ e = .fileList ∨ e = .preCalls ∨ e = .unregister ∨ e = .notInstalled) ∧
    Fine P p (step P l s o).1 h

/-- **C144, full statement**: after every history of operations, successful or
not, the databases, the stored file lists and the disk agree. -/
def AgreesFull : Prop :=
  ∀ (P : Pkgs Nat Nat Nat) (h : List (Op Nat Nat × Luck Nat)) (p : Nat), Agrees P (run P empty h) p

theorem run_agrees (P : Pkgs α ν φ) (p : α) (h : List (Op α ν × Luck φ)) :
    ∀ s : Sys α ν φ, Agrees P s p → Fine P p s h → Agrees P (run P s h) p := by
  induction h with
  | nil => intro s ha _; exact ha
  | cons ol h ih =>
    intro s ha hf
    obtain ⟨o, l⟩ := ol
    obtain ⟨hf1, hf2⟩ := hf
    show Agrees P (run P (step P l s o).1 h) p
    refine ih _ ?_ hf2
    by_cases hp : o.pkg = p
    · cases hr : (step P l s o).2 with
      | none =>
        have := success_agrees P l s o (by rw [hp]; exact ha) hr
        rwa [hp] at this
      | some e =>
        rw [fail_early P l s o e hr (hf1 hp e hr)]
        exact ha
    · exact agrees_frame (only_at P l s o) (fun h => hp h.symm) ha

/-- **C144, partial.**  After every history of operations, the databases, the
stored file lists and the disk agree about every package whose own operations
succeeded or failed before they changed anything, however the operations on
other packages ended. -/
theorem agrees_partial (P : Pkgs α ν φ) (p : α) (h : List (Op α ν × Luck φ))
    (hf : Fine P p empty h) : Agrees P (run P empty h) p :=
  run_agrees P p h empty ⟨fun _ => rfl, fun _ => rfl⟩ hf

theorem step_registered (P : Pkgs α ν φ) (l : Luck φ) (s : Sys α ν φ) (o : Op α ν)
    (hc : l.comar = true) (ha : Registered P s o.pkg) (h : (step P l s o).2 = none) :
    Registered P (step P l s o).1 o.pkg := by
  cases o with
  | install p v =>
    simp only [step, Op.pkg] at h ha ⊢
    rcases install_cases P l s p v with ⟨e, _, h1⟩ | ⟨_, _, _, h1⟩
    · rw [h1] at h; cases h
    · rcases install_late P l s p v h1 with ⟨_, _, h2, _⟩ | ⟨_, _, h2 | ⟨_, h2 | ⟨_, _, h2 | h2⟩⟩⟩
      · rw [h] at h2; cases h2
      · obtain ⟨_, _, _, _, h2, _⟩ := h2; rw [h] at h2; cases h2
      · rw [h] at h2; cases h2.2.1
      · obtain ⟨_, h2, _⟩ := h2; rw [h] at h2; cases h2
      · obtain ⟨_, h3, _, h4⟩ := h2
        obtain ⟨_, _, h5⟩ := h4 hc
        unfold Registered
        rw [h3]
        simp only [upd, if_true, hc]
        refine ⟨rfl, ?_⟩
        rw [h5]
        have hn : (checked l s p).reg p = none := by
          unfold checked
          cases hd : s.db p with
          | none =>
            unfold Registered at ha
            rw [hd] at ha
            exact ha
          | some x => simp [prepared, hc, upd]
        rw [hn]
  | remove p =>
    simp only [step, Op.pkg] at h ha ⊢
    rcases remove_cases P l s p with ⟨e, _, h1⟩ | ⟨v0, b, _, _, hr, h1 | h1⟩
    · rw [h1] at h; cases h
    · rw [h] at h1; cases h1.2.1
    · unfold Registered
      rw [h1.2.2.1, hr]
      simp [upd, prepared, hc]

/-- When COMAR is used throughout, it knows after every history exactly the
scripts of the recorded version of every package whose own operations
succeeded or failed before they changed anything. -/
theorem registered_partial (P : Pkgs α ν φ) (p : α) (h : List (Op α ν × Luck φ))
    (hc : ∀ x ∈ h, x.2.comar = true) (hf : Fine P p empty h) : Registered P (run P empty h) p := by
  have key : ∀ (h : List (Op α ν × Luck φ)) (s : Sys α ν φ), (∀ x ∈ h, x.2.comar = true) →
      Registered P s p → Fine P p s h → Registered P (run P s h) p := by
    intro h
    induction h with
    | nil => intro s _ ha _; exact ha
    | cons ol h ih =>
      intro s hc ha hf
      obtain ⟨o, l⟩ := ol
      obtain ⟨hf1, hf2⟩ := hf
      show Registered P (run P (step P l s o).1 h) p
      refine ih _ (fun x hx => hc x (List.mem_cons_of_mem _ hx)) ?_ hf2
      by_cases hp : o.pkg = p
      · cases hr : (step P l s o).2 with
        | none =>
          have := step_registered P l s o (hc _ List.mem_cons_self) (by rw [hp]; exact ha) hr
          rwa [hp] at this
        | some e =>
          rw [fail_early P l s o e hr (hf1 hp e hr)]
          exact ha
      · exact registered_frame (only_at P l s o) (fun h => hp h.symm) ha
  exact key h empty hc rfl hf

/-! ### C145 -/

/-- **C145, full statement**: from a state that agrees, an operation that
failed succeeds when it is repeated and nothing goes wrong, and the state
agrees then. -/
def RepeatFull : Prop :=
  ∀ (P : Pkgs Nat Nat Nat) (h : List (Op Nat Nat × Luck Nat)) (o : Op Nat Nat) (l l' : Luck Nat),
    Agrees P (run P empty h) o.pkg → o ≠ .remove o.pkg ∨ (run P empty h).db o.pkg ≠ none →
    (step P l (run P empty h) o).2 ≠ none → Lucky l' →
    (step P l' (step P l (run P empty h) o).1 o).2 = none ∧
    Agrees P (step P l' (step P l (run P empty h) o).1 o).1 o.pkg

/-- An installation in which nothing goes wrong succeeds if the package is not
recorded, or its file list is stored and no file is dropped. -/
theorem lucky_install (P : Pkgs α ν φ) (l : Luck φ) (s : Sys α ν φ) (p : α) (v : ν) (hl : Lucky l)
    (h : ∀ v0 b, s.db p = some (v0, b) → s.info p v0 = true ∧ ∀ x ∈ P.files p v0, x ∈ P.files p v) :
    (install P l s p v).2 = none := by
  obtain ⟨l1, l2, l3, l4, l5, l6, l7, l8⟩ := hl
  have hnot : ¬ ∃ e, (checkReinstall l s p).2 = some e := by
    rintro ⟨e, he⟩
    unfold checkReinstall at he
    cases hd : s.db p with
    | none => rw [hd] at he; cases he
    | some x =>
      obtain ⟨v0, b⟩ := x
      rw [hd] at he
      simp only [(h v0 b hd).1, if_true] at he
      unfold preRemove at he
      cases hc : l.comar <;> simp [hc, l2, l3] at he
  have hn : (checkReinstall l s p).2 = none := by
    cases hr : (checkReinstall l s p).2 with
    | none => rfl
    | some e => exact absurd ⟨e, hr⟩ hnot
  obtain ⟨c1, _⟩ := checkReinstall_ok hn
  have h1 : install P l s p v = andThen (extractInstall P l (checked l s p) p v) fun s =>
        andThen (storeFiles l s p v) fun s =>
        andThen (postInstall P l s p v) fun s => record l s p v := by
    unfold install
    rw [l1, if_pos rfl, c1]
    rfl
  rcases install_late P l s p v h1 with ⟨_, h2, _⟩ | ⟨_, _, h2 | ⟨_, h2 | ⟨_, _, h2 | h2⟩⟩⟩
  · rw [l4] at h2; cases h2
  · obtain ⟨v0, b, hd, h3, _⟩ := h2
    exact absurd (leftover_nil.2 (h v0 b hd).2) h3
  · rw [l5] at h2; cases h2.1
  · obtain ⟨_, _, _, _, h3⟩ := h2
    exact absurd ⟨l8, fun _ => ⟨l6, l7⟩⟩ h3
  · exact h2.1

/-- **C145, partial, installing.**  An installation that failed, wherever it
did, succeeds when it is repeated and nothing goes wrong, and then everything
agrees, if the package was not installed before; or if no file of the old
version is dropped and either it failed before the stored file list of the old
version was deleted, or it is the same version again and storing the file list
did not fail. -/
theorem repeat_install_partial (P : Pkgs α ν φ) (s : Sys α ν φ) (p : α) (v : ν) (l l' : Luck φ)
    (e : Stage) (ha : Agrees P s p) (he : (install P l s p v).2 = some e) (hl : Lucky l')
    (hcase : s.db p = none ∨ ∃ v0 b, s.db p = some (v0, b) ∧
      (∀ x ∈ P.files p v0, x ∈ P.files p v) ∧
      (e ∈ [Stage.checks, .fileList, .preCalls, .unregister, .extract] ∨ (v = v0 ∧ e ≠ .store))) :
    (install P l' (install P l s p v).1 p v).2 = none ∧
    Agrees P (install P l' (install P l s p v).1 p v).1 p := by
  -- after the failed attempt the record is the same, the file list of it is
  -- stored, and the disk has no files but those of the old and the new version
  have hdb : (install P l s p v).1.db p = s.db p := by
    have := fail_keeps_db P l s (.install p v) (by simp only [step]; rw [he]; simp)
    simp only [step] at this
    rw [this]
  have hdisk : ∀ x, (install P l s p v).1.disk p x = true → s.disk p x = true ∨ x ∈ P.files p v := by
    intro x hx
    rcases install_cases P l s p v with ⟨e', _, h1⟩ | ⟨_, _, _, h1⟩
    · rw [h1] at hx; exact Or.inl hx
    · rcases install_late P l s p v h1 with ⟨_, _, _, _, _, h2⟩ | ⟨_, h2, _⟩
      · rw [h2 x] at hx
        simp only [Bool.or_eq_true, decide_eq_true_eq] at hx
        rcases hx with hx | hx
        · exact Or.inl hx
        · exact Or.inr hx.2
      · rw [h2 x] at hx
        simpa using hx
  have hinfo : ∀ w, (install P l s p v).1.info p w = true → s.info p w = true ∨ w = v := by
    intro w hw
    rcases install_cases P l s p v with ⟨e', _, h1⟩ | ⟨_, _, _, h1⟩
    · rw [h1] at hw; exact Or.inl hw
    · rcases install_late P l s p v h1 with ⟨_, _, _, _, h2, _⟩ | ⟨_, _, h2 | ⟨_, h2 | ⟨_, h2, _⟩⟩⟩
      · rw [h2] at hw; exact Or.inl hw
      · obtain ⟨_, _, _, _, _, _, h2⟩ := h2; rw [h2] at hw; exact Or.inl hw
      · rw [h2.2.2.2 w] at hw
        simp only [Bool.and_eq_true] at hw
        exact Or.inl hw.1
      · rw [h2 w] at hw
        simp only [Bool.or_eq_true, decide_eq_true_eq, Bool.and_eq_true] at hw
        rcases hw with hw | hw
        · exact Or.inr hw
        · exact Or.inl hw.1
  have hold : ∀ v0 b, s.db p = some (v0, b) →
      (install P l s p v).1.info p v0 = true ∧ ∀ x ∈ P.files p v0, x ∈ P.files p v := by
    intro v0 b hd
    rcases hcase with hc | ⟨v1, b1, hd1, hsub, hstage⟩
    · rw [hd] at hc; cases hc
    · rw [hd] at hd1
      cases hd1
      refine ⟨?_, hsub⟩
      have hv0 : s.info p v0 = true := by
        unfold Agrees at ha
        rw [hd] at ha
        exact (ha.1 v0).2 rfl
      rcases install_cases P l s p v with ⟨e', _, h1⟩ | ⟨_, _, _, h1⟩
      · rw [h1]; exact hv0
      · rcases install_late P l s p v h1 with ⟨_, _, _, _, h2, _⟩ | ⟨_, _, h2 | ⟨_, h2 | ⟨_, h2, h3⟩⟩⟩
        · rw [h2]; exact hv0
        · obtain ⟨_, _, _, _, _, _, h2⟩ := h2; rw [h2]; exact hv0
        · have h3 := h2.2.1
          rw [he] at h3
          simp only [Option.some.injEq] at h3
          subst h3
          rcases hstage with h4 | h4
          · simp at h4
          · exact absurd rfl h4.2
        · rcases hstage with h4 | h4
          · rcases h3 with ⟨e', h5, h6, _⟩ | ⟨h5, _⟩
            · rw [he] at h5
              simp only [Option.some.injEq] at h5
              subst h5
              rcases h6 with rfl | rfl | rfl <;> simp at h4
            · rw [he] at h5; cases h5
          · rw [h2 v0, h4.1]; simp
  have hok : (install P l' (install P l s p v).1 p v).2 = none := by
    apply lucky_install P l' _ p v hl
    intro v0 b hd
    rw [hdb] at hd
    exact hold v0 b hd
  refine ⟨hok, ?_⟩
  rcases install_cases P l' (install P l s p v).1 p v with ⟨e', _, h1⟩ | ⟨_, _, _, h1⟩
  · rw [h1] at hok; cases hok
  · rcases install_late P l' (install P l s p v).1 p v h1 with
      ⟨_, _, h2, _⟩ | ⟨_, hdisk', h2 | ⟨_, h2 | ⟨_, hinfo', h2 | h2⟩⟩⟩
    · rw [hok] at h2; cases h2
    · obtain ⟨_, _, _, _, h2, _⟩ := h2; rw [hok] at h2; cases h2
    · rw [hok] at h2; cases h2.2.1
    · obtain ⟨_, h2, _⟩ := h2; rw [hok] at h2; cases h2
    · unfold Agrees
      rw [h2.2.1]
      simp only [upd, if_true]
      refine ⟨fun w => ?_, fun x => ?_⟩
      · rw [hinfo' w, hdb]
        simp only [Bool.or_eq_true, decide_eq_true_eq, Bool.and_eq_true, Bool.not_eq_true',
          decide_eq_false_iff_not]
        constructor
        · rintro (h3 | ⟨h3, h4⟩)
          · exact h3
          · rcases hinfo w h3 with h5 | h5
            · exfalso
              unfold Agrees at ha
              cases hd : s.db p with
              | none => rw [hd] at ha; rw [ha.1 w] at h5; cases h5
              | some y =>
                rw [hd] at ha h4
                have := (ha.1 w).1 h5
                subst this
                simp at h4
            · exact h5
        · exact Or.inl
      · rw [hdisk' x]
        simp only [Bool.or_eq_true, decide_eq_true_eq]
        constructor
        · rintro (h3 | h3)
          · rcases hdisk x h3 with h4 | h4
            · unfold Agrees at ha
              cases hd : s.db p with
              | none => rw [hd] at ha; rw [ha.2 x] at h4; cases h4
              | some y =>
                rw [hd] at ha
                exact (hold y.1 y.2 hd).2 x ((ha.2 x).1 h4)
            · exact h4
          · exact h3
        · exact Or.inr

/-- **C145, removing.**  A removal that failed, wherever it did, succeeds when
it is repeated and nothing goes wrong, and then nothing of the package is
left. -/
theorem repeat_remove (P : Pkgs α ν φ) (s : Sys α ν φ) (p : α) (l l' : Luck φ)
    (ha : Agrees P s p) (hd : s.db p ≠ none) (he : (remove P l s p).2 ≠ none) (hl : Lucky l') :
    (remove P l' (remove P l s p).1 p).2 = none ∧
    (remove P l' (remove P l s p).1 p).1.db p = none ∧
    Agrees P (remove P l' (remove P l s p).1 p).1 p := by
  obtain ⟨l1, l2, l3, l4, l5, l6, l7, l8⟩ := hl
  cases hdb : s.db p with
  | none => exact absurd hdb hd
  | some y =>
    obtain ⟨v0, b⟩ := y
    unfold Agrees at ha
    rw [hdb] at ha
    simp only [] at ha
    -- what the failed attempt left
    have hleft : (remove P l s p).1.db = s.db ∧ (remove P l s p).1.info = s.info ∧
        ∀ x, (remove P l s p).1.disk p x = true → x ∈ P.files p v0 := by
      rcases remove_cases P l s p with ⟨e, _, h1⟩ | ⟨v1, b1, hd1, hdisk, _, h1 | h1⟩
      · rw [h1]; exact ⟨rfl, rfl, fun x hx => (ha.2 x).1 hx⟩
      · refine ⟨h1.2.2.1, h1.2.2.2, fun x hx => ?_⟩
        rw [hdisk x] at hx
        simp only [Bool.and_eq_true] at hx
        exact (ha.2 x).1 hx.1
      · exact absurd h1.2.1 he
    obtain ⟨k1, k2, k3⟩ := hleft
    generalize (remove P l s p).1 = t at k1 k2 k3
    have htd : t.db p = some (v0, b) := by rw [k1]; exact hdb
    rcases remove_cases P l' t p with ⟨e, hearly, h1⟩ | ⟨v1, b1, hd1, hdisk, _, h1 | h1⟩
    · exfalso
      have hpre : (preRemove l' t p).2 = none := by
        unfold preRemove; cases l'.comar <;> simp [l2, l3]
      obtain ⟨g1, _⟩ := preRemove_ok hpre
      unfold remove at h1
      rw [htd] at h1
      simp only [] at h1
      rw [g1] at h1
      simp only [andThen, l8, if_true] at h1
      have := congrArg Prod.snd h1
      cases this
    · rw [l8] at h1; cases h1.1
    · rw [htd] at hd1
      cases hd1
      have hdn : (remove P l' t p).1.db p = none := by rw [h1.2.2.1]; simp [upd]
      refine ⟨h1.2.1, hdn, ?_⟩
      unfold Agrees
      rw [hdn]
      simp only []
      refine ⟨fun w => ?_, fun x => ?_⟩
      · rw [h1.2.2.2]
        by_cases hw : w = v0
        · simp [upd, hw]
        · simp only [upd, if_true, hw, if_false, k2]
          cases hi : s.info p w with
          | false => rfl
          | true => exact absurd ((ha.1 w).1 hi) hw
      · rw [hdisk x, k2, (ha.1 v0).2 rfl]
        cases hx : t.disk p x with
        | false => simp
        | true => simp [k3 x hx]

/-- The record and the stored file lists disagree about a package in such a way
that no installation of it can succeed. -/
def Stuck (s : Sys α ν φ) (p : α) (v0 : ν) : Prop :=
  ∃ b, s.db p = some (v0, b) ∧ s.info p v0 = false

/-- An upgrade that failed after the stored file list of the old version was
deleted leaves the package stuck. -/
theorem late_failure_stuck (P : Pkgs α ν φ) (l : Luck φ) (s : Sys α ν φ) (p : α) (v v0 : ν) (b : Bool)
    (e : Stage) (hd : s.db p = some (v0, b)) (hv : v ≠ v0) (he : (install P l s p v).2 = some e)
    (hs : e ∈ [Stage.store, .register, .postCalls, .commit]) :
    Stuck (install P l s p v).1 p v0 := by
  have hdb := fail_keeps_db P l s (.install p v) (by simp only [step]; rw [he]; simp)
  simp only [step] at hdb
  refine ⟨b, by rw [hdb]; exact hd, ?_⟩
  rcases install_cases P l s p v with ⟨e', he', h1⟩ | ⟨_, _, _, h1⟩
  · rw [h1] at he
    simp only [Option.some.injEq] at he
    subst he
    simp [early] at he'
    simp at hs
    rcases he' with rfl | rfl | rfl | rfl | rfl <;> simp at hs
  · rcases install_late P l s p v h1 with ⟨_, _, h2, _⟩ | ⟨_, _, h2 | ⟨_, h2 | ⟨_, h2, _⟩⟩⟩
    · rw [he] at h2; simp only [Option.some.injEq] at h2; subst h2; simp at hs
    · obtain ⟨_, _, _, _, h2, _⟩ := h2
      rw [he] at h2; simp only [Option.some.injEq] at h2; subst h2; simp at hs
    · rw [h2.2.2.2 v0, hd]; simp
    · rw [h2 v0, hd]
      have : ¬ v0 = v := fun h => hv h.symm
      simp [this]

/-- As long as a stuck package is not removed, every installation of it fails,
whatever happens to it and to other packages. -/
theorem stuck_forever (P : Pkgs α ν φ) (p : α) (v0 : ν) (h : List (Op α ν × Luck φ)) :
    ∀ s : Sys α ν φ, Stuck s p v0 → (∀ x ∈ h, x.1 ≠ .remove p) →
      Stuck (run P s h) p v0 ∧ ∀ (l : Luck φ) (v : ν), (install P l (run P s h) p v).2 ≠ none := by
  have hfail : ∀ (s : Sys α ν φ), Stuck s p v0 → ∀ (l : Luck φ) (v : ν),
      ∃ e, install P l s p v = (s, some e) := by
    rintro s ⟨b, hd, hi⟩ l v
    unfold install
    cases l.checks with
    | false => exact ⟨_, rfl⟩
    | true =>
      refine ⟨.fileList, ?_⟩
      rw [if_pos rfl]
      unfold checkReinstall
      rw [hd]
      simp [hi, andThen]
  induction h with
  | nil =>
    intro s hs _
    refine ⟨hs, fun l v => ?_⟩
    obtain ⟨e, he⟩ := hfail s hs l v
    show (install P l s p v).2 ≠ none
    rw [he]; simp
  | cons ol h ih =>
    intro s hs hn
    obtain ⟨o, l⟩ := ol
    have hstep : Stuck (step P l s o).1 p v0 := by
      by_cases hp : o.pkg = p
      · cases o with
        | install q v =>
          simp only [Op.pkg] at hp
          subst hp
          obtain ⟨e, he⟩ := hfail s hs l v
          simp only [step]
          rw [he]; exact hs
        | remove q =>
          simp only [Op.pkg] at hp
          subst hp
          exact absurd rfl (hn _ List.mem_cons_self)
      · obtain ⟨h1, h2, _, _⟩ := only_at P l s o p (fun h => hp h.symm)
        obtain ⟨b, hd, hi⟩ := hs
        exact ⟨b, by rw [h1]; exact hd, by rw [h2]; exact hi⟩
    exact ih _ hstep (fun x hx => hn x (List.mem_cons_of_mem _ hx))

/-- Removing a stuck package removes its record, but none of its files. -/
theorem stuck_remove (P : Pkgs α ν φ) (p : α) (v0 : ν) (s : Sys α ν φ) (l : Luck φ)
    (hs : Stuck s p v0) (h : (remove P l s p).2 = none) :
    (remove P l s p).1.db p = none ∧ (remove P l s p).1.disk p = s.disk p := by
  obtain ⟨b, hd, hi⟩ := hs
  rcases remove_cases P l s p with ⟨e, _, h1⟩ | ⟨v1, b1, hd1, hdisk, _, h1 | h1⟩
  · rw [h1] at h; cases h
  · rw [h] at h1; cases h1.2.1
  · rw [hd] at hd1
    cases hd1
    refine ⟨by rw [h1.2.2.1]; simp [upd], ?_⟩
    funext x
    rw [hdisk x, hi]
    simp

/-- An upgrade that drops a file fails, whatever happens. -/
theorem dropping_fails (P : Pkgs α ν φ) (l : Luck φ) (s : Sys α ν φ) (p : α) (v v0 : ν) (b : Bool)
    (hd : s.db p = some (v0, b)) (x : φ) (hx : x ∈ P.files p v0) (hn : x ∉ P.files p v) :
    (install P l s p v).2 ≠ none := by
  intro h
  rcases install_cases P l s p v with ⟨e', _, h1⟩ | ⟨_, _, _, h1⟩
  · rw [h1] at h; cases h
  · rcases install_late P l s p v h1 with ⟨_, _, h2, _⟩ | ⟨_, _, h2 | ⟨h2, _⟩⟩
    · rw [h] at h2; cases h2
    · obtain ⟨_, _, _, _, h2, _⟩ := h2; rw [h] at h2; cases h2
    · exact hn (leftover_nil.1 (h2 v0 b hd) x hx)

/-! ### Witnesses, and cases that meet the hypotheses -/

/-- Packages of which version `v` has the files `1` to `v`, and scripts. -/
def exPkgs : Pkgs Nat Nat Nat := ⟨fun _ v => (List.range v).map (· + 1), fun _ _ => true⟩

/-- Nothing goes wrong. -/
def exLucky : Luck Nat := ⟨true, true, true, true, none, true, true, true, true⟩

/-- The script after the installation fails. -/
def exUnlucky : Luck Nat := { exLucky with postCalls := false }

example : Lucky exLucky := by unfold Lucky; decide

/-- **C144 is false of the code**: a first installation whose script fails
leaves its files on the disk and no record of them. -/
theorem agrees_refuted : ¬ AgreesFull := by
  intro h
  have := h exPkgs [(.install 0 1, exUnlucky)] 0
  unfold Agrees at this
  have hd : (run exPkgs empty [(.install 0 1, exUnlucky)]).db 0 = none := by decide
  rw [hd] at this
  have := this.2 1
  revert this
  decide

/-- **C145 is false of the code**: when the script of an upgrade fails, the
upgrade fails ever after. -/
theorem repeat_refuted : ¬ RepeatFull := by
  intro h
  have := h exPkgs [(.install 0 1, exLucky)] (.install 0 2) exUnlucky exLucky
    (agrees_partial exPkgs 0 _ (by
      refine ⟨fun _ e he => ?_, trivial⟩
      have : (step exPkgs exLucky empty (.install 0 1)).2 = none := by decide
      rw [this] at he; cases he))
    (Or.inl (by intro h; cases h))
    (by decide) (by unfold Lucky; decide)
  have h1 := this.1
  revert h1
  decide

/-- An upgrade after which everything agrees, and one that is declined. -/
example : Fine exPkgs 0 empty
    [(.install 0 1, exLucky), (.install 1 4, exUnlucky), (.install 0 2, exLucky),
     (.install 0 2, { exLucky with checks := false })] := by
  refine ⟨?_, ?_, ?_, ?_, trivial⟩
  · intro _ e he
    have : (step exPkgs exLucky empty (.install 0 1)).2 = none := by decide
    rw [this] at he; cases he
  · intro h; cases h
  · intro _ e he
    have : (step exPkgs exLucky (run exPkgs empty [(.install 0 1, exLucky), (.install 1 4, exUnlucky)])
      (.install 0 2)).2 = none := by decide
    have he' : (step exPkgs exLucky (run exPkgs empty [(.install 0 1, exLucky), (.install 1 4, exUnlucky)])
      (.install 0 2)).2 = some e := he
    rw [this] at he'; cases he'
  · intro _ e he
    have : (step exPkgs { exLucky with checks := false } (run exPkgs empty
      [(.install 0 1, exLucky), (.install 1 4, exUnlucky), (.install 0 2, exLucky)])
      (.install 0 2)).2 = some .checks := by decide
    have he' : (step exPkgs { exLucky with checks := false } (run exPkgs empty
      [(.install 0 1, exLucky), (.install 1 4, exUnlucky), (.install 0 2, exLucky)])
      (.install 0 2)).2 = some e := he
    rw [this] at he'; cases he'; exact Or.inl rfl

/-- A first installation that fails while it unpacks. -/
example : (install exPkgs { exLucky with extract := some [1] } empty 0 3).2 = some .extract ∧
    (install exPkgs { exLucky with extract := some [1] } empty 0 3).1.disk 0 1 = true := by decide

/-- A removal that fails in the databases. -/
example : (remove exPkgs { exLucky with commit := false }
    (run exPkgs empty [(.install 0 1, exLucky)]) 0).2 = some .commit := by decide

/-- A stuck package. -/
example : (install exPkgs exUnlucky (run exPkgs empty [(.install 0 1, exLucky)]) 0 2).2
    = some .postCalls := by decide

/-- An upgrade that drops the file 2. -/
example : (install exPkgs exLucky (run exPkgs empty [(.install 0 2, exLucky)]) 0 1).2
    = some .leftover := by decide

end Pisi.InstallOp
