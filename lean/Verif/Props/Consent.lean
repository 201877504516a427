import Verif.Spec.Consent
import Mathlib.Data.List.Perm.Subperm

/-! # `--dry-run` (C174), declined questions (C175), consent to what was not asked for (C176) -/
namespace Pisi.Consent
open ConsentSpec

variable {σ α β : Type} {m : Machine σ} {o : Opts}

theorem bind_err {p : Prog σ α} {f : α → Prog σ β} {s s' : σ} {l : List Ev} {x : Err} (h : p s = (l, s', .error x)) :
    bind p f s = (l, s', .error x) := by unfold bind; rw [h]

theorem bind_ok {p : Prog σ α} {f : α → Prog σ β} {s s' : σ} {l : List Ev} {a : α} (h : p s = (l, s', .ok a)) :
    bind p f s = (l ++ (f a s').1, (f a s').2.1, (f a s').2.2) := by unfold bind; rw [h]

/-! ## The state is changed by what is done, only -/

/-- Without anything done the state stays. -/
def Still (p : Prog σ α) : Prop := ∀ s, (∀ e ∈ (p s).1, Talk e) → (p s).2.1 = s

theorem still_ret (a : α) : Still (ret a : Prog σ α) := fun _ _ => rfl
theorem still_raise (x : Err) : Still (raise x : Prog σ α) := fun _ _ => rfl
theorem still_lift (f : σ → Except Err α) : Still (lift f) := fun _ _ => rfl

theorem still_bind {p : Prog σ α} {f : α → Prog σ β} (hp : Still p) (hf : ∀ a, Still (f a)) : Still (bind p f) := by
  intro s h
  rcases hps : p s with ⟨l, s', x | a⟩
  · rw [bind_err hps] at h ⊢
    have := hp s; rw [hps] at this; exact this h
  · rw [bind_ok hps] at h ⊢
    have h1 := hp s; rw [hps] at h1
    have h2 : s' = s := h1 fun e he => h e (List.mem_append_left _ he)
    have h3 := hf a s' fun e he => h e (List.mem_append_right _ he)
    dsimp only
    rw [h3, h2]

theorem still_ite {c : Prop} [Decidable c] {p q : Prog σ α} (hp : Still p) (hq : Still q) : Still (if c then p else q) := by
  by_cases h : c
  · rw [if_pos h]; exact hp
  · rw [if_neg h]; exact hq

theorem mute (x : Str) : ¬ Talk (.did x) := fun h => h
theorem mute_updated (x : Str) : ¬ Talk (.updated x) := fun h => h
theorem mute_rebuilt : ¬ Talk .rebuilt := fun h => h

theorem still_single {e : Ev} (he : ¬ Talk e) (f : σ → σ × Except Err Unit) : Still (single e f) :=
  fun _ h => absurd (h e List.mem_cons_self) he

theorem still_each {f : Str → Prog σ Unit} (hf : ∀ x, Still (f x)) : ∀ l, Still (each f l)
  | [] => still_ret ()
  | x :: l => still_bind (hf x) fun _ => still_each hf l

theorem still_confirm (q : Ask) : Still (confirm m o q) := by
  intro s _
  unfold confirm
  by_cases h : o.yesAll = true
  · rw [if_pos h]
  · rw [if_neg h]
    cases m.answer q <;> rfl

theorem still_remove (A : List Str) (i : Bool) : Still (remove m o A i) := by
  refine still_bind (still_lift _) fun A1 => still_ite (still_ret _) (still_bind (still_ite (still_lift _) (still_ret _)) fun order =>
    still_bind (still_ite (still_confirm _) (still_ret _)) fun yes => still_ite (still_ret _) (still_ite (still_ret _)
      (still_bind (still_each (fun x => ?_) _) fun _ => still_ret _)))
  intro s h
  by_cases hi : m.installed s x = true
  · simp only [hi, if_true] at h ⊢
    exact still_single (mute _) _ s h
  · simp only [hi, Bool.false_eq_true, if_false] at h ⊢

theorem still_conflicts (order : List Str) : Still (checkConflicts m o order) :=
  still_bind (still_lift _) fun _ => still_ite (still_raise _) (still_ite (still_ret _) (still_bind (still_confirm _) fun _ =>
    still_ite (still_raise _) (still_bind (still_remove _ _) fun _ => still_ite (still_raise _) (still_ret _))))

theorem still_planInstall (A : List Str) : Still (planInstall m o A) :=
  still_bind (still_lift _) fun _ => still_bind (still_ite (still_ret _) (still_conflicts _)) fun _ => still_ret _

theorem still_planUpgrade (A : List Str) : Still (planUpgrade m o A) :=
  still_bind (still_lift _) fun _ => still_bind (still_ite (still_ret _) (still_conflicts _)) fun _ => still_ret _

theorem still_base (A : List Str) : Still (upgradeBase m o A) := still_bind (still_lift _) fun b => match b with
  | none => still_ret _
  | some _ => still_bind (still_lift _) fun _ => still_bind (still_planInstall _) fun _ => still_bind (still_lift _) fun _ =>
      still_bind (still_ite (still_ret _) (still_planUpgrade _)) fun _ => still_ret _

theorem still_pisi : Still (upgradePisi m) := fun _ h => absurd (h _ List.mem_cons_self) mute_rebuilt

theorem still_names (A : List Str) (r : Bool) : Still (installNames m o A r) :=
  still_bind (still_lift _) fun _ => still_ite (still_ret _) (still_bind (still_base _) fun _ =>
    still_bind (still_ite (still_ret _) (still_planInstall _)) fun _ => still_bind (still_lift _) fun _ =>
    still_ite (still_ret _) (still_bind (still_ite (still_confirm _) (still_ret _)) fun _ => still_ite (still_ret _)
      (still_bind (still_lift _) fun _ => still_bind (still_each (fun _ => still_single (mute _) _) _) fun _ =>
        still_bind (still_ite still_pisi (still_ret _)) fun _ => still_ret _)))

theorem still_files (l : List Str) : Still (installFiles m o l) :=
  still_ite (still_each (fun _ => still_single (mute _) _) _) (still_bind (still_lift _) fun _ => still_bind (still_lift _) fun _ =>
    still_bind (still_ite (still_ret _) (still_bind (still_confirm _) fun _ => still_ite (still_raise _)
      (still_bind (still_names _ _) fun _ => still_ret _))) fun _ => still_ite (still_ret _) (still_bind (still_lift _) fun _ =>
        still_bind (still_ite (still_ret _) (still_conflicts _)) fun _ => still_ite (still_ret _)
          (still_each (fun _ => still_single (mute _) _) _)))

theorem still_install (l : List Str) : Still (install m o l) := match l with
  | [] => still_raise _
  | _ :: _ => still_ite (still_ite (still_files _) (still_raise _)) (still_bind (still_names _ _) fun _ => still_ret _)

theorem still_upgrade (A : List Str) : Still (upgrade m o A) :=
  still_bind (still_lift _) fun _ => still_bind (still_lift _) fun _ => still_ite (still_ret _) (still_bind (still_base _) fun _ =>
    still_bind (still_ite (still_ret _) (still_planUpgrade _)) fun _ => still_bind (still_lift _) fun _ => still_ite (still_ret _)
      (still_bind (still_ite (still_confirm _) (still_ret _)) fun _ => still_ite (still_ret _) (still_bind (still_each (fun _ => still_lift _) _)
        fun _ => still_bind (still_each (fun _ => still_single (mute _) _) _) fun _ => still_ite still_pisi (still_ret _))))

/-- The events tell all: where there are only questions and answers, the state of the computer is the one before. -/
theorem run_still (c : Cmd) : Still (c.run m o) := match c with
  | .install _ => still_ite (still_ret _) (still_install _)
  | .remove _ => still_ite (still_ret _) (still_bind (still_remove _ _) fun _ => still_ret _)
  | .upgrade args => by
    show Still (bind _ fun _ => bind _ fun A => Consent.upgrade m o A)
    exact still_bind (still_ite (still_ret _) (still_bind (still_lift _) fun _ => still_each (fun _ => still_single (mute_updated _) _) _))
      fun _ => still_bind (f := fun A => Consent.upgrade m o A) (still_lift _) fun A => still_upgrade A

/-! ## Predicates on what happens -/

/-- Every event of every run is `P`. -/
def All (P : Ev → Prop) (p : Prog σ α) : Prop := ∀ s, ∀ e ∈ (p s).1, P e

variable {P : Ev → Prop}

theorem all_ret (a : α) : All P (ret a : Prog σ α) := fun _ _ h => nomatch h
theorem all_raise (x : Err) : All P (raise x : Prog σ α) := fun _ _ h => nomatch h
theorem all_lift (f : σ → Except Err α) : All P (lift f) := fun _ _ h => nomatch h

theorem all_bind {p : Prog σ α} {f : α → Prog σ β} (hp : All P p) (hf : ∀ a, All P (f a)) : All P (bind p f) := by
  intro s e he
  rcases hps : p s with ⟨l, s', x | a⟩
  · rw [bind_err hps] at he
    have := hp s; rw [hps] at this; exact this e he
  · rw [bind_ok hps] at he
    have := hp s; rw [hps] at this
    rcases List.mem_append.mp he with h | h
    · exact this e h
    · exact hf a s' e h

theorem all_ite {c : Prop} [Decidable c] {p q : Prog σ α} (hp : c → All P p) (hq : ¬ c → All P q) : All P (if c then p else q) := by
  by_cases h : c
  · rw [if_pos h]; exact hp h
  · rw [if_neg h]; exact hq h

theorem all_single {e : Ev} (he : P e) (f : σ → σ × Except Err Unit) : All P (single e f) := fun _ _ h => by
  cases List.mem_singleton.mp h; exact he

theorem all_each {f : Str → Prog σ Unit} (hf : ∀ x, All P (f x)) : ∀ l, All P (each f l)
  | [] => all_ret ()
  | x :: l => all_bind (hf x) fun _ => all_each hf l

theorem confirm_cases (q : Ask) (s : σ) : (confirm m o q s = ([], s, .error .eof)) ∨
    ∃ b, confirm m o q s = ([.said q b], s, .ok b) := by
  unfold confirm
  by_cases h : o.yesAll = true
  · rw [if_pos h]; exact .inr ⟨true, rfl⟩
  · rw [if_neg h]
    cases m.answer q with
    | none => exact .inl rfl
    | some t => exact .inr ⟨_, rfl⟩

theorem all_confirm (q : Ask) : All Talk (confirm m o q) := by
  intro s e he
  rcases confirm_cases (m := m) (o := o) q s with h | ⟨b, h⟩ <;> rw [h] at he
  · cases he
  · cases List.mem_singleton.mp he; trivial

/-! ## Dry runs -/

/-- **C174, full statement.**  With `--dry-run` nothing is changed. -/
def DryFull : Prop := ∀ (σ : Type) (m : Machine σ) (o : Opts) (c : Cmd) (s : σ), o.dryRun = true → (c.run m o s).2.1 = s

theorem dry_remove (hd : o.dryRun = true) (A : List Str) (i : Bool) : All Talk (remove m o A i) :=
  all_bind (all_lift _) fun _ => all_ite (fun _ => all_ret _) fun _ => all_bind (all_ite (fun _ => all_lift _) fun _ => all_ret _) fun _ =>
    all_bind (all_ite (fun _ => all_confirm _) fun _ => all_ret _) fun _ => all_ite (fun _ => all_ret _) fun _ =>
      all_ite (fun _ => all_ret _) fun h => absurd hd h

theorem dry_conflicts (hd : o.dryRun = true) (l : List Str) : All Talk (checkConflicts m o l) :=
  all_bind (all_lift _) fun _ => all_ite (fun _ => all_raise _) fun _ => all_ite (fun _ => all_ret _) fun _ => all_bind (all_confirm _) fun _ =>
    all_ite (fun _ => all_raise _) fun _ => all_bind (dry_remove hd _ _) fun _ => all_ite (fun _ => all_raise _) fun _ => all_ret _

theorem dry_planInstall (hd : o.dryRun = true) (A : List Str) : All Talk (planInstall m o A) :=
  all_bind (all_lift _) fun _ => all_bind (all_ite (fun _ => all_ret _) fun _ => dry_conflicts hd _) fun _ => all_ret _

theorem dry_planUpgrade (hd : o.dryRun = true) (A : List Str) : All Talk (planUpgrade m o A) :=
  all_bind (all_lift _) fun _ => all_bind (all_ite (fun _ => all_ret _) fun _ => dry_conflicts hd _) fun _ => all_ret _

theorem dry_base (hd : o.dryRun = true) (A : List Str) : All Talk (upgradeBase m o A) := all_bind (all_lift _) fun b => match b with
  | none => all_ret _
  | some _ => all_bind (all_lift _) fun _ => all_bind (dry_planInstall hd _) fun _ => all_bind (all_lift _) fun _ =>
      all_bind (all_ite (fun _ => all_ret _) fun _ => dry_planUpgrade hd _) fun _ => all_ret _

theorem dry_names (hd : o.dryRun = true) (A : List Str) (r : Bool) : All Talk (installNames m o A r) :=
  all_bind (all_lift _) fun _ => all_ite (fun _ => all_ret _) fun _ => all_bind (dry_base hd _) fun _ =>
    all_bind (all_ite (fun _ => all_ret _) fun _ => dry_planInstall hd _) fun _ => all_bind (all_lift _) fun _ =>
    all_ite (fun _ => all_ret _) fun h => absurd hd h

theorem dry_files (hd : o.dryRun = true) (hi : o.ignoreDep = false) (l : List Str) : All Talk (installFiles m o l) :=
  all_ite (fun h => absurd (hi.symm.trans h) (fun h => nomatch h)) fun _ => all_bind (all_lift _) fun _ => all_bind (all_lift _) fun _ =>
    all_bind (all_ite (fun _ => all_ret _) fun _ => all_bind (all_confirm _) fun _ => all_ite (fun _ => all_raise _)
      fun _ => all_bind (dry_names hd _ _) fun _ => all_ret _) fun _ => all_ite (fun _ => all_ret _) fun _ => all_bind (all_lift _) fun _ =>
        all_bind (all_ite (fun _ => all_ret _) fun _ => dry_conflicts hd _) fun _ => all_ite (fun _ => all_ret _) fun h => absurd hd h

theorem dry_upgrade (hd : o.dryRun = true) (A : List Str) : All Talk (upgrade m o A) :=
  all_bind (all_lift _) fun _ => all_bind (all_lift _) fun _ => all_ite (fun _ => all_ret _) fun _ => all_bind (dry_base hd _) fun _ =>
    all_bind (all_ite (fun _ => all_ret _) fun _ => dry_planUpgrade hd _) fun _ => all_bind (all_lift _) fun _ =>
    all_ite (fun _ => all_ret _) fun h => absurd hd h

/-- The first argument is a package file. -/
def ofFiles : List Str → Prop
  | [] => False
  | x :: _ => suffix.isSuffixOf x = true

/-- **C174, partial.**  So it is unless package files are installed with `--ignore-dependency`, and `pisi upgrade` is told not to update
the repositories. -/
theorem dry_partial (m : Machine σ) (o : Opts) (c : Cmd) (s : σ) (hd : o.dryRun = true)
    (hi : ∀ args, c = .install args → ofFiles args → o.ignoreDep = false) (hu : ∀ args, c = .upgrade args → o.bypassUpdate = true) :
    (c.run m o s).2.1 = s ∧ ∀ e ∈ (c.run m o s).1, Talk e := by
  have key : All Talk (c.run m o) := by
    cases c with
    | install args =>
      refine all_ite (fun _ => all_ret _) fun _ => ?_
      cases args with
      | nil => exact all_raise _
      | cons x l =>
        have h1 : suffix.isSuffixOf x = true → o.ignoreDep = false := fun h => hi _ rfl h
        exact all_ite (fun h => all_ite (fun _ => dry_files hd (h1 h) _) (fun _ => all_raise _)) (fun _ => all_bind (dry_names hd _ _) fun _ => all_ret _)
    | remove args => exact all_ite (fun _ => all_ret _) fun _ => all_bind (dry_remove hd _ _) fun _ => all_ret _
    | upgrade args =>
      show All Talk (bind _ fun _ => bind _ fun A => Consent.upgrade m o A)
      exact all_bind (all_ite (fun _ => all_ret _) fun h => absurd (hu _ rfl) h) fun _ => all_bind (f := fun A => Consent.upgrade m o A) (all_lift _) fun A => dry_upgrade hd A
  exact ⟨run_still c s (key s), key s⟩

/-! ## Declined questions -/

/-- No question is asked. -/
def Silent (t : List Ev) : Prop := ∀ e ∈ t, ¬ Talk e

/-- No package is touched. -/
def Clear (t : List Ev) : Prop := ∀ e ∈ t, ¬ Touch e

/-- The first question that is answered is answered with no. -/
def FirstNo (t : List Ev) : Prop := ∃ pre q post, t = pre ++ .said q false :: post ∧ Silent pre

theorem firstNo_append {t u : List Ev} (h : FirstNo (t ++ u)) : FirstNo t ∨ (Silent t ∧ FirstNo u) := by
  obtain ⟨pre, q, post, he, hs⟩ := h
  rcases List.append_eq_append_iff.mp he with ⟨a, h1, h2⟩ | ⟨a, h1, h2⟩
  · exact .inr ⟨fun e h => hs e (by rw [h1]; exact List.mem_append_left _ h), a, q, post, h2, fun e h => hs e (by rw [h1]; exact List.mem_append_right _ h)⟩
  · cases a with
    | nil => exact .inr ⟨by rw [h1, List.append_nil]; exact hs, [], q, post, h2.symm, fun _ h => nomatch h⟩
    | cons b a =>
      rw [List.cons_append] at h2
      injection h2 with h3 h4
      subst h3
      exact .inl ⟨pre, q, a, h1, hs⟩

theorem clear_append {t u : List Ev} (h1 : Clear t) (h2 : Clear u) : Clear (t ++ u) := fun e h => (List.mem_append.mp h).elim (h1 e) (h2 e)

theorem silent_append {t u : List Ev} (h : Silent (t ++ u)) : Silent t ∧ Silent u :=
  ⟨fun e he => h e (List.mem_append_left _ he), fun e he => h e (List.mem_append_right _ he)⟩

theorem silent_firstNo {t : List Ev} (h : Silent t) : ¬ FirstNo t := fun ⟨_, _, _, he, _⟩ =>
  h (.said _ false) (by rw [he]; exact List.mem_append_right _ List.mem_cons_self) trivial

/-- Planning: without questions nothing is touched, and an error follows on a first no. -/
def Plan (p : Prog σ α) : Prop := ∀ s, (Silent (p s).1 → Clear (p s).1) ∧ (FirstNo (p s).1 → Clear (p s).1 ∧ ∃ x, (p s).2.2 = .error x)

/-- On a first no nothing is touched. -/
def Fin (p : Prog σ α) : Prop := ∀ s, FirstNo (p s).1 → Clear (p s).1

theorem plan_nil {p : Prog σ α} (h : ∀ s, (p s).1 = []) : Plan p := fun s => by
  rw [h s]; exact ⟨fun _ _ h => (nomatch h), fun hf => absurd hf (silent_firstNo fun _ h => nomatch h)⟩
theorem plan_ret (a : α) : Plan (ret a : Prog σ α) := plan_nil fun _ => rfl
theorem plan_raise (x : Err) : Plan (raise x : Prog σ α) := plan_nil fun _ => rfl
theorem plan_lift (f : σ → Except Err α) : Plan (lift f) := plan_nil fun _ => rfl

theorem plan_bind {p : Prog σ α} {f : α → Prog σ β} (hp : Plan p) (hf : ∀ a, Plan (f a)) : Plan (bind p f) := by
  intro s
  have h1 := hp s
  rcases hps : p s with ⟨l, s', x | a⟩
  · rw [bind_err hps]; rw [hps] at h1; exact ⟨h1.1, fun h => ⟨(h1.2 h).1, x, rfl⟩⟩
  · rw [bind_ok hps]; rw [hps] at h1
    have h2 := hf a s'
    refine ⟨fun h => clear_append (h1.1 (silent_append h).1) (h2.1 (silent_append h).2), fun h => ?_⟩
    rcases firstNo_append h with h | ⟨hs, h⟩
    · obtain ⟨_, x, hx⟩ := h1.2 h; cases hx
    · exact ⟨clear_append (h1.1 hs) (h2.2 h).1, (h2.2 h).2⟩

theorem fin_bind {p : Prog σ α} {f : α → Prog σ β} (hp : Plan p) (hf : ∀ a, Fin (f a)) : Fin (bind p f) := by
  intro s h
  have h1 := hp s
  rcases hps : p s with ⟨l, s', x | a⟩
  · rw [bind_err hps] at h ⊢; rw [hps] at h1; exact (h1.2 h).1
  · rw [bind_ok hps] at h ⊢; rw [hps] at h1
    rcases firstNo_append h with h | ⟨hs, h⟩
    · obtain ⟨_, x, hx⟩ := h1.2 h; cases hx
    · exact clear_append (h1.1 hs) (hf a s' h)

theorem fin_plan {p : Prog σ α} (hp : Plan p) : Fin p := fun s h => ((hp s).2 h).1
theorem fin_silent {p : Prog σ α} (hp : All (fun e => ¬ Talk e) p) : Fin p := fun s h => absurd h (silent_firstNo (hp s))

theorem plan_ite {c : Prop} [Decidable c] {p q : Prog σ α} (hp : Plan p) (hq : Plan q) : Plan (if c then p else q) := by
  by_cases h : c
  · rw [if_pos h]; exact hp
  · rw [if_neg h]; exact hq
theorem fin_ite {c : Prop} [Decidable c] {p q : Prog σ α} (hp : Fin p) (hq : Fin q) : Fin (if c then p else q) := by
  by_cases h : c
  · rw [if_pos h]; exact hp
  · rw [if_neg h]; exact hq

theorem firstNo_yes {q : Ask} {t : List Ev} : ¬ FirstNo (.said q true :: t) := by
  rintro ⟨pre, q', post, he, hs⟩
  cases pre with
  | nil => cases he
  | cons b pre => injection he with h1 h2; exact hs b List.mem_cons_self (by rw [← h1]; trivial)

theorem not_silent {q : Ask} {b : Bool} {t : List Ev} : ¬ Silent (.said q b :: t) := fun h => h (.said q b) List.mem_cons_self trivial

theorem clear_talk {t : List Ev} (h : ∀ e ∈ t, Talk e) : Clear t := fun e he ht => by
  have := h e he
  cases e <;> first | exact this | exact ht

/-- A question that stops a plan. -/
theorem plan_ask {q : Ask} {f : Bool → Prog σ α} {x : Err} (hf : f false = raise x) : Plan (bind (confirm m o q) f) := by
  intro s
  rcases confirm_cases (m := m) (o := o) q s with h | ⟨b, h⟩
  · rw [bind_err h]
    exact ⟨fun _ _ h => (nomatch h), fun hf => absurd hf (silent_firstNo fun _ h => nomatch h)⟩
  · rw [bind_ok h]
    refine ⟨fun h => absurd h not_silent, fun h => ?_⟩
    cases b with
    | true => exact absurd h firstNo_yes
    | false =>
      rw [hf]
      exact ⟨clear_talk fun e he => by cases List.mem_singleton.mp he; trivial, x, rfl⟩

/-- A question that ends an operation. -/
theorem fin_ask {c : Prop} [Decidable c] {q : Ask} {f : Bool → Prog σ α} {a : α} (hf : f false = ret a) (ht : All (fun e => ¬ Talk e) (f true)) :
    Fin (bind (if c then confirm m o q else ret true) f) := by
  by_cases hc : c
  · rw [if_pos hc]
    intro s h
    rcases confirm_cases (m := m) (o := o) q s with h1 | ⟨b, h1⟩
    · rw [bind_err h1]; exact fun _ h => nomatch h
    · rw [bind_ok h1] at h ⊢
      cases b with
      | true => exact absurd h firstNo_yes
      | false =>
        rw [hf]
        exact clear_talk fun e he => by cases List.mem_singleton.mp he; trivial
  · rw [if_neg hc]
    exact fin_bind (plan_ret _) fun a => by
      cases a with
      | true => exact fin_silent ht
      | false => rw [hf]; exact fin_plan (plan_ret _)

theorem plan_conflicts (l : List Str) : Plan (checkConflicts m o l) :=
  plan_bind (plan_lift _) fun _ => plan_ite (plan_raise _) (plan_ite (plan_ret _) (plan_ask rfl))

theorem plan_planInstall (A : List Str) : Plan (planInstall m o A) :=
  plan_bind (plan_lift _) fun _ => plan_bind (plan_ite (plan_ret _) (plan_conflicts _)) fun _ => plan_ret _

theorem plan_planUpgrade (A : List Str) : Plan (planUpgrade m o A) :=
  plan_bind (plan_lift _) fun _ => plan_bind (plan_ite (plan_ret _) (plan_conflicts _)) fun _ => plan_ret _

theorem plan_base (A : List Str) : Plan (upgradeBase m o A) := plan_bind (plan_lift _) fun b => match b with
  | none => plan_ret _
  | some _ => plan_bind (plan_lift _) fun _ => plan_bind (plan_planInstall _) fun _ => plan_bind (plan_lift _) fun _ =>
      plan_bind (plan_ite (plan_ret _) (plan_planUpgrade _)) fun _ => plan_ret _

theorem talkless (x : Str) : ¬ Talk (.did x) := fun h => h

theorem quiet_pisi : All (fun e => ¬ Talk e) (upgradePisi m) := fun _ _ h => by cases List.mem_singleton.mp h; exact fun h => h

theorem quiet_ite {c : Prop} [Decidable c] {p q : Prog σ α} (hp : All P p) (hq : All P q) : All P (if c then p else q) :=
  all_ite (fun _ => hp) fun _ => hq

theorem fin_remove (A : List Str) (i : Bool) : Fin (remove m o A i) := by
  refine fin_bind (plan_lift _) fun _ => fin_ite (fin_plan (plan_ret _)) (fin_bind (plan_ite (plan_lift _) (plan_ret _)) fun order =>
    fin_ask (a := some false) rfl ?_)
  refine quiet_ite (all_ret _) (quiet_ite (all_ret _) (all_bind (all_each (fun x => ?_) _) fun _ => all_ret _))
  intro s e he
  by_cases hi : m.installed s x = true
  · simp only [hi, if_true] at he
    exact all_single (P := fun e => ¬ Talk e) (talkless x) _ s e he
  · simp only [hi, Bool.false_eq_true, if_false] at he
    cases he

theorem fin_names (A : List Str) (r : Bool) : Fin (installNames m o A r) :=
  fin_bind (plan_lift _) fun _ => fin_ite (fin_plan (plan_ret _)) (fin_bind (plan_base _) fun _ =>
    fin_bind (plan_ite (plan_ret _) (plan_planInstall _)) fun _ => fin_bind (plan_lift _) fun _ =>
    fin_ite (fin_plan (plan_ret _)) (fin_ask (a := some false) rfl (quiet_ite (all_ret _) <| all_bind (all_lift _) fun _ => all_bind (all_each (fun _ => all_single (talkless _) _) _)
      fun _ => all_bind (quiet_ite quiet_pisi (all_ret _)) fun _ => all_ret _)))

/-- After a plan and a question that may only end in an error. -/
theorem fin_after {q : Ask} {c : Prop} [Decidable c] {f : Bool → Prog σ α} {g : α → Prog σ β} {x : Err} {a : α} (hf : f false = raise x)
    (hg : Fin (g a)) : Fin (bind (if c then ret a else bind (confirm m o q) f) g) := by
  by_cases hc : c
  · rw [if_pos hc]
    intro s h
    exact hg s h
  · rw [if_neg hc]
    intro s h
    rcases confirm_cases (m := m) (o := o) q s with h1 | ⟨b, h1⟩
    · rw [bind_err (bind_err h1)]; exact fun _ h => nomatch h
    · cases b with
      | false =>
        have : bind (confirm m o q) f s = ([.said q false], s, .error x) := by rw [bind_ok h1, hf]; rfl
        rw [bind_err this]
        exact clear_talk fun e he => by cases List.mem_singleton.mp he; trivial
      | true =>
        have h2 := bind_ok (f := f) h1
        rcases h3 : f true s with ⟨l, s', y | a⟩
        · rw [h3] at h2
          rw [bind_err h2] at h
          exact absurd h firstNo_yes
        · rw [h3] at h2
          rw [bind_ok h2] at h
          exact absurd h firstNo_yes

theorem fin_files (l : List Str) : Fin (installFiles m o l) :=
  fin_ite (fin_silent (all_each (fun _ => all_single (talkless _) _) _)) (fin_bind (plan_lift _) fun _ => fin_bind (plan_lift _) fun _ =>
    fin_after rfl (fin_ite (fin_plan (plan_ret _)) (fin_bind (plan_lift _) fun _ => fin_bind (plan_ite (plan_ret _) (plan_conflicts _)) fun _ =>
      fin_ite (fin_plan (plan_ret _)) (fin_silent (all_each (fun _ => all_single (talkless _) _) _)))))

theorem fin_upgrade (A : List Str) : Fin (upgrade m o A) :=
  fin_bind (plan_lift _) fun _ => fin_bind (plan_lift _) fun _ => fin_ite (fin_plan (plan_ret _)) (fin_bind (plan_base _) fun _ =>
    fin_bind (plan_ite (plan_ret _) (plan_planUpgrade _)) fun _ => fin_bind (plan_lift _) fun _ =>
    fin_ite (fin_plan (plan_ret _)) (fin_ask (a := ()) rfl (quiet_ite (all_ret _) <| all_bind (all_each (fun _ => all_lift _) _) fun _ =>
      all_bind (all_each (fun _ => all_single (talkless _) _) _) fun _ => quiet_ite quiet_pisi (all_ret _))))

theorem fin_drop {p : Prog σ α} {b : β} (h : Fin p) : Fin (bind p fun _ => ret b) := by
  intro s hf
  rcases hps : p s with ⟨l, s', x | a⟩
  · rw [bind_err hps] at hf ⊢; have := h s; rw [hps] at this; exact this hf
  · rw [bind_ok hps] at hf ⊢
    have := h s; rw [hps] at this
    have e : l ++ (ret b s' : List Ev × σ × Except Err β).1 = l := List.append_nil l
    dsimp only at hf ⊢
    rw [e] at hf ⊢
    exact this hf

theorem plan_updates (l : List Str) : Plan (each (fun x => single (.updated x) (m.update x)) l) := by
  intro s
  have h1 : All (fun e => ¬ Talk e) (each (fun x => single (.updated x) (m.update x)) l) := all_each (fun _ => all_single (fun h => h) _) _
  have h2 : All (fun e => ¬ Touch e) (each (fun x => single (.updated x) (m.update x)) l) := all_each (fun _ => all_single (fun h => h) _) _
  exact ⟨fun _ => h2 s, fun h => absurd h (silent_firstNo (h1 s))⟩

/-- **C175, full statement.**  If a question is answered with no, no package is touched. -/
def DeclineFull : Prop := ∀ (σ : Type) (m : Machine σ) (o : Opts) (c : Cmd) (s : σ) (q : Ask), .said q false ∈ (c.run m o s).1 → Clear (c.run m o s).1

/-- **C175, partial.**  So it is if the first question is answered with no. -/
theorem decline_partial (m : Machine σ) (o : Opts) (c : Cmd) (s : σ) (h : FirstNo (c.run m o s).1) : Clear (c.run m o s).1 := by
  have key : Fin (c.run m o) := by
    cases c with
    | install args =>
      refine fin_ite (fin_plan (plan_ret _)) ?_
      cases args with
      | nil => exact fin_plan (plan_raise _)
      | cons x l => exact fin_ite (fin_ite (fin_files _) (fin_plan (plan_raise _))) (fin_drop (fin_names _ _))
    | remove args => exact fin_ite (fin_plan (plan_ret _)) (fin_drop (fin_remove _ _))
    | upgrade args =>
      show Fin (bind _ fun _ => bind _ fun A => Consent.upgrade m o A)
      exact fin_bind (plan_ite (plan_ret _) (plan_bind (plan_lift _) fun _ => plan_updates _)) fun _ =>
        fin_bind (f := fun A => Consent.upgrade m o A) (plan_lift _) fun A => fin_upgrade A
  exact key s h

/-! Where conflicts are not looked at there is one question at most. -/

/-- No questions. -/
abbrev Mute (p : Prog σ α) : Prop := All (fun e => ¬ Talk e) p

/-- A no is the first answer. -/
def Uniq (p : Prog σ α) : Prop := ∀ s q, .said q false ∈ (p s).1 → FirstNo (p s).1

theorem uniq_mute {p : Prog σ α} (h : Mute p) : Uniq p := fun s q hq => absurd trivial (h s (.said q false) hq)

theorem uniq_bind {p : Prog σ α} {f : α → Prog σ β} (hp : Mute p) (hf : ∀ a, Uniq (f a)) : Uniq (bind p f) := by
  intro s q hq
  have h1 := hp s
  rcases hps : p s with ⟨t, s', x | a⟩
  · rw [bind_err hps] at hq; rw [hps] at h1; exact absurd trivial (h1 (.said q false) hq)
  · rw [bind_ok hps] at hq ⊢; rw [hps] at h1
    rcases List.mem_append.mp hq with h | h
    · exact absurd trivial (h1 (.said q false) h)
    · obtain ⟨pre, q', post, he, hs⟩ := hf a s' q h
      exact ⟨t ++ pre, q', post, by dsimp only; rw [he, List.append_assoc], fun e he => (List.mem_append.mp he).elim (h1 e) (hs e)⟩

theorem uniq_ite {c : Prop} [Decidable c] {p q : Prog σ α} (hp : Uniq p) (hq : Uniq q) : Uniq (if c then p else q) := by
  by_cases h : c
  · rw [if_pos h]; exact hp
  · rw [if_neg h]; exact hq

theorem uniq_ask {c : Prop} [Decidable c] {q : Ask} {f : Bool → Prog σ α} (h : ∀ b, Mute (f b)) :
    Uniq (bind (if c then confirm m o q else ret true) f) := by
  by_cases hc : c
  · rw [if_pos hc]
    intro s q' hq
    rcases confirm_cases (m := m) (o := o) q s with h1 | ⟨b, h1⟩
    · rw [bind_err h1] at hq; cases hq
    · rw [bind_ok h1] at hq ⊢
      rcases List.mem_cons.mp hq with h2 | h2
      · cases h2; exact ⟨[], _, _, rfl, fun _ h => nomatch h⟩
      · exact absurd trivial (h b s (.said q' false) h2)
  · rw [if_neg hc]; exact uniq_bind (all_ret _) fun a => uniq_mute (h a)

theorem mute_planInstall (h : o.ignoreConf = true) (A : List Str) : Mute (planInstall m o A) :=
  all_bind (all_lift _) fun _ => all_bind (all_ite (fun _ => all_ret _) fun h' => absurd h h') fun _ => all_ret _
theorem mute_planUpgrade (h : o.ignoreConf = true) (A : List Str) : Mute (planUpgrade m o A) :=
  all_bind (all_lift _) fun _ => all_bind (all_ite (fun _ => all_ret _) fun h' => absurd h h') fun _ => all_ret _
theorem mute_base (h : o.ignoreConf = true) (A : List Str) : Mute (upgradeBase m o A) := all_bind (all_lift _) fun b => match b with
  | none => all_ret _
  | some _ => all_bind (all_lift _) fun _ => all_bind (mute_planInstall h _) fun _ => all_bind (all_lift _) fun _ =>
      all_bind (quiet_ite (all_ret _) (mute_planUpgrade h _)) fun _ => all_ret _

theorem uniq_drop {p : Prog σ α} {b : β} (h : Uniq p) : Uniq (bind p fun _ => ret b) := by
  intro s q hq
  rcases hps : p s with ⟨t, s', x | a⟩
  · rw [bind_err hps] at hq ⊢; have := h s q; rw [hps] at this; exact this hq
  · rw [bind_ok hps] at hq ⊢
    have := h s q; rw [hps] at this
    have e : t ++ (ret b s' : List Ev × σ × Except Err β).1 = t := List.append_nil t
    dsimp only at hq ⊢
    rw [e] at hq ⊢
    exact this hq

theorem uniq_remove (A : List Str) (i : Bool) : Uniq (remove m o A i) := by
  refine uniq_bind (all_lift _) fun _ => uniq_ite (uniq_mute (all_ret _)) (uniq_bind (quiet_ite (all_lift _) (all_ret _)) fun order =>
    uniq_ask fun b => quiet_ite (all_ret _) (quiet_ite (all_ret _) (all_bind (all_each (fun x => ?_) _) fun _ => all_ret _)))
  intro s e he
  by_cases hi : m.installed s x = true
  · simp only [hi, if_true] at he
    exact all_single (P := fun e => ¬ Talk e) (talkless x) _ s e he
  · simp only [hi, Bool.false_eq_true, if_false] at he
    cases he

theorem uniq_names (h : o.ignoreConf = true) (A : List Str) (r : Bool) : Uniq (installNames m o A r) :=
  uniq_bind (all_lift _) fun _ => uniq_ite (uniq_mute (all_ret _)) (uniq_bind (mute_base h _) fun _ =>
    uniq_bind (quiet_ite (all_ret _) (mute_planInstall h _)) fun _ => uniq_bind (all_lift _) fun _ =>
    uniq_ite (uniq_mute (all_ret _)) (uniq_ask fun _ => quiet_ite (all_ret _) <| all_bind (all_lift _) fun _ =>
      all_bind (all_each (fun _ => all_single (talkless _) _) _) fun _ => all_bind (quiet_ite quiet_pisi (all_ret _)) fun _ => all_ret _))

theorem uniq_upgrade (h : o.ignoreConf = true) (A : List Str) : Uniq (upgrade m o A) :=
  uniq_bind (all_lift _) fun _ => uniq_bind (all_lift _) fun _ => uniq_ite (uniq_mute (all_ret _)) (uniq_bind (mute_base h _) fun _ =>
    uniq_bind (quiet_ite (all_ret _) (mute_planUpgrade h _)) fun _ => uniq_bind (all_lift _) fun _ =>
    uniq_ite (uniq_mute (all_ret _)) (uniq_ask fun _ => quiet_ite (all_ret _) <| all_bind (all_each (fun _ => all_lift _) _) fun _ =>
      all_bind (all_each (fun _ => all_single (talkless _) _) _) fun _ => quiet_ite quiet_pisi (all_ret _)))

/-- **C175.**  Any no leaves the packages alone when packages are removed, and, with `--ignore-file-conflicts`, when packages are
upgraded or installed by name. -/
theorem decline_any (m : Machine σ) (o : Opts) (c : Cmd) (s : σ) (q : Ask)
    (hc : ∀ args, c = .install args → o.ignoreConf = true ∧ ¬ ofFiles args) (hu : ∀ args, c = .upgrade args → o.ignoreConf = true)
    (h : .said q false ∈ (c.run m o s).1) : Clear (c.run m o s).1 := by
  have key : Uniq (c.run m o) := by
    cases c with
    | install args =>
      refine uniq_ite (uniq_mute (all_ret _)) ?_
      cases args with
      | nil => exact uniq_mute (all_raise _)
      | cons x l =>
        unfold Consent.install
        dsimp only
        rw [if_neg (show ¬ suffix.isSuffixOf x = true from fun h => (hc _ rfl).2 h)]
        exact uniq_drop (uniq_names (hc _ rfl).1 _ _)
    | remove args => exact uniq_ite (uniq_mute (all_ret _)) (uniq_drop (uniq_remove _ _))
    | upgrade args =>
      show Uniq (bind _ fun _ => bind _ fun A => Consent.upgrade m o A)
      exact uniq_bind (quiet_ite (all_ret _) (all_bind (all_lift _) fun _ => all_each (fun _ => all_single (mute_updated _) _) _)) fun _ =>
        uniq_bind (f := fun A => Consent.upgrade m o A) (all_lift _) fun A => uniq_upgrade (hu _ rfl) A
  exact decline_partial m o c s (key s q h)

/-! ## Consent -/

/-- **C176, full statement.**  Nothing is done to a package that was not asked for, unless a question that showed it was answered with
yes before. -/
def ConsentFull : Prop := ∀ (σ : Type) (m : Machine σ) (o : Opts) (c : Cmd) (s : σ), Fair m → Agreed m (wanted m s c) (c.run m o s).1

theorem agreed_append {l : List Str} {t u : List Ev} (h1 : Agreed m l t) (h2 : Agreed m l u) : Agreed m l (t ++ u) := by
  intro pre x post he
  rcases List.append_eq_append_iff.mp he with ⟨a, e1, e2⟩ | ⟨a, e1, e2⟩
  · rcases h2 a x post e2 with h | ⟨q, hq, h⟩
    · exact .inl h
    · exact .inr ⟨q, by rw [e1]; exact List.mem_append_right _ hq, h⟩
  · cases a with
    | nil =>
      rcases h2 [] x post e2.symm with h | ⟨q, hq, _⟩
      · exact .inl h
      · cases hq
    | cons b a =>
      rw [List.cons_append] at e2
      injection e2 with e3 e4
      subst e3
      exact h1 pre x a e1

theorem agreed_said {l : List Str} {t : List Ev} {q : Ask} (h : Agreed m (l ++ (shown q ++ m.expand (shown q))) t) :
    Agreed m l (.said q true :: t) := by
  intro pre x post he
  cases pre with
  | nil => cases he
  | cons b pre =>
    injection he with e1 e2
    rcases h pre x post e2 with h | ⟨q', hq, h⟩
    · rcases List.mem_append.mp h with h | h
      · exact .inl h
      · exact .inr ⟨q, by rw [← e1]; exact List.mem_cons_self, List.mem_append.mp h⟩
    · exact .inr ⟨q', List.mem_cons_of_mem _ hq, h⟩

theorem agreed_mem {l : List Str} {t : List Ev} (h : ∀ x, .did x ∈ t → x ∈ l) : Agreed m l t := fun pre x post he =>
  .inl (h x (by rw [he]; exact List.mem_append_right _ List.mem_cons_self))

theorem agreed_mono {l l' : List Str} {t : List Ev} (h : ∀ x ∈ l, x ∈ l') (ha : Agreed m l t) : Agreed m l' t := fun pre x post he =>
  (ha pre x post he).imp (h x) id

/-- What is done is agreed on, in every run. -/
def Ag (m : Machine σ) (l : List Str) (p : Prog σ α) : Prop := ∀ s, Agreed m l (p s).1

variable {l : List Str}

theorem ag_nil {p : Prog σ α} (h : ∀ s, (p s).1 = []) : Ag m l p := fun s => by rw [h s]; exact agreed_mem fun _ h => nomatch h
theorem ag_ret (a : α) : Ag m l (ret a) := ag_nil fun _ => rfl
theorem ag_raise (x : Err) : Ag m l (raise x : Prog σ α) := ag_nil fun _ => rfl
theorem ag_lift (f : σ → Except Err α) : Ag m l (lift f) := ag_nil fun _ => rfl

theorem ag_ite {c : Prop} [Decidable c] {p q : Prog σ α} (hp : Ag m l p) (hq : Ag m l q) : Ag m l (if c then p else q) := by
  by_cases h : c
  · rw [if_pos h]; exact hp
  · rw [if_neg h]; exact hq

/-- The values a computation can have. -/
def Res (p : Prog σ α) (Q : α → Prop) : Prop := ∀ s a, (p s).2.2 = .ok a → Q a

/-- At a state. -/
theorem agreed_bind {p : Prog σ α} {f : α → Prog σ β} {s : σ} (hp : Agreed m l (p s).1)
    (hf : ∀ t s' a, p s = (t, s', .ok a) → Agreed m l (f a s').1) : Agreed m l (bind p f s).1 := by
  rcases hps : p s with ⟨t, s', x | a⟩
  · rw [bind_err hps]; rw [hps] at hp; exact hp
  · rw [bind_ok hps]; rw [hps] at hp
    exact agreed_append hp (hf t s' a hps)

theorem ag_bind {p : Prog σ α} {f : α → Prog σ β} {Q : α → Prop} (hp : Ag m l p) (hq : Res p Q) (hf : ∀ a, Q a → Ag m l (f a)) : Ag m l (bind p f) :=
  fun s => agreed_bind (hp s) fun t s' a h => hf a (hq s a (by rw [h])) s'

theorem res_true (p : Prog σ α) : Res p fun _ => True := fun _ _ _ => trivial

theorem ag_bind' {p : Prog σ α} {f : α → Prog σ β} (hp : Ag m l p) (hf : ∀ a, Ag m l (f a)) : Ag m l (bind p f) :=
  ag_bind hp (res_true p) fun a _ => hf a

theorem bind_lift {f : σ → Except Err α} {g : α → Prog σ β} {s : σ} {a : α} (h : f s = .ok a) : bind (lift f) g s = g a s := by
  have : lift f s = ([], s, .ok a) := by unfold lift; rw [h]
  rw [bind_ok this]; rfl

theorem bind_read {f : σ → α} {g : α → Prog σ β} {s : σ} : bind (lift fun s => .ok (f s)) g s = g (f s) s := bind_lift rfl

theorem ag_ask {q : Ask} {f : Bool → Prog σ α} (hf : ∀ s, (f false s).1 = []) (ht : Ag m (l ++ (shown q ++ m.expand (shown q))) (f true)) :
    Ag m l (bind (confirm m o q) f) := by
  intro s
  rcases confirm_cases (m := m) (o := o) q s with h | ⟨b, h⟩
  · rw [bind_err h]; exact agreed_mem fun _ h => nomatch h
  · rw [bind_ok h]
    cases b with
    | true => exact agreed_said (ht s)
    | false =>
      rw [hf]
      exact agreed_mem fun x h => by cases List.mem_singleton.mp h

theorem ag_maybe {q : Ask} {c : Prop} [Decidable c] {f : Bool → Prog σ α} (hf : ∀ s, (f false s).1 = [])
    (ht : c → Ag m (l ++ (shown q ++ m.expand (shown q))) (f true)) (hn : ¬ c → Ag m l (f true)) :
    Ag m l (bind (if c then confirm m o q else ret true) f) := by
  by_cases hc : c
  · rw [if_pos hc]; exact ag_ask hf (ht hc)
  · rw [if_neg hc]
    intro s
    exact agreed_bind (agreed_mem fun _ h => nomatch h) fun t s' a h => by
      have : a = true := by cases h; rfl
      rw [this]; exact hn hc s'

theorem ag_each {f : Str → Prog σ Unit} : ∀ {k : List Str}, (∀ x ∈ k, Ag m l (f x)) → Ag m l (each f k)
  | [], _ => ag_ret ()
  | x :: k, h => ag_bind' (h x List.mem_cons_self) fun _ => ag_each fun y hy => h y (List.mem_cons_of_mem _ hy)

theorem ag_single {x : Str} (hx : x ∈ l) (f : σ → σ × Except Err Unit) : Ag m l (single (.did x) f) := fun s => agreed_mem fun y hy => by
  cases List.mem_singleton.mp hy; exact hx

theorem ag_pisi : Ag m l (upgradePisi m) := fun s => agreed_mem fun y hy => by cases List.mem_singleton.mp hy

/-- No more packages than were asked for, and among them all that were asked for. -/
theorem within {A order : List Str} (hA : A.Nodup) (hs : ∀ x ∈ A, x ∈ order) (hl : ¬ order.length > A.length) : ∀ x ∈ order, x ∈ A := by
  have h1 : A.Subperm order := hA.subperm hs
  have h2 := h1.perm_of_length_le (by omega)
  exact fun x hx => h2.symm.subset hx

/-- The last part of `remove`. -/
theorem ag_removal {order : List Str} (h : ∀ x ∈ order, x ∈ l) :
    Ag m l (each (fun x s => if m.installed s x then single (.did x) (m.removeOne x) s else ([], s, .ok ())) order) :=
  ag_each fun x hx s => by
    by_cases hi : m.installed s x = true
    · simp only [hi, if_true]; exact ag_single (h x hx) _ s
    · simp only [hi, Bool.false_eq_true, if_false]; exact agreed_mem fun _ h => nomatch h

/-- Removing conflicting packages touches these only. -/
theorem ag_remove_conflicts (C : List Str) : Ag m (m.expand C) (remove m o C true) := by
  intro s
  unfold remove
  rw [bind_read]
  refine ag_ite (ag_ret _) ?_ s
  have hsub : ∀ x ∈ (toRemove m o (m.expand C) s), x ∈ m.expand C := by
    intro x hx
    unfold toRemove at hx
    have h1 := (List.mem_filter.mp hx).1
    cases hb : o.bypassSafety <;> cases hc : m.base s <;> simp only [hb, hc] at h1
    · exact h1
    · exact (List.mem_filter.mp h1).1
    · exact h1
    · exact h1
  have hq : Res (if !o.ignoreDep && !true then lift fun s' => m.planRemove s' (toRemove m o (m.expand C) s) else ret (toRemove m o (m.expand C) s)) (fun order => ∀ x ∈ order, x ∈ m.expand C) := by
    intro s' a ha
    rw [if_neg (by cases o.ignoreDep <;> decide)] at ha
    cases ha
    exact hsub
  refine ag_bind (ag_ite (ag_lift _) (ag_ret _)) hq fun order ho => ?_
  refine ag_maybe (fun _ => rfl) (fun _ => ?_) (fun _ => ?_)
  · exact ag_ite (ag_ret _) (ag_ite (ag_ret _) (ag_bind' (ag_removal fun x hx => List.mem_append_left _ (ho x hx)) fun _ => ag_ret _))
  · exact ag_ite (ag_ret _) (ag_ite (ag_ret _) (ag_bind' (ag_removal ho) fun _ => ag_ret _))

theorem ag_conflicts (k : List Str) : Ag m l (checkConflicts m o k) :=
  ag_bind' (ag_lift _) fun _ => ag_ite (ag_raise _) (ag_ite (ag_ret _) (ag_ask (fun _ => rfl) (ag_ite (ag_raise _) (ag_bind'
    (fun s => agreed_mono (fun _ hx => List.mem_append_right _ (List.mem_append_right _ hx)) (ag_remove_conflicts _ s))
    fun _ => ag_ite (ag_raise _) (ag_ret _)))))

theorem ag_planInstall (A : List Str) : Ag m l (planInstall m o A) :=
  ag_bind' (ag_lift _) fun _ => ag_bind' (ag_ite (ag_ret _) (ag_conflicts _)) fun _ => ag_ret _
theorem ag_planUpgrade (A : List Str) : Ag m l (planUpgrade m o A) :=
  ag_bind' (ag_lift _) fun _ => ag_bind' (ag_ite (ag_ret _) (ag_conflicts _)) fun _ => ag_ret _

theorem res_plan {f : σ → Except Err (List Str)} {g : List Str → Prog σ Unit} {Q : List Str → Prop} (h : ∀ s (a : List Str), f s = .ok a → Q a) :
    Res (bind (lift f) fun order => bind (g order) fun _ => ret order) Q := by
  intro s a ha
  cases hf : f s with
  | error x =>
    have : lift f s = ([], s, .error x) := by unfold lift; rw [hf]
    rw [bind_err this] at ha; cases ha
  | ok b =>
    rw [bind_lift hf] at ha
    rcases hg : g b s with ⟨t, s', x | u⟩
    · rw [bind_err hg] at ha; cases ha
    · rw [bind_ok hg] at ha; cases ha; exact h s _ hf

/-- Nothing is added for `system.base`. -/
def NoBase (m : Machine σ) (o : Opts) (s : σ) : Prop := o.bypassSafety = true ∨ m.base s = none

theorem base_none {s : σ} (h : NoBase m o s) (A : List Str) : upgradeBase m o A s = ([], s, .ok []) := by
  have : (if o.bypassSafety then none else m.base s) = none := by
    rcases h with h | h
    · rw [h]; rfl
    · rw [h]; by_cases o.bypassSafety = true <;> simp_all
  unfold upgradeBase
  rw [bind_read, this]
  rfl

theorem union_nil (A : List Str) : union A [] = A := List.append_nil A

theorem agreed_names {A : List Str} {r : Bool} {s : σ} (hf : Fair m) (hb : NoBase m o s)
    (hk : r = true ∨ ∀ x ∈ m.expand A, m.installed s x = false) : Agreed m (m.expand A) (installNames m o A r s).1 := by
  have hA1 : (if r then m.expand A else (m.expand A).filter fun x => !m.installed s x) = m.expand A := by
    rcases hk with h | h
    · rw [h]; rfl
    · by_cases hr : r = true
      · rw [if_pos hr]
      · rw [if_neg hr]; exact List.filter_eq_self.mpr fun x hx => by rw [h x hx]; rfl
  unfold installNames
  rw [bind_read, hA1]
  by_cases h0 : m.expand A = []
  · rw [if_pos h0]; exact agreed_mem fun _ h => nomatch h
  rw [if_neg h0, bind_ok (base_none hb _)]
  simp only [List.nil_append, if_true, union_nil]
  have hq : Res (if o.ignoreDep then ret (m.expand A) else planInstall m o (m.expand A)) (fun order => order.Nodup ∧ ∀ x ∈ m.expand A, x ∈ order) := by
    intro s a ha
    by_cases hi : o.ignoreDep = true
    · rw [if_pos hi] at ha; cases ha; exact ⟨hf.expand _, fun _ h => h⟩
    · rw [if_neg hi] at ha; exact res_plan (fun s a h => hf.install s _ a (hf.expand _) h) s a ha
  refine ag_bind (ag_ite (ag_ret _) (ag_planInstall _)) hq (fun order ho => ?_) s
  refine ag_bind' (ag_lift _) fun _ => ag_ite (ag_ret _) (ag_maybe (fun _ => rfl) (fun _ => ?_) fun hn => ?_)
  · exact ag_ite (ag_ret _) (ag_bind' (ag_lift _) fun _ => ag_bind' (ag_each fun x hx => ag_single (List.mem_append_right _ (List.mem_append_left _ hx)) _)
      fun _ => ag_bind' (ag_ite ag_pisi (ag_ret _)) fun _ => ag_ret _)
  · have hw := within (hf.expand A) ho.2 hn
    exact ag_ite (ag_ret _) (ag_bind' (ag_lift _) fun _ => ag_bind' (ag_each fun x hx => ag_single (hw x hx) _)
      fun _ => ag_bind' (ag_ite ag_pisi (ag_ret _)) fun _ => ag_ret _)

theorem fileOf_mem {d : List (Str × Str)} {uris : List Str} (hd : ∀ e ∈ d, e.2 ∈ uris) {x : Str} (hx : ∃ e ∈ d, e.1 = x) : fileOf d x ∈ uris := by
  unfold fileOf
  cases h : d.find? (fun e => e.1 = x) with
  | none =>
    obtain ⟨e, he, hex⟩ := hx
    have := List.find?_eq_none.mp h e he
    simp [hex] at this
  | some e => exact hd e (List.mem_of_find?_eq_some h)

theorem agreed_files {uris : List Str} {s : σ} (hf : Fair m) (hb : NoBase m o s)
    (hk : ∀ d, m.readFiles uris = .ok d → ∀ x ∈ m.expand (m.missing s d), m.installed s x = false) : Agreed m uris (installFiles m o uris s).1 := by
  unfold installFiles
  by_cases hi : o.ignoreDep = true
  · rw [if_pos hi]; exact ag_each (fun x hx => ag_single hx _) s
  rw [if_neg hi]
  cases hr : m.readFiles uris with
  | error x => exact agreed_mem fun _ h => nomatch h
  | ok d =>
    rw [bind_lift (f := fun _ => Except.ok d) (a := d) rfl, bind_read]
    refine agreed_bind ?_ fun t s' a _ => ?_
    · by_cases hm : m.missing s d = []
      · rw [if_pos hm]; exact agreed_mem fun _ h => nomatch h
      · rw [if_neg hm]
        rcases confirm_cases (m := m) (o := o) (.external (m.missing s d)) s with h | ⟨b, h⟩
        · rw [bind_err h]; exact agreed_mem fun _ h => nomatch h
        · rw [bind_ok h]
          cases b with
          | false => exact agreed_mem fun x h => by cases List.mem_singleton.mp h
          | true =>
            have h1 := agreed_names (o := o) (r := false) hf hb (.inr (hk d hr))
            have h2 : Agreed m (uris ++ (m.missing s d ++ m.expand (m.missing s d))) ((bind (installNames m o (m.missing s d) false) fun _ => ret ()) s).1 :=
              agreed_bind (agreed_mono (fun x hx => List.mem_append_right _ (List.mem_append_right _ hx)) h1) fun _ _ _ _ => agreed_mem fun _ h => by cases h
            exact agreed_said (q := .external (m.missing s d)) h2
    · refine ag_ite (ag_ret _) (ag_bind (Q := fun order => ∀ x ∈ order, ∃ e ∈ d, e.1 = x) (ag_lift _) (fun s a h => hf.plan s d a h) fun order ho =>
        ag_bind' (ag_ite (ag_ret _) (ag_conflicts _)) fun _ => ag_ite (ag_ret _) (ag_each fun x hx => ag_single ?_ _)) s'
      exact fileOf_mem (hf.files uris d hr) (ho x (List.mem_reverse.mp hx))

theorem agreed_remove {A : List Str} {s : σ} (hf : Fair m) (hi : ∀ x ∈ m.expand A, m.installed s x = true)
    (hb : o.bypassSafety = true ∨ ∀ b, m.base s = some b → ∀ x ∈ m.expand A, x ∉ b) : Agreed m (m.expand A) (remove m o A false s).1 := by
  have hA1 : toRemove m o (m.expand A) s = m.expand A := by
    unfold toRemove
    rcases hb with h | h
    · rw [h]; exact List.filter_eq_self.mpr hi
    · cases o.bypassSafety
      · cases hc : m.base s with
        | none => exact List.filter_eq_self.mpr hi
        | some b =>
          have : (m.expand A).filter (· ∉ b) = m.expand A := List.filter_eq_self.mpr fun x hx => by simpa using h b hc x hx
          dsimp only
          rw [this]
          exact List.filter_eq_self.mpr hi
      · exact List.filter_eq_self.mpr hi
  unfold remove
  rw [bind_read, hA1]
  have hq : Res (if !o.ignoreDep && !false then lift fun s => m.planRemove s (m.expand A) else ret (m.expand A))
      (fun order => order.Nodup ∧ ∀ x ∈ m.expand A, x ∈ order) := by
    intro s a ha
    by_cases hi : (!o.ignoreDep && !false) = true
    · rw [if_pos hi] at ha; exact hf.remove s _ a (hf.expand _) ha
    · rw [if_neg hi] at ha; cases ha; exact ⟨hf.expand _, fun _ h => h⟩
  refine ag_ite (ag_ret _) (ag_bind (ag_ite (ag_lift _) (ag_ret _)) hq fun order ho => ag_maybe (fun _ => rfl) (fun _ => ?_) fun hn => ?_) s
  · exact ag_ite (ag_ret _) (ag_ite (ag_ret _) (ag_bind' (ag_removal fun x hx => List.mem_append_right _ (List.mem_append_left _ hx)) fun _ => ag_ret _))
  · exact ag_ite (ag_ret _) (ag_ite (ag_ret _) (ag_bind' (ag_removal (within (hf.expand A) ho.2 hn)) fun _ => ag_ret _))

theorem agreed_upgrade {A : List Str} {s : σ} (hf : Fair m) (hb : NoBase m o s)
    (hk : ∀ l, m.select s (m.expand (if A = [] then m.allInstalled s else A)) = .ok l → l = m.expand (if A = [] then m.allInstalled s else A)) :
    Agreed m (m.expand (if A = [] then m.allInstalled s else A)) (upgrade m o A s).1 := by
  unfold upgrade
  rw [bind_read]
  generalize hA : m.expand (if A = [] then m.allInstalled s else A) = A0 at hk ⊢
  have hn0 : A0.Nodup := by rw [← hA]; exact hf.expand _
  cases hs : m.select s A0 with
  | error x =>
    have : lift (fun s => m.select s A0) s = ([], s, .error x) := by unfold lift; dsimp only; rw [hs]
    rw [bind_err this]; exact agreed_mem fun _ h => nomatch h
  | ok A1 =>
    rw [bind_lift (f := fun s => m.select s A0) hs, hk A1 hs]
    by_cases h0 : A0 = []
    · rw [if_pos h0]; exact agreed_mem fun _ h => nomatch h
    rw [if_neg h0, bind_ok (base_none hb _)]
    simp only [List.nil_append, union_nil]
    have hq : Res (if o.ignoreDep then ret A0 else planUpgrade m o A0) (fun order => order.Nodup ∧ ∀ x ∈ A0, x ∈ order) := by
      intro s a ha
      by_cases hi : o.ignoreDep = true
      · rw [if_pos hi] at ha; cases ha; exact ⟨hn0, fun _ h => h⟩
      · rw [if_neg hi] at ha; exact res_plan (fun s a h => hf.upgrade s _ a hn0 h) s a ha
    refine ag_bind (ag_ite (ag_ret _) (ag_planUpgrade _)) hq (fun order ho => ?_) s
    refine ag_bind' (ag_lift _) fun _ => ag_ite (ag_ret _) (ag_maybe (fun _ => rfl) (fun _ => ?_) fun hn => ?_)
    · exact ag_ite (ag_ret _) (ag_bind' (ag_each fun x _ => ag_lift _) fun _ => ag_bind'
        (ag_each fun x hx => ag_single (List.mem_append_right _ (List.mem_append_left _ hx)) _) fun _ => ag_ite ag_pisi (ag_ret _))
    · have hw := within hn0 ho.2 hn
      exact ag_ite (ag_ret _) (ag_bind' (ag_each fun x _ => ag_lift _) fun _ => ag_bind' (ag_each fun x hx => ag_single (hw x hx) _)
        fun _ => ag_ite ag_pisi (ag_ret _))

/-- Nothing that was asked for is left out, and nothing is added for `system.base`. -/
def Kept (m : Machine σ) (o : Opts) (s : σ) : Cmd → Prop
  | .install args => NoBase m o s ∧ (o.reinstall = true ∨ ∀ x ∈ m.expand args, m.installed s x = false) ∧
      ∀ d, m.readFiles args = .ok d → ∀ x ∈ m.expand (m.missing s d), m.installed s x = false
  | .remove args => (∀ x ∈ m.expand args, m.installed s x = true) ∧ (o.bypassSafety = true ∨ ∀ b, m.base s = some b → ∀ x ∈ m.expand args, x ∉ b)
  | .upgrade args => NoBase m o s ∧ o.bypassUpdate = true ∧
      ∀ l, m.select s (wanted m s (.upgrade args)) = .ok l → l = wanted m s (.upgrade args)

theorem agreed_drop {p : Prog σ α} {b : β} {s : σ} (h : Agreed m l (p s).1) : Agreed m l (bind p (fun _ => ret b) s).1 :=
  agreed_bind h fun _ _ _ _ => agreed_mem fun _ h => nomatch h

/-- **C176, partial.**  So it is if everything that was asked for has to be treated and nothing is added for `system.base`. -/
theorem consent_partial (m : Machine σ) (o : Opts) (c : Cmd) (s : σ) (hf : Fair m) (hk : Kept m o s c) : Agreed m (wanted m s c) (c.run m o s).1 := by
  cases c with
  | install args =>
    obtain ⟨h1, h2, h3⟩ := hk
    show Agreed m _ ((if args = [] then ret () else Consent.install m o args) s).1
    cases args with
    | nil => exact agreed_mem fun _ h => nomatch h
    | cons x k =>
      rw [if_neg (fun h => nomatch h)]
      unfold Consent.install
      dsimp only
      by_cases hs : suffix.isSuffixOf x = true
      · rw [if_pos hs]
        by_cases ha : (k.all fun y => suffix.isSuffixOf y) = true
        · rw [if_pos ha]; exact agreed_mono (fun _ h => List.mem_append_left _ h) (agreed_files hf h1 h3)
        · rw [if_neg ha]; exact agreed_mem fun _ h => nomatch h
      · rw [if_neg hs]
        exact agreed_drop (agreed_mono (fun _ h => List.mem_append_right _ h) (agreed_names hf h1 h2))
  | remove args =>
    show Agreed m _ ((if args = [] then ret () else bind (Consent.remove m o args false) fun _ => ret ()) s).1
    by_cases h0 : args = []
    · rw [if_pos h0]; exact agreed_mem fun _ h => nomatch h
    · rw [if_neg h0]; exact agreed_drop (agreed_remove hf hk.1 hk.2)
  | upgrade args =>
    obtain ⟨h1, h2, h3⟩ := hk
    have e : (Cmd.upgrade args).run m o s = Consent.upgrade m o (if args = [] then m.allInstalled s else args) s := by
      unfold Cmd.run
      dsimp only
      rw [if_pos h2, bind_ok (show (ret () : Prog σ Unit) s = ([], s, .ok ()) from rfl), bind_read]
      rfl
    rw [e]
    have e2 : (if (if args = [] then m.allInstalled s else args) = [] then m.allInstalled s else (if args = [] then m.allInstalled s else args)) =
        (if args = [] then m.allInstalled s else args) := by
      by_cases h : args = []
      · rw [if_pos h]; by_cases h' : m.allInstalled s = []
        · rw [if_pos h']
        · rw [if_neg h']
      · rw [if_neg h, if_neg h]
    have := agreed_upgrade (A := if args = [] then m.allInstalled s else args) hf h1 (by rw [e2]; exact h3)
    rw [e2] at this
    exact this

/-! ## Cases -/

def nA : Str := ['a']
def nB : Str := ['b']
def nC : Str := ['c']
def nD : Str := ['d']
def nF : Str := ['f', '.', 'p', 'i', 's', 'i']

/-- A package comes along. -/
def along (x : Str) (A : List Str) : List Str := x :: A.eraseDups.filter (· ≠ x)

theorem eraseDups_nodup (A : List Str) : A.eraseDups.Nodup := by
  induction h : A.length using Nat.strongRecOn generalizing A with
  | ind n ih =>
    cases A with
    | nil => exact List.nodup_nil
    | cons a A =>
      rw [List.eraseDups_cons]
      refine List.nodup_cons.mpr ⟨fun h => ?_, ih _ ?_ _ rfl⟩
      · have := List.mem_eraseDups.mp h
        simp at this
      · rw [← h]; exact Nat.lt_succ_of_le (List.length_filter_le _ _)

theorem along_fair (x : Str) (A : List Str) : (along x A).Nodup ∧ ∀ y ∈ A, y ∈ along x A := by
  refine ⟨List.nodup_cons.mpr ⟨fun h => ?_, (eraseDups_nodup A).filter _⟩, fun y hy => ?_⟩
  · simpa using (List.mem_filter.mp h).2
  · by_cases h : y = x
    · rw [h]; exact List.mem_cons_self
    · exact List.mem_cons_of_mem _ (List.mem_filter.mpr ⟨List.mem_eraseDups.mpr hy, by simpa using h⟩)

/-- `a` needs `c`; `b` is installed, and `c` in conflict with `d`, which is installed, too. -/
def exM : Machine (List Str) where
  expand := List.eraseDups
  installed s x := decide (x ∈ s)
  allInstalled s := s
  base _ := none
  planInstall _ A := .ok (along nC A)
  planUpgrade _ A := .ok (along nC A)
  planRemove _ A := .ok (along nC A)
  planFiles _ d := .ok (d.map (·.1))
  upgradable _ _ := false
  select _ A := .ok (A.filter (· = nA))
  conflicts s _ := (if nD ∈ s then [nD] else [], [])
  sizes _ _ := true
  readFiles l := .ok (l.map fun x => (x, x))
  missing _ _ := [nA]
  fetch _ := .ok ()
  installName x s := (x :: s, .ok ())
  installFile x s := (x :: s, .ok ())
  upgradeOne x s := (x :: s, .ok ())
  removeOne x s := (s.filter (· ≠ x), .ok ())
  update x s := (x :: s, .ok ())
  repos _ := [['r']]
  rebuild s := s
  answer
    | .extra _ => some ['n']
    | _ => some ['y']
  letters := ['y', 'Y']

theorem exM_fair : Fair exM where
  expand := eraseDups_nodup
  install s A l _ h := by cases h; exact along_fair _ _
  upgrade s A l _ h := by cases h; exact along_fair _ _
  remove s A l _ h := by cases h; exact along_fair _ _
  select s A l h := by cases h; exact List.filter_sublist
  files l d h e he := by
    cases h
    obtain ⟨x, hx, rfl⟩ := List.mem_map.mp he
    exact hx
  plan s d l h x hx := by
    cases h
    obtain ⟨e, he, rfl⟩ := List.mem_map.mp hx
    exact ⟨e, he, rfl⟩

/-- Not so in full: with `--ignore-dependency` package files are installed in spite of `--dry-run`. -/
theorem dry_refuted : ¬ DryFull := fun h =>
  absurd (h _ exM { dryRun := true, ignoreDep := true } (.install [nF]) [] rfl) (by decide +kernel)

/-- `pisi upgrade --dry-run` updates the repositories. -/
theorem dry_update : (Cmd.run exM { dryRun := true } (.upgrade []) []).1 = [.updated ['r']] := by decide +kernel

/-- Not so in full: conflicting packages are removed before the question whether to go on is asked. -/
theorem decline_refuted : ¬ DeclineFull := fun h => by
  have := h _ exM {} (.install [nA]) [nB, nD] (.extra [nC, nA]) (by decide +kernel) (.did nD) (by decide +kernel)
  exact this trivial

/-- After a no to the packages that are needed the package files are installed all the same. -/
theorem decline_files : (Cmd.run exM {} (.install [nF]) []).1 =
    [.said (.external [nA]) true, .said (.extra [nC, nA]) false, .did nF] := by decide +kernel

/-- Not so in full: `pisi upgrade` installs new packages without a question, because the packages that need no upgrade are counted, too. -/
theorem consent_refuted : ¬ ConsentFull := fun h => by
  have := h _ exM { bypassUpdate := true } (.upgrade []) [nA, nB] exM_fair [] nC [.did nA] (by decide +kernel)
  rcases this with h | ⟨q, hq, _⟩
  · exact absurd h (by decide +kernel)
  · cases hq

/-- The same when packages are named that are installed already. -/
theorem consent_install : (Cmd.run exM {} (.install [nA, nB]) [nB]).1 = [.did nC, .did nA] := by decide +kernel

/-- And what is added for `system.base` counts as if it had been asked for, for the two sets are one and the same. -/
theorem consent_base : (Cmd.run { exM with base := fun _ => some [nD] } {} (.install [nA]) []).1 = [.did nC, .did nA, .did nD] := by decide +kernel

/-- Cases of the theorems. -/
example : (Cmd.run exM { ignoreConf := true } (.install [nA]) [nD]).1 = [.said (.extra [nC, nA]) false] := by decide +kernel
example : (Cmd.run exM { dryRun := true } (.install [nA]) [nD]).1 = [.said (.conflicts [nD]) true] := by decide +kernel
example : FirstNo (Cmd.run exM {} (.install [nA]) []).1 := ⟨[], .extra [nC, nA], [], by decide +kernel, fun _ h => nomatch h⟩
example : Kept exM { yesAll := true } [] (.install [nA]) ∧ (Cmd.run exM { yesAll := true } (.install [nA]) []).1 =
    [.said (.extra [nC, nA]) true, .did nC, .did nA] :=
  ⟨⟨.inr rfl, .inr fun _ _ => rfl, fun _ _ _ _ => rfl⟩, by decide +kernel⟩

end Pisi.Consent
