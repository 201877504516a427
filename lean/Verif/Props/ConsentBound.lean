import Verif.Props.Consent
import Verif.Spec.ConsentBound

/-! # C176: how much can be treated without a question -/
namespace Pisi.Consent
open Pisi.ConsentSpec
variable {σ α β : Type} {m : Machine σ} {o : Opts}

theorem treated_append (t u : List Ev) : treated (t ++ u) = treated t ++ treated u := by
  induction t with
  | nil => rfl
  | cons e t ih => cases e <;> simp [treated, ih]

theorem mem_treated {t : List Ev} {x : Str} : x ∈ treated t ↔ .did x ∈ t := by
  induction t with
  | nil => simp [treated]
  | cons e t ih => cases e <;> simp [treated, ih]

theorem treated_clear {t : List Ev} (h : Clear t) : treated t = [] :=
  List.eq_nil_iff_forall_not_mem.mpr fun _ hx => h _ (mem_treated.mp hx) trivial

theorem silent_iff {t : List Ev} : Silent t ↔ Unasked t := by
  constructor
  · exact fun h q b hq => h _ hq trivial
  · intro h e he ht
    cases e with
    | said q b => exact h q b he
    | did x => exact ht
    | updated x => exact ht
    | rebuilt => exact ht

/-- At most `n` packages are treated without a question. -/
def Bound (n : Nat) (p : Prog σ α) : Prop := ∀ s, Silent (p s).1 → (treated (p s).1).length ≤ n

theorem bound_plan {n : Nat} {p : Prog σ α} (h : Plan p) : Bound n p := fun s hs => by rw [treated_clear ((h s).1 hs)]; exact Nat.zero_le n

theorem bound_at {n : Nat} {p : Prog σ α} {f : α → Prog σ β} {s : σ} (hp : Plan p)
    (hf : ∀ t s' a, p s = (t, s', .ok a) → Silent (f a s').1 → (treated (f a s').1).length ≤ n) (hq : Silent (bind p f s).1) :
    (treated (bind p f s).1).length ≤ n := by
  rcases hps : p s with ⟨t, s', x | a⟩
  · rw [bind_err hps] at hq ⊢
    have := (hp s).1 (by rw [hps]; exact hq)
    rw [hps] at this
    dsimp only at this ⊢
    rw [treated_clear this]; exact Nat.zero_le n
  · rw [bind_ok hps] at hq ⊢
    dsimp only at hq ⊢
    obtain ⟨h1, h2⟩ := silent_append hq
    have := (hp s).1 (by rw [hps]; exact h1)
    rw [hps] at this
    dsimp only at this
    rw [treated_append, treated_clear this]
    exact hf t s' a hps h2

theorem bound_bind {n : Nat} {p : Prog σ α} {f : α → Prog σ β} (hp : Plan p) (hf : ∀ a, Bound n (f a)) : Bound n (bind p f) :=
  fun _ hq => bound_at hp (fun _ s' a _ h => hf a s' h) hq

theorem bound_add {k n : Nat} {p : Prog σ α} {f : α → Prog σ β} (hp : Bound k p) (hf : ∀ a, Bound n (f a)) : Bound (k + n) (bind p f) := by
  intro s hq
  rcases hps : p s with ⟨t, s', x | a⟩
  · rw [bind_err hps] at hq ⊢
    have := hp s (by rw [hps]; exact hq)
    rw [hps] at this
    exact Nat.le_trans this (Nat.le_add_right _ _)
  · rw [bind_ok hps] at hq ⊢
    dsimp only at hq ⊢
    obtain ⟨h1, h2⟩ := silent_append hq
    have := hp s (by rw [hps]; exact h1)
    rw [hps] at this
    rw [treated_append, List.length_append]
    exact Nat.add_le_add this (hf a s' h2)

theorem bound_ite {n : Nat} {c : Prop} [Decidable c] {p q : Prog σ α} (hp : c → Bound n p) (hq : ¬ c → Bound n q) : Bound n (if c then p else q) := by
  by_cases h : c
  · rw [if_pos h]; exact hp h
  · rw [if_neg h]; exact hq h

theorem bound_mono {k n : Nat} {p : Prog σ α} (h : Bound k p) (hk : k ≤ n) : Bound n p := fun s hq => Nat.le_trans (h s hq) hk

theorem bound_each {f : Str → Prog σ Unit} (hf : ∀ x, Bound 1 (f x)) : ∀ l : List Str, Bound l.length (each f l)
  | [] => bound_plan (plan_ret ())
  | _ :: l => bound_mono (bound_add (hf _) fun _ => bound_each hf l) (by rw [List.length_cons]; omega)

theorem bound_single {x : Str} (f : σ → σ × Except Err Unit) : Bound 1 (single (.did x) f) := fun _ _ => Nat.le_refl 1

/-- A question if there are more than `n`; whatever follows treats at most what is in the order. -/
theorem bound_ask {n k : Nat} {q : Ask} {f : Bool → Prog σ α} (ht : k ≤ n → Bound n (f true)) :
    Bound n (bind (if k > n then confirm m o q else ret true) f) := by
  intro s hq
  by_cases h : k > n
  · rw [if_pos h] at hq ⊢
    rcases confirm_cases (m := m) (o := o) q s with e | ⟨b, e⟩
    · rw [bind_err e]; exact Nat.zero_le n
    · rw [bind_ok e] at hq
      exact absurd hq not_silent
  · rw [if_neg h] at hq ⊢
    rw [bind_ok (show (ret true : Prog σ Bool) s = ([], s, .ok true) from rfl)] at hq ⊢
    exact ht (Nat.le_of_not_lt h) s hq

theorem bound_pisi {n : Nat} : Bound n (upgradePisi m) := fun _ _ => Nat.zero_le n

theorem bound_ret {n : Nat} (a : α) : Bound n (ret a : Prog σ α) := bound_plan (plan_ret a)

/-- Something is done to the packages of a list, and then to nothing any more. -/
theorem bound_then {k n : Nat} {p : Prog σ α} {f : α → Prog σ β} (hp : Bound k p) (hk : k ≤ n) (hf : ∀ a, Bound 0 (f a)) : Bound n (bind p f) :=
  bound_mono (bound_add hp hf) hk

theorem bound_remove (A : List Str) (i : Bool) : Bound (m.expand A).length (remove m o A i) := by
  unfold remove
  refine bound_bind (plan_lift _) fun A1 => bound_ite (fun _ => bound_ret _) fun _ => bound_bind (plan_ite (plan_lift _) (plan_ret _)) fun order => bound_ask fun hk => ?_
  refine bound_ite (fun _ => bound_ret _) fun _ => bound_ite (fun _ => bound_ret _) fun _ => bound_then (bound_each (fun x s hq => ?_) order) hk fun _ => bound_ret _
  by_cases h : m.installed s x = true
  · simp only [h, if_true]; exact bound_single (x := x) (m.removeOne x) s (by simp only [h, if_true] at hq; exact hq)
  · simp only [h, Bool.false_eq_true, if_false]; exact Nat.zero_le 1

theorem bound_upgrade (A : List Str) {n : Nat} {s : σ} (hn : n = (m.expand (if A = [] then m.allInstalled s else A)).length)
    (hq : Silent (upgrade m o A s).1) : (treated (upgrade m o A s).1).length ≤ n := by
  subst hn
  unfold upgrade at hq ⊢
  rw [bind_read] at hq ⊢
  refine bound_bind (n := (m.expand (if A = [] then m.allInstalled s else A)).length) (plan_lift _) (fun A1 => ?_) s hq
  refine bound_ite (fun _ => bound_ret _) fun _ => bound_bind (plan_base _) fun B => bound_bind (plan_ite (plan_ret _) (plan_planUpgrade _)) fun order => ?_
  refine bound_bind (plan_lift _) fun _ => bound_ite (fun _ => bound_ret _) fun _ => bound_ask fun hk => bound_ite (fun _ => bound_ret _) fun _ => ?_
  refine bound_bind (plan_nil ?_) fun _ => bound_then (bound_each (fun x => bound_single _) order) hk fun _ => bound_ite (fun _ => bound_pisi) fun _ => bound_ret _
  intro s
  clear hk hq
  induction order generalizing s with
  | nil => rfl
  | cons x l ih =>
    show (bind (lift fun _ => m.fetch x) (fun _ => each _ l) s).1 = []
    cases h : m.fetch x with
    | error e => rfl
    | ok u => rw [bind_lift (f := fun _ => Except.ok u) (a := u) rfl]; exact ih s

theorem bound_names (A : List Str) (r : Bool) {s : σ} (hb : NoBase m o s ∨ (r = false ∧ ∃ x ∈ m.expand A, m.installed s x = true))
    (hq : Silent (installNames m o A r s).1) : (treated (installNames m o A r s).1).length ≤ (m.expand A).length := by
  unfold installNames at hq ⊢
  rw [bind_read] at hq ⊢
  generalize hA : (if r then m.expand A else (m.expand A).filter fun x => !m.installed s x) = A1 at hq ⊢
  by_cases h0 : A1 = []
  · rw [if_pos h0]; exact Nat.zero_le _
  rw [if_neg h0] at hq ⊢
  refine bound_at (plan_base _) (fun t s' B hB hq => ?_) hq
  have e : (if A1 = m.expand A then union (m.expand A) B else m.expand A) = m.expand A := by
    rcases hb with hb | ⟨hr, x, hx, hi⟩
    · rw [base_none hb] at hB
      cases hB
      rw [union_nil]
      exact ite_self _
    · have : A1 ≠ m.expand A := fun h => by
        rw [← h, ← hA, hr] at hx
        have := (List.mem_filter.mp hx).2
        rw [hi] at this
        cases this
      rw [if_neg this]
  rw [e] at hq ⊢
  refine bound_bind (n := (m.expand A).length) (plan_ite (plan_ret _) (plan_planInstall _)) (fun order => ?_) s' hq
  refine bound_bind (plan_lift _) fun _ => bound_ite (fun _ => bound_ret _) fun _ => bound_ask fun hk => bound_ite (fun _ => bound_ret _) fun _ => ?_
  exact bound_bind (plan_lift _) fun _ => bound_then (bound_each (fun x => bound_single _) order) hk fun _ =>
    bound_then (bound_ite (fun _ => bound_pisi) fun _ => bound_ret _) (Nat.le_refl 0) fun _ => bound_ret _

/-- Installing files: without a question nothing but these is treated. -/
theorem files_given {uris : List Str} {s : σ} (hf : Fair m) (hq : Silent (installFiles m o uris s).1) :
    ∀ x ∈ treated (installFiles m o uris s).1, x ∈ uris := by
  have key : ∀ {p : Prog σ Unit} {s' : σ}, Agreed m uris (p s').1 → Silent (p s').1 → ∀ x ∈ treated (p s').1, x ∈ uris := by
    intro p s' ha hs x hx
    obtain ⟨pre, post, e⟩ := List.append_of_mem (mem_treated.mp hx)
    rcases ha pre x post e with h | ⟨q, h, _⟩
    · exact h
    · exact absurd trivial (hs (.said q true) (by rw [e]; exact List.mem_append_left _ h))
  refine key ?_ hq
  unfold installFiles at hq ⊢
  by_cases hi : o.ignoreDep = true
  · rw [if_pos hi]; exact ag_each (fun x hx => ag_single hx _) s
  rw [if_neg hi] at hq ⊢
  cases hr : m.readFiles uris with
  | error x => exact agreed_mem fun _ h => nomatch h
  | ok d =>
    rw [hr, bind_lift (f := fun _ => Except.ok d) (a := d) rfl, bind_read] at hq
    rw [bind_lift (f := fun _ => Except.ok d) (a := d) rfl, bind_read]
    by_cases hm : m.missing s d = []
    · rw [if_pos hm]
      refine agreed_bind (agreed_mem fun _ h => nomatch h) fun t s' a _ => ?_
      refine ag_ite (ag_ret _) (ag_bind (Q := fun order => ∀ x ∈ order, ∃ e ∈ d, e.1 = x) (ag_lift _) (fun s a h => hf.plan s d a h) fun order ho =>
        ag_bind' (ag_ite (ag_ret _) (ag_conflicts _)) fun _ => ag_ite (ag_ret _) (ag_each fun x hx => ag_single ?_ _)) s'
      exact fileOf_mem (hf.files uris d hr) (ho x (List.mem_reverse.mp hx))
    · rw [if_neg hm] at hq ⊢
      rcases confirm_cases (m := m) (o := o) (.external (m.missing s d)) s with h | ⟨b, h⟩
      · rw [bind_err (bind_err h)]; exact agreed_mem fun _ h => nomatch h
      · exfalso
        have hb := bind_ok (f := fun yes => if !yes then raise .pisi else bind (installNames m o (m.missing s d) false) fun _ => ret ()) h
        rcases hp : (bind (confirm m o (.external (m.missing s d))) fun yes => if !yes then raise .pisi else
          bind (installNames m o (m.missing s d) false) fun _ => ret ()) s with ⟨t, s', x | a⟩
        · rw [bind_err hp] at hq
          rw [hb] at hp
          have : t = _ := (congrArg Prod.fst hp).symm
          subst this
          exact not_silent hq
        · rw [bind_ok hp] at hq
          rw [hb] at hp
          have : t = _ := (congrArg Prod.fst hp).symm
          subst this
          exact not_silent (silent_append hq).1

/-- Two lists, of which the first is not longer. -/
theorem outside_le {D W : List Str} (hW : W.Nodup) (h : D.length ≤ W.length) : (D.filter (· ∉ W)).length ≤ (W.filter (· ∉ D)).length := by
  have h1 : (W.filter (· ∈ D)).length ≤ (D.filter (· ∈ W)).length :=
    (List.Nodup.subperm (List.Pairwise.filter _ hW) fun x hx =>
      List.mem_filter.mpr ⟨by simpa using (List.mem_filter.mp hx).2, by simpa using (List.mem_filter.mp hx).1⟩).length_le
  have h2 : ∀ A B : List Str, (A.filter (· ∈ B)).length + (A.filter (· ∉ B)).length = A.length := fun A B => by
    have := List.length_eq_length_filter_add (l := A) (fun x => decide (x ∈ B))
    simp only [← decide_not] at this
    omega
  have := h2 D W
  have := h2 W D
  omega

/-- **C176**, for all commands on packages: where no question is asked, there are at most as many packages treated without having been
named as there are named ones that are left alone.  For names of packages to install nothing must be added for `system.base`, or one of
them must be there already. -/
theorem consent_bound (m : Machine σ) (o : Opts) (c : Cmd) (s : σ) (hf : Fair m)
    (hi : ∀ args, c = .install args → NoBase m o s ∨ (o.reinstall = false ∧ ∃ x ∈ m.expand args, m.installed s x = true))
    (hu : ∀ args, c = .upgrade args → args ≠ [] ∨ o.bypassUpdate = true) (hq : Unasked (c.run m o s).1) :
    ((treated (c.run m o s).1).filter (· ∉ given m s c)).length ≤ ((given m s c).filter (· ∉ treated (c.run m o s).1)).length := by
  replace hq := silent_iff.mpr hq
  have drop : ∀ {p : Prog σ (Option Bool)} {n : Nat}, (Silent (p s).1 → (treated (p s).1).length ≤ n) →
      Silent (bind p (fun _ => ret ()) s).1 → (treated (bind p (fun _ => ret ()) s).1).length ≤ n := by
    intro p n h hs
    have e : (bind p (fun _ => ret ()) s).1 = (p s).1 := by
      rcases hps : p s with ⟨t, s', x | a⟩
      · rw [bind_err hps]
      · rw [bind_ok hps]; exact List.append_nil t
    rw [e] at hs ⊢
    exact h hs
  cases c with
  | install args =>
    cases args with
    | nil => exact Nat.zero_le _
    | cons x k =>
      have er : (Cmd.install (x :: k)).run m o s = Consent.install m o (x :: k) s := by
        show (if x :: k = [] then ret () else Consent.install m o (x :: k)) s = _
        rw [if_neg (fun h => nomatch h)]
      rw [er] at hq ⊢
      unfold Consent.install at hq ⊢
      unfold given
      dsimp only at hq ⊢
      by_cases hs : suffix.isSuffixOf x = true
      · rw [if_pos hs] at hq
        simp only [if_pos hs]
        by_cases ha : (k.all fun y => suffix.isSuffixOf y) = true
        · simp only [if_pos ha] at hq ⊢
          have := files_given hf hq
          rw [List.filter_eq_nil_iff.mpr (fun y hy => by simp only [decide_not, Bool.not_eq_true', decide_eq_false_iff_not, Classical.not_not]; exact this y hy)]
          exact Nat.zero_le _
        · simp only [if_neg ha]; exact Nat.zero_le _
      · rw [if_neg hs] at hq
        simp only [if_neg hs]
        exact outside_le (hf.expand _) (drop (bound_names _ _ (hi _ rfl)) hq)
  | remove args =>
    have er : (Cmd.remove args).run m o s = (if args = [] then ret () else bind (Consent.remove m o args false) fun _ => ret ()) s := rfl
    rw [er] at hq ⊢
    by_cases h0 : args = []
    · simp only [if_pos h0]; exact Nat.zero_le _
    · simp only [if_neg h0] at hq ⊢
      exact outside_le (hf.expand _) (drop (bound_remove (m := m) (o := o) args false s) hq)
  | upgrade args =>
    refine outside_le (hf.expand _) ?_
    have er : (Cmd.upgrade args).run m o = bind (if o.bypassUpdate then ret () else bind (lift fun s => .ok (m.repos s)) fun l =>
      each (fun x => single (.updated x) (m.update x)) l) fun _ =>
        bind (lift fun s => .ok (if args = [] then m.allInstalled s else args)) fun A => Consent.upgrade m o A := rfl
    rw [er] at hq ⊢
    refine bound_at (plan_ite (plan_ret _) (plan_bind (plan_lift _) fun l => plan_updates l)) (fun t s' a hs hq => ?_) hq
    rw [bind_read] at hq ⊢
    refine bound_upgrade _ ?_ hq
    rcases hu args rfl with h | h
    · simp only [given, if_neg h]
    · have : s' = s := by
        rw [if_pos h] at hs
        exact (congrArg (fun z => z.2.1) hs).symm
      subst this
      unfold given
      by_cases h : args = []
      · simp only [if_pos h]; by_cases h' : m.allInstalled s' = [] <;> simp [h']
      · simp only [if_neg h]

/-- The case of `consent_install`: one of two names is there already, and one package that was not named is installed without a
question. -/
example : ((treated (Cmd.run exM {} (.install [nA, nB]) [nB]).1).filter (· ∉ given exM [nB] (.install [nA, nB]))).length = 1 ∧
    ((given exM [nB] (.install [nA, nB])).filter (· ∉ treated (Cmd.run exM {} (.install [nA, nB]) [nB]).1)).length = 1 := by decide +kernel

example : ((treated (Cmd.run exM {} (.install [nA, nB]) [nB]).1).filter (· ∉ given exM [nB] (.install [nA, nB]))).length ≤
    ((given exM [nB] (.install [nA, nB])).filter (· ∉ treated (Cmd.run exM {} (.install [nA, nB]) [nB]).1)).length :=
  consent_bound exM {} (.install [nA, nB]) [nB] exM_fair (fun _ h => by cases h; exact .inr (by decide +kernel)) (fun _ h => by cases h)
    (by intro q b h; rw [consent_install] at h; simp at h)

end Pisi.Consent
