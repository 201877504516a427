/-
C143: what a build sees of the environment does not depend on what was built
before it in the same run.
-/
import Verif.Spec.BuildEnv
import Mathlib.Data.List.Forall2

namespace Pisi.BuildEnv

open Pisi.BuildEnvSpec

/-- Two states that differ at most in the variables `S` of programs. -/
def Agree (S : Str → Prop) (s t : Proc) : Prop :=
  s.py = t.py ∧ s.init = t.init ∧ ∀ k, ¬ S k → s.c k = t.c k

theorem Agree.mono {S T : Str → Prop} {s t : Proc} (h : Agree S s t)
    (hST : ∀ k, S k → T k) : Agree T s t :=
  ⟨h.1, h.2.1, fun k hk => h.2.2 k (fun hS => hk (hST k hS))⟩

theorem put_same (e : Env) (k : Str) (v : Option Str) : put e k v k = v := by
  simp [put]

theorem put_other (e : Env) {k x : Str} (v : Option Str) (h : x ≠ k) : put e k v x = e x := by
  simp [put, h]

theorem setItem_agree {S : Str → Prop} {s t : Proc} (h : Agree S s t) (k v : Str) :
    Agree (fun x => S x ∧ x ≠ k) (setItem s k v) (setItem t k v) := by
  refine ⟨?_, h.2.1, ?_⟩
  · simp [setItem, h.1]
  · intro x hx
    by_cases hk : x = k
    · subst hk; simp [setItem, put]
    · have : ¬ S x := fun hS => hx ⟨hS, hk⟩
      simp [setItem, put, hk, h.2.2 x this]

theorem setAll_agree {S : Str → Prop} (l : List (Str × Str)) :
    ∀ {s t : Proc}, Agree S s t →
      Agree (fun x => S x ∧ x ∉ l.map Prod.fst) (setAll s l) (setAll t l) := by
  induction l generalizing S with
  | nil => intro s t h; exact h.mono (fun k hk => ⟨hk, by simp⟩)
  | cons kv l ih =>
    intro s t h
    have := ih (setItem_agree h kv.1 kv.2)
    refine Agree.mono this ?_
    intro k hk
    refine ⟨hk.1.1, ?_⟩
    simp only [List.map_cons, List.mem_cons, not_or]
    exact ⟨hk.1.2, hk.2⟩

theorem table_keys (cf : Conf) (p : Pkg) : (table cf p).map Prod.fst = own := rfl

theorem reset_agree {S : Str → Prop} {s t : Proc} (h : Agree S s t) :
    Agree S (reset s) (reset t) := ⟨h.2.1, h.2.1, h.2.2⟩

theorem setEnvironment_agree {S : Str → Prop} {s t : Proc} (cf : Conf) (p : Pkg)
    (h : Agree S s t) :
    (setEnvironment cf s p = none ∧ setEnvironment cf t p = none) ∨
    ∃ s' t', setEnvironment cf s p = some s' ∧ setEnvironment cf t p = some t' ∧
      Agree (fun k => S k ∧ ¬ Sets cf k) s' t' := by
  have h1 := setAll_agree (table cf p) (reset_agree h)
  rw [table_keys] at h1
  unfold setEnvironment
  cases hh : cf.helper with
  | none =>
    refine Or.inr ⟨_, _, rfl, rfl, h1.mono ?_⟩
    intro k hk
    refine ⟨hk.1, ?_⟩
    rintro (h2 | h2)
    · exact hk.2 h2
    · exact h2.2 hh
  | some d =>
    simp only []
    have hpy := h1.1
    rw [← hpy]
    cases hp : (setAll (reset s) (table cf p)).py pathVar with
    | none => exact Or.inl ⟨rfl, rfl⟩
    | some v =>
      refine Or.inr ⟨_, _, rfl, rfl, (setItem_agree h1 pathVar (d ++ v)).mono ?_⟩
      intro k hk
      refine ⟨hk.1.1, ?_⟩
      rintro (h2 | h2)
      · exact hk.1.2 h2
      · exact hk.2 h2.1

theorem exec_agree {S : Str → Prop} (l : List Step) :
    ∀ {s t : Proc}, Agree S s t →
      Agree S (exec s l).1 (exec t l).1 ∧
      List.Forall₂ (Same S) (exec s l).2.1 (exec t l).2.1 ∧
      (exec s l).2.2 = (exec t l).2.2 := by
  induction l with
  | nil => intro s t h; exact ⟨h, .nil, rfl⟩
  | cons a l ih =>
    intro s t h
    cases a with
    | «export» k f =>
      simp only [exec]
      rw [h.1]
      exact ih ((setItem_agree h k (f t.py)).mono (fun _ hk => hk.1))
    | unset k =>
      simp only [exec, delItem, h.1]
      cases ht : t.py k with
      | none => exact ⟨h, .nil, rfl⟩
      | some v =>
        refine ih ⟨rfl, h.2.1, ?_⟩
        intro x hx
        by_cases hxk : x = k
        · subst hxk; simp [put]
        · simp [put, hxk, h.2.2 x hx]
    | get k =>
      simp only [exec]
      obtain ⟨h1, h2, h3⟩ := ih h
      exact ⟨h1, .cons ⟨rfl, by rw [h.1]⟩ h2, h3⟩
    | run =>
      simp only [exec]
      obtain ⟨h1, h2, h3⟩ := ih h
      exact ⟨h1, .cons h.2.2 h2, h3⟩

/-- Two states that differ at most in `S` make a build see the same, but for
the variables of `S` that it does not set itself. -/
theorem build_agree {S : Str → Prop} {s t : Proc} (cf : Conf) (p : Pkg) (h : Agree S s t) :
    List.Forall₂ (Same (fun k => S k ∧ ¬ Sets cf k))
      (build cf s p).2.top (build cf t p).2.top ∧
    List.Forall₂ (Same (fun k => (S k ∧ ¬ Sets cf k) ∧ k ≠ srcDirVar))
      (build cf s p).2.body (build cf t p).2.body := by
  rcases setEnvironment_agree cf p h with ⟨h1, h2⟩ | ⟨s', t', h1, h2, h3⟩
  · simp only [build, h1, h2]
    exact ⟨.nil, .nil⟩
  · obtain ⟨g1, g2, g3⟩ := exec_agree p.top h3
    simp only [build, h1, h2]
    rcases hs : exec s' p.top with ⟨s2, o, b⟩
    rcases ht : exec t' p.top with ⟨t2, o', b'⟩
    rw [hs, ht] at g1 g2 g3
    simp only at g1 g2 g3
    subst g3
    cases b with
    | false => exact ⟨g2, .nil⟩
    | true =>
      obtain ⟨k1, k2, k3⟩ := exec_agree p.body (setItem_agree g1 srcDirVar p.srcDir)
      simp only []
      rcases hs' : exec (setItem s2 srcDirVar p.srcDir) p.body with ⟨s3, u, c⟩
      rcases ht' : exec (setItem t2 srcDirVar p.srcDir) p.body with ⟨t3, u', c'⟩
      rw [hs', ht'] at k1 k2 k3
      simp only at k1 k2 k3
      subst k3
      cases c with
      | false => exact ⟨g2, k2⟩
      | true => exact ⟨g2, k2⟩

/-! ### What a build leaves -/

theorem setAll_other (l : List (Str × Str)) (k : Str) (hk : k ∉ l.map Prod.fst) :
    ∀ s : Proc, (setAll s l).c k = s.c k ∧ (setAll s l).py k = s.py k := by
  induction l with
  | nil => intro s; exact ⟨rfl, rfl⟩
  | cons kv l ih =>
    intro s
    simp only [List.map_cons, List.mem_cons, not_or] at hk
    have := ih hk.2 (setItem s kv.1 kv.2)
    simp only [setAll, List.foldl_cons] at this ⊢
    rw [this.1, this.2]
    simp [setItem, put, hk.1]

theorem setAll_init (l : List (Str × Str)) : ∀ s : Proc, (setAll s l).init = s.init := by
  induction l with
  | nil => intro s; rfl
  | cons kv l ih => intro s; exact ih (setItem s kv.1 kv.2)

theorem setEnvironment_other {cf : Conf} {s s' : Proc} {p : Pkg}
    (h : setEnvironment cf s p = some s') :
    s'.init = s.init ∧ ∀ k, ¬ Sets cf k → s'.c k = s.c k ∧ s'.py k = s.init k := by
  unfold setEnvironment at h
  have hk : ∀ k, ¬ Sets cf k → k ∉ (table cf p).map Prod.fst := by
    intro k hk hm
    rw [table_keys] at hm
    exact hk (Or.inl hm)
  cases hh : cf.helper with
  | none =>
    rw [hh] at h
    simp only [Option.some.injEq] at h
    subst h
    refine ⟨setAll_init _ _, fun k hk' => ?_⟩
    exact setAll_other _ k (hk k hk') (reset s)
  | some d =>
    rw [hh] at h
    simp only [] at h
    split at h
    · cases h
    · rename_i v hv
      simp only [Option.some.injEq] at h
      subst h
      refine ⟨setAll_init _ _, fun k hk' => ?_⟩
      have hp : k ≠ pathVar := fun hp => hk' (Or.inr ⟨hp, by simp [hh]⟩)
      have := setAll_other (table cf p) k (hk k hk') (reset s)
      simp only [setItem, put, hp, if_false]
      exact this

/-- A script names the variable in one of its steps. -/
def StepChanges (l : List Step) (k : Str) : Prop :=
  (∃ f, Step.export k f ∈ l) ∨ Step.unset k ∈ l

theorem exec_other (l : List Step) (k : Str) :
    ∀ s : Proc, (exec s l).1.init = s.init ∧ (¬ StepChanges l k →
      (exec s l).1.c k = s.c k ∧ (exec s l).1.py k = s.py k) := by
  induction l with
  | nil => intro s; exact ⟨rfl, fun _ => ⟨rfl, rfl⟩⟩
  | cons a l ih =>
    intro s
    have hmono : ¬ StepChanges (a :: l) k → ¬ StepChanges l k := by
      rintro h (⟨f, hf⟩ | hf)
      · exact h (Or.inl ⟨f, List.mem_cons_of_mem _ hf⟩)
      · exact h (Or.inr (List.mem_cons_of_mem _ hf))
    cases a with
    | «export» x f =>
      simp only [exec]
      obtain ⟨h1, h2⟩ := ih (setItem s x (f s.py))
      refine ⟨h1, fun hc => ?_⟩
      obtain ⟨h3, h4⟩ := h2 (hmono hc)
      have hne : k ≠ x := by
        rintro rfl
        exact hc (Or.inl ⟨f, List.mem_cons_self⟩)
      rw [h3, h4]
      simp [setItem, put, hne]
    | unset x =>
      simp only [exec, delItem]
      cases hx : s.py x with
      | none => exact ⟨rfl, fun _ => ⟨rfl, rfl⟩⟩
      | some v =>
        obtain ⟨h1, h2⟩ := ih { s with py := put s.py x none, c := put s.c x none }
        refine ⟨h1, fun hc => ?_⟩
        obtain ⟨h3, h4⟩ := h2 (hmono hc)
        have hne : k ≠ x := by
          rintro rfl
          exact hc (Or.inr List.mem_cons_self)
        simp only []
        rw [h3, h4]
        simp [put, hne]
    | get x =>
      simp only [exec]
      obtain ⟨h1, h2⟩ := ih s
      exact ⟨h1, fun hc => h2 (hmono hc)⟩
    | run =>
      simp only [exec]
      obtain ⟨h1, h2⟩ := ih s
      exact ⟨h1, fun hc => h2 (hmono hc)⟩

/-- A successful build leaves the interpreter the environment pisi was started
with, and programs that one but for what builds and the script set. -/
theorem build_leaves {cf : Conf} {s s' : Proc} {p : Pkg} (h : (build cf s p).1 = some s') :
    s'.init = s.init ∧ s'.py = s.init ∧
    ∀ k, ¬ Sets cf k → k ≠ srcDirVar → ¬ Changes p k → s'.c k = s.c k := by
  unfold build at h
  cases he : setEnvironment cf s p with
  | none => rw [he] at h; cases h
  | some s1 =>
    rw [he] at h
    obtain ⟨e1, e2⟩ := setEnvironment_other he
    simp only [] at h
    rcases ht : exec s1 p.top with ⟨s2, o, b⟩
    rw [ht] at h
    cases b with
    | false => cases h
    | true =>
      simp only [] at h
      rcases hb : exec (setItem s2 srcDirVar p.srcDir) p.body with ⟨s3, u, c⟩
      rw [hb] at h
      cases c with
      | false => cases h
      | true =>
        simp only [Option.some.injEq] at h
        subst h
        have i1 := (exec_other p.top [] s1).1
        have i2 := (exec_other p.body [] (setItem s2 srcDirVar p.srcDir)).1
        rw [ht] at i1
        rw [hb] at i2
        have hi : s3.init = s.init := by
          rw [i2]
          show s2.init = s.init
          rw [i1, e1]
        refine ⟨hi, hi, ?_⟩
        intro k hS hd hc
        have hct : ¬ StepChanges p.top k := by
          rintro (⟨f, hf⟩ | hf)
          · exact hc (Or.inl ⟨f, List.mem_append_left _ hf⟩)
          · exact hc (Or.inr (List.mem_append_left _ hf))
        have hcb : ¬ StepChanges p.body k := by
          rintro (⟨f, hf⟩ | hf)
          · exact hc (Or.inl ⟨f, List.mem_append_right _ hf⟩)
          · exact hc (Or.inr (List.mem_append_right _ hf))
        have j1 := ((exec_other p.top k s1).2 hct).1
        have j2 := ((exec_other p.body k (setItem s2 srcDirVar p.srcDir)).2 hcb).1
        rw [ht] at j1
        rw [hb] at j2
        show s3.c k = s.c k
        rw [j2]
        simp only [setItem, put, hd, if_false]
        rw [j1, (e2 k hS).1]

/-- The state after builds: the interpreter sees the environment pisi was
started with, and programs see it but for what was set. -/
theorem builds_leave (cf : Conf) (hist : List Pkg) :
    ∀ {s s' : Proc}, builds cf s hist = some s' → s.py = s.init →
      s'.init = s.init ∧ s'.py = s.init ∧
      ∀ k, ¬ Sets cf k → k ≠ srcDirVar → ¬ Touched hist k → s'.c k = s.c k := by
  induction hist with
  | nil =>
    intro s s' h hi
    simp only [builds, Option.some.injEq] at h
    subst h
    exact ⟨rfl, hi, fun _ _ _ _ => rfl⟩
  | cons p l ih =>
    intro s s' h hi
    simp only [builds] at h
    cases hb : (build cf s p).1 with
    | none => rw [hb] at h; cases h
    | some s1 =>
      rw [hb] at h
      obtain ⟨b1, b2, b3⟩ := build_leaves hb
      obtain ⟨c1, c2, c3⟩ := ih h (by rw [b1, b2])
      refine ⟨by rw [c1, b1], by rw [c2, b1], ?_⟩
      intro k hS hd ht
      have h1 : ¬ Changes p k := fun hc => ht ⟨p, List.mem_cons_self, hc⟩
      have h2 : ¬ Touched l k := fun ⟨q, hq, hc⟩ => ht ⟨q, List.mem_cons_of_mem _ hq, hc⟩
      rw [c3 k hS hd h2, b3 k hS hd h1]

/-! ### C143 -/

/-- **C143, full statement**: after any packages were built, a build sees what
it would see if it were the first. -/
def BuildSeesFull : Prop :=
  ∀ (cf : Conf) (e : Env) (hist : List Pkg) (p : Pkg) (s : Proc),
    builds cf (start e) hist = some s →
      (build cf s p).2 = (build cf (start e) p).2

theorem builds_agree {cf : Conf} {e : Env} {hist : List Pkg} {s : Proc}
    (h : builds cf (start e) hist = some s) :
    Agree (fun k => Touched hist k ∨ Sets cf k ∨ k = srcDirVar) s (start e) := by
  obtain ⟨h1, h2, h3⟩ := builds_leave cf hist h rfl
  refine ⟨h2, h1, fun k hk => ?_⟩
  simp only [not_or] at hk
  exact h3 k hk.2.1 hk.2.2 hk.1

/-- **C143, partial.**  After any packages were built, what a build sees
differs from what it would see if it were the first at most in the variables
that earlier scripts changed and builds do not set, and only programs see the
difference; while the script is being loaded programs may also see another
`SRC_DIR`. -/
theorem build_sees_partial (cf : Conf) (e : Env) (hist : List Pkg) (p : Pkg) (s : Proc)
    (h : builds cf (start e) hist = some s) :
    List.Forall₂ (Same (fun k => (Touched hist k ∨ k = ['S','R','C','_','D','I','R']) ∧
        ¬ Sets cf k))
      (build cf s p).2.top (build cf (start e) p).2.top ∧
    List.Forall₂ (Same (fun k => Touched hist k ∧ ¬ Sets cf k ∧ k ≠ ['S','R','C','_','D','I','R']))
      (build cf s p).2.body (build cf (start e) p).2.body := by
  obtain ⟨h1, h2⟩ := build_agree cf p (builds_agree h)
  have mono : ∀ {S T : Str → Prop} {l l' : List Obs}, List.Forall₂ (Same S) l l' →
      (∀ k, S k → T k) → List.Forall₂ (Same T) l l' := by
    intro S T l l' hl hST
    refine hl.imp ?_
    intro a b hab
    cases a <;> cases b <;> simp only [Same] at hab ⊢
    · exact hab
    · exact fun k hk => hab k (fun hS => hk (hST k hS))
  refine ⟨mono h1 ?_, mono h2 ?_⟩
  · rintro k ⟨h3 | h3 | h3, h4⟩
    · exact ⟨Or.inl h3, h4⟩
    · exact absurd h3 h4
    · exact ⟨Or.inr h3, h4⟩
  · rintro k ⟨⟨h3 | h3 | h3, h4⟩, h5⟩
    · exact ⟨h3, h4, h5⟩
    · exact absurd h3 h4
    · exact absurd h3 h5

theorem reads_same {S : Str → Prop} {l l' : List Obs} (h : List.Forall₂ (Same S) l l') :
    reads l = reads l' := by
  induction h with
  | nil => rfl
  | @cons a b l l' hab _ ih =>
    cases a <;> cases b <;> simp only [Same] at hab
    · simp [reads, hab.1, hab.2, ih]
    · simpa [reads] using ih

theorem Same.eq {a b : Obs} (h : Same (fun _ => False) a b) : a = b := by
  cases a <;> cases b <;> simp only [Same] at h
  · rw [h.1, h.2]
  · congr 1; funext k; exact h k id

/-- What actions scripts read themselves does not depend on what was built
before, in any part of the build. -/
theorem reads_do_not_depend (cf : Conf) (e : Env) (hist : List Pkg) (p : Pkg) (s : Proc)
    (h : builds cf (start e) hist = some s) :
    reads (build cf s p).2.top = reads (build cf (start e) p).2.top ∧
    reads (build cf s p).2.body = reads (build cf (start e) p).2.body := by
  obtain ⟨h1, h2⟩ := build_sees_partial cf e hist p s h
  exact ⟨reads_same h1, reads_same h2⟩

/-- When earlier scripts changed nothing but what builds set themselves, the
functions of a script and the programs they run see exactly what they would
see if the build were the first. -/
theorem body_does_not_depend (cf : Conf) (e : Env) (hist : List Pkg) (p : Pkg) (s : Proc)
    (h : builds cf (start e) hist = some s)
    (hq : ∀ k, Touched hist k → Sets cf k ∨ k = ['S','R','C','_','D','I','R']) :
    (build cf s p).2.body = (build cf (start e) p).2.body := by
  obtain ⟨_, h2⟩ := build_sees_partial cf e hist p s h
  have : List.Forall₂ Eq (build cf s p).2.body (build cf (start e) p).2.body := by
    refine h2.imp ?_
    intro a b hab
    apply Same.eq
    cases a <;> cases b <;> simp only [Same] at hab ⊢
    · exact hab
    · intro k _
      refine hab k ?_
      rintro ⟨g1, g2, g3⟩
      rcases hq k g1 with g | g
      · exact g2 g
      · exact g3 g
  simpa using this

/-! ### The variables of the build itself -/

theorem setAll_mem (l : List (Str × Str)) (hn : (l.map Prod.fst).Nodup) {k v : Str}
    (hm : (k, v) ∈ l) : ∀ s : Proc, (setAll s l).c k = some v ∧ (setAll s l).py k = some v := by
  induction l with
  | nil => cases hm
  | cons kv l ih =>
    intro s
    simp only [List.map_cons, List.nodup_cons] at hn
    rcases List.mem_cons.1 hm with rfl | hm
    · have := setAll_other l k hn.1 (setItem s k v)
      simp only [setAll, List.foldl_cons] at this ⊢
      rw [this.1, this.2]
      simp [setItem, put]
    · exact ih hn.2 hm (setItem s kv.1 kv.2)

theorem setEnvironment_table {cf : Conf} {s s' : Proc} {p : Pkg}
    (h : setEnvironment cf s p = some s') {k v : Str} (hm : (k, v) ∈ table cf p) :
    s'.c k = some v ∧ s'.py k = some v := by
  have hn : ((table cf p).map Prod.fst).Nodup := by rw [table_keys]; decide
  have hb := setAll_mem _ hn hm (reset s)
  have hp : k ≠ pathVar := by
    have : k ∈ own := by rw [← table_keys cf p]; exact List.mem_map.2 ⟨_, hm, rfl⟩
    rintro rfl
    revert this; decide
  unfold setEnvironment at h
  cases hh : cf.helper with
  | none =>
    rw [hh] at h
    simp only [Option.some.injEq] at h
    subst h
    exact hb
  | some d =>
    rw [hh] at h
    simp only [] at h
    split at h
    · cases h
    · simp only [Option.some.injEq] at h
      subst h
      simp only [setItem, put, hp, if_false]
      exact hb

theorem exec_sees (l : List Step) (k v : Str) (hc : ¬ StepChanges l k) :
    ∀ s : Proc, s.c k = some v → s.py k = some v →
      (∀ e, Obs.ran e ∈ (exec s l).2.1 → e k = some v) ∧
      (∀ w, Obs.got k w ∈ (exec s l).2.1 → w = some v) := by
  induction l with
  | nil => intro s _ _; simp [exec]
  | cons a l ih =>
    intro s h1 h2
    have hcl : ¬ StepChanges l k := by
      rintro (⟨f, hf⟩ | hf)
      · exact hc (Or.inl ⟨f, List.mem_cons_of_mem _ hf⟩)
      · exact hc (Or.inr (List.mem_cons_of_mem _ hf))
    cases a with
    | «export» x f =>
      have hne : k ≠ x := by rintro rfl; exact hc (Or.inl ⟨f, List.mem_cons_self⟩)
      simp only [exec]
      exact ih hcl _ (by simp [setItem, put, hne, h1]) (by simp [setItem, put, hne, h2])
    | unset x =>
      have hne : k ≠ x := by rintro rfl; exact hc (Or.inr List.mem_cons_self)
      simp only [exec, delItem]
      cases hx : s.py x with
      | none => simp
      | some w =>
        exact ih hcl _ (by simp [put, hne, h1]) (by simp [put, hne, h2])
    | get x =>
      simp only [exec]
      obtain ⟨i1, i2⟩ := ih hcl s h1 h2
      refine ⟨fun e he => ?_, fun w hw => ?_⟩
      · rcases List.mem_cons.1 he with he | he
        · cases he
        · exact i1 e he
      · rcases List.mem_cons.1 hw with hw | hw
        · cases hw; exact h2
        · exact i2 w hw
    | run =>
      simp only [exec]
      obtain ⟨i1, i2⟩ := ih hcl s h1 h2
      refine ⟨fun e he => ?_, fun w hw => ?_⟩
      · rcases List.mem_cons.1 he with he | he
        · cases he; exact h1
        · exact i1 e he
      · rcases List.mem_cons.1 hw with hw | hw
        · cases hw
        · exact i2 w hw

/-- Whatever happened before, every program that a build runs and every read of
its script sees the flags of the configuration and the directories, name,
version and release of the package, unless the script itself changes the
variable; and in its functions also its source directory. -/
theorem build_sees_own (cf : Conf) (s : Proc) (p : Pkg) (k v : Str)
    (hc : ¬ Changes p k) :
    ((k, v) ∈
      [(['H','O','S','T'], cf.host), (['C','F','L','A','G','S'], cf.cflags),
       (['C','X','X','F','L','A','G','S'], cf.cxxflags),
       (['L','D','F','L','A','G','S'], cf.ldflags),
       (['U','S','E','R','_','L','D','F','L','A','G','S'], cf.ldflags),
       (['J','O','B','S'], cf.jobs), (['P','K','G','_','D','I','R'], p.pkgDir),
       (['W','O','R','K','_','D','I','R'], p.workDir),
       (['I','N','S','T','A','L','L','_','D','I','R'], p.installDir),
       (['S','R','C','_','N','A','M','E'], p.name),
       (['S','R','C','_','V','E','R','S','I','O','N'], p.version),
       (['S','R','C','_','R','E','L','E','A','S','E'], p.release)] →
      (∀ e, Obs.ran e ∈ (build cf s p).2.top ++ (build cf s p).2.body → e k = some v) ∧
      (∀ w, Obs.got k w ∈ (build cf s p).2.top ++ (build cf s p).2.body → w = some v)) ∧
    (k = ['S','R','C','_','D','I','R'] → v = p.srcDir →
      (∀ e, Obs.ran e ∈ (build cf s p).2.body → e k = some v) ∧
      (∀ w, Obs.got k w ∈ (build cf s p).2.body → w = some v)) := by
  have hct : ¬ StepChanges p.top k := by
    rintro (⟨f, hf⟩ | hf)
    · exact hc (Or.inl ⟨f, List.mem_append_left _ hf⟩)
    · exact hc (Or.inr (List.mem_append_left _ hf))
  have hcb : ¬ StepChanges p.body k := by
    rintro (⟨f, hf⟩ | hf)
    · exact hc (Or.inl ⟨f, List.mem_append_right _ hf⟩)
    · exact hc (Or.inr (List.mem_append_right _ hf))
  cases he : setEnvironment cf s p with
  | none => simp [build, he]
  | some s1 =>
    rcases ht : exec s1 p.top with ⟨s2, o, b⟩
    rcases hb : exec (setItem s2 srcDirVar p.srcDir) p.body with ⟨s3, u, c⟩
    have hbuild : (build cf s p).2.top = o ∧
        ((build cf s p).2.body = [] ∨ (build cf s p).2.body = u) := by
      simp only [build, he, ht]
      cases b with
      | false => exact ⟨rfl, Or.inl rfl⟩
      | true =>
        simp only [hb]
        cases c <;> exact ⟨rfl, Or.inr rfl⟩
    obtain ⟨b1, b2⟩ := hbuild
    have hbody : ∀ x, x ∈ (build cf s p).2.body → x ∈ u := by
      intro x hx
      rcases b2 with b2 | b2
      · rw [b2] at hx; cases hx
      · rwa [b2] at hx
    constructor
    · intro hm
      have hm' : (k, v) ∈ table cf p := hm
      obtain ⟨g1, g2⟩ := setEnvironment_table he hm'
      have hk : k ∈ own := by rw [← table_keys cf p]; exact List.mem_map.2 ⟨_, hm', rfl⟩
      have hne : k ≠ srcDirVar := by rintro rfl; revert hk; decide
      obtain ⟨t1, t2⟩ := exec_sees p.top k v hct s1 g1 g2
      obtain ⟨j1, j2⟩ := (exec_other p.top k s1).2 hct
      rw [ht] at t1 t2 j1 j2
      simp only [] at t1 t2 j1 j2
      obtain ⟨u1, u2⟩ := exec_sees p.body k v hcb (setItem s2 srcDirVar p.srcDir)
        (by simp [setItem, put, hne, j1, g1]) (by simp [setItem, put, hne, j2, g2])
      rw [hb] at u1 u2
      refine ⟨fun e hx => ?_, fun w hx => ?_⟩
      · rcases List.mem_append.1 hx with hx | hx
        · rw [b1] at hx; exact t1 e hx
        · exact u1 e (hbody _ hx)
      · rcases List.mem_append.1 hx with hx | hx
        · rw [b1] at hx; exact t2 w hx
        · exact u2 w (hbody _ hx)
    · rintro rfl rfl
      obtain ⟨u1, u2⟩ := exec_sees p.body _ p.srcDir hcb (setItem s2 srcDirVar p.srcDir)
        (by simp [setItem, put, srcDirVar]) (by simp [setItem, put, srcDirVar])
      rw [hb] at u1 u2
      exact ⟨fun e hx => u1 e (hbody _ hx), fun w hx => u2 w (hbody _ hx)⟩

/-! ### The build helper -/

/-- With a build helper every build puts it in front of the `PATH` that pisi
was started with, once, whatever was built before. -/
theorem helper_once (cf : Conf) (e : Env) (hist : List Pkg) (p : Pkg) (s : Proc) (d v : Str)
    (h : builds cf (start e) hist = some s) (hd : cf.helper = some d)
    (hv : e ['P','A','T','H'] = some v) :
    ∃ s', setEnvironment cf s p = some s' ∧
      s'.c ['P','A','T','H'] = some (d ++ v) ∧ s'.py ['P','A','T','H'] = some (d ++ v) := by
  obtain ⟨h1, h2, _⟩ := builds_leave cf hist h rfl
  have hpath : (setAll (reset s) (table cf p)).py pathVar = some v := by
    rw [(setAll_other (table cf p) pathVar (by rw [table_keys]; decide) (reset s)).2]
    show s.init pathVar = some v
    rw [h1]
    exact hv
  refine ⟨setItem (setAll (reset s) (table cf p)) pathVar (d ++ v), ?_, ?_, ?_⟩
  · simp [setEnvironment, hd, hpath]
  · simp [setItem, put, pathVar]
  · simp [setItem, put, pathVar]

/-! ### The witness, and cases that meet the hypotheses -/

/-- A configuration. -/
def exConf : Conf := ⟨['h'], ['c'], ['x'], ['l'], ['j'], some ['b', ':']⟩

/-- A package whose script is `top` and `body`. -/
def exPkg (top body : List Step) : Pkg :=
  ⟨['p'], ['w'], ['i'], ['n'], ['1'], ['2'], ['w', '/', 'n'], top, body⟩

/-- The environment pisi is started with: a `PATH`. -/
def exEnv : Env := fun k => if k = ['P','A','T','H'] then some ['/'] else none

/-- A package whose script exports `CC` for its own sake. -/
def exExports : Pkg := exPkg [] [.export ['C','C'] (fun _ => ['g']), .run]

/-- **C143 is false of the code**: a program that a build runs sees the
variables that the script of a package built before exported. -/
theorem build_sees_refuted : ¬ BuildSeesFull := by
  intro h
  have hs : (builds exConf (start exEnv) [exExports]).isSome = true := by decide
  obtain ⟨s, hs⟩ := Option.isSome_iff_exists.1 hs
  have h1 := h exConf exEnv [exExports] (exPkg [] [.run]) s hs
  have h2 := congrArg (fun o => o.body.map (fun
    | Obs.ran e => e ['C','C']
    | Obs.got _ _ => none)) h1
  have hb : builds exConf (start exEnv) [exExports] = (build exConf (start exEnv) exExports).1 := by
    simp only [builds]
    cases (build exConf (start exEnv) exExports).1 <;> rfl
  rw [hb] at hs
  have h3 : (((build exConf (start exEnv) exExports).1.map (fun s =>
      ((build exConf s (exPkg [] [.run])).2.body.map (fun
        | Obs.ran e => e ['C','C']
        | Obs.got _ _ => none))))) = some [some ['g']] := by decide
  rw [hs] at h3
  simp only [Option.map_some, Option.some.injEq] at h3
  rw [h3] at h2
  revert h2
  decide

/-- The hypothesis of `build_sees_partial` and `helper_once` is met: a build
after one that exports `CC`. -/
example : (builds exConf (start exEnv) [exExports]).isSome = true := by decide

/-- The script of the second build does not see that variable itself. -/
example : ((builds exConf (start exEnv) [exExports]).map (fun s =>
    reads (build exConf s (exPkg [] [.get ['C','C'], .get ['J','O','B','S']])).2.body))
      = some [(['C','C'], none), (['J','O','B','S'], some ['j'])] := by decide

/-- The hypothesis of `body_does_not_depend` is met: a script that exports
`CFLAGS` leaves no trace, and the next build sees its own. -/
example : ∀ k, Touched [exPkg [] [.export ['C','F','L','A','G','S'] (fun _ => ['z'])]] k →
    Sets exConf k ∨ k = ['S','R','C','_','D','I','R'] := by
  rintro k ⟨p, hp, hc⟩
  simp only [List.mem_singleton] at hp
  subst hp
  rcases hc with ⟨f, hf⟩ | hf
  · simp [exPkg] at hf
    left; left
    rw [hf.1]; decide
  · simp [exPkg] at hf

end Pisi.BuildEnv
