import Verif.Spec.ConflictRun
import Verif.Props.Conflict
import Verif.Props.Session

/-! # C229: packages in conflict are not installed together -/
namespace Pisi.DB
open Pisi.Plan
variable {α ρ : Type} [DecidableEq α]

theorem removeLoop_less (l : List α) : ∀ {b : Both α ρ} {f : α → Option (Meta α)}, BothInv b f →
    ∃ g, BothInv (b.removeLoop l) g ∧ ∀ x m, g x = some m → f x = some m ∧ x ∉ l := by
  induction l with
  | nil => exact fun h => ⟨_, h, fun _ _ e => ⟨e, List.not_mem_nil⟩⟩
  | cons p ps ih =>
    intro b f h
    unfold Both.removeLoop
    by_cases hi : b.inst.isInstalled p = true
    · obtain ⟨b', e, hb'⟩ := inv_removeDb h hi
      rw [if_pos hi, e]
      obtain ⟨g, hg, hl⟩ := ih hb'
      refine ⟨g, hg, fun x m e => ?_⟩
      obtain ⟨h1, h2⟩ := hl x m e
      by_cases hx : x = p
      · rw [if_pos hx] at h1; cases h1
      · rw [if_neg hx] at h1
        exact ⟨h1, fun hm => (List.mem_cons.mp hm).elim hx h2⟩
    · rw [if_neg hi]
      obtain ⟨g, hg, hl⟩ := ih h
      refine ⟨g, hg, fun x m e => ?_⟩
      obtain ⟨h1, h2⟩ := hl x m e
      refine ⟨h1, fun hm => (List.mem_cons.mp hm).elim (fun hx => ?_) h2⟩
      subst hx
      exact hi ((isInstalled_f h x).mpr ⟨m, h1⟩)

theorem installAll_more (later ig : Bool) (ms : List (Meta α)) : ∀ {b : Both α ρ} {f : α → Option (Meta α)}, BothInv b f →
    ∃ g, BothInv (b.installAll later ig ms) g ∧ ∀ x m, g x = some m → (m ∈ ms ∧ m.name = x) ∨ f x = some m := by
  induction ms with
  | nil => exact fun h => ⟨_, h, fun _ _ e => .inr e⟩
  | cons k ks ih =>
    intro b f h
    by_cases ha : Accepted f k ig
    · obtain ⟨g, hg, hl⟩ := ih ((installSingle_both h k later ig).1 ha)
      refine ⟨g, hg, fun x m e => ?_⟩
      rcases hl x m e with ⟨h1, h2⟩ | h1
      · exact .inl ⟨List.mem_cons_of_mem _ h1, h2⟩
      · by_cases hx : x = k.name
        · rw [if_pos hx] at h1
          cases h1
          exact .inl ⟨List.mem_cons_self, hx.symm⟩
        · rw [if_neg hx] at h1; exact .inr h1
    · obtain ⟨g, hg, hl⟩ := ih ((installSingle_both h k later ig).2 ha)
      refine ⟨g, hg, fun x m e => ?_⟩
      rcases hl x m e with ⟨h1, h2⟩ | h1
      · exact .inl ⟨List.mem_cons_of_mem _ h1, h2⟩
      · exact .inr h1

/-- Everything but requests only takes packages away. -/
theorem cmd_less {b : Both α ρ} {f : α → Option (Meta α)} (h : BothInv b f) (c : Cmd α ρ) (hw : Watched (.cmd c)) :
    ∃ g, BothInv (c.step b) g ∧ ∀ x m, g x = some m → f x = some m := by
  cases c with
  | install m later ig => exact hw.elim
  | remove σ o base A =>
    show ∃ g, BothInv (b.removeNames σ o base A) g ∧ _
    unfold Both.removeNames
    cases removeCmd b.world σ o base A with
    | error e => exact ⟨f, h, fun _ _ e => e⟩
    | ok l =>
      obtain ⟨g, hg, hl⟩ := removeLoop_less l h
      exact ⟨g, hg, fun x m e => (hl x m e).1⟩
  | conflict p =>
    obtain ⟨g, hg, hl⟩ := removeLoop_less [p] h
    exact ⟨g, hg, fun x m e => (hl x m e).1⟩
  | other op =>
    refine ⟨_, both_step h op, fun x m e => ?_⟩
    cases op with
    | install k later => exact hw.elim
    | remove q =>
      simp only [installedStep] at e
      by_cases hx : x = q
      · rw [if_pos hx] at e; cases e
      · rw [if_neg hx] at e; exact e
    | _ => exact e

/-- What a request reads of the metadata. -/
theorem worldFor_get (b : Both α ρ) {ms : List (Meta α)} (hn : (ms.map (·.name)).Nodup) {m : Meta α} (hm : m ∈ ms) :
    (b.worldFor ms).repo.get m.name = some m.info := by
  refine (Dict.mem_iff_get ?_ _ _).mp (List.mem_map.mpr ⟨m, hm, rfl⟩)
  show (List.map Prod.fst (ms.map fun m => (m.name, m.info))).Nodup
  rw [List.map_map]
  exact hn

/-- What a request leaves: the packages of the order, and others none of which a package of the order declares a conflict with; nor
do these declare conflicts with each other. -/
theorem batch_done {b : Both α ρ} {f : α → Option (Meta α)} (h : BothInv b f) (t : Batch α) (hw : Watched (.batch t : HCmd α ρ))
    (hr : Removable b t) {l : List α} (hc : b.checkBatch t = .ok l) (hd : t.o.dryRun = false) : ∃ g, BothInv (b.batch t) g ∧
      (∀ m ∈ t.order, ∀ y k, g y = some k → y ∉ m.info.conflicts) ∧
      ∀ x m, g x = some m → (m ∈ t.order ∧ m.name = x) ∨ f x = some m := by
  obtain ⟨h1, h2, h3, h4⟩ := hw
  unfold Both.batch
  rw [hc]
  dsimp only
  rw [hd, if_neg (by decide)]
  obtain ⟨l0, hy⟩ := h.sys
  have hord : b.sys.repos.order.getD [] = l0 := by rw [hy.repos.order]; rfl
  unfold Both.checkBatch at hc
  rw [h1, h2, hord] at hc
  simp only [Bool.or_self, Bool.false_eq_true, if_false] at hc
  obtain ⟨f1, hf1, hl1⟩ := removeLoop_less l h
  obtain ⟨g, hg, hl2⟩ := installAll_more t.later t.ignoreDep (t.order.take t.reached) hf1
  refine ⟨g, hg, fun m hm y k hk hy' => ?_, fun x m e => ?_⟩
  · have hdec : DeclaresConflict (b.worldFor t.order) m.name y := ⟨m.info, worldFor_get b h4 hm, hy'⟩
    have hmn : m.name ∈ t.order.map (·.name) := List.mem_map.mpr ⟨m, hm, rfl⟩
    rcases hl2 y k hk with ⟨ho, hn⟩ | ho
    · -- both are in the order
      have hyo : y ∈ t.order.map (·.name) := List.mem_map.mpr ⟨k, List.mem_of_mem_take ho, hn⟩
      have := (check_conflicts_decision (b.worldFor t.order) t.σ t.o b.sys.stores.comp l0 t.sysbase t.agree (t.order.map (·.name))
        (fun x hx => by
          obtain ⟨k', hk', rfl⟩ := List.mem_map.mp hx
          exact ⟨_, worldFor_get b h4 hk'⟩)).1 ⟨y, hyo, m.name, hmn, .inr hdec⟩
      obtain ⟨ys, e, _⟩ := this
      rw [e] at hc; cases hc
    · -- the other one was installed before
      obtain ⟨hfy, hny⟩ := hl1 y k ho
      have hi : (b.worldFor t.order).isInstalled y = true := by
        show b.world.inst.has y = true
        rw [(world_reads h y).2.2.1]
        exact (isInstalled_f h y).mpr ⟨k, hfy⟩
      have hs : SystemConflict (b.worldFor t.order) (t.order.map (·.name)) y := ⟨hi, m.name, hmn, hdec⟩
      obtain ⟨r1, r2⟩ := hr m hm y hy'
      rw [hord] at r1
      refine hny (((check_conflicts_removed_of _ t.σ h3 t.o b.sys l0 hy t.sysbase t.agree _ l hc).2 hd y).mpr ⟨hi, .inl ⟨hs, ?_⟩, ?_⟩)
      · rintro ⟨repo, hrepo, u, hu⟩
        exact r1 repo hrepo u hu
      · refine r2.imp_right fun hn => ?_
        rintro ⟨repo, hrepo, u, hu, hm'⟩
        exact hn ⟨repo, by rw [hord]; exact hrepo, u, hu, hm'⟩
  · rcases hl2 x m e with ⟨ho, hn⟩ | ho
    · exact .inl ⟨List.mem_of_mem_take ho, hn⟩
    · exact .inr (hl1 x m ho).1

theorem batch_less {b : Both α ρ} {f : α → Option (Meta α)} (h : BothInv b f) (t : Batch α) (hw : Watched (.batch t : HCmd α ρ))
    (hr : Removable b t) : b.batch t = b ∨ ∃ g, BothInv (b.batch t) g ∧
      (∀ m ∈ t.order, ∀ y k, g y = some k → y ∉ m.info.conflicts) ∧
      ∀ x m, g x = some m → (m ∈ t.order ∧ m.name = x) ∨ f x = some m := by
  cases hc : b.checkBatch t with
  | error e => left; unfold Both.batch; rw [hc]
  | ok l =>
    by_cases hd : t.o.dryRun = true
    · left; unfold Both.batch; rw [hc]; dsimp only; rw [if_pos hd]
    · exact .inr (batch_done h t hw hr hc (by simpa using hd))

/-- **C229, the full statement.** -/
def PeaceFull : Prop := ∀ cs : List (HCmd Nat Unit), (∀ c ∈ cs, Watched c) → Peaceful (HCmd.run cs).getInstalled

theorem batch_both {b : Both α ρ} {f : α → Option (Meta α)} (h : BothInv b f) (t : Batch α) : ∃ g, BothInv (b.batch t) g := by
  unfold Both.batch
  cases b.checkBatch t with
  | error e => exact ⟨f, h⟩
  | ok l =>
    dsimp only
    by_cases hd : t.o.dryRun = true
    · rw [if_pos hd]; exact ⟨f, h⟩
    rw [if_neg hd]
    obtain ⟨f1, hf1⟩ := removeLoop_both l h
    obtain ⟨g, hg, _⟩ := installAll_more t.later t.ignoreDep (t.order.take t.reached) hf1
    exact ⟨g, hg⟩

theorem hrun_snoc (cs : List (HCmd α ρ)) (c : HCmd α ρ) : HCmd.run (cs ++ [c]) = c.step (HCmd.run cs) := by simp [HCmd.run]

theorem hrun_both (cs : List (HCmd α ρ)) : BothInv (HCmd.run cs) (HCmd.run cs).getInstalled := by
  have key : ∃ f, BothInv (HCmd.run cs) f := by
    induction cs using snoc_induction with
    | h0 => exact ⟨_, both_run []⟩
    | hs l c ih =>
      obtain ⟨f, hf⟩ := ih
      rw [hrun_snoc]
      cases c with
      | batch t => exact batch_both hf t
      | cmd c => exact cmd_both hf c
  obtain ⟨f, hf⟩ := key
  rw [getInstalled_eq hf]
  exact hf

/-- What one step does to what is installed. -/
theorem hstep_less (cs : List (HCmd α ρ)) (c : HCmd α ρ) (hw : Watched c) (hr : ∀ t, c = .batch t → Removable (HCmd.run cs) t) :
    (∀ x m, (HCmd.run (cs ++ [c])).getInstalled x = some m → (HCmd.run cs).getInstalled x = some m) ∨
    ∃ t, c = .batch t ∧ (∀ m ∈ t.order, ∀ y k, (HCmd.run (cs ++ [c])).getInstalled y = some k → y ∉ m.info.conflicts) ∧
      ∀ x m, (HCmd.run (cs ++ [c])).getInstalled x = some m → (m ∈ t.order ∧ m.name = x) ∨ (HCmd.run cs).getInstalled x = some m := by
  have h := hrun_both cs
  rw [hrun_snoc]
  cases c with
  | cmd c =>
    obtain ⟨g, hg, hl⟩ := cmd_less h c hw
    left
    show ∀ x m, (c.step (HCmd.run cs)).getInstalled x = some m → _
    rw [getInstalled_eq hg]
    exact hl
  | batch t =>
    rcases batch_less h t hw (hr t rfl) with e | ⟨g, hg, h1, h2⟩
    · left
      show ∀ x m, ((HCmd.run cs).batch t).getInstalled x = some m → _
      rw [e]
      exact fun _ _ h => h
    · right
      refine ⟨t, rfl, ?_⟩
      show (∀ m ∈ t.order, ∀ y k, ((HCmd.run cs).batch t).getInstalled y = some k → _) ∧ ∀ x m, ((HCmd.run cs).batch t).getInstalled x = some m → _
      rw [getInstalled_eq hg]
      exact ⟨h1, h2⟩

theorem removable_init {cs : List (HCmd α ρ)} {c : HCmd α ρ} (h : AllRemovable (cs ++ [c])) :
    AllRemovable cs ∧ ∀ t, c = .batch t → Removable (HCmd.run cs) t :=
  ⟨fun pre t post e => h pre t (post ++ [c]) (by rw [e]; simp), fun t e => h cs t [] (by rw [e])⟩

/-- Whatever is installed was requested. -/
theorem installed_requested (cs : List (HCmd α ρ)) (hw : ∀ c ∈ cs, Watched c) (hr : AllRemovable cs) :
    ∀ x m, (HCmd.run cs).getInstalled x = some m → Requested cs m ∧ m.name = x := by
  induction cs using snoc_induction with
  | h0 => exact fun x m e => by cases e
  | hs l c ih =>
    obtain ⟨r1, r2⟩ := removable_init hr
    have ih := ih (fun c hc => hw c (List.mem_append_left _ hc)) r1
    have up : ∀ m, Requested l m → Requested (l ++ [c]) m := fun m ⟨t, h1, h2⟩ => ⟨t, List.mem_append_left _ h1, h2⟩
    intro x m e
    rcases hstep_less l c (hw c (by simp)) r2 with h | ⟨t, rfl, _, h⟩
    · exact (ih x m (h x m e)).imp_left (up m)
    · rcases h x m e with ⟨h1, h2⟩ | h1
      · exact ⟨⟨t, by simp, h1⟩, h2⟩
      · exact (ih x m h1).imp_left (up m)

/-- **C229, the part that is true of the code.**  If conflicts are declared by both sides, and the packages to give way may be removed,
then after any requests, removals and other commands, failed or interrupted ones among them, no two installed packages are in conflict. -/
theorem peace_partial (cs : List (HCmd α ρ)) (hw : ∀ c ∈ cs, Watched c) (hr : AllRemovable cs) (hm : MutualDecl cs) :
    Peaceful (HCmd.run cs).getInstalled := by
  induction cs using snoc_induction with
  | h0 => rintro x y ⟨m, k, e, _⟩; cases e
  | hs l c ih =>
    obtain ⟨r1, r2⟩ := removable_init hr
    have hw' : ∀ c ∈ l, Watched c := fun c hc => hw c (List.mem_append_left _ hc)
    have up : ∀ m, Requested l m → Requested (l ++ [c]) m := fun m ⟨t, h1, h2⟩ => ⟨t, List.mem_append_left _ h1, h2⟩
    have ih := ih hw' r1 (fun m k h1 h2 => hm m k (up m h1) (up k h2))
    have hreq := installed_requested (l ++ [c]) hw hr
    rintro x y ⟨m, k, ex, ey, hy⟩
    rcases hstep_less l c (hw c (by simp)) r2 with h | ⟨t, rfl, h1, h2⟩
    · exact ih x y ⟨m, k, h x m ex, h y k ey, hy⟩
    · rcases h2 x m ex with ⟨hx, _⟩ | hx
      · exact h1 m hx y k ey hy
      · rcases h2 y k ey with ⟨hk, hn⟩ | hk
        · obtain ⟨rm, nm⟩ := hreq x m ex
          obtain ⟨rk, nk⟩ := hreq y k ey
          have := hm m k rm rk (by rw [nk]; exact hy)
          rw [nm] at this
          exact h1 k hk x m ex this
        · exact ih x y ⟨m, k, hx, hk, hy⟩

/-- **C229, for declarations of one side.**  An installed package that declares a conflict with another installed one was there before
that came. -/
theorem clash_later (cs : List (HCmd α ρ)) (hw : ∀ c ∈ cs, Watched c) (hr : AllRemovable cs) (x y : α)
    (h : Clash (HCmd.run cs).getInstalled x y) : CameLater cs x y := by
  induction cs using snoc_induction generalizing x y with
  | h0 => obtain ⟨m, k, e, _⟩ := h; cases e
  | hs l c ih =>
    obtain ⟨r1, r2⟩ := removable_init hr
    have ih := fun x y => ih (fun c hc => hw c (List.mem_append_left _ hc)) r1 x y
    obtain ⟨m, k, ex, ey, hy⟩ := h
    have old : (HCmd.run l).getInstalled x = some m → (HCmd.run l).getInstalled y = some k → CameLater (l ++ [c]) x y := by
      intro hx hk
      obtain ⟨pre, t, post, m', k', e1, e2, e3, e4, e5, e6⟩ := ih x y ⟨m, k, hx, hk, hy⟩
      rw [hx] at e3
      cases e3
      rw [hk] at e6
      cases e6
      exact ⟨pre, t, post ++ [c], m, k, by rw [e1]; simp, e2, ex, e4, e5, ey⟩
    rcases hstep_less l c (hw c (by simp)) r2 with h | ⟨t, rfl, h1, h2⟩
    · exact old (h x m ex) (h y k ey)
    · rcases h2 x m ex with ⟨hx, _⟩ | hx
      · exact absurd hy (h1 m hx y k ey)
      · rcases h2 y k ey with ⟨hk, hn⟩ | hk
        · exact ⟨l, t, [], m, k, rfl, hx, ex, hk, hn, ey⟩
        · exact old hx hk

/-- Right after a request that was carried out, no package of its order declares a conflict with an installed one. -/
theorem request_peaceful (cs : List (HCmd α ρ)) (t : Batch α) (hw : Watched (.batch t : HCmd α ρ)) (hr : Removable (HCmd.run cs) t) (l : List α)
    (hc : (HCmd.run cs).checkBatch t = .ok l) (hd : t.o.dryRun = false) :
    ∀ m ∈ t.order, ∀ y k, (HCmd.run (cs ++ [.batch t])).getInstalled y = some k → y ∉ m.info.conflicts := by
  obtain ⟨g, hg, h1, _⟩ := batch_done (hrun_both cs) t hw hr hc hd
  rw [hrun_snoc]
  show ∀ m ∈ t.order, ∀ y k, ((HCmd.run cs).batch t).getInstalled y = some k → _
  rw [getInstalled_eq hg]
  exact h1

/-! ## Cases -/

def cOne : Meta Nat := { name := 1, info := { version := ['1'], release := ['1'], conflicts := [2] }, partOf := some 9 }
def cTwo : Meta Nat := { name := 2, info := { version := ['1'], release := ['1'] }, partOf := some 9 }
def cBoth : Meta Nat := { name := 2, info := { version := ['1'], release := ['1'], conflicts := [1] }, partOf := some 9 }

/-- A request for one package. -/
def ask1 (m : Meta Nat) : HCmd Nat Unit := .batch { order := [m], σ := Sched.plain, sysbase := 7, reached := 1 }

theorem ask1_watched (m : Meta Nat) : Watched (ask1 m) := ⟨rfl, rfl, Sched.plain_legal, by simp⟩

/-- **C229 is false of the code**: only the packages to be installed are asked for conflicts, not the installed ones. -/
theorem peace_refuted : ¬ PeaceFull := by
  intro h
  refine h [ask1 cOne, ask1 cTwo] (fun c hc => ?_) 1 2 ⟨cOne, cTwo, by decide +kernel, by decide +kernel, by decide⟩
  rcases List.mem_cons.mp hc with rfl | hc
  · exact ask1_watched _
  · rw [List.mem_singleton.mp hc]; exact ask1_watched _

/-- With `--ignore-dependency` conflicts are not looked at, whoever declares them. -/
theorem peace_ignored : Clash (HCmd.run [ask1 cBoth, .batch { order := [cOne], ignoreDep := true, σ := Sched.plain, sysbase := 7, reached := 1 }]).getInstalled 1 2 :=
  ⟨cOne, cBoth, by decide +kernel, by decide +kernel, by decide⟩

def feud : List (HCmd Nat Unit) := [ask1 cBoth, ask1 cOne]

theorem feud_removable : AllRemovable feud := by
  intro pre t post e
  have h0 : (HCmd.run pre).sys.repos.order.getD [] = [] := by
    match pre, e with
    | [], _ => decide +kernel
    | [a], e =>
      have : a = ask1 cBoth := by simpa [feud] using congrArg List.head? e.symm
      subst this
      decide +kernel
    | a :: b :: pre, e =>
      exfalso
      have := congrArg List.length e
      simp [feud] at this
  intro m _ y _
  refine ⟨fun repo hrepo => ?_, .inr ?_⟩
  · rw [h0] at hrepo; cases hrepo
  · rintro ⟨repo, hrepo, _⟩
    rw [h0] at hrepo; cases hrepo

/-- The case of the theorem: the first package gives way to the second. -/
example : (HCmd.run feud).getInstalled 1 = some cOne ∧ (HCmd.run feud).getInstalled 2 = none := by decide +kernel

example : Peaceful (HCmd.run feud).getInstalled := by
  have hreq : ∀ m, Requested feud m → m = cBoth ∨ m = cOne := by
    rintro m ⟨t, ht, hm⟩
    simp only [feud, ask1, List.mem_cons, HCmd.batch.injEq, List.not_mem_nil, or_false] at ht
    rcases ht with rfl | rfl
    · exact .inl (List.mem_singleton.mp hm)
    · exact .inr (List.mem_singleton.mp hm)
  refine peace_partial feud (fun c hc => ?_) feud_removable fun m k hm hk h => ?_
  · rcases List.mem_cons.mp hc with rfl | hc
    · exact ask1_watched _
    · rw [List.mem_singleton.mp hc]; exact ask1_watched _
  · rcases hreq m hm with rfl | rfl <;> rcases hreq k hk with rfl | rfl <;> revert h <;> decide

/-- The case of `clash_later`. -/
example : Clash (HCmd.run [ask1 cOne, ask1 cTwo]).getInstalled 1 2 := ⟨cOne, cTwo, by decide +kernel, by decide +kernel, by decide⟩

end Pisi.DB
