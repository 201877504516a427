import Verif.Props.GraphCmd
import Verif.Props.Session

/-!
# `graph` after any commands (C228)
-/
set_option linter.unusedSectionVars false

namespace Pisi.DB
open Pisi.Plan Pisi.PlanSpec Pisi.Graph
variable {ρ : Type}

/-- What `graph` reads of the databases, pisi/cli/graph.py:61-85. -/
def Both.graphSys (b : Both Str ρ) : GraphSys := ⟨b.sys.stores.pkg, b.sys.repos.order.getD [], b.world⟩

/-- C228: after any commands the databases are as `graph` expects them. -/
theorem graphSys_sound (cs : List (Cmd Str ρ)) : GraphSys.Sound (Cmd.run cs).graphSys := by
  have h := run_both cs
  obtain ⟨l, hl⟩ := h.sys
  refine ⟨hl.wf.pkg.uniq, fun x s hs => (hl.wf.pkg.inner x s hs).symm, ?_, ?_, ?_⟩
  · intro x s r hs hr
    show r ∈ (Cmd.run cs).sys.repos.order.getD []
    rw [hl.repos.order]
    refine hl.pkg x r ?_
    unfold ItemDB.cell
    rw [show (Cmd.run cs).sys.stores.pkg.get x = some s from hs]
    exact hr
  · intro x
    refine (world_reads h x).2.1.trans ?_
    rw [← h.cell x]
    unfold ItemDB.cell
    show _ ↔ ∃ s, (Cmd.run cs).sys.stores.pkg.get x = some s ∧ _
    cases (Cmd.run cs).sys.stores.pkg.get x with
    | none => simp
    | some s => simp [Option.isSome_iff_exists]
  · have hu : ((Cmd.run cs).inst.d.map Prod.fst).Nodup := h.uniq
    show (((Cmd.run cs).inst.d.filterMap _).map Prod.fst).Nodup
    refine hu.sublist ?_
    generalize (Cmd.run cs).inst.d = d
    induction d with
    | nil => exact List.Sublist.refl _
    | cons e d ih =>
      rw [List.filterMap_cons]
      by_cases hc : InstallDB.counts e.2 = true
      · simp only [hc, if_true, List.map_cons]
        exact ih.cons_cons _
      · simp only [if_neg hc, List.map_cons]
        exact ih.cons _

theorem holds_installed (cs : List (Cmd Str ρ)) (o : GraphOpts) (ho : o.installed = true) (x : Str)
    (m : Meta Str) : Holds (Cmd.run cs).graphSys o x m ↔ (Cmd.run cs).getInstalled x = some m := by
  rw [← (run_both cs).cell x]
  unfold Holds ItemDB.cell
  simp only [ho, if_true]
  show (∃ s, (Cmd.run cs).sys.stores.pkg.get x = some s ∧ _) ↔ _
  cases (Cmd.run cs).sys.stores.pkg.get x <;> simp

/-- C228: if the dependencies of the installed packages are met, everything that `graph --installed`
with names of installed packages, or none, is to show is installed. -/
theorem toShow_installed (cs : List (Cmd Str ρ)) (hc : Consistent (Cmd.run cs).getInstalled) (o : GraphOpts)
    (ho : o.installed = true) (args : List Str)
    (ha : ∀ x ∈ args, ∃ m, (Cmd.run cs).getInstalled x = some m) (x : Str)
    (h : ToShow (Cmd.run cs).graphSys o args x) : ∃ m, (Cmd.run cs).getInstalled x = some m := by
  obtain ⟨a, ha', h⟩ := h
  rcases Relation.ReflTransGen.cases_tail h with h | ⟨u, _, m, d, hm, hd, hx, _⟩
  · subst h
    unfold PlanSpec.Asked at ha'
    split at ha'
    · exact ha _ ha'
    · obtain ⟨m, hm⟩ := ha'
      exact ⟨m, (holds_installed cs o ho _ m).mp hm⟩
  · subst hx
    obtain ⟨k, hk, _⟩ := hc u d ⟨m, (holds_installed cs o ho u m).mp hm, hd⟩
    exact ⟨k, hk⟩

/-- C228: `graph --installed` without names shows exactly the installed packages. -/
theorem toShow_all (cs : List (Cmd Str ρ)) (hc : Consistent (Cmd.run cs).getInstalled) (o : GraphOpts)
    (ho : o.installed = true) (x : Str) :
    ToShow (Cmd.run cs).graphSys o [] x ↔ ∃ m, (Cmd.run cs).getInstalled x = some m := by
  refine ⟨toShow_installed cs hc o ho [] (fun _ h => by cases h) x, ?_⟩
  rintro ⟨m, hm⟩
  refine ⟨x, ?_, .refl⟩
  unfold PlanSpec.Asked
  rw [if_neg (by simp)]
  exact ⟨m, (holds_installed cs o ho x m).mpr hm⟩

/-- C228: if the dependencies of the installed packages are met, `graph --installed` writes its file. -/
theorem graph_installed_succeeds (cs : List (Cmd Str ρ)) (hc : Consistent (Cmd.run cs).getInstalled)
    (front : List Str → List Str) (hf : ∀ l, (front l).Perm l) (o : GraphOpts)
    (ho : o.installed = true) (args : List Str) (hn : args.Nodup)
    (ha : ∀ x ∈ args, ∃ m, (Cmd.run cs).getInstalled x = some m)
    (hne : (Cmd.run cs).getInstalled [] = none) (out : Option DotFile) :
    ∃ ss, graphCmd front (Cmd.run cs).graphSys o true args out = (some (.text ss), .ok ()) := by
  have hy := graphSys_sound cs
  have hin := toShow_installed cs hc o ho args ha
  obtain ⟨g, hg, hgn, hv, he⟩ := package_graph_partial (Cmd.run cs).graphSys.world
    ((Cmd.run cs).graphSys.view o.query) o.ignoreInstalled front (o.names (Cmd.run cs).graphSys args) hf
    (names_nodup hy o args hn) (fun x hx => by
      rw [known_examinable]
      obtain ⟨m, hm⟩ := hin x ((reach_toShow hy o args x).mp hx)
      refine ⟨m, (holds_installed cs o ho x m).mpr hm, ?_, ?_⟩
      · exact ((run_both cs).inst x m (by rw [(run_both cs).cell]; exact hm)).2.1
      · intro _ d hd _
        obtain ⟨k, hk, hmt⟩ := hc x d ⟨m, hm, hd⟩
        refine ⟨k.info, ?_, meets_testable hmt⟩
        show (Cmd.run cs).world.track.get d.package = _
        rw [(world_reads (run_both cs) d.package).1, hk]
        rfl)
  have hv' : ∀ x ∈ g.verts, ∃ m, (Cmd.run cs).getInstalled x = some m := fun x hx =>
    hin x ((reach_toShow hy o args x).mp ((hv x).mp hx))
  have hwf : g.WF := ⟨hgn, fun x z h => (hv x).mpr ((he x z).mp h).1, fun x z h => by
    obtain ⟨⟨a, h1, h2⟩, h3⟩ := (he x z).mp h
    exact (hv z).mpr ⟨a, h1, h2.tail h3⟩⟩
  unfold graphCmd
  rw [hg]
  simp only [if_true]
  rw [writeGraphviz_eq _ g hwf (by
    intro u hu e
    obtain ⟨m, hm⟩ := hv' u hu
    rw [e, hne] at hm
    cases hm)]
  exact ⟨_, rfl⟩

/-- The package b, and the package a, which needs it. -/
def graphB : Meta Str := { name := ['b'], info := { version := ['1'], release := ['1'] }, partOf := some ['s'] }
def graphA : Meta Str :=
  { name := ['a'], info := { version := ['2'], release := ['3'], deps := [{ package := ['b'] }] }, partOf := some ['s'] }

theorem graphAB_consistent : Consistent (Cmd.run ([] ++ [.install graphB false false] ++
    [.install graphA false false] : List (Cmd Str Unit))).getInstalled := by
  refine install_new _ graphA false (install_new [] graphB false ?_ (by decide)) (by decide)
  rintro y d ⟨m, hm, _⟩
  cases hm

/-- Non-vacuity: after installing b and a, `graph --installed`. -/
example : ∃ ss, graphCmd id (Cmd.run ([] ++ [.install graphB false false] ++
    [.install graphA false false] : List (Cmd Str Unit))).graphSys { installed := true } true [] none =
      (some (.text ss), .ok ()) :=
  graph_installed_succeeds _ graphAB_consistent id (fun l => List.Perm.refl _) _ rfl [] List.nodup_nil
    (fun _ h => by cases h) (by decide) none

end Pisi.DB
