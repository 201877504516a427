import Verif.Spec.HelpCmd
import Verif.Props.CliSound

/-!
# The command help: C217
-/

namespace Pisi.Cli

open Pisi

/-- C217 in full: help shows the help of every command that it is asked about, in that order. -/
def HelpFull : Prop := ∀ (argv : List Str) (opts : List Setting) (ws : List Str), pisi registry argv = .run cHelp opts ws → ws ≠ [] →
  (∀ w ∈ ws, ∃ c ∈ allCmds, Spec.Calls w c) → ∃ cs, helpRun registry argv ws = (cs, .done) ∧ List.Forall₂ Spec.Calls ws cs

theorem registry_ok : registerAll [] allCmds = some registry := by
  have h : (registerAll [] allCmds).isSome = true := by decide +kernel
  obtain ⟨d, hd⟩ := Option.isSome_iff_exists.1 h
  unfold registry
  rw [hd]; rfl

theorem registry_calls (w : Str) (c : Cls) : getCmd registry w = some c ↔ c ∈ allCmds ∧ Spec.Calls w c := by
  rw [command_names registry_ok]
  refine and_congr_right fun hc => or_congr_right ⟨fun h => h.1, fun h => ⟨h, ?_⟩⟩
  rintro rfl
  have : ∀ c ∈ allCmds, c.short ≠ some [] := by decide +kernel
  exact this c hc h

theorem calls_unique {w : Str} {c c' : Cls} (hc : c ∈ allCmds) (hc' : c' ∈ allCmds) (h : Spec.Calls w c) (h' : Spec.Calls w c') : c = c' := by
  have h1 := (registry_calls w c).2 ⟨hc, h⟩
  rw [(registry_calls w c').2 ⟨hc', h'⟩] at h1
  cases h1; rfl

/-- The options of the command help. -/
def helpTable : List Opt := match mkParser cHelp with
  | .ok t => t
  | .error _ => []

theorem mkParser_help : mkParser cHelp = .ok helpTable := by
  have h : mkParser cHelp = .ok (match mkParser cHelp with | .ok t => t | .error _ => []) := by decide +kernel
  exact h

/-- Every command that can be used at all has the options of help. -/
theorem commands_have (c : Cls) (hc : c ∈ allCmds) (h1 : c ≠ cSearch) (h2 : c ≠ cListUpgrades) :
    ∃ t, mkParser c = .ok t ∧ ∀ o ∈ helpTable, o ∈ t := by
  have h : ∀ c ∈ allCmds, c ≠ cSearch → c ≠ cListUpgrades →
      (match mkParser c with | .ok t => helpTable.all (fun o => t.contains o) | .error _ => false) = true := by decide +kernel
  have := h c hc h1 h2
  revert this
  cases mkParser c with
  | error e => intro h; cases h
  | ok t =>
    intro h
    exact ⟨t, rfl, fun o ho => by simpa using List.all_eq_true.1 h o ho⟩

theorem search_breaks (argv : List Str) : initCmd cSearch argv = .broken .conflict := by
  unfold initCmd
  have : mkParser cSearch = .error .conflict := by decide +kernel
  rw [this]

theorem listUpgrades_breaks (argv : List Str) : initCmd cListUpgrades argv = .broken .nameError := by
  unfold initCmd
  have : mkParser cListUpgrades = .error .nameError := by decide +kernel
  rw [this]

theorem names_full {os os' : List Spec.O} {n : Str} {o : Spec.O} (hs : ∀ o ∈ os, o ∈ os') (hf : ∃ p ∈ os, p.long = n)
    (h : Spec.Names os n o) : Spec.Names os' n o := by
  obtain ⟨p, hp, rfl⟩ := hf
  refine ⟨hs _ h.1, Or.inl ?_⟩
  rcases h.2 with h | ⟨_, h⟩
  · exact h
  · exact h p hp (List.prefix_refl _)

theorem flags_more {os os' : List Spec.O} (hs : ∀ o ∈ os, o ∈ os') {cs : Str} {as : List Str} (h : Spec.Flags os cs as) :
    Spec.Flags os' cs as := by
  induction h with
  | nil => exact .nil
  | cons o h1 h2 h3 h4 _ ih => exact .cons o (hs o h1) h2 h3 h4 ih

theorem means_more {os os' : List Spec.O} (hs : ∀ o ∈ os, o ∈ os') {i : Spec.Item} {s : List Setting} {a : List Str}
    (hi : i.InFull os) (h : Spec.Means os i s a) : Spec.Means os' i s a := by
  cases h with
  | flags h1 h2 h3 => exact .flags h1 h2 (flags_more hs h3)
  | attached o h1 h2 h3 h4 h5 h6 h7 => exact .attached o h1 (flags_more hs h2) (hs o h3) h4 h5 h6 h7
  | apart o h1 h2 h3 h4 h5 h6 => exact .apart o h1 (flags_more hs h2) (hs o h3) h4 h5 h6
  | long o h1 h2 h3 h4 h5 => exact .long o h1 h2 (names_full hs hi h3) h4 h5
  | longEq o h1 h2 h3 h4 h5 => exact .longEq o h1 h2 (names_full hs hi h3) h4 h5
  | longApart o h1 h2 h3 h4 h5 => exact .longApart o h1 h2 (names_full hs hi h3) h4 h5
  | word h1 => exact .word h1

theorem line_more {os os' : List Spec.O} (hs : ∀ o ∈ os, o ∈ os') {is : List Spec.Item} {s : List Setting} {a : List Str}
    (h : Spec.Line os is s a) (hi : ∀ i ∈ is, i.InFull os) : Spec.Line os' is s a := by
  induction h with
  | nil => exact .nil
  | cons h1 _ ih =>
    exact .cons (means_more hs (hi _ (List.mem_cons_self ..)) h1) (ih fun i h => hi i (List.mem_cons_of_mem _ h))

/-- A line of help whose long options are written in full is read by every command that can be used. -/
theorem others_read {is : List Spec.Item} {raw : Option (List Str)} {ss : List Setting} {as : List Str}
    (h : Spec.Line (helpTable.map toO) is ss as) (hi : ∀ i ∈ is, i.InFull (helpTable.map toO)) (c : Cls) (hc : c ∈ allCmds)
    (h1 : c ≠ cSearch) (h2 : c ≠ cListUpgrades) : initCmd c (Spec.words is raw) = .run c ss (as ++ raw.getD []).tail := by
  obtain ⟨t, ht, hs⟩ := commands_have c hc h1 h2
  refine initCmd_line ht (line_more ?_ h hi)
  intro o ho
  obtain ⟨p, hp, rfl⟩ := List.mem_map.1 ho
  exact List.mem_map_of_mem (hs p hp)

/-- C217 (partial): if the long options on the line are written in full, help shows the help of the commands named by the
words, in their order, up to the first word that names none, or names search or list-upgrades. -/
theorem help_partial {is : List Spec.Item} {raw : Option (List Str)} {ss : List Setting} {as : List Str}
    (h : Spec.Line (helpTable.map toO) is ss as) (hi : ∀ i ∈ is, i.InFull (helpTable.map toO)) (ws : List Str) (hw : ws ≠ []) :
    Spec.Helped ws (helpRun registry (Spec.words is raw) ws).1 (helpRun registry (Spec.words is raw) ws).2 := by
  have key : ∀ ws, Spec.Helped ws (helpLoop registry (Spec.words is raw) ws).1 (helpLoop registry (Spec.words is raw) ws).2 := by
    intro ws
    induction ws with
    | nil => exact .nil
    | cons w ws ih =>
      unfold helpLoop
      cases hg : getCmd registry w with
      | none =>
        refine .unknown fun c hc hcalls => ?_
        rw [(registry_calls w c).2 ⟨hc, hcalls⟩] at hg
        cases hg
      | some c =>
        obtain ⟨hc, hcalls⟩ := (registry_calls w c).1 hg
        dsimp only
        by_cases h1 : c = cSearch
        · subst h1; rw [search_breaks]; exact .search hcalls
        · by_cases h2 : c = cListUpgrades
          · subst h2; rw [listUpgrades_breaks]; exact .listUpgrades hcalls
          · rw [others_read h hi c hc h1 h2]
            exact .cons hc hcalls h1 h2 ih
  unfold helpRun
  rw [if_neg hw]
  exact key ws

theorem helped_all {ws : List Str} {cs : List Cls} {e : HelpEnd} (h : Spec.Helped ws cs e) :
    e = .done ↔ ∀ w ∈ ws, ∃ c ∈ allCmds, Spec.Calls w c ∧ c ≠ cSearch ∧ c ≠ cListUpgrades := by
  induction h with
  | nil => exact ⟨fun _ w hw => (by cases hw), fun _ => rfl⟩
  | cons h1 h2 h3 h4 _ ih =>
    rw [List.forall_mem_cons, ih]
    exact ⟨fun h => ⟨⟨_, h1, h2, h3, h4⟩, h⟩, fun h => h.2⟩
  | unknown h1 =>
    refine ⟨fun h => (by cases h), fun h => ?_⟩
    obtain ⟨c, hc, h2, _⟩ := h _ (List.mem_cons_self ..)
    exact absurd h2 (h1 c hc)
  | search h1 =>
    refine ⟨fun h => (by cases h), fun h => ?_⟩
    obtain ⟨c, hc, h2, h3, _⟩ := h _ (List.mem_cons_self ..)
    exact absurd (calls_unique hc (by decide +kernel) h2 h1) h3
  | listUpgrades h1 =>
    refine ⟨fun h => (by cases h), fun h => ?_⟩
    obtain ⟨c, hc, h2, _, h3⟩ := h _ (List.mem_cons_self ..)
    exact absurd (calls_unique hc (by decide +kernel) h2 h1) h3

theorem helped_order {ws : List Str} {cs : List Cls} {e : HelpEnd} (h : Spec.Helped ws cs e) :
    ∃ pre post, ws = pre ++ post ∧ List.Forall₂ Spec.Calls pre cs ∧ (e = .done → post = []) := by
  induction h with
  | nil => exact ⟨[], [], rfl, .nil, fun _ => rfl⟩
  | cons _ h2 _ _ _ ih =>
    obtain ⟨pre, post, rfl, hf, he⟩ := ih
    exact ⟨_ :: pre, post, rfl, .cons h2 hf, he⟩
  | unknown _ => exact ⟨[], _, rfl, .nil, fun h => by cases h⟩
  | search _ => exact ⟨[], _, rfl, .nil, fun h => by cases h⟩
  | listUpgrades _ => exact ⟨[], _, rfl, .nil, fun h => by cases h⟩

/-- C217 (partial): with long options in full, everything asked is shown exactly if every word names a command other than
search and list-upgrades. -/
theorem help_all_partial {is : List Spec.Item} {raw : Option (List Str)} {ss : List Setting} {as : List Str}
    (h : Spec.Line (helpTable.map toO) is ss as) (hi : ∀ i ∈ is, i.InFull (helpTable.map toO)) (ws : List Str) (hw : ws ≠ []) :
    (∃ cs, helpRun registry (Spec.words is raw) ws = (cs, .done) ∧ List.Forall₂ Spec.Calls ws cs) ↔
      ∀ w ∈ ws, ∃ c ∈ allCmds, Spec.Calls w c ∧ c ≠ cSearch ∧ c ≠ cListUpgrades := by
  have hp := help_partial (raw := raw) h hi ws hw
  rw [← helped_all hp]
  constructor
  · rintro ⟨cs, h1, _⟩; rw [h1]
  · intro he
    obtain ⟨pre, post, h1, h2, h3⟩ := helped_order hp
    have := h3 he
    subst this
    rw [List.append_nil] at h1
    subst h1
    exact ⟨_, Prod.ext rfl he, h2⟩

/-- C217: whatever the line, what is shown is the help of the first words, each of its own command, and without any word
the general help. -/
theorem help_shown (argv : List Str) (ws : List Str) : ∃ pre post, ws = pre ++ post ∧
    List.Forall₂ Spec.Calls pre (helpRun registry argv ws).1 ∧
    ((helpRun registry argv ws).2 = .done → post = []) ∧ ((helpRun registry argv ws).2 = .usage ↔ ws = []) := by
  have key : ∀ ws, ∃ pre post, ws = pre ++ post ∧ List.Forall₂ Spec.Calls pre (helpLoop registry argv ws).1 ∧
      ((helpLoop registry argv ws).2 = .done → post = []) ∧ (helpLoop registry argv ws).2 ≠ .usage := by
    intro ws
    induction ws with
    | nil => exact ⟨[], [], rfl, .nil, fun _ => rfl, by simp [helpLoop]⟩
    | cons w ws ih =>
      unfold helpLoop
      split
      · exact ⟨[], _, rfl, .nil, fun h => (by cases h), by simp⟩
      · rename_i c hg
        split
        · exact ⟨[], _, rfl, .nil, fun h => (by cases h), by simp⟩
        · exact ⟨[], _, rfl, .nil, fun h => (by cases h), by simp⟩
        · obtain ⟨pre, post, rfl, h1, h2, h3⟩ := ih
          exact ⟨w :: pre, post, rfl, .cons ((registry_calls w c).1 hg).2 h1, h2, h3⟩
  unfold helpRun
  by_cases hw : ws = []
  · subst hw
    rw [if_pos rfl]
    exact ⟨[], [], rfl, .nil, fun _ => rfl, by simp⟩
  · rw [if_neg hw]
    obtain ⟨pre, post, h1, h2, h3, h4⟩ := key ws
    exact ⟨pre, post, h1, h2, h3, fun h => absurd h h4, fun h => absurd h hw⟩

/-- C217 does not hold in full: there is no help for search. -/
theorem help_refuted : ¬ HelpFull := by
  intro h
  obtain ⟨cs, h1, _⟩ := h [cHelp.long, cSearch.long] [] [cSearch.long] (by decide +kernel) (by simp)
    (by intro w hw; rw [List.mem_singleton] at hw; subst hw; exact ⟨cSearch, by decide +kernel, Or.inl rfl⟩)
  have h2 : helpRun registry [cHelp.long, cSearch.long] [cSearch.long] = ([], .broken .conflict) := by decide +kernel
  rw [h2] at h1
  cases h1

/-- C217: a long option that is abbreviated as help allows may be unclear to the command asked about, which then says so
instead of its help. -/
theorem help_abbreviated : let no : Str := ['-', '-', 'n', 'o']
    (∃ opts, pisi registry [cHelp.long, no, cBuild.long] = .run cHelp opts [cBuild.long]) ∧
    helpRun registry [cHelp.long, no, cBuild.long] [cBuild.long] = ([], .stopped .ambiguous) := by
  exact ⟨⟨[(['n', 'o', '_', 'c', 'o', 'l', 'o', 'r'], none)], by decide +kernel⟩, by decide +kernel⟩

example : helpRun registry [cHelp.long, ['-', 'v'], cBuild.long, ['i', 't'], cSearch.long, cRemove.long]
    [cBuild.long, ['i', 't'], cSearch.long, cRemove.long] = ([cBuild, cInstall], .broken .conflict) ∧
    helpRun registry [cHelp.long, cInfo.long, ['?']] [cInfo.long, ['?']] = ([cInfo, cHelp], .done) := by
  constructor <;> decide +kernel

/-- The hypotheses of `help_partial` are met by `help --no-color -yv build`. -/
example : ∃ ss as, Spec.Line (helpTable.map toO) [.word cHelp.long, .long ['n', 'o', '-', 'c', 'o', 'l', 'o', 'r'], .flags ['y', 'v'],
      .word cBuild.long] ss as ∧ ∀ i ∈ [Spec.Item.word cHelp.long, .long ['n', 'o', '-', 'c', 'o', 'l', 'o', 'r'], .flags ['y', 'v'],
      .word cBuild.long], i.InFull (helpTable.map toO) := by
  have m1 : (⟨some 'N', ['n', 'o', '-', 'c', 'o', 'l', 'o', 'r'], .storeTrue⟩ : Opt) ∈ helpTable := by decide +kernel
  have m2 : (⟨some 'y', ['y', 'e', 's', '-', 'a', 'l', 'l'], .storeTrue⟩ : Opt) ∈ helpTable := by decide +kernel
  have m3 : (⟨some 'v', ['v', 'e', 'r', 'b', 'o', 's', 'e'], .storeTrue⟩ : Opt) ∈ helpTable := by decide +kernel
  refine ⟨_, _, .cons (.word (Or.inr (by decide))) (.cons (.long _ (by decide) (by decide)
    ⟨List.mem_map_of_mem m1, Or.inl rfl⟩ rfl trivial) (.cons (.flags (by decide) (by decide)
    (.cons _ (List.mem_map_of_mem m2) rfl rfl trivial (.cons _ (List.mem_map_of_mem m3) rfl rfl trivial .nil)))
    (.cons (.word (Or.inr (by decide))) .nil))), ?_⟩
  intro i hi
  simp only [List.mem_cons, List.not_mem_nil, or_false] at hi
  rcases hi with rfl | rfl | rfl | rfl
  · trivial
  · exact ⟨_, List.mem_map_of_mem m1, rfl⟩
  · trivial
  · trivial

end Pisi.Cli
