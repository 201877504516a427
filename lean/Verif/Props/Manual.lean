import Verif.Props.Cli
import Verif.Spec.Manual

/-!
# The commands and options of the manual: C186, C187
-/
namespace Pisi.Cli.Manual
open Pisi.Cli

/-- The option of the manual for an option of a parser. -/
def opOf (o : Opt) : Op where
  letter := match o.short with
    | some c => String.ofList [c]
    | none => ""
  name := String.ofList o.long
  kind := match o.act with
    | .store => .value
    | .storeInt => .number
    | .storeTrue => .flag
    | _ => .stop

theorem opOf_toO (o : Opt) : (opOf o).o = toO o := by
  obtain ⟨sh, lo, act⟩ := o
  cases sh <;> cases act <;> simp [opOf, Op.o, toO, Opt.takes]

/-- Under both its names the command is found, and it is the same. -/
theorem names_found : ∀ p ∈ readme, ∃ c ∈ allCmds, c.long = p.1.toList ∧ getCmd registry p.1.toList = some c ∧
    (p.2 ≠ "" → getCmd registry p.2.toList = some c) ∧ (p.2 = "" → c.short = none) := by decide +kernel

/-- There are no other commands. -/
theorem names_all : ∀ c ∈ allCmds, ∃ p ∈ readme, c.long = p.1.toList ∧ c.short = if p.2 = "" then none else some p.2.toList := by
  decide +kernel

theorem name_words : ∀ p ∈ readme, (p.1.toList.head? ≠ some '-') ∧ (p.2.toList.head? ≠ some '-') := by decide +kernel

/-- The commands of the manual that cannot be used. -/
def dead : List String := ["search", "list-upgrades"]

def tableOk (c : Cls) (os : List Op) : Bool := match mkParser c with
  | .ok t => t.map opOf = every ++ os ++ common
  | .error _ => false

theorem tables : ∀ p ∈ own, p.1 ∉ dead → ∀ c ∈ allCmds, c.long = p.1.toList → tableOk c p.2 = true := by decide +kernel

theorem own_names : ∀ p ∈ own, ∀ q ∈ own, p.1 = q.1 → p = q := by decide +kernel

theorem called_cmd {n : String} {w : Str} (h : Called n w) : ∃ c ∈ allCmds, c.long = n.toList ∧ getCmd registry w = some c ∧
    w.head? ≠ some '-' := by
  obtain ⟨a, ha, hw⟩ := h
  obtain ⟨c, hc, h1, h2, h3, _⟩ := names_found _ ha
  have h4 := name_words _ ha
  rcases hw with rfl | ⟨hne, rfl⟩
  · exact ⟨c, hc, h1, h2, h4.1⟩
  · exact ⟨c, hc, h1, h3 hne, h4.2⟩

/-! ## C187: all options of all commands -/

/-- A line that is written as the manual says runs the command that it names with the options that are set and the
words that are left. -/
def Works (n : String) : Prop := ∀ (w : Str), Called n w → ∀ (os : List Op), options n os →
  ∀ (pre post : List Spec.Item) (raw : Option (List Str)) (ss : List Setting) (as : List Str),
    Spec.Line (os.map Op.o) (pre ++ .word w :: post) ss as → (∀ i ∈ pre, Front i) →
    ∃ c args, c.long = n.toList ∧ as ++ raw.getD [] = w :: args ∧
      pisi registry (Spec.words (pre ++ .word w :: post) raw) = .run c ss args

/-- C187 in full: of every command. -/
def ManualFull : Prop := ∀ n a, (n, a) ∈ readme → Works n

/-- C187 (partial): all commands but search and list-upgrades. -/
theorem manual_partial (n : String) (hn : n ∉ dead) : Works n := by
  rintro w hw os ⟨os', ho, rfl⟩ pre post raw ss as hl hp
  obtain ⟨c, hc, h1, h2, _⟩ := called_cmd hw
  have ht := tables _ ho hn c hc h1
  unfold tableOk at ht
  cases hm : mkParser c with
  | error e => rw [hm] at ht; cases ht
  | ok t =>
    rw [hm] at ht
    have ht : t.map opOf = every ++ os' ++ common := of_decide_eq_true ht
    have e : (every ++ os' ++ common).map Op.o = t.map toO := by
      rw [← ht, List.map_map]
      exact List.map_congr_left (fun o _ => opOf_toO o)
    rw [e] at hl
    obtain ⟨args, h3, h4⟩ := command_line_partial (raw := raw) hm h2 hl hp
    exact ⟨c, args, h1, h3, h4⟩

/-- C187 does not hold in full. -/
theorem manual_refuted : ¬ ManualFull := by
  intro h
  obtain ⟨c, args, _, _, e⟩ := h "search" "sr" (by decide +kernel) "search".toList ⟨"sr", by decide +kernel, .inl rfl⟩ _
    ⟨[flag "f" "files", flag "F" "files-path", flag "" "xml", value "l" "language", flag "L" "long"], by decide +kernel, rfl⟩ [] [] none [] ["search".toList] (.cons (s := []) (a := ["search".toList])
      (.word (.inr (by decide +kernel))) .nil) (fun i hi => by cases hi)
  have := search_broken ["search".toList] [] "search".toList (by decide +kernel) (.inl (by decide +kernel))
  have e : pisi registry ["search".toList] = .run c [] args := e
  rw [this] at e
  cases e

/-- The two others end with an error, whatever follows. -/
theorem manual_dead (n : String) (hn : n ∈ dead) (w : Str) (hw : Called n w) (argv ns : List Str) (h : (preParse argv).2 = w :: ns) :
    ∃ e, pisi registry argv = .broken e := by
  obtain ⟨a, ha, hw⟩ := hw
  have hall : ∀ p ∈ readme, p.1 ∈ dead → (p.1.toList = cSearch.long ∧ cSearch.short = some p.2.toList) ∨
      (p.1.toList = cListUpgrades.long ∧ cListUpgrades.short = some p.2.toList) := by decide +kernel
  rcases hall _ ha hn with ⟨h1, h2⟩ | ⟨h1, h2⟩
  · refine ⟨_, search_broken argv ns w h ?_⟩
    rcases hw with rfl | ⟨_, rfl⟩
    · exact .inl h1
    · exact .inr h2
  · refine ⟨_, listUpgrades_broken argv ns w h ?_⟩
    rcases hw with rfl | ⟨_, rfl⟩
    · exact .inl h1
    · exact .inr h2

/-- Non-vacuity: `pisi -ynD/mnt up --eager -L 5 foo`. -/
example : ∃ c args, c.long = "upgrade".toList ∧
    pisi registry ["-ynD/mnt".toList, "up".toList, "--eager".toList, "-L".toList, "5".toList, "foo".toList] = .run c
      [("yes_all".toList, none), ("dry_run".toList, none), ("destdir".toList, some "/mnt".toList), ("eager".toList, none),
       ("bandwidth_limit".toList, some "5".toList)] args ∧ args = ["foo".toList] := by
  refine ⟨cUpgrade, _, by decide +kernel, ?_, rfl⟩
  decide +kernel

/-! ## C186: the README -/

/-- C186 in full: every command of the README runs under both its names with any words. -/
def ReadmeFull : Prop := ∀ n w, Called n w → ∀ ws : List Str, (∀ v ∈ ws, Plain v) →
  ∃ c, c.long = n.toList ∧ pisi registry (w :: ws) = .run c [] ws

/-- C186: the README lists all commands, with their abbreviations, and no others. -/
theorem readme_exact : (∀ w c, getCmd registry w = some c ↔ ∃ n, Called n w ∧ c ∈ allCmds ∧ c.long = n.toList) := by
  have hc' : ∀ c ∈ allCmds, ∀ d ∈ allCmds, c.long = d.long → c = d := by decide +kernel
  intro w c
  rw [command_names pisi_commands_registered]
  constructor
  · rintro ⟨hc, hw⟩
    obtain ⟨p, hp, h1, h2⟩ := names_all c hc
    refine ⟨p.1, ⟨p.2, hp, ?_⟩, hc, h1⟩
    rcases hw with rfl | ⟨hs, hne⟩
    · exact .inl h1
    · rw [h2] at hs
      by_cases e : p.2 = ""
      · rw [if_pos e] at hs; cases hs
      · rw [if_neg e] at hs; cases hs; exact .inr ⟨e, rfl⟩
  · rintro ⟨n, hw, hc, hl⟩
    obtain ⟨d, hd, h1, h2, _⟩ := called_cmd hw
    have : c = d := hc' c hc d hd (hl.trans h1.symm)
    subst this
    exact ⟨hc, ((command_names pisi_commands_registered w c).1 h2).2⟩

/-- C186 (partial): all commands but search and list-upgrades. -/
theorem readme_partial (n : String) (hn : n ∉ dead) (w : Str) (hw : Called n w) (ws : List Str) (h : ∀ v ∈ ws, Plain v) :
    ∃ c, c.long = n.toList ∧ pisi registry (w :: ws) = .run c [] ws := by
  obtain ⟨c, hc, h1, h2, h3⟩ := called_cmd hw
  have hex : ∀ p ∈ readme, ∃ q ∈ own, q.1 = p.1 := by decide +kernel
  obtain ⟨a, ha, _⟩ := hw
  obtain ⟨q, hq, e⟩ := hex _ ha
  have e : q.1 = n := e
  have ht := tables q hq (by rw [e]; exact hn) c hc (by rw [e]; exact h1)
  unfold tableOk at ht
  cases hm : mkParser c with
  | error e => rw [hm] at ht; cases ht
  | ok t => exact ⟨c, h1, command_runs hm h2 (.inr h3) h⟩

theorem readme_refuted : ¬ ReadmeFull := by
  intro h
  obtain ⟨c, _, e⟩ := h "search" "search".toList ⟨"sr", by decide +kernel, .inl rfl⟩ [] (fun v hv => by cases hv)
  rw [search_broken ["search".toList] [] "search".toList (by decide +kernel) (.inl (by decide +kernel))] at e
  cases e

/-- C186: the options that the README lists for install are its options, in this order. -/
theorem readme_install (os : List Op) : options "install" os ↔ os = readmeInstall := by
  have h1 : ∀ p ∈ own, p.1 = "install" → every ++ p.2 ++ common = readmeInstall := by decide +kernel
  have h2 : ∃ p ∈ own, p.1 = "install" := by decide +kernel
  constructor
  · rintro ⟨o, ho, rfl⟩; exact h1 _ ho rfl
  · rintro rfl
    obtain ⟨⟨n, o⟩, hp, rfl⟩ := h2
    exact ⟨o, hp, (h1 _ hp rfl).symm⟩

/-- C186: the parser of install has these options, in this order. -/
theorem readme_install_table (c : Cls) (h : getCmd registry "install".toList = some c ∨ getCmd registry "it".toList = some c) :
    ∃ t, mkParser c = .ok t ∧ t.map toO = readmeInstall.map Op.o := by
  obtain ⟨os, hos⟩ : ∃ os, options "install" os := ⟨_, (readme_install _).2 rfl⟩
  have hos' := (readme_install os).1 hos
  subst hos'
  obtain ⟨os', ho, e⟩ := hos
  have hw : ∃ w, Called "install" w ∧ getCmd registry w = some c := by
    rcases h with h | h
    · exact ⟨_, ⟨"it", by decide +kernel, .inl rfl⟩, h⟩
    · exact ⟨_, ⟨"it", by decide +kernel, .inr ⟨by decide, rfl⟩⟩, h⟩
  obtain ⟨w, hw, hg⟩ := hw
  obtain ⟨d, hd, h1, h2, _⟩ := called_cmd hw
  rw [hg] at h2
  cases h2
  have ht := tables _ ho (show "install" ∉ dead by decide) c hd h1
  unfold tableOk at ht
  cases hm : mkParser c with
  | error e => rw [hm] at ht; cases ht
  | ok t =>
    rw [hm] at ht
    have ht : t.map opOf = every ++ os' ++ common := of_decide_eq_true ht
    refine ⟨t, rfl, ?_⟩
    rw [e, ← ht, List.map_map]
    exact (List.map_congr_left (fun o _ => opOf_toO o)).symm

end Pisi.Cli.Manual
