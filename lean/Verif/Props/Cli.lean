/-
Properties of the command line (C124-C127).
-/
import Verif.Lemmas.Cli
import Mathlib.Data.List.Nodup

namespace Pisi.Cli

open Pisi

/-! ### The pre-parser -/

/-- A word that both parsers take for an argument. -/
def Plain (w : Str) : Prop := w = ['-'] ∨ w.head? ≠ some '-'

theorem preParse_plain {w : Str} (h : Plain w) (rest : List Str) :
    preParse (w :: rest) = ((preParse rest).1, w :: (preParse rest).2) := by
  conv => lhs; unfold preParse
  split
  · rcases h with h | h
    · cases h
    · exact absurd rfl h
  · rcases h with h | h
    · cases h
    · exact absurd rfl h
  · rcases h with h | h
    · cases h
    · exact absurd rfl h
  · rfl

theorem preParse_short {w : Str} (h1 : w ≠ []) (h2 : w.head? ≠ some '-') (rest : List Str) :
    (preParse (('-' :: w) :: rest)).2 = (preParse rest).2 := by
  cases w with
  | nil => exact absurd rfl h1
  | cons c cs =>
    have hc : c ≠ '-' := by rintro rfl; exact h2 rfl
    conv => lhs; unfold preParse
    split
    · rename_i heq
      injection heq with _ heq
      injection heq with heq
      exact absurd heq hc
    · rename_i heq
      injection heq with _ heq
      injection heq with heq
      exact absurd heq hc
    · rfl
    · rename_i h3
      exact absurd rfl (h3 c cs)

theorem preParse_long {w : Str} (h1 : w ≠ []) (rest : List Str) :
    (preParse (('-' :: '-' :: w) :: rest)).2 = (preParse rest).2 := by
  cases w with
  | nil => exact absurd rfl h1
  | cons c cs => rfl

/-- The item is an option whose value, if it has one, is in the same word. -/
def Front (i : Spec.Item) : Prop := i.Tight ∧ ∀ w, i ≠ .word w

theorem preParse_front {os : List Spec.O} {i : Spec.Item} {s : List Setting} {a : List Str}
    (h : Spec.Means os i s a) (hf : Front i) (rest : List Str) :
    (preParse (i.words ++ rest)).2 = (preParse rest).2 := by
  cases h with
  | flags h1 h2 h3 => exact preParse_short h1 h2 rest
  | @attached cs as c v o h1 h2 h3 h4 h5 h6 h7 =>
    exact preParse_short (by simp) (by cases cs <;> simpa using h1) rest
  | apart => exact hf.1.elim
  | long o h1 => exact preParse_long h1 rest
  | longEq o h1 => exact preParse_long (by simp) rest
  | longApart => exact hf.1.elim
  | @word w h1 => exact absurd rfl (hf.2 w)

theorem line_append {os : List Spec.O} {is js : List Spec.Item} {s : List Setting} {a : List Str}
    (h : Spec.Line os (is ++ js) s a) : ∃ s1 a1 s2 a2, Spec.Line os is s1 a1 ∧
      Spec.Line os js s2 a2 ∧ s = s1 ++ s2 ∧ a = a1 ++ a2 := by
  induction is generalizing s a with
  | nil => exact ⟨[], [], s, a, .nil, h, rfl, rfl⟩
  | cons i is ih =>
    rw [List.cons_append] at h
    cases h with
    | cons h1 h2 =>
      obtain ⟨s1, a1, s2, a2, l1, l2, rfl, rfl⟩ := ih h2
      exact ⟨_, _, s2, a2, .cons h1 l1, l2, by rw [List.append_assoc], by rw [List.append_assoc]⟩

theorem preParse_fronts {os : List Spec.O} {is : List Spec.Item} {s : List Setting} {a : List Str}
    (h : Spec.Line os is s a) (hf : ∀ i ∈ is, Front i) (rest : List Str) :
    (preParse (is.flatMap Spec.Item.words ++ rest)).2 = (preParse rest).2 := by
  induction h with
  | nil => rfl
  | cons h1 _ ih =>
    rw [List.flatMap_cons, List.append_assoc, preParse_front h1 (hf _ (List.mem_cons_self ..)),
      ih (fun i hi => hf i (List.mem_cons_of_mem _ hi))]

theorem fronts_no_args {os : List Spec.O} {is : List Spec.Item} {s : List Setting} {a : List Str}
    (h : Spec.Line os is s a) (hf : ∀ i ∈ is, Front i) : a = [] := by
  induction h with
  | nil => rfl
  | @cons i is s ss a as h1 _ ih =>
    rw [ih (fun i hi => hf i (List.mem_cons_of_mem _ hi)), List.append_nil]
    cases h1 with
    | @word w h1 => exact absurd rfl ((hf _ (List.mem_cons_self ..)).2 w)
    | _ => rfl

/-- The first argument that the pre-parser finds decides which command is made. -/
theorem pisi_of_preParse {d : List (Str × Cls)} {argv : List Str} {n : Str} {ns : List Str}
    (h : (preParse argv).2 = n :: ns) : pisi d argv = match getCmd d n with
      | none => .unrecognized n
      | some c => initCmd c argv := by
  unfold pisi
  generalize hp : preParse argv = r at h
  obtain ⟨o, a⟩ := r
  dsimp only at h
  subst h
  rfl

/-! ### C124: the command line is read as it is written -/

/-- The property in full: a line whose items are good for the options of the command named by the
first argument runs that command, with the options that the line sets and the other arguments. -/
def CommandLineFull : Prop :=
  ∀ (d : List (Str × Cls)) (c : Cls) (t : List Opt) (is : List Spec.Item) (raw : Option (List Str))
    (ss : List Setting) (as args : List Str) (cmd : Str),
    mkParser c = .ok t → getCmd d cmd = some c → Spec.Line (t.map toO) is ss as →
    as ++ raw.getD [] = cmd :: args → pisi d (Spec.words is raw) = .run c ss args

theorem initCmd_line {c : Cls} {t : List Opt} {is : List Spec.Item} {raw : Option (List Str)}
    {ss : List Setting} {as : List Str} (ht : mkParser c = .ok t)
    (h : Spec.Line (t.map toO) is ss as) :
    initCmd c (Spec.words is raw) = .run c ss (as ++ raw.getD []).tail := by
  unfold initCmd
  rw [ht]
  dsimp only
  rw [parse_words (mkParser_distinct ht) (mkParser_nodup ht) h]

/-- C124 (partial): if no option in front of the command has its value in a word of its own, the
line is read as it is written: whatever options, in whatever form, before and after the command,
and whatever words after "--". -/
theorem command_line_partial {d : List (Str × Cls)} {c : Cls} {t : List Opt}
    {pre post : List Spec.Item} {raw : Option (List Str)} {ss : List Setting} {as : List Str}
    {cmd : Str} (ht : mkParser c = .ok t) (hd : getCmd d cmd = some c)
    (h : Spec.Line (t.map toO) (pre ++ .word cmd :: post) ss as) (hpre : ∀ i ∈ pre, Front i) :
    ∃ args, as ++ raw.getD [] = cmd :: args ∧
      pisi d (Spec.words (pre ++ .word cmd :: post) raw) = .run c ss args := by
  obtain ⟨s1, a1, s2, a2, l1, l2, e1, e2⟩ := line_append h
  have ha1 := fronts_no_args l1 hpre
  subst ha1
  cases l2 with
  | @cons i is s ss' a as' m l3 =>
    cases m with
    | word hw =>
      refine ⟨as' ++ raw.getD [], by rw [e2]; simp, ?_⟩
      have hp : (preParse (Spec.words (pre ++ .word cmd :: post) raw)).2 =
          cmd :: (preParse (Spec.words post raw)).2 := by
        unfold Spec.words
        rw [List.flatMap_append, List.flatMap_cons, List.append_assoc, List.append_assoc,
          preParse_fronts l1 hpre]
        show (preParse (cmd :: _)).2 = _
        rw [preParse_plain hw]
        rfl
      rw [pisi_of_preParse hp, hd]
      dsimp only
      rw [initCmd_line ht h, e2]
      simp

/-- C124, what happens otherwise: the first option in front of the command with its value in a
word of its own decides: that value is taken for the command. -/
theorem command_from_value {d : List (Str × Cls)} {os : List Spec.O}
    {pre post : List Spec.Item} {raw : Option (List Str)} {s1 : List Setting} {a1 : List Str}
    {i : Spec.Item} {v : Str} (l1 : Spec.Line os pre s1 a1) (hpre : ∀ i ∈ pre, Front i)
    (hi : (∃ cs c, (cs ++ [c]).head? ≠ some '-' ∧ i = .apart cs c v) ∨
      (∃ n, n ≠ [] ∧ i = .longApart n v)) (hv : Plain v) :
    pisi d (Spec.words (pre ++ i :: post) raw) = match getCmd d v with
      | none => .unrecognized v
      | some c => initCmd c (Spec.words (pre ++ i :: post) raw) := by
  have hp : (preParse (Spec.words (pre ++ i :: post) raw)).2 =
      v :: (preParse (Spec.words post raw)).2 := by
    unfold Spec.words
    rw [List.flatMap_append, List.flatMap_cons, List.append_assoc, List.append_assoc,
      preParse_fronts l1 hpre]
    rcases hi with ⟨cs, c, h1, rfl⟩ | ⟨n, h1, rfl⟩
    · show (preParse (_ :: v :: _)).2 = _
      rw [preParse_short (by simp) h1, preParse_plain hv]
      rfl
    · show (preParse (_ :: v :: _)).2 = _
      rw [preParse_long h1, preParse_plain hv]
      rfl
  rw [pisi_of_preParse hp]

/-- C124: nothing is run if the value in the wrong place is not the name of a command. -/
theorem command_line_refused {d : List (Str × Cls)} {os : List Spec.O}
    {pre post : List Spec.Item} {raw : Option (List Str)} {s1 : List Setting} {a1 : List Str}
    {i : Spec.Item} {v : Str} (l1 : Spec.Line os pre s1 a1) (hpre : ∀ i ∈ pre, Front i)
    (hi : (∃ cs c, (cs ++ [c]).head? ≠ some '-' ∧ i = .apart cs c v) ∨
      (∃ n, n ≠ [] ∧ i = .longApart n v)) (hv : Plain v) (hd : getCmd d v = none) :
    pisi d (Spec.words (pre ++ i :: post) raw) = .unrecognized v := by
  rw [command_from_value l1 hpre hi hv, hd]

/-- The registry of pisi. -/
def registry : List (Str × Cls) := (registerAll [] allCmds).getD []

/-- The options of the command install. -/
def installTable : List Opt := match mkParser cInstall with
  | .ok t => t
  | .error _ => []

/-- An outcome of `mkParser` that is a table. -/
def isOk (r : Except BuildErr (List Opt)) : Bool := match r with
  | .ok _ => true
  | .error _ => false

theorem eq_ok_of_isOk {r : Except BuildErr (List Opt)} (h : isOk r = true) :
    r = .ok (match r with | .ok t => t | .error _ => []) := by
  cases r with
  | ok t => rfl
  | error e => cases h

theorem mkParser_install : mkParser cInstall = .ok installTable :=
  eq_ok_of_isOk (by decide +kernel)

/-- `pisi -D remove install foo`: install foo in the directory "remove". -/
def badLine : List Spec.Item :=
  [.apart [] 'D' ['r', 'e', 'm', 'o', 'v', 'e'], .word ['i', 'n', 's', 't', 'a', 'l', 'l'],
   .word ['f', 'o', 'o']]

theorem badLine_means : Spec.Line (installTable.map toO) badLine
    [(['d', 'e', 's', 't', 'd', 'i', 'r'], some ['r', 'e', 'm', 'o', 'v', 'e'])]
    [['i', 'n', 's', 't', 'a', 'l', 'l'], ['f', 'o', 'o']] := by
  have hm : (⟨some 'D', ['d', 'e', 's', 't', 'd', 'i', 'r'], .store⟩ : Opt) ∈ installTable := by
    decide +kernel
  exact .cons (.apart (as := []) _ (by decide) .nil (List.mem_map_of_mem hm) rfl rfl trivial)
    (.cons (.word (Or.inr (by decide))) (.cons (.word (Or.inr (by decide))) .nil))

/-- C124, the witness: it removes foo. -/
theorem badLine_removes : pisi registry (Spec.words badLine none) =
    .run cRemove [(['d', 'e', 's', 't', 'd', 'i', 'r'], some ['r', 'e', 'm', 'o', 'v', 'e'])]
      [['f', 'o', 'o']] := by
  decide +kernel

/-- C124 does not hold in full. -/
theorem command_line_refuted : ¬ CommandLineFull := by
  intro h
  have h1 := h registry cInstall installTable badLine none _ _ _ _ mkParser_install
    (by decide +kernel) badLine_means rfl
  rw [badLine_removes] at h1
  injection h1 with h1
  revert h1
  decide +kernel

/-- Non-vacuity of C124: `pisi -ynDdir --reinst install -L 10 foo -- -x`. -/
example : pisi registry (Spec.words
    [.attached ['y', 'n'] 'D' ['d'], .long ['r', 'e', 'i', 'n', 's', 't'],
     .word ['i', 'n', 's', 't', 'a', 'l', 'l'], .apart [] 'L' ['1', '0'], .word ['f', 'o', 'o']]
    (some [['-', 'x']])) =
    .run cInstall
      [(['y', 'e', 's', '_', 'a', 'l', 'l'], none), (['d', 'r', 'y', '_', 'r', 'u', 'n'], none),
       (['d', 'e', 's', 't', 'd', 'i', 'r'], some ['d']),
       (['r', 'e', 'i', 'n', 's', 't', 'a', 'l', 'l'], none),
       (['b', 'a', 'n', 'd', 'w', 'i', 'd', 't', 'h', '_', 'l', 'i', 'm', 'i', 't'],
         some ['1', '0'])]
      [['f', 'o', 'o'], ['-', 'x']] := by
  decide +kernel

/-- Non-vacuity of the hypotheses of `command_line_partial`. -/
example : ∃ args, [['i', 'n', 's', 't', 'a', 'l', 'l'], ['f']] ++ (none : Option (List Str)).getD [] =
      ['i', 'n', 's', 't', 'a', 'l', 'l'] :: args ∧
    pisi registry (Spec.words ([.attached [] 'D' ['d']] ++
      .word ['i', 'n', 's', 't', 'a', 'l', 'l'] :: [.word ['f']]) none) =
    .run cInstall [(['d', 'e', 's', 't', 'd', 'i', 'r'], some ['d'])] args := by
  have hm : (⟨some 'D', ['d', 'e', 's', 't', 'd', 'i', 'r'], .store⟩ : Opt) ∈ installTable := by
    decide +kernel
  refine command_line_partial mkParser_install (by decide +kernel)
    (.cons (.attached (as := []) _ (by decide) .nil (List.mem_map_of_mem hm) rfl rfl (by decide)
      trivial) (.cons (.word (Or.inr (by decide))) (.cons (.word (Or.inr (by decide))) .nil))) ?_
  intro i hi
  simp only [List.mem_singleton] at hi
  subst hi
  exact ⟨trivial, fun w h => by cases h⟩

/-- Non-vacuity of `command_line_refused`: `pisi --destdir /mnt install foo`. -/
example : pisi registry (Spec.words ([] ++
      .longApart ['d', 'e', 's', 't', 'd', 'i', 'r'] ['/', 'm', 'n', 't'] ::
      [.word ['i', 'n', 's', 't', 'a', 'l', 'l'], .word ['f', 'o', 'o']]) none) =
    .unrecognized ['/', 'm', 'n', 't'] :=
  command_line_refused (os := []) .nil (by intro i hi; cases hi)
    (Or.inr ⟨_, by decide, rfl⟩) (Or.inr (by decide)) (by decide +kernel)

/-! ### C125: names of commands -/

/-- The names of a command. -/
def namesOf (c : Cls) : List Str := c.long :: match c.short with
  | none => []
  | some s => if s = [] then [] else [s]

/-- The entries of a command. -/
def entriesOf (c : Cls) : List (Str × Cls) := (namesOf c).map (fun n => (n, c))

theorem addCmd_eq_some {d d' : List (Str × Cls)} {n : Str} {c : Cls} :
    addCmd d n c = some d' ↔ n ∉ d.map (·.1) ∧ d' = d ++ [(n, c)] := by
  unfold addCmd
  by_cases h : d.any (fun e => e.1 == n)
  · rw [if_pos h]
    constructor
    · intro h'; cases h'
    · rintro ⟨h1, _⟩
      rw [List.any_eq_true] at h
      obtain ⟨e, he, h2⟩ := h
      simp only [beq_iff_eq] at h2
      exact absurd (h2 ▸ List.mem_map_of_mem he) h1
  · rw [if_neg h]
    constructor
    · intro h'
      injection h' with h'
      refine ⟨?_, h'.symm⟩
      intro hm
      obtain ⟨e, he, h2⟩ := List.mem_map.mp hm
      apply h
      rw [List.any_eq_true]
      exact ⟨e, he, by simp [h2]⟩
    · rintro ⟨_, h2⟩
      rw [h2]

theorem register_eq_some {d d' : List (Str × Cls)} {c : Cls} :
    register d c = some d' ↔
      (namesOf c).Nodup ∧ (∀ n ∈ namesOf c, n ∉ d.map (·.1)) ∧ d' = d ++ entriesOf c := by
  unfold register
  cases h1 : addCmd d c.long c with
  | none =>
    dsimp only
    constructor
    · intro h; cases h
    · rintro ⟨_, h2, _⟩
      have := (addCmd_eq_some (d' := d ++ [(c.long, c)])).mpr
        ⟨h2 c.long (by unfold namesOf; exact List.mem_cons_self ..), rfl⟩
      rw [h1] at this
      cases this
  | some d1 =>
    have e1 := addCmd_eq_some.mp h1
    dsimp only
    cases hs : c.short with
    | none =>
      have hn : namesOf c = [c.long] := by unfold namesOf; rw [hs]
      dsimp only
      rw [hn]
      unfold entriesOf
      rw [hn]
      constructor
      · intro h
        injection h with h
        exact ⟨by simp, by intro n hn'; simp only [List.mem_singleton] at hn'; exact hn' ▸ e1.1,
          by rw [← h, e1.2]; rfl⟩
      · rintro ⟨_, _, h3⟩
        rw [h3, e1.2]
        rfl
    | some s =>
      dsimp only
      by_cases hse : s = []
      · have hn : namesOf c = [c.long] := by
          unfold namesOf; rw [hs]; dsimp only; rw [if_pos hse]
        rw [if_pos hse, hn]
        unfold entriesOf
        rw [hn]
        constructor
        · intro h
          injection h with h
          exact ⟨by simp, by intro n hn'; simp only [List.mem_singleton] at hn'; exact hn' ▸ e1.1,
            by rw [← h, e1.2]; rfl⟩
        · rintro ⟨_, _, h3⟩
          rw [h3, e1.2]
          rfl
      · have hn : namesOf c = [c.long, s] := by
          unfold namesOf; rw [hs]; dsimp only; rw [if_neg hse]
        rw [if_neg hse, hn]
        unfold entriesOf
        rw [hn, addCmd_eq_some, e1.2]
        constructor
        · rintro ⟨h2, h3⟩
          simp only [List.map_append, List.map_cons, List.map_nil, List.mem_append,
            List.mem_singleton, not_or] at h2
          refine ⟨by simp [Ne.symm h2.2], ?_, by rw [h3]; simp⟩
          intro n hn'
          simp only [List.mem_cons, List.not_mem_nil, or_false] at hn'
          rcases hn' with rfl | rfl
          · exact e1.1
          · exact h2.1
        · rintro ⟨h2, h3, h4⟩
          refine ⟨?_, by rw [h4]; simp⟩
          simp only [List.map_append, List.map_cons, List.map_nil, List.mem_append,
            List.mem_singleton, not_or]
          refine ⟨h3 s (by simp), ?_⟩
          simp only [List.nodup_cons, List.mem_singleton] at h2
          exact fun h => h2.1 h.symm

theorem entries_names (c : Cls) : (entriesOf c).map (·.1) = namesOf c := by
  unfold entriesOf
  rw [List.map_map]
  exact List.map_id _

theorem registerAll_eq_some {cs : List Cls} : ∀ {d d' : List (Str × Cls)},
    (d.map (·.1)).Nodup → (registerAll d cs = some d' ↔
      (d.map (·.1) ++ cs.flatMap namesOf).Nodup ∧ d' = d ++ cs.flatMap entriesOf) := by
  induction cs with
  | nil =>
    intro d d' hd
    unfold registerAll
    simp only [List.flatMap_nil, List.append_nil, Option.some.injEq]
    exact ⟨fun h => ⟨hd, h.symm⟩, fun h => h.2.symm⟩
  | cons c cs ih =>
    intro d d' hd
    unfold registerAll
    rw [List.flatMap_cons, List.flatMap_cons, ← List.append_assoc, ← List.append_assoc]
    cases h1 : register d c with
    | none =>
      dsimp only
      constructor
      · intro h; cases h
      · rintro ⟨h2, _⟩
        exfalso
        have h3 := (List.nodup_append.mp h2).1
        have := (register_eq_some (d := d) (d' := d ++ entriesOf c) (c := c)).mpr
          ⟨(List.nodup_append.mp h3).2.1,
            fun n hn hm => (List.nodup_append.mp h3).2.2 n hm n hn rfl, rfl⟩
        rw [h1] at this
        cases this
    | some d1 =>
      dsimp only
      obtain ⟨e1, e2, e3⟩ := register_eq_some.mp h1
      have hd1 : (d1.map (·.1)).Nodup := by
        rw [e3, List.map_append, entries_names]
        refine List.nodup_append.mpr ⟨hd, e1, ?_⟩
        intro a ha b hb hab
        exact e2 b hb (hab ▸ ha)
      rw [ih hd1, e3, List.map_append, entries_names]

/-- C125: the commands can be registered exactly if all their names, long and short, are
different; then every name stands for its own command and no other name for any. -/
theorem registry_exact {cs : List Cls} {d : List (Str × Cls)} :
    registerAll [] cs = some d ↔
      (cs.flatMap namesOf).Nodup ∧ d = cs.flatMap entriesOf := by
  rw [registerAll_eq_some (by simp)]
  simp

theorem getCmd_of_mem {d : List (Str × Cls)} (hd : (d.map (·.1)).Nodup) {n : Str} {c : Cls}
    (h : (n, c) ∈ d) : getCmd d n = some c := by
  unfold getCmd
  induction d with
  | nil => cases h
  | cons e d ih =>
    rw [List.map_cons, List.nodup_cons] at hd
    by_cases he : e.1 = n
    · rw [List.find?_cons_of_pos (by simp [he])]
      rcases List.mem_cons.mp h with h | h
      · rw [← h]; rfl
      · exact absurd (he ▸ List.mem_map_of_mem h) hd.1
    · rw [List.find?_cons_of_neg (by simp [he])]
      rcases List.mem_cons.mp h with h | h
      · exact absurd (by rw [← h]) he
      · exact ih hd.2 h

/-- C125: a command is found under each of its names, and under these only. -/
theorem command_names {cs : List Cls} {d : List (Str × Cls)} (h : registerAll [] cs = some d)
    (n : Str) (c : Cls) :
    getCmd d n = some c ↔ c ∈ cs ∧ (n = c.long ∨ (c.short = some n ∧ n ≠ [])) := by
  obtain ⟨h1, h2⟩ := registry_exact.mp h
  have hmap : d.map (·.1) = cs.flatMap namesOf := by
    rw [h2, List.map_flatMap]
    congr 1
    funext c
    exact entries_names c
  have hn : ∀ c : Cls, n ∈ namesOf c ↔ (n = c.long ∨ (c.short = some n ∧ n ≠ [])) := by
    intro c
    unfold namesOf
    cases hs : c.short with
    | none => simp
    | some s =>
      by_cases hse : s = []
      · subst hse
        dsimp only
        rw [if_pos rfl]
        simp
      · dsimp only
        rw [if_neg hse]
        simp only [List.mem_cons, List.not_mem_nil, or_false, Option.some.injEq]
        constructor
        · rintro (h | h)
          · exact Or.inl h
          · exact Or.inr ⟨h.symm, h ▸ hse⟩
        · rintro (h | ⟨h, _⟩)
          · exact Or.inl h
          · exact Or.inr h.symm
  have hmem : (n, c) ∈ d ↔ c ∈ cs ∧ n ∈ namesOf c := by
    rw [h2, List.mem_flatMap]
    constructor
    · rintro ⟨c', hc', h3⟩
      unfold entriesOf at h3
      obtain ⟨n', hn', h4⟩ := List.mem_map.mp h3
      injection h4 with e1 e2
      subst e1 e2
      exact ⟨hc', hn'⟩
    · rintro ⟨hc, h3⟩
      exact ⟨c, hc, List.mem_map.mpr ⟨n, h3, rfl⟩⟩
  rw [← hn, ← hmem]
  constructor
  · intro h3
    unfold getCmd at h3
    cases hf : d.find? (fun e => e.1 == n) with
    | none => rw [hf] at h3; cases h3
    | some e =>
      rw [hf] at h3
      injection h3 with h3
      have h4 := List.find?_some hf
      simp only [beq_iff_eq] at h4
      have h5 := List.mem_of_find?_eq_some hf
      rw [← h4, ← h3]
      exact h5
  · intro h3
    exact getCmd_of_mem (hmap ▸ h1) h3

/-- C125: the commands of pisi are registered. -/
theorem pisi_commands_registered : registerAll [] allCmds = some registry := by
  have h : (registerAll [] allCmds).isSome = true := by decide +kernel
  unfold registry
  cases hr : registerAll [] allCmds with
  | none => rw [hr] at h; cases h
  | some d => rfl

/-- Non-vacuity of C125: remove by its two names; a second command of that name is refused. -/
example : getCmd registry ['r', 'm'] = some cRemove :=
  (command_names pisi_commands_registered _ _).mpr
    ⟨by decide +kernel, Or.inr ⟨rfl, by decide⟩⟩

example : registerAll [] (allCmds ++ [⟨['r', 'm'], none, []⟩]) = none := by decide +kernel

/-! ### C126: every command can be used -/

/-- The property in full: every command of pisi, given any words that are not options, runs with
these words. -/
def EveryCommandFull : Prop :=
  ∀ c ∈ allCmds, ∀ ws : List Str, (∀ w ∈ ws, Plain w) →
    pisi registry (c.long :: ws) = .run c [] ws

theorem line_plain {os : List Spec.O} {ws : List Str} (h : ∀ w ∈ ws, Plain w) :
    Spec.Line os (ws.map .word) [] ws := by
  induction ws with
  | nil => exact .nil
  | cons w ws ih =>
    exact .cons (s := []) (a := [w]) (.word (h w (List.mem_cons_self ..)))
      (ih (fun w hw => h w (List.mem_cons_of_mem _ hw)))

theorem words_plain (ws : List Str) : Spec.words (ws.map .word) none = ws := by
  unfold Spec.words
  dsimp only
  rw [List.append_nil]
  induction ws with
  | nil => rfl
  | cons w ws ih =>
    rw [List.map_cons, List.flatMap_cons, ih]
    rfl

/-- A command whose parser can be made is run with the words it is given. -/
theorem command_runs {d : List (Str × Cls)} {c : Cls} {t : List Opt} {n : Str} {ws : List Str}
    (ht : mkParser c = .ok t) (hd : getCmd d n = some c) (hn : Plain n)
    (hw : ∀ w ∈ ws, Plain w) : pisi d (n :: ws) = .run c [] ws := by
  obtain ⟨args, h1, h2⟩ := command_line_partial (raw := none) (pre := []) (post := ws.map .word)
    (ss := []) (as := n :: ws) ht hd
    (line_plain (ws := n :: ws) (by
      intro w hw'
      rcases List.mem_cons.mp hw' with rfl | h
      · exact hn
      · exact hw w h)) (by intro i hi; cases hi)
  have hw' : Spec.words ([] ++ Spec.Item.word n :: ws.map .word) none = n :: ws :=
    words_plain (n :: ws)
  rw [hw'] at h2
  simp only [Option.getD_none, List.append_nil, List.cons.injEq, true_and] at h1
  rw [h2, h1]

/-- C126 (partial): every command but search and list-upgrades, under both its names. -/
theorem every_command_partial (c : Cls) (hc : c ∈ allCmds) (h1 : c ≠ cSearch)
    (h2 : c ≠ cListUpgrades) (n : Str) (hn : n = c.long ∨ (c.short = some n ∧ n ≠ []))
    (ws : List Str) (hw : ∀ w ∈ ws, Plain w) : pisi registry (n :: ws) = .run c [] ws := by
  have hall : ∀ c ∈ allCmds, c ≠ cSearch → c ≠ cListUpgrades → isOk (mkParser c) = true := by
    decide +kernel
  have hpl : ∀ c ∈ allCmds, (c.long.head? ≠ some '-') ∧
      (∀ s ∈ c.short, s.head? ≠ some '-') := by
    decide +kernel
  have hg := (command_names pisi_commands_registered n c).mpr ⟨hc, hn⟩
  refine command_runs (eq_ok_of_isOk (hall c hc h1 h2)) hg ?_ hw
  rcases hn with rfl | ⟨hn, _⟩
  · exact Or.inr (hpl c hc).1
  · exact Or.inr ((hpl c hc).2 n hn)

/-- C126, what happens to the two others: whatever the line, if it names search or list-upgrades
first, the program ends with an error before anything is done. -/
theorem search_broken (argv ns : List Str) (n : Str) (h : (preParse argv).2 = n :: ns)
    (hn : n = cSearch.long ∨ cSearch.short = some n) :
    pisi registry argv = .broken .conflict := by
  have hg : getCmd registry n = some cSearch := by
    rcases hn with rfl | hn
    · decide +kernel
    · injection hn with hn
      subst hn
      decide +kernel
  rw [pisi_of_preParse h, hg]
  dsimp only
  unfold initCmd
  have : mkParser cSearch = .error .conflict := by rfl
  rw [this]

theorem listUpgrades_broken (argv ns : List Str) (n : Str) (h : (preParse argv).2 = n :: ns)
    (hn : n = cListUpgrades.long ∨ cListUpgrades.short = some n) :
    pisi registry argv = .broken .nameError := by
  have hg : getCmd registry n = some cListUpgrades := by
    rcases hn with rfl | hn
    · decide +kernel
    · injection hn with hn
      subst hn
      decide +kernel
  rw [pisi_of_preParse h, hg]
  dsimp only
  unfold initCmd
  have : mkParser cListUpgrades = .error .nameError := by rfl
  rw [this]

/-- C126 does not hold in full. -/
theorem every_command_refuted : ¬ EveryCommandFull := by
  intro h
  have h1 := h cSearch (by decide +kernel) [] (by intro w hw; cases hw)
  rw [search_broken [cSearch.long] [] cSearch.long (by rfl) (Or.inl rfl)] at h1
  cases h1

/-- Non-vacuity of C126. -/
example : pisi registry [['u', 'p'], ['f', 'o', 'o']] = .run cUpgrade [] [['f', 'o', 'o']] :=
  every_command_partial cUpgrade (by decide +kernel) (by decide +kernel) (by decide +kernel) _
    (Or.inr ⟨rfl, by decide⟩) _ (by
      intro w hw
      simp only [List.mem_singleton] at hw
      exact Or.inr (by rw [hw]; decide))

/-! ### C127: the general help lists the commands -/

/-- The property in full: the text printed by `pisi help` lists every command. -/
def HelpListsFull : Prop :=
  ∀ (cs : List Cls) (m : Mods), load {} (program cs) = some m →
    ∀ c ∈ cs, (c.long, c.short) ∈ m.usage

theorem load_defines {cs : List Cls} : ∀ {m m' : Mods}, load m (cs.map .define) = some m' →
    m'.usage = m.usage ∧ m'.cmds = m.cmds ++ cs ∧ registerAll m.dict cs = some m'.dict := by
  induction cs with
  | nil =>
    intro m m' h
    injection h with h
    subst h
    exact ⟨rfl, by simp, rfl⟩
  | cons c cs ih =>
    intro m m' h
    rw [List.map_cons] at h
    unfold load at h
    unfold registerAll
    split at h
    · cases h
    · obtain ⟨e1, e2, e3⟩ := ih h
      exact ⟨e1, by rw [e2]; simp, e3⟩

/-- C127, what happens: the list of commands is empty, whatever the commands. -/
theorem help_lists_nothing {cs : List Cls} {m : Mods} (h : load {} (program cs) = some m) :
    m.usage = [] := by
  unfold program load at h
  exact (load_defines h).1

/-- C127 does not hold in full: not for the commands of pisi. -/
theorem help_lists_refuted : ¬ HelpListsFull := by
  intro h
  have hs : (load {} (program allCmds)).isSome = true := by decide +kernel
  cases hl : load {} (program allCmds) with
  | none => rw [hl] at hs; cases hs
  | some m =>
    have h1 := h allCmds m hl cBuild (List.mem_cons_self ..)
    rw [help_lists_nothing hl] at h1
    cases h1

theorem insertName_perm (n : Str) : ∀ ms, (insertName n ms).Perm (n :: ms)
  | [] => List.Perm.refl _
  | m :: ms => by
    unfold insertName
    by_cases h : strLe n m
    · rw [if_pos h]
    · rw [if_neg h]
      exact ((insertName_perm n ms).cons m).trans (List.Perm.swap n m ms)

theorem sortNames_perm : ∀ ns, (sortNames ns).Perm ns
  | [] => List.Perm.refl _
  | n :: ns => (insertName_perm n _).trans ((sortNames_perm ns).cons n)

theorem strLe_total : ∀ a b : Str, strLe a b = false → strLe b a = true
  | [], _, h => by cases h
  | _ :: _, [], _ => rfl
  | a :: as, b :: bs, h => by
    unfold strLe at h ⊢
    by_cases h1 : a.toNat < b.toNat
    · rw [if_pos h1] at h; cases h
    · rw [if_neg h1] at h
      by_cases h2 : b.toNat < a.toNat
      · rw [if_pos h2]
      · rw [if_neg h2] at h
        rw [if_neg h2, if_neg h1]
        exact strLe_total as bs h

theorem strLe_trans : ∀ a b c : Str, strLe a b = true → strLe b c = true → strLe a c = true
  | [], _, _, _, _ => rfl
  | _ :: _, [], _, h, _ => by cases h
  | _ :: _, _ :: _, [], _, h => by cases h
  | a :: as, b :: bs, c :: cs, h1, h2 => by
    unfold strLe at h1 h2 ⊢
    by_cases ab : a.toNat < b.toNat
    · by_cases bc : b.toNat < c.toNat
      · rw [if_pos (by omega)]
      · rw [if_neg bc] at h2
        by_cases cb : c.toNat < b.toNat
        · rw [if_pos cb] at h2; cases h2
        · rw [if_pos (by omega)]
    · rw [if_neg ab] at h1
      by_cases ba : b.toNat < a.toNat
      · rw [if_pos ba] at h1; cases h1
      · rw [if_neg ba] at h1
        by_cases bc : b.toNat < c.toNat
        · rw [if_pos (by omega)]
        · rw [if_neg bc] at h2
          by_cases cb : c.toNat < b.toNat
          · rw [if_pos cb] at h2; cases h2
          · rw [if_neg cb] at h2
            rw [if_neg (by omega), if_neg (by omega)]
            exact strLe_trans as bs cs h1 h2

theorem insertName_sorted (n : Str) : ∀ ms, ms.Pairwise (fun a b => strLe a b = true) →
    (insertName n ms).Pairwise (fun a b => strLe a b = true)
  | [], _ => by simp [insertName]
  | m :: ms, h => by
    unfold insertName
    rw [List.pairwise_cons] at h
    by_cases hle : strLe n m
    · rw [if_pos hle, List.pairwise_cons, List.pairwise_cons]
      refine ⟨?_, h⟩
      intro b hb
      rcases List.mem_cons.mp hb with rfl | hb
      · exact hle
      · exact strLe_trans _ _ _ hle (h.1 b hb)
    · rw [if_neg hle, List.pairwise_cons]
      refine ⟨?_, insertName_sorted n ms h.2⟩
      intro b hb
      rcases List.mem_cons.mp ((insertName_perm n ms).mem_iff.mp hb) with rfl | hb
      · exact strLe_total _ _ (by simpa using hle)
      · exact h.1 b hb

theorem sortNames_sorted : ∀ ns, (sortNames ns).Pairwise (fun a b => strLe a b = true)
  | [] => by simp [sortNames]
  | n :: ns => insertName_sorted n _ (sortNames_sorted ns)

theorem filterMap_get {cs : List Cls} {d : List (Str × Cls)} {ns : List Str}
    (h : registerAll [] cs = some d) (hns : ∀ n ∈ ns, ∃ c ∈ cs, c.long = n) :
    (ns.filterMap (fun n => (getCmd d n).map (fun c => (c.long, c.short)))).map (·.1) = ns := by
  induction ns with
  | nil => rfl
  | cons n ns ih =>
    obtain ⟨c, hc, rfl⟩ := hns n (List.mem_cons_self ..)
    have hg := (command_names h c.long c).mpr ⟨hc, Or.inl rfl⟩
    rw [List.filterMap_cons_some (by rw [hg]; rfl), List.map_cons,
      ih (fun m hm => hns m (List.mem_cons_of_mem _ hm))]

/-- C127 (partial): the list that `commands_string` gives for commands that have been registered
has every command with its short name exactly once, in alphabetical order. -/
theorem commands_string_partial {cs : List Cls} {d : List (Str × Cls)}
    (h : registerAll [] cs = some d) :
    (commandsString cs d).Perm (cs.map (fun c => (c.long, c.short))) ∧
    (commandsString cs d).Pairwise (fun a b => strLe a.1 b.1 = true) := by
  have hns : ∀ n ∈ sortNames (cs.map (·.long)), ∃ c ∈ cs, c.long = n := by
    intro n hn
    obtain ⟨c, hc, h1⟩ := List.mem_map.mp ((sortNames_perm _).mem_iff.mp hn)
    exact ⟨c, hc, h1⟩
  have hmap := filterMap_get h hns
  constructor
  · unfold commandsString
    refine ((sortNames_perm (cs.map (·.long))).filterMap _).trans ?_
    rw [List.filterMap_map]
    have : ∀ ds : List Cls, (∀ c ∈ ds, c ∈ cs) →
        ds.filterMap ((fun n => (getCmd d n).map (fun c => (c.long, c.short))) ∘ (·.long)) =
          ds.map (fun c => (c.long, c.short)) := by
      intro ds hds
      induction ds with
      | nil => rfl
      | cons c ds ih =>
        have hg := (command_names h c.long c).mpr ⟨hds c (List.mem_cons_self ..), Or.inl rfl⟩
        rw [List.filterMap_cons_some (by show Option.map _ _ = _; rw [hg]; rfl), List.map_cons,
          ih (fun c hc => hds c (List.mem_cons_of_mem _ hc))]
    rw [this cs (fun c hc => hc)]
  · have hs := sortNames_sorted (cs.map (·.long))
    rw [← hmap, List.pairwise_map] at hs
    exact hs

/-- Non-vacuity of C127: the list as it would be after the commands are known. -/
example : (commandsString allCmds registry).length = 26 ∧
    (commandsString allCmds registry).head? =
      some (['a', 'd', 'd', '-', 'r', 'e', 'p', 'o'], some ['a', 'r']) := by
  decide +kernel

end Pisi.Cli
