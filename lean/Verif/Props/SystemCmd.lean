import Verif.Model.ActionsInstall
import Verif.Spec.ShellCmd
import Verif.Props.ActionsInstall

/-! # Commands given to `shelltools.system` (C164) -/
namespace Pisi.SystemCmd
open Pisi.ShellSpec

/-- Characters for which the shell and `str.split()` read a line alike: no quotes, no backslash, and no white space other than blank
and tab. -/
def plain (c : Char) : Bool := !(['"', '\'', '\\', '\n', '\r', '\x0b', '\x0c'].contains c)

theorem plain_parts {c : Char} (h : plain c = true) :
    c ≠ '"' ∧ c ≠ '\'' ∧ c ≠ '\\' ∧ c ≠ '\n' ∧ c ≠ '\r' ∧ c ≠ '\x0b' ∧ c ≠ '\x0c' := by
  simpa [plain] using h

theorem blank_iff {c : Char} (h : plain c = true) : Act.blank c = blank c := by
  obtain ⟨_, _, _, h1, h2, h3, h4⟩ := plain_parts h
  simp [Act.blank, blank, h1, h2, h3, h4]

/-- What was read up to a blank does not depend on what comes after it. -/
theorem rd_blank {c d : Char} {s t : Str} (hc : blank c = true) (hd : blank d = true) (h : rd .bare none s = rd .bare none t) :
    ∀ (w : Str) (cur : Option Str), (∀ x ∈ w, plain x = true) → rd .bare cur (w ++ c :: s) = rd .bare cur (w ++ d :: t) := by
  intro w
  induction w with
  | nil => intro cur _; simp only [List.nil_append, rd, hc, hd, if_true, h]
  | cons x w ih =>
    intro cur hw
    obtain ⟨h1, h2, h3, _⟩ := plain_parts (hw x List.mem_cons_self)
    have ih' := fun cur => ih cur fun y hy => hw y (List.mem_cons_of_mem _ hy)
    simp only [List.cons_append, rd, h1, h2, h3, if_false, ih']

theorem rd_blank_end {c : Char} {s : Str} (hc : blank c = true) (h : rd .bare none s = some []) :
    ∀ (w : Str) (cur : Option Str), (∀ x ∈ w, plain x = true) → rd .bare cur (w ++ c :: s) = rd .bare cur w := by
  intro w
  induction w with
  | nil => intro cur _; simp [rd, hc, h]
  | cons x w ih =>
    intro cur hw
    obtain ⟨h1, h2, h3, _⟩ := plain_parts (hw x List.mem_cons_self)
    have ih' := fun cur => ih cur fun y hy => hw y (List.mem_cons_of_mem _ hy)
    simp only [List.cons_append, rd, h1, h2, h3, if_false, ih']

theorem rd_squeeze : ∀ (s w : Str), (∀ c ∈ s, plain c = true) → (∀ c ∈ w, plain c = true) →
    rd .bare none (List.intercalate [' '] (Act.splitBlank w s)) = rd .bare none (w ++ s) := by
  intro s
  induction s with
  | nil => intro w _ _; by_cases h : w = [] <;> simp [Act.splitBlank, h, List.intercalate]
  | cons c s ih =>
    intro w hs hw
    have hcp := hs c List.mem_cons_self
    have hs' : ∀ x ∈ s, plain x = true := fun x hx => hs x (List.mem_cons_of_mem _ hx)
    unfold Act.splitBlank
    by_cases hb : Act.blank c = true
    · have hb' : blank c = true := by rw [← blank_iff hcp]; exact hb
      rw [if_pos hb]
      have ih0 := ih [] hs' (by simp)
      by_cases h0 : w = []
      · subst h0
        rw [if_pos rfl, ih0]
        have hf : flush none = id := rfl
        simp [rd, hb', hf]
      · rw [if_neg h0]
        by_cases hn : Act.splitBlank [] s = []
        · rw [hn] at ih0 ⊢
          rw [rd_blank_end hb' (by rw [← List.nil_append s, ← ih0]; simp [List.intercalate, rd, flush]) w none hw]
          simp [List.intercalate]
        · rw [Act.intercalate_cons hn, List.append_assoc, List.singleton_append]
          exact rd_blank (by decide) hb' (by simpa using ih0) w none hw
    · rw [if_neg hb, ih (w ++ [c]) hs']
      · simp
      · intro x hx
        rcases List.mem_append.1 hx with hx | hx
        · exact hw x hx
        · rw [List.mem_singleton.1 hx]; exact hcp

/-- **C164, full statement.**  The shell makes the same of the line that `system` runs as of the line given to it. -/
def SystemFull : Prop := ∀ s : Str, read (Act.squeeze s) = read s

/-- **C164, partial.**  A line without quotes, backslashes and white space other than blanks and tabs is read as it was given, and a
line whose blanks all stand alone, quoted or not, is run as it is. -/
theorem system_partial (s : Str) :
    ((∀ c ∈ s, c ∉ ['"', '\'', '\\', '\n', '\r', '\x0b', '\x0c']) → read (Act.squeeze s) = read s) ∧
    (Act.single true s = true → (∀ x, s.getLast? = some x → x ∉ [' ', '\t', '\n', '\r', '\x0b', '\x0c']) → Act.squeeze s = s) := by
  constructor
  · intro h
    have := rd_squeeze s [] (fun c hc => by simpa [plain] using h c hc) (by simp)
    simpa [Act.squeeze, ShellSpec.read] using this
  · intro h1 h2
    exact Act.squeeze_same h1 fun x hx => by
      have := h2 x hx
      simp only [List.mem_cons, List.not_mem_nil, or_false, not_or] at this
      simp [Act.blank, this]

/-- Two blanks between quotes become one. -/
def twoBlanks : Str := ['e', 'c', 'h', 'o', ' ', '"', 'a', ' ', ' ', 'b', '"']

theorem system_refuted : ¬ SystemFull := by
  intro h
  have := h twoBlanks
  revert this
  decide

/-- Two commands on two lines become one. -/
theorem system_lines : ¬ (∃ l, read (Act.squeeze ['c', 'd', ' ', 'a', '\n', 'm', 'a', 'k', 'e']) = some l ∧ Tok.op '\n' ∈ l) ∧
    (∃ l, read ['c', 'd', ' ', 'a', '\n', 'm', 'a', 'k', 'e'] = some l ∧ Tok.op '\n' ∈ l) := by
  constructor
  · rintro ⟨l, h1, h2⟩
    have h3 : read (Act.squeeze ['c', 'd', ' ', 'a', '\n', 'm', 'a', 'k', 'e']) =
        some [.word ['c', 'd'], .word ['a'], .word ['m', 'a', 'k', 'e']] := by decide
    rw [h3, Option.some.injEq] at h1
    subst h1
    revert h2; decide
  · exact ⟨[.word ['c', 'd'], .word ['a'], .op '\n', .word ['m', 'a', 'k', 'e']], by decide, by decide⟩

/-- The hypotheses of both parts are met. -/
example : (∀ c ∈ ['m', 'a', 'k', 'e', ' ', ' ', '-', 'j', '\t', '|', 't'], c ∉ ['"', '\'', '\\', '\n', '\r', '\x0b', '\x0c']) ∧
    Act.single true ['s', 'e', 'd', ' ', '"', 's', ' ', 'a', '"', ' ', 'f'] = true := by decide

end Pisi.SystemCmd
