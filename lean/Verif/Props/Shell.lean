/-
Names of files reach the programs that pisi runs (C149).
-/
import Verif.Model.Shell
import Verif.Spec.ShellCmd

namespace Pisi.Shell
open Pisi.ShellSpec

theorem safeChar_parts {c : Char} (h : safeChar c = true) :
    blank c = false ∧ isOp c = false ∧ c ≠ '\'' ∧ c ≠ '"' ∧ c ≠ '\\' ∧ expands c = false := by
  simp only [safeChar, Bool.not_eq_true', Bool.or_eq_false_iff, decide_eq_false_iff_not] at h
  obtain ⟨⟨⟨⟨⟨a, b⟩, c⟩, d⟩, e⟩, f⟩ := h
  exact ⟨a, b, c, d, e, f⟩

/-- A character that stands for itself is added to the word. -/
theorem rd_safe {c : Char} (h : safeChar c = true) {cur : Option Str}
    (hf : ¬ (first c = true ∧ cur = none)) (s : Str) :
    rd .bare cur (c :: s) = rd .bare (more cur c) s := by
  obtain ⟨h1, h2, h3, h4, h5, h6⟩ := safeChar_parts h
  simp only [rd, h1, h2, h3, h4, h5, h6, if_false, Bool.false_eq_true, if_neg hf]

theorem rd_word (w : Str) (hw : ∀ c ∈ w, safeChar c = true) (a : Str) (s : Str) :
    rd .bare (some a) (w ++ s) = rd .bare (some (a ++ w)) s := by
  induction w generalizing a with
  | nil => simp
  | cons c w ih =>
    rw [List.cons_append, rd_safe (hw c (List.mem_cons_self ..)) (by simp)]
    simp only [more, Option.getD_some]
    rw [ih (fun x hx => hw x (List.mem_cons_of_mem _ hx))]
    simp

theorem safe_mem {w : Str} (h : safe w = true) : ∀ c ∈ w, safeChar c = true := by
  cases w with
  | nil => cases h
  | cons c w =>
    simp only [safe, Bool.and_eq_true, List.all_eq_true] at h
    intro x hx
    rcases List.mem_cons.1 hx with rfl | hx
    · exact h.1.1
    · exact h.2 x hx

/-- A word without characters of meaning is read as it is. -/
theorem rd_new {w : Str} (hw : safe w = true) (s : Str) :
    rd .bare none (w ++ s) = rd .bare (some w) s := by
  cases w with
  | nil => cases hw
  | cons c w =>
    have hm := safe_mem hw
    simp only [safe, Bool.and_eq_true, Bool.not_eq_true'] at hw
    rw [List.cons_append, rd_safe (hm c (List.mem_cons_self ..)) (by simp [hw.1.2])]
    simp only [more, Option.getD_none, List.nil_append]
    rw [rd_word w (fun x hx => hm x (List.mem_cons_of_mem _ hx))]
    simp

theorem rd_double (w : Str) (hw : safeQuoted w = true) (a s : Str) :
    rd .double (some a) (w ++ '"' :: s) = rd .bare (some (a ++ w)) s := by
  induction w generalizing a with
  | nil => simp [rd]
  | cons c w ih =>
    simp only [safeQuoted, List.all_cons, Bool.and_eq_true, Bool.not_eq_true',
      Bool.or_eq_false_iff, decide_eq_false_iff_not] at hw
    obtain ⟨⟨⟨⟨h1, h2⟩, h3⟩, h4⟩, h5⟩ := hw
    have : rd .double (some a) (c :: (w ++ '"' :: s)) = rd .double (more (some a) c) (w ++ '"' :: s) := by
      simp only [rd, if_neg h1, if_neg h2, if_neg (not_or.2 ⟨h3, h4⟩)]
    rw [List.cons_append, this]
    simp only [more, Option.getD_some]
    rw [ih h5]
    simp

theorem rd_single (w : Str) (hw : '\'' ∉ w) (a s : Str) :
    rd .single (some a) (w ++ '\'' :: s) = rd .bare (some (a ++ w)) s := by
  induction w generalizing a with
  | nil => simp [rd]
  | cons c w ih =>
    have hc : c ≠ '\'' := fun e => hw (e ▸ List.mem_cons_self ..)
    have : rd .single (some a) (c :: (w ++ '\'' :: s)) = rd .single (more (some a) c) (w ++ '\'' :: s) := by
      simp only [rd, if_neg hc]
    rw [List.cons_append, this]
    simp only [more, Option.getD_some]
    rw [ih (fun h => hw (List.mem_cons_of_mem _ h))]
    simp

/-- The fields whose text the shell reads as it was meant.  An empty field
vanishes. -/
def good : Field → Bool
  | .plain s => s = [] || safe s
  | .quoted s => safeQuoted s
  | .single s => !s.contains '\''
  | .less => true

/-- What a field is meant to be. -/
def meant : Field → List Tok
  | .plain s => if s = [] then [] else [.word s]
  | .quoted s => [.word s]
  | .single s => [.word s]
  | .less => [.op '<']

theorem rd_blank (cur : Option Str) (s : Str) :
    rd .bare cur (' ' :: s) = (rd .bare none s).map (flush cur) := by
  simp [rd, blank]

theorem rd_field_blank (f : Field) (hf : good f = true) (s : Str) :
    rd .bare none (f.text ++ ' ' :: s) = (rd .bare none s).map (fun l => meant f ++ l) := by
  cases f with
  | plain w =>
    by_cases hw : w = []
    · subst hw
      simp only [Field.text, List.nil_append, rd_blank, meant, if_true]
      congr 1
    · simp only [good, Bool.or_eq_true, decide_eq_true_eq, hw, false_or] at hf
      simp only [Field.text, rd_new hf, rd_blank, meant, if_neg hw]
      congr 1
  | quoted w =>
    simp only [Field.text, List.cons_append, List.append_assoc]
    have : rd .bare none ('"' :: (w ++ '"' :: ([] ++ ' ' :: s)))
        = rd .double (some []) (w ++ '"' :: (' ' :: s)) := by
      simp [rd, blank, isOp]
    rw [this, rd_double w hf, rd_blank]
    rfl
  | single w =>
    have hw : '\'' ∉ w := by simpa [good] using hf
    simp only [Field.text, List.cons_append, List.append_assoc]
    have : rd .bare none ('\'' :: (w ++ '\'' :: ([] ++ ' ' :: s)))
        = rd .single (some []) (w ++ '\'' :: (' ' :: s)) := by
      simp [rd, blank, isOp]
    rw [this, rd_single w hw, rd_blank]
    rfl
  | less =>
    simp only [Field.text, List.cons_append, List.nil_append]
    have : rd .bare none ('<' :: ' ' :: s) = ((rd .bare none (' ' :: s))).map (fun l => .op '<' :: l) := by
      rw [rd]; simp [blank, isOp, flush]
    rw [this, rd_blank]
    cases rd .bare none s <;> rfl

theorem rd_field_end (f : Field) (hf : good f = true) :
    rd .bare none f.text = some (meant f) := by
  have h := rd_field_blank f hf []
  cases f with
  | plain w =>
    by_cases hw : w = []
    · subst hw; simp [Field.text, rd, meant, flush]
    · simp only [good, Bool.or_eq_true, decide_eq_true_eq, hw, false_or] at hf
      have := rd_new hf []
      rw [List.append_nil] at this
      simp [Field.text, this, rd, meant, hw, flush]
  | quoted w =>
    have : rd .bare none ('"' :: (w ++ [ '"' ])) = rd .double (some []) (w ++ '"' :: []) := by
      simp [rd, blank, isOp]
    simp only [Field.text, this, rd_double w hf]
    rfl
  | single w =>
    have hw : '\'' ∉ w := by simpa [good] using hf
    have : rd .bare none ('\'' :: (w ++ [ '\'' ])) = rd .single (some []) (w ++ '\'' :: []) := by
      simp [rd, blank, isOp]
    simp only [Field.text, this, rd_single w hw]
    rfl
  | less => rfl

/-- A command of good fields is read field by field. -/
theorem read_render (l : List Field) (h : ∀ f ∈ l, good f = true) :
    read (render l) = some (l.flatMap meant) := by
  induction l with
  | nil => rfl
  | cons f l ih =>
    cases l with
    | nil =>
      show rd .bare none f.text = _
      rw [rd_field_end f (h f (List.mem_cons_self ..))]
      simp
    | cons g l =>
      show rd .bare none (f.text ++ ' ' :: render (g :: l)) = _
      rw [rd_field_blank f (h f (List.mem_cons_self ..))]
      have := ih (fun x hx => h x (List.mem_cons_of_mem _ hx))
      unfold ShellSpec.read at this
      rw [this]
      rfl

theorem read_front (l : List Field) (h : ∀ f ∈ l, good f = true) (g : Field) :
    read (render (l ++ [g])) = (rd .bare none g.text).map (fun r => l.flatMap meant ++ r) := by
  induction l with
  | nil =>
    show rd .bare none g.text = _
    cases rd .bare none g.text <;> rfl
  | cons f l ih =>
    have ih := ih (fun x hx => h x (List.mem_cons_of_mem _ hx))
    obtain ⟨g', l', e⟩ : ∃ g' l', l ++ [g] = g' :: l' := by cases l <;> exact ⟨_, _, rfl⟩
    show read (render (f :: (l ++ [g]))) = _
    rw [e] at ih ⊢
    show rd .bare none (f.text ++ ' ' :: render (g' :: l')) = _
    rw [rd_field_blank f (h f (List.mem_cons_self ..))]
    unfold ShellSpec.read at ih
    rw [ih]
    cases rd .bare none g.text <;> simp

/-! ## Exactly which names are passed on -/

/-- The number of characters in words. -/
def size : List Tok → Nat
  | [] => 0
  | .word s :: l => s.length + size l
  | .op _ :: l => size l

theorem size_flush (cur : Option Str) (l : List Tok) :
    size (flush cur l) = (cur.getD []).length + size l := by
  cases cur <;> simp [flush, size]

theorem more_length (cur : Option Str) (c : Char) :
    ((more cur c).getD []).length = (cur.getD []).length + 1 := by simp [more]

/-- Reading never makes characters up; a backslash inside double quotes that
has been read may still count. -/
theorem size_le : ∀ (s : Str) (q : Quote) (cur : Option Str) (l : List Tok), rd q cur s = some l →
    size l ≤ (cur.getD []).length + s.length + (if q = .doubleEsc then 1 else 0) := by
  intro s
  induction s with
  | nil =>
    intro q cur l h
    cases q <;> simp only [rd, Option.some.injEq, reduceCtorEq] at h
    subst h
    simp [size_flush, size]
  | cons c s ih =>
    intro q cur l h
    simp only [List.length_cons]
    cases q with
    | bare =>
      simp only [rd] at h
      by_cases h1 : blank c = true
      · rw [if_pos h1] at h
        rcases hr : rd .bare none s with _ | r
        · rw [hr] at h; cases h
        · rw [hr] at h
          simp only [Option.map_some, Option.some.injEq] at h
          have := ih _ _ _ hr
          rw [← h, size_flush]
          simp at this ⊢; omega
      rw [if_neg h1] at h
      by_cases h2 : isOp c = true
      · rw [if_pos h2] at h
        rcases hr : rd .bare none s with _ | r
        · rw [hr] at h; cases h
        · rw [hr] at h
          simp only [Option.map_some, Option.some.injEq] at h
          have := ih _ _ _ hr
          rw [← h, size_flush, size]
          simp at this ⊢; omega
      rw [if_neg h2] at h
      by_cases h3 : c = '\''
      · rw [if_pos h3] at h
        have := ih _ _ _ h
        simp at this ⊢; omega
      rw [if_neg h3] at h
      by_cases h4 : c = '"'
      · rw [if_pos h4] at h
        have := ih _ _ _ h
        simp at this ⊢; omega
      rw [if_neg h4] at h
      by_cases h5 : c = '\\'
      · rw [if_pos h5] at h
        have := ih _ _ _ h
        simp at this ⊢; omega
      rw [if_neg h5] at h
      by_cases h6 : expands c = true
      · rw [if_pos h6] at h; cases h
      rw [if_neg h6] at h
      by_cases h7 : first c = true ∧ cur = none
      · rw [if_pos h7] at h; cases h
      rw [if_neg h7] at h
      have := ih _ _ _ h
      rw [more_length] at this
      simp at this ⊢; omega
    | single =>
      simp only [rd] at h
      by_cases h1 : c = '\''
      · rw [if_pos h1] at h
        have := ih _ _ _ h
        simp at this ⊢; omega
      · rw [if_neg h1] at h
        have := ih _ _ _ h
        rw [more_length] at this
        simp at this ⊢; omega
    | double =>
      simp only [rd] at h
      by_cases h1 : c = '"'
      · rw [if_pos h1] at h
        have := ih _ _ _ h
        simp at this ⊢; omega
      rw [if_neg h1] at h
      by_cases h2 : c = '\\'
      · rw [if_pos h2] at h
        have := ih _ _ _ h
        simp at this ⊢; omega
      rw [if_neg h2] at h
      by_cases h3 : c = '$' ∨ c = '`'
      · rw [if_pos h3] at h; cases h
      rw [if_neg h3] at h
      have := ih _ _ _ h
      rw [more_length] at this
      simp at this ⊢; omega
    | bareEsc =>
      simp only [rd] at h
      by_cases h1 : c = '\n'
      · rw [if_pos h1] at h
        have := ih _ _ _ h
        simp at this ⊢; omega
      · rw [if_neg h1] at h
        have := ih _ _ _ h
        rw [more_length] at this
        simp at this ⊢; omega
    | doubleEsc =>
      simp only [rd] at h
      by_cases h1 : c = '\n'
      · rw [if_pos h1] at h
        have := ih _ _ _ h
        simp at this ⊢; omega
      rw [if_neg h1] at h
      by_cases h2 : c = '"' ∨ c = '\\' ∨ c = '$' ∨ c = '`'
      · rw [if_pos h2] at h
        have := ih _ _ _ h
        rw [more_length] at this
        simp at this ⊢; omega
      · rw [if_neg h2] at h
        have := ih _ _ _ h
        rw [more_length, more_length] at this
        simp at this ⊢; omega

/-- Text with a character of meaning loses at least that character. -/
theorem size_lt (s : Str) (cur : Option Str) (l : List Tok) (h : rd .bare cur s = some l)
    (hs : ∃ c ∈ s, safeChar c = false) : size l < (cur.getD []).length + s.length := by
  induction s generalizing cur l with
  | nil => obtain ⟨c, hc, _⟩ := hs; cases hc
  | cons c s ih =>
    by_cases hc : safeChar c = true
    · have hs' : ∃ c ∈ s, safeChar c = false := by
        obtain ⟨x, hx, hx'⟩ := hs
        rcases List.mem_cons.1 hx with rfl | hx
        · rw [hc] at hx'; cases hx'
        · exact ⟨x, hx, hx'⟩
      by_cases hf : first c = true ∧ cur = none
      · obtain ⟨h1, h2, h3, h4, h5, h6⟩ := safeChar_parts hc
        simp [rd, h1, h2, h3, h4, h5, h6, hf] at h
      · rw [rd_safe hc hf] at h
        have := ih _ _ h hs'
        rw [more_length] at this
        simp only [List.length_cons]; omega
    · have hc : safeChar c = false := by simpa using hc
      simp only [safeChar, Bool.not_eq_false', Bool.or_eq_true, decide_eq_true_eq] at hc
      simp only [rd] at h
      simp only [List.length_cons]
      by_cases h1 : blank c = true
      · rw [if_pos h1] at h
        rcases hr : rd .bare none s with _ | r
        · rw [hr] at h; cases h
        · rw [hr] at h
          simp only [Option.map_some, Option.some.injEq] at h
          have := size_le _ _ _ _ hr
          rw [← h, size_flush]
          simp at this; omega
      rw [if_neg h1] at h
      by_cases h2 : isOp c = true
      · rw [if_pos h2] at h
        rcases hr : rd .bare none s with _ | r
        · rw [hr] at h; cases h
        · rw [hr] at h
          simp only [Option.map_some, Option.some.injEq] at h
          have := size_le _ _ _ _ hr
          rw [← h, size_flush, size]
          simp at this; omega
      rw [if_neg h2] at h
      by_cases h3 : c = '\''
      · rw [if_pos h3] at h
        have := size_le _ _ _ _ h
        simp at this; omega
      rw [if_neg h3] at h
      by_cases h4 : c = '"'
      · rw [if_pos h4] at h
        have := size_le _ _ _ _ h
        simp at this; omega
      rw [if_neg h4] at h
      by_cases h5 : c = '\\'
      · rw [if_pos h5] at h
        have := size_le _ _ _ _ h
        simp at this; omega
      rw [if_neg h5] at h
      by_cases h6 : expands c = true
      · rw [if_pos h6] at h; cases h
      · rcases hc with ((((hc | hc) | hc) | hc) | hc) | hc
        · exact absurd hc h1
        · exact absurd hc h2
        · exact absurd hc h3
        · exact absurd hc h4
        · exact absurd hc h5
        · exact absurd hc h6

/-- Text is read as one word, itself, exactly if it is safe. -/
theorem word_iff (s : Str) : rd .bare none s = some [.word s] ↔ safe s = true := by
  constructor
  · intro h
    have hall : ∀ c ∈ s, safeChar c = true := by
      intro c hc
      cases hs : safeChar c with
      | true => rfl
      | false =>
        have := size_lt s none _ h ⟨c, hc, hs⟩
        simp [size] at this
    cases s with
    | nil => simp [rd, flush] at h
    | cons c s =>
      have hc := hall c (List.mem_cons_self ..)
      have hf : first c = false := by
        cases hf : first c with
        | false => rfl
        | true =>
          obtain ⟨h1, h2, h3, h4, h5, h6⟩ := safeChar_parts hc
          simp [rd, h1, h2, h3, h4, h5, h6, hf] at h
      simp only [safe, hc, hf, Bool.not_false, Bool.and_self, Bool.true_and, List.all_eq_true]
      exact fun x hx => hall x (List.mem_cons_of_mem _ hx)
  · intro h
    have := rd_new h []
    rw [List.append_nil] at this
    rw [this]
    rfl

/-- A name at the end of a command is passed on as it is exactly if it is
safe. -/
theorem last_name_iff (l : List Field) (h : ∀ f ∈ l, good f = true) (f : Str) :
    read (render (l ++ [.plain f])) = some (l.flatMap meant ++ [.word f]) ↔ safe f = true := by
  rw [read_front l h, ← word_iff]
  show (rd .bare none f).map _ = _ ↔ _
  constructor
  · intro e
    rcases hr : rd .bare none f with _ | r
    · rw [hr] at e; cases e
    · rw [hr] at e
      simp only [Option.map_some, Option.some.injEq, List.append_cancel_left_eq] at e
      rw [e]
  · intro e; rw [e]; rfl

/-! ## The commands -/

/-- Stripping: the file is stripped exactly if its name is safe. -/
theorem strip_iff (flags f : Str) (hfl : flags = [] ∨ safe flags = true) :
    Runs (render (strip flags f))
      (if flags = [] then [['s','t','r','i','p'], f] else [['s','t','r','i','p'], flags, f])
      ↔ safe f = true := by
  have hg : ∀ x ∈ [Field.plain ['s','t','r','i','p'], .plain flags], good x = true := by
    intro x hx
    simp only [List.mem_cons, List.not_mem_nil, or_false] at hx
    rcases hx with rfl | rfl
    · decide
    · simpa [good] using hfl
  rw [← last_name_iff _ hg f]
  unfold Runs
  by_cases hf : flags = []
  · simp [hf, strip, meant]
  · simp [hf, strip, meant]

/-- Verifying a signature looks at the file exactly if its name is safe. -/
theorem verify_iff (f : Str) :
    Runs (render (gpgVerify f)) [['g','p','g'], ['-','-','v','e','r','i','f','y'], f]
      ↔ safe f = true := by
  rw [← last_name_iff [.plain ['g','p','g'], .plain ['-','-','v','e','r','i','f','y']] (by decide) f]
  rfl

/-- Signing an index signs the file exactly if its name is safe. -/
theorem sign_iff (f : Str) :
    Runs (render (gpgSign f)) [['g','p','g'], ['-','-','d','e','t','a','c','h','-','s','i','g'], f]
      ↔ safe f = true := by
  rw [← last_name_iff
    [.plain ['g','p','g'], .plain ['-','-','d','e','t','a','c','h','-','s','i','g']] (by decide) f]
  rfl

/-- Unpacking with `lzma`. -/
theorem unlzma_iff (f : Str) :
    Runs (render (unlzma f)) [['l','z','m','a'], ['-','d'], ['-','f'], f] ↔ safe f = true := by
  rw [← last_name_iff [.plain ['l','z','m','a'], .plain ['-','d'], .plain ['-','f']] (by decide) f]
  rfl

/-- Cleaning a `.la` file. -/
theorem sed_iff (expr f : Str) (he : '\'' ∉ expr) :
    Runs (render (sed expr f)) [['s','e','d'], ['-','i'], ['-','e'], expr, f] ↔ safe f = true := by
  have hg : ∀ x ∈ [Field.plain ['s','e','d'], .plain ['-','i'], .plain ['-','e'], .single expr],
      good x = true := by
    intro x hx
    simp only [List.mem_cons, List.not_mem_nil, or_false] at hx
    rcases hx with rfl | rfl | rfl | rfl
    · decide
    · decide
    · decide
    · simpa [good] using he
  rw [← last_name_iff _ hg f]
  rfl

theorem digit_safe : ∀ n : Fin 10, safeChar (Nat.digitChar n.val) = true := by decide

theorem toDigits_safe (n : Nat) : ∀ c ∈ Nat.toDigits 10 n, safeChar c = true := by
  intro c hc
  have := Nat.isDigit_of_mem_toDigits (by decide) (by decide) hc
  simp only [Char.isDigit, Bool.and_eq_true, decide_eq_true_eq] at this
  obtain ⟨h1, h2⟩ := this
  simp only [safeChar, blank, isOp, expands, Bool.not_eq_true', Bool.or_eq_false_iff,
    decide_eq_false_iff_not]
  refine ⟨⟨⟨⟨⟨⟨?_, ?_⟩, ⟨⟨⟨⟨⟨⟨⟨?_, ?_⟩, ?_⟩, ?_⟩, ?_⟩, ?_⟩, ?_⟩, ?_⟩⟩, ?_⟩, ?_⟩, ?_⟩,
    ⟨⟨⟨⟨⟨?_, ?_⟩, ?_⟩, ?_⟩, ?_⟩, ?_⟩⟩ <;> (rintro rfl; revert h1 h2; decide)

/-- Applying a patch reads it exactly if the name of its file is safe, for
every level and every target without characters of meaning. -/
theorem patch_iff (level : Nat) (target f : Str) (ht : target = [] ∨ safe target = true) :
    RunsFrom (render (patch level target f))
      ([['p','a','t','c','h'], '-' :: 'p' :: Nat.toDigits 10 level] ++
        if target = [] then [] else [target]) f ↔ safe f = true := by
  have hp : safe ('-' :: 'p' :: Nat.toDigits 10 level) = true := by
    simp only [safe, List.all_cons, Bool.and_eq_true, List.all_eq_true]
    exact ⟨by decide, by decide, toDigits_safe level⟩
  have hg : ∀ x ∈ [Field.plain ['p','a','t','c','h'], .plain ('-' :: 'p' :: Nat.toDigits 10 level),
      .plain target, .less], good x = true := by
    intro x hx
    simp only [List.mem_cons, List.not_mem_nil, or_false] at hx
    rcases hx with rfl | rfl | rfl | rfl
    · decide
    · simp [good, hp]
    · simpa [good] using ht
    · decide
  rw [← last_name_iff _ hg f]
  unfold RunsFrom
  by_cases ht' : target = []
  · simp [ht', patch, meant]
  · simp [ht', patch, meant]

/-- `file` gets every name without double quotes, backslashes, dollars and
backquotes; blanks do not matter. -/
theorem file_partial (f : Str) (h : safeQuoted f = true) :
    Runs (render (file f)) [['f','i','l','e'], f] := by
  have := read_render (file f) (by simp [file, good, h]; decide)
  simpa [Runs, file, meant] using this

/-- Installing readable files. -/
theorem install_readable_partial (source dir : Str) (hs : safeQuoted source = true)
    (hd : safe dir = true) :
    Runs (render (installReadable source dir))
      [['i','n','s','t','a','l','l'], ['-','m','0','6','4','4'], source, dir] := by
  have hne : dir ≠ [] := by rintro rfl; cases hd
  have := read_render (installReadable source dir) (by
    simp [installReadable, good, hs, hd]; decide)
  simpa [Runs, installReadable, meant, hne] using this

/-- Installing programs. -/
theorem install_exe_partial (source dir : Str) (hs : safe source = true) (hd : safe dir = true) :
    Runs (render (installExe source dir))
      [['s','u','d','o'], ['i','n','s','t','a','l','l'], ['-','m','0','7','5','5'], ['-','o'],
       ['r','o','o','t'], ['-','g'], ['r','o','o','t'], source, dir] := by
  have hne : dir ≠ [] := by rintro rfl; cases hd
  have hns : source ≠ [] := by rintro rfl; cases hs
  have := read_render (installExe source dir) (by simp [installExe, good, hs, hd]; decide)
  simpa [Runs, installExe, meant, hne, hns] using this

theorem safe_append {a b : Str} (ha : safe a = true) (hb : ∀ c ∈ b, safeChar c = true) :
    safe (a ++ b) = true := by
  cases a with
  | nil => cases ha
  | cons c a =>
    simp only [safe, List.cons_append, Bool.and_eq_true, List.all_append, List.all_eq_true] at ha ⊢
    exact ⟨ha.1, ha.2, hb⟩

/-- Separating what is for debugging: both commands get both names. -/
theorem debug_partial (f o : Str) (hf : safe f = true) (ho : safe o = true) :
    Runs (render (keepDebug f o))
      [['o','b','j','c','o','p','y'],
       ['-','-','o','n','l','y','-','k','e','e','p','-','d','e','b','u','g'], f, o ++ debugSuffix] ∧
    Runs (render (debugLink o f))
      [['o','b','j','c','o','p','y'], addLink ++ (o ++ debugSuffix), f] := by
  have hne : f ≠ [] := by rintro rfl; cases hf
  have ho' : safe (o ++ debugSuffix) = true := safe_append ho (by decide)
  have hl : safe (addLink ++ (o ++ debugSuffix)) = true := safe_append (by decide) (safe_mem ho')
  constructor
  · have := read_render (keepDebug f o) (by simp [keepDebug, good, hf, ho']; decide)
    simpa [Runs, keepDebug, meant, hne, debugSuffix] using this
  · have := read_render (debugLink o f) (by simp [debugLink, good, hf, hl]; decide)
    simpa [Runs, debugLink, meant, hne, addLink] using this

/-- Applying a binary patch. -/
theorem xdelta_partial (p a b : Str) (hp : safe p = true) (ha : safe a = true) (hb : safe b = true) :
    Runs (render (xdelta p a b)) [['x','d','e','l','t','a'], ['p','a','t','c','h'], p, a, b] := by
  have h1 : p ≠ [] := by rintro rfl; cases hp
  have h2 : a ≠ [] := by rintro rfl; cases ha
  have h3 : b ≠ [] := by rintro rfl; cases hb
  have := read_render (xdelta p a b) (by simp [xdelta, good, hp, ha, hb]; decide)
  simpa [Runs, xdelta, meant, h1, h2, h3] using this

/-- A name with a semicolon runs another command: what comes after it. -/
theorem semicolon_runs (flags a b : Str) (hfl : safe flags = true) (ha : safe a = true)
    (hb : safe b = true) :
    read (render (strip flags (a ++ ';' :: b)))
      = some [.word ['s','t','r','i','p'], .word flags, .word a, .op ';', .word b] := by
  have hg : ∀ x ∈ [Field.plain ['s','t','r','i','p'], .plain flags], good x = true := by
    intro x hx
    simp only [List.mem_cons, List.not_mem_nil, or_false] at hx
    rcases hx with rfl | rfl
    · decide
    · simp [good, hfl]
  have hne : flags ≠ [] := by rintro rfl; cases hfl
  have := read_front _ hg (.plain (a ++ ';' :: b))
  have hb' := rd_new hb []
  rw [List.append_nil] at hb'
  have hop : rd .bare (some a) (';' :: b) = some [.word a, .op ';', .word b] := by
    rw [rd]
    simp only [show blank ';' = false from rfl, show isOp ';' = true from rfl, hb']
    rfl
  simp only [Field.text, rd_new ha, hop] at this
  simpa [strip, meant, hne] using this

/-- The full statement does not hold: a name with a blank is taken for two. -/
theorem shell_refuted : ¬ ShellFull (fun flags f => render (strip flags f)) := by
  intro h
  have := h ['a',' ','b'] (by unfold FileName; decide)
  unfold Runs at this
  revert this
  decide

example : safe ['/','u','s','r','/','l','i','b','/','l','i','b','c','-','2','.','3','.','s','o'] = true := by
  decide
example : safe ['g','+','+','~','1','#'] = true := by decide
/-- A blank inside double quotes does not matter. -/
example : Runs (render (file ['a',' ','b'])) [['f','i','l','e'], ['a',' ','b']] := by
  unfold Runs; decide
example : read (render (strip [] ['a',' ','b']))
    = some [.word ['s','t','r','i','p'], .word ['a'], .word ['b']] := by decide
/-- The signature of this file is never looked at, and the outcome is that of
the second command. -/
example : read (render (gpgVerify ['a','|','t','r','u','e']))
    = some [.word ['g','p','g'], .word ['-','-','v','e','r','i','f','y'], .word ['a'], .op '|',
      .word ['t','r','u','e']] := by decide
example : RunsFrom (render (patch 12 [] ['f','.','p','a','t','c','h']))
    [['p','a','t','c','h'], ['-','p','1','2']] ['f','.','p','a','t','c','h'] := by
  unfold RunsFrom; decide
example : '\'' ∉ ['s','~','[','[',':','g','r','a','p','h',':',']',']','*','~','~','g'] := by decide

end Pisi.Shell
