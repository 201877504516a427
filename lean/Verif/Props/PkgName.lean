import Verif.Model.PkgName
import Verif.Props.Path

/-!
# C43, C60, C61: package file names
-/
namespace Pisi.PkgName
open Pisi.Path Pisi.Version.Spec

/-- Starts with a decimal digit. -/
def StartsDigit (s : Str) : Prop := ∃ c r, s = c :: r ∧ c.isDigit = true

/-- A package name: the parts after the first dash are not empty and do not start with a digit.  The first part may,
as in 855resolution. -/
def WFName (n : Str) : Prop :=
  ∃ first rest, Splits (· = '-') n (first :: rest) ∧ ∀ p ∈ rest, p ≠ [] ∧ ¬ StartsDigit p

/-- A version or release as used in file names: starts with a digit, contains no dash. -/
def WFVer (v : Str) : Prop := StartsDigit v ∧ '-' ∉ v

theorem nameParts_skip (acc ps rest : List Str) (ha : acc ≠ []) (h : ∀ p ∈ ps, p ≠ [] ∧ ¬ StartsDigit p) :
    nameParts acc (ps ++ rest) = nameParts (acc ++ ps) rest := by
  induction ps generalizing acc with
  | nil => simp
  | cons p ps ih =>
    obtain ⟨h1, h2⟩ := h p (by simp)
    rw [List.cons_append]
    cases hp : p with
    | nil => exact absurd hp h1
    | cons c r =>
      have hc : c.isDigit = false := by
        cases hd : c.isDigit with
        | false => rfl
        | true => exact absurd ⟨c, r, hp, hd⟩ h2
      simp only [nameParts, ha, if_false, hc, Bool.false_eq_true]
      rw [ih _ (by simp) (fun q hq => h q (by simp [hq]))]
      simp

theorem joinWith_append' (sep : Char) (s : Str) (ps : List Str) (h : Splits (· = sep) s ps) :
    joinWith [sep] ps = s := by
  induction h with
  | last p hp => rfl
  | cons p c t ps hp hc ht ih =>
    subst hc
    cases ps with
    | nil => cases ht
    | cons q qs => simp [joinWith, ih]

/-- **C43.** Name and version are recovered from `name-version`. -/
theorem parse_name_version (n ver : Str) (hn : WFName n) (hv : StartsDigit ver) :
    parsePackageName (n ++ '-' :: ver) = .ok (n, ver) := by
  obtain ⟨first, rest, hs, hr⟩ := hn
  obtain ⟨c, r, rfl, hc⟩ := hv
  have hsplit : splitOn '-' (n ++ '-' :: c :: r) = (first :: rest) ++ splitOn '-' (c :: r) := by
    rw [splitOn_append, Splits.unique (splitOn_splits '-' n) hs]
  have hcd : c ≠ '-' := (digit_not_sign c hc).1
  obtain ⟨q, qs, _, hq⟩ := splitOn_cons '-' c r hcd
  have hparts : nameParts [] (splitOn '-' (n ++ '-' :: c :: r)) = .ok (first :: rest) := by
    rw [hsplit, hq, List.cons_append]
    simp only [nameParts, if_true, List.nil_append]
    rw [nameParts_skip [first] rest _ (by simp) hr]
    simp [nameParts, hc]
  have hj : joinWith ['-'] (first :: rest) = n := joinWith_append' '-' n _ hs
  simp only [parsePackageName, hparts, hj]
  simp

/-- **C43.** A bare package name parses to itself. -/
theorem parse_name_only (n : Str) (hn : WFName n) : parsePackageName n = .ok (n, []) := by
  obtain ⟨first, rest, hs, hr⟩ := hn
  have hj : joinWith ['-'] (first :: rest) = n := joinWith_append' '-' n _ hs
  have hparts : nameParts [] (splitOn '-' n) = .ok (first :: rest) := by
    rw [Splits.unique (splitOn_splits '-' n) hs]
    simp only [nameParts, if_true, List.nil_append]
    have := nameParts_skip [first] rest [] (by simp) hr
    simpa [nameParts] using this
  simp only [parsePackageName, hparts, hj]
  simp

/-- The part of a file name after the package name. -/
def verPart (v r : Str) (b : Option Nat) : Str :=
  match b with
  | some k => if k = 0 then v ++ '-' :: r else v ++ '-' :: (r ++ '-' :: Nat.toDigits 10 k)
  | none => v ++ '-' :: r

theorem packageName_eq (n v r : Str) (b : Option Nat) :
    packageName n v r b false = n ++ '-' :: verPart v r b ∧
    packageName n v r b = n ++ '-' :: verPart v r b ++ packageSuffix := by
  unfold packageName verPart buildStr
  cases b with
  | none => simp
  | some k => by_cases hk : k = 0 <;> simp [hk]

theorem startsDigit_append (s t : Str) (h : StartsDigit s) : StartsDigit (s ++ t) := by
  obtain ⟨c, r, rfl, hc⟩ := h; exact ⟨c, r ++ t, rfl, hc⟩

theorem verPart_startsDigit (v r : Str) (b : Option Nat) (h : StartsDigit v) : StartsDigit (verPart v r b) := by
  unfold verPart; split
  · split <;> exact startsDigit_append _ _ h
  · exact startsDigit_append _ _ h

/-- **C43.** `parse_package_name(package_name(n, v, r, b, False))` recovers the name and the version string. -/
theorem package_name_roundtrip (n v r : Str) (b : Option Nat) (hn : WFName n) (hv : StartsDigit v) :
    parsePackageName (packageName n v r b false) = .ok (n, verPart v r b) := by
  rw [(packageName_eq n v r b).1]
  exact parse_name_version n _ hn (verPart_startsDigit v r b hv)

theorem dropWhile_stop {p : Char → Bool} (l : Str) (c : Char) (m : Str) (hc : p c = false) :
    ∃ l', (l ++ c :: m).dropWhile p = l' ++ c :: m := by
  induction l with
  | nil => exact ⟨[], by simp [hc]⟩
  | cons x t ih =>
    simp only [List.cons_append, List.dropWhile_cons]
    split
    · exact ih
    · exact ⟨x :: t, rfl⟩

/-- **C60.** `pure_package_name` returns the package name of every package file name, although it strips a character
set instead of the suffix. -/
theorem pure_name_of_file (n v r : Str) (b : Option Nat) (hn : WFName n) (hv : StartsDigit v) :
    purePackageName (packageName n v r b) = .ok n := by
  rw [(packageName_eq n v r b).2]
  have hs : suffix packageSuffix (n ++ '-' :: verPart v r b ++ packageSuffix) = true :=
    (suffix_iff _ _).mpr ⟨_, rfl⟩
  simp only [purePackageName, hs, if_true]
  obtain ⟨c, t, ht, hc⟩ := verPart_startsDigit v r b hv
  have hcs : decide (c ∈ packageSuffix) = false := by
    simp only [decide_eq_false_iff_not]
    intro h
    simp only [packageSuffix, List.mem_cons, List.not_mem_nil, or_false] at h
    rcases h with rfl | rfl | rfl | rfl | rfl <;> revert hc <;> decide
  obtain ⟨l', hl'⟩ := dropWhile_stop (p := fun c => decide (c ∈ packageSuffix)) (t ++ packageSuffix).reverse c
    (n ++ ['-']).reverse hcs
  have e : rstrip (fun c => decide (c ∈ packageSuffix)) (n ++ '-' :: verPart v r b ++ packageSuffix) =
      n ++ '-' :: (c :: l'.reverse) := by
    have e1 : (n ++ '-' :: verPart v r b ++ packageSuffix).reverse =
        (t ++ packageSuffix).reverse ++ c :: (n ++ ['-']).reverse := by
      rw [ht]; simp
    unfold rstrip
    rw [e1, hl']; simp
  rw [e, parse_name_version n _ hn ⟨c, _, rfl, hc⟩]

/-- **C60.** `pure_package_name` leaves a bare package name alone, unless it ends in ".pisi". -/
theorem pure_name_of_name (n : Str) (hn : WFName n) (h : ¬ packageSuffix <:+ n) : purePackageName n = .ok n := by
  have : suffix packageSuffix n = false := by
    cases hs : suffix packageSuffix n with
    | false => rfl
    | true => exact absurd ((suffix_iff _ _).mp hs) h
  simp [purePackageName, this, parse_name_only n hn]

theorem toDigits_dash (k : Nat) : '-' ∉ Nat.toDigits 10 k := by
  intro h
  have := Nat.isDigit_of_mem_toDigits (by omega) (by omega) h
  revert this; decide

theorem toDigits_startsDigit (k : Nat) : StartsDigit (Nat.toDigits 10 k) := by
  cases h : Nat.toDigits 10 k with
  | nil => exact absurd h Nat.toDigits_ne_nil
  | cons c r => exact ⟨c, r, rfl, Nat.isDigit_of_mem_toDigits (b := 10) (n := k) (by omega) (by omega) (by rw [h]; simp)⟩

/-- The dash-separated parts of the version part. -/
def verParts (v r : Str) (b : Option Nat) : List Str :=
  match b with
  | some k => if k = 0 then [v, r] else [v, r, Nat.toDigits 10 k]
  | none => [v, r]

theorem splitOn_verPart (v r : Str) (b : Option Nat) (hv : WFVer v) (hr : WFVer r) :
    splitOn '-' (verPart v r b) = verParts v r b := by
  have nv : splitOn '-' v = [v] := splitOn_noSep '-' v (fun x hx e => hv.2 (e ▸ hx))
  have nr : splitOn '-' r = [r] := splitOn_noSep '-' r (fun x hx e => hr.2 (e ▸ hx))
  have nb : ∀ k, splitOn '-' (Nat.toDigits 10 k) = [Nat.toDigits 10 k] := fun k =>
    splitOn_noSep '-' _ (fun x hx e => toDigits_dash k (e ▸ hx))
  cases b with
  | none => simp [verPart, verParts, splitOn_append, nv, nr]
  | some k => by_cases hk : k = 0 <;> simp [verPart, verParts, hk, splitOn_append, nv, nr, nb]

/-- **C61.** A file name determines the package: equal names, versions, releases and (non-zero) build numbers. -/
theorem package_name_injective (n v r n' v' r' : Str) (b b' : Option Nat) (hn : WFName n) (hn' : WFName n')
    (hv : WFVer v) (hr : WFVer r) (hv' : WFVer v') (hr' : WFVer r')
    (h : packageName n v r b = packageName n' v' r' b') :
    n = n' ∧ v = v' ∧ r = r' ∧ b.getD 0 = b'.getD 0 := by
  rw [(packageName_eq n v r b).2, (packageName_eq n' v' r' b').2] at h
  have h := List.append_cancel_right h
  have p1 := parse_name_version n _ hn (verPart_startsDigit v r b hv.1)
  have p2 := parse_name_version n' _ hn' (verPart_startsDigit v' r' b' hv'.1)
  rw [h, p2] at p1
  simp only [Except.ok.injEq, Prod.mk.injEq] at p1
  obtain ⟨e1, e2⟩ := p1
  have s : verParts v r b = verParts v' r' b' := by
    rw [← splitOn_verPart v r b hv hr, ← splitOn_verPart v' r' b' hv' hr', e2]
  refine ⟨e1.symm, ?_⟩
  have dig : ∀ j k, Nat.toDigits 10 j = Nat.toDigits 10 k → j = k := by
    intro j k e
    have := congrArg (fun l => Nat.ofDigitChars 10 l 0) e
    simpa [Nat.ofDigitChars_toDigits] using this
  unfold verParts at s
  cases b with
  | none =>
    cases b' with
    | none => simp at s; simp [s]
    | some k' =>
      by_cases hk : k' = 0
      · simp [hk] at s; simp [s, hk]
      · simp [hk] at s
  | some k =>
    cases b' with
    | none =>
      by_cases hk : k = 0
      · simp [hk] at s; simp [s, hk]
      · simp [hk] at s
    | some k' =>
      by_cases hk : k = 0 <;> by_cases hk' : k' = 0
      · simp [hk, hk'] at s; simp [s, hk, hk']
      · simp [hk, hk'] at s
      · simp [hk, hk'] at s
      · simp [hk, hk'] at s
        exact ⟨s.1, s.2.1, by simpa using dig _ _ s.2.2⟩

/-- **C61.** `is_package_name` picks exactly the files of the given package among package files. -/
theorem is_package_name_iff (n m v r : Str) (b : Option Nat) (hn : WFName n) (hm : WFName m) (hv : WFVer v)
    (hr : WFVer r) : isPackageName (packageName m v r b) n = true ↔ m = n := by
  rw [(packageName_eq m v r b).2]
  have hs : suffix packageSuffix (m ++ '-' :: verPart v r b ++ packageSuffix) = true :=
    (suffix_iff _ _).mpr ⟨_, rfl⟩
  have htake : ((m ++ '-' :: verPart v r b ++ packageSuffix).take
      ((m ++ '-' :: verPart v r b ++ packageSuffix).length - packageSuffix.length)) = m ++ '-' :: verPart v r b := by
    have : (m ++ '-' :: verPart v r b ++ packageSuffix).length - packageSuffix.length =
        (m ++ '-' :: verPart v r b).length := by
      rw [List.length_append (bs := packageSuffix)]; omega
    rw [this, List.take_left']
    rfl
  constructor
  · intro h
    unfold isPackageName at h
    split at h
    · next hp =>
      dsimp only at h
      rw [htake] at h
      obtain ⟨t, ht⟩ := (prefix_iff _ _).mp hp
      -- the rest after `n-` starts with a digit
      have hall := List.all_eq_true.mp h
      cases hd : (m ++ '-' :: verPart v r b).drop (n.length + 1) with
      | nil => rw [hd] at hall; have := hall [] (by simp [splitOn]); simp at this
      | cons c rest =>
        have hc : c.isDigit = true := by
          by_cases hcd : c = '-'
          · subst hcd
            have := hall [] (by rw [hd, splitOn_sep]; simp)
            simp at this
          · obtain ⟨q, qs, _, hq⟩ := splitOn_cons '-' c rest hcd
            have := hall (c :: q) (by rw [hd, hq]; simp)
            simpa using this
        have hlen : (n ++ ['-']).length ≤ (m ++ '-' :: verPart v r b).length := by
          have h1 := congrArg List.length hd
          simp only [List.length_drop, List.length_cons] at h1
          simp only [List.length_append, List.length_cons, List.length_nil] at h1 ⊢
          omega
        have hpre : (n ++ ['-']) ++ (c :: rest) = m ++ '-' :: verPart v r b := by
          have h1 : n ++ ['-'] <+: m ++ '-' :: verPart v r b :=
            List.prefix_of_prefix_length_le ⟨t, ht⟩ ⟨packageSuffix, rfl⟩ hlen
          obtain ⟨t', ht'⟩ := h1
          have h2 : (m ++ '-' :: verPart v r b).drop (n.length + 1) = t' := by
            rw [← ht']
            have : n.length + 1 = (n ++ ['-']).length := by simp
            rw [this, List.drop_left]
          rw [h2] at hd; rw [← hd, ht']
        have p1 := parse_name_version n (c :: rest) hn ⟨c, rest, rfl, hc⟩
        have p2 := parse_name_version m _ hm (verPart_startsDigit v r b hv.1)
        have e : n ++ '-' :: c :: rest = m ++ '-' :: verPart v r b := by simpa using hpre
        rw [e, p2] at p1
        simp only [Except.ok.injEq, Prod.mk.injEq] at p1
        exact p1.1
    · cases h
  · rintro rfl
    unfold isPackageName
    have hp : «prefix» (m ++ ['-']) (m ++ '-' :: verPart v r b ++ packageSuffix) = true :=
      (prefix_iff _ _).mpr ⟨verPart v r b ++ packageSuffix, by simp⟩
    rw [if_pos hp, if_pos hs]
    dsimp only
    rw [htake]
    have hdrop : (m ++ '-' :: verPart v r b).drop (m.length + 1) = verPart v r b := by
      have e : m ++ '-' :: verPart v r b = (m ++ ['-']) ++ verPart v r b := by simp
      have : m.length + 1 = (m ++ ['-']).length := by simp
      rw [e, this, List.drop_left]
    rw [hdrop, splitOn_verPart v r b hv hr, List.all_eq_true]
    have dg : ∀ x, StartsDigit x → (match x with | [] => false | c :: _ => c.isDigit) = true := by
      rintro _ ⟨c, t, rfl, hc⟩; exact hc
    intro x hx
    apply dg
    unfold verParts at hx
    cases b with
    | none => simp at hx; rcases hx with rfl | rfl; exact hv.1; exact hr.1
    | some k =>
      by_cases hk : k = 0
      · simp [hk] at hx; rcases hx with rfl | rfl; exact hv.1; exact hr.1
      · simp [hk] at hx; rcases hx with rfl | rfl | rfl
        · exact hv.1
        · exact hr.1
        · exact toDigits_startsDigit k

/-! ## Non-vacuity -/
section Examples

/-- "a-b" is a package name. -/
theorem wf_example : WFName ['a', '-', 'b'] :=
  ⟨['a'], [['b']], Splits.cons ['a'] '-' ['b'] _ (by decide) rfl (Splits.last _ (by decide)), by
    intro p hp; simp at hp; subst hp
    refine ⟨by simp, ?_⟩
    rintro ⟨c, r, h, hc⟩; simp at h; rw [← h.1] at hc; revert hc; decide⟩

example : WFVer ['1', '.', '0'] := ⟨⟨'1', ['.', '0'], rfl, by decide⟩, by decide⟩
example : packageName ['a', '-', 'b'] ['1', '.', '0'] ['5'] (some 12) =
    ['a', '-', 'b', '-', '1', '.', '0', '-', '5', '-', '1', '2', '.', 'p', 'i', 's', 'i'] := by decide
example : parsePackageName (packageName ['a', '-', 'b'] ['1', '.', '0'] ['5'] (some 12) false) =
    .ok (['a', '-', 'b'], ['1', '.', '0', '-', '5', '-', '1', '2']) := by
  rw [package_name_roundtrip _ _ _ _ wf_example ⟨'1', ['.', '0'], rfl, by decide⟩]; rfl

end Examples

end Pisi.PkgName
