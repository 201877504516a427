/-
Lemmas on the command line: the parser reads back the items of a line.
-/
import Verif.Model.Cli
import Verif.Spec.Cli

namespace Pisi.Cli

open Pisi

/-- The options of a parser have different letters and different long names. -/
def Distinct (t : List Opt) : Prop :=
  ∀ p ∈ t, ∀ q ∈ t, ((p.short.isSome ∧ p.short = q.short) ∨ p.long = q.long) → p = q

/-- The option of the manual that an option of the parser implements. -/
def toO (o : Opt) : Spec.O :=
  { short := o.short
    long := o.long
    value := o.takes
    good := fun v => match o.act with
      | .store => True
      | .storeInt => Spec.IsInt v
      | .storeTrue => True
      | _ => False }

theorem optStep_distinct {t t' : List Opt} {s : OptStep} (ht : Distinct t)
    (h : optStep t s = .ok t') : Distinct t' := by
  cases s with
  | undefinedName => simp [optStep] at h
  | remove l =>
    simp only [optStep] at h
    split at h
    · injection h with h
      subst h
      intro p hp q hq hpq
      exact ht p (List.mem_filter.mp hp).1 q (List.mem_filter.mp hq).1 hpq
    · cases h
  | add o =>
    simp only [optStep] at h
    split at h
    · cases h
    · rename_i hc
      injection h with h
      subst h
      have hno : ∀ p ∈ t, ¬ ((o.short.isSome ∧ p.short = o.short) ∨ p.long = o.long) := by
        intro p hp hpo
        apply hc
        unfold conflicts
        rw [List.any_eq_true]
        refine ⟨p, hp, ?_⟩
        rcases hpo with ⟨h1, h2⟩ | h2
        · simp [h1, h2]
        · simp [h2]
      intro p hp q hq hpq
      have hp' := List.mem_append.mp hp
      have hq' := List.mem_append.mp hq
      clear hp hq
      rcases hp' with hp | hp <;> rcases hq' with hq | hq
      · exact ht p hp q hq hpq
      · simp only [List.mem_singleton] at hq
        subst hq
        exfalso
        apply hno p hp
        rcases hpq with ⟨h1, h2⟩ | h2
        · exact Or.inl ⟨h2 ▸ h1, h2⟩
        · exact Or.inr h2
      · simp only [List.mem_singleton] at hp
        subst hp
        exfalso
        apply hno q hq
        rcases hpq with ⟨h1, h2⟩ | h2
        · exact Or.inl ⟨h1, h2.symm⟩
        · exact Or.inr h2.symm
      · simp only [List.mem_singleton] at hp hq
        rw [hp, hq]

theorem optSteps_distinct {ss : List OptStep} : ∀ {t t' : List Opt}, Distinct t →
    optSteps t ss = .ok t' → Distinct t' := by
  induction ss with
  | nil => intro t t' ht h; injection h with h; exact h ▸ ht
  | cons s ss ih =>
    intro t t' ht h
    unfold optSteps at h
    split at h
    · cases h
    · rename_i h1
      exact ih (optStep_distinct ht h1) h

theorem mkParser_distinct {c : Cls} {t : List Opt} (h : mkParser c = .ok t) : Distinct t := by
  unfold mkParser at h
  split at h
  · cases h
  · rename_i h1
    split at h
    · cases h
    · rename_i h2
      exact optSteps_distinct (optSteps_distinct (optSteps_distinct (by intro p hp; cases hp) h1)
        h2) h

theorem find_short {t : List Opt} (ht : Distinct t) {o : Opt} {c : Char} (ho : o ∈ t)
    (hc : o.short = some c) : t.find? (fun p => p.short == some c) = some o := by
  cases hf : t.find? (fun p => p.short == some c) with
  | none =>
    have := List.find?_eq_none.mp hf o ho
    simp [hc] at this
  | some p =>
    have h1 := List.find?_some hf
    have h2 := List.mem_of_find?_eq_some hf
    simp only [beq_iff_eq] at h1
    rw [ht p h2 o ho (Or.inl ⟨by rw [h1]; rfl, by rw [h1, hc]⟩)]

theorem find_long {t : List Opt} (ht : Distinct t) {o : Opt} (ho : o ∈ t) :
    t.find? (fun p => p.long == o.long) = some o := by
  cases hf : t.find? (fun p => p.long == o.long) with
  | none =>
    have := List.find?_eq_none.mp hf o ho
    simp at this
  | some p =>
    have h1 := List.find?_some hf
    have h2 := List.mem_of_find?_eq_some hf
    simp only [beq_iff_eq] at h1
    rw [ht p h2 o ho (Or.inr h1)]

theorem filter_unique {t : List Opt} (hn : t.Nodup) {o : Opt} {f : Opt → Bool} (ho : o ∈ t)
    (hf : f o = true) (hu : ∀ p ∈ t, f p = true → p = o) : t.filter f = [o] := by
  induction t with
  | nil => cases ho
  | cons a t ih =>
    rw [List.nodup_cons] at hn
    by_cases hao : a = o
    · subst hao
      have : t.filter f = [] := by
        rw [List.filter_eq_nil_iff]
        intro p hp hfp
        have := hu p (List.mem_cons_of_mem _ hp) hfp
        exact hn.1 (this ▸ hp)
      rw [List.filter_cons_of_pos hf, this]
    · have hfa : ¬ f a = true := fun h => hao (hu a (List.mem_cons_self ..) h)
      rw [List.filter_cons_of_neg hfa]
      rcases List.mem_cons.mp ho with h | h
      · exact absurd h.symm hao
      · exact ih hn.2 h (fun p hp => hu p (List.mem_cons_of_mem _ hp))

theorem optStep_nodup {t t' : List Opt} {s : OptStep} (ht : t.Nodup)
    (h : optStep t s = .ok t') : t'.Nodup := by
  cases s with
  | undefinedName => simp [optStep] at h
  | remove l =>
    simp only [optStep] at h
    split at h
    · injection h with h
      subst h
      exact ht.sublist List.filter_sublist
    · cases h
  | add o =>
    simp only [optStep] at h
    split at h
    · cases h
    · rename_i hc
      injection h with h
      subst h
      rw [List.nodup_append]
      refine ⟨ht, by simp, ?_⟩
      intro a ha b hb hab
      simp only [List.mem_singleton] at hb
      apply hc
      unfold conflicts
      rw [List.any_eq_true]
      exact ⟨a, ha, by simp [hab, hb]⟩

theorem optSteps_nodup {ss : List OptStep} : ∀ {t t' : List Opt}, t.Nodup →
    optSteps t ss = .ok t' → t'.Nodup := by
  induction ss with
  | nil => intro t t' ht h; injection h with h; exact h ▸ ht
  | cons s ss ih =>
    intro t t' ht h
    unfold optSteps at h
    split at h
    · cases h
    · rename_i h1
      exact ih (optStep_nodup ht h1) h

theorem mkParser_nodup {c : Cls} {t : List Opt} (h : mkParser c = .ok t) : t.Nodup := by
  unfold mkParser at h
  split at h
  · cases h
  · rename_i h1
    split at h
    · cases h
    · rename_i h2
      exact optSteps_nodup (optSteps_nodup (optSteps_nodup List.nodup_nil h1) h2) h

theorem matchLong_names {t : List Opt} (ht : Distinct t) (hn : t.Nodup) {n : Str} {o : Opt}
    (h : Spec.Names (t.map toO) n (toO o)) (ho : o ∈ t) : matchLong t n = .ok o := by
  obtain ⟨_, h2⟩ := h
  unfold matchLong
  rcases h2 with h2 | ⟨h2, h3⟩
  · have : n = o.long := h2
    rw [this, find_long ht ho]
  · cases hf : t.find? (fun p => p.long == n) with
    | some p =>
      dsimp only
      have e1 := List.find?_some hf
      have e2 := List.mem_of_find?_eq_some hf
      simp only [beq_iff_eq] at e1
      have := h3 (toO p) (List.mem_map_of_mem e2) (by
        show n <+: p.long
        rw [e1]
        exact List.prefix_rfl)
      rw [ht p e2 o ho (Or.inr this)]
    | none =>
      dsimp only
      rw [filter_unique hn ho (f := fun o => n.isPrefixOf o.long)
        (by exact List.isPrefixOf_iff_prefix.mpr h2)]
      intro p hp hpf
      have := h3 (toO p) (List.mem_map_of_mem hp) (List.isPrefixOf_iff_prefix.mp hpf)
      exact ht p hp o ho (Or.inr this)

theorem isInt_of {v : Str} (h : Spec.IsInt v) : isInt v = true := by
  obtain ⟨sgn, ds, rfl, hs, hne, hd⟩ := h
  have hall : ds.all (fun c => '0' ≤ c && c ≤ '9') = true := by
    rw [List.all_eq_true]
    intro c hc
    have := hd c hc
    simp [this.1, this.2]
  have hemp : ds.isEmpty = false := by
    cases ds with
    | nil => exact absurd rfl hne
    | cons => rfl
  rcases hs with rfl | rfl | rfl
  · rw [List.nil_append]
    unfold isInt
    cases ds with
    | nil => exact absurd rfl hne
    | cons d ds' =>
      have h0 := hd d (List.mem_cons_self ..)
      have h1 : d ≠ '-' := by rintro rfl; revert h0; decide
      have h2 : d ≠ '+' := by rintro rfl; revert h0; decide
      split
      · rename_i heq
        injection heq with heq
        exact absurd heq h1
      · rename_i heq
        injection heq with heq
        exact absurd heq h2
      · show (!(d :: ds').isEmpty && (d :: ds').all (fun c => '0' ≤ c && c ≤ '9')) = true
        rw [hemp, hall]
        rfl
  · show (!ds.isEmpty && ds.all (fun c => '0' ≤ c && c ≤ '9')) = true
    rw [hemp, hall]; rfl
  · show (!ds.isEmpty && ds.all (fun c => '0' ≤ c && c ≤ '9')) = true
    rw [hemp, hall]; rfl

theorem process_value {o : Opt} {v : Str} {vals : List Setting} (h1 : (toO o).value = true)
    (h2 : (toO o).good v) : process o v vals = .ok (vals ++ [(Spec.attr o.long, some v)]) := by
  obtain ⟨s, l, a⟩ := o
  cases a with
  | store => rfl
  | storeInt =>
    unfold process
    dsimp only
    rw [if_pos (isInt_of h2)]
    rfl
  | storeTrue => cases h1
  | help => cases h1
  | version => cases h1

theorem process_flag {o : Opt} {vals : List Setting} (h1 : (toO o).value = false)
    (h2 : (toO o).good []) : process o [] vals = .ok (vals ++ [(Spec.attr o.long, none)]) := by
  obtain ⟨s, l, a⟩ := o
  cases a with
  | store => cases h1
  | storeInt => cases h1
  | storeTrue => rfl
  | help => exact absurd h2 (by intro h; exact h)
  | version => exact absurd h2 (by intro h; exact h)

theorem cluster_flags {t : List Opt} (ht : Distinct t) {cs : Str} {as : List Str}
    (h : Spec.Flags (t.map toO) cs as) : ∀ (rest : Str) (vals : List Setting),
    cluster t (cs ++ rest) vals = cluster t rest (vals ++ Spec.on as) := by
  induction h with
  | nil => intro rest vals; simp [Spec.on]
  | @cons c cs as o ho hc hv hg _ ih =>
    intro rest vals
    obtain ⟨p, hp, rfl⟩ := List.mem_map.mp ho
    rw [List.cons_append]
    conv => lhs; unfold cluster
    rw [find_short ht hp hc]
    dsimp only
    rw [if_neg (by rw [show p.takes = false from hv]; decide), process_flag hv hg]
    dsimp only
    rw [ih]
    simp [Spec.on, toO]

theorem cluster_value {t : List Opt} (ht : Distinct t) {c : Char} {v : Str} {o : Opt}
    (ho : o ∈ t) (hc : o.short = some c) (hv : (toO o).value = true) (hne : v ≠ [])
    (hg : (toO o).good v) (vals : List Setting) :
    cluster t (c :: v) vals = .ok (.done (vals ++ [(Spec.attr o.long, some v)])) := by
  unfold cluster
  rw [find_short ht ho hc]
  dsimp only
  rw [if_pos (show o.takes = true from hv)]
  cases v with
  | nil => exact absurd rfl hne
  | cons a v =>
    dsimp only
    rw [process_value hv hg]

theorem cluster_wants {t : List Opt} (ht : Distinct t) {c : Char} {o : Opt}
    (ho : o ∈ t) (hc : o.short = some c) (hv : (toO o).value = true) (vals : List Setting) :
    cluster t [c] vals = .ok (.wants o vals) := by
  unfold cluster
  rw [find_short ht ho hc]
  dsimp only
  rw [if_pos (show o.takes = true from hv)]

theorem parse_short {t : List Opt} {w : Str} (h1 : w ≠ []) (h2 : w.head? ≠ some '-')
    (rest : List Str) (vals : List Setting) (largs : List Str) :
    parse t none (('-' :: w) :: rest) vals largs = match cluster t w vals with
      | .error e => .error e
      | .ok (.done vals') => parse t none rest vals' largs
      | .ok (.wants o vals') => parse t (some o) rest vals' largs := by
  cases w with
  | nil => exact absurd rfl h1
  | cons c cs =>
    have hc : c ≠ '-' := by rintro rfl; exact h2 rfl
    conv => lhs; unfold parse
    split
    · rename_i heq
      injection heq with _ heq
      injection heq with heq
      exact absurd heq hc
    · rename_i heq
      injection heq with _ heq
      injection heq with heq
      exact absurd heq hc
    · rename_i heq
      injection heq with _ heq
      injection heq with e1 e2
      subst e1 e2
      rfl
    · rename_i h3
      exact absurd rfl (h3 c cs)

theorem parse_word {t : List Opt} {w : Str} (h : w = ['-'] ∨ w.head? ≠ some '-')
    (rest : List Str) (vals : List Setting) (largs : List Str) :
    parse t none (w :: rest) vals largs = parse t none rest vals (largs ++ [w]) := by
  conv => lhs; unfold parse
  split
  · rcases h with h | h
    · cases h
    · exact absurd rfl h
  · rcases h with h | h
    · cases h
    · exact absurd rfl h
  · rcases h with h | h
    · cases h
    · exact absurd rfl h
  · rfl

theorem splitEq_none {n : Str} (h : '=' ∉ n) : splitEq n = (n, none) := by
  induction n with
  | nil => rfl
  | cons c n ih =>
    simp only [List.mem_cons, not_or] at h
    unfold splitEq
    rw [if_neg (fun e => h.1 e.symm), ih h.2]

theorem splitEq_some {n v : Str} (h : '=' ∉ n) : splitEq (n ++ '=' :: v) = (n, some v) := by
  induction n with
  | nil => rfl
  | cons c n ih =>
    simp only [List.mem_cons, not_or] at h
    rw [List.cons_append]
    unfold splitEq
    rw [if_neg (fun e => h.1 e.symm), ih h.2]

theorem parse_long_none {t : List Opt} {w : Str} (h1 : w ≠ []) {n : Str} {o : Opt}
    (hs : splitEq w = (n, none)) (hm : matchLong t n = .ok o)
    (rest : List Str) (vals : List Setting) (largs : List Str) :
    parse t none (('-' :: '-' :: w) :: rest) vals largs =
      if o.takes then parse t (some o) rest vals largs
      else
        match process o [] vals with
        | .error e => .error e
        | .ok vals' => parse t none rest vals' largs := by
  cases w with
  | nil => exact absurd rfl h1
  | cons c cs =>
    conv => lhs; unfold parse
    simp only [hs, hm]
    rfl

theorem parse_long_some {t : List Opt} {w : Str} (h1 : w ≠ []) {n v : Str} {o : Opt}
    (hs : splitEq w = (n, some v)) (hm : matchLong t n = .ok o)
    (rest : List Str) (vals : List Setting) (largs : List Str) :
    parse t none (('-' :: '-' :: w) :: rest) vals largs =
      if o.takes then
        match process o v vals with
        | .error e => .error e
        | .ok vals' => parse t none rest vals' largs
      else .error .noValue := by
  cases w with
  | nil => exact absurd rfl h1
  | cons c cs =>
    conv => lhs; unfold parse
    simp only [hs, hm]
    rfl

theorem parse_pend {t : List Opt} {o : Opt} {v : Str} (hv : (toO o).value = true)
    (hg : (toO o).good v) (rest : List Str) (vals : List Setting) (largs : List Str) :
    parse t (some o) (v :: rest) vals largs =
      parse t none rest (vals ++ [(Spec.attr o.long, some v)]) largs := by
  conv => lhs; unfold parse
  rw [process_value hv hg]

theorem parse_item {t : List Opt} (ht : Distinct t) (hn : t.Nodup) {i : Spec.Item}
    {s : List Setting} {a : List Str} (h : Spec.Means (t.map toO) i s a) (rest : List Str)
    (vals : List Setting) (largs : List Str) :
    parse t none (i.words ++ rest) vals largs = parse t none rest (vals ++ s) (largs ++ a) := by
  cases h with
  | flags h1 h2 h3 =>
    show parse t none (_ :: rest) vals largs = _
    rw [parse_short h1 h2]
    have := cluster_flags ht h3 [] vals
    rw [List.append_nil] at this
    rw [this]
    simp [cluster]
  | @attached cs as c v o h1 h2 h3 h4 h5 h6 h7 =>
    obtain ⟨p, hp, rfl⟩ := List.mem_map.mp h3
    show parse t none (_ :: rest) vals largs = _
    rw [parse_short (by simp) (by cases cs <;> simpa using h1), cluster_flags ht h2,
      cluster_value ht hp h4 h5 h6 h7]
    simp [toO]
  | @apart cs as c v o h1 h2 h3 h4 h5 h7 =>
    obtain ⟨p, hp, rfl⟩ := List.mem_map.mp h3
    show parse t none (_ :: v :: rest) vals largs = _
    rw [parse_short (by simp) h1, cluster_flags ht h2, cluster_wants ht hp h4 h5]
    dsimp only
    rw [parse_pend h5 h7]
    simp [toO]
  | @long n o h1 h2 h3 h4 h5 =>
    obtain ⟨p, hp, rfl⟩ := List.mem_map.mp h3.1
    show parse t none (_ :: rest) vals largs = _
    rw [parse_long_none h1 (splitEq_none h2) (matchLong_names ht hn h3 hp),
      if_neg (by rw [show p.takes = false from h4]; decide)]
    rw [process_flag h4 h5]
    simp [toO]
  | @longEq n v o h1 h2 h3 h4 h5 =>
    obtain ⟨p, hp, rfl⟩ := List.mem_map.mp h3.1
    show parse t none (_ :: rest) vals largs = _
    rw [parse_long_some (by simp) (splitEq_some h2) (matchLong_names ht hn h3 hp),
      if_pos (show p.takes = true from h4)]
    rw [process_value h4 h5]
    simp [toO]
  | @longApart n v o h1 h2 h3 h4 h5 =>
    obtain ⟨p, hp, rfl⟩ := List.mem_map.mp h3.1
    show parse t none (_ :: v :: rest) vals largs = _
    rw [parse_long_none h1 (splitEq_none h2) (matchLong_names ht hn h3 hp),
      if_pos (show p.takes = true from h4)]
    rw [parse_pend h4 h5]
    simp [toO]
  | word h1 =>
    show parse t none (_ :: rest) vals largs = _
    rw [parse_word h1]
    simp

theorem parse_line {t : List Opt} (ht : Distinct t) (hn : t.Nodup) {is : List Spec.Item}
    {s : List Setting} {a : List Str} (h : Spec.Line (t.map toO) is s a) :
    ∀ (rest : List Str) (vals : List Setting) (largs : List Str),
    parse t none (is.flatMap Spec.Item.words ++ rest) vals largs =
      parse t none rest (vals ++ s) (largs ++ a) := by
  induction h with
  | nil => intro rest vals largs; simp
  | cons h1 _ ih =>
    intro rest vals largs
    rw [List.flatMap_cons, List.append_assoc, parse_item ht hn h1, ih]
    simp

/-- The parser of optparse returns exactly what the line means. -/
theorem parse_words {t : List Opt} (ht : Distinct t) (hn : t.Nodup) {is : List Spec.Item}
    {s : List Setting} {a : List Str} (h : Spec.Line (t.map toO) is s a) (raw : Option (List Str)) :
    parse t none (Spec.words is raw) [] [] = .ok (s, a ++ raw.getD []) := by
  unfold Spec.words
  cases raw with
  | none =>
    dsimp only
    rw [parse_line ht hn h]
    simp [parse]
  | some ws =>
    dsimp only
    rw [parse_line ht hn h]
    simp [parse]

end Pisi.Cli
