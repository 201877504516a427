import Verif.Props.Cli

/-!
The converse of C124: what is run is what the line says.
-/

namespace Pisi.Cli

open Pisi

theorem isInt_iff (v : Str) : isInt v = true ↔ Spec.IsInt v := by
  refine ⟨?_, isInt_of⟩
  have key : ∀ (sgn ds : Str), (sgn = [] ∨ sgn = ['-'] ∨ sgn = ['+']) →
      (!ds.isEmpty && ds.all (fun c => '0' ≤ c && c ≤ '9')) = true → Spec.IsInt (sgn ++ ds) := by
    intro sgn ds h1 h2
    simp only [Bool.and_eq_true, Bool.not_eq_true', List.isEmpty_eq_false_iff, List.all_eq_true,
      decide_eq_true_eq] at h2
    exact ⟨sgn, ds, rfl, h1, h2.1, h2.2⟩
  intro h
  unfold isInt at h
  split at h
  · exact key ['-'] _ (Or.inr (Or.inl rfl)) h
  · exact key ['+'] _ (Or.inr (Or.inr rfl)) h
  · exact key [] _ (Or.inl rfl) h

theorem process_sound {o : Opt} {v : Str} {vals vals' : List Setting}
    (h : process o v vals = .ok vals') : (o.takes = true → (toO o).good v ∧ vals' = vals ++ [(Spec.attr o.long, some v)]) ∧
      (o.takes = false → (toO o).good [] ∧ vals' = vals ++ [(Spec.attr o.long, none)]) := by
  obtain ⟨s, l, a⟩ := o
  cases a with
  | store => injection h with h; exact ⟨fun _ => ⟨trivial, h.symm⟩, fun h' => by cases h'⟩
  | storeInt =>
    unfold process at h
    dsimp only at h
    by_cases hi : isInt v = true
    · rw [if_pos hi] at h
      injection h with h
      exact ⟨fun _ => ⟨(isInt_iff v).1 hi, h.symm⟩, fun h' => by cases h'⟩
    · rw [if_neg hi] at h
      cases h
  | storeTrue => injection h with h; exact ⟨fun h' => Bool.noConfusion h', fun _ => ⟨trivial, h.symm⟩⟩
  | help => cases h
  | version => cases h

theorem matchLong_sound {t : List Opt} {n : Str} {o : Opt} (h : matchLong t n = .ok o) :
    o ∈ t ∧ Spec.Names (t.map toO) n (toO o) := by
  unfold matchLong at h
  split at h
  · rename_i p hp
    injection h with h
    subst h
    have h1 := List.mem_of_find?_eq_some hp
    have h2 := List.find?_some hp
    simp only [beq_iff_eq] at h2
    exact ⟨h1, List.mem_map_of_mem h1, Or.inl h2.symm⟩
  · split at h
    · cases h
    · rename_i p hf
      injection h with h
      subst h
      have h1 : p ∈ t.filter (fun o => n.isPrefixOf o.long) := by rw [hf]; exact List.mem_cons_self ..
      rw [List.mem_filter] at h1
      refine ⟨h1.1, List.mem_map_of_mem h1.1, Or.inr ⟨List.isPrefixOf_iff_prefix.1 h1.2, ?_⟩⟩
      intro q hq hn
      obtain ⟨q', hq', rfl⟩ := List.mem_map.1 hq
      have : q' ∈ t.filter (fun o => n.isPrefixOf o.long) :=
        List.mem_filter.2 ⟨hq', List.isPrefixOf_iff_prefix.2 hn⟩
      rw [hf, List.mem_singleton] at this
      rw [this]
    · cases h

theorem cluster_sound {t : List Opt} : ∀ {cs : Str} {vals : List Setting} {r : ClusterEnd}, cluster t cs vals = .ok r →
    (∃ as, Spec.Flags (t.map toO) cs as ∧ r = .done (vals ++ Spec.on as)) ∨
    (∃ fs as c v o, cs = fs ++ c :: v ∧ Spec.Flags (t.map toO) fs as ∧ o ∈ t ∧ o.short = some c ∧ o.takes = true ∧
      ((v = [] ∧ r = .wants o (vals ++ Spec.on as)) ∨
       (v ≠ [] ∧ (toO o).good v ∧ r = .done (vals ++ Spec.on as ++ [(Spec.attr o.long, some v)])))) := by
  intro cs
  induction cs with
  | nil =>
    intro vals r h
    unfold cluster at h
    injection h with h
    exact Or.inl ⟨[], .nil, by rw [← h]; simp [Spec.on]⟩
  | cons c cs ih =>
    intro vals r h
    unfold cluster at h
    split at h
    · cases h
    · rename_i o ho
      have h1 := List.mem_of_find?_eq_some ho
      have h2 := List.find?_some ho
      simp only [beq_iff_eq] at h2
      by_cases ht : o.takes = true
      · rw [if_pos ht] at h
        refine Or.inr ⟨[], [], c, cs, o, rfl, .nil, h1, h2, ht, ?_⟩
        cases cs with
        | nil =>
          injection h with h
          exact Or.inl ⟨rfl, by rw [← h]; simp [Spec.on]⟩
        | cons c' cs =>
          dsimp only at h
          split at h
          · cases h
          · rename_i vals' hp
            injection h with h
            obtain ⟨h3, h4⟩ := (process_sound hp).1 ht
            exact Or.inr ⟨by simp, h3, by rw [← h, h4]; simp [Spec.on]⟩
      · rw [if_neg ht] at h
        have ht' : o.takes = false := by simpa using ht
        split at h
        · cases h
        · rename_i vals' hp
          obtain ⟨h3, h4⟩ := (process_sound hp).2 ht'
          have hfl : ∀ {fs as}, Spec.Flags (t.map toO) fs as → Spec.Flags (t.map toO) (c :: fs) (Spec.attr o.long :: as) :=
            fun hf => .cons (toO o) (List.mem_map_of_mem h1) h2 ht' h3 hf
          rcases ih h with ⟨as, hf, hr⟩ | ⟨fs, as, c', v, o', e, hf, h5, h6, h7, h8⟩
          · exact Or.inl ⟨_, hfl hf, by rw [hr, h4]; simp [Spec.on]⟩
          · refine Or.inr ⟨c :: fs, _, c', v, o', by rw [e]; rfl, hfl hf, h5, h6, h7, ?_⟩
            rcases h8 with ⟨e1, e2⟩ | ⟨e1, e2, e3⟩
            · exact Or.inl ⟨e1, by rw [e2, h4]; simp [Spec.on]⟩
            · exact Or.inr ⟨e1, e2, by rw [e3, h4]; simp [Spec.on]⟩

theorem splitEq_sound : ∀ w : Str, '=' ∉ (splitEq w).1 ∧ (((splitEq w).2 = none ∧ (splitEq w).1 = w) ∨
    ∃ v, (splitEq w).2 = some v ∧ w = (splitEq w).1 ++ '=' :: v)
  | [] => ⟨by simp [splitEq], Or.inl ⟨rfl, rfl⟩⟩
  | c :: cs => by
    obtain ⟨h1, h2⟩ := splitEq_sound cs
    unfold splitEq
    by_cases hc : c = '='
    · rw [if_pos hc]
      exact ⟨by simp, Or.inr ⟨cs, rfl, by rw [hc]; rfl⟩⟩
    · rw [if_neg hc]
      refine ⟨by simp [h1, Ne.symm hc], ?_⟩
      rcases h2 with ⟨e1, e2⟩ | ⟨v, e1, e2⟩
      · exact Or.inl ⟨e1, by show c :: (splitEq cs).1 = _; rw [e2]⟩
      · exact Or.inr ⟨v, e1, by show c :: cs = c :: (splitEq cs).1 ++ _; rw [List.cons_append, ← e2]⟩

theorem parse_sound {t : List Opt} (hlong : ∀ o ∈ t, o.long ≠ []) (hmany : ∃ o ∈ t, ∃ p ∈ t, o.long ≠ p.long) :
    ∀ (k : Nat) (ws : List Str) (vals : List Setting) (largs : List Str) (vals' : List Setting) (largs' : List Str),
    ws.length ≤ k → parse t none ws vals largs = .ok (vals', largs') →
    ∃ is raw s a, ws = Spec.words is raw ∧ Spec.Line (t.map toO) is s a ∧ vals' = vals ++ s ∧
      largs' = largs ++ (a ++ raw.getD []) := by
  intro k
  induction k with
  | zero =>
    intro ws vals largs vals' largs' hk h
    cases ws with
    | nil =>
      unfold parse at h
      injection h with h
      injection h with h1 h2
      exact ⟨[], none, [], [], rfl, .nil, by simp [h1], by simp [h2]⟩
    | cons w ws => simp at hk
  | succ k ih =>
    intro ws vals largs vals' largs' hk h
    -- one item, then the rest
    have step : ∀ (i : Spec.Item) (rest : List Str) (s : List Setting) (a : List Str), ws = i.words ++ rest →
        Spec.Means (t.map toO) i s a → i.words ≠ [] → parse t none rest (vals ++ s) (largs ++ a) = .ok (vals', largs') →
        ∃ is raw s a, ws = Spec.words is raw ∧ Spec.Line (t.map toO) is s a ∧ vals' = vals ++ s ∧
          largs' = largs ++ (a ++ raw.getD []) := by
      intro i rest s a hw hm hne hp
      have hl : rest.length ≤ k := by
        have := congrArg List.length hw
        rw [List.length_append] at this
        have h0 : i.words.length ≠ 0 := fun e => hne (List.length_eq_zero_iff.1 e)
        omega
      obtain ⟨is, raw, s', a', e1, e2, e3, e4⟩ := ih rest _ _ _ _ hl hp
      refine ⟨i :: is, raw, s ++ s', a ++ a', ?_, .cons hm e2, by rw [e3]; simp, by rw [e4]; simp⟩
      rw [hw, e1]
      unfold Spec.words
      simp
    cases ws with
    | nil =>
      unfold parse at h
      injection h with h
      injection h with h1 h2
      exact ⟨[], none, [], [], rfl, .nil, by simp [h1], by simp [h2]⟩
    | cons w rest =>
      by_cases hpl : Plain w
      · rw [parse_word hpl] at h
        exact step (.word w) rest [] [w] rfl (.word hpl) (by simp [Spec.Item.words]) (by rw [List.append_nil]; exact h)
      · -- the value in the next word
        have pend : ∀ (i : Str → Spec.Item) (o : Opt) (s0 : List Setting),
            (∀ v, (i v).words = [w, v]) → o ∈ t → o.takes = true →
            (∀ v, (toO o).good v → Spec.Means (t.map toO) (i v) (s0 ++ [(Spec.attr o.long, some v)]) []) →
            parse t (some o) rest (vals ++ s0) largs = .ok (vals', largs') →
            ∃ is raw s a, w :: rest = Spec.words is raw ∧ Spec.Line (t.map toO) is s a ∧ vals' = vals ++ s ∧
              largs' = largs ++ (a ++ raw.getD []) := by
          intro i o s0 hi ho ht hm hp
          cases rest with
          | nil => unfold parse at hp; cases hp
          | cons v rest =>
            unfold parse at hp
            split at hp
            · cases hp
            · rename_i vals1 hpr
              obtain ⟨hg, he⟩ := (process_sound hpr).1 ht
              refine step (i v) rest _ [] (by rw [hi]; rfl) (hm v hg) (by rw [hi]; simp) ?_
              rw [List.append_nil, ← List.append_assoc, ← he]
              exact hp
        match w, hpl with
        | [], hpl => exact absurd (Or.inr (by simp)) hpl
        | [c0], hpl =>
          have hc0 : c0 = '-' := Classical.byContradiction fun e => hpl (Or.inr (by simpa using e))
          exact absurd (Or.inl (by rw [hc0])) hpl
        | c0 :: c1 :: cs, hpl =>
          have hc0 : c0 = '-' := Classical.byContradiction fun e => hpl (Or.inr (by simpa using e))
          subst hc0
          by_cases hc1 : c1 = '-'
          · subst hc1
            cases cs with
            | nil =>
              unfold parse at h
              injection h with h
              injection h with h1 h2
              exact ⟨[], some rest, [], [], rfl, .nil, by simp [h1], by simp [h2]⟩
            | cons c cs =>
              cases hm : matchLong t (splitEq (c :: cs)).1 with
              | error e =>
                unfold parse at h
                simp only [hm] at h
                cases h
              | ok o =>
                obtain ⟨ho, hN⟩ := matchLong_sound hm
                obtain ⟨hs1, hs2⟩ := splitEq_sound (c :: cs)
                have hn0 : (splitEq (c :: cs)).1 ≠ [] := by
                  intro e
                  rw [e] at hN
                  rcases hN.2 with h1 | ⟨_, h1⟩
                  · exact hlong o ho h1.symm
                  · obtain ⟨a, ha, b, hb, hab⟩ := hmany
                    exact hab ((h1 _ (List.mem_map_of_mem ha) (List.nil_prefix)).trans
                      (h1 _ (List.mem_map_of_mem hb) (List.nil_prefix)).symm)
                rcases hs2 with ⟨e1, e2⟩ | ⟨v, e1, e2⟩
                · have e3 : splitEq (c :: cs) = (c :: cs, none) := Prod.ext e2 e1
                  rw [e2] at hm hN hs1
                  rw [parse_long_none (by simp) e3 hm] at h
                  by_cases htk : o.takes = true
                  · rw [if_pos htk] at h
                    refine pend (fun v => .longApart (c :: cs) v) o [] (fun v => rfl) ho htk ?_ (by rw [List.append_nil]; exact h)
                    intro v hg
                    exact .longApart (toO o) (by simp) hs1 hN htk hg
                  · rw [if_neg htk] at h
                    split at h
                    · cases h
                    · rename_i vals1 hpr
                      obtain ⟨hg, he⟩ := (process_sound hpr).2 (by simpa using htk)
                      refine step (.long (c :: cs)) rest _ [] rfl (.long (toO o) (by simp) hs1 hN (by simpa [toO] using htk) hg) (by simp [Spec.Item.words]) ?_
                      rw [List.append_nil]
                      show parse t none rest (vals ++ [(Spec.attr o.long, none)]) largs = _
                      rw [← he]
                      exact h
                · have e3 : splitEq (c :: cs) = ((splitEq (c :: cs)).1, some v) := Prod.ext rfl e1
                  rw [parse_long_some (by simp) e3 hm] at h
                  by_cases htk : o.takes = true
                  · rw [if_pos htk] at h
                    split at h
                    · cases h
                    · rename_i vals1 hpr
                      obtain ⟨hg, he⟩ := (process_sound hpr).1 htk
                      refine step (.longEq (splitEq (c :: cs)).1 v) rest _ [] ?_ (.longEq (toO o) hn0 hs1 hN htk hg) (by simp [Spec.Item.words]) ?_
                      · show _ = [_] ++ rest
                        rw [← e2]
                        rfl
                      · rw [List.append_nil]
                        show parse t none rest (vals ++ [(Spec.attr o.long, some v)]) largs = _
                        rw [← he]
                        exact h
                  · rw [if_neg htk] at h
                    cases h
          · rw [parse_short (by simp) (by simpa using hc1)] at h
            cases hcl : cluster t (c1 :: cs) vals with
            | error e => rw [hcl] at h; cases h
            | ok r =>
              rw [hcl] at h
              rcases cluster_sound hcl with ⟨as, hf, hr⟩ | ⟨fs, as, c, v, o, e, hf, ho, hs, htk, hr⟩
              · subst hr
                exact step (.flags (c1 :: cs)) rest _ [] rfl (.flags (by simp) (by simpa using hc1) hf) (by simp [Spec.Item.words])
                  (by rw [List.append_nil]; exact h)
              · have hh : (fs ++ [c]).head? ≠ some '-' := by
                  have : (fs ++ c :: v).head? ≠ some '-' := by rw [← e]; simpa using hc1
                  cases fs <;> simpa using this
                rcases hr with ⟨hv, hr⟩ | ⟨hv, hg, hr⟩
                · subst hr hv
                  refine pend (fun v => .apart fs c v) o (Spec.on as) (fun v => by rw [e]; rfl) ho htk ?_ h
                  intro v hg
                  exact .apart (toO o) hh hf (List.mem_map_of_mem ho) hs htk hg
                · subst hr
                  refine step (.attached fs c v) rest _ [] (by rw [e]; rfl)
                    (.attached (toO o) hh hf (List.mem_map_of_mem ho) hs htk hv hg) (by simp [Spec.Item.words]) ?_
                  rw [List.append_nil]
                  show parse t none rest (vals ++ (Spec.on as ++ [(Spec.attr o.long, some v)])) largs = _
                  rw [← List.append_assoc]
                  exact h

theorem optSteps_mem {ss : List OptStep} : ∀ {t t' : List Opt}, optSteps t ss = .ok t' →
    ∀ o ∈ t', o ∈ t ∨ .add o ∈ ss := by
  induction ss with
  | nil => intro t t' h o ho; injection h with h; exact Or.inl (h ▸ ho)
  | cons s ss ih =>
    intro t t' h o ho
    unfold optSteps at h
    split at h
    · cases h
    · rename_i t1 h1
      rcases ih h o ho with h2 | h2
      · cases s with
        | undefinedName => cases h1
        | remove l =>
          simp only [optStep] at h1
          split at h1
          · injection h1 with h1
            subst h1
            exact Or.inl (List.mem_filter.1 h2).1
          · cases h1
        | add p =>
          simp only [optStep] at h1
          split at h1
          · cases h1
          · injection h1 with h1
            subst h1
            rcases List.mem_append.1 h2 with h3 | h3
            · exact Or.inl h3
            · rw [List.mem_singleton] at h3
              exact Or.inr (by rw [h3]; exact List.mem_cons_self ..)
      · exact Or.inr (List.mem_cons_of_mem _ h2)

theorem optSteps_added {ss : List OptStep} (ha : ∀ s ∈ ss, ∃ o, s = .add o) : ∀ {t t' : List Opt},
    optSteps t ss = .ok t' → ∀ o, (o ∈ t ∨ .add o ∈ ss) → o ∈ t' := by
  induction ss with
  | nil => intro t t' h o ho; injection h with h; subst h; rcases ho with h | h; exact h; cases h
  | cons s ss ih =>
    intro t t' h o ho
    unfold optSteps at h
    split at h
    · cases h
    · rename_i t1 h1
      obtain ⟨p, rfl⟩ := ha _ (List.mem_cons_self ..)
      simp only [optStep] at h1
      split at h1
      · cases h1
      · injection h1 with h1
        subst h1
        refine ih (fun s hs => ha s (List.mem_cons_of_mem _ hs)) h o ?_
        rcases ho with ho | ho
        · exact Or.inl (List.mem_append_left _ ho)
        · rcases List.mem_cons.1 ho with ho | ho
          · injection ho with ho
            exact Or.inl (by rw [ho]; simp)
          · exact Or.inr ho

theorem mkParser_table {c : Cls} {t : List Opt} (h : mkParser c = .ok t) (hc : ∀ o, .add o ∈ c.opts → o.long ≠ []) :
    (∀ o ∈ t, o.long ≠ []) ∧ ∃ o ∈ t, ∃ p ∈ t, o.long ≠ p.long := by
  unfold mkParser at h
  split at h
  · cases h
  · rename_i t0 h0
    split at h
    · cases h
    · rename_i t1 h1
      constructor
      · intro o ho
        rcases optSteps_mem h o ho with h2 | h2
        · rcases optSteps_mem h1 o h2 with h3 | h3
          · rcases optSteps_mem h0 o h3 with h4 | h4
            · cases h4
            · simp only [parserOpts, List.mem_cons, OptStep.add.injEq, List.not_mem_nil, or_false] at h4
              rcases h4 with rfl | rfl <;> simp
          · exact hc o h3
        · simp only [commonOpts, List.mem_cons, OptStep.add.injEq, List.not_mem_nil, or_false] at h2
          rcases h2 with rfl | rfl | rfl | rfl | rfl | rfl | rfl | rfl <;> simp
      · have hadd : ∀ s ∈ commonOpts, ∃ o, s = .add o := by
          intro s hs
          simp only [commonOpts, List.mem_cons, List.not_mem_nil, or_false] at hs
          rcases hs with rfl | rfl | rfl | rfl | rfl | rfl | rfl | rfl <;> exact ⟨_, rfl⟩
        exact ⟨_, optSteps_added hadd h _ (Or.inr (List.mem_cons_self ..)), _,
          optSteps_added hadd h _ (Or.inr (List.mem_cons_of_mem _ (List.mem_cons_self ..))), by decide⟩

/-- The first word that is neither an option nor after "--". -/
theorem preParse_first {argv : List Str} {n : Str} {ns : List Str} (h : (preParse argv).2 = n :: ns) :
    ∃ pre post, argv = pre ++ n :: post ∧ Plain n ∧ ∀ w ∈ pre, ¬ Plain w ∧ w ≠ ['-', '-'] := by
  induction argv with
  | nil => cases h
  | cons w rest ih =>
    by_cases hp : Plain w
    · rw [preParse_plain hp] at h
      injection h with h1 h2
      exact ⟨[], rest, by rw [h1]; rfl, h1 ▸ hp, by intro w hw; cases hw⟩
    · have hd : w ≠ ['-', '-'] := by
        rintro rfl
        cases h
      have h' : (preParse rest).2 = n :: ns := by
        match w, hp, hd with
        | [], hp, _ => exact absurd (Or.inr (by simp)) hp
        | [c0], hp, _ =>
          have hc0 : c0 = '-' := Classical.byContradiction fun e => hp (Or.inr (by simpa using e))
          exact absurd (Or.inl (by rw [hc0])) hp
        | c0 :: c1 :: cs, hp, hd =>
          have hc0 : c0 = '-' := Classical.byContradiction fun e => hp (Or.inr (by simpa using e))
          subst hc0
          by_cases hc1 : c1 = '-'
          · subst hc1
            rw [preParse_long (fun e => hd (by rw [e]))] at h
            exact h
          · rw [preParse_short (by simp) (by simpa using hc1)] at h
            exact h
      obtain ⟨pre, post, e1, e2, e3⟩ := ih h'
      refine ⟨w :: pre, post, by rw [e1]; rfl, e2, ?_⟩
      intro x hx
      rcases List.mem_cons.1 hx with rfl | hx
      · exact ⟨hp, hd⟩
      · exact e3 x hx

/-- C124, the converse, without hypotheses on the line: if a command is run, the line consists of items that are good for
its options, it is run with exactly the settings they mean and with the arguments but the first, and the command is the
one named by the first word that does not begin with a dash and is not after "--". -/
theorem command_line_sound {d : List (Str × Cls)} (hd : ∀ e ∈ d, ∀ o, .add o ∈ e.2.opts → o.long ≠ [])
    {argv : List Str} {c : Cls} {ss : List Setting} {args : List Str} (h : pisi d argv = .run c ss args) :
    (∃ t is raw as, mkParser c = .ok t ∧ argv = Spec.words is raw ∧ Spec.Line (t.map toO) is ss as ∧
      args = (as ++ raw.getD []).tail) ∧
    ∃ pre n post, argv = pre ++ n :: post ∧ Plain n ∧ (∀ w ∈ pre, ¬ Plain w ∧ w ≠ ['-', '-']) ∧ getCmd d n = some c := by
  cases hp : (preParse argv).2 with
  | nil =>
    unfold pisi at h
    generalize preParse argv = r at h hp
    obtain ⟨a, b⟩ := r
    dsimp only at hp
    subst hp
    dsimp only at h
    split at h
    · cases h
    · split at h <;> cases h
  | cons n ns =>
    rw [pisi_of_preParse hp] at h
    obtain ⟨pre, post, e1, e2, e3⟩ := preParse_first hp
    split at h
    · cases h
    · rename_i c' hg
      unfold initCmd at h
      split at h
      · cases h
      · rename_i t ht
        split at h
        · cases h
        · rename_i vals args' hparse
          injection h with h1 h2 h3
          subst h1 h2 h3
          have hc : ∀ o, .add o ∈ c'.opts → o.long ≠ [] := by
            unfold getCmd at hg
            cases hf : d.find? (fun e => e.1 == n) with
            | none => rw [hf] at hg; cases hg
            | some e =>
              rw [hf] at hg
              injection hg with hg
              rw [← hg]
              exact hd e (List.mem_of_find?_eq_some hf)
          obtain ⟨ht1, ht2⟩ := mkParser_table ht hc
          obtain ⟨is, raw, s, a, f1, f2, f3, f4⟩ := parse_sound ht1 ht2 argv.length argv [] [] _ _ (Nat.le_refl _) hparse
          rw [List.nil_append] at f3 f4
          subst f3 f4
          exact ⟨⟨t, is, raw, a, ht, f1, f2, rfl⟩, pre, n, post, e1, e2, e3, hg⟩

/-- The commands of pisi satisfy the hypothesis, and a command is run. -/
example : (∀ e ∈ registry, ∀ o, .add o ∈ e.2.opts → o.long ≠ []) ∧
    pisi registry [['r', 'm'], ['f', 'o', 'o']] = .run cRemove [] [['f', 'o', 'o']] := by
  refine ⟨?_, by decide +kernel⟩
  have h : registry.all (fun e => e.2.opts.all (fun s => match s with
    | .add o => !o.long.isEmpty
    | _ => true)) = true := by decide +kernel
  intro e he o ho
  have := List.all_eq_true.1 (List.all_eq_true.1 h e he) _ ho
  simpa using this

/-- C124: without any word but options, the version is printed if it is asked for, and otherwise the help if that is. -/
theorem only_options (d : List (Str × Cls)) (argv : List Str) (h : ∀ w ∈ argv, ¬ Plain w ∧ w ≠ ['-', '-']) :
    (['-', '-', 'v', 'e', 'r', 's', 'i', 'o', 'n'] ∈ argv → pisi d argv = .printedVersion) ∧
    (argv = [['-', '-', 'h', 'e', 'l', 'p']] ∨ argv = [['-', 'h']] → pisi d argv = .printedUsage) ∧
    (argv = [] → pisi d argv = .noCommand) := by
  refine ⟨?_, ?_, ?_⟩
  · intro hv
    have key : ∀ argv : List Str, (∀ w ∈ argv, ¬ Plain w ∧ w ≠ ['-', '-']) → (preParse argv).2 = [] ∧
        (['-', '-', 'v', 'e', 'r', 's', 'i', 'o', 'n'] ∈ argv → ['v', 'e', 'r', 's', 'i', 'o', 'n'] ∈ (preParse argv).1) := by
      intro argv
      induction argv with
      | nil => intro _; exact ⟨rfl, fun h => by cases h⟩
      | cons w rest ih =>
        intro h
        obtain ⟨i1, i2⟩ := ih (fun x hx => h x (List.mem_cons_of_mem _ hx))
        obtain ⟨hp, hd⟩ := h w (List.mem_cons_self ..)
        match w, hp, hd with
        | [], hp, _ => exact absurd (Or.inr (by simp)) hp
        | [c0], hp, _ =>
          have hc0 : c0 = '-' := Classical.byContradiction fun e => hp (Or.inr (by simpa using e))
          exact absurd (Or.inl (by rw [hc0])) hp
        | c0 :: c1 :: cs, hp, hd =>
          have hc0 : c0 = '-' := Classical.byContradiction fun e => hp (Or.inr (by simpa using e))
          subst hc0
          by_cases hc1 : c1 = '-'
          · subst hc1
            refine ⟨by rw [preParse_long (fun e => hd (by rw [e]))]; exact i1, ?_⟩
            cases cs with
            | nil => exact absurd rfl hd
            | cons c cs =>
              intro hm
              show _ ∈ (c :: cs) :: (preParse rest).1
              rcases List.mem_cons.1 hm with hm | hm
              · injection hm with _ hm
                injection hm with _ hm
                rw [hm]
                exact List.mem_cons_self ..
              · exact List.mem_cons_of_mem _ (i2 hm)
          · refine ⟨by rw [preParse_short (by simp) (by simpa using hc1)]; exact i1, ?_⟩
            intro hm
            rcases List.mem_cons.1 hm with hm | hm
            · injection hm with _ hm
              injection hm with hm _
              exact absurd hm.symm hc1
            · have e : (preParse (('-' :: c1 :: cs) :: rest)).1 = (c1 :: cs) :: (preParse rest).1 := by
                conv => lhs; unfold preParse
                split
                · rename_i heq
                  injection heq with _ heq
                  injection heq with heq
                  exact absurd heq hc1
                · rename_i heq
                  injection heq with _ heq
                  injection heq with heq
                  exact absurd heq hc1
                · rename_i heq
                  injection heq with _ heq
                  injection heq with e1 e2
                  rw [e1, e2]
                · rename_i h3
                  exact absurd rfl (h3 c1 cs)
              rw [e]
              exact List.mem_cons_of_mem _ (i2 hm)
    obtain ⟨k1, k2⟩ := key argv h
    unfold pisi
    generalize preParse argv = r at k1 k2
    obtain ⟨a, b⟩ := r
    dsimp only at k1 k2
    subst k1
    dsimp only
    rw [if_pos (by simpa using k2 hv)]
  · rintro (rfl | rfl) <;> rfl
  · rintro rfl
    rfl

example : pisi registry [['-', '-', 'v', 'e', 'r', 's', 'i', 'o', 'n'], ['-', 'x']] = .printedVersion :=
  (only_options _ _ (by
    intro w hw
    simp only [List.mem_cons, List.not_mem_nil, or_false] at hw
    rcases hw with rfl | rfl <;> exact ⟨by unfold Plain; decide, by decide⟩)).1 (by simp)

theorem load_append (a b : List Load) : ∀ m, load m (a ++ b) = (load m a).bind (fun m' => load m' b) := by
  induction a with
  | nil => intro m; rfl
  | cons x a ih =>
    intro m
    cases x with
    | usageText => exact ih _
    | define c =>
      rw [List.cons_append]
      simp only [load]
      cases register m.dict c with
      | none => rfl
      | some d => exact ih _

/-- C127: the text has what was registered before the module command was read to its end; had it been read after the
commands, it would list each of them once, in alphabetical order. -/
theorem usage_of_order {before after : List Cls} {m : Mods}
    (h : load {} (before.map .define ++ .usageText :: after.map .define) = some m) :
    m.usage.Perm (before.map (fun c => (c.long, c.short))) ∧ m.usage.Pairwise (fun a b => strLe a.1 b.1 = true) := by
  rw [load_append] at h
  cases h1 : load {} (before.map .define) with
  | none => rw [h1] at h; cases h
  | some m1 =>
    rw [h1] at h
    obtain ⟨_, e2, e3⟩ := load_defines h1
    have h2 : load { m1 with usage := commandsString m1.cmds m1.dict } (after.map .define) = some m := h
    obtain ⟨f1, _, _⟩ := load_defines h2
    dsimp only at f1
    rw [f1, e2]
    exact commands_string_partial e3

example : (load {} (allCmds.map .define ++ .usageText :: ([] : List Cls).map .define)).isSome = true := by decide +kernel

end Pisi.Cli
