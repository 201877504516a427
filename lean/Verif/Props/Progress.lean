import Verif.Spec.Progress

/-!
# C215: the progress of downloads
-/
namespace Pisi.Progress

/-! ## Local files -/

theorem told_le {total size : Nat} (h : size ≤ total) : told total size ≤ 100 := by
  unfold told
  split
  · exact Nat.le_refl _
  · exact Nat.div_le_of_le_mul (by rw [Nat.mul_comm total]; rw [Nat.mul_comm]; exact Nat.mul_le_mul_left _ h)

theorem told_mono {total a b : Nat} (h : a ≤ b) : told total a ≤ told total b := by
  unfold told
  split
  · exact Nat.le_refl _
  · exact Nat.div_le_div_right (Nat.mul_le_mul_right _ h)

theorem told_eq {total size : Nat} (h0 : total ≠ 0) (h : size ≤ total) : told total size = 100 ↔ size = total := by
  unfold told
  rw [if_neg h0]
  constructor
  · intro e
    have := Nat.div_mul_le_self (size * 100) total
    rw [e] at this
    omega
  · rintro rfl
    rw [Nat.mul_comm, Nat.mul_div_cancel _ (by omega)]

/-- What is known of a copy in progress: nothing is lost, and 100 was shown exactly if there is nothing more to read. -/
structure Copying (text : Str) (c : Copy) : Prop where
  whole : c.written ++ c.chunk ++ c.left = text
  chunk : c.chunk = [] → c.left = []
  complete : c.complete = true → c.left = []

theorem take_nil {l : Str} (h : l.take 1024 = []) : l = [] := by
  cases l with
  | nil => rfl
  | cons a l => simp at h

/-- After 100 nothing is shown. -/
theorem loop_after (text : Str) (start : Int) (times : Nat → Int × Int) : ∀ (n : Nat) (c : Copy), Copying text c → c.complete = true →
    c.chunk.length + c.left.length < n → ∀ r, loop text.length start times n c = some r → r = (text, [])
  | 0, c, _, _, hn, _, _ => by omega
  | n + 1, c, hc, hd, hn, r, h => by
    have hl := hc.complete hd
    unfold loop at h
    by_cases e : c.chunk = []
    · rw [if_pos e] at h
      cases h
      have := hc.whole
      rw [e, hl] at this
      simp only [List.append_nil] at this
      rw [this]
    · rw [if_neg e] at h
      cases ht : turn text.length start (times n).1 (times n).2 c with
      | none => rw [ht] at h; cases h
      | some p =>
        obtain ⟨d, x⟩ := p
        rw [ht] at h
        have hx : x = none ∧ Copying text d ∧ d.complete = true ∧ d.chunk = [] ∧ d.left = [] := by
          have hw : c.written ++ c.chunk = text := by have := hc.whole; rw [hl] at this; simpa using this
          unfold turn at ht
          simp only [hl, List.take_nil, List.drop_nil] at ht
          split at ht
          · cases ht
          · have key : ∀ q : Int, Copying text ⟨c.written ++ c.chunk, [], [], c.complete, q⟩ := fun q =>
              ⟨by simp [hw], fun _ => rfl, fun _ => rfl⟩
            split at ht <;> cases ht <;> exact ⟨rfl, key _, hd, rfl, rfl⟩
        obtain ⟨rfl, hcd, hdd, h1, h2⟩ := hx
        simp only at h
        cases hm : loop text.length start times n d with
        | none => rw [hm] at h; cases h
        | some r' =>
          have := loop_after text start times n d hcd hdd (by
            rw [h1, h2]
            have : 0 < c.chunk.length := List.length_pos_iff.mpr e
            simp only [List.length_nil]
            omega) r' hm
          rw [hm, this] at h
          cases h
          rfl

/-- The per cents of a copy that goes on: at least that of what is read. -/
theorem loop_good (text : Str) (h0 : text ≠ []) (start : Int) (times : Nat → Int × Int) : ∀ (n : Nat) (c : Copy), Copying text c →
    c.complete = false → c.chunk ≠ [] → c.chunk.length + c.left.length < n → ∀ w l, loop text.length start times n c = some (w, l) →
    w = text ∧ Good l ∧ ∀ x ∈ l, told text.length (c.written.length + c.chunk.length) ≤ x
  | 0, c, _, _, _, hn, _, _, _ => by omega
  | n + 1, c, hc, hd, he, hn, w, l, h => by
    have hpos : text.length ≠ 0 := fun e => h0 (List.length_eq_zero_iff.mp e)
    have hlen : c.written.length + c.chunk.length + c.left.length = text.length := by
      rw [← hc.whole]; simp [Nat.add_assoc]
    have hch : 0 < c.chunk.length := List.length_pos_iff.mpr he
    unfold loop at h
    rw [if_neg he] at h
    cases ht : turn text.length start (times n).1 (times n).2 c with
    | none => rw [ht] at h; cases h
    | some p =>
      obtain ⟨d, x⟩ := p
      rw [ht] at h
      have hw : c.written ++ c.chunk ++ (c.left.take 1024 ++ c.left.drop 1024) = text := by rw [List.take_append_drop]; exact hc.whole
      let S := (c.written ++ c.chunk).length + (c.left.take 1024).length
      have hS : S + (c.left.drop 1024).length = text.length := by
        rw [← hw]; simp only [S, List.length_append]; omega
      have hStold := told_mono (total := text.length) (a := c.written.length + c.chunk.length) (b := S) (by simp only [S, List.length_append]; omega)
      have hd' : ∃ q, d = ⟨c.written ++ c.chunk, c.left.take 1024, c.left.drop 1024, decide (told text.length S = 100), q⟩ ∧
          x = if told text.length S ≠ 0 then some (told text.length S) else none := by
        unfold turn at ht
        simp only [hd] at ht
        split at ht
        · cases ht
        · by_cases hz : told text.length S = 0
          · have h100 : ¬ told text.length S = 100 := by omega
            simp only [S] at hz h100 ⊢
            rw [if_neg (fun h => h hz)] at ht
            cases ht
            exact ⟨_, by rw [decide_eq_false h100], by rw [if_neg (fun h => h hz)]⟩
          · simp only [S] at hz ⊢
            rw [if_pos hz, if_neg (by simp)] at ht
            cases ht
            exact ⟨_, rfl, by rw [if_pos hz]⟩
      obtain ⟨q, rfl, hx⟩ := hd'
      simp only at h
      cases hm : loop text.length start times n ⟨c.written ++ c.chunk, c.left.take 1024, c.left.drop 1024, decide (told text.length S = 100), q⟩ with
      | none => rw [hm] at h; cases h
      | some r =>
        obtain ⟨w', l'⟩ := r
        rw [hm] at h
        simp only [Option.map_some, Option.some.injEq, Prod.mk.injEq] at h
        obtain ⟨rfl, rfl⟩ := h
        have hdec : (c.left.take 1024).length + (c.left.drop 1024).length < n := by
          have := congrArg List.length (List.take_append_drop 1024 c.left)
          rw [List.length_append] at this
          omega
        by_cases h100 : told text.length S = 100
        · have hST := (told_eq hpos (by omega)).mp h100
          have hdrop : c.left.drop 1024 = [] := List.length_eq_zero_iff.mp (by omega)
          have := loop_after text start times n ⟨c.written ++ c.chunk, c.left.take 1024, c.left.drop 1024, decide (told text.length S = 100), q⟩
            ⟨by simpa [List.append_assoc] using hw, fun _ => hdrop, fun _ => hdrop⟩ (by simp [h100]) hdec _ hm
          cases this
          rw [hx, h100]
          refine ⟨rfl, ⟨by simp, by simp, by simp, by simp⟩, ?_⟩
          rw [h100] at hStold
          simpa using hStold
        · have hdrop : c.left.drop 1024 ≠ [] := fun e => h100 ((told_eq hpos (by omega)).mpr (by rw [e] at hS; simpa using hS))
          obtain ⟨h1, h2, h3⟩ := loop_good text h0 start times n ⟨c.written ++ c.chunk, c.left.take 1024, c.left.drop 1024, decide (told text.length S = 100), q⟩
            ⟨by simpa [List.append_assoc] using hw, fun e => absurd (by rw [take_nil e]; rfl) hdrop, fun e => by simp [h100] at e⟩ (by simp [h100])
            (fun e => hdrop (by rw [take_nil e]; rfl)) hdec w' l' hm
          refine ⟨h1, ?_, ?_⟩
          · rw [hx]
            by_cases hz : told text.length S = 0
            · simpa [hz] using h2
            · have hne : l' ≠ [] := fun e => by have := h2.last; rw [e] at this; cases this
              rw [if_pos hz]
              show Good (told text.length S :: l')
              refine ⟨List.pairwise_cons.mpr ⟨fun y hy => h3 y hy, h2.grow⟩, ?_, ?_, ?_⟩
              · intro y hy
                rcases List.mem_cons.mp hy with rfl | hy
                · omega
                · exact h2.pos y hy
              · rw [List.getLast?_cons, h2.last]; rfl
              · rw [List.dropLast_cons_of_ne_nil hne]
                intro hy
                rcases List.mem_cons.mp hy with e | hy
                · exact h100 e.symm
                · exact h2.once hy
          · intro y hy
            rcases List.mem_append.mp hy with hy | hy
            · rw [hx] at hy
              by_cases hz : told text.length S = 0
              · simp [hz] at hy
              · rw [if_pos hz] at hy
                simp only [Option.toList, List.mem_singleton] at hy
                rw [hy]; exact hStold
            · exact Nat.le_trans hStold (h3 y hy)

theorem loop_runs (total : Nat) (start : Int) (times : Nat → Int × Int) (ht : ∀ n, (times n).1 ≠ start) : ∀ (n : Nat) (c : Copy),
    ∃ r, loop total start times n c = some r
  | 0, _ => ⟨_, rfl⟩
  | n + 1, c => by
    unfold loop
    by_cases e : c.chunk = []
    · rw [if_pos e]; exact ⟨_, rfl⟩
    · rw [if_neg e]
      have : ∃ p, turn total start (times n).1 (times n).2 c = some p := by
        unfold turn
        simp only
        rw [if_neg (fun h => ht n h.2)]
        split
        · split <;> exact ⟨_, rfl⟩
        · exact ⟨_, rfl⟩
      obtain ⟨⟨d, x⟩, hp⟩ := this
      obtain ⟨r, hr⟩ := loop_runs total start times ht n d
      rw [hp]
      simp only [hr]
      exact ⟨_, rfl⟩

/-- Whenever the copy of a local file succeeds it is a copy, and the per cents shown are good. -/
theorem local_good (text : Str) (start second : Int) (times : Nat → Int × Int) (h0 : text ≠ []) (w : Str) (l : List Nat)
    (h : grab text start second times = some (w, l)) : w = text ∧ Good l := by
  have hlen := congrArg List.length (List.take_append_drop 1024 text)
  rw [List.length_append] at hlen
  obtain ⟨h1, h2, _⟩ := loop_good text h0 start times (text.length + 1) ⟨[], text.take 1024, text.drop 1024, false, second⟩
    ⟨by simp, fun e => by simp only at e ⊢; rw [take_nil e]; rfl, fun e => by cases e⟩ rfl (fun e => h0 (take_nil e)) (by simp only; omega) w l h
  exact ⟨h1, h2⟩

/-- **C215.**  The copy of a local file: every per cent shown is at least the one before, and 100 is the last, with `[complete]`.  What is
missing for the full statement, which is false of the code: a turn of the loop in the very moment of the start. -/
theorem local_partial (text : Str) (start second : Int) (times : Nat → Int × Int) (h0 : text ≠ []) (ht : ∀ n, (times n).1 ≠ start) :
    ∃ l, grab text start second times = some (text, l) ∧ Good l := by
  obtain ⟨⟨w, l⟩, h⟩ := loop_runs text.length start times ht (text.length + 1) ⟨[], text.take 1024, text.drop 1024, false, second⟩
  obtain ⟨rfl, hg⟩ := local_good text start second times h0 w l h
  exact ⟨l, h, hg⟩

example : ∃ l, grab (List.replicate 3000 'x') 5 0 (fun n => (6 + n, 7)) = some (List.replicate 3000 'x', l) ∧ Good l :=
  local_partial _ _ _ _ (fun e => absurd (congrArg List.length e) (by rw [List.length_replicate]; decide)) fun n => by simp only; omega

/-- **Full statement for local files is false of the code**: the division by the time passed fails. -/
theorem local_refuted : ¬ LocalFull := by
  intro h
  obtain ⟨l, hl, _⟩ := h ['x'] 1000 999 (fun _ => (1000, 1000)) (by simp)
  have : grab ['x'] 1000 999 (fun _ => (1000, 1000)) = none := by decide
  rw [this] at hl
  cases hl

/-! ## Downloads -/

theorem full_iff {total size : Nat} : full total size = true ↔ total ≠ 0 ∧ size = total := by
  simp only [full, decide_eq_true_eq]
  constructor
  · rintro ⟨h1, h2⟩; exact ⟨h1, by omega⟩
  · rintro ⟨h1, rfl⟩; exact ⟨h1, rfl⟩

/-- What an update shows: a line for every other size, unless no time has passed since the start; it says the size, and `[complete]`
follows exactly if the size is the announced one. -/
theorem update_line (h : Handler) (size : Nat) (r : Reads) (hs : h.size ≠ size) (ht : r.rate ≠ h.start) :
    ∃ x h', h.update size r = (h', some x) ∧ h'.size = size ∧ h'.total = h.total ∧ h'.exist = h.exist ∧ h'.start = h.start ∧
      x.size = size ∧ x.percent = percent h.total size ∧ x.total = (if h.total ≠ 0 then h.total else size) ∧
      (x.complete = true ↔ h.total ≠ 0 ∧ size = h.total) := by
  unfold Handler.update
  rw [if_neg hs]
  simp only
  split
  · rw [if_neg (by omega)]
    by_cases h0 : h.total ≠ 0
    · simp only [if_pos h0]
      exact ⟨_, _, rfl, rfl, rfl, rfl, rfl, rfl, rfl, if_pos h0, full_iff⟩
    · simp only [if_neg h0]
      exact ⟨_, _, rfl, rfl, rfl, rfl, rfl, rfl, rfl, if_neg h0, full_iff⟩
  · exact ⟨_, _, rfl, rfl, rfl, rfl, rfl, rfl, rfl, rfl, full_iff⟩

/-- No line: nothing new, or no time has passed since the start. -/
theorem update_none (h : Handler) (size : Nat) (r : Reads) (hn : (h.update size r).2 = none) : h.size = size ∨ r.rate = h.start := by
  by_cases hs : h.size = size
  · exact .inl hs
  · by_cases ht : r.rate = h.start
    · exact .inr ht
    · obtain ⟨x, h', e, _⟩ := update_line h size r hs ht
      rw [e] at hn
      cases hn

theorem updates_lines (n : Nat) : ∀ (l : List (Nat × Reads)) (h : Handler), h.total = n → (∀ x ∈ l, h.size < x.1) → (l.map Prod.fst).Pairwise (· < ·) →
    (∀ x ∈ l, x.2.rate ≠ h.start) →
    (h.updates l).map (fun x => (x.size, x.percent, x.total, x.complete)) =
      l.map fun x => (x.1, percent n x.1, (if n ≠ 0 then n else x.1), decide (n ≠ 0 ∧ x.1 = n))
  | [], _, _, _, _, _ => rfl
  | (s, r) :: l, h, hn, hs, hp, ht => by
    obtain ⟨x, h', e, e1, e2, e3, e4, e5, e6, e7, e8⟩ := update_line h s r (Nat.ne_of_lt (hs (s, r) (by simp))) (ht (s, r) (by simp))
    rw [List.map_cons, List.pairwise_cons] at hp
    unfold Handler.updates
    rw [e]
    simp only [List.map_cons]
    rw [updates_lines n l h' (e2.trans hn) (fun y hy => by rw [e1]; exact hp.1 y.1 (List.mem_map_of_mem hy)) hp.2
      (fun y hy => by rw [e4]; exact ht y (by simp [hy])), e5, e6, e7, hn]
    congr 1
    simp only [Prod.mk.injEq, true_and]
    rw [hn] at e8
    cases hc : x.complete with
    | true => exact (decide_eq_true (e8.mp hc)).symm
    | false =>
      refine (decide_eq_false fun h => ?_).symm
      rw [e8.mpr h] at hc
      cases hc

/-- **C215.**  Downloads whose size the server tells: one line for every size, with growing per cents, and the last and no other is complete.
What is missing for the full statement, which is false of the code: servers that do not tell the size, and parts that arrive in the very
moment of the start. -/
theorem remote_partial (n exist : Nat) (start : Int) (l : List (Nat × Reads)) (hs : Sizes n l) (ht : ∀ x ∈ l, x.2.rate ≠ start) :
    GoodLines ((begin (some n) exist start).updates l) ∧ ((begin (some n) exist start).updates l).map Line.size = l.map Prod.fst ∧
      ∀ x ∈ (begin (some n) exist start).updates l, x.total = n ∧ x.percent ≤ 100 := by
  have key := updates_lines n l (begin (some n) exist start) rfl (fun x hx => hs.pos x hx) hs.grow ht
  generalize (begin (some n) exist start).updates l = L at key ⊢
  have hne : l ≠ [] := fun e => by have := hs.last; rw [e] at this; cases this
  obtain ⟨l0, a, rfl⟩ : ∃ l0 a, l = l0 ++ [a] := by
    rcases List.eq_nil_or_concat l with e | ⟨b, c, e⟩
    · exact absurd e hne
    · exact ⟨b, c, by rw [e, List.concat_eq_append]⟩
  have ha : a.1 = n := by
    have := hs.last
    simpa using this
  have hn0 : n ≠ 0 := fun e => by have := hs.pos a (by simp); omega
  have hlt : ∀ x ∈ l0, x.1 < n := by
    have := hs.grow
    rw [List.map_append, List.pairwise_append] at this
    intro x hx
    rw [← ha]
    exact this.2.2 x.1 (List.mem_map_of_mem hx) a.1 (by simp)
  have hle : ∀ x ∈ l0 ++ [a], x.1 ≤ n := by
    intro x hx
    rcases List.mem_append.mp hx with hx | hx
    · exact Nat.le_of_lt (hlt x hx)
    · rw [List.mem_singleton.mp hx, ha]; exact Nat.le_refl _
  have mono : ∀ {x y : Nat}, x ≤ y → percent n x ≤ percent n y := fun h => by
    unfold percent
    rw [if_pos hn0, if_pos hn0]
    exact Nat.div_le_div_right (Nat.mul_le_mul_right _ h)
  obtain ⟨L0, z, rfl⟩ : ∃ L0 z, L = L0 ++ [z] := by
    rcases List.eq_nil_or_concat L with e | ⟨b, c, e⟩
    · rw [e] at key; simp at key
    · exact ⟨b, c, by rw [e, List.concat_eq_append]⟩
  rw [List.map_append, List.map_append] at key
  obtain ⟨k0, k1⟩ := List.append_inj' key (by simp)
  simp only [List.map_cons, List.map_nil, List.cons.injEq, Prod.mk.injEq, and_true] at k1
  refine ⟨⟨?_, ?_, ?_⟩, ?_, ?_⟩
  · have e : (L0 ++ [z]).map Line.percent = (l0 ++ [a]).map (fun x => percent n x.1) := by
      have := congrArg (List.map (fun x : Nat × Nat × Nat × Bool => x.2.1)) key
      rw [← List.map_append, ← List.map_append, List.map_map, List.map_map] at this
      exact this
    rw [e, List.pairwise_map]
    have := hs.grow
    rw [List.pairwise_map] at this
    exact this.imp fun h => mono (Nat.le_of_lt h)
  · rw [List.getLast?_append]
    simp [k1.2.2.2, ha, hn0]
  · rw [List.dropLast_concat]
    intro x hx
    have : (x.size, x.percent, x.total, x.complete) ∈ L0.map (fun x => (x.size, x.percent, x.total, x.complete)) := List.mem_map_of_mem hx
    rw [k0] at this
    obtain ⟨y, hy, e⟩ := List.mem_map.mp this
    simp only [Prod.mk.injEq] at e
    rw [← e.2.2.2]
    exact decide_eq_false fun h => by have := hlt y hy; omega
  · have := congrArg (List.map (fun x : Nat × Nat × Nat × Bool => x.1)) key
    rw [← List.map_append, ← List.map_append, List.map_map, List.map_map] at this
    exact this
  · intro x hx
    have hmem : (x.size, x.percent, x.total, x.complete) ∈ (L0 ++ [z]).map (fun x => (x.size, x.percent, x.total, x.complete)) := List.mem_map_of_mem hx
    rw [List.map_append, key, ← List.map_append] at hmem
    obtain ⟨y, hy, e⟩ := List.mem_map.mp hmem
    simp only [Prod.mk.injEq, if_pos hn0] at e
    refine ⟨e.2.2.1.symm, ?_⟩
    rw [← e.2.1]
    refine Nat.le_trans (mono (hle y hy)) ?_
    unfold percent
    rw [if_pos hn0, Nat.mul_comm, Nat.mul_div_cancel _ (by omega)]
    exact Nat.le_refl _

/-- The hypotheses can be met. -/
example : GoodLines ((begin (some 20) 4 1000).updates [(10, ⟨2000, 2001, 2002, 2003⟩), (20, ⟨2500, 2501, 2502, 2503⟩)]) :=
  (remote_partial 20 4 1000 _ ⟨by decide, by decide, by decide⟩ (by decide)).1

/-- Without a size `[complete]` is never shown, and the per cent is 0. -/
theorem remote_unknown (exist : Nat) (start : Int) (l : List (Nat × Reads)) :
    ∀ x ∈ (begin none exist start).updates l, x.complete = false ∧ x.percent = 0 ∧ x.eta = none := by
  have key : ∀ (l : List (Nat × Reads)) (h : Handler), h.total = 0 → h.eta = none → ∀ x ∈ h.updates l, x.complete = false ∧ x.percent = 0 ∧ x.eta = none := by
    intro l
    induction l with
    | nil => intro h _ _ x hx; cases hx
    | cons a l ih =>
      intro h h0 he x hx
      obtain ⟨s, r⟩ := a
      have hu : (h.update s r).1.total = 0 ∧ (h.update s r).1.eta = none ∧
          ∀ y, (h.update s r).2 = some y → y.complete = false ∧ y.percent = 0 ∧ y.eta = none := by
        unfold Handler.update
        split
        · exact ⟨h0, he, fun y hy => by cases hy⟩
        · simp only [h0, ne_eq, not_true_eq_false, if_false]
          split
          · split
            · exact ⟨rfl, he, fun y hy => by cases hy⟩
            · refine ⟨rfl, he, fun y hy => ?_⟩
              cases hy
              simp [Handler.line, he, full, percent]
          · refine ⟨rfl, he, fun y hy => ?_⟩
            cases hy
            simp [Handler.line, he, full, percent]
      unfold Handler.updates at hx
      obtain ⟨h1, h2, h3⟩ := hu
      generalize h.update s r = p at hx h1 h2 h3
      obtain ⟨h', o⟩ := p
      cases o with
      | none => exact ih h' h1 h2 x hx
      | some y =>
        rcases List.mem_cons.mp hx with rfl | hx
        · exact h3 _ rfl
        · exact ih h' h1 h2 x hx
  exact key l _ rfl rfl

/-- **Full statement for downloads is false of the code**: the server does not tell the size. -/
theorem remote_refuted : ¬ RemoteFull := by
  intro h
  have := (h 5 0 none 1000 [(5, ⟨2000, 2001, 2002, 2003⟩)] (.inl rfl) ⟨by decide, by decide, by decide⟩).last
  revert this
  decide

/-! ## The remaining time -/

theorem clockOf_nat (ms : Nat) : clockOf ms = (((ms / 1000 % 86400 / 3600 : Nat) : Int), ((ms / 1000 % 3600 / 60 : Nat) : Int), ((ms / 1000 % 60 : Nat) : Int)) := by
  have : (ms : Int).tdiv 1000 = ((ms / 1000 : Nat) : Int) := by
    rw [Int.tdiv_eq_ediv_of_nonneg (by omega)]; rfl
  unfold clockOf
  simp only [this]
  rfl

/-- The remaining time that is shown. -/
theorem eta_shown (total exist size t : Nat) (start : Int) (r : Reads) (h1 : 0 < size) (h2 : size ≤ total) (hs : r.second.tdiv 1000 ≠ 0)
    (hr : r.rate ≠ start) (hd : r.diff = start + t) :
    ((begin (some total) exist start).update size r).2.bind Line.eta = some (clockOf ((t * (total - size) / size : Nat))) := by
  have h0 : total ≠ 0 := by omega
  have e : ((r.diff - start) * ((total : Int) - size)).tdiv size = ((t * (total - size) / size : Nat) : Int) := by
    rw [hd]
    have e1 : start + (t : Int) - start = t := by omega
    have e2 : (total : Int) - size = ((total - size : Nat) : Int) := by omega
    rw [e1, e2, ← Int.natCast_mul, Int.tdiv_eq_ediv_of_nonneg (by omega)]
    rfl
  unfold Handler.update begin
  simp only [Option.getD_some]
  rw [if_neg (by omega), if_pos ⟨by simpa using hs, h1⟩, if_neg (by omega), if_pos h0]
  simp only [Option.bind_some, Handler.line]
  rw [e]

/-- **C215.**  At a constant speed the remaining time shown for a download from the beginning is right, if it is less than a day.  What is
missing for the full statement, which is false of the code: downloads that are taken up again, and longer times. -/
theorem remaining_partial (total size t : Nat) (start : Int) (r : Reads) (h1 : 0 < size) (h2 : size ≤ total)
    (hs : r.second.tdiv 1000 ≠ 0) (hr : r.rate ≠ start) (hd : r.diff = start + t) (hday : t * (total - size) / size < 86400000) :
    ∃ x, ((begin (some total) 0 start).update size r).2.bind Line.eta = some x ∧ Shows (t * (total - size) / (size - 0)) x := by
  refine ⟨_, eta_shown total 0 size t start r h1 h2 hs hr hd, ?_⟩
  unfold Shows
  rw [clockOf_nat, Nat.sub_zero]
  have : t * (total - size) / size / 1000 % 86400 = t * (total - size) / size / 1000 := Nat.mod_eq_of_lt (by omega)
  rw [this]

example : ∃ x, ((begin (some 20) 0 1000).update 5 ⟨3000, 3000, 3000, 3000⟩).2.bind Line.eta = some x ∧ Shows (2000 * (20 - 5) / (5 - 0)) x :=
  remaining_partial 20 5 2000 1000 _ (by decide) (by decide) (by decide) (by decide) (by decide) (by decide)

/-- The time shown for a download that is taken up again is never more than the time needed. -/
theorem remaining_resumed (total exist size t : Nat) (h : exist < size) : t * (total - size) / size ≤ t * (total - size) / (size - exist) :=
  Nat.div_le_div_left (by omega) (by omega)

/-- **Full statement for the remaining time is false of the code**: 10 of 40 characters were there, in ten seconds 10 more have come, the
missing 20 need twenty seconds; ten are shown. -/
theorem remaining_refuted : ¬ RemainingFull := by
  intro h
  obtain ⟨x, hx, hs⟩ := h 40 10 20 10000 1000 ⟨11000, 11000, 11000, 11000⟩ (by decide) (by decide) (by decide) (by decide) (by decide) (by decide)
  have : ((begin (some 40) 10 1000).update 20 ⟨11000, 11000, 11000, 11000⟩).2.bind Line.eta = some (0, 0, 10) := by decide
  rw [this] at hx
  cases hx
  revert hs
  unfold Shows
  decide

end Pisi.Progress
