import Verif.Spec.FetchPar

/-! # C232: the same file fetched by several processes -/
namespace Pisi.FetchPar

theorem upd_same {β : Type} (f : Nat → β) (i : Nat) (v : β) : upd f i v i = v := by simp [upd]
theorem upd_ne {β : Type} (f : Nat → β) {i j : Nat} (v : β) (h : j ≠ i) : upd f i v j = f j := by simp [upd, h]

/-- The inode a process has or had open, and up to where it has written; only for processes that opened for writing. -/
def Phase.pos (c : Str) : Phase → Option (Nat × Nat)
  | .writing i off _ => some (i, off)
  | .grabbed i => some (i, c.length)
  | .checked i => some (i, c.length)
  | .ended i => some (i, c.length)
  | .broken i off => some (i, off)
  | _ => none

/-- Nobody resumes. -/
def Phase.plain : Phase → Prop
  | .resume => False
  | .asked _ => False
  | .writing _ _ app => app = false
  | _ => True

/-- Only right characters, at their places. -/
def Sane (b : Blob) (c : Str) : Prop := b.len ≤ c.length ∧ ∀ p x, b.at_ p = some x → c[p]? = some x

/-- Some process that has or had inode `i` open has written all up to where it is. -/
def Led (s : State) (c : Str) (i : Nat) : Prop :=
  ∃ q off, (s.ph q).pos c = some (i, off) ∧ off ≤ (s.ino i).len ∧ ∀ p, p < off → (s.ino i).at_ p = c[p]?

/-- The invariant where nobody resumes; `n0` is the first inode that was unused at the beginning. -/
structure Good (c : Str) (s0 s : State) : Prop where
  plain : ∀ q, (s.ph q).plain
  next : s0.next ≤ s.next
  part : ∀ i, s.part = some i → s0.next ≤ i ∧ i < s.next
  fds : ∀ q i off, (s.ph q).pos c = some (i, off) → s0.next ≤ i ∧ i < s.next ∧ off ≤ c.length
  dest : s.dest = s0.dest ∨ ∃ i, s.dest = some i ∧ s0.next ≤ i ∧ i < s.next
  old : ∀ i, i < s0.next → s.ino i = s0.ino i
  sane : ∀ i, s0.next ≤ i → i < s.next → Sane (s.ino i) c ∧ Led s c i

theorem write_sane {b : Blob} {c : Str} {off m : Nat} (h : Sane b c) (hm : off + m ≤ c.length) :
    Sane (b.write off ((c.drop off).take m)) c := by
  have hl : ((c.drop off).take m).length = m := by rw [List.length_take, List.length_drop]; omega
  refine ⟨by simp only [Blob.write, hl]; have := h.1; omega, fun p x hx => ?_⟩
  simp only [Blob.write, hl] at hx
  split at hx
  · rename_i hp
    rw [List.getElem?_take_of_lt (by omega), List.getElem?_drop, Nat.add_sub_cancel' hp.1] at hx
    exact hx
  · exact h.2 p x hx

/-- What was right up to `k` is right after a block was written anywhere. -/
theorem write_keeps {b : Blob} {c : Str} {off m k : Nat} (hm : off + m ≤ c.length) (hk : k ≤ b.len)
    (h : ∀ p, p < k → b.at_ p = c[p]?) :
    k ≤ (b.write off ((c.drop off).take m)).len ∧ ∀ p, p < k → (b.write off ((c.drop off).take m)).at_ p = c[p]? := by
  have hl : ((c.drop off).take m).length = m := by rw [List.length_take, List.length_drop]; omega
  refine ⟨by simp only [Blob.write]; omega, fun p hp => ?_⟩
  simp only [Blob.write, hl]
  split
  · rename_i hq
    rw [List.getElem?_take_of_lt (by omega), List.getElem?_drop, Nat.add_sub_cancel' hq.1]
  · exact h p hp

/-- The block itself is right, and what came before stays so. -/
theorem write_extends {b : Blob} {c : Str} {off m : Nat} (hm : off + m ≤ c.length)
    (h : ∀ p, p < off → b.at_ p = c[p]?) :
    off + m ≤ (b.write off ((c.drop off).take m)).len ∧
      ∀ p, p < off + m → (b.write off ((c.drop off).take m)).at_ p = c[p]? := by
  have hl : ((c.drop off).take m).length = m := by rw [List.length_take, List.length_drop]; omega
  refine ⟨by simp only [Blob.write, hl]; omega, fun p hp => ?_⟩
  simp only [Blob.write, hl]
  split
  · rename_i hq
    rw [List.getElem?_take_of_lt (by omega), List.getElem?_drop, Nat.add_sub_cancel' hq.1]
  · exact h p (by omega)

/-- A step that changes only the phase of `q`, which keeps what it had open. -/
theorem good_go {c : Str} {s0 s : State} (h : Good c s0 s) (q : Nat) (x : Phase) (hx : x.plain)
    (hp : x.pos c = (s.ph q).pos c) : Good c s0 (s.go q x) := by
  have hpos : ∀ r, ((s.go q x).ph r).pos c = (s.ph r).pos c := by
    intro r
    by_cases e : r = q
    · subst e; simp [State.go, upd_same, hp]
    · simp [State.go, upd_ne _ _ e]
  refine ⟨fun r => ?_, h.next, h.part, fun r i off hr => h.fds r i off (by rw [← hpos]; exact hr), h.dest, h.old, ?_⟩
  · by_cases e : r = q
    · subst e; simpa [State.go, upd_same] using hx
    · simpa [State.go, upd_ne _ _ e] using h.plain r
  · intro i h1 h2
    obtain ⟨hs, r, off, hr, hl, ha⟩ := h.sane i h1 h2
    exact ⟨hs, r, off, by rw [hpos]; exact hr, hl, ha⟩

/-- The partial file is removed. -/
theorem good_unpart {c : Str} {s0 s : State} (h : Good c s0 s) : Good c s0 { s with part := none } :=
  ⟨h.plain, h.next, fun _ e => (by cases e), h.fds, h.dest, h.old, h.sane⟩

theorem sane_empty (c : Str) : Sane .empty c := ⟨Nat.zero_le _, fun p x hx => by simp [Blob.empty] at hx⟩

theorem good_openW {c : Str} {s0 s : State} (h : Good c s0 s) (q : Nat) (hq : s.ph q = .fresh) : Good c s0 (s.openW q) := by
  unfold State.openW
  have hposq : (s.ph q).pos c = none := by rw [hq]; rfl
  split
  · rename_i i hi
    obtain ⟨h1, h2⟩ := h.part i hi
    refine ⟨fun r => ?_, h.next, h.part, fun r j off hr => ?_, h.dest, fun j hj => ?_, fun j hj1 hj2 => ?_⟩
    · by_cases e : r = q
      · subst e; simp [upd_same, Phase.plain]
      · simpa [upd_ne _ _ e] using h.plain r
    · by_cases e : r = q
      · subst e; simp only [upd_same, Phase.pos, Option.some.injEq, Prod.mk.injEq] at hr
        obtain ⟨rfl, rfl⟩ := hr
        exact ⟨h1, h2, Nat.zero_le _⟩
      · simp only [upd_ne _ _ e] at hr; exact h.fds r j off hr
    · simp only []; rw [upd_ne _ _ (by omega)]; exact h.old j hj
    · by_cases e : j = i
      · subst e
        refine ⟨by simp only [upd_same]; exact sane_empty c, q, 0, by simp [upd_same, Phase.pos], Nat.zero_le _, ?_⟩
        intro p hp; omega
      · obtain ⟨hs, r, off, hr, hl, ha⟩ := h.sane j hj1 hj2
        have hrq : r ≠ q := by rintro rfl; rw [hposq] at hr; cases hr
        refine ⟨by simp only [upd_ne _ _ e]; exact hs, r, off, by simp only [upd_ne _ _ hrq]; exact hr, ?_, ?_⟩
        · simp only [upd_ne _ _ e]; exact hl
        · simp only [upd_ne _ _ e]; exact ha
  · have hn := h.next
    refine ⟨fun r => ?_, Nat.le_succ_of_le h.next, ?_, fun r j off hr => ?_, ?_, fun j hj => ?_, fun j hj1 hj2 => ?_⟩
    · by_cases e : r = q
      · subst e; simp [upd_same, Phase.plain]
      · simpa [upd_ne _ _ e] using h.plain r
    · intro i e; simp only [Option.some.injEq] at e; subst e; exact ⟨hn, Nat.lt_succ_self _⟩
    · by_cases e : r = q
      · subst e; simp only [upd_same, Phase.pos, Option.some.injEq, Prod.mk.injEq] at hr
        obtain ⟨rfl, rfl⟩ := hr
        exact ⟨hn, Nat.lt_succ_self _, Nat.zero_le _⟩
      · simp only [upd_ne _ _ e] at hr
        obtain ⟨a, b, d⟩ := h.fds r j off hr
        exact ⟨a, Nat.lt_succ_of_lt b, d⟩
    · rcases h.dest with e | ⟨i, e, a, b⟩
      · exact Or.inl e
      · exact Or.inr ⟨i, e, a, Nat.lt_succ_of_lt b⟩
    · simp only []; rw [upd_ne _ _ (by omega)]; exact h.old j hj
    · by_cases e : j = s.next
      · subst e
        refine ⟨by simp only [upd_same]; exact sane_empty c, q, 0, by simp [upd_same, Phase.pos], Nat.zero_le _, ?_⟩
        intro p hp; omega
      · simp only at hj2
        obtain ⟨hs, r, off, hr, hl, ha⟩ := h.sane j hj1 (by omega)
        have hrq : r ≠ q := by rintro rfl; rw [hposq] at hr; cases hr
        refine ⟨by simp only [upd_ne _ _ e]; exact hs, r, off, by simp only [upd_ne _ _ hrq]; exact hr, ?_, ?_⟩
        · simp only [upd_ne _ _ e]; exact hl
        · simp only [upd_ne _ _ e]; exact ha

theorem good_write {c : Str} {s0 s : State} (h : Good c s0 s) (q i off m : Nat) (hq : s.ph q = .writing i off false)
    (hm : off + m ≤ c.length) :
    Good c s0 ({ s with ino := upd s.ino i ((s.ino i).write off ((c.drop off).take m)) }.go q (.writing i (off + m) false)) := by
  obtain ⟨f1, f2, f3⟩ := h.fds q i off (by rw [hq]; rfl)
  refine ⟨fun r => ?_, h.next, h.part, fun r j o hr => ?_, h.dest, fun j hj => ?_, fun j hj1 hj2 => ?_⟩
  · by_cases e : r = q
    · subst e; simp [State.go, upd_same, Phase.plain]
    · simpa [State.go, upd_ne _ _ e] using h.plain r
  · by_cases e : r = q
    · subst e; simp only [State.go, upd_same, Phase.pos, Option.some.injEq, Prod.mk.injEq] at hr
      obtain ⟨rfl, rfl⟩ := hr
      exact ⟨f1, f2, hm⟩
    · simp only [State.go, upd_ne _ _ e] at hr; exact h.fds r j o hr
  · simp only [State.go]; rw [upd_ne _ _ (by omega)]; exact h.old j hj
  · obtain ⟨hs, r, o, hr, hl, ha⟩ := h.sane j hj1 hj2
    by_cases e : j = i
    · subst e
      refine ⟨by simp only [State.go, upd_same]; exact write_sane hs hm, ?_⟩
      by_cases er : r = q
      · subst er
        rw [hq] at hr; simp only [Phase.pos, Option.some.injEq, Prod.mk.injEq] at hr
        obtain ⟨_, rfl⟩ := hr
        refine ⟨r, off + m, by simp [State.go, upd_same, Phase.pos], ?_⟩
        simp only [State.go, upd_same]
        exact write_extends hm ha
      · refine ⟨r, o, by simp only [State.go, upd_ne _ _ er]; exact hr, ?_⟩
        simp only [State.go, upd_same]
        exact write_keeps hm hl ha
    · refine ⟨by simp only [State.go, upd_ne _ _ e]; exact hs, ?_⟩
      have hrq : r ≠ q := by
        rintro rfl
        rw [hq] at hr; simp only [Phase.pos, Option.some.injEq, Prod.mk.injEq] at hr
        exact e hr.1.symm
      refine ⟨r, o, by simp only [State.go, upd_ne _ _ hrq]; exact hr, ?_, ?_⟩
      · simp only [State.go, upd_ne _ _ e]; exact hl
      · simp only [State.go, upd_ne _ _ e]; exact ha

theorem good_step {c : Str} {s0 s t : State} {q : Nat} (h : Good c s0 s) (st : Step c false q s t) : Good c s0 t := by
  have hpl := h.plain q
  cases st with
  | none hq hp => exact good_go h q _ trivial (by rw [hq]; rfl)
  | length i hq hp hl => cases hl
  | noLength i hq hp => exact good_go h q _ trivial (by rw [hq]; rfl)
  | drop i hq hp => exact good_go (good_unpart h) q _ trivial (by simp only [hq]; rfl)
  | dropGone hq hp => exact good_go h q _ trivial (by rw [hq]; rfl)
  | size i hq hp hl => rw [hq] at hpl; exact hpl.elim
  | sizeBad i hq hp hl => rw [hq] at hpl; exact hpl.elim
  | sizeGone hq hp => rw [hq] at hpl; exact hpl.elim
  | openW hq => exact good_openW h q hq
  | openA n hq => rw [hq] at hpl; exact hpl.elim
  | write i off app m hq hm hle =>
    rw [hq] at hpl
    have ha : app = false := hpl
    subst ha
    exact good_write h q i off m hq hle
  | grabbed i off app hq ho => exact good_go h q _ trivial (by rw [hq, ho]; rfl)
  | check i j hq hp hl => exact good_go h q _ trivial (by rw [hq]; rfl)
  | checkEmpty i j hq hp hl => exact good_go (good_unpart h) q _ trivial (by simp only [hq]; rfl)
  | checkGone i hq hp => exact good_go h q _ trivial (by rw [hq]; rfl)
  | move i j hq hp =>
    obtain ⟨h1, h2⟩ := h.part j hp
    have : Good c s0 { s with part := none, dest := some j } :=
      ⟨h.plain, h.next, fun _ e => (by cases e), h.fds, Or.inr ⟨j, rfl, h1, h2⟩, h.old, h.sane⟩
    exact good_go this q _ trivial (by simp only [hq]; rfl)
  | moveGone i hq hp => exact good_go h q _ trivial (by rw [hq]; rfl)
  | kill i off app hq => exact good_go h q _ trivial (by rw [hq]; rfl)
  | killEarly hq =>
    refine good_go h q _ trivial ?_
    rcases hq with e | e | e | ⟨n, e⟩ <;> rw [e] <;> rfl
  | killLate i hq =>
    refine good_go h q _ trivial ?_
    rcases hq with e | e <;> rw [e] <;> rfl

theorem good_start {c : Str} {s : State} (h : Start s) : Good c s s := by
  refine ⟨fun q => ?_, Nat.le_refl _, fun i e => ?_, fun q i off e => ?_, Or.inl rfl, fun _ _ => rfl, fun i h1 h2 => by omega⟩
  · rw [h.idle q]; trivial
  · rw [h.part] at e; cases e
  · rw [h.idle q] at e; cases e

theorem good_run {c : Str} {s0 s : State} (h0 : Start s0) (h : Run c false s0 s) : Good c s0 s := by
  induction h with
  | refl => exact good_start h0
  | tail _ st ih => obtain ⟨q, st⟩ := st; exact good_step ih st

/-- C232, partial: where the server does not tell lengths, so that nobody continues a file, in every state of any number of
processes in any order, also killed ones: the destination is as before or has only right characters at their places (but some
may be missing). -/
theorem always_holey_partial {c : Str} {s0 s : State} (h0 : Start s0) (h : Run c false s0 s) :
    AsBefore s0 s ∨ Holey s c := by
  have g := good_run h0 h
  rcases g.dest with e | ⟨i, e, h1, h2⟩
  · exact Or.inl ⟨e, fun i hi => g.old i (h0.dest i hi)⟩
  · obtain ⟨hs, _⟩ := g.sane i h1 h2
    exact Or.inr ⟨i, e, hs⟩

theorem led_complete {c : Str} {b : Blob} (hs : Sane b c) (hl : c.length ≤ b.len) (ha : ∀ p, p < c.length → b.at_ p = c[p]?) :
    Complete b c := ⟨Nat.le_antisymm hs.1 hl, ha⟩

/-- C232, partial: where nobody continues a file, once all processes are at rest and none was broken off while writing, the destination
is as before or is the whole file. -/
theorem ends_whole_partial {c : Str} {s0 s : State} (h0 : Start s0) (h : Run c false s0 s) (hr : ∀ q, AtRest s q)
    (hb : ∀ q i off, s.ph q ≠ .broken i off) : AsBefore s0 s ∨ Whole s c := by
  have g := good_run h0 h
  rcases g.dest with e | ⟨i, e, h1, h2⟩
  · exact Or.inl ⟨e, fun i hi => g.old i (h0.dest i hi)⟩
  · obtain ⟨hs, q, off, hq, hl, ha⟩ := g.sane i h1 h2
    have hrest := hr q
    unfold AtRest at hrest
    refine Or.inr ⟨i, e, ?_⟩
    cases hph : s.ph q with
    | ended j =>
      rw [hph] at hq; simp only [Phase.pos, Option.some.injEq, Prod.mk.injEq] at hq
      obtain ⟨rfl, rfl⟩ := hq
      exact led_complete hs hl ha
    | broken j o => exact absurd hph (hb q j o)
    | _ => rw [hph] at hrest hq; first | exact hrest.elim | cases hq

/-! ## One at a time -/

/-- The beginning of `c`. -/
def Begun (b : Blob) (c : Str) : Prop := b.len ≤ c.length ∧ ∀ p, p < b.len → b.at_ p = c[p]?

/-- Inode `i` is the partial file, unless that was deleted, and has the first `off` characters. -/
def Mine (s : State) (c : Str) (i off : Nat) : Prop :=
  (s.part = some i ∨ s.part = none) ∧ i < s.next ∧ s.dest ≠ some i ∧ Begun (s.ino i) c ∧ (s.ino i).len = off

/-- What holds of the only process at work. -/
def Phase.fits (c : Str) (s : State) : Phase → Prop
  | .asked n => n < c.length ∧ ∃ i, s.part = some i ∧ (s.ino i).len = n
  | .writing i off _ => Mine s c i off
  | .grabbed i => Mine s c i c.length
  | .checked i => Mine s c i c.length
  | _ => True

/-- The invariant under the lock. -/
structure Calm (c : Str) (s0 s : State) : Prop where
  one : ∀ q q', ¬ AtRest s q → ¬ AtRest s q' → q = q'
  fits : ∀ q, (s.ph q).fits c s
  next : s0.next ≤ s.next
  part : ∀ i, s.part = some i → s0.next ≤ i ∧ i < s.next ∧ s.dest ≠ some i ∧ Begun (s.ino i) c
  dest : AsBefore s0 s ∨ Whole s c
  used : ∀ i, s.dest = some i → i < s.next

theorem begun_empty (c : Str) : Begun .empty c := ⟨Nat.zero_le _, fun p hp => by simp [Blob.empty] at hp⟩

/-- Phases that do not look at the state. -/
theorem rest_fits {c : Str} {s s' : State} {q : Nat} (h : AtRest s q) : (s.ph q).fits c s' := by
  unfold AtRest at h
  cases hp : s.ph q with
  | idle => trivial
  | ended i => trivial
  | broken i o => trivial
  | failed => trivial
  | _ => rw [hp] at h; exact h.elim

/-- The one process at work takes a step to phase `x`, in a state with the new files. -/
theorem calm_to {c : Str} {s0 s t : State} {q : Nat} {x : Phase} (hact : ∀ q', q' ≠ q → AtRest s q')
    (hph : t.ph = upd s.ph q x) (hx : x.fits c t) (hn : s0.next ≤ t.next)
    (hp : ∀ i, t.part = some i → s0.next ≤ i ∧ i < t.next ∧ t.dest ≠ some i ∧ Begun (t.ino i) c)
    (hd : AsBefore s0 t ∨ Whole t c) (hu : ∀ i, t.dest = some i → i < t.next) : Calm c s0 t := by
  have hrest : ∀ r, r ≠ q → AtRest t r := by
    intro r hr; have := hact r hr; unfold AtRest at this ⊢; rw [hph, upd_ne _ _ hr]; exact this
  refine ⟨fun r r' h1 h2 => ?_, fun r => ?_, hn, hp, hd, hu⟩
  · have e1 : r = q := Classical.byContradiction fun e => h1 (hrest r e)
    have e2 : r' = q := Classical.byContradiction fun e => h2 (hrest r' e)
    rw [e1, e2]
  · by_cases e : r = q
    · subst e; rw [hph, upd_same]; exact hx
    · rw [hph, upd_ne _ _ e]; exact rest_fits (hact r e)

theorem asBefore_mono {s0 s t : State} (h : AsBefore s0 s) (hd : t.dest = s.dest)
    (hi : ∀ i, s0.dest = some i → t.ino i = s.ino i) : AsBefore s0 t :=
  ⟨hd.trans h.1, fun i e => (hi i e).trans (h.2 i e)⟩

theorem begun_write {b : Blob} {c : Str} {m : Nat} (h : Begun b c) (hm : b.len + m ≤ c.length) :
    Begun (b.write b.len ((c.drop b.len).take m)) c ∧ (b.write b.len ((c.drop b.len).take m)).len = b.len + m := by
  have hl : ((c.drop b.len).take m).length = m := by rw [List.length_take, List.length_drop]; omega
  have e : (b.write b.len ((c.drop b.len).take m)).len = b.len + m := by simp only [Blob.write, hl]; omega
  refine ⟨⟨by omega, fun p hp => ?_⟩, e⟩
  rw [e] at hp
  exact (write_extends hm h.2).2 p hp

theorem calm_step {c : Str} {lens : Bool} {s0 s t : State} {q : Nat} (h0 : Start s0) (h : Calm c s0 s)
    (st : Step c lens q s t) (hal : s.ph q = .idle → ∀ q', q' ≠ q → AtRest s q') : Calm c s0 t := by
  have hact : s.ph q ≠ .idle → ¬ AtRest s q → ∀ q', q' ≠ q → AtRest s q' := by
    intro _ hn q' hne
    exact Classical.byContradiction fun hc => hne (h.one q' q hc hn)
  have act : ∀ x, s.ph q = x → (¬ match x with | .idle | .ended _ | .broken _ _ | .failed => True | _ => False) →
      ∀ q', q' ≠ q → AtRest s q' := by
    intro x hx hn
    refine hact (fun e => ?_) ?_
    · rw [← hx, e] at hn; exact hn trivial
    · unfold AtRest; rw [hx]; exact hn
  -- the files stay as they are
  have stay : ∀ x, (∀ q', q' ≠ q → AtRest s q') → Phase.fits c (s.go q x) x → Calm c s0 (s.go q x) := fun x ha hx =>
    calm_to ha rfl hx h.next h.part h.dest h.used
  -- the partial file is removed
  have unpart : ∀ x, (∀ q', q' ≠ q → AtRest s q') → Phase.fits c ({ s with part := none }.go q x) x →
      Calm c s0 ({ s with part := none }.go q x) := fun x ha hx =>
    calm_to ha rfl hx h.next (fun i e => by cases e) h.dest h.used
  have fresh : ∀ x, s.part = none → (∀ q', q' ≠ q → AtRest s q') →
      (∀ t : State, Mine t c s.next 0 → x.fits c t) →
      Calm c s0 { s with part := some s.next, ino := upd s.ino s.next .empty, next := s.next + 1, ph := upd s.ph q x } := by
    intro x hp ha hx
    have hnd : s.dest ≠ some s.next := fun e => absurd (h.used _ e) (Nat.lt_irrefl _)
    refine calm_to ha rfl (hx _ ⟨Or.inl rfl, Nat.lt_succ_self _, hnd, by simp only [upd_same]; exact begun_empty c,
      by simp [upd_same, Blob.empty]⟩) (Nat.le_succ_of_le h.next) ?_ ?_ ?_
    · intro i e
      simp only [Option.some.injEq] at e; subst e
      refine ⟨h.next, Nat.lt_succ_self _, fun e => ?_, ?_⟩
      · exact absurd (h.used _ e) (Nat.lt_irrefl _)
      · simp only [upd_same]; exact ⟨Nat.zero_le _, fun p hp => by simp [Blob.empty] at hp⟩
    · rcases h.dest with hd | ⟨i, hd, hc⟩
      · refine Or.inl (asBefore_mono hd rfl fun i e => ?_)
        simp only []
        rw [upd_ne]
        have := h0.dest i e; have := h.next; omega
      · refine Or.inr ⟨i, hd, ?_⟩
        simp only []
        rw [upd_ne _ _ (by have := h.used i hd; omega)]; exact hc
    · intro i e; exact Nat.lt_succ_of_lt (h.used i e)
  have fq := h.fits q
  cases st with
  | none hq hp => exact stay _ (hal hq) trivial
  | length i hq hp hl => exact stay _ (hal hq) trivial
  | noLength i hq hp => exact stay _ (hal hq) trivial
  | drop i hq hp => exact unpart _ (act _ hq id) trivial
  | dropGone hq hp => exact stay _ (act _ hq id) trivial
  | size i hq hp hl => exact stay _ (act _ hq id) ⟨hl, i, hp, rfl⟩
  | sizeBad i hq hp hl => exact stay _ (act _ hq id) trivial
  | sizeGone hq hp => exact stay _ (act _ hq id) trivial
  | openW hq =>
    unfold State.openW
    cases hp : s.part with
    | none => exact fresh _ hp (act _ hq id) fun t h1 => h1
    | some i =>
      obtain ⟨p1, p2, p3, p4⟩ := h.part i hp
      refine calm_to (x := .writing i 0 false) (act _ hq id) rfl ⟨Or.inl rfl, p2, p3,
        by simp only [upd_same]; exact begun_empty c, by simp [upd_same, Blob.empty]⟩ h.next ?_ ?_ h.used
      · intro j e
        simp only [Option.some.injEq] at e; subst e
        refine ⟨p1, p2, p3, ?_⟩
        simp only [upd_same]; exact ⟨Nat.zero_le _, fun p hp => by simp [Blob.empty] at hp⟩
      · rcases h.dest with hd | ⟨j, hd, hc⟩
        · refine Or.inl (asBefore_mono hd rfl fun j e => ?_)
          simp only []
          rw [upd_ne]
          have := h0.dest j e; omega
        · refine Or.inr ⟨j, hd, ?_⟩
          simp only []
          rw [upd_ne _ _ (by rintro rfl; exact p3 hd)]; exact hc
  | openA n hq =>
    unfold State.openA
    rw [hq] at fq
    obtain ⟨hn, i, hp, hl⟩ := fq
    rw [hp]
    obtain ⟨_, p2, p3, p4⟩ := h.part i hp
    exact stay _ (act _ hq id) ⟨Or.inl hp, p2, p3, p4, hl⟩
  | write i off app m hq hm hle =>
    rw [hq] at fq
    obtain ⟨hp, p2, p3, p4, hl⟩ := fq
    have ew : (if app = true then (s.ino i).len else off) = (s.ino i).len := by split <;> omega
    rw [ew]
    subst hl
    obtain ⟨b1, b2⟩ := begun_write p4 hle
    refine calm_to (x := .writing i _ app) (act _ hq id) rfl ⟨hp, p2, p3, by simp only [State.go, upd_same]; exact b1,
      by simp only [State.go, upd_same]; exact b2⟩ h.next ?_ ?_ h.used
    · intro j e
      have e' : s.part = some j := e
      have : j = i := by
        rcases hp with hp | hp <;> rw [hp] at e' <;> cases e'; rfl
      subst this
      exact ⟨(h.part j e').1, p2, p3, by simp only [State.go, upd_same]; exact b1⟩
    · rcases h.dest with hd | ⟨j, hd, hc⟩
      · refine Or.inl (asBefore_mono hd rfl fun j e => ?_)
        simp only [State.go]
        rw [upd_ne]
        rintro rfl
        exact p3 (hd.1.trans e)
      · refine Or.inr ⟨j, hd, ?_⟩
        simp only [State.go]
        rw [upd_ne _ _ (by rintro rfl; exact p3 hd)]; exact hc
  | grabbed i off app hq ho =>
    rw [hq] at fq
    subst ho
    exact stay _ (act _ hq id) fq
  | check i j hq hp hl =>
    rw [hq] at fq
    exact stay _ (act _ hq id) fq
  | checkEmpty i j hq hp hl => exact unpart _ (act _ hq id) trivial
  | checkGone i hq hp => exact stay _ (act _ hq id) trivial
  | move i j hq hp =>
    rw [hq] at fq
    obtain ⟨p1, p2, p3, p4⟩ := h.part j hp
    have ej : i = j := by
      rcases fq.1 with e | e <;> rw [hp] at e <;> cases e; rfl
    subst ej
    have fl := fq.2.2.2.2
    refine calm_to (act _ hq id) rfl trivial h.next (fun k e => by cases e) ?_ ?_
    · exact Or.inr ⟨i, rfl, fl, fun p hp => p4.2 p (by rw [fl]; exact hp)⟩
    · intro k e
      have e' : some i = some k := e
      cases e'; exact p2
  | moveGone i hq hp => exact stay _ (act _ hq id) trivial
  | kill i off app hq => exact stay _ (act _ hq id) trivial
  | killEarly hq =>
    refine stay _ ?_ trivial
    rcases hq with e | e | e | ⟨n, e⟩ <;> exact act _ e id
  | killLate i hq =>
    refine stay _ ?_ trivial
    rcases hq with e | e <;> exact act _ e id

theorem calm_start {c : Str} {s : State} (h : Start s) : Calm c s s := by
  have hr : ∀ q, AtRest s q := fun q => by unfold AtRest; rw [h.idle q]; trivial
  refine ⟨fun q q' hq => absurd (hr q) hq, fun q => rest_fits (hr q), Nat.le_refl _, fun i e => ?_, Or.inl ⟨rfl, fun _ _ => rfl⟩,
    h.dest⟩
  rw [h.part] at e; cases e

/-- C232, partial: while only one process fetches at a time, as among commands that take the lock, in every state of any number
of processes, killed anywhere and continued by others, the destination is as before or is the whole file. -/
theorem alone_whole_partial {c : Str} {lens : Bool} {s0 s : State} (h0 : Start s0) (h : RunAlone c lens s0 s) :
    AsBefore s0 s ∨ Whole s c := by
  have : Calm c s0 s := by
    induction h with
    | refl => exact calm_start h0
    | tail _ st ih => obtain ⟨q, st, ha⟩ := st; exact calm_step h0 ih st ha
  exact this.dest

/-! ## Two at a time -/

theorem Run.snoc {c : Str} {lens : Bool} {s0 s t : State} (h : Run c lens s0 s) (q : Nat) (st : Step c lens q s t) :
    Run c lens s0 t := Relation.ReflTransGen.tail h ⟨q, st⟩

/-- Nothing is there. -/
def nothing : State := { part := none, dest := none, ino := fun _ => .empty, next := 0, ph := fun _ => .idle }

theorem nothing_start : Start nothing := ⟨fun _ => rfl, rfl, fun i e => by cases e⟩

/-- Full statement: in every state the destination is as before or is the whole file. -/
def AlwaysFull : Prop := ∀ (c : Str) (lens : Bool) (s0 s : State), Start s0 → Run c lens s0 s → AsBefore s0 s ∨ Whole s c

/-- Two processes begin.  The second one empties the partial file when the first one has written it; the first one moves what there
is. -/
theorem always_refuted : ¬ AlwaysFull := by
  intro h
  have r1 : Run "ab".toList true nothing _ := .snoc .refl 0 (.none _ rfl rfl)
  have r2 := r1.snoc 1 (.none _ rfl rfl)
  have r3 := r2.snoc 0 (.openW _ rfl)
  have r4 := r3.snoc 0 (.write _ 0 0 false 2 rfl (by decide) (by decide))
  have r5 := r4.snoc 0 (.grabbed _ 0 2 false rfl rfl)
  have r6 := r5.snoc 1 (.openW _ rfl)
  have r7 := r6.snoc 1 (.write _ 0 0 false 1 rfl (by decide) (by decide))
  have r8 := r7.snoc 0 (.check _ 0 0 rfl rfl (by decide))
  have r9 := r8.snoc 0 (.move _ 0 0 rfl rfl)
  rcases h _ _ _ _ nothing_start r9 with e | ⟨i, hd, hl, _⟩
  · have := e.1; cases this
  · have e : some 0 = some i := hd
    cases e
    revert hl; decide

/-- Full statement: when all processes have come to an end without being broken off, the destination is as before or is the whole
file. -/
def EndsFull : Prop := ∀ (c : Str) (lens : Bool) (s0 s : State), Start s0 → Run c lens s0 s → (∀ q, AtRest s q) →
  (∀ q i off, s.ph q ≠ .broken i off) → AsBefore s0 s ∨ Whole s c

/-- The second process continues what the first one is still writing: `abc` becomes `abcc`, although both get through. -/
theorem ends_refuted : ¬ EndsFull := by
  intro h
  have r1 : Run "abc".toList true nothing _ := .snoc .refl 0 (.none _ rfl rfl)
  have r2 := r1.snoc 0 (.openW _ rfl)
  have r3 := r2.snoc 0 (.write _ 0 0 false 1 rfl (by decide) (by decide))
  have r4 := r3.snoc 1 (.length _ 0 rfl rfl rfl)
  have r5 := r4.snoc 1 (.size _ 0 rfl rfl (by decide))
  have r6 := r5.snoc 1 (.openA _ 1 rfl)
  have r7 := r6.snoc 1 (.write _ 0 1 true 1 rfl (by decide) (by decide))
  have r8 := r7.snoc 0 (.write _ 0 1 false 2 rfl (by decide) (by decide))
  have r9 := r8.snoc 1 (.write _ 0 2 true 1 rfl (by decide) (by decide))
  have r10 := r9.snoc 0 (.grabbed _ 0 3 false rfl rfl)
  have r11 := r10.snoc 1 (.grabbed _ 0 3 true rfl rfl)
  have r12 := r11.snoc 0 (.check _ 0 0 rfl rfl (by decide))
  have r13 := r12.snoc 0 (.move _ 0 0 rfl rfl)
  have r14 := r13.snoc 1 (.checkGone _ 0 rfl rfl)
  refine absurd (h _ _ _ _ nothing_start r14 ?_ ?_) ?_
  · intro q
    by_cases e0 : q = 0
    · subst e0; trivial
    · by_cases e1 : q = 1
      · subst e1; trivial
      · unfold AtRest
        simp [State.go, State.openA, State.openW, nothing, upd, e0, e1]
  · intro q i off
    by_cases e0 : q = 0
    · subst e0; intro h; cases h
    · by_cases e1 : q = 1
      · subst e1; intro h; cases h
      · simp [State.go, State.openA, State.openW, nothing, upd, e0, e1]
  · rintro (e | ⟨i, hd, hl, _⟩)
    · have := e.1; cases this
    · have e : some 0 = some i := hd
      cases e
      revert hl; decide

/-- Two processes at the same time, nobody continuing: in the end the file is whole, although the first one moved it incomplete. -/
example : ∃ s, Run "ab".toList false nothing s ∧ (∀ q, AtRest s q) ∧ (∀ q i off, s.ph q ≠ .broken i off) ∧
    Whole s "ab".toList := by
  have r1 : Run "ab".toList false nothing _ := .snoc .refl 0 (.none _ rfl rfl)
  have r2 := r1.snoc 1 (.none _ rfl rfl)
  have r3 := r2.snoc 0 (.openW _ rfl)
  have r4 := r3.snoc 0 (.write _ 0 0 false 2 rfl (by decide) (by decide))
  have r5 := r4.snoc 0 (.grabbed _ 0 2 false rfl rfl)
  have r6 := r5.snoc 1 (.openW _ rfl)
  have r7 := r6.snoc 1 (.write _ 0 0 false 1 rfl (by decide) (by decide))
  have r8 := r7.snoc 0 (.check _ 0 0 rfl rfl (by decide))
  have r9 := r8.snoc 0 (.move _ 0 0 rfl rfl)
  have r10 := r9.snoc 1 (.write _ 0 1 false 1 rfl (by decide) (by decide))
  have r11 := r10.snoc 1 (.grabbed _ 0 2 false rfl rfl)
  have r12 := r11.snoc 1 (.checkGone _ 0 rfl rfl)
  have key : ∀ s, Run "ab".toList false nothing s → (∀ q, AtRest s q) → (∀ q i off, s.ph q ≠ .broken i off) → s.dest ≠ none →
      ∃ s, Run "ab".toList false nothing s ∧ (∀ q, AtRest s q) ∧ (∀ q i off, s.ph q ≠ .broken i off) ∧
        Whole s "ab".toList := by
    intro s hs h1 h2 h3
    rcases ends_whole_partial nothing_start hs h1 h2 with e | e
    · exact absurd e.1 h3
    · exact ⟨s, hs, h1, h2, e⟩
  refine key _ r12 ?_ ?_ (fun h => by cases h)
  · intro q
    by_cases e0 : q = 0
    · subst e0; trivial
    · by_cases e1 : q = 1
      · subst e1; trivial
      · unfold AtRest
        simp [State.go, State.openW, nothing, upd, e0, e1]
  · intro q i off
    by_cases e0 : q = 0
    · subst e0; intro h; cases h
    · by_cases e1 : q = 1
      · subst e1; intro h; cases h
      · simp [State.go, State.openW, nothing, upd, e0, e1]

/-- One after the other, the first one killed and its part continued by the second one. -/
example : ∃ s, RunAlone "ab".toList true nothing s ∧ s.ph 0 = .broken 0 1 ∧ Whole s "ab".toList := by
  have others : ∀ s : State, (∀ q, q ≠ 0 → s.ph q = .idle) → AtRest s 0 → ∀ q, AtRest s q := by
    intro s h h0 q
    by_cases e : q = 0
    · subst e; exact h0
    · unfold AtRest; rw [h q e]; trivial
  have snoc : ∀ {s t : State} (q : Nat), RunAlone "ab".toList true nothing s → Step "ab".toList true q s t →
      (s.ph q = .idle → ∀ q', q' ≠ q → AtRest s q') → RunAlone "ab".toList true nothing t :=
    fun q h st ha => Relation.ReflTransGen.tail h ⟨q, st, ha⟩
  have r1 := snoc 0 .refl (.none _ rfl rfl) (fun _ q _ => trivial)
  have r2 := snoc 0 r1 (.openW _ rfl) (fun h => by cases h)
  have r3 := snoc 0 r2 (.write _ 0 0 false 1 rfl (by decide) (by decide)) (fun h => by cases h)
  have r4 := snoc 0 r3 (.kill _ 0 1 false rfl) (fun h => by cases h)
  have r5 := snoc 1 r4 (.length _ 0 rfl rfl rfl) (fun _ q _ => by
    refine others _ (fun q hq => ?_) ?_ q
    · simp [State.go, State.openW, nothing, upd, hq]
    · trivial)
  have r6 := snoc 1 r5 (.size _ 0 rfl rfl (by decide)) (fun h => by cases h)
  have r7 := snoc 1 r6 (.openA _ 1 rfl) (fun h => by cases h)
  have r8 := snoc 1 r7 (.write _ 0 1 true 1 rfl (by decide) (by decide)) (fun h => by cases h)
  have r9 := snoc 1 r8 (.grabbed _ 0 2 true rfl rfl) (fun h => by cases h)
  have r10 := snoc 1 r9 (.check _ 0 0 rfl rfl (by decide)) (fun h => by cases h)
  have r11 := snoc 1 r10 (.move _ 0 0 rfl rfl) (fun h => by cases h)
  have key : ∀ s, RunAlone "ab".toList true nothing s → s.ph 0 = .broken 0 1 → s.dest ≠ none →
      ∃ s, RunAlone "ab".toList true nothing s ∧ s.ph 0 = .broken 0 1 ∧ Whole s "ab".toList := by
    intro s hs h1 h3
    rcases alone_whole_partial nothing_start hs with e | e
    · exact absurd e.1 h3
    · exact ⟨s, hs, h1, e⟩
  exact key _ r11 rfl (fun h => by cases h)

end Pisi.FetchPar
