import Verif.Spec.FetchWipe
import Verif.Props.FetchPar

/-! # C234: delete-cache while files are fetched -/
namespace Pisi.FetchPar

/-- As `s0`, but nothing at the destination. -/
def State.bare (s : State) : State := { s with dest := none }

/-- The invariant of C232 with the destination as before or gone. -/
def GoodW (c : Str) (s0 s : State) : Prop := Good c s0 s ∨ Good c s0.bare s

theorem good_wipe {c : Str} {s0 s t : State} (h : GoodW c s0 s) (w : Wipe s t) : GoodW c s0 t := by
  cases w with
  | part => exact h.imp good_unpart good_unpart
  | dest =>
    right
    have k : ∀ s1 : State, s1.next = s0.next → s1.ino = s0.ino → Good c s1 s → Good c s0.bare { s with dest := none } :=
      fun s1 e1 e2 g => ⟨g.plain, by have := g.next; rw [e1] at this; exact this,
        fun i hi => by have := g.part i hi; rw [e1] at this; exact this,
        fun q i off hq => by have := g.fds q i off hq; rw [e1] at this; exact this, Or.inl rfl,
        fun i hi => by have := g.old i (by rw [e1]; exact hi); rw [e2] at this; exact this,
        fun i hi => g.sane i (by rw [e1]; exact hi)⟩
    exact h.elim (k s0 rfl rfl) (k s0.bare rfl rfl)

theorem bare_start {s : State} (h : Start s) : Start s.bare := ⟨h.idle, h.part, fun i e => by cases e⟩

theorem goodW_run {c : Str} {s0 s : State} (h0 : Start s0) (h : RunWipe c false s0 s) : GoodW c s0 s := by
  induction h with
  | refl => exact Or.inl (good_start h0)
  | tail _ st ih =>
    rcases st with w | ⟨q, st⟩
    · exact good_wipe ih w
    · exact ih.imp (good_step · st) (good_step · st)

/-- C234, partial: where nobody continues a file, at every moment of any number of fetches and deletions the destination is as before, is
gone, or has only right characters at their places. -/
theorem wiped_holey_partial {c : Str} {s0 s : State} (h0 : Start s0) (h : RunWipe c false s0 s) :
    AsBefore s0 s ∨ Gone s ∨ Holey s c := by
  rcases goodW_run h0 h with g | g
  · rcases g.dest with e | ⟨i, e, h1, h2⟩
    · exact Or.inl ⟨e, fun i hi => g.old i (h0.dest i hi)⟩
    · exact Or.inr (Or.inr ⟨i, e, (g.sane i h1 h2).1⟩)
  · rcases g.dest with e | ⟨i, e, h1, h2⟩
    · exact Or.inr (Or.inl e)
    · exact Or.inr (Or.inr ⟨i, e, (g.sane i h1 h2).1⟩)

/-- C234, partial: where nobody continues a file, once all processes are at rest and none was broken off while writing, the destination
is as before, is gone, or is the whole file. -/
theorem wiped_ends_partial {c : Str} {s0 s : State} (h0 : Start s0) (h : RunWipe c false s0 s) (hr : ∀ q, AtRest s q)
    (hb : ∀ q i off, s.ph q ≠ .broken i off) : AsBefore s0 s ∨ Gone s ∨ Whole s c := by
  have key : ∀ s1 : State, Good c s1 s → ∀ i, s.dest = some i → s1.next ≤ i → i < s.next → Whole s c := by
    intro s1 g i e h1 h2
    obtain ⟨hs, q, off, hq, hl, ha⟩ := g.sane i h1 h2
    have hrest := hr q
    unfold AtRest at hrest
    refine ⟨i, e, ?_⟩
    cases hph : s.ph q with
    | ended j =>
      rw [hph] at hq; simp only [Phase.pos, Option.some.injEq, Prod.mk.injEq] at hq
      obtain ⟨rfl, rfl⟩ := hq
      exact led_complete hs hl ha
    | broken j o => exact absurd hph (hb q j o)
    | _ => rw [hph] at hrest hq; first | exact hrest.elim | cases hq
  rcases goodW_run h0 h with g | g
  · rcases g.dest with e | ⟨i, e, h1, h2⟩
    · exact Or.inl ⟨e, fun i hi => g.old i (h0.dest i hi)⟩
    · exact Or.inr (Or.inr (key _ g i e h1 h2))
  · rcases g.dest with e | ⟨i, e, h1, h2⟩
    · exact Or.inr (Or.inl e)
    · exact Or.inr (Or.inr (key _ g i e h1 h2))

/-! ## One fetch at a time -/

/-- The invariant of C232 under the lock, with the destination as before or gone. -/
def CalmW (c : Str) (s0 s : State) : Prop := Calm c s0 s ∨ Calm c s0.bare s

theorem mine_part {s : State} {c : Str} {i off : Nat} (h : Mine s c i off) : Mine { s with part := none } c i off :=
  ⟨Or.inr rfl, h.2⟩

theorem mine_dest {s : State} {c : Str} {i off : Nat} (h : Mine s c i off) : Mine { s with dest := none } c i off :=
  ⟨h.1, h.2.1, (fun e => by cases e), h.2.2.2⟩

theorem calm_wipe {c : Str} {s0 s t : State} (h : CalmW c s0 s) (w : Wipe s t) (ha : NoneAsked s) : CalmW c s0 t := by
  cases w with
  | part =>
    have k : ∀ s1 : State, Calm c s1 s → Calm c s1 { s with part := none } := fun s1 g => by
      refine ⟨g.one, fun q => ?_, g.next, (fun i e => by cases e), g.dest, g.used⟩
      have f := g.fits q
      show Phase.fits c _ (s.ph q)
      cases e : s.ph q with
      | asked n => exact absurd e (ha q n)
      | writing i off app => rw [e] at f; exact mine_part f
      | grabbed i => rw [e] at f; exact mine_part f
      | checked i => rw [e] at f; exact mine_part f
      | _ => trivial
    exact h.imp (k _) (k _)
  | dest =>
    right
    have k : ∀ s1 : State, s1.next = s0.next → Calm c s1 s → Calm c s0.bare { s with dest := none } := fun s1 e1 g => by
      refine ⟨g.one, fun q => ?_, by have := g.next; rw [e1] at this; exact this, fun i hi => ?_,
        Or.inl ⟨rfl, fun i e => by cases e⟩, fun i e => by cases e⟩
      · have f := g.fits q
        show Phase.fits c _ (s.ph q)
        cases e : s.ph q with
        | asked n => exact absurd e (ha q n)
        | writing i off app => rw [e] at f; exact mine_dest f
        | grabbed i => rw [e] at f; exact mine_dest f
        | checked i => rw [e] at f; exact mine_dest f
        | _ => trivial
      · obtain ⟨h1, h2, _, h4⟩ := g.part i hi
        rw [e1] at h1
        exact ⟨h1, h2, (fun e => by cases e), h4⟩
    exact h.elim (k s0 rfl) (k s0.bare rfl)

/-- C234, partial: one fetch at a time, killed anywhere and continued by others, with files deleted at any time but the moment between
a request for the rest of a partial file and its opening: the destination is as before, gone, or the whole file. -/
theorem wiped_alone_partial {c : Str} {lens : Bool} {s0 s : State} (h0 : Start s0) (h : RunWipeAlone c lens NoneAsked s0 s) :
    AsBefore s0 s ∨ Gone s ∨ Whole s c := by
  have : CalmW c s0 s := by
    induction h with
    | refl => exact Or.inl (calm_start h0)
    | tail _ st ih =>
      rcases st with ⟨w, hw⟩ | ⟨q, st, ha⟩
      · exact calm_wipe ih w hw
      · exact ih.imp (calm_step h0 · st ha) (calm_step (bare_start h0) · st ha)
  rcases this with g | g
  · exact g.dest.imp id Or.inr
  · rcases g.dest with e | e
    · exact Or.inr (Or.inl e.1)
    · exact Or.inr (Or.inr e)

/-- Where the server tells no lengths nobody continues a file. -/
theorem plain_step {c : Str} {s t : State} {q : Nat} (h : ∀ q, (s.ph q).plain) (st : Step c false q s t) : ∀ q, (t.ph q).plain := by
  intro r
  by_cases e : r = q
  · subst e
    have := h r
    cases st with
    | length i hq hp hl => cases hl
    | openW hq => unfold State.openW; split <;> simp [upd_same, Phase.plain]
    | openA n hq => rw [hq] at this; exact this.elim
    | size i hq hp hl => rw [hq] at this; exact this.elim
    | write i off app m hq hm hle => rw [hq] at this; simp only [State.go, upd_same]; exact this
    | _ => simp [State.go, upd_same, Phase.plain]
  · have : t.ph r = s.ph r := by
      cases st with
      | openW hq => unfold State.openW; split <;> simp [upd_ne _ _ e]
      | openA n hq => unfold State.openA; split <;> simp [State.go, upd_ne _ _ e]
      | _ => simp [State.go, upd_ne _ _ e]
    rw [this]; exact h r

/-- C234, partial: one fetch at a time from a server that tells no lengths, with files deleted at any time. -/
theorem wiped_plain_partial {c : Str} {s0 s : State} (h0 : Start s0) (h : RunWipeAlone c false (fun _ => True) s0 s) :
    AsBefore s0 s ∨ Gone s ∨ Whole s c := by
  have : (∀ q, (s.ph q).plain) ∧ RunWipeAlone c false NoneAsked s0 s := by
    induction h with
    | refl => exact ⟨fun q => by rw [h0.idle q]; trivial, .refl⟩
    | tail _ st ih =>
      rename_i u v _
      obtain ⟨hp, hr⟩ := ih
      have hn : NoneAsked u := fun q n e => by have := hp q; rw [e] at this; exact this
      rcases st with ⟨w, _⟩ | ⟨q, st, ha⟩
      · refine ⟨?_, .tail hr (Or.inl ⟨w, hn⟩)⟩
        cases w <;> exact hp
      · exact ⟨plain_step hp st, .tail hr (Or.inr ⟨q, st, ha⟩)⟩
  exact wiped_alone_partial h0 this.2

/-! ## What fails -/

/-- Full statement: one fetch at a time, whenever files are deleted: in the end the destination is as before, gone, or the whole file. -/
def WipedFull : Prop := ∀ (c : Str) (lens : Bool) (s0 s : State), Start s0 → RunWipeAlone c lens (fun _ => True) s0 s →
  (∀ q, AtRest s q) → AsBefore s0 s ∨ Gone s ∨ Whole s c

/-- A fetch was broken off; the next one asks for the rest; the part is deleted: the destination is the rest alone. -/
theorem wiped_refuted : ¬ WipedFull := by
  intro h
  have others : ∀ s : State, (∀ q, q ≠ 0 → s.ph q = .idle) → AtRest s 0 → ∀ q, AtRest s q := by
    intro s h h0 q
    by_cases e : q = 0
    · subst e; exact h0
    · unfold AtRest; rw [h q e]; trivial
  have snoc : ∀ {s t : State} (q : Nat), RunWipeAlone "ab".toList true (fun _ => True) nothing s → Step "ab".toList true q s t →
      (s.ph q = .idle → ∀ q', q' ≠ q → AtRest s q') → RunWipeAlone "ab".toList true (fun _ => True) nothing t :=
    fun q h st ha => Relation.ReflTransGen.tail h (Or.inr ⟨q, st, ha⟩)
  have r1 := snoc 0 .refl (.none _ rfl rfl) (fun _ q _ => trivial)
  have r2 := snoc 0 r1 (.openW _ rfl) (fun h => by cases h)
  have r3 := snoc 0 r2 (.write _ 0 0 false 1 rfl (by decide) (by decide)) (fun h => by cases h)
  have r4 := snoc 0 r3 (.kill _ 0 1 false rfl) (fun h => by cases h)
  have r5 := snoc 1 r4 (.length _ 0 rfl rfl rfl) (fun _ q _ => by
    refine others _ (fun q hq => ?_) ?_ q
    · simp [State.go, State.openW, nothing, upd, hq]
    · trivial)
  have r6 := snoc 1 r5 (.size _ 0 rfl rfl (by decide)) (fun h => by cases h)
  have r7 : RunWipeAlone "ab".toList true (fun _ => True) nothing _ := Relation.ReflTransGen.tail r6 (Or.inl ⟨.part _, trivial⟩)
  have r8 := snoc 1 r7 (.openA _ 1 rfl) (fun h => by cases h)
  have r9 := snoc 1 r8 (.write _ 1 1 true 1 rfl (by decide) (by decide)) (fun h => by cases h)
  have r10 := snoc 1 r9 (.grabbed _ 1 2 true rfl rfl) (fun h => by cases h)
  have r11 := snoc 1 r10 (.check _ 1 1 rfl rfl (by decide)) (fun h => by cases h)
  have r12 := snoc 1 r11 (.move _ 1 1 rfl rfl) (fun h => by cases h)
  refine absurd (h _ _ _ _ nothing_start r12 ?_) ?_
  · intro q
    by_cases e0 : q = 0
    · subst e0; trivial
    · by_cases e1 : q = 1
      · subst e1; trivial
      · unfold AtRest
        simp [State.go, State.openA, State.openW, nothing, upd, e0, e1]
  · rintro (e | e | ⟨i, hd, hl, _⟩)
    · have := e.1; cases this
    · cases e
    · have e : some 1 = some i := hd
      cases e
      revert hl; decide

/-- Case for `wiped_alone_partial`: the old file is deleted while a new one is fetched, which then is there. -/
example : ∃ s, RunWipeAlone "ab".toList true NoneAsked { nothing with dest := some 0, next := 1 } s ∧ Whole s "ab".toList := by
  have snoc : ∀ {s t : State} (q : Nat), RunWipeAlone "ab".toList true NoneAsked { nothing with dest := some 0, next := 1 } s →
      Step "ab".toList true q s t → (s.ph q = .idle → ∀ q', q' ≠ q → AtRest s q') →
      RunWipeAlone "ab".toList true NoneAsked { nothing with dest := some 0, next := 1 } t :=
    fun q h st ha => Relation.ReflTransGen.tail h (Or.inr ⟨q, st, ha⟩)
  have r1 := snoc 0 .refl (.none _ rfl rfl) (fun _ q _ => trivial)
  have r2 := snoc 0 r1 (.openW _ rfl) (fun h => by cases h)
  have r3 : RunWipeAlone "ab".toList true NoneAsked { nothing with dest := some 0, next := 1 } _ :=
    Relation.ReflTransGen.tail r2 (Or.inl ⟨.dest _, fun q n => by
      by_cases e : q = 0
      · subst e; intro h; cases h
      · simp [State.go, State.openW, nothing, upd, e]⟩)
  have r4 := snoc 0 r3 (.write _ 1 0 false 2 rfl (by decide) (by decide)) (fun h => by cases h)
  have r5 := snoc 0 r4 (.grabbed _ 1 2 false rfl rfl) (fun h => by cases h)
  have r6 := snoc 0 r5 (.check _ 1 1 rfl rfl (by decide)) (fun h => by cases h)
  have r7 := snoc 0 r6 (.move _ 1 1 rfl rfl) (fun h => by cases h)
  refine ⟨_, r7, 1, rfl, by decide, ?_⟩
  decide

end Pisi.FetchPar
