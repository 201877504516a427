import Verif.Spec.Unpack
import Verif.Props.Path

/-!
# Unpacking: permissions (C47), confinement (C48), content (C71)
-/
namespace Pisi.Unpack
open Pisi.Path Pisi.PathSpec

/-! ## C47 -/

theorem fileMask_bit (i : Nat) : Nat.testBit 0x08FF0000 (16 + i) = (decide (i < 8) || decide (i = 11)) := by
  by_cases h : i < 16
  · revert h; revert i; decide +kernel
  · rw [Nat.testBit_lt_two_pow (Nat.lt_of_lt_of_le (by decide : 0x08FF0000 < 2 ^ 32) (Nat.pow_le_pow_right (by decide) (by omega)))]
    simp; omega

theorem dirMask_bit (i : Nat) : Nat.testBit 0xFFFF0000 (16 + i) = decide (i < 16) := by
  by_cases h : i < 16
  · revert h; revert i; decide +kernel
  · rw [Nat.testBit_lt_two_pow (Nat.lt_of_lt_of_le (by decide : 0xFFFF0000 < 2 ^ 32) (Nat.pow_le_pow_right (by decide) (by omega)))]
    simp; omega

theorem ownerRead_bit (i : Nat) : Nat.testBit 0x100 i = decide (i = 8) := by
  by_cases h : i < 16
  · revert h; revert i; decide +kernel
  · rw [Nat.testBit_lt_two_pow (Nat.lt_of_lt_of_le (by decide : 0x100 < 2 ^ 16) (Nat.pow_le_pow_right (by decide) (by omega)))]
    simp; omega

/-- C47: the bits of the mode of an unpacked file.  The archived mode is in the upper half of the attributes; bits 0-7
and setuid (11) are those archived, owner read (8) is set, all others are clear. -/
theorem file_perm (attr i : Nat) : Nat.testBit (filePerm attr) i =
    (decide (i = 8) || (Nat.testBit (attr >>> 16) i && (decide (i < 8) || decide (i = 11)))) := by
  unfold filePerm
  rw [Nat.testBit_or, Nat.testBit_shiftRight, Nat.testBit_and, fileMask_bit, ownerRead_bit, Nat.testBit_shiftRight,
    Bool.or_comm]

/-- C47 for directories: the archived mode with owner read. -/
theorem dir_perm (attr i : Nat) : Nat.testBit (dirPerm attr) i =
    (decide (i = 8) || (Nat.testBit (attr >>> 16) i && decide (i < 16))) := by
  unfold dirPerm
  rw [Nat.testBit_or, Nat.testBit_shiftRight, Nat.testBit_and, dirMask_bit, ownerRead_bit, Nat.testBit_shiftRight,
    Bool.or_comm]

/-- C47 in the words of the property. -/
theorem file_perm_bits (attr : Nat) : (∀ i, i ≤ 8 → i ≠ 8 → Nat.testBit (filePerm attr) i = Nat.testBit (attr >>> 16) i) ∧
    Nat.testBit (filePerm attr) 8 = true ∧ Nat.testBit (filePerm attr) 11 = Nat.testBit (attr >>> 16) 11 ∧
    (∀ i, Nat.testBit (filePerm attr) i = true → i ≠ 8 → Nat.testBit (attr >>> 16) i = true) := by
  refine ⟨fun i h1 h2 => ?_, ?_, ?_, fun i h h8 => ?_⟩
  · rw [file_perm]; simp [h2, Nat.lt_of_le_of_ne h1 h2]
  · rw [file_perm]; simp
  · rw [file_perm]; simp
  · rw [file_perm] at h; simp [h8] at h; rw [Nat.testBit_shiftRight]; exact h.1

example : filePerm (0o104755 <<< 16) = 0o4755 ∧ filePerm (0o100000 <<< 16) = 0o400 := by decide

/-- C72, full statement: a file or directory packed and unpacked again has the permissions it had. -/
def ModeFull : Prop := ∀ (d : Bool) (mode i : Nat), i < 12 →
  Nat.testBit ((if d then dirPerm else filePerm) (storedAttr d mode)) i = Nat.testBit mode i

/-- The setgid bit of files is lost. -/
theorem mode_refuted : ¬ ModeFull := by
  intro h
  have := h false 0o102755 10 (by decide)
  revert this
  decide +kernel

theorem low12_bit (i : Nat) : Nat.testBit 0o7777 i = decide (i < 12) := by
  have := Nat.testBit_two_pow_sub_one 12 i
  simpa using this

theorem low16_bit (i : Nat) : Nat.testBit 0xFFFF i = decide (i < 16) := by
  have := Nat.testBit_two_pow_sub_one 16 i
  simpa using this

/-- C72 for directories and files that their owner can read, except setgid and sticky bits of files. -/
theorem mode_partial (d : Bool) (mode i : Nat) (hi : i < 12) (h8 : Nat.testBit mode 8 = true)
    (hb : d = true ∨ (i ≠ 9 ∧ i ≠ 10)) :
    Nat.testBit ((if d then dirPerm else filePerm) (storedAttr d mode)) i = Nat.testBit mode i := by
  unfold storedAttr
  cases d with
  | true =>
    simp only [if_true]
    rw [dir_perm, Nat.testBit_shiftRight, Nat.testBit_shiftLeft, Nat.testBit_and]
    by_cases e : i = 8
    · subst e; simp [h8]
    · have hi' : i < 16 := by omega
      simp only [e, hi', decide_false, decide_true, Bool.false_or, Bool.and_true]
      rw [Nat.add_sub_cancel_left, low12_bit]
      simp [hi]
  | false =>
    simp only [Bool.false_eq_true, if_false]
    rw [file_perm, Nat.testBit_shiftRight, Nat.testBit_shiftLeft, Nat.testBit_and]
    rcases hb with hb | hb
    · cases hb
    · by_cases e : i = 8
      · subst e; simp [h8]
      · have hi' : i < 8 ∨ i = 11 := by omega
        rw [Nat.add_sub_cancel_left, low16_bit]
        have h16 : i < 16 := by omega
        simp only [e, h16, decide_false, decide_true, Bool.false_or, Bool.and_true]
        rcases hi' with h | h <;> simp [h]

/-! ## Paths without links -/

/-- No nonempty initial part of the path is `.`, `..`, empty or a link. -/
def Plain (fs : Files) (p : List Str) : Prop :=
  (∀ c ∈ p, c ≠ dot ∧ c ≠ dotdot) ∧ ∀ q, q ≠ [] → q <+: p → ∀ t, fs q ≠ some (.link t)

theorem plain_dropLast (fs : Files) (p : List Str) (h : Plain fs p) : Plain fs p.dropLast :=
  ⟨fun c hc => h.1 c (List.dropLast_subset _ hc), fun q hq hp => h.2 q hq (hp.trans (List.dropLast_prefix p))⟩

theorem plain_prefix (fs : Files) {p q : List Str} (hq : q <+: p) (h : Plain fs p) : Plain fs q :=
  ⟨fun c hc => h.1 c (hq.subset hc), fun r hr hp => h.2 r hr (hp.trans hq)⟩

theorem resolve_plain (fs : Files) (n : Nat) (cur cs : List Str) (h1 : ∀ c ∈ cs, c ≠ dot ∧ c ≠ dotdot)
    (h2 : ∀ q, q ≠ [] → q <+: cs → ∀ t, fs (cur ++ q) ≠ some (.link t)) (l : Loc) (h : resolve fs n cur cs = some l) :
    l = cur ++ cs := by
  induction n generalizing cur cs with
  | zero => cases h
  | succ n ih =>
    cases cs with
    | nil => cases h; simp
    | cons c cs =>
      obtain ⟨hd, hdd⟩ := h1 c (List.mem_cons_self ..)
      simp only [resolve, if_neg hd, if_neg hdd] at h
      cases hn : fs (cur ++ [c]) with
      | none => rw [hn] at h; cases h
      | some x =>
        rw [hn] at h
        cases x with
        | link t => exact absurd hn (h2 [c] (by simp) (by simp) t)
        | dir m =>
          have := ih (cur ++ [c]) cs (fun d hd => h1 d (List.mem_cons_of_mem _ hd)) (by
            intro q hq hp t
            have := h2 (c :: q) (by simp) (by simpa using hp) t
            simpa using this) h
          simpa using this
        | file a b =>
          by_cases e : cs = []
          · simp only [e, if_true, Option.some.injEq] at h
            rw [← h, e]
          · simp [e] at h

theorem resolve_root (fs : Files) (n : Nat) (p : List Str) (h : Plain fs p) (l : Loc) (hl : resolve fs n [] p = some l) :
    l = p := by
  have := resolve_plain fs n [] p h.1 (fun q hq hp => by simpa using h.2 q hq hp) l hl
  simpa using this

/-- Where `mkdir`, `unlink` and so on act on a path whose directories are plain. -/
theorem place_plain (fs : Files) (n : Nat) (p : List Str) (h : Plain fs p.dropLast) (l : Loc)
    (hl : place fs n p = some l) : l = p := by
  unfold place at hl
  cases hg : p.getLast? with
  | none => rw [hg] at hl; cases hl
  | some c =>
    rw [hg] at hl
    simp only at hl
    by_cases hc : c = dot ∨ c = dotdot
    · rw [if_pos hc] at hl; cases hl
    · rw [if_neg hc] at hl
      cases hr : resolve fs n [] p.dropLast with
      | none => rw [hr] at hl; cases hl
      | some d =>
        rw [hr] at hl
        simp only at hl
        by_cases hd : dirAt fs d = true
        · rw [if_pos hd] at hl
          cases hl
          rw [resolve_root fs n _ h d hr]
          obtain ⟨q, rfl⟩ := List.getLast?_eq_some_iff.1 hg
          simp
        · rw [if_neg hd] at hl; cases hl

/-! ## What is kept while unpacking -/

theorem prefix_append_cases {β : Type} {q a b : List β} (h : q <+: a ++ b) : q <+: a ∨ ∃ r, q = a ++ r ∧ r <+: b := by
  rcases List.prefix_or_prefix_of_prefix h (List.prefix_append a b) with h1 | ⟨r, rfl⟩
  · exact Or.inl h1
  · exact Or.inr ⟨r, rfl, (List.prefix_append_right_inj a).1 h⟩

/-- The target stays a directory, links below it are at the locations `L`, and only locations below the target were
changed. -/
structure Ok (T : Loc) (L : List Str → Prop) (f0 : Files) (s : St) : Prop where
  real : ∀ q, q ≠ [] → q <+: T → ∃ m, s.fs q = some (.dir m)
  links : ∀ q t, s.fs (T ++ q) = some (.link t) → L q
  log : ∀ l ∈ s.log, Below T l
  same : ∀ l, ¬ Below T l → s.fs l = f0 l

theorem below_not_prefix {T l q : Loc} (h : Below T l) (hq : q <+: T) : ¬ l <+: q := by
  obtain ⟨r, hr, rfl⟩ := h
  intro hp
  have h1 := hp.length_le
  have h2 := hq.length_le
  have h3 : 0 < r.length := List.length_pos_iff.2 hr
  simp at h1
  omega

theorem ok_set {T : Loc} {L : List Str → Prop} {f0 : Files} {s : St} (h : Ok T L f0 s) {l : Loc} (hl : Below T l) (x : Option Node)
    (hx : ∀ t, x = some (.link t) → ∀ q, l = T ++ q → L q) : Ok T L f0 (s.set l x) := by
  refine ⟨fun q hq hp => ?_, fun q t hq => ?_, fun m hm => ?_, fun m hm => ?_⟩
  · have : q ≠ l := fun e => below_not_prefix hl hp (e ▸ List.prefix_refl _)
    simp only [St.set, if_neg this]
    exact h.real q hq hp
  · simp only [St.set] at hq
    by_cases e : T ++ q = l
    · rw [if_pos e] at hq
      exact hx t hq q e.symm
    · rw [if_neg e] at hq
      exact h.links q t hq
  · rcases List.mem_append.1 hm with hm | hm
    · exact h.log m hm
    · rw [List.mem_singleton.1 hm]; exact hl
  · have : m ≠ l := fun e => hm (e ▸ hl)
    simp only [St.set, if_neg this]
    exact h.same m hm

theorem ok_cut {T : Loc} {L : List Str → Prop} {f0 : Files} {s : St} (h : Ok T L f0 s) {l : Loc} (hl : Below T l) : Ok T L f0 (s.cut l) := by
  refine ⟨fun q hq hp => ?_, fun q t hq => ?_, fun m hm => ?_, fun m hm => ?_⟩
  · simp only [St.cut, if_neg (below_not_prefix hl hp)]
    exact h.real q hq hp
  · simp only [St.cut] at hq
    by_cases e : l <+: T ++ q
    · rw [if_pos e] at hq; cases hq
    · rw [if_neg e] at hq
      exact h.links q t hq
  · rcases List.mem_append.1 hm with hm | hm
    · exact h.log m hm
    · rw [List.mem_singleton.1 hm]; exact hl
  · have : ¬ l <+: m := by
      rintro ⟨r, rfl⟩
      obtain ⟨q, hq, rfl⟩ := hl
      exact hm ⟨q ++ r, by simp [hq], by simp⟩
    simp only [St.cut, if_neg this]
    exact h.same m hm

/-- The names of a path below the target that does not lead through a link. -/
def Free (L : List Str → Prop) (ns : List Str) : Prop := (∀ c ∈ ns, c ≠ dot ∧ c ≠ dotdot) ∧ ∀ q, q ≠ [] → q <+: ns → ¬ L q

theorem ok_plain {T : Loc} {L : List Str → Prop} {f0 : Files} {s : St} (h : Ok T L f0 s) (hT : ∀ c ∈ T, c ≠ dot ∧ c ≠ dotdot)
    {ns : List Str} (hf : Free L ns) : Plain s.fs (T ++ ns) := by
  refine ⟨fun c hc => ?_, fun q hq hp t ht => ?_⟩
  · rcases List.mem_append.1 hc with hc | hc
    · exact hT c hc
    · exact hf.1 c hc
  · rcases prefix_append_cases hp with hp | ⟨r, rfl, hr⟩
    · obtain ⟨m, hm⟩ := h.real q hq hp
      rw [hm] at ht; cases ht
    · by_cases e : r = []
      · subst e
        simp only [List.append_nil] at ht hq
        obtain ⟨m, hm⟩ := h.real T hq (List.prefix_refl _)
        rw [hm] at ht; cases ht
      · exact hf.2 r e hr (h.links r t ht)

/-- A path on the way to the target, or below it and not leading through a link. -/
def OnPath (T : Loc) (L : List Str → Prop) (p : List Str) : Prop :=
  p <+: T ∨ ∃ ns, ns ≠ [] ∧ p = T ++ ns ∧ Free L ns.dropLast

theorem dropLast_prefix_mono {β : Type} {a b : List β} (h : a <+: b) : a.dropLast <+: b.dropLast := by
  obtain ⟨r, rfl⟩ := h
  by_cases e : r = []
  · subst e; simp
  · rw [List.dropLast_append_of_ne_nil e]
    exact (List.dropLast_prefix a).trans (List.prefix_append _ _)

theorem free_prefix {L : List Str → Prop} {a b : List Str} (h : a <+: b) (hf : Free L b) : Free L a :=
  ⟨fun c hc => hf.1 c (h.subset hc), fun q hq hp => hf.2 q hq (hp.trans h)⟩

theorem onPath_prefix {T : Loc} {L : List Str → Prop} {p q : List Str} (h : OnPath T L p) (hq : q <+: p) :
    OnPath T L q := by
  rcases h with h | ⟨ns, hne, rfl, hf⟩
  · exact Or.inl (hq.trans h)
  · rcases prefix_append_cases hq with h1 | ⟨r, rfl, hr⟩
    · exact Or.inl h1
    · by_cases e : r = []
      · subst e; left; simp
      · exact Or.inr ⟨r, e, rfl, free_prefix (dropLast_prefix_mono hr) hf⟩

theorem onPath_plain {T : Loc} {L : List Str → Prop} {f0 : Files} {s : St} (h : Ok T L f0 s) (hT : ∀ c ∈ T, c ≠ dot ∧ c ≠ dotdot)
    {p : List Str} (hp : OnPath T L p) : Plain s.fs p.dropLast := by
  rcases hp with hp | ⟨ns, hne, rfl, hf⟩
  · have := ok_plain h hT (ns := []) ⟨by simp, fun q hq hp => by simp at hp; exact absurd hp hq⟩
    rw [List.append_nil] at this
    exact plain_prefix _ ((List.dropLast_prefix p).trans hp) this
  · rw [List.dropLast_append_of_ne_nil hne]
    exact ok_plain h hT hf

/-- What was at a location is still there, except at the locations `E`. -/
def Keeps (E : Loc → Prop) (s s' : St) : Prop := ∀ l x, s.fs l = some x → ¬ E l → s'.fs l = some x

theorem keeps_refl (E : Loc → Prop) (s : St) : Keeps E s s := fun _ _ h _ => h

theorem Keeps.trans {E : Loc → Prop} {a b c : St} (h1 : Keeps E a b) (h2 : Keeps E b c) : Keeps E a c :=
  fun l x h he => h2 l x (h1 l x h he) he

theorem Keeps.mono {E F : Loc → Prop} {a b : St} (h : Keeps E a b) (hEF : ∀ l, E l → F l) : Keeps F a b :=
  fun l x hx hf => h l x hx (fun he => hf (hEF l he))

theorem keeps_set (s : St) (l : Loc) (x : Option Node) : Keeps (· = l) s (s.set l x) := by
  intro m y hy hm
  simp only [St.set, if_neg hm]
  exact hy

theorem keeps_cut (s : St) (l : Loc) : Keeps (l <+: ·) s (s.cut l) := by
  intro m y hy hm
  simp only [St.cut, if_neg hm]
  exact hy

theorem keeps_new (s : St) (l : Loc) (x : Option Node) (hl : s.fs l = none) : Keeps (fun _ => False) s (s.set l x) := by
  intro m y hy _
  have : m ≠ l := fun e => by rw [e, hl] at hy; cases hy
  simp only [St.set, if_neg this]
  exact hy

section Ops
variable {T : Loc} {L : List Str → Prop} {f0 : Files} (hT : ∀ c ∈ T, c ≠ dot ∧ c ≠ dotdot)
include hT

theorem mkdir_ok (n : Nat) (p : List Str) (mode : Nat) (s : St) (h : Ok T L f0 s) (hp : OnPath T L p) :
    Ok T L f0 (mkdir n p mode s).1 ∧ Keeps (fun _ => False) s (mkdir n p mode s).1 := by
  unfold mkdir
  cases hl : place s.fs n p with
  | none => exact ⟨h, keeps_refl _ _⟩
  | some l =>
    simp only
    by_cases hs : (s.fs l).isSome = true
    · rw [if_pos hs]; exact ⟨h, keeps_refl _ _⟩
    · rw [if_neg hs]
      have hpl := onPath_plain h hT hp
      have e := place_plain s.fs n p hpl l hl
      have hn : s.fs l = none := by simpa using hs
      have hne : l ≠ [] := by
        intro e'
        rw [← e, e'] at hl
        simp [place] at hl
      refine ⟨ok_set h ?_ _ (fun t ht => by cases ht), keeps_new s l _ hn⟩
      subst e
      rcases hp with hp | ⟨ns, hns, rfl, _⟩
      · obtain ⟨m, hm⟩ := h.real l hne hp
        rw [hm] at hn; cases hn
      · exact ⟨ns, hns, rfl⟩

theorem makedirs_ok (n : Nat) (cs : List Str) : ∀ (done : List Str) (mode : Nat) (s : St), Ok T L f0 s →
    OnPath T L (done ++ cs) →
    Ok T L f0 (makedirs n done cs mode s).1 ∧ Keeps (fun _ => False) s (makedirs n done cs mode s).1 := by
  induction cs with
  | nil => intro done mode s h _; exact ⟨h, keeps_refl _ _⟩
  | cons c cs ih =>
    intro done mode s h hp
    cases cs with
    | nil => exact mkdir_ok hT n _ mode s h hp
    | cons d ds =>
      have hp1 : OnPath T L (done ++ [c]) := onPath_prefix hp (by simp)
      have hp2 : OnPath T L ((done ++ [c]) ++ (d :: ds)) := by simpa using hp
      unfold makedirs
      by_cases hs : (stat s.fs n (done ++ [c])).isSome = true
      · rw [if_pos hs]
        exact ih (done ++ [c]) mode s h hp2
      · rw [if_neg hs]
        have hm := mkdir_ok hT n (done ++ [c]) 493 s h hp1
        cases hr : mkdir n (done ++ [c]) 493 s with
        | mk s' b =>
          rw [hr] at hm
          cases b with
          | false => exact hm
          | true =>
            have := ih (done ++ [c]) mode s' hm.1 hp2
            exact ⟨this.1, hm.2.trans this.2⟩

theorem checkDir_ok (n : Nat) (p : List Str) (s : St) (h : Ok T L f0 s) (hp : OnPath T L (stripDir p)) :
    Ok T L f0 (checkDir n p s).1 ∧ Keeps (fun _ => False) s (checkDir n p s).1 := by
  unfold checkDir
  by_cases h1 : stripDir p = []
  · rw [if_pos h1]; exact ⟨h, keeps_refl _ _⟩
  · rw [if_neg h1]
    by_cases h2 : (stat s.fs n (stripDir p)).isSome = true
    · rw [if_pos h2]; exact ⟨h, keeps_refl _ _⟩
    · rw [if_neg h2]
      exact makedirs_ok hT n _ [] 493 s h (by simpa using hp)

variable {ns : List Str} (hne : ns ≠ []) (hf : Free L ns.dropLast)
include hne hf

theorem place_eq (n : Nat) (s : St) (h : Ok T L f0 s) (l : Loc) (hl : place s.fs n (T ++ ns) = some l) : l = T ++ ns :=
  place_plain s.fs n _ (onPath_plain h hT (Or.inr ⟨ns, hne, rfl, hf⟩)) l hl

theorem clearOld_ok (n : Nat) (s : St) (h : Ok T L f0 s) :
    Ok T L f0 (clearOld n (T ++ ns) s).1 ∧ Keeps (· = T ++ ns) s (clearOld n (T ++ ns) s).1 := by
  unfold clearOld
  split
  · cases hl : place s.fs n (T ++ ns) with
    | none => exact ⟨h, keeps_refl _ _⟩
    | some l =>
      have e := place_eq hT hne hf n s h l hl
      subst e
      exact ⟨ok_set h ⟨ns, hne, rfl⟩ _ (fun t ht => by cases ht), keeps_set _ _ _⟩
  · exact ⟨h, keeps_refl _ _⟩

theorem clearDir_ok (n : Nat) (s : St) (h : Ok T L f0 s) :
    Ok T L f0 (clearDir n (T ++ ns) s).1 ∧ Keeps (T ++ ns <+: ·) s (clearDir n (T ++ ns) s).1 := by
  unfold clearDir
  split
  · cases hl : place s.fs n (T ++ ns) with
    | none => exact ⟨h, keeps_refl _ _⟩
    | some l =>
      have e := place_eq hT hne hf n s h l hl
      subst e
      exact ⟨ok_cut h ⟨ns, hne, rfl⟩, keeps_cut _ _⟩
  · exact ⟨h, keeps_refl _ _⟩

theorem symlink_ok (n : Nat) (target : Str) (hL : L ns) (s : St) (h : Ok T L f0 s) :
    Ok T L f0 (symlink n (T ++ ns) target s).1 ∧ Keeps (fun _ => False) s (symlink n (T ++ ns) target s).1 ∧
      ((symlink n (T ++ ns) target s).2 = true → (symlink n (T ++ ns) target s).1.fs (T ++ ns) = some (.link target)) := by
  unfold symlink
  cases hl : place s.fs n (T ++ ns) with
  | none => exact ⟨h, keeps_refl _ _, fun h => by cases h⟩
  | some l =>
    have e := place_eq hT hne hf n s h l hl
    subst e
    simp only
    by_cases hs : (s.fs (T ++ ns)).isSome = true
    · rw [if_pos hs]; exact ⟨h, keeps_refl _ _, fun h => by cases h⟩
    · rw [if_neg hs]
      refine ⟨ok_set h ⟨ns, hne, rfl⟩ _ (fun t _ q hq => ?_), keeps_new s _ _ (by simpa using hs), fun _ => by simp [St.set]⟩
      rw [← List.append_cancel_left hq]; exact hL

theorem writeFile_ok (n : Nat) (content : Str) (mode : Nat) (s : St) (h : Ok T L f0 s) :
    Ok T L f0 (writeFile n (T ++ ns) content mode s).1 ∧ Keeps (· = T ++ ns) s (writeFile n (T ++ ns) content mode s).1 ∧
      ((writeFile n (T ++ ns) content mode s).2 = true →
        (writeFile n (T ++ ns) content mode s).1.fs (T ++ ns) = some (.file content mode)) := by
  unfold writeFile
  cases hl : place s.fs n (T ++ ns) with
  | none => exact ⟨h, keeps_refl _ _, fun h => by cases h⟩
  | some l =>
    have e := place_eq hT hne hf n s h l hl
    subst e
    have good : Ok T L f0 (s.set (T ++ ns) (some (.file content mode))) ∧
        Keeps (· = T ++ ns) s (s.set (T ++ ns) (some (.file content mode))) ∧
        (true = true → (s.set (T ++ ns) (some (.file content mode))).fs (T ++ ns) = some (.file content mode)) :=
      ⟨ok_set h ⟨ns, hne, rfl⟩ _ (fun t ht => by cases ht), keeps_set _ _ _, fun _ => by simp [St.set]⟩
    simp only
    cases hn : s.fs (T ++ ns) with
    | none => exact good
    | some x =>
      cases x with
      | file a b => exact good
      | dir m => exact ⟨h, keeps_refl _ _, fun h => by cases h⟩
      | link t => exact ⟨h, keeps_refl _ _, fun h => by cases h⟩

end Ops

/-- What a member becomes. -/
def Member.node (m : Member) : Node := if m.attr = symmagic then .link m.content else .file m.content (filePerm m.attr)

/-- Where unpacking a member may remove something. -/
def Touches (T : Loc) (ns : List Str) (m : Member) (l : Loc) : Prop :=
  l = T ++ ns ∨ (m.attr = symmagic ∧ T ++ ns <+: l)

theorem andThen_ok {P : St → Prop} {E : Loc → Prop} {s : St} (r : St × Bool) (f : St → St × Bool)
    (hr : P r.1 ∧ Keeps E s r.1) (hf : ∀ s', P s' → P (f s').1 ∧ Keeps E s' (f s').1) :
    P (andThen r f).1 ∧ Keeps E s (andThen r f).1 := by
  unfold andThen
  by_cases h : r.2 = true
  · rw [if_pos h]
    have := hf r.1 hr.1
    exact ⟨this.1, hr.2.trans this.2⟩
  · rw [if_neg h]; exact hr

theorem andThen_true (r : St × Bool) (f : St → St × Bool) (h : (andThen r f).2 = true) :
    r.2 = true ∧ andThen r f = f r.1 := by
  unfold andThen at h ⊢
  by_cases hr : r.2 = true
  · rw [if_pos hr]; exact ⟨hr, rfl⟩
  · rw [if_neg hr] at h; exact absurd h hr

theorem rstrip_none (c : Str) (h : c.getLast?.all (fun x => ¬ isSpace x)) : rstrip isSpace c = c := by
  unfold rstrip
  cases hr : c.reverse with
  | nil => simp at hr; subst hr; rfl
  | cons x r =>
    have hx : c.getLast? = some x := by
      rw [← List.head?_reverse, hr]; rfl
    rw [hx] at h
    simp only [Option.all_some, decide_eq_true_eq] at h
    rw [List.dropWhile_cons, if_neg h, ← hr, List.reverse_reverse]

theorem stripDir_onPath {T : Loc} {L : List Str → Prop} {fs : Files} (hT : RealDir fs T) {ns : List Str}
    (hf : Free L ns) : OnPath T L (stripDir (T ++ ns)) := by
  unfold stripDir
  by_cases hn : ns = []
  · subst hn
    left
    rw [List.append_nil]
    cases hg : T.getLast? with
    | none => simp
    | some c =>
      obtain ⟨q, rfl⟩ := List.getLast?_eq_some_iff.1 hg
      have hc := hT.2.2 c hg
      simp only [rstrip_none c hc]
      have : c ≠ [] := (hT.2.1 c (by simp)).2.2
      rw [if_neg this]
      simp
  · obtain ⟨ms, c, rfl⟩ : ∃ ms c, ns = ms ++ [c] := by
      rcases List.eq_nil_or_concat ns with h | ⟨ms, c, h⟩
      · exact absurd h hn
      · exact ⟨ms, c, by rw [h, List.concat_eq_append]⟩
    have hg : (T ++ (ms ++ [c])).getLast? = some c := by rw [← List.append_assoc]; simp
    have hd : (T ++ (ms ++ [c])).dropLast = T ++ ms := by rw [← List.append_assoc]; simp
    rw [hg, hd]
    have hm : Free L ms := free_prefix (List.prefix_append _ _) hf
    simp only
    split
    · by_cases e : ms = []
      · subst e; left; simp
      · exact Or.inr ⟨ms, e, rfl, free_prefix (List.dropLast_prefix ms) hm⟩
    · right
      exact ⟨ms ++ [rstrip isSpace c], by simp, by simp, by simpa using hm⟩

section Members
variable {T : Loc} {L : List Str → Prop} {f0 fs0 : Files} (hT : RealDir fs0 T)
include hT

theorem fileMember_ok (n : Nat) (ns : List Str) (hne : ns ≠ []) (hf : Free L ns.dropLast) (m : Member)
    (hL : m.attr = symmagic → L ns) (s : St) (h : Ok T L f0 s) :
    (Ok T L f0 (unpackFileMember n (T ++ ns) m s).1 ∧ Keeps (Touches T ns m) s (unpackFileMember n (T ++ ns) m s).1) ∧
      ((unpackFileMember n (T ++ ns) m s).2 = true →
        (unpackFileMember n (T ++ ns) m s).1.fs (T ++ ns) = some m.node) := by
  have hT' : ∀ c ∈ T, c ≠ dot ∧ c ≠ dotdot := fun c hc => ⟨(hT.2.1 c hc).1, (hT.2.1 c hc).2.1⟩
  have hd : (T ++ ns).dropLast = T ++ ns.dropLast := List.dropLast_append_of_ne_nil hne
  have h1 := checkDir_ok hT' n (T ++ ns).dropLast s h (by rw [hd]; exact stripDir_onPath hT hf)
  have k1 : Keeps (Touches T ns m) s (checkDir n (T ++ ns).dropLast s).1 := h1.2.mono (fun l h => h.elim)
  unfold unpackFileMember
  constructor
  · refine andThen_ok _ _ ⟨h1.1, k1⟩ (fun s1 o1 => ?_)
    have h2 := clearOld_ok hT' hne hf n s1 o1
    refine andThen_ok _ _ ⟨h2.1, h2.2.mono (fun l e => Or.inl e)⟩ (fun s2 o2 => ?_)
    by_cases ha : m.attr = symmagic
    · simp only [if_pos ha]
      have h3 := clearDir_ok hT' hne hf n s2 o2
      refine andThen_ok _ _ ⟨h3.1, h3.2.mono (fun l e => Or.inr ⟨ha, e⟩)⟩ (fun s3 o3 => ?_)
      have h4 := symlink_ok hT' hne hf n m.content (hL ha) s3 o3
      exact ⟨h4.1, h4.2.1.mono (fun l e => e.elim)⟩
    · simp only [if_neg ha]
      have h4 := writeFile_ok hT' hne hf n m.content (filePerm m.attr) s2 o2
      exact ⟨h4.1, h4.2.1.mono (fun l e => Or.inl e)⟩
  · intro hok
    obtain ⟨_, e1⟩ := andThen_true _ _ hok
    rw [e1] at hok ⊢
    have h2 := clearOld_ok hT' hne hf n _ h1.1
    obtain ⟨_, e2⟩ := andThen_true _ _ hok
    rw [e2] at hok ⊢
    by_cases ha : m.attr = symmagic
    · rw [if_pos ha] at hok ⊢
      have h3 := clearDir_ok hT' hne hf n _ h2.1
      obtain ⟨_, e3⟩ := andThen_true _ _ hok
      rw [e3] at hok ⊢
      have h4 := symlink_ok hT' hne hf n m.content (hL ha) _ h3.1
      rw [h4.2.2 hok]
      simp [Member.node, ha]
    · rw [if_neg ha] at hok ⊢
      have h4 := writeFile_ok hT' hne hf n m.content (filePerm m.attr) _ h2.1
      rw [h4.2.2 hok]
      simp [Member.node, ha]

theorem dirMember_ok (n : Nat) (ns : List Str) (hf : Free L ns.dropLast) (m : Member) (s : St) (h : Ok T L f0 s) :
    Ok T L f0 (unpackDirMember n (T ++ ns) m s).1 ∧ Keeps (fun _ => False) s (unpackDirMember n (T ++ ns) m s).1 := by
  have hT' : ∀ c ∈ T, c ≠ dot ∧ c ≠ dotdot := fun c hc => ⟨(hT.2.1 c hc).1, (hT.2.1 c hc).2.1⟩
  unfold unpackDirMember
  split
  · exact ⟨h, keeps_refl _ _⟩
  · refine makedirs_ok hT' n _ [] _ s h ?_
    by_cases e : ns = []
    · subst e; left; simp
    · exact Or.inr ⟨ns, e, by simp, hf⟩

/-- What is asked of the paths of the members. -/
structure Fine (pred : Str → Bool) (root : Str) (L : List Str → Prop) (m : Member) : Prop where
  rel : ∀ out, pred m.name = true → outpath root m.name = some out → isAbs out = false ∧ Free L (names out).dropLast
  file : ∀ out, pred m.name = true → outpath root m.name = some out → m.isDir = false → names out ≠ []
  link : ∀ out, pred m.name = true → outpath root m.name = some out → m.isDir = false → m.attr = symmagic → L (names out)

theorem member_ok (n : Nat) (pred : Str → Bool) (root : Str) (m : Member) (hm : Fine pred root L m) (s : St)
    (h : Ok T L f0 s) :
    Ok T L f0 (unpackMember n pred root T m s).1 ∧
    Keeps (fun l => ∃ out, pred m.name = true ∧ outpath root m.name = some out ∧ m.isDir = false ∧ Touches T (names out) m l)
      s (unpackMember n pred root T m s).1 ∧
    ((unpackMember n pred root T m s).2 = true → ∀ out, pred m.name = true → outpath root m.name = some out →
      m.isDir = false → (unpackMember n pred root T m s).1.fs (T ++ names out) = some m.node) := by
  unfold unpackMember
  by_cases hp : pred m.name = true
  · rw [if_pos hp]
    cases ho : outpath root m.name with
    | none => exact ⟨h, keeps_refl _ _, fun _ out _ e => by cases e⟩
    | some out =>
      obtain ⟨h1, h2⟩ := hm.rel out hp ho
      have e : ofile T out = T ++ names out := by simp [ofile, h1]
      simp only
      by_cases hd : m.isDir = true
      · rw [if_pos hd, e]
        have := dirMember_ok hT n (names out) h2 m s h
        exact ⟨this.1, this.2.mono (fun l h => h.elim), fun _ o _ _ hd' => by rw [hd] at hd'; cases hd'⟩
      · rw [if_neg hd, e]
        have hd' : m.isDir = false := by simpa using hd
        have := fileMember_ok hT n (names out) (hm.file out hp ho hd') h2 m (hm.link out hp ho hd') s h
        exact ⟨this.1.1, this.1.2.mono (fun l t => ⟨out, hp, rfl, hd', t⟩), fun hok o _ ho' _ => by
          cases ho'; exact this.2 hok⟩
  · rw [if_neg hp]
    exact ⟨h, keeps_refl _ _, fun _ out hp' => absurd hp' hp⟩

theorem cond_ok (n : Nat) (pred : Str → Bool) (root : Str) (ms : List Member) (hms : ∀ m ∈ ms, Fine pred root L m)
    (s : St) (h : Ok T L f0 s) : Ok T L f0 (unpackCond n pred root T ms s).1 := by
  induction ms generalizing s with
  | nil => exact h
  | cons m ms ih =>
    have h1 := member_ok hT n pred root m (hms m (List.mem_cons_self ..)) s h
    unfold unpackCond andThen
    split
    · exact ih (fun k hk => hms k (List.mem_cons_of_mem _ hk)) _ h1.1
    · exact h1.1

/-- What was there when unpacking began and lies at or below no member is still there. -/
theorem cond_keeps (n : Nat) (pred : Str → Bool) (root : Str) (ms : List Member) (hms : ∀ m ∈ ms, Fine pred root L m)
    (s : St) (h : Ok T L f0 s) : Keeps (fun l => ∃ m ∈ ms, ∃ out, pred m.name = true ∧ outpath root m.name = some out ∧
      m.isDir = false ∧ Touches T (names out) m l) s (unpackCond n pred root T ms s).1 := by
  induction ms generalizing s with
  | nil => exact keeps_refl _ _
  | cons m ms ih =>
    have h1 := member_ok hT n pred root m (hms m (List.mem_cons_self ..)) s h
    have k1 : Keeps (fun l => ∃ k ∈ m :: ms, ∃ out, pred k.name = true ∧ outpath root k.name = some out ∧
      k.isDir = false ∧ Touches T (names out) k l) s (unpackMember n pred root T m s).1 :=
      h1.2.1.mono (fun l hl => ⟨m, List.mem_cons_self .., hl⟩)
    unfold unpackCond andThen
    split
    · exact k1.trans ((ih (fun k hk => hms k (List.mem_cons_of_mem _ hk)) _ h1.1).mono
        (fun l ⟨k, hk, hl⟩ => ⟨k, List.mem_cons_of_mem _ hk, hl⟩))
    · exact k1

/-- After successful unpacking every file and link is at its place, if no two members have the same place. -/
theorem cond_content (n : Nat) (pred : Str → Bool) (root : Str) (ms : List Member) (hms : ∀ m ∈ ms, Fine pred root L m)
    (hdis : ms.Pairwise (fun a b => ∀ oa ob, outpath root a.name = some oa → outpath root b.name = some ob →
      names oa ≠ names ob))
    (s : St) (h : Ok T L f0 s) (hok : (unpackCond n pred root T ms s).2 = true) (m : Member) (hm : m ∈ ms) (out : Str)
    (hp : pred m.name = true) (ho : outpath root m.name = some out) (hd : m.isDir = false)
    (hlink : ∀ k ∈ ms, ∀ ok, outpath root k.name = some ok → k.isDir = false → k.attr = symmagic →
      pred k.name = true → names ok <+: names out → names ok = names out) :
    (unpackCond n pred root T ms s).1.fs (T ++ names out) = some m.node := by
  induction ms generalizing s with
  | nil => cases hm
  | cons a ms ih =>
    have h1 := member_ok hT n pred root a (hms a (List.mem_cons_self ..)) s h
    unfold unpackCond andThen at hok ⊢
    by_cases b : (unpackMember n pred root T a s).2 = true
    · rw [if_pos b] at hok ⊢
      obtain ⟨hd1, hd2⟩ := List.pairwise_cons.1 hdis
      rcases List.mem_cons.1 hm with e | hm'
      · subst e
        have hx := h1.2.2 b out hp ho hd
        refine cond_keeps hT n pred root ms (fun k hk => hms k (List.mem_cons_of_mem _ hk)) _ h1.1 _ _ hx ?_
        rintro ⟨k, hk, ok, pk, hok', dk, ht⟩
        have hne := hd1 k hk out ok ho hok'
        rcases ht with ht | ⟨ha, ht⟩
        · exact hne (List.append_cancel_left ht)
        · rw [List.prefix_append_right_inj] at ht
          exact hne (hlink k (List.mem_cons_of_mem _ hk) ok hok' dk ha pk ht).symm
      · exact ih (fun k hk => hms k (List.mem_cons_of_mem _ hk)) hd2 _ h1.1 hok hm'
          (fun k hk => hlink k (List.mem_cons_of_mem _ hk))
    · rw [if_neg b] at hok; exact absurd hok b

end Members

/-! ## C48, C71 -/

theorem names_segs (p : Str) : names p = segs p := (segs_eq p).symm

theorem isAbs_iff (p : Str) : isAbs p = true ↔ IsAbs p := by
  unfold isAbs IsAbs
  cases p with
  | nil => simp
  | cons c r => simp


/-- The places of the links among the members. -/
def linkPlaces (pred : Str → Bool) (root : Str) (ms : List Member) : List (List Str) :=
  (ms.filter (fun m => pred m.name && (!m.isDir && decide (m.attr = symmagic)))).filterMap
    (fun m => (outpath root m.name).map names)

theorem mem_linkPlaces (pred : Str → Bool) (root : Str) (ms : List Member) (q : List Str) :
    q ∈ linkPlaces pred root ms ↔ ∃ m ∈ ms, pred m.name = true ∧ m.isDir = false ∧ m.attr = symmagic ∧
      ∃ out, outpath root m.name = some out ∧ names out = q := by
  simp only [linkPlaces, List.mem_filterMap, List.mem_filter, Bool.and_eq_true, Bool.not_eq_true', decide_eq_true_eq,
    Option.map_eq_some_iff]
  constructor
  · rintro ⟨m, ⟨hm, hp, hd, ha⟩, hq⟩
    exact ⟨m, hm, hp, hd, ha, hq⟩
  · rintro ⟨m, hm, hp, hd, ha, hq⟩
    exact ⟨m, ⟨hm, hp, hd, ha⟩, hq⟩

/-- The places of links, of the members or already there. -/
def LinkAt (fs : Files) (T : Loc) (pred : Str → Bool) (root : Str) (ms : List Member) (q : List Str) : Prop :=
  q ∈ linkPlaces pred root ms ∨ ∃ t, fs (T ++ q) = some (.link t)

theorem ok_init (T : Loc) (fs : Files) (hT : RealDir fs T) (pred : Str → Bool) (root : Str) (ms : List Member) :
    Ok T (LinkAt fs T pred root ms) fs ⟨fs, []⟩ :=
  ⟨hT.1, fun _ t h => Or.inr ⟨t, h⟩, fun l h => (by cases h), fun _ _ => rfl⟩

theorem linksAside_of_noLinks (fs : Files) (T : Loc) (root : Str) (ms : List Member) (h : NoLinks fs T) :
    LinksAside fs T root ms := fun q t hq => absurd hq (h q t)

/-- Clean names without members below links give fine paths. -/
theorem fine_of_clean (fs : Files) (T : Loc) (pred : Str → Bool) (root : Str) (ms : List Member)
    (hout : ∀ m ∈ ms, ∀ out, pred m.name = true → outpath root m.name = some out →
      CleanName out ∧ (m.isDir = false → segs out ≠ []))
    (hbel : ∀ m ∈ ms, ∀ k ∈ ms, ∀ om ok, pred m.name = true → pred k.name = true → outpath root m.name = some om →
      outpath root k.name = some ok → k.IsLink → segs ok <+: segs om → segs ok = segs om)
    (hlinks : ∀ q t, fs (T ++ q) = some (.link t) → ∀ m ∈ ms, ∀ out, pred m.name = true → outpath root m.name = some out →
      q <+: segs out → q = segs out) :
    ∀ m ∈ ms, Fine pred root (LinkAt fs T pred root ms) m := by
  intro m hm
  refine ⟨fun out hp ho => ?_, fun out hp ho hd => ?_, fun out hp ho hd ha => ?_⟩
  · obtain ⟨⟨h1, h2, h3⟩, _⟩ := hout m hm out hp ho
    refine ⟨by
      cases hx : isAbs out with
      | false => rfl
      | true => exact absurd ((isAbs_iff out).1 hx) h1, fun c hc => ?_, fun q hq hp' hL => ?_⟩
    · have : c ∈ segs out := by rw [← names_segs]; exact List.dropLast_subset _ hc
      exact ⟨fun e => h2 (e ▸ this), fun e => h3 (e ▸ this)⟩
    · have hpre : q <+: names out := hp'.trans (List.dropLast_prefix _)
      have : q = names out := by
        rcases hL with hL | ⟨t, ht⟩
        · obtain ⟨k, hk, pk, dk, ak, ok, hok, rfl⟩ := (mem_linkPlaces pred root ms q).1 hL
          have := hbel m hm k hk out ok hp pk ho hok ⟨dk, ak⟩ (by rw [← names_segs, ← names_segs]; exact hpre)
          rwa [← names_segs, ← names_segs] at this
        · rw [names_segs] at hpre ⊢
          exact hlinks q t ht m hm out hp ho hpre
      have hl := hp'.length_le
      rw [this, List.length_dropLast] at hl
      have : 0 < (names out).length := List.length_pos_iff.2 (this ▸ hq)
      omega
  · rw [names_segs]
    exact (hout m hm out hp ho).2 hd
  · exact Or.inl <| (mem_linkPlaces pred root ms _).2 ⟨m, hm, hp, hd, ha, out, ho, rfl⟩

/-- C48, full statement: unpacking into a directory changes nothing but what is below it. -/
def ConfinedFull : Prop := ∀ (n : Nat) (T : Loc) (fs : Files) (ms : List Member), RealDir fs T → NoLinks fs T →
  ∀ l ∈ (unpackAll n T ms ⟨fs, []⟩).1.log, Below T l

/-- C48 for archives whose members have relative names without `.` and `..` and do not lie below links of the archive:
only locations below the target are ever changed, so that everything else is as before. -/
theorem confined_partial (n : Nat) (T : Loc) (fs : Files) (ms : List Member) (hT : RealDir fs T) (hn : LinksAside fs T [] ms)
    (hc : ∀ m ∈ ms, CleanName m.name ∧ (m.isDir = false → segs m.name ≠ [])) (hb : NoneBelowLinks ms) :
    (∀ l ∈ (unpackAll n T ms ⟨fs, []⟩).1.log, Below T l) ∧
      ∀ l, ¬ Below T l → (unpackAll n T ms ⟨fs, []⟩).1.fs l = fs l := by
  have hf := fine_of_clean fs T (fun _ => true) [] ms
    (fun m hm out _ ho => by simp only [outpath, if_true, Option.some.injEq] at ho; subst ho; exact hc m hm)
    (fun m hm k hk om ok _ _ hom hok hl => by
      simp only [outpath, if_true, Option.some.injEq] at hom hok
      subst hom; subst hok
      exact hb m hm k hk hl)
    (fun q t hq m hm out _ ho hpre => by
      simp only [outpath, if_true, Option.some.injEq] at ho
      subst ho
      exact hn q t hq m hm hpre)
  have := cond_ok hT n _ [] ms hf ⟨fs, []⟩ (ok_init T fs hT _ _ _)
  exact ⟨this.log, this.same⟩

/-- What `outpath` does with a member below the root. -/
theorem outpath_root (root name out : Str) (hr : root ≠ []) (h : outpath root name = some out) :
    segs name = segs root ++ segs out ∧ ¬ IsAbs out := by
  unfold outpath at h
  rw [if_neg hr] at h
  by_cases hs : subpath root name = true
  · rw [if_pos hs] at h
    cases hx : removepathprefix root name with
    | error e => rw [hx] at h; cases h
    | ok r =>
      rw [hx] at h
      cases h
      constructor
      · obtain ⟨r', hr', hloc⟩ := rebase_partial root name (Or.inl hr) hs
        rw [hx] at hr'
        cases hr'
        rw [← hloc.2, (join_path_denotes root [_]).1]
        simp
      · obtain ⟨t, ht⟩ := (prefix_iff _ _).mp hs
        unfold removepathprefix at hx
        rw [(remove_prefix_ok_iff _ _ _).mpr ht.symm] at hx
        cases t with
        | nil => cases hx; rintro ⟨_, e⟩; cases e
        | cons c cs =>
          cases hx
          rw [(join_path_denotes c cs).2]
          rintro ⟨q, rfl⟩
          exact splitpath_mem_noslash name ('/' :: q) (by rw [← ht]; simp) (by simp)
  · rw [if_neg hs] at h; cases h

theorem clean_below (name out : Str) (root : Str) (hr : root ≠ []) (h : outpath root name = some out)
    (hd : dot ∉ segs name ∧ dotdot ∉ segs name) : CleanName out := by
  obtain ⟨h1, h2⟩ := outpath_root root name out hr h
  refine ⟨h2, fun hm => hd.1 ?_, fun hm => hd.2 ?_⟩ <;> (rw [h1]; simp [hm])

/-- C48 for `unpack_dir_flat`: the members below `path` are unpacked below the target, if their names are without `.`
and `..` and none lies below a link; here the names may be absolute. -/
theorem confined_flat_partial (n : Nat) (path : Str) (T : Loc) (fs : Files) (ms : List Member) (hr : path ≠ [])
    (hT : RealDir fs T) (hn : LinksAside fs T path ms)
    (hc : ∀ m ∈ ms, dot ∉ segs m.name ∧ dotdot ∉ segs m.name)
    (hfile : ∀ m ∈ ms, m.isDir = false → segs m.name ≠ segs path) (hb : NoneBelowLinks ms) :
    (∀ l ∈ (unpackDirFlat n path T ms ⟨fs, []⟩).1.log, Below T l) ∧
      ∀ l, ¬ Below T l → (unpackDirFlat n path T ms ⟨fs, []⟩).1.fs l = fs l := by
  have hf := fine_of_clean fs T (subpath path) path ms
    (fun m hm out _ ho => ⟨clean_below m.name out path hr ho (hc m hm), fun hd e => hfile m hm hd (by
      rw [(outpath_root path m.name out hr ho).1, e, List.append_nil])⟩)
    (fun m hm k hk om ok _ _ hom hok hl hpre => by
      have e1 := (outpath_root path m.name om hr hom).1
      have e2 := (outpath_root path k.name ok hr hok).1
      have := hb m hm k hk hl (by rw [e1, e2]; exact (List.prefix_append_right_inj _).2 hpre)
      rw [e1, e2] at this
      exact List.append_cancel_left this)
    (fun q t hq m hm out _ ho hpre => by
      have e1 := (outpath_root path m.name out hr ho).1
      have := hn q t hq m hm (by rw [e1]; exact (List.prefix_append_right_inj _).2 hpre)
      rw [e1] at this
      exact List.append_cancel_left this)
  have := cond_ok hT n _ path ms hf ⟨fs, []⟩ (ok_init T fs hT _ _ _)
  exact ⟨this.log, this.same⟩

/-- C71: after successful unpacking of such an archive without two members of the same path, every file is there with
its content and mode and every link with its target. -/
theorem unpack_content (n : Nat) (T : Loc) (fs : Files) (ms : List Member) (hT : RealDir fs T) (hn : LinksAside fs T [] ms)
    (hc : ∀ m ∈ ms, CleanName m.name ∧ (m.isDir = false → segs m.name ≠ [])) (hb : NoneBelowLinks ms)
    (hd : ms.Pairwise (fun a b => segs a.name ≠ segs b.name))
    (hok : (unpackAll n T ms ⟨fs, []⟩).2 = true) (m : Member) (hm : m ∈ ms) (hf : m.isDir = false) :
    (unpackAll n T ms ⟨fs, []⟩).1.fs (T ++ segs m.name) =
      some (if m.attr = symmagic then .link m.content else .file m.content (filePerm m.attr)) := by
  have hfine := fine_of_clean fs T (fun _ => true) [] ms
    (fun m hm out _ ho => by simp only [outpath, if_true, Option.some.injEq] at ho; subst ho; exact hc m hm)
    (fun m hm k hk om ok _ _ hom hok hl => by
      simp only [outpath, if_true, Option.some.injEq] at hom hok
      subst hom; subst hok
      exact hb m hm k hk hl)
    (fun q t hq m hm out _ ho hpre => by
      simp only [outpath, if_true, Option.some.injEq] at ho
      subst ho
      exact hn q t hq m hm hpre)
  rw [← names_segs]
  refine cond_content hT n (fun _ => true) [] ms hfine ?_ ⟨fs, []⟩ (ok_init T fs hT _ _ _) hok m hm m.name rfl rfl hf ?_
  · refine hd.imp ?_
    intro a b hab oa ob ha hb'
    simp only [outpath, if_true, Option.some.injEq] at ha hb'
    subst ha; subst hb'
    rw [names_segs, names_segs]; exact hab
  · intro k hk ok hok' dk ak _ hpre
    simp only [outpath, if_true, Option.some.injEq] at hok'
    subst hok'
    rw [names_segs, names_segs] at hpre ⊢
    exact hb m hm k hk ⟨dk, ak⟩ hpre

/-- C71 also for what was there before: anything not at the place of a member, and not below a link of the archive, is
unchanged. -/
theorem unpack_keeps (n : Nat) (T : Loc) (fs : Files) (ms : List Member) (hT : RealDir fs T) (hn : LinksAside fs T [] ms)
    (hc : ∀ m ∈ ms, CleanName m.name ∧ (m.isDir = false → segs m.name ≠ [])) (hb : NoneBelowLinks ms)
    (l : Loc) (x : Node) (hx : fs l = some x)
    (hl : ∀ m ∈ ms, m.isDir = false → l ≠ T ++ segs m.name ∧ (m.attr = symmagic → ¬ T ++ segs m.name <+: l)) :
    (unpackAll n T ms ⟨fs, []⟩).1.fs l = some x := by
  have hfine := fine_of_clean fs T (fun _ => true) [] ms
    (fun m hm out _ ho => by simp only [outpath, if_true, Option.some.injEq] at ho; subst ho; exact hc m hm)
    (fun m hm k hk om ok _ _ hom hok hl => by
      simp only [outpath, if_true, Option.some.injEq] at hom hok
      subst hom; subst hok
      exact hb m hm k hk hl)
    (fun q t hq m hm out _ ho hpre => by
      simp only [outpath, if_true, Option.some.injEq] at ho
      subst ho
      exact hn q t hq m hm hpre)
  refine cond_keeps hT n (fun _ => true) [] ms hfine ⟨fs, []⟩ (ok_init T fs hT _ _ _) l x hx ?_
  rintro ⟨m, hm, out, _, ho, hd, ht⟩
  simp only [outpath, if_true, Option.some.injEq] at ho
  subst ho
  rw [names_segs] at ht
  obtain ⟨h1, h2⟩ := hl m hm hd
  rcases ht with ht | ⟨ha, ht⟩
  · exact h1 ht
  · exact h2 ha ht

/-- A file system with the directories `/t` and `/e`. -/
def demo : Files := fun l => if l = [['t']] ∨ l = [['e']] then some (.dir 493) else none

theorem demo_real : RealDir demo [['t']] ∧ NoLinks demo [['t']] := by
  refine ⟨⟨?_, ?_, ?_⟩, ?_⟩
  · intro q hq hp
    have : q = [['t']] := by
      obtain ⟨r, hr⟩ := hp
      cases q with
      | nil => exact absurd rfl hq
      | cons c q => simp at hr; simp [hr]
    exact ⟨493, by simp [demo, this]⟩
  · intro c hc
    simp at hc; subst hc; decide
  · intro c hc
    simp at hc; subst hc; decide
  · intro q t h
    unfold demo at h
    split at h <;> cases h

/-- C48 is false of the code: an absolute name, a name with `..`, and a file below a link of the archive. -/
theorem confined_refuted : ¬ ConfinedFull := by
  intro h
  have := h 9 [['t']] demo [⟨['/', 'e', '/', 'x'], 0, []⟩] demo_real.1 demo_real.2 [['e'], ['x']]
    (by decide +kernel)
  obtain ⟨q, _, e⟩ := this
  simp at e

theorem confined_refuted_dotdot : ¬ ∀ (n : Nat) (T : Loc) (fs : Files) (ms : List Member), RealDir fs T → NoLinks fs T →
    (∀ m ∈ ms, ¬ IsAbs m.name) → ∀ l ∈ (unpackAll n T ms ⟨fs, []⟩).1.log, Below T l := by
  intro h
  have := h 9 [['t']] demo [⟨['.', '.', '/', 'e', '/', 'x'], 0, []⟩] demo_real.1 demo_real.2
    (by simp [IsAbs]) [['e'], ['x']] (by decide +kernel)
  obtain ⟨q, _, e⟩ := this
  simp at e

theorem confined_refuted_link : ¬ ∀ (n : Nat) (T : Loc) (fs : Files) (ms : List Member), RealDir fs T → NoLinks fs T →
    (∀ m ∈ ms, CleanName m.name) → ∀ l ∈ (unpackAll n T ms ⟨fs, []⟩).1.log, Below T l := by
  intro h
  have := h 9 [['t']] demo [⟨['l'], symmagic, ['/', 'e']⟩, ⟨['l', '/', 'x'], 0, []⟩] demo_real.1 demo_real.2
    (by intro m hm; simp at hm; rcases hm with rfl | rfl <;> simp [CleanName, IsAbs] <;> decide)
    [['e'], ['x']] (by decide +kernel)
  obtain ⟨q, _, e⟩ := this
  simp at e

/-- An archive with a directory, a file in it and a link. -/
example :
    let ms : List Member := [⟨['d', '/'], 0o40700 <<< 16, []⟩, ⟨['d', '/', 'f'], 0o104755 <<< 16, ['x']⟩,
      ⟨['l'], symmagic, ['d']⟩]
    let r := unpackAll 9 [['t']] ms ⟨demo, []⟩
    (∀ m ∈ ms, CleanName m.name ∧ (m.isDir = false → segs m.name ≠ [])) ∧ NoneBelowLinks ms ∧
    ms.Pairwise (fun a b => segs a.name ≠ segs b.name) ∧ r.2 = true ∧
    r.1.fs [['t'], ['d'], ['f']] = some (.file ['x'] 0o4755) := by
  intro ms r
  refine ⟨?_, ?_, by decide, by decide +kernel, by decide +kernel⟩
  · intro m hm
    simp [ms] at hm
    rcases hm with rfl | rfl | rfl <;> simp [CleanName, IsAbs] <;> decide
  · intro m hm k hk
    simp [ms] at hm hk
    rcases hm with rfl | rfl | rfl <;> rcases hk with rfl | rfl | rfl <;> simp [Member.IsLink] <;> decide

/-- The file below `install` goes to the target without that directory; the others are not unpacked. -/
example :
    let ms : List Member := [⟨['i', '/', 'f'], 0, ['x']⟩, ⟨['m'], 0, []⟩]
    let r := unpackDirFlat 9 ['i'] [['t']] ms ⟨demo, []⟩
    (∀ m ∈ ms, dot ∉ segs m.name ∧ dotdot ∉ segs m.name) ∧ (∀ m ∈ ms, m.isDir = false → segs m.name ≠ segs ['i']) ∧
    NoneBelowLinks ms ∧ r.2 = true ∧ r.1.fs [['t'], ['f']] = some (.file ['x'] 0o400) ∧ r.1.fs [['t'], ['m']] = none := by
  intro ms r
  refine ⟨by decide, by decide, ?_, by decide +kernel, by decide +kernel, by decide +kernel⟩
  intro m hm k hk
  simp [ms] at hm hk
  rcases hm with rfl | rfl <;> rcases hk with rfl | rfl <;> simp [Member.IsLink, symmagic]

end Pisi.Unpack
