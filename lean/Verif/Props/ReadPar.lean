import Verif.Spec.ReadPar
import Verif.Props.FetchPar

/-! # C233: package files read in one temporary directory -/
namespace Pisi.ReadPar

open FetchPar (Blob upd Complete upd_same upd_ne)

/-- The inode that a process has open, and under which name it was opened. -/
def Phase.fd : Phase → Option (Str × Nat)
  | .writing n i _ _ _ => some (n, i)
  | _ => none

/-- Every inode that has a name or is open belongs to one name of one directory. -/
structure Lab (dir : Nat → Nat) (s : State) (lab : Nat → Nat × Str) : Prop where
  named : ∀ d n i, s.names d n = some i → i < s.next ∧ lab i = (d, n)
  opened : ∀ q n i, (s.ph q).fd = some (n, i) → i < s.next ∧ lab i = (dir q, n)

theorem lab_start {dir : Nat → Nat} {s : State} (h : Start s) : ∃ lab, Lab dir s lab := by
  classical
  refine ⟨fun i => if e : ∃ p : Nat × Str, s.names p.1 p.2 = some i then Classical.choose e else (0, []), ⟨fun d n i hi => ?_, ?_⟩⟩
  · refine ⟨h.used d n i hi, ?_⟩
    have e : ∃ p : Nat × Str, s.names p.1 p.2 = some i := ⟨(d, n), hi⟩
    have hc := Classical.choose_spec e
    obtain ⟨h1, h2⟩ := h.one _ _ _ _ _ hc hi
    rw [dif_pos e]; exact Prod.ext h1 h2
  · intro q n i hi; rw [h.idle q] at hi; simp [Phase.fd] at hi

/-- A step that leaves names, and opens nothing. -/
theorem lab_go {dir : Nat → Nat} {s : State} {lab : Nat → Nat × Str} (h : Lab dir s lab) {q : Nat} {x : Phase} {ino : Nat → Blob}
    (hx : ∀ n i, x.fd = some (n, i) → (s.ph q).fd = some (n, i)) : Lab dir ({ s with ino := ino }.go q x) lab := by
  refine ⟨h.named, fun q' n i hi => ?_⟩
  by_cases e : q' = q
  · subst e; simp only [State.go, upd_same] at hi; exact h.opened q' n i (hx n i hi)
  · simp only [State.go, upd_ne _ _ e] at hi; exact h.opened q' n i hi

theorem lab_step {dir : Nat → Nat} {pkg : Nat → Pkg} {q : Nat} {s t : State} (hs : Step dir pkg q s t) {lab : Nat → Nat × Str}
    (h : Lab dir s lab) : ∃ lab', Lab dir t lab' ∧ ∀ i, i < s.next → lab' i = lab i := by
  cases hs with
  | begin hq => exact ⟨lab, lab_go (ino := s.ino) h (by simp [Phase.fd]), fun _ _ => rfl⟩
  | remove n ns hq =>
    refine ⟨lab, ⟨fun d n' i hi => ?_, fun q' n' i hi => ?_⟩, fun _ _ => rfl⟩
    · simp only [State.go, State.link] at hi
      split at hi
      · cases hi
      · exact h.named d n' i hi
    · by_cases e : q' = q
      · subst e; simp [State.go, upd_same, Phase.fd] at hi
      · simp only [State.go, State.link, upd_ne _ _ e] at hi; exact h.opened q' n' i hi
  | openW n ns hq =>
    simp only [State.openW]
    split
    · rename_i i hi
      refine ⟨lab, ⟨h.named, fun q' n' j hj => ?_⟩, fun _ _ => rfl⟩
      by_cases e : q' = q
      · subst e
        simp only [State.go, upd_same, Phase.fd, Option.some.injEq, Prod.mk.injEq] at hj
        obtain ⟨rfl, rfl⟩ := hj
        exact h.named _ _ _ hi
      · simp only [State.go, upd_ne _ _ e] at hj; exact h.opened q' n' j hj
    · refine ⟨upd lab s.next (dir q, n), ⟨fun d n' i hi => ?_, fun q' n' j hj => ?_⟩, fun i hi => upd_ne _ _ (by omega)⟩
      · simp only [State.go, State.link] at hi ⊢
        split at hi
        · rename_i e
          cases hi
          exact ⟨Nat.lt_succ_self _, by rw [upd_same, e.1, e.2]⟩
        · have := h.named d n' i hi
          exact ⟨by omega, by rw [upd_ne _ _ (by omega)]; exact this.2⟩
      · by_cases e : q' = q
        · subst e
          simp only [State.go, State.link, upd_same, Phase.fd, Option.some.injEq, Prod.mk.injEq] at hj ⊢
          obtain ⟨rfl, rfl⟩ := hj
          exact ⟨Nat.lt_succ_self _, upd_same _ _ _⟩
        · simp only [State.go, State.link, upd_ne _ _ e] at hj ⊢
          have := h.opened q' n' j hj
          exact ⟨by omega, by rw [upd_ne _ _ (by omega)]; exact this.2⟩
  | write n i off b bs ns hq => exact ⟨lab, lab_go h (by rw [hq]; simp [Phase.fd]), fun _ _ => rfl⟩
  | close n i off ns hq => exact ⟨lab, lab_go (ino := s.ino) h (by simp [Phase.fd]), fun _ _ => rfl⟩
  | unpacked hq => exact ⟨lab, lab_go (ino := s.ino) h (by simp [Phase.fd]), fun _ _ => rfl⟩
  | readMeta i hq hi => exact ⟨lab, lab_go (ino := s.ino) h (by simp [Phase.fd]), fun _ _ => rfl⟩
  | readFiles m i hq hi => exact ⟨lab, lab_go (ino := s.ino) h (by simp [Phase.fd]), fun _ _ => rfl⟩
  | kill => exact ⟨lab, lab_go (ino := s.ino) h (by simp [Phase.fd]), fun _ _ => rfl⟩

theorem lab_clean {dir : Nat → Nat} {s t : State} (hs : Clean s t) {lab : Nat → Nat × Str} (h : Lab dir s lab) : Lab dir t lab := by
  cases hs with
  | remove d n =>
    refine ⟨fun d' n' i hi => ?_, h.opened⟩
    simp only [State.link] at hi
    split at hi
    · cases hi
    · exact h.named d' n' i hi

/-- Deleting leaves all but names. -/
theorem clean_frame {s t : State} (hs : Clean s t) :
    t.ph = s.ph ∧ t.ino = s.ino ∧ t.next = s.next ∧ ∀ d n, t.names d n = s.names d n ∨ t.names d n = none := by
  cases hs with
  | remove d n =>
    refine ⟨rfl, rfl, rfl, fun d' n' => ?_⟩
    simp only [State.link]
    split
    · exact Or.inr rfl
    · exact Or.inl rfl

/-- A step of a process of another directory leaves the files of this one. -/
theorem other_dir {dir : Nat → Nat} {pkg : Nat → Pkg} {q : Nat} {s t : State} (hs : Step dir pkg q s t) {lab : Nat → Nat × Str}
    (h : Lab dir s lab) {d : Nat} (hd : dir q ≠ d) :
    (∀ n, t.names d n = s.names d n) ∧ (∀ i, i < s.next → (lab i).1 = d → t.ino i = s.ino i) ∧ s.next ≤ t.next := by
  have key : ∀ n j b i, (s.ph q).fd = some (n, j) → (lab i).1 = d → upd s.ino j b i = s.ino i := fun n j b i hj hi =>
    upd_ne _ _ (fun e => hd (by subst e; rw [(h.opened q n i hj).2] at hi; exact hi))
  cases hs with
  | remove n ns hq =>
    exact ⟨fun n' => by simp [State.go, State.link, Ne.symm hd], fun _ _ _ => rfl, Nat.le_refl _⟩
  | openW n ns hq =>
    simp only [State.openW]
    split
    · rename_i j hj
      refine ⟨fun _ => rfl, fun i _ hi => upd_ne _ _ (fun e => hd ?_), Nat.le_refl _⟩
      subst e; rw [(h.named _ _ _ hj).2] at hi; exact hi
    · exact ⟨fun n' => by simp [State.go, State.link, Ne.symm hd], fun i hi _ => upd_ne _ _ (by omega), Nat.le_succ _⟩
  | write n i off b bs ns hq => exact ⟨fun _ => rfl, fun j _ hj => key n i _ j (by rw [hq]; rfl) hj, Nat.le_refl _⟩
  | _ => exact ⟨fun _ => rfl, fun _ _ _ => rfl, Nat.le_refl _⟩

theorem other_ph {dir : Nat → Nat} {pkg : Nat → Pkg} {q q' : Nat} {s t : State} (hs : Step dir pkg q' s t) (hne : q ≠ q') :
    t.ph q = s.ph q := by
  cases hs with
  | openW n ns hq => simp only [State.openW]; split <;> simp [State.go, State.link, upd_ne _ _ hne]
  | _ => simp [State.go, State.link, upd_ne _ _ hne]

/-- Name `n` of directory `d` was deleted or is a file with exactly the text `c`. -/
def Has (s : State) (d : Nat) (n c : Str) : Prop := ∀ i, s.names d n = some i → Complete (s.ino i) c

/-- What holds while a process has its directory to itself. -/
def Inv (p : Pkg) (d : Nat) (s : State) : Phase → Prop
  | .next ns => ∃ pre, p.members = pre ++ ns ∧ ∀ n ∈ pre, Has s d n (p.body n)
  | .opening n ns => ∃ pre, p.members = pre ++ n :: ns ∧ s.names d n = none ∧ ∀ m ∈ pre, m ≠ n → Has s d m (p.body m)
  | .writing n i off bs ns => ∃ pre don, p.members = pre ++ n :: ns ∧ (∀ m ∈ pre, m ≠ n → Has s d m (p.body m)) ∧
      (s.names d n = some i ∨ s.names d n = none) ∧ p.blocks n = don ++ bs ∧ off = don.flatten.length ∧ (s.ino i).len = off ∧
      ∀ k, k < off → (s.ino i).at_ k = don.flatten[k]?
  | .reading => ∀ n ∈ p.members, Has s d n (p.body n)
  | .reading2 m => (∀ n ∈ p.members, Has s d n (p.body n)) ∧ (metaName ∈ p.members → Complete m (p.body metaName))
  | .done m f => (metaName ∈ p.members → Complete m (p.body metaName)) ∧ (filesName ∈ p.members → Complete f (p.body filesName))
  | _ => True

theorem inv_rest {p : Pkg} {d q : Nat} {s t : State} (hr : AtRest s q) (h : Inv p d s (s.ph q)) : Inv p d t (s.ph q) := by
  unfold AtRest at hr
  cases e : s.ph q <;> rw [e] at hr h <;> first | exact hr.elim | exact h

theorem inv_frame {p : Pkg} {d : Nat} {s t : State} {x : Phase} (hn : ∀ n, t.names d n = s.names d n ∨ t.names d n = none)
    (hi : ∀ n i, s.names d n = some i ∨ x.fd = some (n, i) → t.ino i = s.ino i) (h : Inv p d s x) : Inv p d t x := by
  have hh : ∀ n c, Has s d n c → Has t d n c := fun n c h i h1 => by
    rcases hn n with e | e
    · rw [e] at h1; rw [hi n i (Or.inl h1)]; exact h i h1
    · rw [e] at h1; cases h1
  have hno : ∀ n, s.names d n = none → t.names d n = none := fun n h => (hn n).elim (fun e => e.trans h) id
  cases x with
  | next ns => obtain ⟨pre, h1, h2⟩ := h; exact ⟨pre, h1, fun n hp => hh _ _ (h2 n hp)⟩
  | opening n ns => obtain ⟨pre, h1, h2, h3⟩ := h; exact ⟨pre, h1, hno n h2, fun m hp e => hh _ _ (h3 m hp e)⟩
  | writing n i off bs ns =>
    obtain ⟨pre, don, h1, h2, h3, h4, h5, h6, h7⟩ := h
    have e := hi n i (Or.inr rfl)
    refine ⟨pre, don, h1, fun m hp e => hh _ _ (h2 m hp e), ?_, h4, h5, by rw [e]; exact h6, by rw [e]; exact h7⟩
    rcases hn n with e | e
    · rw [e]; exact h3
    · exact Or.inr e
  | reading => exact fun n hp => hh _ _ (h n hp)
  | reading2 m => exact ⟨fun n hp => hh _ _ (h.1 n hp), h.2⟩
  | _ => exact h

theorem inv_own {dir : Nat → Nat} {pkg : Nat → Pkg} {q : Nat} {s t : State} (hs : Step dir pkg q s t) {lab : Nat → Nat × Str}
    (hl : Lab dir s lab) (h : Inv (pkg q) (dir q) s (s.ph q)) : Inv (pkg q) (dir q) t (t.ph q) := by
  cases hs with
  | begin hq => simp only [State.go, upd_same]; exact ⟨[], rfl, by simp⟩
  | remove n ns hq =>
    rw [hq] at h
    obtain ⟨pre, h1, h2⟩ := h
    simp only [State.go, upd_same]
    refine ⟨pre, h1, by simp [State.link], fun m hm hne => ?_⟩
    intro i h3
    simp only [State.link, hne, and_false, if_false] at h3
    exact h2 m hm i h3
  | openW n ns hq =>
    rw [hq] at h
    obtain ⟨pre, h1, h2, h3⟩ := h
    simp only [State.openW, h2, State.go, upd_same]
    refine ⟨pre, [], h1, fun m hm hne => ?_, by simp [State.link], rfl, rfl, by simp [State.link, upd_same, Blob.empty], by simp⟩
    intro i h4
    simp only [State.link, hne, and_false, if_false] at h4
    have := (hl.named _ _ _ h4).1
    simp only [State.link]
    rw [upd_ne _ _ (by omega)]; exact h3 m hm hne i h4
  | write n i off b bs ns hq =>
    have hlab := (hl.opened q n i (by rw [hq]; rfl)).2
    rw [hq] at h
    obtain ⟨pre, don, h1, h2, h3, h4, h5, h6, h7⟩ := h
    simp only [State.go, upd_same]
    refine ⟨pre, don ++ [b], h1, fun m hm hne => ?_, h3, by rw [h4]; simp, by simp [h5], ?_, ?_⟩
    · intro j h8
      show Complete (upd s.ino i _ j) _
      rw [upd_ne _ _ (fun e => hne ?_)]
      · exact h2 m hm hne j h8
      · subst e
        exact congrArg Prod.snd ((hl.named _ _ _ h8).2.symm.trans hlab)
    · simp only [upd_same, Blob.write]; omega
    · intro k hk
      simp only [upd_same, Blob.write]
      by_cases e : off ≤ k
      · rw [if_pos ⟨e, hk⟩]
        simp [List.getElem?_append_right (h5 ▸ e), h5]
      · rw [if_neg (fun hh => e hh.1), h7 k (by omega)]
        simp only [List.flatten_append]
        rw [List.getElem?_append_left (by omega)]
  | close n i off ns hq =>
    rw [hq] at h
    obtain ⟨pre, don, h1, h2, h3, h4, h5, h6, h7⟩ := h
    simp only [State.go, upd_same]
    refine ⟨pre ++ [n], by simp [h1], fun m hm => ?_⟩
    by_cases e : m = n
    · subst e
      have hb : (pkg q).body m = don.flatten := by simp [Pkg.body, h4]
      intro j hj
      have hj : i = j := by
        rcases h3 with h3 | h3
        · exact Option.some.inj (h3.symm.trans hj)
        · exact absurd (h3.symm.trans hj) (by simp)
      subst hj
      rw [hb]; exact ⟨by rw [← h5]; exact h6, fun k hk => h7 k (by omega)⟩
    · have : m ∈ pre := by simpa [e] using hm
      exact h2 m this e
  | unpacked hq =>
    rw [hq] at h
    obtain ⟨pre, h1, h2⟩ := h
    simp only [State.go, upd_same]
    intro n hn
    rw [h1, List.append_nil] at hn
    exact h2 n hn
  | readMeta i hq hi =>
    rw [hq] at h
    simp only [State.go, upd_same]
    refine ⟨h, fun hm => ?_⟩
    exact h _ hm _ hi
  | readFiles m i hq hi =>
    rw [hq] at h
    simp only [State.go, upd_same]
    refine ⟨h.2, fun hm => ?_⟩
    exact h.1 _ hm _ hi
  | kill => simp only [State.go, upd_same]; trivial

theorem apart_inv {dir : Nat → Nat} {pkg : Nat → Pkg} {q : Nat} {s0 s : State} {lab0 : Nat → Nat × Str} (hs : Lab dir s0 lab0)
    (h0 : Inv (pkg q) (dir q) s0 (s0.ph q)) (h : RunApart dir pkg q s0 s) :
    (∃ lab, Lab dir s lab) ∧ Inv (pkg q) (dir q) s (s.ph q) := by
  induction h with
  | refl => exact ⟨⟨_, hs⟩, h0⟩
  | tail _ hst ih =>
    rename_i u v _
    obtain ⟨⟨lab, hl⟩, hi⟩ := ih
    rcases hst with hst | hst
    · obtain ⟨h1, h2, _, h4⟩ := clean_frame hst
      exact ⟨⟨lab, lab_clean hst hl⟩, by rw [h1]; exact inv_frame (h4 _) (fun _ _ _ => by rw [h2]) hi⟩
    obtain ⟨q', hst, hc⟩ := hst
    obtain ⟨lab', hl', _⟩ := lab_step hst hl
    refine ⟨⟨lab', hl'⟩, ?_⟩
    by_cases e : q' = q
    · subst e; exact inv_own hst hl hi
    · rw [other_ph hst (Ne.symm e)]
      by_cases ed : dir q' = dir q
      · exact inv_rest (hc e ed) hi
      · obtain ⟨h1, h2, _⟩ := other_dir hst hl ed
        refine inv_frame (fun n => Or.inl (h1 n)) (fun n i hn => ?_) hi
        have := hn.elim (hl.named _ _ _) (hl.opened _ _ _)
        exact h2 i this.1 (by rw [this.2])

theorem mem_members {p : Pkg} (h : p.Whole) : metaName ∈ p.members ∧ filesName ∈ p.members := by
  simp [Pkg.members, h.1, h.2]

/-- **C233 (partial).**  Whatever earlier commands left in the directory and whatever others do, before, after and in other directories:
a process in whose directory no other reads packages at the same time reads exactly the control files of a package that has both, or
fails, also if files are deleted meanwhile. -/
theorem apart_reads_partial {dir : Nat → Nat} {pkg : Nat → Pkg} {q : Nat} {s0 s : State} (hs : Start s0)
    (h : RunApart dir pkg q s0 s) (hw : (pkg q).Whole) : ReadsOwn pkg s q := by
  obtain ⟨lab, hl⟩ := lab_start (dir := dir) hs
  have := (apart_inv hl (by rw [hs.idle]; trivial) h).2
  intro m f e
  rw [e] at this
  exact ⟨hw, this.1 (mem_members hw).1, this.2 (mem_members hw).2⟩

/-- A process that has its directory for itself, as a user who alone uses it, need not wait for anybody. -/
theorem own_dir_reads_partial {dir : Nat → Nat} {pkg : Nat → Pkg} {q : Nat} {s0 s : State} (hs : Start s0) (h : Run dir pkg s0 s)
    (hd : ∀ q', dir q' = dir q → q' = q) (hw : (pkg q).Whole) : ReadsOwn pkg s q :=
  apart_reads_partial hs (Relation.ReflTransGen.mono (fun _ _ hst =>
    hst.imp id fun ⟨q', hst⟩ => ⟨q', hst, fun hne e => absurd (hd q' e) hne⟩) _ _ h) hw

/-- Under `RunAlone` at most one process is at work. -/
theorem alone_one {dir : Nat → Nat} {pkg : Nat → Pkg} {s0 s : State} (hs : Start s0) (h : RunAlone dir pkg s0 s) :
    ∀ q q', q ≠ q' → AtRest s q ∨ AtRest s q' := by
  induction h with
  | refl => intro q q' _; left; unfold AtRest; rw [hs.idle]; trivial
  | tail _ hst ih =>
    rename_i u v _
    rcases hst with hst | hst
    · intro q q' hne
      unfold AtRest at ih ⊢
      rw [(clean_frame hst).1]; exact ih q q' hne
    obtain ⟨r, hst, hc⟩ := hst
    have rest_ne : ∀ q, q ≠ r → AtRest u q → AtRest v q := fun q hne hr => by
      unfold AtRest at hr ⊢; rw [other_ph hst hne]; exact hr
    -- if `r` is at work afterwards, all others rest
    have main : ∀ q, q ≠ r → AtRest v r ∨ AtRest v q := by
      intro q hne
      by_cases hi : u.ph r = .idle
      · exact Or.inr (rest_ne q hne (hc hi q hne))
      · rcases ih r q (Ne.symm hne) with h1 | h1
        · left
          unfold AtRest at h1
          cases hst <;> simp_all [AtRest, State.go, upd_same]
        · exact Or.inr (rest_ne q hne h1)
    intro q q' hne
    by_cases e : q = r
    · subst e; exact main q' (Ne.symm hne)
    · by_cases e' : q' = r
      · subst e'; exact (main q hne).symm
      · rcases ih q q' hne with h1 | h1
        · exact Or.inl (rest_ne q e h1)
        · exact Or.inr (rest_ne q' e' h1)

/-- A process at rest that has begun takes no further step to work. -/
theorem rest_step {dir : Nat → Nat} {pkg : Nat → Pkg} {q : Nat} {s t : State} (hs : Step dir pkg q s t) (hr : AtRest s q)
    (hi : s.ph q ≠ .idle) : t = s.go q .dead := by
  unfold AtRest at hr
  cases hs <;> simp_all

/-- **C233 (partial).**  One command at a time: whatever the earlier ones left, whole packages are read as they are. -/
theorem alone_reads_partial {dir : Nat → Nat} {pkg : Nat → Pkg} {s0 s : State} (hs : Start s0) (h : RunAlone dir pkg s0 s) (q : Nat)
    (hw : (pkg q).Whole) : ReadsOwn pkg s q := by
  obtain ⟨lab, hl⟩ := lab_start (dir := dir) hs
  suffices (∃ lab, Lab dir s lab) ∧ Inv (pkg q) (dir q) s (s.ph q) by
    intro m f e
    rw [e] at this
    exact ⟨hw, this.2.1 (mem_members hw).1, this.2.2 (mem_members hw).2⟩
  induction h with
  | refl => exact ⟨⟨lab, hl⟩, by rw [hs.idle]; trivial⟩
  | tail hr hst ih =>
    rename_i u v
    obtain ⟨⟨lab, hl⟩, hi⟩ := ih
    rcases hst with hst | hst
    · obtain ⟨h1, h2, _, h4⟩ := clean_frame hst
      exact ⟨⟨lab, lab_clean hst hl⟩, by rw [h1]; exact inv_frame (h4 _) (fun _ _ _ => by rw [h2]) hi⟩
    obtain ⟨q', hst, hc⟩ := hst
    obtain ⟨lab', hl', _⟩ := lab_step hst hl
    refine ⟨⟨lab', hl'⟩, ?_⟩
    by_cases e : q' = q
    · subst e; exact inv_own hst hl hi
    · rw [other_ph hst (Ne.symm e)]
      rcases alone_one hs hr q q' (Ne.symm e) with h1 | h1
      · exact inv_rest h1 hi
      · by_cases hid : u.ph q' = .idle
        · exact inv_rest (hc hid q (Ne.symm e)) hi
        · rw [rest_step hst h1 hid]
          exact inv_frame (fun _ => Or.inl rfl) (fun _ _ _ => rfl) hi

/-- Names that the package does not have are as at the beginning, or were deleted. -/
def Kept (p : Pkg) (d : Nat) (s1 s : State) : Prop :=
  ∀ n, n ∉ p.members → ∀ i, s.names d n = some i → s1.names d n = some i ∧ s.ino i = s1.ino i

/-- What holds of names that the package does not have. -/
def Inv2 (p : Pkg) (d : Nat) (s1 s : State) : Phase → Prop
  | .idle => False
  | .reading2 m => Kept p d s1 s ∧ (metaName ∉ p.members → ∃ i, s1.names d metaName = some i ∧ m = s1.ino i)
  | .done m f => (metaName ∉ p.members → ∃ i, s1.names d metaName = some i ∧ m = s1.ino i) ∧
      (filesName ∉ p.members → ∃ i, s1.names d filesName = some i ∧ f = s1.ino i)
  | .dead => True
  | _ => Kept p d s1 s

theorem inv2_rest {p : Pkg} {d q : Nat} {s1 s t : State} (hr : AtRest s q) (h : Inv2 p d s1 s (s.ph q)) :
    Inv2 p d s1 t (s.ph q) := by
  unfold AtRest at hr
  cases e : s.ph q <;> rw [e] at hr h <;> first | exact hr.elim | exact h

theorem kept_frame {p : Pkg} {d : Nat} {s1 s t : State}
    (hn : ∀ n, n ∉ p.members → t.names d n = s.names d n ∨ t.names d n = none)
    (hi : ∀ n i, n ∉ p.members → s.names d n = some i → t.ino i = s.ino i) (h : Kept p d s1 s) : Kept p d s1 t := by
  intro n hm i h1
  rcases hn n hm with e | e
  · rw [e] at h1; exact ⟨(h n hm i h1).1, (hi n i hm h1).trans (h n hm i h1).2⟩
  · rw [e] at h1; cases h1

theorem inv2_frame {p : Pkg} {d : Nat} {s1 s t : State} {x : Phase} (hn : ∀ n, t.names d n = s.names d n ∨ t.names d n = none)
    (hi : ∀ n i, s.names d n = some i → t.ino i = s.ino i) (h : Inv2 p d s1 s x) : Inv2 p d s1 t x := by
  have k : Kept p d s1 s → Kept p d s1 t := kept_frame (fun n _ => hn n) (fun n i _ => hi n i)
  cases x <;> first | exact k h | exact ⟨k h.1, h.2⟩ | exact h

theorem inv2_own {dir : Nat → Nat} {pkg : Nat → Pkg} {q : Nat} {s1 s t : State} (hs : Step dir pkg q s t) {lab : Nat → Nat × Str}
    (hl : Lab dir s lab) (h : Inv (pkg q) (dir q) s (s.ph q)) (h2 : Inv2 (pkg q) (dir q) s1 s (s.ph q)) :
    Inv2 (pkg q) (dir q) s1 t (t.ph q) := by
  cases hs with
  | begin hq => rw [hq] at h2; exact h2.elim
  | remove n ns hq =>
    rw [hq] at h h2
    obtain ⟨pre, h1, _⟩ := h
    simp only [State.go, upd_same]
    refine kept_frame (s := s) (fun n' hn' => ?_) (fun _ _ _ _ => rfl) h2
    have : n' ≠ n := fun e => hn' (by rw [h1, e]; simp)
    exact Or.inl (by simp [State.link, this])
  | openW n ns hq =>
    rw [hq] at h h2
    obtain ⟨pre, h1, h3, _⟩ := h
    simp only [State.openW, h3, State.go, upd_same]
    refine kept_frame (s := s) (fun n' hn' => ?_) (fun n' i _ hi => ?_) h2
    · have : n' ≠ n := fun e => hn' (by rw [h1, e]; simp)
      exact Or.inl (by simp [State.link, this])
    · have := (hl.named _ _ _ hi).1
      exact upd_ne _ _ (by omega)
  | write n i off b bs ns hq =>
    have hlab := (hl.opened q n i (by rw [hq]; rfl)).2
    rw [hq] at h h2
    obtain ⟨pre, don, h1, _⟩ := h
    simp only [State.go, upd_same]
    refine kept_frame (s := s) (fun _ _ => Or.inl rfl) (fun n' j hn' hj => upd_ne _ _ (fun e => ?_)) h2
    subst e
    have : n' = n := congrArg Prod.snd ((hl.named _ _ _ hj).2.symm.trans hlab)
    exact hn' (by rw [h1, this]; simp)
  | close n i off ns hq => rw [hq] at h2; simp only [State.go, upd_same]; exact h2
  | unpacked hq => rw [hq] at h2; simp only [State.go, upd_same]; exact h2
  | readMeta i hq hi =>
    rw [hq] at h2
    simp only [State.go, upd_same]
    exact ⟨h2, fun hm => ⟨i, h2 _ hm i hi⟩⟩
  | readFiles m i hq hi =>
    rw [hq] at h2
    simp only [State.go, upd_same]
    exact ⟨h2.2, fun hm => ⟨i, h2.1 _ hm i hi⟩⟩
  | kill => simp only [State.go, upd_same]; trivial

theorem run_lab {dir : Nat → Nat} {pkg : Nat → Pkg} {s0 s : State} (hs : Start s0) (h : Run dir pkg s0 s) : ∃ lab, Lab dir s lab := by
  induction h with
  | refl => exact lab_start hs
  | tail _ hst ih =>
    obtain ⟨lab, hl⟩ := ih
    rcases hst with hst | ⟨q, hst⟩
    · exact ⟨lab, lab_clean hst hl⟩
    obtain ⟨lab', h, _⟩ := lab_step hst hl
    exact ⟨lab', h⟩

/-- **C233.**  For a control file that the package lacks, an undisturbed process reads what was there when it began: what an earlier
command left of another package, whole or in part.  It succeeds where it should fail. -/
theorem missing_is_stale {dir : Nat → Nat} {pkg : Nat → Pkg} {q : Nat} {s0 s1 s2 s : State} {m f : Blob} (hs : Start s0)
    (h1 : Run dir pkg s0 s1) (hi : s1.ph q = .idle) (hb : Step dir pkg q s1 s2) (h : RunApart dir pkg q s2 s)
    (hd : s.ph q = .done m f) :
    (metaName ∉ (pkg q).names → ∃ i, s1.names (dir q) metaName = some i ∧ m = s1.ino i) ∧
    (filesName ∉ (pkg q).names → ∃ i, s1.names (dir q) filesName = some i ∧ f = s1.ino i) := by
  obtain ⟨lab, hl⟩ := run_lab hs h1
  have base : (∃ lab, Lab dir s2 lab) ∧ Inv (pkg q) (dir q) s2 (s2.ph q) ∧ Inv2 (pkg q) (dir q) s1 s2 (s2.ph q) := by
    obtain ⟨lab', hl', _⟩ := lab_step hb hl
    refine ⟨⟨lab', hl'⟩, inv_own hb hl (by rw [hi]; trivial), ?_⟩
    cases hb <;> first | (rw [hi] at *; contradiction) | (simp only [State.go, upd_same]; first | trivial | exact fun n _ i hn => ⟨hn, rfl⟩)
  have : (∃ lab, Lab dir s lab) ∧ Inv (pkg q) (dir q) s (s.ph q) ∧ Inv2 (pkg q) (dir q) s1 s (s.ph q) := by
    clear hd
    induction h with
    | refl => exact base
    | tail _ hst ih =>
      rename_i u v _
      obtain ⟨⟨lab, hl⟩, hi1, hi2⟩ := ih
      rcases hst with hst | hst
      · obtain ⟨h1, h2, _, h4⟩ := clean_frame hst
        exact ⟨⟨lab, lab_clean hst hl⟩, by rw [h1]; exact inv_frame (h4 _) (fun _ _ _ => by rw [h2]) hi1,
          by rw [h1]; exact inv2_frame (h4 _) (fun _ _ _ => by rw [h2]) hi2⟩
      obtain ⟨q', hst, hc⟩ := hst
      obtain ⟨lab', hl', _⟩ := lab_step hst hl
      refine ⟨⟨lab', hl'⟩, ?_⟩
      by_cases e : q' = q
      · subst e; exact ⟨inv_own hst hl hi1, inv2_own hst hl hi1 hi2⟩
      · rw [other_ph hst (Ne.symm e)]
        by_cases ed : dir q' = dir q
        · exact ⟨inv_rest (hc e ed) hi1, inv2_rest (hc e ed) hi2⟩
        · obtain ⟨h1, h2, _⟩ := other_dir hst hl ed
          have h3 : ∀ n i, u.names (dir q) n = some i ∨ (u.ph q).fd = some (n, i) → v.ino i = u.ino i := fun n i hn => by
            have := hn.elim (hl.named _ _ _) (hl.opened _ _ _)
            exact h2 i this.1 (by rw [this.2])
          exact ⟨inv_frame (fun n => Or.inl (h1 n)) h3 hi1, inv2_frame (fun n => Or.inl (h1 n)) (fun n i hn => h3 n i (Or.inl hn)) hi2⟩
  rw [hd] at this
  refine ⟨fun h => this.2.2.1 ?_, fun h => this.2.2.2 ?_⟩ <;> simp [Pkg.members, h]

/-- Writing right characters keeps a text right. -/
theorem holey_write {b : Blob} {c : Str} {off : Nat} {t : Str} (h : Holey b c) (hl : off + t.length ≤ c.length)
    (ht : ∀ k, k < t.length → t[k]? = c[off + k]?) : Holey (b.write off t) c := by
  refine ⟨by simp only [Blob.write]; have := h.1; omega, fun p x hx => ?_⟩
  simp only [Blob.write] at hx
  split at hx
  · rename_i hp
    rw [ht _ (by omega), Nat.add_sub_cancel' hp.1] at hx; exact hx
  · exact h.2 p x hx

/-- The invariant where all processes of directory `d` read the text `c n` for the name `n`. -/
structure Same (dir : Nat → Nat) (pkg : Nat → Pkg) (d : Nat) (c : Str → Str) (s : State) : Prop where
  named : ∀ n i, s.names d n = some i → Holey (s.ino i) (c n)
  opened : ∀ q n i, dir q = d → (s.ph q).fd = some (n, i) → Holey (s.ino i) (c n)
  pos : ∀ q n i off bs ns, dir q = d → s.ph q = .writing n i off bs ns →
    ∃ don, (pkg q).blocks n = don ++ bs ∧ off = don.flatten.length
  got2 : ∀ q m, dir q = d → s.ph q = .reading2 m → Holey m (c metaName)
  got : ∀ q m f, dir q = d → s.ph q = .done m f → Holey m (c metaName) ∧ Holey f (c filesName)

/-- A step that changes no file and opens none. -/
theorem same_go {dir : Nat → Nat} {pkg : Nat → Pkg} {d : Nat} {c : Str → Str} {s : State} (h : Same dir pkg d c s) {q : Nat} {x : Phase}
    (hx : ∀ n i off bs ns, x ≠ .writing n i off bs ns) (h2 : ∀ m, dir q = d → x = .reading2 m → Holey m (c metaName))
    (h3 : ∀ m f, dir q = d → x = .done m f → Holey m (c metaName) ∧ Holey f (c filesName)) : Same dir pkg d c (s.go q x) := by
  refine ⟨h.named, fun q' n i hd hf => ?_, fun q' n i off bs ns hd hf => ?_, fun q' m hd hf => ?_, fun q' m f hd hf => ?_⟩
    <;> by_cases e : q' = q
  · subst e; simp only [State.go, upd_same] at hf
    cases x <;> simp [Phase.fd] at hf
    exact absurd rfl (hx _ _ _ _ _)
  · simp only [State.go, upd_ne _ _ e] at hf; exact h.opened q' n i hd hf
  · subst e; simp only [State.go, upd_same] at hf; exact absurd hf (hx _ _ _ _ _)
  · simp only [State.go, upd_ne _ _ e] at hf; exact h.pos q' n i off bs ns hd hf
  · subst e; simp only [State.go, upd_same] at hf; exact h2 m hd hf
  · simp only [State.go, upd_ne _ _ e] at hf; exact h.got2 q' m hd hf
  · subst e; simp only [State.go, upd_same] at hf; exact h3 m f hd hf
  · simp only [State.go, upd_ne _ _ e] at hf; exact h.got q' m f hd hf

/-- A step that writes inode `i` and keeps it right. -/
theorem same_put {dir : Nat → Nat} {pkg : Nat → Pkg} {d : Nat} {c : Str → Str} {s : State} (h : Same dir pkg d c s) {q i : Nat} {n : Str}
    {b : Blob} {off : Nat} {bs ns : List Str} {names : Nat → Str → Option Nat} {nx : Nat}
    (hn : ∀ n' j, names d n' = some j → (j ≠ i ∧ s.names d n' = some j) ∨ (j = i ∧ Holey b (c n')))
    (ho : ∀ q' n', dir q' = d → (s.ph q').fd = some (n', i) → Holey b (c n'))
    (hb : dir q = d → Holey b (c n)) (hp : ∃ don, (pkg q).blocks n = don ++ bs ∧ off = don.flatten.length) :
    Same dir pkg d c ⟨names, upd s.ino i b, nx, upd s.ph q (.writing n i off bs ns)⟩ := by
  refine ⟨fun n' j hj => ?_, fun q' n' j hd hf => ?_, fun q' n' j off' bs' ns' hd hf => ?_, fun q' m hd hf => ?_,
    fun q' m f hd hf => ?_⟩
  · rcases hn n' j hj with ⟨h1, h2⟩ | ⟨h1, h2⟩
    · show Holey (upd s.ino i b j) _; rw [upd_ne _ _ h1]; exact h.named n' j h2
    · show Holey (upd s.ino i b j) _; rw [h1, upd_same]; exact h2
  · show Holey (upd s.ino i b j) _
    by_cases e : q' = q
    · subst e
      simp only [upd_same, Phase.fd, Option.some.injEq, Prod.mk.injEq] at hf
      obtain ⟨rfl, rfl⟩ := hf
      rw [upd_same]; exact hb hd
    · simp only [upd_ne _ _ e] at hf
      by_cases ej : j = i
      · subst ej; rw [upd_same]; exact ho q' n' hd hf
      · rw [upd_ne _ _ ej]; exact h.opened q' n' j hd hf
  · by_cases e : q' = q
    · subst e
      simp only [upd_same, Phase.writing.injEq] at hf
      obtain ⟨rfl, rfl, rfl, rfl, rfl⟩ := hf
      exact hp
    · simp only [upd_ne _ _ e] at hf; exact h.pos q' n' j off' bs' ns' hd hf
  · by_cases e : q' = q
    · subst e; simp only [upd_same] at hf; cases hf
    · simp only [upd_ne _ _ e] at hf; exact h.got2 q' m hd hf
  · by_cases e : q' = q
    · subst e; simp only [upd_same] at hf; cases hf
    · simp only [upd_ne _ _ e] at hf; exact h.got q' m f hd hf

theorem holey_empty (c : Str) : Holey Blob.empty c := ⟨Nat.zero_le _, fun _ _ h => by simp [Blob.empty] at h⟩

theorem same_step {dir : Nat → Nat} {pkg : Nat → Pkg} {d : Nat} {c : Str → Str} {q : Nat} {s t : State}
    (hc : ∀ q, dir q = d → ∀ n, (pkg q).body n = c n) (hs : Step dir pkg q s t) {lab : Nat → Nat × Str} (hl : Lab dir s lab)
    (h : Same dir pkg d c s) (hpos : ∀ q n i off bs ns, s.ph q = .writing n i off bs ns →
      ∃ don, (pkg q).blocks n = don ++ bs ∧ off = don.flatten.length) : Same dir pkg d c t := by
  cases hs with
  | remove n ns hq =>
    have := same_go h (q := q) (x := .opening n ns) (by simp) (by simp) (by simp)
    refine ⟨fun n' i hi => ?_, this.opened, this.pos, this.got2, this.got⟩
    simp only [State.go, State.link] at hi
    split at hi
    · cases hi
    · exact h.named n' i hi
  | openW n ns hq =>
    simp only [State.openW]
    split
    · rename_i i hi
      refine same_put h (fun n' j hj => ?_) (fun _ _ _ _ => holey_empty _) (fun _ => holey_empty _) ⟨[], rfl, rfl⟩
      by_cases e : j = i
      · exact Or.inr ⟨e, holey_empty _⟩
      · exact Or.inl ⟨e, hj⟩
    · refine same_put h (fun n' j hj => ?_) (fun _ _ _ _ => holey_empty _) (fun _ => holey_empty _) ⟨[], rfl, rfl⟩
      by_cases e : j = s.next
      · exact Or.inr ⟨e, holey_empty _⟩
      · simp only [State.link] at hj
        split at hj
        · exact absurd (Option.some.inj hj).symm e
        · exact Or.inl ⟨e, hj⟩
  | write n i off b bs ns hq =>
    obtain ⟨don, hb, ho⟩ := hpos q n i off (b :: bs) ns hq
    have hf : (s.ph q).fd = some (n, i) := by rw [hq]; rfl
    have hlab := (hl.opened q n i hf).2
    have key : dir q = d → ∀ n', n' = n → Holey (s.ino i) (c n') → Holey ((s.ino i).write off b) (c n') := by
      intro hd n' e hh
      rw [e] at hh ⊢
      have hcn : c n = don.flatten ++ (b ++ bs.flatten) := by rw [← hc q hd, Pkg.body, hb]; simp
      refine holey_write hh (by rw [hcn, ho]; simp only [List.length_append]; omega) (fun k hk => ?_)
      rw [hcn, ho, List.getElem?_append_right (by omega), List.getElem?_append_left (by omega)]
      congr 1; omega
    refine same_put h (fun n' j hj => ?_) (fun q' n' hd' hf' => ?_) (fun hd => key hd n rfl (h.opened q n i hd hf))
      ⟨don ++ [b], by rw [hb]; simp, by simp [ho]⟩
    · by_cases e : j = i
      · right; refine ⟨e, ?_⟩
        subst e
        have := hlab.symm.trans (hl.named _ _ _ hj).2
        exact key (congrArg Prod.fst this) n' (congrArg Prod.snd this).symm (h.named n' j hj)
      · exact Or.inl ⟨e, hj⟩
    · have := hlab.symm.trans (hl.opened _ _ _ hf').2
      exact key ((congrArg Prod.fst this).trans hd') n' (congrArg Prod.snd this).symm (h.opened q' n' i hd' hf')
  | begin hq => exact same_go h (by simp) (by simp) (by simp)
  | close n i off ns hq => exact same_go h (by simp) (by simp) (by simp)
  | unpacked hq => exact same_go h (by simp) (by simp) (by simp)
  | readMeta i hq hi =>
    refine same_go h (by simp) (fun m hd e => ?_) (by simp)
    cases e; subst hd; exact h.named _ _ hi
  | readFiles m i hq hi =>
    refine same_go h (by simp) (by simp) (fun m' f hd e => ?_)
    cases e; subst hd; exact ⟨h.got2 q m rfl hq, h.named _ _ hi⟩
  | kill => exact same_go h (by simp) (by simp) (by simp)

theorem pos_step {dir : Nat → Nat} {pkg : Nat → Pkg} {q : Nat} {s t : State} (hs : Step dir pkg q s t)
    (h : ∀ q n i off bs ns, s.ph q = .writing n i off bs ns → ∃ don, (pkg q).blocks n = don ++ bs ∧ off = don.flatten.length) :
    ∀ q n i off bs ns, t.ph q = .writing n i off bs ns → ∃ don, (pkg q).blocks n = don ++ bs ∧ off = don.flatten.length := by
  intro q' n i off bs ns hq'
  by_cases e : q' = q
  · subst e
    cases hs with
    | openW n' ns' hq =>
      simp only [State.openW] at hq'
      split at hq' <;> (simp only [State.go, upd_same, Phase.writing.injEq] at hq'; obtain ⟨rfl, rfl, rfl, rfl, rfl⟩ := hq'
                        exact ⟨[], rfl, rfl⟩)
    | write n' i' off' b bs' ns' hq =>
      simp only [State.go, upd_same, Phase.writing.injEq] at hq'
      obtain ⟨rfl, rfl, rfl, rfl, rfl⟩ := hq'
      obtain ⟨don, h1, h2⟩ := h _ _ _ _ _ _ hq
      exact ⟨don ++ [b], by rw [h1]; simp, by simp [h2]⟩
    | _ => simp [State.go, upd_same] at hq'
  · rw [other_ph hs e] at hq'; exact h _ _ _ _ _ _ hq'

/-- **C233 (partial).**  If all who use the directory at any time read the same package, then what is read has only characters of the
package, at their places; some may be missing. -/
theorem same_holey_partial {dir : Nat → Nat} {pkg : Nat → Pkg} {d : Nat} {c : Str → Str} {s0 s : State} (hs : Start s0)
    (hc : ∀ q, dir q = d → ∀ n, (pkg q).body n = c n) (h0 : ∀ n i, s0.names d n = some i → Holey (s0.ino i) (c n))
    (h : Run dir pkg s0 s) {q : Nat} {m f : Blob} (hq : dir q = d) (hd : s.ph q = .done m f) :
    Holey m (c metaName) ∧ Holey f (c filesName) := by
  suffices (∃ lab, Lab dir s lab) ∧ Same dir pkg d c s ∧ (∀ q n i off bs ns, s.ph q = .writing n i off bs ns →
      ∃ don, (pkg q).blocks n = don ++ bs ∧ off = don.flatten.length) from this.2.1.got q m f hq hd
  clear hd
  induction h with
  | refl =>
    refine ⟨lab_start hs, ⟨h0, ?_, ?_, ?_, ?_⟩, ?_⟩ <;> intros <;> simp_all [hs.idle, Phase.fd]
  | tail _ hst ih =>
    obtain ⟨⟨lab, hl⟩, h1, h2⟩ := ih
    rcases hst with hst | ⟨q', hst⟩
    · obtain ⟨e1, e2, _, e4⟩ := clean_frame hst
      refine ⟨⟨lab, lab_clean hst hl⟩, ⟨fun n i hi => ?_, ?_, ?_, ?_, ?_⟩, ?_⟩
      · rcases e4 d n with e | e
        · rw [e] at hi; rw [e2]; exact h1.named n i hi
        · rw [e] at hi; cases hi
      all_goals rw [e1]
      · rw [e2]; exact h1.opened
      · exact h1.pos
      · exact h1.got2
      · exact h1.got
      · exact h2
    obtain ⟨lab', hl', _⟩ := lab_step hst hl
    exact ⟨⟨lab', hl'⟩, same_step hc hst hl h1 h2, pos_step hst h2⟩

/-! ## What fails -/

/-- Two packages with other texts, and one without files.xml. -/
def pkgA : Pkg := ⟨["install.tar.lzma".toList, "files.xml".toList, "metadata.xml".toList], fun n => if n = metaName then [['A']] else [['a']]⟩
/-- Another one. -/
def pkgB : Pkg := ⟨["metadata.xml".toList, "files.xml".toList], fun n => if n = metaName then [['B']] else [['b']]⟩
/-- Without files.xml. -/
def pkgC : Pkg := ⟨["metadata.xml".toList], fun _ => [['C']]⟩

/-- Nothing there, nobody has begun. -/
def empty0 : State := ⟨fun _ _ => none, fun _ => .empty, 0, fun _ => .idle⟩

theorem empty0_start : Start empty0 := ⟨fun _ => rfl, fun _ _ _ h => by simp [empty0] at h, fun _ _ _ _ _ h => by simp [empty0] at h⟩

/-- Steps of process `q` as a function, where nothing is killed. -/
def step1 (dir : Nat → Nat) (pkg : Nat → Pkg) (s : State) (q : Nat) : Option State := match s.ph q with
  | .idle => some (s.go q (.next (pkg q).members))
  | .next (n :: ns) => some ((s.link (dir q) n none).go q (.opening n ns))
  | .next [] => some (s.go q .reading)
  | .opening n ns => some (s.openW q (dir q) n ((pkg q).blocks n) ns)
  | .writing n i off (b :: bs) ns =>
    some ({ s with ino := upd s.ino i ((s.ino i).write off b) }.go q (.writing n i (off + b.length) bs ns))
  | .writing _ _ _ [] ns => some (s.go q (.next ns))
  | .reading => match s.names (dir q) metaName with
    | some i => some (s.go q (.reading2 (s.ino i)))
    | none => none
  | .reading2 m => match s.names (dir q) filesName with
    | some i => some (s.go q (.done m (s.ino i)))
    | none => none
  | _ => none

theorem step1_step {dir : Nat → Nat} {pkg : Nat → Pkg} {s t : State} {q : Nat} (h : step1 dir pkg s q = some t) : Step dir pkg q s t := by
  unfold step1 at h
  split at h
  all_goals try split at h
  all_goals (first | contradiction | skip)
  all_goals (cases h; constructor <;> assumption)

/-- Steps of the processes in the order of `l`. -/
def steps (dir : Nat → Nat) (pkg : Nat → Pkg) (s : State) (l : List Nat) : Option State := l.foldlM (step1 dir pkg) s

theorem steps_run {dir : Nat → Nat} {pkg : Nat → Pkg} {l : List Nat} : ∀ {s t : State}, steps dir pkg s l = some t → Run dir pkg s t := by
  induction l with
  | nil => intro s t h; simp [steps] at h; subst h; exact .refl
  | cons q l ih =>
    intro s t h
    simp only [steps, List.foldlM_cons] at h
    cases e : step1 dir pkg s q with
    | none => rw [e] at h; simp at h
    | some u => rw [e] at h; exact .head (Or.inr ⟨q, step1_step e⟩) (ih h)

/-- What process `q` has read, as texts. -/
def told (s : State) (q : Nat) : Option (List (Option Char) × List (Option Char)) := match s.ph q with
  | .done m f => some ((List.range m.len).map m.at_, (List.range f.len).map f.at_)
  | _ => none

/-- All processes use one directory; process 0 reads `pkgA` and the others `pkgB`. -/
def two : Nat → Pkg := fun q => if q = 0 then pkgA else pkgB

/-- The order of the steps: 0 unpacks and reads metadata.xml; 1 unpacks; 0 reads files.xml. -/
def order : List Nat := List.replicate 11 0 ++ List.replicate 9 1 ++ [0]

/-- Two commands, of which neither fails: the first gets the metadata of its package and the list of files of the other. -/
theorem mixed_told : (steps (fun _ => 0) two empty0 order).bind (fun s => told s 0) = some ([some 'A'], [some 'b']) := by decide +kernel

/-- Every undisturbed or disturbed reader would read its own package. -/
def ReadFull : Prop := ∀ (dir : Nat → Nat) (pkg : Nat → Pkg) (s0 s : State) (q : Nat), Start s0 → Run dir pkg s0 s → ReadsOwn pkg s q

theorem told_done {s : State} {q : Nat} {x y : List (Option Char)} (h : told s q = some (x, y)) :
    ∃ m f, s.ph q = .done m f ∧ x = (List.range m.len).map m.at_ ∧ y = (List.range f.len).map f.at_ := by
  unfold told at h
  split at h
  · rename_i m f e
    simp only [Option.some.injEq, Prod.mk.injEq] at h
    exact ⟨m, f, e, h.1.symm, h.2.symm⟩
  · cases h

theorem complete_map {b : Blob} {c : Str} (h : Complete b c) : (List.range b.len).map b.at_ = c.map some := by
  apply List.ext_getElem?
  intro k
  simp only [List.getElem?_map, h.1]
  by_cases hk : k < c.length
  · rw [List.getElem?_range hk]; simp [h.2 k hk, List.getElem?_eq_getElem hk]
  · rw [List.getElem?_eq_none (by simpa using hk), List.getElem?_eq_none (by simpa using hk)]; rfl

/-- **C233 (refuted, commands at the same time).**  Both packages are whole. -/
theorem reads_refuted : ¬ ∀ (dir : Nat → Nat) (pkg : Nat → Pkg) (s0 s : State) (q : Nat), (∀ q, (pkg q).Whole) → Start s0 →
    Run dir pkg s0 s → ReadsOwn pkg s q := by
  intro h
  have hm := mixed_told
  cases e : steps (fun _ => 0) two empty0 order with
  | none => rw [e] at hm; cases hm
  | some s =>
    rw [e] at hm
    obtain ⟨m, f, h1, _, h3⟩ := told_done hm
    have hw : ∀ q, (two q).Whole := fun q => by unfold two Pkg.Whole; split <;> decide
    have := (h _ two _ s 0 hw empty0_start (steps_run e) m f h1).2.2
    rw [complete_map this] at h3
    revert h3; decide

theorem full_refuted : ¬ ReadFull := fun h => reads_refuted fun dir pkg s0 s q _ => h dir pkg s0 s q

/-- One after the other: 0 reads `pkgA`, then 1 the package without files.xml. -/
def lack : Nat → Pkg := fun q => if q = 0 then pkgA else pkgC

/-- Nobody fails; the second command gets the list of files of the first package. -/
theorem stale_told : (steps (fun _ => 0) lack empty0 (List.replicate 12 0 ++ List.replicate 8 1)).bind (fun s => told s 1) =
    some ([some 'C'], [some 'a']) := by decide +kernel

/-- Steps of one process after the other's. -/
theorem steps_alone {dir : Nat → Nat} {pkg : Nat → Pkg} {l : List Nat} {q : Nat} (hl : ∀ r ∈ l, r = q) : ∀ {s t : State},
    steps dir pkg s l = some t → (∀ r, r ≠ q → AtRest s r) → RunAlone dir pkg s t ∧ ∀ r, r ≠ q → t.ph r = s.ph r := by
  induction l with
  | nil => intro s t h _; simp [steps] at h; subst h; exact ⟨.refl, fun _ _ => rfl⟩
  | cons a l ih =>
    intro s t h hr
    have ha : a = q := hl a (by simp)
    subst ha
    simp only [steps, List.foldlM_cons] at h
    cases e : step1 dir pkg s a with
    | none => rw [e] at h; simp at h
    | some u =>
      rw [e] at h
      have hst := step1_step e
      have hp : ∀ r, r ≠ a → u.ph r = s.ph r := fun r hne => other_ph hst hne
      obtain ⟨h1, h2⟩ := ih (fun r hr => hl r (by simp [hr])) h (fun r hne => by unfold AtRest; rw [hp r hne]; exact hr r hne)
      exact ⟨.head (Or.inr ⟨a, hst, fun _ => hr⟩) h1, fun r hne => (h2 r hne).trans (hp r hne)⟩

theorem steps_append {dir : Nat → Nat} {pkg : Nat → Pkg} {s t : State} {l l' : List Nat} (h : steps dir pkg s (l ++ l') = some t) :
    ∃ u, steps dir pkg s l = some u ∧ steps dir pkg u l' = some t := by
  simp only [steps, List.foldlM_append] at h
  cases e : l.foldlM (step1 dir pkg) s with
  | none => rw [e] at h; simp at h
  | some u => rw [e] at h; exact ⟨u, e, h⟩

/-- **C233 (refuted, one command at a time).**  A package without files.xml is read with the list of files of another one. -/
theorem alone_refuted : ¬ ∀ (dir : Nat → Nat) (pkg : Nat → Pkg) (s0 s : State) (q : Nat), Start s0 → RunAlone dir pkg s0 s →
    ReadsOwn pkg s q := by
  intro h
  have hm := stale_told
  cases e : steps (fun _ => 0) lack empty0 (List.replicate 12 0 ++ List.replicate 8 1) with
  | none => rw [e] at hm; cases hm
  | some s =>
    rw [e] at hm
    obtain ⟨m, f, h1, _, _⟩ := told_done hm
    obtain ⟨u, e1, e2⟩ := steps_append e
    have hfin : (steps (fun _ => 0) lack empty0 (List.replicate 12 0)).bind (fun s => told s 0) = some ([some 'A'], [some 'a']) := by
      decide +kernel
    rw [e1] at hfin
    obtain ⟨m', f', h3, _, _⟩ := told_done hfin
    obtain ⟨r1, p1⟩ := steps_alone (q := 0) (by simp) e1 (fun r _ => by simp [AtRest, empty0])
    obtain ⟨r2, _⟩ := steps_alone (q := 1) (by simp) e2 (fun r _ => by
      unfold AtRest
      by_cases e : r = 0
      · subst e; rw [h3]; trivial
      · rw [p1 r e]; trivial)
    have := (h _ lack _ s 1 empty0_start (r1.trans r2) m f h1).1
    revert this; unfold Pkg.Whole; decide

/-- Case for `apart_reads_partial`: a second command finds the files of the first and reads its own. -/
theorem sample_reads : (steps (fun _ => 0) two empty0 (List.replicate 12 0 ++ List.replicate 12 1)).bind (fun s => told s 1) =
    some ([some 'B'], [some 'b']) := by decide +kernel

/-- Case for `alone_reads_partial`: one command after the other, both end. -/
theorem sample_alone : ∃ s, RunAlone (fun _ => 0) two empty0 s ∧ ¬ (s.names 0 metaName = none) ∧ told s 1 = some ([some 'B'], [some 'b']) := by
  have hm : (steps (fun _ => 0) two empty0 (List.replicate 12 0 ++ List.replicate 12 1)).bind
      (fun s => some (s.names 0 metaName == none, told s 1)) = some (false, some ([some 'B'], [some 'b'])) := by decide +kernel
  have hf : (steps (fun _ => 0) two empty0 (List.replicate 12 0)).bind (fun s => told s 0) = some ([some 'A'], [some 'a']) := by
    decide +kernel
  cases e : steps (fun _ => 0) two empty0 (List.replicate 12 0 ++ List.replicate 12 1) with
  | none => rw [e] at hm; cases hm
  | some s =>
    rw [e] at hm
    obtain ⟨u, e1, e2⟩ := steps_append e
    rw [e1] at hf
    obtain ⟨m', f', h3, _, _⟩ := told_done hf
    obtain ⟨r1, p1⟩ := steps_alone (q := 0) (by simp) e1 (fun r _ => by simp [AtRest, empty0])
    obtain ⟨r2, _⟩ := steps_alone (q := 1) (by simp) e2 (fun r _ => by
      unfold AtRest
      by_cases e : r = 0
      · subst e; rw [h3]; trivial
      · rw [p1 r e]; trivial)
    simp only [Option.bind_some, Option.some.injEq, Prod.mk.injEq] at hm
    exact ⟨s, r1.trans r2, fun e => by rw [e] at hm; exact absurd hm.1 (by decide), hm.2⟩

end Pisi.ReadPar
