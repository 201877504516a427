import Verif.Spec.PackRun

/-!
# C236: what failed builds leave behind
-/
namespace Pisi.PackRun

theorem put_get (s : State) (n : Str) (x : List Member × Bool) : (s.put n x).out n = some x := by simp [State.put]

theorem put_other (s : State) {n m : Str} (x : List Member × Bool) (h : m ≠ n) : (s.put n x).out m = s.out m := by
  simp [State.put, h]

theorem put_put (s : State) (n : Str) (x y : List Member × Bool) : (s.put n x).put n y = s.put n y := by
  unfold State.put
  congr 1
  funext m
  by_cases h : m = n <;> simp [h]

theorem put_self (s : State) (n : Str) (x : List Member × Bool) (h : s.out n = some x) : s.put n x = s := by
  unfold State.put
  cases s with
  | mk o t l f =>
    congr 1
    funext m
    by_cases e : m = n
    · subst e; simp only [if_true]; exact h.symm
    · simp [e]

theorem exec_cons_some {st : Step} {l : List Step} {s s1 : State} (h : st.run s = some s1) : exec (st :: l) s = exec l s1 := by
  conv => lhs; unfold exec
  rw [h]

theorem exec_cons_none {st : Step} {l : List Step} {s : State} (h : st.run s = none) : exec (st :: l) s = (s, false) := by
  unfold exec
  rw [h]

theorem exec_append (a b : List Step) (s : State) :
    exec (a ++ b) s = if (exec a s).2 then exec b (exec a s).1 else exec a s := by
  induction a generalizing s with
  | nil => simp [exec]
  | cons st a ih =>
    rw [List.cons_append]
    cases h : st.run s with
    | none => rw [exec_cons_none h, exec_cons_none h]; simp
    | some s' => rw [exec_cons_some h, exec_cons_some h]; exact ih s'

theorem stops_append (a b : List Step) (s s' : State) (h : Stops (a ++ b) s s') :
    Stops a s s' ∨ (exec a s).2 = true ∧ Stops b (exec a s).1 s' := by
  induction a generalizing s with
  | nil => exact .inr ⟨rfl, h⟩
  | cons st a ih =>
    rw [List.cons_append] at h
    generalize hw : st :: (a ++ b) = w at h
    cases h with
    | here => exact .inl (.here _ _)
    | lzma b' l _ x hx =>
      simp only [List.cons.injEq] at hw
      rw [hw.1]
      exact .inl (.lzma _ _ _ _ hx)
    | next hr h' =>
      simp only [List.cons.injEq] at hw
      obtain ⟨rfl, rfl⟩ := hw
      rcases ih _ h' with k | ⟨k1, k2⟩
      · exact .inl (.next hr k)
      · refine .inr ?_
        unfold exec
        rw [hr]
        exact ⟨k1, k2⟩

theorem exec_adds (n : Str) (ms : List Member) (s : State) (x : List Member) (b : Bool) (h : s.out n = some (x, b)) :
    exec (ms.map (.add n)) s = (s.put n (x ++ ms, b), true) := by
  induction ms generalizing s x with
  | nil => simp [exec, put_self s n (x, b) h]
  | cons m ms ih =>
    simp only [List.map_cons]
    unfold exec
    have : (Step.add n m).run s = some (s.put n (x ++ [m], b)) := by simp [Step.run, h]
    rw [this]
    simp only
    rw [ih _ (x ++ [m]) (put_get ..), put_put]
    simp

theorem stops_adds (n : Str) (ms : List Member) (s s' : State) (x : List Member) (b : Bool) (h : s.out n = some (x, b))
    (hs : Stops (ms.map (.add n)) s s') : ∃ ms', ms' <+: ms ∧ s' = s.put n (x ++ ms', b) := by
  induction ms generalizing s x with
  | nil =>
    cases hs
    exact ⟨[], List.prefix_refl _, by rw [List.append_nil, put_self _ n _ h]⟩
  | cons m ms ih =>
    simp only [List.map_cons] at hs
    cases hs with
    | here => exact ⟨[], List.nil_prefix, by rw [List.append_nil, put_self _ n _ h]⟩
    | next hr hs' =>
      have : (Step.add n m).run s = some (s.put n (x ++ [m], b)) := by simp [Step.run, h]
      rw [this] at hr
      cases hr
      obtain ⟨ms', h1, h2⟩ := ih _ (x ++ [m]) (put_get ..) hs'
      refine ⟨m :: ms', by simpa using h1, ?_⟩
      rw [h2, put_put]
      simp

/-- The members that come before the files. -/
def heads (p : Pkg) : List Member := p.scripts.map .script ++ [.metadata, .filesXml]

/-- The steps that make `install.tar`. -/
def tars (p : Pkg) : List Step := if p.files = [] then [] else .tarOpen :: p.files.map .tarAdd

/-- The steps from there on. -/
def tails (p : Pkg) : List Step := [.tarClose (p.files ≠ []), .addTar p.name, .close p.name, .unlink, .clearLeft]

theorem prog_old (p : Pkg) : prog true p = .open p.name :: ((whole true p).map (.add p.name) ++ [.close p.name]) := by
  simp [prog, whole, Function.comp_def]

theorem prog_new (p : Pkg) :
    prog false p = .open p.name :: ((heads p).map (.add p.name) ++ (.setLeft :: (tars p ++ tails p))) := by
  simp [prog, heads, tars, tails, Function.comp_def]

/-- A package of the format 1.0 is written whatever was there. -/
theorem exec_old (p : Pkg) (s : State) : exec (prog true p) s = (s.put p.name (whole true p, true), true) := by
  rw [prog_old, exec_cons_some (s1 := s.put p.name ([], false)) rfl, exec_append, exec_adds p.name _ _ [] false (put_get ..)]
  simp only [if_true, put_put, List.nil_append]
  have : (Step.close p.name).run (s.put p.name (whole true p, false)) = some (s.put p.name (whole true p, true)) := by
    simp [Step.run, put_get, put_put]
  rw [exec_cons_some this]
  rfl

theorem exec_tarAdds (ps : List Str) (s : State) (t : List Str) (h : s.tar = some t) :
    exec (ps.map .tarAdd) s = ({ s with tar := some (t ++ ps) }, true) := by
  induction ps generalizing s t with
  | nil => cases s; simp only at h; subst h; simp [exec]
  | cons p ps ih =>
    rw [List.map_cons, exec_cons_some (s1 := { s with tar := some (t ++ [p]) }) (by simp [Step.run, h]), ih _ (t ++ [p]) rfl]
    simp

theorem exec_tars (p : Pkg) (s : State) (h : p.files ≠ []) :
    exec (tars p) s = ({ s with tar := some p.files }, true) := by
  unfold tars
  rw [if_neg h, exec_cons_some (s1 := { s with tar := some [] }) rfl, exec_tarAdds _ _ [] rfl]
  simp

theorem exec_tars_nil (p : Pkg) (s : State) (h : p.files = []) : exec (tars p) s = (s, true) := by
  unfold tars
  rw [if_pos h]
  rfl

/-- The state before `tar.close()`. -/
def before (p : Pkg) (s : State) : State :=
  { s.put p.name (heads p, false) with left := true, tar := if p.files = [] then s.tar else some p.files }

theorem exec_new (p : Pkg) (s : State) : exec (prog false p) s = exec (tails p) (before p s) := by
  rw [prog_new, exec_cons_some (s1 := s.put p.name ([], false)) rfl, exec_append, exec_adds p.name _ _ [] false (put_get ..)]
  simp only [if_true, put_put, List.nil_append]
  rw [exec_cons_some (s1 := { s.put p.name (heads p, false) with left := true }) rfl, exec_append]
  by_cases h : p.files = []
  · rw [exec_tars_nil _ _ h]
    simp [before, h, State.put]
  · rw [exec_tars _ _ h]
    simp [before, h, State.put]

theorem whole_new (p : Pkg) : whole false p = heads p ++ [.payload p.files] := by simp [whole, heads]

/-- The state after a package of the format 1.1. -/
def after (p : Pkg) (s : State) : State := { s.put p.name (whole false p, true) with tar := none, lz := none, left := false }

/-- A package of the format 1.1 is written if it has files and no compressed archive is in the way. -/
theorem exec_new_ok (p : Pkg) (s : State) (hf : p.files ≠ []) (hz : s.lz = none) :
    exec (prog false p) s = (after p s, true) := by
  rw [exec_new]
  have e1 : (Step.tarClose (p.files ≠ [])).run (before p s) = some { before p s with lz := some p.files, tar := none } := by
    simp [Step.run, before, hf, State.put, hz]
  unfold tails
  rw [exec_cons_some e1]
  have e2 : (Step.addTar p.name).run { before p s with lz := some p.files, tar := none } =
      some { s.put p.name (whole false p, false) with lz := some p.files, tar := none, left := true } := by
    simp only [Step.run, before, State.put, if_true, Option.map_some, whole_new, Option.some.injEq, State.mk.injEq, and_true]
    funext m
    by_cases h : m = p.name <;> simp [h]
  rw [exec_cons_some e2]
  have e3 : (Step.close p.name).run { s.put p.name (whole false p, false) with lz := some p.files, tar := none, left := true } =
      some { s.put p.name (whole false p, true) with lz := some p.files, tar := none, left := true } := by
    simp only [Step.run, State.put, if_true, Option.map_some, Option.some.injEq, State.mk.injEq, and_true]
    funext m
    by_cases h : m = p.name <;> simp [h]
  rw [exec_cons_some e3, exec_cons_some (s1 := { s.put p.name (whole false p, true) with lz := none, tar := none, left := true }) rfl,
    exec_cons_some (s1 := after p s) rfl]
  rfl

theorem exec_new_fails (p : Pkg) (s : State) (h : p.files = [] ∨ s.lz ≠ none) :
    exec (prog false p) s = (before p s, false) := by
  rw [exec_new]
  unfold tails
  apply exec_cons_none
  by_cases hf : p.files = []
  · simp [Step.run, hf]
  · rcases h with h | h
    · exact absurd h hf
    · cases hz : s.lz with
      | none => exact absurd hz h
      | some l => simp [Step.run, hf, before, State.put, hz]

theorem exec_new_true (p : Pkg) (s : State) (h : (exec (prog false p) s).2 = true) : p.files ≠ [] ∧ s.lz = none := by
  by_cases hc : p.files = [] ∨ s.lz ≠ none
  · rw [exec_new_fails p s hc] at h; cases h
  · constructor
    · exact fun e => hc (.inl e)
    · cases hz : s.lz with
      | none => rfl
      | some l => exact absurd (Or.inr (by simp [hz])) hc

/-! ## All packages -/

theorem progs_cons (old : Bool) (p : Pkg) (ps : List Pkg) : progs old (p :: ps) = prog old p ++ progs old ps := by
  simp [progs]

theorem exec_one (old : Bool) (p : Pkg) (s : State) (h : (exec (prog old p) s).2 = true) :
    (exec (prog old p) s).1.out = (s.put p.name (whole old p, true)).out ∧ (s.lz = none → (exec (prog old p) s).1.lz = none) ∧
      (s.left = false → (exec (prog old p) s).1.left = false) := by
  cases old with
  | true => rw [exec_old]; exact ⟨rfl, fun h => h, fun h => h⟩
  | false =>
    obtain ⟨h1, h2⟩ := exec_new_true p s h
    rw [exec_new_ok p s h1 h2]
    exact ⟨rfl, fun _ => rfl, fun _ => rfl⟩

/-- Different packages have different files. -/
def Distinct (ps : List Pkg) : Prop := ps.Pairwise (fun a b => a.name ≠ b.name)

theorem exec_progs (old : Bool) (ps : List Pkg) (s : State) (hd : Distinct ps) (hf : old = false → ∀ p ∈ ps, p.files ≠ [])
    (hz : old = false → s.lz = none) : (exec (progs old ps) s).2 = true ∧ Built old ps s (exec (progs old ps) s).1 ∧
      (s.lz = none → (exec (progs old ps) s).1.lz = none) := by
  induction ps generalizing s with
  | nil => exact ⟨rfl, ⟨fun p hp => (by cases hp), fun _ _ => rfl⟩, fun h => h⟩
  | cons p ps ih =>
    obtain ⟨hd1, hd2⟩ := List.pairwise_cons.1 hd
    have hok : (exec (prog old p) s).2 = true := by
      cases old with
      | true => rw [exec_old]
      | false => rw [exec_new_ok p s (hf rfl p (by simp)) (hz rfl)]
    obtain ⟨h1, h2, _⟩ := exec_one old p s hok
    obtain ⟨k1, ⟨k2, k3⟩, k4⟩ := ih (exec (prog old p) s).1 hd2 (fun e q hq => hf e q (by simp [hq])) (fun e => h2 (hz e))
    rw [progs_cons, exec_append, if_pos hok]
    refine ⟨k1, ⟨fun q hq => ?_, fun n hn => ?_⟩, fun e => k4 (h2 e)⟩
    · rcases List.mem_cons.1 hq with rfl | hq
      · rw [k3 _ (fun r hr => (hd1 r hr).symm), h1, put_get]
      · exact k2 q hq
    · rw [k3 n (fun r hr => hn r (by simp [hr])), h1, put_other _ _ (hn p (by simp)).symm]

/-- C236: a build that is not disturbed, with no compressed archive in the way, writes every package whole and touches no
other package file. -/
theorem build_ok (old : Bool) (ps : List Pkg) (s : State) (hd : Distinct ps) (hf : old = false → ∀ p ∈ ps, p.files ≠ [])
    (hz : s.lz = none) :
    (attempt old ps s).2 = true ∧ Built old ps s (attempt old ps s).1 ∧ (attempt old ps s).1.lz = none := by
  obtain ⟨h1, h2, h3⟩ := exec_progs old ps { s with left := false } hd hf (fun _ => hz)
  refine ⟨h1, h2, ?_⟩
  simp only [attempt, finalize]
  split
  · rfl
  · exact h3 hz

/-- One package stopped: the other files are as before, and its own file is as before or holds the first of its members, and
all of them if it was closed. -/
theorem stops_one (old : Bool) (p : Pkg) (s s' : State) (h : Stops (prog old p) s s') :
    (∀ n, n ≠ p.name → s'.out n = s.out n) ∧ (s'.out p.name = s.out p.name ∨
      ∃ ms c, s'.out p.name = some (ms, c) ∧ ms <+: whole old p ∧ (c = true → ms = whole old p)) := by
  have hput : ∀ (t : State) (ms : List Member) (c : Bool), t.out = (s.put p.name (ms, c)).out → ms <+: whole old p →
      (c = true → ms = whole old p) → (∀ n, n ≠ p.name → t.out n = s.out n) ∧ (t.out p.name = s.out p.name ∨
      ∃ ms c, t.out p.name = some (ms, c) ∧ ms <+: whole old p ∧ (c = true → ms = whole old p)) := by
    intro t ms c ht h1 h2
    refine ⟨fun n hn => by rw [ht, put_other _ _ hn], .inr ⟨ms, c, by rw [ht, put_get], h1, h2⟩⟩
  cases old with
  | true =>
    rw [prog_old] at h
    cases h with
    | here => exact ⟨fun _ _ => rfl, .inl rfl⟩
    | next hr h =>
      cases hr
      rcases stops_append _ _ _ _ h with h | ⟨_, h⟩
      · obtain ⟨ms, h1, rfl⟩ := stops_adds p.name _ _ _ [] false (put_get ..) h
        exact hput _ ms false (by rw [put_put]; rfl) h1 (fun e => by cases e)
      · rw [exec_adds p.name _ _ [] false (put_get ..)] at h
        simp only [put_put, List.nil_append] at h
        cases h with
        | here => exact hput _ _ false rfl (List.prefix_refl _) (fun e => by cases e)
        | next hr h =>
          simp only [Step.run, put_get, Option.map_some, put_put, Option.some.injEq] at hr
          subst hr
          cases h
          exact hput _ _ true rfl (List.prefix_refl _) (fun _ => rfl)
  | false =>
    have hpre : heads p <+: whole false p := by rw [whole_new]; exact List.prefix_append _ _
    rw [prog_new] at h
    cases h with
    | here => exact ⟨fun _ _ => rfl, .inl rfl⟩
    | next hr h =>
      cases hr
      rcases stops_append _ _ _ _ h with h | ⟨_, h⟩
      · obtain ⟨ms, h1, rfl⟩ := stops_adds p.name _ _ _ [] false (put_get ..) h
        exact hput _ ms false (by rw [put_put]; rfl) (h1.trans hpre) (fun e => by cases e)
      · rw [exec_adds p.name _ _ [] false (put_get ..)] at h
        simp only [put_put, List.nil_append] at h
        cases h with
        | here => exact hput _ _ false rfl hpre (fun e => by cases e)
        | next hr h =>
          cases hr
          rcases stops_append _ _ _ _ h with h | ⟨_, h⟩
          · refine hput _ (heads p) false ?_ hpre (fun e => by cases e)
            have quiet : ∀ (l : List Step) (t t' : State), (∀ st ∈ l, st = .tarOpen ∨ ∃ x, st = .tarAdd x) → Stops l t t' →
                t'.out = t.out := by
              intro l t t' hl hs
              induction hs with
              | here => rfl
              | lzma => rfl
              | @next st l t t1 t' hr _ ih =>
                rw [ih (fun x hx => hl x (by simp [hx]))]
                rcases hl st (by simp) with rfl | ⟨x, rfl⟩ <;> (cases hr; rfl)
            rw [quiet _ _ _ ?_ h]
            intro st hst
            unfold tars at hst
            split at hst
            · cases hst
            · rcases List.mem_cons.1 hst with e | e
              · exact .inl e
              · obtain ⟨x, _, rfl⟩ := List.mem_map.1 e
                exact .inr ⟨x, rfl⟩
          · by_cases hf : p.files = []
            · rw [exec_tars_nil _ _ hf] at h
              unfold tails at h
              cases h with
              | here => exact hput _ _ false rfl hpre (fun e => by cases e)
              | lzma => exact hput _ _ false rfl hpre (fun e => by cases e)
              | next hr h => simp [Step.run, hf] at hr
            · rw [exec_tars _ _ hf] at h
              unfold tails at h
              cases h with
              | here => exact hput _ _ false rfl hpre (fun e => by cases e)
              | lzma => exact hput _ _ false rfl hpre (fun e => by cases e)
              | next hr h =>
                simp only [Step.run, hf, ne_eq, not_false_eq_true, decide_true, if_true] at hr
                cases hz : s.lz with
                | some l => simp [State.put, hz] at hr
                | none =>
                  simp only [State.put, hz, Option.some.injEq] at hr
                  subst hr
                  cases h with
                  | here => exact hput _ _ false rfl hpre (fun e => by cases e)
                  | next hr h =>
                    simp only [Step.run, if_true, Option.map_some, Option.some.injEq] at hr
                    subst hr
                    have e : ∀ (c : Bool) (m : Str), (if m = p.name then some (heads p ++ [Member.payload p.files], c) else
                        if m = p.name then some (heads p, false) else s.out m) =
                        (s.put p.name (whole false p, c)).out m := by
                      intro c m
                      by_cases hm : m = p.name <;> simp [hm, State.put, whole_new]
                    cases h with
                    | here =>
                      exact hput _ _ false (funext (e false)) (List.prefix_refl _) (fun e => by cases e)
                    | next hr h =>
                      simp only [Step.run, State.put, if_true, Option.map_some, Option.some.injEq] at hr
                      subst hr
                      have e' : (fun m => if m = p.name then some (heads p ++ [Member.payload p.files], true) else
                          if m = p.name then some (heads p ++ [Member.payload p.files], false) else
                          if m = p.name then some (heads p, false) else s.out m) =
                          (s.put p.name (whole false p, true)).out := by
                        funext m
                        by_cases hm : m = p.name <;> simp [hm, State.put, whole_new]
                      cases h with
                      | here => exact hput _ _ true e' (List.prefix_refl _) (fun _ => rfl)
                      | next hr h =>
                        cases hr
                        cases h with
                        | here => exact hput _ _ true e' (List.prefix_refl _) (fun _ => rfl)
                        | next hr h =>
                          cases hr
                          cases h
                          exact hput _ _ true e' (List.prefix_refl _) (fun _ => rfl)

/-- All packages stopped: those before some point are whole and closed, those after the next one are as before. -/
theorem stopped_at (old : Bool) (ps : List Pkg) (s s' : State) (hd : Distinct ps) (h : Stops (progs old ps) s s') :
    ∃ a b, ps = a ++ b ∧ (∀ p ∈ a, s'.out p.name = some (whole old p, true)) ∧
      (∀ p ∈ b.tail, s'.out p.name = s.out p.name) ∧
      (∀ p ∈ b.head?, s'.out p.name = s.out p.name ∨
        ∃ ms c, s'.out p.name = some (ms, c) ∧ ms <+: whole old p ∧ (c = true → ms = whole old p)) ∧
      (∀ n, (∀ p ∈ ps, p.name ≠ n) → s'.out n = s.out n) := by
  induction ps generalizing s with
  | nil =>
    cases h
    exact ⟨[], [], rfl, fun _ h => (by cases h), fun _ h => (by cases h), fun _ h => (by cases h), fun _ _ => rfl⟩
  | cons p ps ih =>
    obtain ⟨hd1, hd2⟩ := List.pairwise_cons.1 hd
    rw [progs_cons] at h
    rcases stops_append _ _ _ _ h with h | ⟨hok, h⟩
    · obtain ⟨h1, h2⟩ := stops_one old p s s' h
      refine ⟨[], p :: ps, rfl, fun _ h => (by cases h), fun q hq => h1 _ (hd1 q hq).symm, fun q hq => ?_, fun n hn => h1 n (hn p (by simp)).symm⟩
      simp only [List.head?_cons, Option.mem_def, Option.some.injEq] at hq
      subst hq
      exact h2
    · obtain ⟨e, _, _⟩ := exec_one old p s hok
      obtain ⟨a, b, rfl, k1, k2, k3, k4⟩ := ih _ hd2 h
      have o : ∀ q ∈ a ++ b, (exec (prog old p) s).1.out q.name = s.out q.name := fun q hq => by
        rw [e, put_other _ _ (hd1 q hq).symm]
      refine ⟨p :: a, b, rfl, fun q hq => ?_, fun q hq => ?_, fun q hq => ?_, fun n hn => ?_⟩
      · rcases List.mem_cons.1 hq with rfl | hq
        · rw [k4 _ (fun r hr => (hd1 r hr).symm), e, put_get]
        · exact k1 q hq
      · rw [k2 q hq, o q (List.mem_append_right _ (List.mem_of_mem_tail hq))]
      · rw [← o q (List.mem_append_right _ (List.mem_of_mem_head? hq))]
        exact k3 q hq
      · rw [k4 n (fun r hr => hn r (by simp only [List.mem_cons]; exact .inr hr)), e, put_other _ _ (hn p (by simp)).symm]

/-- A package file after any number of builds: the one that was there, or the first members of the new one, and all of them
if the file was closed. -/
def Fair (old : Bool) (p : Pkg) (s s' : State) : Prop := s'.out p.name = s.out p.name ∨
  ∃ ms c, s'.out p.name = some (ms, c) ∧ ms <+: whole old p ∧ (c = true → ms = whole old p)

theorem stops_fair (old : Bool) (ps : List Pkg) (s s' : State) (hd : Distinct ps) (h : Stops (progs old ps) s s') :
    (∀ p ∈ ps, Fair old p s s') ∧ (∀ n, (∀ p ∈ ps, p.name ≠ n) → s'.out n = s.out n) := by
  obtain ⟨a, b, rfl, h1, h2, h3, h4⟩ := stopped_at old ps s s' hd h
  refine ⟨fun p hp => ?_, h4⟩
  rcases List.mem_append.1 hp with hp | hp
  · exact .inr ⟨_, true, h1 p hp, List.prefix_refl _, fun _ => rfl⟩
  · cases b with
    | nil => cases hp
    | cons q b =>
      rcases List.mem_cons.1 hp with rfl | hp
      · exact h3 _ rfl
      · exact .inl (h2 p hp)

theorem Fair.trans {old : Bool} {p : Pkg} {s s1 s2 : State} (h1 : Fair old p s s1) (h2 : Fair old p s1 s2) : Fair old p s s2 := by
  rcases h2 with h2 | h2
  · rcases h1 with h1 | h1
    · exact .inl (h2.trans h1)
    · exact .inr (by rw [h2]; exact h1)
  · exact .inr h2

/-- C236: after any number of builds of the same packages that failed or were killed, every package file is the one that was
there before, or holds the first of its members in their order, and all of them if it was closed; no other package file was
touched. -/
theorem tries_fair_partial (old : Bool) (ps : List Pkg) (s s' : State) (hd : Distinct ps) (h : Tries old ps s s') :
    (∀ p ∈ ps, Fair old p s s') ∧ (∀ n, (∀ p ∈ ps, p.name ≠ n) → s'.out n = s.out n) := by
  induction h with
  | none => exact ⟨fun _ _ => .inl rfl, fun _ _ => rfl⟩
  | failed _ hf ih =>
    obtain ⟨s1, h1, rfl⟩ := hf
    obtain ⟨k1, k2⟩ := stops_fair old ps _ _ hd h1
    exact ⟨fun p hp => Fair.trans (ih.1 p hp) (k1 p hp), fun n hn => (k2 n hn).trans (ih.2 n hn)⟩
  | killed _ hf ih =>
    obtain ⟨s1, h1, rfl⟩ := hf
    obtain ⟨k1, k2⟩ := stops_fair old ps _ _ hd h1
    exact ⟨fun p hp => Fair.trans (ih.1 p hp) (k1 p hp), fun n hn => (k2 n hn).trans (ih.2 n hn)⟩

/-! ## The compressed archive -/

/-- Whether `build_leftover` is set whenever the archive may be there: `l` says that it is set, `z` that the archive may be
there. -/
def safe : Bool → Bool → List Step → Bool
  | l, z, [] => l || !z
  | l, z, st :: r => (l || !z) && match st with
    | .setLeft => safe true z r
    | .clearLeft => safe false z r
    | .tarClose _ => l && safe l true r
    | .unlink => safe l false r
    | _ => safe l z r

theorem safe_now {l z : Bool} {r : List Step} (h : safe l z r = true) : (l || !z) = true := by
  cases r with
  | nil => exact h
  | cons st r => simp only [safe, Bool.and_eq_true] at h; exact h.1

theorem safe_adds (l z : Bool) (n : Str) (ms : List Member) (r : List Step) (h : safe l z r = true) :
    safe l z (ms.map (.add n) ++ r) = true := by
  induction ms with
  | nil => exact h
  | cons m ms ih =>
    simp only [List.map_cons, List.cons_append, safe, Bool.and_eq_true]
    exact ⟨safe_now ih, ih⟩

theorem safe_tarAdds (l z : Bool) (ms : List Str) (r : List Step) (h : safe l z r = true) :
    safe l z (ms.map .tarAdd ++ r) = true := by
  induction ms with
  | nil => exact h
  | cons m ms ih =>
    simp only [List.map_cons, List.cons_append, safe, Bool.and_eq_true]
    exact ⟨safe_now ih, ih⟩

theorem safe_progs (old : Bool) (ps : List Pkg) : safe false false (progs old ps) = true := by
  induction ps with
  | nil => rfl
  | cons p ps ih =>
    rw [progs_cons]
    cases old with
    | true =>
      rw [prog_old, List.cons_append, List.append_assoc]
      simp only [safe, Bool.not_false, Bool.or_true, Bool.true_and]
      apply safe_adds
      simpa [safe] using ih
    | false =>
      rw [prog_new, List.cons_append, List.append_assoc]
      simp only [safe, Bool.not_false, Bool.or_true, Bool.true_and]
      apply safe_adds
      simp only [List.cons_append, safe, Bool.not_false, Bool.or_true, Bool.true_and, List.append_assoc]
      have ht : safe true false (tails p ++ progs false ps) = true := by simpa [tails, safe] using ih
      unfold tars
      split
      · exact ht
      · simp only [List.cons_append, safe, Bool.not_false, Bool.or_true, Bool.true_and]
        exact safe_tarAdds _ _ _ _ ht

theorem safe_stops {r : List Step} {s s' : State} (h : Stops r s s') : ∀ l z : Bool, safe l z r = true → (l = true → s.left = true) →
    (s.lz ≠ none → z = true) → s'.lz = none ∨ s'.left = true := by
  induction h with
  | here r s =>
    intro l z hs hl hz
    have := safe_now hs
    cases l with
    | true => exact .inr (hl rfl)
    | false =>
      refine .inl (Classical.byContradiction fun e => ?_)
      rw [hz e] at this
      cases this
  | lzma b r s x _ =>
    intro l z hs hl hz
    simp only [safe, Bool.and_eq_true] at hs
    exact .inr (hl hs.2.1)
  | @next st r s s1 s' hr _ ih =>
    intro l z hs hl hz
    cases st with
    | «open» n => cases hr; simp only [safe, Bool.and_eq_true] at hs; exact ih l z hs.2 hl hz
    | add n m =>
      simp only [Step.run, Option.map_eq_some_iff] at hr
      obtain ⟨x, _, rfl⟩ := hr
      simp only [safe, Bool.and_eq_true] at hs
      exact ih l z hs.2 hl hz
    | setLeft => cases hr; simp only [safe, Bool.and_eq_true] at hs; exact ih true z hs.2 (fun _ => rfl) hz
    | tarOpen => cases hr; simp only [safe, Bool.and_eq_true] at hs; exact ih l z hs.2 hl hz
    | tarAdd n => cases hr; simp only [safe, Bool.and_eq_true] at hs; exact ih l z hs.2 hl hz
    | tarClose b =>
      simp only [safe, Bool.and_eq_true] at hs
      simp only [Step.run] at hr
      split at hr
      · split at hr
        · cases hr; exact ih l true hs.2.2 hl (fun _ => rfl)
        · cases hr
      · cases hr
    | addTar n =>
      simp only [safe, Bool.and_eq_true] at hs
      simp only [Step.run] at hr
      split at hr
      · simp only [Option.map_eq_some_iff] at hr
        obtain ⟨x, _, rfl⟩ := hr
        exact ih l z hs.2 hl hz
      · cases hr
    | close n =>
      simp only [Step.run, Option.map_eq_some_iff] at hr
      obtain ⟨x, _, rfl⟩ := hr
      simp only [safe, Bool.and_eq_true] at hs
      exact ih l z hs.2 hl hz
    | unlink =>
      simp only [safe, Bool.and_eq_true] at hs
      simp only [Step.run] at hr
      split at hr
      · cases hr; exact ih l false hs.2 hl (fun e => absurd rfl e)
      · cases hr
    | clearLeft => cases hr; simp only [safe, Bool.and_eq_true] at hs; exact ih false z hs.2 (fun e => by cases e) hz

/-- C236: a build that failed somewhere leaves no compressed archive, if there was none before. -/
theorem failed_clean (old : Bool) (ps : List Pkg) (s s' : State) (hz : s.lz = none) (h : Failed old ps s s') : s'.lz = none := by
  obtain ⟨s1, h1, rfl⟩ := h
  rcases safe_stops h1 false false (safe_progs old ps) (fun e => by cases e) (fun e => absurd hz e) with e | e
  · simp only [finalize, e, ite_self]
  · simp only [finalize, e, if_true]

theorem Built.from {old : Bool} {ps : List Pkg} {s s1 s2 : State} (h : Built old ps s1 s2)
    (ho : ∀ n, (∀ p ∈ ps, p.name ≠ n) → s1.out n = s.out n) : Built old ps s s2 :=
  ⟨h.1, fun n hn => (h.2 n hn).trans (ho n hn)⟩

/-- C236: after a build that failed somewhere the next one that is not disturbed succeeds. -/
theorem failed_then (old : Bool) (ps : List Pkg) (s s' : State) (hd : Distinct ps) (hf : old = false → ∀ p ∈ ps, p.files ≠ [])
    (hz : s.lz = none) (h : Failed old ps s s') : (attempt old ps s').2 = true ∧ Built old ps s (attempt old ps s').1 := by
  have hc := failed_clean old ps s s' hz h
  obtain ⟨h1, h2, _⟩ := build_ok old ps s' hd hf hc
  exact ⟨h1, h2.from (tries_fair_partial old ps s s' hd (.failed (.none s) h)).2⟩

/-- C236: a build of the format 1.0 succeeds after any builds that failed or were killed. -/
theorem old_always (ps : List Pkg) (s s' : State) (hd : Distinct ps) (h : Tries true ps s s') :
    (attempt true ps s').2 = true ∧ Built true ps s (attempt true ps s').1 := by
  obtain ⟨h1, h2, _⟩ := exec_progs true ps { s' with left := false } hd (fun e => by cases e) (fun e => by cases e)
  exact ⟨h1, Built.from (s1 := s') h2 (tries_fair_partial true ps s s' hd h).2⟩

theorem exec_old_keeps (ps : List Pkg) (s : State) :
    (exec (progs true ps) s).1.lz = s.lz ∧ (exec (progs true ps) s).1.left = s.left := by
  induction ps generalizing s with
  | nil => exact ⟨rfl, rfl⟩
  | cons p ps ih =>
    rw [progs_cons, exec_append, exec_old, if_pos rfl]
    exact ih _

/-- C236: a build of the format 1.0 leaves a compressed archive that it finds. -/
theorem old_keeps (ps : List Pkg) (s : State) : (attempt true ps s).1.lz = s.lz := by
  obtain ⟨h1, h2⟩ := exec_old_keeps ps { s with left := false }
  simp only [attempt, finalize]
  rw [h2, h1]
  rfl

/-- C236: after any builds that failed or were killed, the next build of the format 1.1 that is not disturbed succeeds, or it
fails because of a compressed archive that was left, and then the one after it succeeds. -/
theorem second_try (ps : List Pkg) (s s' : State) (hd : Distinct ps) (hf : ∀ p ∈ ps, p.files ≠ []) (h : Tries false ps s s') :
    (attempt false ps s').2 = true ∧ Built false ps s (attempt false ps s').1 ∨
    (attempt false ps s').2 = false ∧ s'.lz ≠ none ∧ (attempt false ps s').1.lz = none ∧
      (attempt false ps (attempt false ps s').1).2 = true ∧ Built false ps s (attempt false ps (attempt false ps s').1).1 := by
  have ho := (tries_fair_partial false ps s s' hd h).2
  by_cases hz : s'.lz = none
  · obtain ⟨h1, h2, _⟩ := build_ok false ps s' hd (fun _ => hf) hz
    exact .inl ⟨h1, h2.from ho⟩
  · cases ps with
    | nil => exact .inl ⟨rfl, ⟨fun _ h => (by cases h), fun n hn => ho n hn⟩⟩
    | cons p ps =>
      have e : attempt false (p :: ps) s' = (finalize (before p { s' with left := false }), false) := by
        simp only [attempt, progs_cons, exec_append]
        rw [exec_new_fails p { s' with left := false } (.inr hz)]
        simp
      have hz' : (attempt false (p :: ps) s').1.lz = none := by rw [e]; simp [finalize, before]
      obtain ⟨h1, h2, _⟩ := build_ok false (p :: ps) (attempt false (p :: ps) s').1 hd (fun _ => hf) hz'
      refine .inr ⟨by rw [e], hz, hz', h1, h2.from fun n hn => ?_⟩
      rw [e, ← ho n hn]
      exact put_other s' _ (hn p (by simp)).symm

/-- C236: a package without files cannot be built in the format 1.1, whatever there is, and the packages after it are not
built either; what stays of it is a package file that ends before its files. -/
theorem empty_never (p : Pkg) (ps : List Pkg) (s : State) (hp : p.files = []) :
    (attempt false (p :: ps) s).2 = false ∧ (attempt false (p :: ps) s).1.out p.name = some (p.scripts.map .script ++ [.metadata, .filesXml], false) ∧
      ∀ n, n ≠ p.name → (attempt false (p :: ps) s).1.out n = s.out n := by
  have e : attempt false (p :: ps) s = (finalize (before p { s with left := false }), false) := by
    simp only [attempt, progs_cons, exec_append]
    rw [exec_new_fails p { s with left := false } (.inl hp)]
    simp
  rw [e]
  exact ⟨rfl, put_get s p.name _, fun n hn => put_other s _ hn⟩

/-! ## What one would want -/

/-- Every package file is the one from before or whole, and the next build succeeds. -/
def TriesFull : Prop := ∀ (old : Bool) (ps : List Pkg) (s s' : State), Distinct ps → s.lz = none → Tries old ps s s' →
  (∀ p ∈ ps, s'.out p.name = s.out p.name ∨ s'.out p.name = some (whole old p, true)) ∧ (attempt old ps s').2 = true

/-- A package. -/
def pkgA : Pkg := ⟨['a'], [['s']], [['f'], ['g']]⟩

/-- Another one. -/
def pkgB : Pkg := ⟨['b'], [], [['h']]⟩

/-- Nothing there but the file of another package. -/
def clean : State := ⟨fun n => if n = ['o'] then some ([.metadata], true) else none, none, none, false⟩

theorem distinctAB : Distinct [pkgA, pkgB] := by simp [Distinct, pkgA, pkgB]

/-- A build that is stopped after the first member. -/
def brokenOut : State := clean.put ['a'] ([.script ['s']], false)

theorem broken_failed : Failed false [pkgA, pkgB] clean brokenOut := by
  refine ⟨brokenOut, ?_, rfl⟩
  rw [progs_cons, prog_new]
  exact .next (s1 := clean.put ['a'] ([], false)) rfl (.next (s1 := brokenOut)
    (by simp [Step.run, put_get, brokenOut, put_put, pkgA]) (.here _ _))

/-- C236, refuted: an exception in between leaves a package file that has not all of its members, where there was none. -/
theorem pack_refuted : ¬ TriesFull := by
  intro h
  have := (h false [pkgA, pkgB] clean brokenOut distinctAB rfl (.failed (.none _) broken_failed)).1 pkgA (by simp)
  revert this
  decide

/-- A build that is killed after `lzma`. -/
def killedOut : State := { clean.put ['a'] (heads pkgA, false) with lz := some pkgA.files, tar := none }

theorem killed_killed : Killed false [pkgA, pkgB] clean killedOut := by
  refine ⟨{ killedOut with left := true }, ?_, rfl⟩
  have stops_pre : ∀ (a b : List Step) (s s' : State), (exec a s).2 = true → Stops b (exec a s).1 s' → Stops (a ++ b) s s' := by
    intro a
    induction a with
    | nil => exact fun b s s' _ h => h
    | cons st a ih =>
      intro b s s' h1 h2
      cases hr : st.run s with
      | none => rw [exec_cons_none hr] at h1; cases h1
      | some s1 =>
        rw [exec_cons_some hr] at h1 h2
        exact .next hr (ih b s1 s' h1 h2)
  have split : progs false [pkgA, pkgB] = (.open pkgA.name :: ((heads pkgA).map (.add pkgA.name) ++
      (.setLeft :: (tars pkgA ++ [.tarClose (pkgA.files ≠ [])])))) ++
      ([.addTar pkgA.name, .close pkgA.name, .unlink, .clearLeft] ++ progs false [pkgB]) := by
    rw [progs_cons, prog_new]
    simp [tails]
  rw [split]
  refine stops_pre _ _ _ _ ?_ ?_
  · rfl
  · have : (exec (.open pkgA.name :: ((heads pkgA).map (.add pkgA.name) ++
      (.setLeft :: (tars pkgA ++ [.tarClose (pkgA.files ≠ [])])))) { clean with left := false }).1 = { killedOut with left := true } := by
      rw [exec_cons_some (s1 := clean.put pkgA.name ([], false)) rfl, exec_append, exec_adds _ _ _ [] false (put_get ..)]
      simp only [if_true, put_put, List.nil_append]
      rw [exec_cons_some (s1 := { clean.put pkgA.name (heads pkgA, false) with left := true }) rfl, exec_append,
        exec_tars pkgA _ (by simp [pkgA])]
      rfl
    rw [this]
    exact .here _ _

/-- C236, refuted: the build after one that was killed fails. -/
theorem killed_refuted : ¬ TriesFull := by
  intro h
  have := (h false [pkgA, pkgB] clean killedOut distinctAB rfl (.killed (.none _) killed_killed)).2
  revert this
  decide

/-- C236, refuted: a package without files is never built in the format 1.1. -/
theorem empty_refuted : ¬ TriesFull := by
  intro h
  have := (h false [⟨['e'], [], []⟩] clean clean (by simp [Distinct]) rfl (.none _)).2
  rw [(empty_never ⟨['e'], [], []⟩ [] clean rfl).1] at this
  cases this

/-! ## Examples -/

/-- Both packages are built, and the file of the other one stays. -/
example : (attempt false [pkgA, pkgB] clean).2 = true ∧
    (attempt false [pkgA, pkgB] clean).1.out ['a'] = some ([.script ['s'], .metadata, .filesXml, .payload [['f'], ['g']]], true) ∧
    (attempt false [pkgA, pkgB] clean).1.out ['b'] = some ([.metadata, .filesXml, .payload [['h']]], true) ∧
    (attempt false [pkgA, pkgB] clean).1.out ['o'] = some ([.metadata], true) ∧
    (attempt true [pkgA, pkgB] clean).1.out ['b'] = some ([.metadata, .filesXml, .file ['h']], true) := by decide

/-- After the killed build the first attempt fails and the second succeeds. -/
example : (attempt false [pkgA, pkgB] killedOut).2 = false ∧ killedOut.lz ≠ none ∧
    (attempt false [pkgA, pkgB] (attempt false [pkgA, pkgB] killedOut).1).2 = true ∧
    (attempt true [pkgA, pkgB] killedOut).2 = true := by decide

/-- After the failed build the next one succeeds. -/
example : (attempt false [pkgA, pkgB] brokenOut).2 = true ∧ Built false [pkgA, pkgB] clean (attempt false [pkgA, pkgB] brokenOut).1 :=
  failed_then false [pkgA, pkgB] clean brokenOut distinctAB (fun _ p hp => by
    simp only [List.mem_cons, List.not_mem_nil, or_false] at hp; rcases hp with rfl | rfl <;> simp [pkgA, pkgB]) rfl broken_failed

end Pisi.PackRun
