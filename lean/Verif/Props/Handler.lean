import Verif.Model.Handler

/-!
# C209: failures are told
-/
namespace Pisi.Handler

/-- The text of the failure is somewhere in what is printed. -/
def Tells (o : List Out) (text : Str) : Prop := ∃ t, Out.reason t ∈ o ∧ text <:+ t

/-- The advice to use `--debug` is given exactly if there is a traceback with it that is not there now. -/
def Advises (f : Failure) (initialised debug : Bool) : Prop :=
  Out.useDebug ∈ (handle f initialised debug).1 ↔
    Out.traceback ∉ (handle f initialised debug).1 ∧ Out.traceback ∈ (handle f initialised true).1

/-- **C209, full statement.** -/
def HandlerFull : Prop := ∀ (e : End) (initialised debug : Bool),
  ((finish e initialised debug).2.2 = 0 ↔ ∀ f, e ≠ .failed f) ∧
  ∀ f, e = .failed f → f.kind ≠ .interrupt →
    Tells (finish e initialised debug).2.1 f.text ∧ (debug = true → Out.traceback ∈ (finish e initialised debug).2.1) ∧
    Advises f initialised debug

/-- **C209.**  The status is 0 exactly if nothing failed, the reason is printed exactly once, and nothing at all is printed after success. -/
theorem told (e : End) (initialised debug : Bool) :
    ((finish e initialised debug).2.2 = 0 ↔ ∀ f, e ≠ .failed f) ∧
    ((finish e initialised debug).2.2 = 0 → (finish e initialised debug).2.1 = []) ∧
    (∀ f, e = .failed f → f.kind ≠ .interrupt → ∃ t, (finish e initialised debug).2.1.filter (fun o => o matches .reason _) = [.reason t] ∧
      f.text <:+ t ∧ (t = f.text ↔ ¬ (initialised = true ∧ debug = true))) ∧
    ∀ f, e = .failed f → f.kind = .interrupt → (finish e initialised debug).2.1 = [.interrupted] := by
  cases e with
  | returned => simp [finish]
  | upgraded => simp [finish]
  | failed f =>
    obtain ⟨k, cls, text⟩ := f
    have hne : cls ++ ": ".toList ++ text ≠ text := by
      intro h
      have := congrArg List.length h
      simp at this
      omega
    refine ⟨?_, ?_, ?_, ?_⟩
    · cases k <;> simp [finish, handle]
    · cases k <;> simp [finish, handle]
    · rintro f he hk
      cases he
      refine ⟨if debugOption initialised debug then cls ++ ": ".toList ++ text else text, ?_, ?_, ?_⟩
      · cases k <;> first | exact absurd rfl hk | skip
        all_goals (cases initialised <;> cases debug <;> simp [finish, handle, debugOption])
      · cases initialised <;> cases debug <;> simp [debugOption] <;> exact ⟨cls ++ [':', ' '], by simp⟩
      · cases initialised <;> cases debug <;> simp [debugOption] <;> exact fun h => hne (by simpa using h)
    · rintro f he hk
      cases he
      simp only at hk
      subst hk
      rfl

/-- **C209.**  When there is a traceback, exactly: for internal errors always, for the others with `--debug` after the start, for a database to
be recovered and for interrupts never. -/
theorem traceback_iff (f : Failure) (initialised debug : Bool) : Out.traceback ∈ (handle f initialised debug).1 ↔
    f.kind = .internal ∨ ((f.kind = .usage ∨ f.kind = .pisi ∨ f.kind = .system) ∧ initialised = true ∧ debug = true) := by
  obtain ⟨k, cls, text⟩ := f
  cases k <;> cases initialised <;> cases debug <;> simp [handle, debugOption]

/-- **C209.**  The advice is right exactly for these. -/
theorem advice_iff (f : Failure) (initialised debug : Bool) : Advises f initialised debug ↔
    f.kind = .interrupt ∨ f.kind = .internal ∨ (f.kind = .usage ∧ (initialised = false ∨ debug = true)) ∨
    ((f.kind = .pisi ∨ f.kind = .system) ∧ initialised = true) := by
  unfold Advises
  rw [traceback_iff, traceback_iff]
  obtain ⟨k, cls, text⟩ := f
  cases k <;> cases initialised <;> cases debug <;> simp [handle, debugOption]

/-- **C209, proved part.**  After the start every failure but a database to be recovered is told with its reason, a traceback with `--debug`,
and the right advice without it. -/
theorem handler_partial (f : Failure) (debug : Bool) (hk : f.kind = .pisi ∨ f.kind = .system ∨ f.kind = .internal) :
    (finish (.failed f) true debug).2.2 = 1 ∧ Tells (finish (.failed f) true debug).2.1 f.text ∧
    (debug = true → Out.traceback ∈ (finish (.failed f) true debug).2.1) ∧ Advises f true debug := by
  refine ⟨?_, ?_, ?_, ?_⟩
  · obtain ⟨k, cls, text⟩ := f
    cases k <;> simp [finish, handle]
  · obtain ⟨t, h1, h2, _⟩ := (told (.failed f) true debug).2.2.1 f rfl (by rintro e; rw [e] at hk; simp at hk)
    refine ⟨t, ?_, h2⟩
    have : Out.reason t ∈ (finish (.failed f) true debug).2.1.filter (fun o => o matches .reason _) := by rw [h1]; simp
    exact (List.mem_filter.mp this).1
  · intro hd
    show Out.traceback ∈ (handle f true debug).1
    rw [traceback_iff]
    rcases hk with h | h | h
    · exact .inr ⟨.inr (.inl h), rfl, hd⟩
    · exact .inr ⟨.inr (.inr h), rfl, hd⟩
    · exact .inl h
  · rw [advice_iff]
    rcases hk with h | h | h
    · exact .inr (.inr (.inr ⟨.inl h, rfl⟩))
    · exact .inr (.inr (.inr ⟨.inr h, rfl⟩))
    · exact .inr (.inl h)

/-- That PISI has been upgraded is said exactly if it has. -/
theorem upgraded_said (e : End) (initialised debug : Bool) : (finish e initialised debug).1 = true ↔ e = .upgraded := by
  cases e <;> simp [finish]

/-- A failure that meets the hypothesis. -/
example : (finish (.failed ⟨.pisi, "E".toList, "no".toList⟩) true false) =
    (false, [.terminated, .reason "no".toList, .help, .useDebug], 1) := by decide

/-- **C209 is false of the code**: with `--debug` a database to be recovered gives no traceback but the advice to use `--debug`. -/
theorem handler_refuted : ¬ HandlerFull := by
  intro h
  have := ((h (.failed ⟨.recovery, [], []⟩) true true).2 _ rfl (by decide)).2.1 rfl
  revert this
  decide

end Pisi.Handler
