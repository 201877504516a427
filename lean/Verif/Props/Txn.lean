import Verif.Spec.Txn

/-!
# C35: updates inside a transaction helper are all-or-nothing
-/
namespace Pisi.Txn
variable {κ ν ρ : Type} [DecidableEq κ]

theorem Same.refl (s : Dict κ ν) : Same s s := fun _ => rfl

theorem Same.trans {s t u : Dict κ ν} (h : Same s t) (g : Same t u) : Same s u := fun k => (h k).trans (g k)

theorem undo_append (a b : Log κ ν) (s : Dict κ ν) : undo (a ++ b) s = undo b (undo a s) := by
  induction a generalizing s with
  | nil => rfl
  | cons x a ih =>
    obtain ⟨k, v⟩ := x
    cases v with
    | none => simpa [undo] using ih _
    | some v => simpa [undo] using ih _

/-- Undoing does the same to databases with the same records. -/
theorem undo_same (l : Log κ ν) : ∀ s t : Dict κ ν, Same s t → Same (undo l s) (undo l t) := by
  induction l with
  | nil => intro s t h; exact h
  | cons x l ih =>
    intro s t h
    obtain ⟨k, v⟩ := x
    cases v with
    | none => exact ih _ _ (fun k' => by rw [Dict.get_del, Dict.get_del, h k'])
    | some v => exact ih _ _ (fun k' => by rw [Dict.get_put, Dict.get_put, h k'])

theorem undo_one (k : κ) (s t : Dict κ ν) (h : ∀ k', k' ≠ k → t.get k' = s.get k') : Same (undo [(k, s.get k)] t) s := by
  intro k'
  cases hv : s.get k with
  | none =>
    simp only [undo]
    rw [Dict.get_del]
    by_cases e : k = k'
    · rw [if_pos e, ← e, hv]
    · rw [if_neg e, h k' (fun x => e x.symm)]
  | some v =>
    simp only [undo]
    rw [Dict.get_put]
    by_cases e : k = k'
    · rw [if_pos e, ← e, hv]
    · rw [if_neg e, h k' (fun x => e x.symm)]

/-- A threaded procedure in a transaction does what it does without; and undoing what it logged restores the records. -/
theorem exec_threaded (env : Bool) {p : Prog κ ν ρ} (h : Threaded p) : ∀ (log : Log κ ν) (s : Dict κ ν),
    (exec env p (some log) s).1 = (plain p s).1 ∧ (exec env p (some log) s).2.2 = (plain p s).2 ∧
    ∃ l, (exec env p (some log) s).2.1 = some (l ++ log) ∧ Same (undo l (plain p s).1) s := by
  induction h with
  | ret r => intro log s; exact ⟨rfl, rfl, [], rfl, Same.refl s⟩
  | fail e => intro log s; exact ⟨rfl, rfl, [], rfl, Same.refl s⟩
  | get k c _ ih => intro log s; exact ih (s.get k) log s
  | put k v c _ ih =>
    intro log s
    obtain ⟨a, b, l, e, u⟩ := ih ((k, s.get k) :: log) (s.put k v)
    refine ⟨a, b, l ++ [(k, s.get k)], ?_, ?_⟩
    · simpa [exec] using e
    · rw [undo_append]
      exact Same.trans (undo_same _ _ _ u) (undo_one k s _ (fun k' hk => by
        rw [Dict.get_put, if_neg (fun x => hk x.symm)]))
  | del k c _ ih =>
    intro log s
    obtain ⟨a, b, l, e, u⟩ := ih ((k, s.get k) :: log) (s.del k)
    refine ⟨a, b, l ++ [(k, s.get k)], ?_, ?_⟩
    · simpa [exec] using e
    · rw [undo_append]
      exact Same.trans (undo_same _ _ _ u) (undo_one k s _ (fun k' hk => by
        rw [Dict.get_del, if_neg (fun x => hk x.symm)]))
  | call h body c _ _ ihb ihc =>
    intro log s
    obtain ⟨a, b, l, e, u⟩ := ihb log s
    rcases hp : plain body s with ⟨t, r⟩
    rcases hx : exec env body (some log) s with ⟨t', log', r'⟩
    rw [hp] at a b u
    rw [hx] at a b e
    simp only at a b e u
    subst a b e
    cases r' with
    | error x =>
      simp only [exec, plain, hx, hp, Bool.true_and, Option.isSome_some, if_true]
      exact ⟨trivial, trivial, l, rfl, u⟩
    | ok x =>
      obtain ⟨a', b', l', e', u'⟩ := ihc x (l ++ log) t'
      simp only [exec, plain, hx, hp, Bool.true_and, Option.isSome_some, if_true]
      refine ⟨a', b', l' ++ l, by rw [e', List.append_assoc], ?_⟩
      rw [undo_append]
      exact Same.trans (undo_same _ _ _ u') u

/-- **C35**, full statement: both helpers are all-or-nothing, for all procedures that hand on their transaction. -/
def TxnFull : Prop := ∀ (h : Helper) (p : Prog Nat Nat Nat), h = .shelf ∨ h = .context → Threaded p →
  AllOrNothing (txnProc true h p) p

/-- **C35.** A failing update through `ctx.txn_proc` stays, and `NameError` is reported. -/
theorem txn_refuted : ¬ TxnFull := by
  intro h
  have := h .context (.put 1 1 (.fail (.db 5))) (Or.inr rfl) (.put _ _ _ (.fail _)) []
  simp [plain, txnProc, exec, onError] at this

/-- **C35**, partial: for `DBShelf.txn_proc`, when the procedure raises no exception or an instance of `Exception`.  Missing:
`ctx.txn_proc` (`txn_refuted`), interruptions (`txn_interrupt`). -/
theorem txn_shelf_partial (p : Prog κ ν ρ) (h : Threaded p)
    (hexc : ∀ s e, (plain p s).2 = .error e → e.isException = true) : AllOrNothing (txnProc true .shelf p) p := by
  intro s
  obtain ⟨a, b, l, e, u⟩ := exec_threaded true h [] s
  rcases hp : plain p s with ⟨t, r⟩
  rcases hx : exec true p (some []) s with ⟨t', log', r'⟩
  rw [hp] at a b u
  rw [hx] at a b e
  simp only at a b e u
  subst a b e
  cases r' with
  | ok r => simp [txnProc, exec, hx, Same]
  | error x =>
    have hx' := hexc s x (by rw [hp])
    simp only [txnProc, exec, hx, Bool.false_and, Bool.false_eq_true, if_false, if_true, onError, hx',
      Option.getD_some, List.append_nil]
    exact ⟨u, trivial⟩

/-- **C63**, full statement: the database updates of an installation or removal are all-or-nothing. -/
def OperationFull : Prop := ∀ p : Prog Nat Nat Nat, Threaded p →
  (∀ s e, (plain p s).2 = .error e → e.isException = true) → AllOrNothing (txnProc true .operation p) p

/-- **C63.** An error that is not the database's (a component that is not found, say) leaves the updates made so far. -/
theorem operation_refuted : ¬ OperationFull := by
  intro h
  have := h (.put 1 1 (.fail (.exc 5))) (.put _ _ _ (.fail _)) (fun s e he => by simp [plain] at he; subst he; rfl) []
  simp [plain, txnProc, exec, onError] at this
  exact absurd (this 1) (by decide)

/-- **C63**, partial: when the procedure raises nothing but database errors.  Missing: other errors
(`operation_refuted`); for those `operation_other` tells what remains. -/
theorem operation_partial (p : Prog κ ν ρ) (h : Threaded p)
    (hexc : ∀ s e, (plain p s).2 = .error e → ∃ n, e = .db n) : AllOrNothing (txnProc true .operation p) p := by
  intro s
  obtain ⟨a, b, l, e, u⟩ := exec_threaded true h [] s
  rcases hp : plain p s with ⟨t, r⟩
  rcases hx : exec true p (some []) s with ⟨t', log', r'⟩
  rw [hp] at a b u
  rw [hx] at a b e
  simp only at a b e u
  subst a b e
  cases r' with
  | ok r => simp [txnProc, exec, hx, Same]
  | error x =>
    obtain ⟨n, rfl⟩ := hexc s x (by rw [hp])
    simp only [txnProc, exec, hx, Bool.false_and, Bool.false_eq_true, if_false, if_true, onError,
      Option.getD_some, List.append_nil]
    exact ⟨u, trivial⟩

/-- **C63.** After any other error the records are as the procedure left them and the error is passed on. -/
theorem operation_other (p : Prog κ ν ρ) (h : Threaded p) (s : Dict κ ν) (e : Exc)
    (hp : (plain p s).2 = .error e) (hne : ∀ n, e ≠ .db n) :
    (txnProc true .operation p s).1 = (plain p s).1 ∧ (txnProc true .operation p s).2 = .error e := by
  obtain ⟨a, b, l, e', -⟩ := exec_threaded true h [] s
  rcases hx : exec true p (some []) s with ⟨t', log', r'⟩
  rw [hx] at a b e'
  simp only at a b e'
  rw [hp] at b
  subst b
  cases e with
  | db n => exact absurd rfl (hne n)
  | _ => simp [txnProc, exec, hx, ← a, onError]

/-- **C35.** With `ctx.txn_proc` success makes everything visible, and after an error the caller sees a `NameError` and the
records as the procedure left them, whatever it did. -/
theorem txn_context (p : Prog κ ν ρ) (h : Threaded p) (s : Dict κ ν) :
    (txnProc true .context p s).1 = (plain p s).1 ∧
    (∀ r, (plain p s).2 = .ok r → (txnProc true .context p s).2 = .ok r) ∧
    (∀ e, (plain p s).2 = .error e → (txnProc true .context p s).2 = .error .name) := by
  obtain ⟨a, b, l, e, -⟩ := exec_threaded true h [] s
  rcases hx : exec true p (some []) s with ⟨t', log', r'⟩
  rw [hx] at a b e
  simp only at a b e
  cases r' with
  | ok r => simp [txnProc, exec, hx, ← a, ← b]
  | error x => simp [txnProc, exec, hx, ← a, ← b, onError]

/-- **C35.** An interruption is not caught by `DBShelf.txn_proc`: the updates stay until the transaction is given up. -/
theorem txn_interrupt (p : Prog κ ν ρ) (h : Threaded p) (s : Dict κ ν) (n : Nat)
    (hp : (plain p s).2 = .error (.base n)) :
    (txnProc true .shelf p s).1 = (plain p s).1 ∧ (txnProc true .shelf p s).2 = .error (.base n) := by
  obtain ⟨a, b, l, e, -⟩ := exec_threaded true h [] s
  rcases hx : exec true p (some []) s with ⟨t', log', r'⟩
  rw [hx] at a b e
  simp only at a b e
  rw [hp] at b
  subst b
  simp [txnProc, exec, hx, ← a, onError, Exc.isException]

/-- **C35.** A procedure that does not hand on its transaction is not protected: the inner update survives the error. -/
theorem txn_unthreaded : ¬ ∀ p : Prog Nat Nat Nat, (∀ s e, (plain p s).2 = .error e → e.isException = true) →
    AllOrNothing (txnProc true .shelf p) p := by
  intro h
  have := h (.call .shelf false (.put 1 1 (.ret 0)) (fun _ => .fail (.exc 0)))
    (fun s e he => by simp [plain] at he; subst he; rfl) []
  have := this.1 1
  simp [txnProc, exec, onError, Exc.isException, undo, Dict.put, Dict.get, Dict.del] at this

/-- **C35.** Without an environment (read-only mode) nothing is undone, whichever helper is used. -/
theorem txn_no_env (h : Helper) (p : Prog κ ν ρ) (s : Dict κ ν) : txnProc false h p s = plain p s := by
  have key : ∀ (p : Prog κ ν ρ) (s : Dict κ ν),
      exec false p none s = ((plain p s).1, none, (plain p s).2) := by
    intro p
    induction p with
    | ret r => intro s; rfl
    | fail e => intro s; rfl
    | get k c ih => intro s; exact ih _ s
    | put k v c ih => intro s; exact ih _
    | del k c ih => intro s; exact ih _
    | call h pass body c ihb ihc =>
      intro s
      rcases hp : plain body s with ⟨t, r⟩
      have hb := ihb s
      rw [hp] at hb
      cases r with
      | ok r => simp [exec, plain, hb, hp, ihc]
      | error x => simp [exec, plain, hb, hp]
  have hk := key p s
  rcases hp : plain p s with ⟨t, r⟩
  rw [hp] at hk
  cases r with
  | ok r => simp [txnProc, exec, hk]
  | error x => simp [txnProc, exec, hk]

/-- The hypotheses can be met: three updates, one in a nested helper, the last failing. -/
example :
    let p : Prog Nat Nat Nat := .put 1 10 (.call .shelf true (.del 2 (.ret 0)) (fun _ => .put 1 11 (.fail (.db 3))))
    Threaded p ∧ (∀ s e, (plain p s).2 = .error e → e.isException = true) ∧
    (plain p [(2, 5)]).1 = [(1, 11)] ∧
    (txnProc true .shelf p [(2, 5)]).1 = [(2, 5)] ∧ (txnProc true .shelf p [(2, 5)]).2 = .error (.db 3) := by
  refine ⟨.put _ _ _ (.call _ _ _ (.del _ _ (.ret _)) (fun _ => .put _ _ _ (.fail _))), ?_, by decide, by decide, rfl⟩
  intro s e he
  simp [plain] at he
  subst he; rfl

end Pisi.Txn
