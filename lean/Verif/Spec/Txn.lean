import Verif.Model.Txn

/-!
# What transactions are for
-/
namespace Pisi.Txn
variable {κ ν ρ : Type} [DecidableEq κ]

/-- The procedure without any transactions: the databases after its updates up to the point where it ended. -/
def plain : Prog κ ν ρ → Dict κ ν → Dict κ ν × Except Exc ρ
  | .ret r, s => (s, .ok r)
  | .fail e, s => (s, .error e)
  | .get k c, s => plain (c (s.get k)) s
  | .put k v c, s => plain c (s.put k v)
  | .del k c, s => plain c (s.del k)
  | .call _ _ body c, s => match plain body s with
    | (s', .ok r) => plain (c r) s'
    | (s', .error e) => (s', .error e)

/-- The procedure hands on its transaction in every call of a helper. -/
inductive Threaded : Prog κ ν ρ → Prop
  | ret (r) : Threaded (.ret r)
  | fail (e) : Threaded (.fail e)
  | get (k c) : (∀ x, Threaded (c x)) → Threaded (.get k c)
  | put (k v c) : Threaded c → Threaded (.put k v c)
  | del (k c) : Threaded c → Threaded (.del k c)
  | call (h body c) : Threaded body → (∀ x, Threaded (c x)) → Threaded (.call h true body c)

/-- The same records. -/
def Same (s t : Dict κ ν) : Prop := ∀ k, s.get k = t.get k

/-- A run of a helper is all-or-nothing: an error leaves every record as it was and is the one the procedure raised; success
leaves the records as the procedure wrote them. -/
def AllOrNothing (run : Dict κ ν → Dict κ ν × Except Exc ρ) (p : Prog κ ν ρ) : Prop :=
  ∀ s, match plain p s with
  | (t, .ok r) => Same (run s).1 t ∧ (run s).2 = .ok r
  | (_, .error e) => Same (run s).1 s ∧ (run s).2 = .error e

end Pisi.Txn
