/-
What a server makes of the header `Authorization`: RFC 2617 and the base 64 of
RFC 4648, read with a decoder that goes through the text digit by digit.
-/
import Verif.Model.Auth

namespace Pisi.AuthSpec
open Pisi.Auth

/-- The value of a digit: letters, small letters, figures, `+` and `/`. -/
def val (c : Char) : Option Nat :=
  if 65 ≤ c.toNat ∧ c.toNat ≤ 90 then some (c.toNat - 65)
  else if 97 ≤ c.toNat ∧ c.toNat ≤ 122 then some (c.toNat - 97 + 26)
  else if 48 ≤ c.toNat ∧ c.toNat ≤ 57 then some (c.toNat - 48 + 52)
  else if c = '+' then some 62
  else if c = '/' then some 63
  else none

/-- A number as a byte. -/
def byte (n : Nat) : Byte := ⟨n % 256, Nat.mod_lt _ (by decide)⟩

/-- The bytes of a text in base 64, `none` if it is not one.  Of the two or
three digits before the padding the spare bits are dropped. -/
def decode : List Char → Option (List Byte)
  | [] => some []
  | a :: b :: c :: d :: l =>
    match val a, val b with
    | some x, some y =>
      if c = '=' ∧ d = '=' ∧ l = [] then some [byte (x * 4 + y / 16)]
      else
        match val c with
        | none => none
        | some z =>
          if d = '=' ∧ l = [] then some [byte (x * 4 + y / 16), byte (y * 16 + z / 4)]
          else
            match val d, decode l with
            | some w, some r =>
              some (byte (x * 4 + y / 16) :: byte (y * 16 + z / 4) :: byte (z * 64 + w) :: r)
            | _, _ => none
    | _, _ => none
  | _ => none

/-- The name and the password: the name ends at the first colon, byte 58. -/
def credentials : List Byte → Option (List Byte × List Byte)
  | [] => none
  | b :: l =>
    if b = 58 then some ([], l) else (credentials l).map (fun r => (b :: r.1, r.2))

/-- What a server reads in the value of a header. -/
def reads (v : List Char) : Option (List Byte × List Byte) :=
  if v.take 6 = basic then (decode (v.drop 6)).bind credentials else none

/-- What a server reads that leaves out the ends of lines. -/
def readsLax (v : List Char) : Option (List Byte × List Byte) :=
  reads (v.filter (fun c => decide (c ≠ '\n')))

/-- A request by which a server knows the user. -/
def Known (r : Request) (user pass : List Byte) : Prop := r.auth.map reads = [some (user, pass)]

/-- A request by which a server that leaves out the ends of lines knows the
user. -/
def KnownLax (r : Request) (user pass : List Byte) : Prop :=
  r.auth.map readsLax = [some (user, pass)]

/-- The full statement: the server knows the user in every request. -/
def AuthFull : Prop :=
  ∀ (o : Options) (typed : List Byte), o.username ≠ [] → ∀ (s : Scheme), s = .http ∨ s = .https →
    ∀ part, ∀ r ∈ requests s part (authInfo o typed),
      Known r o.username (if o.password = [] then typed else o.password)

end Pisi.AuthSpec
