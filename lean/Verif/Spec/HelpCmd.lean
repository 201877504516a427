/-
What the command help should show.
-/
import Verif.Model.HelpCmd
import Verif.Spec.Cli

namespace Pisi.Cli.Spec

open Pisi

/-- The word is the long or the short name of the command. -/
def Calls (w : Str) (c : Cls) : Prop := w = c.long ∨ c.short = some w

/-- What help shows for the words: the help of one command after the other, until a word names no command or a command
whose options cannot be read. -/
inductive Helped : List Str → List Cls → HelpEnd → Prop
  | nil : Helped [] [] .done
  | cons {w ws c cs e} : c ∈ allCmds → Calls w c → c ≠ cSearch → c ≠ cListUpgrades → Helped ws cs e →
      Helped (w :: ws) (c :: cs) e
  | unknown {w ws} : (∀ c ∈ allCmds, ¬ Calls w c) → Helped (w :: ws) [] (.unrecognized w)
  | search {w ws} : Calls w cSearch → Helped (w :: ws) [] (.broken .conflict)
  | listUpgrades {w ws} : Calls w cListUpgrades → Helped (w :: ws) [] (.broken .nameError)

/-- Long options are written in full. -/
def Item.InFull (os : List O) : Item → Prop
  | .long n => ∃ o ∈ os, o.long = n
  | .longEq n _ => ∃ o ∈ os, o.long = n
  | .longApart n _ => ∃ o ∈ os, o.long = n
  | _ => True

end Pisi.Cli.Spec
