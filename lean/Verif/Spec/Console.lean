import Verif.Model.Console

/-!
# Specification: what the user is to see
-/
namespace Pisi.Console

/-- Calls that are for `--verbose` or `--debug` only. -/
def Call.asked (t : Term) : Call → Prop
  | .info _ v _ | .warning _ v | .action _ v => v = true → t.verbose = true
  | .debug _ => t.debug = true
  | _ => True

instance (t : Term) : (c : Call) → Decidable (c.asked t)
  | .info _ v _ | .warning _ v | .action _ v => inferInstanceAs (Decidable (v = true → t.verbose = true))
  | .debug _ => inferInstanceAs (Decidable (t.debug = true))
  | .error _ | .status _ | .notify _ _ => inferInstanceAs (Decidable True)

/-- Warnings and errors go to standard error. -/
def Call.toErr : Call → Bool
  | .warning _ _ | .error _ => true
  | _ => false

/-- The line to be seen; without colours warnings and errors say that they are. -/
def Call.line (noColor : Bool) : Call → Str
  | .info m _ noln => if noln then m else m ++ ['\n']
  | .warning m _ => (if noColor then "Warning: ".toList else []) ++ m ++ ['\n']
  | .error m => (if noColor then "Error: ".toList else []) ++ m ++ ['\n']
  | .action m _ => m ++ ['\n']
  | .status m => if m = [] then [] else m ++ ['\n']
  | .notify e n => match e with
    | .installed => "Installed ".toList ++ n ++ ['\n']
    | .removed => "Removed ".toList ++ n ++ ['\n']
    | .upgraded => "Upgraded ".toList ++ n ++ ['\n']
    | .configured => "Configured ".toList ++ n ++ ['\n']
    | .extracting => "Extracting the files of ".toList ++ n ++ ['\n']
    | _ => []
  | .debug m => "DEBUG: ".toList ++ m ++ ['\n']

/-- What is to be seen on one of the streams. -/
def seen (t : Term) (err : Bool) (cs : List Call) : Str :=
  cs.flatMap (fun c => if c.asked t ∧ c.toErr = err then c.line t.noColor else [])

/-- What a terminal makes of a text: sequences from an escape to the next `m` are not seen; `true` inside of one. -/
def screen : Bool → Str → Str
  | _, [] => []
  | true, c :: s => screen (c ≠ 'm') s
  | false, c :: s => if c = '\x1b' then screen true s else c :: screen false s

/-- Without colours the bytes are the text, with colours the screen shows it. -/
def view (noColor : Bool) (s : Str) : Str := if noColor then s else screen false s

/-- The messages have no escape characters of their own. -/
def Call.clean : Call → Prop
  | .info m _ _ | .warning m _ | .error m | .action m _ | .status m | .debug m => '\x1b' ∉ m
  | .notify _ n => '\x1b' ∉ n

/-- A status that cannot be made the title of the terminal. -/
def Call.badTitle (t : Term) : Call → Prop
  | .status m => t.titled = true ∧ ∃ c ∈ m, 128 ≤ c.toNat
  | _ => False

/-- What is to be in the log. -/
def Call.entry : Call → List (Level × Str)
  | .warning m _ => [(.warning, m)]
  | .error m => [(.error, m)]
  | .action m _ => [(.info, m)]
  | .notify e n => match e with
    | .installed => [(.info, "Installed ".toList ++ n)]
    | .removed => [(.info, "Removed ".toList ++ n)]
    | .upgraded => [(.info, "Upgraded ".toList ++ n)]
    | .configured => [(.info, "Configured ".toList ++ n)]
    | .extracting => [(.info, "Extracting the files of ".toList ++ n)]
    | _ => []
  | _ => []

end Pisi.Console
