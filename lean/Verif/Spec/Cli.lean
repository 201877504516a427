/-
What a command line says, independently of how it is read: a line is a list of items, each of
which stands for one or two words of the shell.
-/
import Verif.Model.Str

namespace Pisi.Cli.Spec

open Pisi

/-- An option as the manual describes it: its letter, its long name, whether it needs a value, and
which values are good; for an option without value, `good []` says that it is a setting, and not a
request for help or for the version. -/
structure O where
  short : Option Char
  long : Str
  value : Bool
  good : Str → Prop

/-- A whole number: digits after an optional sign. -/
def IsInt (v : Str) : Prop :=
  ∃ sgn ds, v = sgn ++ ds ∧ (sgn = [] ∨ sgn = ['-'] ∨ sgn = ['+']) ∧ ds ≠ [] ∧
    ∀ c ∈ ds, '0' ≤ c ∧ c ≤ '9'

/-- What a user writes. -/
inductive Item where
  /-- `-yn`: letters of options without value -/
  | flags (cs : Str)
  /-- `-ynDdir`: such letters, the letter of an option with value, and the value in the same word -/
  | attached (cs : Str) (c : Char) (v : Str)
  /-- `-ynD dir`: the value in the next word -/
  | apart (cs : Str) (c : Char) (v : Str)
  /-- `--name` -/
  | long (n : Str)
  /-- `--name=value` -/
  | longEq (n v : Str)
  /-- `--name value` -/
  | longApart (n v : Str)
  /-- anything else -/
  | word (w : Str)
  deriving DecidableEq, Repr

/-- The words of an item. -/
def Item.words : Item → List Str
  | .flags cs => ['-' :: cs]
  | .attached cs c v => ['-' :: (cs ++ c :: v)]
  | .apart cs c v => ['-' :: (cs ++ [c]), v]
  | .long n => ['-' :: '-' :: n]
  | .longEq n v => ['-' :: '-' :: (n ++ '=' :: v)]
  | .longApart n v => ['-' :: '-' :: n, v]
  | .word w => [w]

/-- The words of a line: those of its items, and possibly "--" and words that are taken as they
are. -/
def words (is : List Item) (raw : Option (List Str)) : List Str :=
  is.flatMap Item.words ++ match raw with
    | none => []
    | some ws => ['-', '-'] :: ws

/-- The attribute of an option in the program: `-` becomes `_`. -/
def attr (n : Str) : Str := n.map (fun c => if c = '-' then '_' else c)

/-- `n` names the option `o` among `os`: it is its long name, or the beginning of its long name and
of no other. -/
def Names (os : List O) (n : Str) (o : O) : Prop :=
  o ∈ os ∧ (n = o.long ∨
    (n <+: o.long ∧ ∀ p ∈ os, n <+: p.long → p.long = o.long))

/-- The letters are those of options without value, which have these attributes. -/
inductive Flags (os : List O) : Str → List Str → Prop
  | nil : Flags os [] []
  | cons {c cs as} (o : O) : o ∈ os → o.short = some c → o.value = false → o.good [] →
      Flags os cs as →
      Flags os (c :: cs) (attr o.long :: as)

/-- Settings without value. -/
def on (as : List Str) : List (Str × Option Str) := as.map (fun a => (a, none))

/-- What an item sets and which arguments it gives, if it is a good item for the options `os`. -/
inductive Means (os : List O) : Item → List (Str × Option Str) → List Str → Prop
  | flags {cs as} : cs ≠ [] → cs.head? ≠ some '-' → Flags os cs as → Means os (.flags cs) (on as) []
  | attached {cs as c v} (o : O) : (cs ++ [c]).head? ≠ some '-' → Flags os cs as → o ∈ os →
      o.short = some c → o.value = true → v ≠ [] → o.good v →
      Means os (.attached cs c v) (on as ++ [(attr o.long, some v)]) []
  | apart {cs as c v} (o : O) : (cs ++ [c]).head? ≠ some '-' → Flags os cs as → o ∈ os →
      o.short = some c → o.value = true → o.good v →
      Means os (.apart cs c v) (on as ++ [(attr o.long, some v)]) []
  | long {n} (o : O) : n ≠ [] → '=' ∉ n → Names os n o → o.value = false → o.good [] →
      Means os (.long n) [(attr o.long, none)] []
  | longEq {n v} (o : O) : n ≠ [] → '=' ∉ n → Names os n o → o.value = true → o.good v →
      Means os (.longEq n v) [(attr o.long, some v)] []
  | longApart {n v} (o : O) : n ≠ [] → '=' ∉ n → Names os n o → o.value = true → o.good v →
      Means os (.longApart n v) [(attr o.long, some v)] []
  | word {w} : (w = ['-'] ∨ w.head? ≠ some '-') → Means os (.word w) [] [w]

/-- What a line means: the settings in order, and the arguments in order. -/
inductive Line (os : List O) : List Item → List (Str × Option Str) → List Str → Prop
  | nil : Line os [] [] []
  | cons {i is s ss a as} : Means os i s a → Line os is ss as →
      Line os (i :: is) (s ++ ss) (a ++ as)

/-- The value of the item is not in a word of its own. -/
def Item.Tight : Item → Prop
  | .apart _ _ _ => False
  | .longApart _ _ => False
  | _ => True

end Pisi.Cli.Spec
