import Verif.Model.Progress

/-!
# The progress of downloads

What a user expects: the per cents grow, `[complete]` is shown once, when everything is there, and the remaining time is right at a
constant speed.
-/
namespace Pisi.Progress

/-- Per cents as they should be shown for one file: growing, more than 0, and 100 at the end only. -/
structure Good (l : List Nat) : Prop where
  grow : l.Pairwise (· ≤ ·)
  pos : ∀ x ∈ l, 0 < x
  last : l.getLast? = some 100
  once : 100 ∉ l.dropLast

/-- Full statement for local files: every file that has a text is copied, and the per cents are good. -/
def LocalFull : Prop := ∀ (text : Str) (start second : Int) (times : Nat → Int × Int), text ≠ [] →
  ∃ l, grab text start second times = some (text, l) ∧ Good l

/-- The sizes told during a download of `n` characters: growing, the last is `n`. -/
structure Sizes (n : Nat) (l : List (Nat × Reads)) : Prop where
  pos : ∀ x ∈ l, 0 < x.1
  grow : (l.map Prod.fst).Pairwise (· < ·)
  last : (l.map Prod.fst).getLast? = some n

/-- Lines as they should be shown for a download: one is complete, the last. -/
structure GoodLines (l : List Line) : Prop where
  grow : (l.map Line.percent).Pairwise (· ≤ ·)
  last : l.getLast?.map Line.complete = some true
  once : ∀ x ∈ l.dropLast, x.complete = false

/-- Full statement for downloads, whether the server tells the size or not. -/
def RemoteFull : Prop := ∀ (n exist : Nat) (announced : Option Nat) (start : Int) (l : List (Nat × Reads)), (announced = none ∨ announced = some n) →
  Sizes n l → GoodLines ((begin announced exist start).updates l)

/-- A number of milliseconds as hours, minutes and seconds. -/
def Shows (ms : Nat) (x : Int × Int × Int) : Prop :=
  x = (((ms / 1000 / 3600 : Nat) : Int), ((ms / 1000 % 3600 / 60 : Nat) : Int), ((ms / 1000 % 60 : Nat) : Int))

/-- Full statement for the remaining time: if `t` milliseconds were needed from `exist` to `size` characters, then at that speed the missing
ones need `t * (total - size) / (size - exist)`. -/
def RemainingFull : Prop := ∀ (total exist size t : Nat) (start : Int) (r : Reads), exist < size → size ≤ total → 0 < t →
  r.second.tdiv 1000 ≠ 0 → r.rate ≠ start → r.diff = start + t → ∃ x, ((begin (some total) exist start).update size r).2.bind Line.eta = some x ∧
    Shows (t * (total - size) / (size - exist)) x

end Pisi.Progress
