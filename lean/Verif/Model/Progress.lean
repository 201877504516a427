import Verif.Model.Str

/-!
# Model of the progress of downloads

`UIHandler` and `Fetcher._do_grab` of `pisi/fetcher.py`, `UI.Progress` of `pisi/ui.py` and `CLI.display_progress` of `pisi/cli/__init__.py`.

Times are whole milliseconds.  Floating point numbers are taken to be exact; the rate and the way numbers are written are left out.
-/
namespace Pisi.Progress

/-- One line of `display_progress`, pisi/cli/__init__.py:127-135: the per cent (`'%3d'`, cut to a whole number), the size in brackets, what
is there, the remaining time if there is one, and whether ` [complete]` follows. -/
structure Line where
  percent : Nat
  total : Nat
  size : Nat
  eta : Option (Int × Int × Int)
  complete : Bool
deriving DecidableEq

/-- `gmtime(x)[3:6]` for a number of milliseconds: hours, minutes and seconds of the day, pisi/fetcher.py:109-110. -/
def clockOf (ms : Int) : Int × Int × Int :=
  let s := ms.tdiv 1000
  (s % 86400 / 3600, s % 3600 / 60, s % 60)

/-- The handler, pisi/fetcher.py:65-76: the announced size (0 if there is none), what was there when it began, when it began; the size it was
last told, the last update of the line and the remaining time shown. -/
structure Handler where
  total : Nat
  exist : Nat
  start : Int
  size : Nat := 0
  last : Int := 0
  eta : Option (Int × Int × Int) := none

/-- `UIHandler.start`, pisi/fetcher.py:78-90; `exist` is the size of the file if it exists, and 0 else. -/
def begin (announced : Option Nat) (exist : Nat) (now : Int) : Handler := { total := announced.getD 0, exist := exist, start := now }

/-- The times that one update reads: for the whole second, for the rate, for the remaining time and for the last update. -/
structure Reads where
  second : Int
  rate : Int
  diff : Int
  last : Int

/-- `percent == 100`, pisi/cli/__init__.py:134; without a size it is 0, pisi/fetcher.py:98-101. -/
def full (total size : Nat) : Bool := total ≠ 0 ∧ size * 100 = total * 100

/-- The per cent, pisi/fetcher.py:98-101, as it is written. -/
def percent (total size : Nat) : Nat := if total ≠ 0 then size * 100 / total else 0

/-- The line, pisi/fetcher.py:117-126. -/
def Handler.line (h : Handler) : Line := ⟨percent h.total h.size, if h.total ≠ 0 then h.total else h.size, h.size, h.eta, full h.total h.size⟩

/-- `UIHandler.update`, pisi/fetcher.py:92-112 and 128: the same size is no news; in another second than the last line the rate is
calculated, which ends the update if no time has passed, and the remaining time: that passed, times what is missing, by what is there. -/
def Handler.update (h : Handler) (size : Nat) (r : Reads) : Handler × Option Line :=
  if h.size = size then (h, none)
  else
    let h := { h with size := size }
    if r.second.tdiv 1000 ≠ h.last.tdiv 1000 ∧ size > 0 then
      if r.rate - h.start = 0 then (h, none)
      else
        let h := if h.total ≠ 0 then { h with eta := some (clockOf (((r.diff - h.start) * ((h.total : Int) - size)).tdiv size)) } else h
        ({ h with last := r.last }, some h.line)
    else ({ h with last := r.last }, some h.line)

/-- The updates of a download. -/
def Handler.updates (h : Handler) : List (Nat × Reads) → List Line
  | [] => []
  | (s, r) :: l => match h.update s r with
    | (h, some x) => x :: h.updates l
    | (h, none) => h.updates l

/-! ## Local files -/

/-- The per cent of `UI.Progress.update`, pisi/ui.py:36-43: what it returns. -/
def told (total size : Nat) : Nat := if total = 0 then 100 else size * 100 / total

/-- What a copy in progress has: what is written, what is read but not yet written, what is left to read, whether 100 was shown, when the
rate was last calculated. -/
structure Copy where
  written : Str
  chunk : Str
  left : Str
  complete : Bool
  second : Int

/-- One turn of the loop of `_do_grab`, pisi/fetcher.py:200-225, for a size other than 0: the chunk is written, the next is read, and the per
cent is shown if it is not 0 and 100 was not shown.  `start` is `st`, `ct` and `tt` are the times read; the rate is not calculated without
an error if no time has passed since the start. -/
def turn (total : Nat) (start ct tt : Int) (c : Copy) : Option (Copy × Option Nat) :=
  let second := if c.second.tdiv 1000 ≠ ct.tdiv 1000 then tt else c.second
  let d : Copy := ⟨c.written ++ c.chunk, c.left.take 1024, c.left.drop 1024, c.complete, second⟩
  let size := d.written.length + d.chunk.length
  if c.second.tdiv 1000 ≠ ct.tdiv 1000 ∧ ct = start then none
  else
    if told total size ≠ 0 then
      if d.complete then some (d, none)
      else some ({ d with complete := told total size = 100 }, some (told total size))
    else some (d, none)

/-- The loop; `times` are those read in each turn, `n` bounds the number of turns. -/
def loop (total : Nat) (start : Int) (times : Nat → Int × Int) : Nat → Copy → Option (Str × List Nat)
  | 0, c => some (c.written, [])
  | n + 1, c =>
    if c.chunk = [] then some (c.written, [])
    else match turn total start (times n).1 (times n).2 c with
      | none => none
      | some (d, x) => (loop total start times n d).map fun (w, l) => (w, x.toList ++ l)

/-- `_do_grab` for a local file with a progress object, pisi/fetcher.py:182-227, 238-240: what was written and the per cents shown.  Each
turn but the last takes away at least one character. -/
def grab (text : Str) (start : Int) (second : Int) (times : Nat → Int × Int) : Option (Str × List Nat) :=
  loop text.length start times (text.length + 1) ⟨[], text.take 1024, text.drop 1024, false, second⟩

end Pisi.Progress
