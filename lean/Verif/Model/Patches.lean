import Verif.Model.Shell
import Verif.Model.ActionsFS
import Verif.Spec.ShellCmd

/-!
# Model of applying the patches of a source

`patch_exists` and `apply_patches` of `pisi/op/build.py` with `uncompress` and `do_patch` of `pisi/util/fs.py`.

The shell is the one of `Spec/ShellCmd.lean`: a command line with the program `patch` and a file to read from runs that program.  What
`patch` does to the source is any function of its arguments and of what it reads; it does not touch the files of patches.  What happens
with any other line is arbitrary.

Simplifications: the directory of the source exists; the directory for temporary files exists, is absolute and can be written to; levels
are natural numbers.
-/
namespace Pisi.Patches

/-- `Patch`, pisi/data/specfile.py:66-71. -/
structure Patch where
  filename : Str
  ctype : Option Str
  level : Option Nat
  target : Option Str
  deriving DecidableEq

/-- The files besides the source, by their names, and the source. -/
structure World (T : Type) where
  files : Str → Option Str
  tree : T

/-- Programs and libraries. -/
structure Machine (T : Type) where
  /-- `patch`: its arguments and what it reads, the source after it and the exit status. -/
  patch : T → List Str → Str → T × Int
  /-- `GzipFile(…).read()`, `none` if it raises an error. -/
  gunzip : Str → Option Str
  /-- `BZ2File(…).read()` -/
  bunzip : Str → Option Str
  /-- Any other command line. -/
  other : World T → Str → World T × Int

inductive Err where
  /-- An error of pisi: `pisi.util.Error`, `FileError` or `Error` of the builder. -/
  | pisi
  /-- `IOError` and the like -/
  | io
  /-- `UnboundLocalError` -/
  | unbound
  deriving DecidableEq

variable {T : Type} (m : Machine T)

/-- The words of a line and the files it reads from. -/
def redirect : List ShellSpec.Tok → Option (List Str × List Str)
  | [] => some ([], [])
  | .word s :: l => (redirect l).map fun r => (s :: r.1, r.2)
  | .op '<' :: .word f :: l => (redirect l).map fun r => (r.1, f :: r.2)
  | .op _ :: _ => none

/-- `run_batch`, pisi/util/process.py:25-35: the shell cannot open a file that is missing and runs nothing then. -/
def sh (w : World T) (line : Str) : World T × Int := match (ShellSpec.read line).bind redirect with
  | some (['p', 'a', 't', 'c', 'h'] :: args, [f]) => match w.files f with
    | some c => match m.patch w.tree args c with
      | (t, rc) => ({ w with tree := t }, rc)
    | none => (w, 1)
  | _ => m.other w line

def set (w : World T) (f c : Str) : World T := { w with files := fun x => if x = f then some c else w.files x }

/-- `uncompress` with a target directory, pisi/util/fs.py:222-239: the file to be written is opened before the other is read; the library
opens that one before. -/
def uncompress (tmp f ctype : Str) (w : World T) : World T × Except Err Str :=
  let out := Path.joinPath tmp [Act.basename f]
  let lib := if ctype = ['g', 'z'] then some m.gunzip else if ctype = ['b', 'z', '2'] then some m.bunzip else none
  match lib with
  | none => (set w out [], .error .unbound)
  | some g => match w.files f with
    | none => (w, .error .io)
    | some _ => match ((set w out []).files f).bind g with
      | none => (set w out [], .error .io)
      | some c => (set w out c, .ok out)

/-- `do_patch`, pisi/util/fs.py:242-265. -/
def doPatch (f : Str) (level : Nat) (target : Option Str) (w : World T) : World T × Except Err Unit :=
  if (w.files f).isNone then (w, .error .pisi)
  else match sh m w (Shell.render (Shell.patch level (target.getD []) f)) with
    | (w', rc) => (w', if rc = 0 then .ok () else .error .pisi)

/-- The body of the loop of `apply_patches`, pisi/op/build.py:485-496; `dir` is the absolute name of the directory `files`. -/
def applyOne (dir tmp : Str) (p : Patch) (w : World T) : World T × Except Err Unit :=
  let f := Path.joinPath dir [p.filename]
  match p.ctype with
  | some (c :: t) => match uncompress m tmp f (c :: t) w with
    | (w', .ok f') => doPatch m f' (p.level.getD 0) p.target w'
    | (w', .error e) => (w', .error e)
  | _ => doPatch m f (p.level.getD 0) p.target w

/-- `apply_patches`, pisi/op/build.py:481-496. -/
def applyPatches (dir tmp : Str) : List Patch → World T → World T × Except Err Unit
  | [], w => (w, .ok ())
  | p :: l, w => match applyOne m dir tmp p w with
    | (w', .ok ()) => applyPatches dir tmp l w'
    | (w', .error e) => (w', .error e)

/-- `patch_exists`, pisi/op/build.py:471-479. -/
def patchExists (dir : Str) (ps : List Patch) (w : World T) : Except Err Unit :=
  if ps.all fun p => (w.files (Path.joinPath dir [p.filename])).isSome then .ok () else .error .pisi

end Pisi.Patches
