import Verif.Model.Str

/-!
# Model of the writing of package files, one step at a time: pisi/op/build.py:797-837, pisi/archive.py:132-160, 183-205
and pisi/api.py:131-132

What is in the files, their modes and the places where they are written are left to C140-C142 and C218; here it matters
which files there are, whether they are whole, and what an end of the program in between leaves behind.
-/
namespace Pisi.PackRun

/-- A package to be written: the name of its file, its COMAR scripts and the paths of its list of files. -/
structure Pkg where
  name : Str
  scripts : List Str
  files : List Str

/-- What is in a package file. -/
inductive Member where
  | script (s : Str)
  | metadata
  | filesXml
  | file (path : Str)
  | payload (paths : List Str)
  deriving DecidableEq

/-- The files concerned, and `ctx.build_leftover`, which is in the memory of the process only. -/
structure State where
  /-- the package files: what has been added, and whether the program has come to the `close` of the file (when the object
  is given up after an exception python closes the file all the same, without what is missing) -/
  out : Str → Option (List Member × Bool)
  /-- `install.tar` in the directory of the build -/
  tar : Option (List Str)
  /-- `install.tar.lzma` in the directory of the build -/
  lz : Option (List Str)
  left : Bool

/-- Puts a file. -/
def State.put (s : State) (n : Str) (x : List Member × Bool) : State :=
  { s with out := fun m => if m = n then some x else s.out m }

/-- The steps. -/
inductive Step where
  | open (n : Str)
  | add (n : Str) (m : Member)
  | setLeft
  | tarOpen
  | tarAdd (p : Str)
  | tarClose (opened : Bool)
  | addTar (n : Str)
  | close (n : Str)
  | unlink
  | clearLeft
  deriving DecidableEq

/-- One step; `none`: it raises an exception of its own.
* `open`: `Package(name, 'w')`, pisi/op/build.py:797, which empties the file;
* `add`: `pkg.add_to_package`, pisi/op/build.py:804, 809-810, 822;
* `setLeft`, `clearLeft`: pisi/op/build.py:825, 837;
* `tarOpen`, `tarAdd`: pisi/archive.py:134-149; the file is opened for writing when the first member is added;
* `tarClose`: pisi/archive.py:150-160; `self.tar` is `None` when nothing was added, and `lzma -z` refuses to write over a
  file that exists;
* `addTar`, `close`, `unlink`: pisi/op/build.py:823, 834-836. -/
def Step.run (st : Step) (s : State) : Option State := match st with
  | .open n => some (s.put n ([], false))
  | .add n m => (s.out n).map fun x => s.put n (x.1 ++ [m], x.2)
  | .setLeft => some { s with left := true }
  | .tarOpen => some { s with tar := some [] }
  | .tarAdd p => some { s with tar := s.tar.map (· ++ [p]) }
  | .tarClose opened => if opened then match s.lz with
      | none => some { s with lz := s.tar, tar := none }
      | some _ => none
    else none
  | .addTar n => match s.lz with
    | some l => (s.out n).map fun x => s.put n (x.1 ++ [.payload l], x.2)
    | none => none
  | .close n => (s.out n).map fun x => s.put n (x.1, true)
  | .unlink => match s.lz with
    | some _ => some { s with lz := none }
    | none => none
  | .clearLeft => some { s with left := false }

/-- The steps for one package, pisi/op/build.py:797-837; `old`: the format 1.0. -/
def prog (old : Bool) (p : Pkg) : List Step :=
  .open p.name :: p.scripts.map (fun x => .add p.name (.script x)) ++ [.add p.name .metadata, .add p.name .filesXml] ++
    (if old then p.files.map (fun x => .add p.name (.file x)) ++ [.close p.name]
    else .setLeft :: ((if p.files = [] then [] else .tarOpen :: p.files.map .tarAdd) ++
      [.tarClose (p.files ≠ []), .addTar p.name, .close p.name, .unlink, .clearLeft]))

/-- The loop over the packages, pisi/op/build.py:746-837. -/
def progs (old : Bool) (ps : List Pkg) : List Step := ps.flatMap (prog old)

/-- Running the steps until one raises an exception. -/
def exec : List Step → State → State × Bool
  | [], s => (s, true)
  | st :: l, s => match st.run s with
    | some s' => exec l s'
    | none => (s, false)

/-- The part of `finalize` that deletes what the build left over, pisi/api.py:131-132. -/
def finalize (s : State) : State := { s with lz := if s.left then none else s.lz, left := false }

/-- A build that nothing disturbs from outside, with the `finalize` that ends every command, also after an exception
(pisi-cli: `exit`). -/
def attempt (old : Bool) (ps : List Pkg) (s : State) : State × Bool :=
  let r := exec (progs old ps) { s with left := false }
  (finalize r.1, r.2)

end Pisi.PackRun
