import Verif.Model.Str

/-! # Installing, upgrading and removing from the command line to the single packages: questions, `--dry-run` and what is done

pisi/cli/install.py:55-62, cli/remove.py:44-51, cli/upgrade.py:67-86, op/install.py:365-582, op/upgrade.py:51-162, op/remove.py:154-208,
op/conflict.py:64-89, cli/__init__.py:112-125.

The computer is any type `σ` of states; `Machine` has what the operations read from it and how single packages change it, as any
functions.  Planning itself is in Model/InstallPlan, Model/UpgradePlan and Model/RemovePlan.  Sets are lists.  Not part of the state: the
caches packages are downloaded to, what is printed, the log.  The questions a single installation asks (`check_reinstall`) are in
Model/InstallSingle. -/
namespace Pisi.Consent

/-- `pisi.Error`, the end of the input at a question, everything that is no `pisi.Error`, and `PisiUpgradeException`. -/
inductive Err | pisi | eof | other | upgraded
  deriving DecidableEq, Repr

/-- The questions, with the names they show: op/install.py:536-539 and op/upgrade.py:152-155, op/remove.py:194-197,
op/conflict.py:75-84, op/install.py:437-443. -/
inductive Ask | extra (l : List Str) | removal (l : List Str) | conflicts (l : List Str) | external (l : List Str)
  deriving DecidableEq, Repr

/-- What happens: a question is answered, a package is installed, upgraded or removed, a repository is updated, the databases are
made anew. -/
inductive Ev | said (q : Ask) (b : Bool) | did (x : Str) | updated (x : Str) | rebuilt
  deriving DecidableEq, Repr

/-- The options: `--dry-run`, `--ignore-dependency`, `--ignore-file-conflicts`, `--bypass-safety`, `--yes-all`, `--reinstall`,
`--bypass-update-repo`. -/
structure Opts where
  dryRun : Bool := false
  ignoreDep : Bool := false
  ignoreConf : Bool := false
  bypassSafety : Bool := false
  yesAll : Bool := false
  reinstall : Bool := false
  bypassUpdate : Bool := false

/-- What is read, and what the operations on single packages do. -/
structure Machine (σ : Type) where
  /-- `component.expand_components`, op/component.py:29-47 -/
  expand : List Str → List Str
  installed : σ → Str → Bool
  /-- `installdb.list_installed()` -/
  allInstalled : σ → List Str
  /-- the packages of `system.base`, if there is such a component -/
  base : σ → Option (List Str)
  /-- the graph and its order in `plan_install_pkg_names`, op/install.py:552-578 -/
  planInstall : σ → List Str → Except Err (List Str)
  /-- the same in `plan_upgrade`, op/upgrade.py:168-226 -/
  planUpgrade : σ → List Str → Except Err (List Str)
  /-- the same in `plan_remove`, op/remove.py:210-241 -/
  planRemove : σ → List Str → Except Err (List Str)
  /-- the same in `install_pkg_files` for names and files, op/install.py:455-481 -/
  planFiles : σ → List (Str × Str) → Except Err (List Str)
  /-- `is_upgradable`, op/upgrade.py:41-52 -/
  upgradable : σ → Str → Bool
  /-- the loop over `A` in `upgrade_pkg_names`, op/upgrade.py:93-128 -/
  select : σ → List Str → Except Err (List Str)
  /-- `calculate_conflicts`, op/conflict.py:29-62: packages to remove, packages in conflict with each other -/
  conflicts : σ → List Str → List Str × List Str
  /-- the sizes of the packages can be added, op/install.py:530 -/
  sizes : σ → List Str → Bool
  /-- names of package files, op/install.py:408-413 -/
  readFiles : List Str → Except Err (List (Str × Str))
  /-- dependencies of the package files nothing satisfies, op/install.py:415-434 -/
  missing : σ → List (Str × Str) → List Str
  /-- `Install.from_name` in `upgrade_pkg_names`, op/upgrade.py:159-162 -/
  fetch : Str → Except Err Unit
  /-- `install_single_name` -/
  installName : Str → σ → σ × Except Err Unit
  /-- `install_single_file` -/
  installFile : Str → σ → σ × Except Err Unit
  /-- `Install(path).install(True)`, op/upgrade.py:164-166 -/
  upgradeOne : Str → σ → σ × Except Err Unit
  /-- `remove_single` -/
  removeOne : Str → σ → σ × Except Err Unit
  /-- `update_repo` -/
  update : Str → σ → σ × Except Err Unit
  /-- `repodb.list()` -/
  repos : σ → List Str
  /-- `pisi rebuild-db -y` in `upgrade_pisi`, op/upgradepisi.py:35-43 -/
  rebuild : σ → σ
  /-- what is typed in at a question; `none` is the end of the input -/
  answer : Ask → Option Str
  /-- the letters of `YESEXPR` of the locale, `^[yY]` in English -/
  letters : List Char

/-- A computation: what happens, the state after it, the result. -/
abbrev Prog (σ α : Type) : Type := σ → List Ev × σ × Except Err α

variable {σ : Type} {α β : Type}

def ret (a : α) : Prog σ α := fun s => ([], s, .ok a)
def raise (x : Err) : Prog σ α := fun s => ([], s, .error x)
def lift (f : σ → Except Err α) : Prog σ α := fun s => ([], s, f s)

/-- One after the other. -/
def bind (p : Prog σ α) (f : α → Prog σ β) : Prog σ β := fun s => match p s with
  | (l, s', .error x) => (l, s', .error x)
  | (l, s', .ok a) => match f a s' with
    | (l', s'', r) => (l ++ l', s'', r)

/-- An operation on a single package. -/
def single (e : Ev) (f : σ → σ × Except Err Unit) : Prog σ Unit := fun s => match f s with
  | (s', r) => ([e], s', r)

/-- A `for` loop. -/
def each (f : Str → Prog σ Unit) : List Str → Prog σ Unit
  | [] => ret ()
  | x :: l => bind (f x) fun _ => each f l

variable (m : Machine σ) (o : Opts)

/-- `CLI.confirm`, cli/__init__.py:112-125: everything that does not match `YESEXPR` is no. -/
def confirm (q : Ask) : Prog σ Bool := fun s =>
  if o.yesAll then ([.said q true], s, .ok true)
  else match m.answer q with
    | none => ([], s, .error .eof)
    | some t => let b := match t with
        | c :: _ => decide (c ∈ m.letters)
        | [] => false
      ([.said q b], s, .ok b)

/-- The packages left to remove, op/remove.py:160-182. -/
def toRemove (A0 : List Str) (s : σ) : List Str :=
  (match o.bypassSafety, m.base s with
    | false, some b => A0.filter (· ∉ b)
    | _, _ => A0).filter (m.installed s)

/-- `remove`, op/remove.py:154-208; the result is `some false` for `False` and `none` for `None`. -/
def remove (A : List Str) (ignoreDep : Bool) : Prog σ (Option Bool) :=
  let A0 := m.expand A
  bind (lift fun s => .ok (toRemove m o A0 s)) fun A1 =>
  if A1 = [] then ret (some false)
  else bind (if !o.ignoreDep && !ignoreDep then lift fun s => m.planRemove s A1 else ret A1) fun order =>
    bind (if order.length > A0.length then confirm m o (.removal order) else ret true) fun yes =>
    if !yes then ret (some false)
    else if o.dryRun then ret none
    else bind (each (fun x s => if m.installed s x then single (.did x) (m.removeOne x) s else ([], s, .ok ())) order) fun _ => ret none

/-- `check_conflicts`, op/conflict.py:64-89. -/
def checkConflicts (order : List Str) : Prog σ Unit :=
  bind (lift fun s => .ok (m.conflicts s order)) fun (C, D) =>
  if D ≠ [] then raise .pisi
  else if C = [] then ret ()
  else bind (confirm m o (.conflicts C)) fun yes =>
    if !yes then raise .pisi
    else bind (remove m o C true) fun r => if r = some false then raise .pisi else ret ()

/-- `plan_install_pkg_names`, op/install.py:552-582. -/
def planInstall (A : List Str) : Prog σ (List Str) :=
  bind (lift fun s => m.planInstall s A) fun order =>
  bind (if o.ignoreConf then ret () else checkConflicts m o order) fun _ => ret order

/-- `plan_upgrade`, op/upgrade.py:168-241. -/
def planUpgrade (A : List Str) : Prog σ (List Str) :=
  bind (lift fun s => m.planUpgrade s A) fun order =>
  bind (if o.ignoreConf then ret () else checkConflicts m o order) fun _ => ret order

/-- `upgrade_base`, op/upgrade.py:54-74. -/
def upgradeBase (A : List Str) : Prog σ (List Str) :=
  bind (lift fun s => .ok (if o.bypassSafety then none else m.base s)) fun
  | none => ret []
  | some b =>
    bind (lift fun s => .ok ((b.filter (· ∉ A)).filter fun x => !m.installed s x)) fun inst =>
    bind (planInstall m o inst) fun io =>
    bind (lift fun s => .ok ((b.filter (· ∉ io)).filter (m.upgradable s))) fun up =>
    bind (if up = [] then ret [] else planUpgrade m o up) fun uo => ret (io ++ uo.filter (· ∉ io))

/-- `A | B` for sets. -/
def union (A B : List Str) : List Str := A ++ B.filter (· ∉ A)

def pisi : Str := ['p', 'i', 's', 'i']

/-- `upgrade_pisi`, op/upgradepisi.py:35-43. -/
def upgradePisi : Prog σ Unit := fun s => ([.rebuilt], m.rebuild s, .error .upgraded)

/-- `install_pkg_names`, op/install.py:495-550.  If nothing is taken out of `A`, `A` and `A_0` are one and the same set, and
`A |= upgrade_base(A)` adds to both. -/
def installNames (A : List Str) (reinstall : Bool) : Prog σ (Option Bool) :=
  let A0 := m.expand A
  bind (lift fun s => .ok (if reinstall then A0 else A0.filter fun x => !m.installed s x)) fun A1 =>
  if A1 = [] then ret none
  else bind (upgradeBase m o A1) fun B =>
    let asked := if A1 = A0 then union A0 B else A0
    bind (if o.ignoreDep then ret (union A1 B) else planInstall m o (union A1 B)) fun order =>
    bind (lift fun s => if m.sizes s order then .ok () else .error .other) fun _ =>
    if o.dryRun then ret none
    else bind (if order.length > asked.length then confirm m o (.extra order) else ret true) fun yes =>
      if !yes then ret (some false)
      else bind (lift fun s => .ok (m.installed s pisi)) fun was =>
        bind (each (fun x => single (.did x) (m.installName x)) order) fun _ =>
        bind (if pisi ∈ order ∧ was then upgradePisi m else ret ()) fun _ => ret none

/-- The file of a package, `dfn[x]`, op/install.py:413. -/
def fileOf (d : List (Str × Str)) (x : Str) : Str := match d.find? (fun e => e.1 = x) with
  | some e => e.2
  | none => x

/-- `install_pkg_files`, op/install.py:388-493; the ends of the names are looked at by the caller.  What the nested
`install_pkg_names` returns is not looked at. -/
def installFiles (uris : List Str) : Prog σ Unit :=
  if o.ignoreDep then each (fun x => single (.did x) (m.installFile x)) uris
  else bind (lift fun _ => m.readFiles uris) fun d =>
    bind (lift fun s => .ok (m.missing s d)) fun miss =>
    bind (if miss = [] then ret () else bind (confirm m o (.external miss)) fun yes =>
      if !yes then raise .pisi else bind (installNames m o miss false) fun _ => ret ()) fun _ =>
    if d = [] then ret ()
    else bind (lift fun s => m.planFiles s d) fun order =>
      bind (if o.ignoreConf then ret () else checkConflicts m o order) fun _ =>
      if o.dryRun then ret ()
      else each (fun x => single (.did (fileOf d x)) (m.installFile (fileOf d x))) order.reverse

/-- `ctx.const.package_suffix`, constants.py:48. -/
def suffix : Str := ['.', 'p', 'i', 's', 'i']

/-- `install`, op/install.py:376-386, with the test of the names of files, op/install.py:395-397. -/
def install (A : List Str) : Prog σ Unit := match A with
  | [] => raise .other
  | x :: l =>
    if suffix.isSuffixOf x then (if l.all fun y => suffix.isSuffixOf y then installFiles m o (x :: l) else raise .pisi)
    else bind (installNames m o (x :: l) o.reinstall) fun _ => ret ()

/-- `upgrade_pkg_names`, op/upgrade.py:80-166. -/
def upgrade (A : List Str) : Prog σ Unit :=
  bind (lift fun s => .ok (m.expand (if A = [] then m.allInstalled s else A))) fun A0 =>
  bind (lift fun s => m.select s A0) fun A1 =>
  if A1 = [] then ret ()
  else bind (upgradeBase m o A1) fun B =>
    bind (if o.ignoreDep then ret (union A1 B) else planUpgrade m o (union A1 B)) fun order =>
    bind (lift fun s => if m.sizes s order then .ok () else .error .other) fun _ =>
    if o.dryRun then ret ()
    else bind (if order.length > A0.length then confirm m o (.extra order) else ret true) fun yes =>
      if !yes then ret ()
      else bind (each (fun x => lift fun _ => m.fetch x) order) fun _ =>
        bind (each (fun x => single (.did x) (m.upgradeOne x)) order) fun _ =>
        if pisi ∈ order then upgradePisi m else ret ()

/-- The three commands. -/
inductive Cmd | install (args : List Str) | remove (args : List Str) | upgrade (args : List Str)

/-- `run` of the commands, cli/install.py:55-62, cli/remove.py:44-51, cli/upgrade.py:67-86. -/
def Cmd.run : Cmd → Prog σ Unit
  | .install args => if args = [] then ret () else Consent.install m o args
  | .remove args => if args = [] then ret () else bind (Consent.remove m o args false) fun _ => ret ()
  | .upgrade args =>
    bind (if o.bypassUpdate then ret () else bind (lift fun s => .ok (m.repos s)) fun l => each (fun x => single (.updated x) (m.update x)) l) fun _ =>
    bind (lift fun s => .ok (if args = [] then m.allInstalled s else args)) fun A => Consent.upgrade m o A

end Pisi.Consent
