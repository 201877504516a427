import Verif.Model.PackageDB

/-!
# Model of the commands list-available, list-sources and list-components (pisi/cli/listcmd.py)

`sort` is `list.sort()`; a line is given by what it shows.
-/
namespace Pisi.ListCmd
open Pisi.DB

variable {α ρ : Type} [DecidableEq α]

/-- The options of list-available, pisi/cli/listcmd.py:85-89. -/
structure Opts where
  long : Bool := false
  uninstalled : Bool := false

/-- A line of list-available: the name, whether it is printed in green, and the package whose description or summary is
shown. -/
structure Line (α : Type) where
  name : α
  green : Bool
  shown : Meta α

/-- `ctx.packagedb.get_package(p)`, pisi/db/package.py:64-68, for a list of repositories that cannot fail. -/
def getPackage (y : System α ρ) (p : α) : Except RErr (Meta α) :=
  match y.repos.list with
  | .error e => .error e
  | .ok l => liftD (liftI (y.stores.pkg.getItem l p .repos))

/-- The loop of `print_packages`, pisi/cli/listcmd.py:114-125. -/
def printLoop (o : Opts) (y : System α ρ) (inst : List α) : List α → Except RErr (List (Line α))
  | [] => .ok []
  | p :: ps => match getPackage y p with
    | .error e => .error e
    | .ok m => match printLoop o y inst ps with
      | .error e => .error e
      | .ok ls =>
        if o.long then .ok (⟨p, false, m⟩ :: ls)
        else if p ∈ inst then (if o.uninstalled then .ok ls else .ok (⟨p, true, m⟩ :: ls))
        else .ok (⟨p, false, m⟩ :: ls)

/-- `print_packages(repo)`, pisi/cli/listcmd.py:108-125. -/
def printPackages (sort : List α → List α) (o : Opts) (y : System α ρ) (inst : List α) (repo : Str) :
    Except RErr (List (Line α)) := printLoop o y inst (sort (y.stores.pkg.list (.one (.repo repo))))

/-- The loop over repositories. -/
def printRepos (sort : List α → List α) (o : Opts) (y : System α ρ) (inst : List α) :
    List Str → Except RErr (List (Str × List (Line α)))
  | [] => .ok []
  | r :: rs => match printPackages sort o y inst r with
    | .error e => .error e
    | .ok ls => match printRepos sort o y inst rs with
      | .error e => .error e
      | .ok xs => .ok ((r, ls) :: xs)

/-- `ListAvailable.run`, pisi/cli/listcmd.py:91-106: the lines for each repository. -/
def listAvailable (sort : List α → List α) (o : Opts) (y : System α ρ) (inst : List α) (args : List Str) :
    Except RErr (List (Str × List (Line α))) :=
  if args ≠ [] then printRepos sort o y inst args
  else match y.repos.list with
    | .error e => .error e
    | .ok l => printRepos sort o y inst l

/-- The loop of list-sources and list-components: look every name up. -/
def lookLoop {ν : Type} (d : ItemDB α ν) (l : List Str) : List α → Except RErr (List (α × ν × RepoId))
  | [] => .ok []
  | p :: ps => match d.getItemRepo l p .repos with
    | .error e => .error (.db (.item e))
    | .ok (v, r) => match lookLoop d l ps with
      | .error e => .error e
      | .ok xs => .ok ((p, v, r) :: xs)

/-- `ListSources.run`, pisi/cli/listcmd.py:184-200: the names with the specifications shown and their repositories. -/
def listSources (sort : List α → List α) (y : System α ρ) : Except RErr (List (α × SrcSpec α × RepoId)) :=
  match y.repos.list with
  | .error e => .error e
  | .ok l => lookLoop y.stores.src l (sort (y.stores.src.list .repos))

/-- `ListComponents.run`, pisi/cli/listcmd.py:147-162; the repository is not shown. -/
def listComponents (sort : List α → List α) (y : System α ρ) : Except RErr (List (α × Comp α × RepoId)) :=
  match y.repos.list with
  | .error e => .error e
  | .ok l => lookLoop y.stores.comp l (sort (y.stores.comp.list .repos))

end Pisi.ListCmd
