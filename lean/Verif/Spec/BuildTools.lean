import Verif.Model.BuildTools
import Verif.Spec.ShellCmd

/-! # What is expected of the helpers that run build systems -/
namespace Pisi.ToolsSpec
open Pisi.Tools (Err Call)

/-- The exit statuses of programs are heeded: only the last program may have failed, and then the whole ends with an error of the
actions API. -/
def Heeded (ran : List (Str × Int)) (r : Except Err Unit) : Prop :=
  (∀ x ∈ ran.dropLast, x.2 = 0) ∧ ∀ x, ran.getLast? = some x → x.2 ≠ 0 → r = .error .action

/-- The same with any error. -/
def Stopped (ran : List (Str × Int)) (r : Except Err Unit) : Prop :=
  (∀ x ∈ ran.dropLast, x.2 = 0) ∧ ∀ x, ran.getLast? = some x → x.2 ≠ 0 → ∃ e, r = .error e

/-- The words with which a build system is told that the files go below `inst`. -/
def Tells (inst : Str) : Call → List Str → Prop
  | .autoInstall _ _, ws => ∀ v ∈ [("prefix", "/usr"), ("datadir", "/usr/share"), ("infodir", "/usr/share/info"),
      ("localstatedir", "/var/lib"), ("mandir", "/usr/share/man"), ("sysconfdir", "/etc")],
      v.1.toList ++ '=' :: inst ++ v.2.toList ∈ ws
  | .kdeInstall _, ws => "DESTDIR=".toList ++ inst ∈ ws ∧ "destdir=".toList ++ inst ∈ ws
  | .perlConfigure _, ws => "DESTDIR=".toList ++ inst ∈ ws ∨ "destdir=".toList ++ inst ∈ ws
  | .pyInstall _, ws => "--root=".toList ++ inst ∈ ws
  | .sconsInstall _ none a, ws => a ++ '=' :: inst ∈ ws
  | _, _ => True

/-- The texts an actions script gives to a call. -/
def texts : Call → List Str
  | .autoConfigure p | .autoRawConfigure p | .autoCompile p | .autoMake p | .kdeConfigure p | .kdeInstall p | .perlConfigure p
  | .perlMake p | .perlInstall p | .pyCompile p | .pyInstall p | .pyRun p | .sconsMake p | .preplib p => [p]
  | .autoInstall p a | .autoRawInstall p a | .auto p a => [p, a]
  | .sconsInstall p none a => [p, a]
  | .sconsInstall p (some q) a => [p, q, a]

/-- The calls that tell a build system where the files go. -/
def installs : Call → Bool
  | .autoInstall _ _ | .kdeInstall _ | .perlConfigure _ | .pyInstall _ | .sconsInstall _ none _ => true
  | _ => false

/-- Text of words with blanks between, nothing of which has a meaning to the shell. -/
def Simple (s : Str) : Prop := ∀ c ∈ s, c = ' ' ∨ (ShellSpec.safeChar c = true ∧ ShellSpec.first c = false)

end Pisi.ToolsSpec
