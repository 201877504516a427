import Verif.Props.Version
import Verif.Props.Dependency
import Verif.Props.Graph
import Verif.Props.InstallPlan
import Verif.Props.RemovePlan
import Verif.Props.UpgradePlan
import Verif.Model.UpgradeRun
import Verif.Spec.UpgradeRun
import Verif.Props.UpgradeRun
import Verif.Spec.Glob
import Verif.Props.Glob
import Verif.Props.ItemByRepo
import Verif.Props.InstallDB
import Verif.Props.FilesDB
import Verif.Props.PackageDB
import Verif.Props.Component
import Verif.Props.ConfigurePending
import Verif.Props.Conflict
import Verif.Props.Path
import Verif.Props.PkgName
import Verif.Props.ConfigFiles
import Verif.Props.RemoveFiles
import Verif.Props.Check
import Verif.Props.Txn
import Verif.Props.Search
import Verif.Props.SearchPackages
import Verif.Props.Fetch
import Verif.Props.Build
import Verif.Props.Unpack
import Verif.Props.UnpackSucceeds
import Verif.Props.UnpackDirs
import Verif.Model.DestDir
import Verif.Spec.DestDir
import Verif.Props.DestDir
import Verif.Model.PackRun
import Verif.Spec.PackRun
import Verif.Props.PackRun
import Verif.Model.PackPar
import Verif.Spec.PackPar
import Verif.Props.PackPar
import Verif.Model.PackLeft
import Verif.Props.PackLeft
import Verif.Model.ComarWait
import Verif.Props.ComarWait
import Verif.Props.XmlAdd
import Verif.Props.Config
import Verif.Props.Xml
import Verif.Model.InstallSingle
import Verif.Model.InstallPkgFiles
import Verif.Spec.InstallSingle
import Verif.Spec.InstallPkgFiles
import Verif.Lemmas.InstallPkgFiles
import Verif.Props.InstallSingle
import Verif.Props.InstallPkgFiles
import Verif.Model.Packaging
import Verif.Spec.Packaging
import Verif.Lemmas.Packaging
import Verif.Props.Packaging
import Verif.Model.SpecFile
import Verif.Spec.SpecFile
import Verif.Props.SpecFile
import Verif.Model.DbEnv
import Verif.Spec.DbEnv
import Verif.Lemmas.DbEnv
import Verif.Lemmas.DbEnvRun
import Verif.Props.DbEnv
import Verif.Model.Rebuild
import Verif.Spec.Rebuild
import Verif.Props.Rebuild
import Verif.Model.RepoUpdate
import Verif.Spec.RepoUpdate
import Verif.Lemmas.RepoUpdate
import Verif.Props.RepoUpdate
import Verif.Model.ActionsFS
import Verif.Model.ActionsApi
import Verif.Model.ActionsInstall
import Verif.Spec.Actions
import Verif.Spec.Replace
import Verif.Spec.Shell
import Verif.Lemmas.Actions
import Verif.Lemmas.ActionsInside
import Verif.Lemmas.ActionsExact
import Verif.Props.Actions
import Verif.Props.ActionsEffects
import Verif.Props.ActionsMove
import Verif.Props.ActionsSed
import Verif.Props.ActionsPlace
import Verif.Props.ActionsInstall
import Verif.Model.Cli
import Verif.Spec.Cli
import Verif.Lemmas.Cli
import Verif.Props.Cli
import Verif.Model.PkgGraph
import Verif.Spec.Dot
import Verif.Props.PkgGraph
import Verif.Model.Uri
import Verif.Model.Index
import Verif.Spec.Index
import Verif.Lemmas.Index
import Verif.Props.Index
import Verif.Props.ArFile
import Verif.Props.Strip
import Verif.Props.ListCmd
import Verif.Model.ArFile
import Verif.Spec.ArFile
import Verif.Model.Strip
import Verif.Spec.Strip
import Verif.Model.ListCmd
import Verif.Props.Tar
import Verif.Props.TarSource
import Verif.Model.Tar
import Verif.Spec.Tar
import Verif.Props.CliSound
import Verif.Model.BuildEnv
import Verif.Spec.BuildEnv
import Verif.Props.BuildEnv
import Verif.Model.Comar
import Verif.Spec.Comar
import Verif.Props.Comar
import Verif.Model.InstallOp
import Verif.Spec.InstallOp
import Verif.Props.InstallOp
import Verif.Model.Auth
import Verif.Spec.Auth
import Verif.Props.Auth
import Verif.Model.SearchFile
import Verif.Spec.SearchFile
import Verif.Props.SearchFile
import Verif.Model.Shell
import Verif.Props.Shell
import Verif.Model.RemoteBuild
import Verif.Spec.RemoteBuild
import Verif.Props.RemoteBuild
import Verif.Spec.ShellCmd
import Verif.Model.Pipes
import Verif.Spec.Pipes
import Verif.Props.Pipes
import Verif.Spec.RoundTrip
import Verif.Props.RoundTrip
import Verif.Spec.Copy
import Verif.Lemmas.ActionsCopy
import Verif.Props.ActionsCopy
import Verif.Model.ActionsMan
import Verif.Spec.Html
import Verif.Props.ActionsMan
import Verif.Props.ActionsHtml
import Verif.Props.ActionsNew
import Verif.Model.BuildTools
import Verif.Spec.BuildTools
import Verif.Props.SystemCmd
import Verif.Props.BuildTools
import Verif.Model.Cache
import Verif.Spec.Cache
import Verif.Props.Cache
import Verif.Model.HumanSize
import Verif.Spec.HumanSize
import Verif.Props.HumanSize
import Verif.Model.Patches
import Verif.Spec.Patches
import Verif.Props.Patches
import Verif.Model.ActionsMisc
import Verif.Props.ActionsMisc
import Verif.Props.GnuConfig
import Verif.Spec.BuildLines
import Verif.Props.BuildLines
import Verif.Model.Consent
import Verif.Spec.Consent
import Verif.Props.Consent
import Verif.Props.ConsentPlans
import Verif.Spec.ConsentBound
import Verif.Props.ConsentBound
import Verif.Spec.PlanOrder
import Verif.Props.PlanOrder
import Verif.Model.RepoCmds
import Verif.Spec.RepoCmds
import Verif.Props.RepoCmds
import Verif.Model.SpecRead
import Verif.Spec.Dtd
import Verif.Lemmas.Dtd
import Verif.Props.Dtd
import Verif.Spec.RecordNeeds
import Verif.Props.RecordNeeds
import Verif.Spec.Manual
import Verif.Props.Manual
import Verif.Spec.Uri
import Verif.Props.Uri
import Verif.Props.ComponentIndex
import Verif.Props.Literals
import Verif.Spec.IndexNeeds
import Verif.Props.IndexNeeds
import Verif.Spec.ReRead
import Verif.Props.ReRead
import Verif.Model.RecordEq
import Verif.Spec.RecordEq
import Verif.Props.RecordEq
import Verif.Model.Info
import Verif.Spec.Info
import Verif.Props.Info
import Verif.Model.Installed
import Verif.Spec.Installed
import Verif.Props.Installed
import Verif.Model.Session
import Verif.Spec.Session
import Verif.Props.Session
import Verif.Props.StatusCmds
import Verif.Props.XmlTree
import Verif.Props.Console
import Verif.Props.Reinstall
import Verif.Props.Handler
import Verif.Spec.CheckInstalled
import Verif.Props.CheckInstalled
import Verif.Model.BuildRun
import Verif.Props.BuildRun
import Verif.Spec.UpgradeFiles
import Verif.Props.UpgradeFiles
import Verif.Spec.InstallMany
import Verif.Props.InstallMany
import Verif.Spec.FileHistory
import Verif.Props.FileHistory
import Verif.Model.Progress
import Verif.Spec.Progress
import Verif.Props.Progress
import Verif.Model.Binutils
import Verif.Spec.Binutils
import Verif.Props.Binutils
import Verif.Props.HelpCmd
import Verif.Props.WorkDir
import Verif.Spec.UpgradeHistory
import Verif.Props.UpgradeHistory
import Verif.Spec.Leftovers
import Verif.Props.Leftovers
import Verif.Props.BuildCmd
import Verif.Spec.Interrupted
import Verif.Props.Interrupted
import Verif.Model.RemoveSteps
import Verif.Spec.RemoveAgain
import Verif.Props.RemoveAgain
import Verif.Spec.InterruptedUp
import Verif.Props.InterruptedUp
import Verif.Spec.CrashHistory
import Verif.Props.CrashHistory
import Verif.Spec.Calls
import Verif.Props.Calls
import Verif.Spec.CrashUpgrades
import Verif.Props.CrashUpgrades
import Verif.Model.GraphCmd
import Verif.Spec.GraphCmd
import Verif.Props.GraphCmd
import Verif.Props.GraphSession
import Verif.Model.ConflictRun
import Verif.Spec.ConflictRun
import Verif.Props.ConflictRun
import Verif.Model.OwnerRun
import Verif.Spec.OwnerRun
import Verif.Props.OwnerRun
import Verif.Spec.FetchMix
import Verif.Props.FetchMix
import Verif.Model.FetchPar
import Verif.Spec.FetchPar
import Verif.Props.FetchPar
import Verif.Spec.FetchWipe
import Verif.Props.FetchWipe
import Verif.Model.ReadPar
import Verif.Spec.ReadPar
import Verif.Props.ReadPar
