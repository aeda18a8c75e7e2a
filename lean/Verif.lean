import Verif.Text
import Verif.Sort
import Verif.Version.Model
import Verif.Version.Spec
import Verif.Version.Lemmas
import Verif.Version.SpecLemmas
import Verif.Version.Props
import Verif.Specifier.Model
import Verif.Specifier.Spec
import Verif.Specifier.Lemmas
import Verif.Specifier.Inter
import Verif.Specifier.Union
import Verif.Specifier.Region
import Verif.Specifier.Inverse
import Verif.Specifier.Merge
import Verif.Specifier.Props
import Verif.Parser
import Verif.ParserLemmas
import Verif.VersionText.Model
import Verif.VersionText.Lemmas
import Verif.VersionText.Parsed
import Verif.VersionText.Clauses
import Verif.VersionText.ClauseSets
import Verif.VersionText.Props
import Verif.Dict
import Verif.Collections.Model
import Verif.Collections.Lemmas
import Verif.Collections.Props
import Verif.Names.Model
import Verif.Names.Props
import Verif.Lock.Model
import Verif.Lock.Props
import Verif.Repos.Model
import Verif.Repos.Props
import Verif.Repos.Chain
import Verif.Install.Model
import Verif.Install.Lemmas
import Verif.Install.Props
import Verif.Install.Planning
import Verif.Install.Graph
import Verif.Install.Removal
import Verif.Files.Model
import Verif.Files.Lemmas
import Verif.Files.Props
import Verif.Files.Copy
import Verif.Files.CopyLemmas
import Verif.Files.CopyProps
import Verif.Files.Wheel
import Verif.Concurrency.Promise
import Verif.Concurrency.PromiseLemmas
import Verif.Concurrency.PromiseCount
import Verif.Concurrency.PromiseProps
import Verif.Concurrency.Cached
import Verif.Concurrency.CachedLemmas
import Verif.Concurrency.CachedProps
import Verif.Concurrency.Pool
import Verif.Concurrency.PoolProps
import Verif.Http.Url
import Verif.Http.UrlProps
import Verif.Http.Request
import Verif.Http.RequestProps
import Verif.Http.Cache
import Verif.Http.CacheProps
import Verif.Http.Fetch
import Verif.Http.FetchLemmas
import Verif.Http.FetchProps
import Verif.Solver.Model
import Verif.Solver.Specifiers
import Verif.Solver.Search
import Verif.Solver.Run
import Verif.Solver.SearchProps
import Verif.Solver.Exact
import Verif.Solver.Sound
import Verif.Solver.Decide
import Verif.Solver.ExactProps
import Verif.Solver.Greedy
import Verif.Solver.GreedyRun
import Verif.Solver.GreedySpecifiers
import Verif.Solver.GreedyProps
import Verif.Resolver.Props
import Verif.Solver.SolverViolations
import Verif.Toml.Props
import Verif.Markers.Props
import Verif.Requirements.Props
import Verif.Build.Props
import Verif.Environments.ActivateProps
import Verif.Environments.SharedProps
import Verif.Config.Props
import Verif.Config.WheelFile
import Verif.Cli.Props
import Verif.Tags.Props
import Verif.Dist.RecordFile
import Verif.Dist.RecordProps
import Verif.Dist.EntryPoints
import Verif.Dist.EntryPointsProps
import Verif.Projects.Dependencies
import Verif.Projects.DependenciesProps
import Verif.Projects.Editing
import Verif.Projects.EditingProps
import Verif.Projects.Groups
import Verif.Projects.GroupsProps
import Verif.Projects.Scripts
import Verif.Dist.Metadata
import Verif.Dist.MetadataProps
import Verif.Http.Pool
import Verif.Http.PoolProps
import Verif.Http.Upload
import Verif.Http.UploadProps
import Verif.Dist.PthLink
import Verif.Repos.Index
import Verif.Repos.IndexProps
import Verif.Repos.DistFiles
import Verif.Repos.DistFilesProps
import Verif.Repos.Git
import Verif.Repos.GitProps
import Verif.Build.Dists
import Verif.Build.DistsProps
import Verif.Cli.Auth
import Verif.Cli.AuthProps
import Verif.Projects.Releases
import Verif.Projects.ReleasesProps
import Verif.Projects.AttachedProps
import Verif.Cli.Templates
import Verif.Cli.TemplatesProps
import Verif.Cli.Methods
import Verif.Cli.MethodsProps
import Verif.Environments.Builder
import Verif.Environments.BuilderLemmas
import Verif.Environments.BuilderProps
import Verif.Cli.TemplatesSafety
import Verif.Environments.Interpreters
import Verif.Environments.InterpretersProps
import Verif.Environments.Zoo
import Verif.Environments.ZooProps
import Verif.Environments.Containers
import Verif.Environments.ContainersProps
import Verif.Environments.ContainerSites
import Verif.Environments.ContainerSitesProps
import Verif.Files.ContainerRecord
import Verif.Cli.Contexts
import Verif.Cli.ContextsProps
import Verif.Cli.Execution
import Verif.Cli.ExecutionProps
import Verif.Cli.Tasks
import Verif.Cli.TasksProps
import Verif.Cli.InstallCommand
import Verif.Cli.InstallCommandProps
import Verif.Conda.Model
import Verif.Conda.OfferProps
import Verif.Conda.PinProps
import Verif.Conda.PythonProps
import Verif.Conda.Install
import Verif.Conda.InstallLemmas
import Verif.Conda.InstallProps
import Verif.Torch.Model
import Verif.Torch.Props
import Verif.Torch.Html
import Verif.Torch.HtmlProps
import Verif.Environments.SharedInstall
import Verif.Environments.SharedInstallLemmas
import Verif.Environments.SharedLinkLemmas
import Verif.Environments.SharedInstallProps
import Verif.Environments.Launchers
import Verif.Environments.LaunchersProps
import Verif.Monitors.Model
import Verif.Monitors.Props
import Verif.Files.WheelInstall
import Verif.Files.WheelInstallLemmas
import Verif.Files.WheelInstallSteps
import Verif.Files.WheelInstallChecks
import Verif.Files.WheelInstallProps
import Verif.Files.WheelInstallRecord
import Verif.Files.WheelInstallFailure
import Verif.Files.WheelInstallExamples
import Verif.Install.Execution
import Verif.Install.ExecutionLemmas
import Verif.Install.ExecutionProps
import Verif.Install.Concurrent
import Verif.Install.Nested
import Verif.Install.NestedProps
import Verif.Build.Cache
import Verif.Build.CacheProps
import Verif.Build.CacheMany
import Verif.Build.CacheApart
import Verif.Solver.Report
import Verif.Solver.ReportProps
import Verif.Build.CacheTogether
import Verif.Solver.ReportShared
import Verif.Display.Live
import Verif.Display.LiveProps
import Verif.Processes.Model
import Verif.Processes.Props
import Verif.Install.EndToEnd
import Verif.Packages.Asked
import Verif.Packages.AskedProps
import Verif.Install.Uninstall
import Verif.Install.Updating
import Verif.Display.HandlingProps
import Verif.Install.Reworking
import Verif.Cli.Help
import Verif.Cli.HelpProps
import Verif.Display.Environment
import Verif.Display.EnvironmentProps
import Verif.Files.Archives
import Verif.Files.ArchivesProps
import Verif.Cli.NewProject
import Verif.Cli.NewProjectProps
import Verif.Cli.NewCommand
import Verif.Cli.NewCommandProps
import Verif.Config.Home
import Verif.Config.HomeProps
import Verif.Build.Hooks
import Verif.Build.HooksProps
import Verif.Toml.Styled
import Verif.Toml.StyledSpec
import Verif.Toml.StyledLemmas
import Verif.Toml.StyledReading
import Verif.Toml.StyledWriting
import Verif.Toml.StyledProps
import Verif.Cli.TaskArgs
import Verif.Cli.TaskArgsProps
