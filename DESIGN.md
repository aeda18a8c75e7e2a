# Formal model of bennylut/pkm: design

Sources are cited relative to /repo. All models are shallow Lean 4 functions
(total, computable, exceptions as values) mirroring the Python branch by branch.
Each area lives under `lean/Verif/<Area>/`:

* `Model.lean` (or a module named after its subject)  the transcription of the code, every definition citing file and lines
* `Spec.lean`    (where needed) the small, model-independent vocabulary of the properties
* `Lemmas.lean`  helper lemmas
* `Props.lean`   the property theorems, each with a non-vacuity `example`

Where the code violates a property, a theorem named `..._violated` gives a concrete witness (a refutation of the
full statement for the model) and the strongest restriction that could be proved is named `..._partial`.
`MANIFEST.json` maps properties to theorems; it is generated from `tools/claims.txt` by `tools/gen_manifest.py`, which
also asks Lean for the axioms of every listed theorem. `seeded/LOG.jsonl` records the wrong programs that were tried. There `failed_at` is where the build of the
edited model stopped, and `theorems_failed` are the listed theorems whose proofs use what failed: such a theorem is no longer proved,
which does not show that it is false of the edited model.

## Trusted base

* Lean 4.33.0 kernel; axioms used: at most `propext`, `Classical.choice`, `Quot.sound`. No `native_decide`, no `sorry`,
  no own axioms. Witnesses are evaluated by the kernel (`decide +kernel`, `rfl`).
* The reading of the Python source into the model (nothing of /repo is executed).
* Text is modelled as `List Char`; `str.isdigit/isnumeric/isalnum/isspace/lower` are
  modelled on ASCII. Python `int` is `Nat`/`Int`. Python hash values are modelled by the
  hashed tuple itself (no accidental collisions).
* Python `dict`s are association lists in insertion order; `set`s are duplicate-free lists
  whose order is arbitrary (theorems about sets do not depend on the order, or quantify over it).
* The file system is modelled as a finite map from paths to files/directories, without links; OS failures are
  nondeterministic failure points.
* Threads are modelled as interleavings of atomic steps, one step per lock-protected region or
  per shared-memory access.
* Loops that need not end take fuel; running out of it is an error of its own (`fuel`), never a result.
  Theorems about successful runs hold for any fuel, theorems about termination say that some fuel suffices,
  theorems about endless loops say that none does.

## Plan per property

| id | model | method |
|----|-------|--------|
| C01, C02, C03, C04, C06, C49 | `Version`: StandardVersion/NamedVersion/UrlVersion, `_less`, `equals_to`, hash tuple, `bump` | lexicographic-order lemmas; violations by witness |
| C05, C13, C11 (text part) | `VersionText`: SimpleParser, read_version, read_specifier, `__str__` | parser run on printed text, induction on digits/release |
| C07-C12 | `Specifier`: the six classes, double dispatch with fuel, assertion errors as values | case analysis on endpoints over the version order |
| C14-C17, C59 | `Solver`: Solver/PartialSolution/Incompatibility parametric in the specifier operations; instance `Specifiers` | invariants over all executions; simulation of the run along a plan (`Greedy`) |
| C18 | `Resolver` | list lemmas over get_dependencies, the solver's theorems |
| C19-C21 | `Lock` | induction over update histories |
| C22, C53, C54 | `Install/Model`, `Removal`, `Planning` | map refinement, arbitrary task order |
| C23 | `Install/Graph` | closure of a work-list algorithm |
| C24, C28 | `Files/Model` | file-map effect, list-prefix lemmas |
| C25, C55 | `Files/Wheel`, `Files/Copy` | decision logic, composition of installation and removal |
| C26, C27 | `Files/Copy` | invariant over operation prefixes |
| C29, C30, C46 | `Concurrency` | invariants and measures over all interleavings |
| C31, C32, C33, C56-C58 | `Http` | crash-point invariant, history induction, parser run on printed text |
| C34 | `Toml` | reader run on printed document, induction on nesting |
| C35 | `Names` | string induction |
| C36, C37, C38, C39 | `Repos` | list lemmas, visited-set induction |
| C40 | `Build` | recursion over a graph with the path of builds in progress |
| C41, C45, C51 | `Collections` | permutation lemmas |
| C42, C50 | `Markers`, `Requirements` | recursive-descent parser against a grammar |
| C43, C44 | `Environments` | set lemmas, nesting induction |
| C47, C60 | `Config` | round trip by induction on fields and nesting |
| C48 | `Cli` | line against its typed parts, induction on the parts |
| C61, C62 | `Dist` | reader run on printed rows and sections, induction on rows and lines |
| C63-C66 | `Projects` | markers against their grammar, list lemmas, recursion over the tree of groups |
| C52 | `Tags` | characterisation of the score, monotonicity of its components |
| C67 | `Dist/Metadata`, `Dist/MetadataProps` | headers printed one per line, with an abstract printer; together with C63 |
| C68 | `Http/Pool`, `Http/PoolProps` | steps of users in any order, invariants; permutations of the connections |
| C69 | `Http/Upload`, `Http/UploadProps` | a reader of forms as specification; cutting at the first delimiter |
| C70 | `Dist/PthLink` | lines; the rules of site.py as specification |
| C71 | `Repos/Index`, `Repos/IndexProps` | links of a page as specification; induction on the calls of the parser and on the releases; groups by version text |
| C72 | `Repos/DistFiles`, `Repos/DistFilesProps` | splitting file names; versions read back with the extension behind them |
| C73 | `Repos/Git`, `Repos/GitProps` | remotes as functions that change between requests; invariant: every clone was made for a request with its place; injectivity of places |
| C74 | `Build/Dists`, `Build/DistsProps` | trees of files; contents by membership, RECORD through the model of the installer's verification (C25), names through C52 and C72 |
| C75 | `Cli/Auth`, `Cli/AuthProps` | ideal cipher; invariant over histories: the file has the contents of the open store |
| C76 | `Projects/Releases`, `Projects/ReleasesProps` | invariant over histories: the directory of the version is absent or a complete build of the present sources |
| C77 | `Projects/Releases`, `Projects/AttachedProps` | the disk as files by path; frame theorem, idempotence, wiping |
| C78 | `Cli/Templates`, `Cli/TemplatesProps` | trees and disks; rendering and copying as overlay of the disk, by induction on the tree |
| C79 | `Cli/Methods`, `Cli/MethodsProps` | invariant of the taken names; round trip of names through `-` and `_` |
| C80 | `Environments/Builder`, `Environments/BuilderProps` | disk with symbolic links, resolved with the limit of 40; every step only adds; exact content by following the steps |
| C81 | `Environments/Interpreters`, `Environments/InterpretersProps` | what a program answers is a parameter; the candidates are a list in any order; sorting lemmas for versions without labels |
| C82 | `Environments/Zoo`, `Environments/ZooProps` | on the disk of C80; an invariant of the disk for the set of environments, kept by every operation; induction over the history |
| C83 | `Environments/Containers`, `Environments/ContainersProps` | processes with search path and variables; invariant over the start-up hooks; functions of a module as a map |
| C84 | `Environments/ContainerSites`, `Environments/ContainerSitesProps` | sites as maps by the keys of C35; the resolution is a parameter |
| C85 | `Cli/Contexts`, `Cli/ContextsProps` | the disk as a set of paths; the search against `Spec.NearestContext`; commands as chains of parents |
| C86 | `Cli/Execution`, `Cli/ExecutionProps` | functions as pieces of code between yields; induction over the chain of parents |
| C87 | `Cli/Tasks`, `Cli/TasksProps` | Python's module search over a list of directories; the parser of C61 for the arguments |
| C88 | `Cli/InstallCommand`, `Cli/InstallCommandProps` | the command as a list of actions; case analysis over the options |
| C89 | `Conda/Model`, `Conda/OfferProps`, `Conda/PinProps`, `Conda/PythonProps` | the index file of a subdirectory as a dictionary; grouping by C30's lemmas, tags by C52, specifiers by C12 |
| C90 | `Conda/Install`, `Conda/InstallLemmas`, `Conda/InstallProps` | the extracted artifact and the environment as trees; the loop over the files keeps the invariant of C20's transactions relative to the first state with directories added |
| C91 | `Torch/Model`, `Torch/Props` | the loop over the packages, the key and its order, the table of compatibility, the construction of the repository. Proved: exact membership by induction over the list; the order through a strict weak order that agrees with the keys that occur. |
| C92 | `Torch/Html`, `Torch/HtmlProps` | the calls of the parser, its stack, the search with a stack; round trip by mutual induction over documents, selection by induction over the size of the stack |
| C93 | `Environments/SharedInstall`, `Environments/SharedInstallProps` | the copies of the move and the uninstallation that ends it as steps on the file system of C24, the link as a transaction of C27; what each step makes and keeps, composed |
| C94 | `Environments/Launchers`, `Environments/LaunchersProps` | scripts as texts, an independent account of how the system reads the first line; induction over lines |
| C95 | `Monitors` | programs of nested operations as terms, runs as traces; transparency and nesting by induction over programs; the registry as a dictionary |
| C96 | `Files/WheelInstall` | an installation as steps over a tree of files with the transaction of C32; the wheel as a tree, formats of files and tools as parameters; each stage described by what it changes, by induction over the tree and the steps |
| C97 | `Install/Execution` | a transition system of the caller and the workers of two pools over operations in phases; an invariant over all reachable states, a rank that every step lowers |
| C98 | `Install/Nested` | a transition system of one pool with a queue; weights of nested plans as invariant, a rank, and the schedule that submits first |
| C99 | `Build/Cache` | a transition system of users over the files of the cache, one step per access to the disk, with kills; invariants over all runs; non-interference by agreement of disks; an exact description of a use with nobody else about |
| C111 | a disk as a function from paths, with links that are followed; invariant of the directory over the members |
| C110 | the two dictionaries and the loop of the report, joined with the graph of needed packages (C23) |
| C109 | the help texts as functions of the arguments of the parser's model; listed options against `_get_option`, joined flags against the loop over letters |
| C108 | the resolver with the repository of the second attempt, joined with planning and executing; output of the resolver (C14, C16) and of plans (C22) |
| C107 | generators of operations that take one statement per step under a lock, any schedule; invariant over all runs, the list of packages is a permutation of those in work |
| C106 | `Install/Updating` | the setting of the resolver that `_InstallationRepository` makes of site and repository; what is offered for an installed name is that package, for a new one the newest minor release; through `resolver_output` (C18) and the execution of plans (C22) |
| C105 | `Install/Uninstall` | what is installed is the `Preferred` solution of the problem that `uninstall` poses, so the resolver finds it (C59); what it selects is what is needed (C18), by induction both ways; then C53 |
| C104 | `Packages/Asked`, `AskedProps` | transition system, a step is one access to a dictionary or one retrieval or reading; invariants over all schedules: what the dictionaries hold is right, a thread that has retrieved finds it there |
| C103 | `Install/EndToEnd` | requirements of the resolved packages as an inductive set; the selection of the solver meets them, the plan has the packages of the selection, executing leaves the packages of the plan |
| C102 | `Processes` | the pipe, the program and the loop that reads as turns in any order; one invariant over all schedules; lines specified over the whole output |
| C101 | Display/Live | threads in `show` and the refresher as interleaved steps; invariants over all schedules; violations as runs |
| C100 | `Solver/Report` | the dictionary of lines as it is written for a tree of causes; induction on the derivation with an invariant of what each call adds; readability stated over the printed lines alone |
| C112 | Cli/NewProject | the shipped templates as texts with the expressions `{{name}}`; the rendered text is read symbolically, line by line, with the TOML model of C34; the disk by C78 |
| C113 | Cli/NewCommand | the search of the namespace package as a function on trees, the import by the model of C87; the list is shown to be the paths of the outermost templates by induction on the tree |
| C114 | Config/Home | an object with cached properties and a disk; the uses as transitions; what is kept by an invariant over histories, the workspaces by another one |
| C115 | Build/Hooks | the hooks over the builds of C74 and the home of C114 |
| C116 | Toml/Styled | the reader that records a style sheet and the writer that uses it; a specification of file layouts and of editing them; reading by induction over the layout gives the sheet, writing needs only what the sheet knows of the layout |
| C117 | Cli/TaskArgs | parsing of words and binding of arguments as functions; words that a user means as an inductive type; the call as an equivalence, by induction over words, parameters and dictionaries |

All properties of `properties.jsonl` are expressible in a model; none is marked not applicable.

## What is modelled

Line numbers are those cited in the comments. Helpers of the same file that are not listed are not modelled.

| file under pkm/src/pkm | lines | module | left out |
|---|---|---|---|
| api/versions/version.py | 29-329 | Version, VersionText | `__repr__` |
| api/versions/version_specifiers.py | 16-627 | Specifier, VersionText | object identity (mutation of unions: one theorem) |
| api/versions/version_parser.py | 10-172 | VersionText | positions in error messages |
| utils/parsers.py | 18-90, 128-141, 171-182 | Parser | file input, error texts |
| resolution/pubgrub.py | 42-830 | Solver | monitoring (the report of unsolvable problems: Solver/Report) |
| resolution/dependency_resolver.py | 22-142 | Resolver | threads, monitoring |
| resolution/packages_lock.py | 17-137 | Lock | the TOML layer (C34, C47) |
| api/packages/package.py | 21-24, 41-97, 181-199 | Names, Lock, Install | |
| api/packages/package_installation.py | 60-451 | Install | locking of the site, monitors, failures inside an operation |
| api/packages/site_packages.py | 58-236 | Install, Files | |
| api/packages/standard_package.py | 21-28, 49-113 | Repos, Install | |
| api/repositories/repository.py | 73-89 | Repos | |
| api/repositories/repository_loader.py | 88-182 | Repos | import of extension modules |
| api/repositories/repository_management.py | 57-256 | Repos | file access |
| utils/files.py | 13-20, 44-60, 119-279 | Files | links, permissions, temporary directories |
| api/distributions/distinfo.py | 198-232, 264-315 | Files, Dist | |
| api/distributions/wheel_distribution.py | 63-70, 148-150, 198-220 | Files, Tags | archives, byte compilation |
| utils/promises.py | 148-226 | Concurrency | |
| utils/properties.py | 13-80 | Concurrency | |
| utils/multiproc/__init__.py | 115-259 | Concurrency | pipes, pickling |
| utils/http/http_client.py | 54-94, 185-268, 318-460 | Http | sockets, TLS, connection cache |
| utils/http/cache_directive.py | 30-81 | Http | |
| config/toml.py | 10-738 | Toml | floats, dates, recorded styles (these are in Toml/Styled), `eval` of anything but string literals |
| config/configclass.py | 17-419 | Config | subclasses in fields, texts of errors |
| config/configfiles.py | 37-66, 81-112 | Config, Dist | csv dialects other than the default |
| utils/entrypoints.py | 10-84 | Dist | import of the referenced objects |
| api/projects/pyproject_configuration.py | 22-182, 191-206, 257-265 | Config, Projects | |
| api/projects/project.py | as cited | Projects | attached environments, publishing |
| api/projects/project_group.py | 29-187 | Projects | |
| pkm-cli: controllers/prj_controller.py | as cited | Projects | |
| api/repositories/repositories_configuration.py | 20-36 | Config, Repos | |
| api/dependencies/env_markers.py | 17-156 | Markers | |
| api/dependencies/dependency.py | 18-122 | Requirements, Resolver | |
| build/external_builders.py | 79-162 | Build | build back-ends, environments |
| build/source_build_cache.py | 31-93 | Build | archives |
| repositories/shared_pacakges_repo.py | 31-57 | Environments | |
| api/environments/environment.py | 56-60, 172-232 | Environments, Build | |
| api/environments/environments_zoo.py | 62-77 | Environments | |
| api/environments/environment_introspection.py | 20-95, 144-384, 424-575 | Tags | reading ELF files, running the loader |
| utils/iterators.py, seqs.py, sets.py, dicts.py, sequences.py, strings.py, hashes.py, enums.py | as cited | Collections, Config | laziness |
| pkm-cli: api/dynamic_cli/command_parser.py | 109-654 | Cli | dynamic commands, help texts |
| api/packages/package_metadata.py | 19-126 | Dist/Metadata | printing of long header lines is abstract |
| utils/http/http_client.py | 97-182, 325-358 | Http/Pool | one host; the state machine of http.client.HTTPConnection |
| utils/http/mfd_payload.py, utils/io_streams.py | 12-71; 21-39 | Http/Upload | encodings, guessing of content types |
| repositories/pypi_repository.py | 137-187 | Http/Upload | the request itself (C57, C68) |
| api/distributions/pth_link.py | 22-63 | Dist/PthLink | Windows line ends |
| repositories/simple_repository.py | 24-125 | Repos/Index | the HTML tokenizer, the transfer |
| repositories/pypi_repository.py | 40-135 | Repos/Index | JSON decoding, the transfer |
| api/packages/package.py, api/distributions/distribution.py | 21-110; 45-103 | Repos/DistFiles | installation (C07, C56) |
| repositories/file_system_repository.py, repositories/file_repository.py | 15-63; 12-34 | Repos/DistFiles | a builder given a distribution file |
| repositories/git_repository.py | 24-112 | Repos/Git | the git processes, loading of the project |
| build/pkm_builders.py | 22-166 | Build/Dists | the archives themselves, the contents of the dist-info files (C51, C67), the check of the target interpreter |
| api/projects/project.py | 381-390 | Build/Dists | |
| api/distributions/wheel_distribution.py | 72-82 | Build/Dists | |
| pkm-cli: auth/publish_auth_store.py | 28-92 | Cli/Auth | the cipher (ideal), the toml text |
| pkm-cli: controllers/prj_controller.py | 89-109 | Cli/Auth | the build before publishing |
| pkm-cli: main2.py | 326-341 | Cli/Auth | |
| pkm: api/projects/project.py | 154-178, 207-234, 279-379 | Projects/Releases | what builders produce (parameter) |
| pkm: build/pkm_builders.py | 22-92, 117-124 | Projects/Releases (names and places) | |
| pkm-cli: api/templates/template_runner.py | 97-161 | Cli/Templates | jinja (functions), `setup`, `post_render`, questions to the user |
| pkm-cli: api/dynamic_cli/method_parser.py | 57-134 | Cli/Methods | types, help texts |
| pkm: api/environments/environment_builder.py | 39-121 | Environments/Builder | `init.tcl` of Python builds; symbolic links above the new path |
| pkm: api/environments/installed_pythons_locator.py | all but 81-82 | Environments/Interpreters | `\d` beyond ASCII |
| pkm: api/environments/environment_builder.py | 24-37 | Environments/Interpreters | |
| pkm: api/environments/environments_zoo.py | 27-57, 79-129 | Environments/Zoo | Windows; symbolic links and directories in `.zoo/bin` |
| pkm: api/environments/package_containers.py | 39-120, 189-246, 250-340 | Environments/Containers, Environments/ContainerSites, Files/ContainerRecord | the texts of the written programs; the resolution and installation inside; Windows |
| pkm: launchers/executables.py | 39-75 | Environments/Containers (`runPlain`) | file modes; Windows |
| pkm-cli: utils/context.py | 22-169 | Cli/Contexts | links, failures to load what is found, what is printed, the memo of the context on the command |
| pkm-cli: main.py | 207-225 | Cli/Contexts (`tasksProject`) | profiling |
| pkm-cli: api/dynamic_cli/command_parser.py | 48-77 | Cli/Contexts, Cli/Execution | the closing of generators by the collector |
| pkm-cli: api/tasks/tasks_runner.py, tasks_executor.py | 15-160, 22-175 | Cli/Tasks | the content of tasks, the listing of tasks, the installation of pkm-cli into the environment |
| pkm-cli: main.py | 78-108, 127-199 | Cli/Tasks, Cli/InstallCommand | the start of the program |
| conda-pkm-repo: conda_channel_subdir.py | 26-228 | Conda/Model | reading the index file, caching |
| conda-pkm-repo: conda_repo.py | 18-55 | Conda/Model | failing requests |
| pkm: api/environments/environment.py | 353-368 | Conda/Model | `has_windows_os` |
| conda-pkm-repo: conda_distribution.py | 58-158 | Conda/Install | extraction, sizes, running hooks (starting one raises) |
| download-torch-pkm-repo: torch_repository.py | 13-68 | Torch/Model | the index itself (C37) |
| download-torch-pkm-repo: cuda_compatibility.py | 19-23, 46-76 | Torch/Model | |
| download-torch-pkm-repo: utils/html.py | 10-66 | Torch/Html | the tokenizer of the standard library |
| download-torch-pkm-repo: cuda_compatibility.py | 77-108 | Torch/Html | the parsers of versions and specifiers (C05, C07), the file |
| repositories/shared_pacakges_repo.py | 82-257 | Environments/SharedInstall | the texts of the files, the launchers of entry points, the monitor |
| launchers/executables.py, launchers/__init__.py | 16-75; 16-65 | Environments/Launchers | file access; the archive in a launcher, which is never reached |
| api/environments/environment.py | 129-141, 361-368 | Environments/Launchers | |
| utils/monitors.py | 12-160 | Monitors | `Monitor.enter` (not used), threads, the choice of methods by annotation |
| api/distributions/wheel_distribution.py | 84-220 | Files/WheelInstall | Windows, the modes of files, `skip_record_verification`, the extraction of the archive; names of entry points with `/` or `..`; hashes are a function of contents |
| api/packages/package_installation.py | 265-339 | Install/Execution | phases are done or raise as a whole (C32, C96); cancellation that kills another worker (C27), monitors (C95) |
| utils/promises.py | 73-121 | Install/Execution | |
| api/pkm.py, build/external_builders.py, api/environments/package_containers.py | 61; 116-142; 163 | Install/Nested | only the number of operations of the inner plan; two levels |
| build/source_build_cache.py | 37-91 | Build/Cache | hashing, the build itself (C40); removal of a tree is one step; the name of a wheel is fixed by its archive |
| api/distributions/source_distribution.py, api/pkm.py | 26-34; 119-122 | Build/Cache | |
| resolution/pubgrub.py | 285-290, 352-413 | Solver/Report | the words of the lines |
| pkm-cli: display/display.py | 37-80 | Display/Live | what a piece draws, the terminal, exceptions of the body |
| utils/processes.py | 22-43 | Processes | starting programs, `execvpe`, `split_command` (not used) |
| api/packages/package_installation.py | 124-194 | Install/EndToEnd | composition of Resolver and Install only: the plan is the output of the resolver, and installed packages of other names |
| api/packages/standard_package.py | 33-39, 115-145 | Packages/Asked | `install_to`; the choice of the artifact, retrieval and reading are parameters; `id(artifact)` is the artifact |
| api/packages/package_installation.py | 60-93, 342-411 | Install/Uninstall | joined with Resolver, Names, Install |
| api/packages/package_installation.py | 95-111, 125-196, 414-451 | Install/Updating | joined with Resolver, Names, Install; `dependencies_override`, the `ValueError` of `max` |
| pkm-cli main.py, self_controller.py, package_containers.py | 195-196; 28-29, 40; 166-167 | Install/Updating | what they pass as `updates` and `store_mode` only |
| pkm-cli/src/pkm_cli/cli_monitors.py | 18-52 | Display/Handling | other listeners, exceptions of the display |
| pkm/src/pkm/api/packages/package_installation.py | 146-196, 414-451 (second attempt) | Install/Reworking | `ValueError` of the first attempt for an unknown package without a version |
| pkm-cli: api/dynamic_cli/help_generator.py | 9-140 | Cli/Help | providers of fields, dynamic arguments, the star of repeatable fields |
| pkm-cli: reports/environment_report.py | 28-60, 82-104 | Display/Environment | the sections on containers, scripts and repositories, colours |
| pkm: utils/archives.py, repositories/url_repository.py | archives 9-23, url 29-36; `_resource_files_of` of http_client | Files/Archives | hard links, devices, owners, modes, times; the filter for tar members of Python 3.14 |
| pkm-cli: pkm_templates/project/render.py, pyproject.toml.tmpl, main.py.tmpl, envzoo/render.py, env-zoo.toml.tmpl, pyproject-group.toml.tmpl | all, `post_render` excepted | Cli/NewProject | jinja but for `{{name}}`; the choices of `ask` |
| pkm-cli/src/pkm_cli/main.py; api/templates/template_runner.py | 111-124; 30-64 | Cli/NewCommand | what a template does is in Cli/Templates and Cli/NewProject; every render.py has a setup; one directory of modules has templates |
| pkm: api/pkm.py | 54-124, 145-159 | Config/Home | Windows; threads and processes; contents of settings; extensions loaded by the repository loader |
| pkm: api/buildsys.py | 18-75 | Build/Hooks | arguments the hooks ignore; containerized applications but for the home |
| pkm: config/toml.py; config/configfiles.py | 15-729; 14-19 | Toml/Styled | floats, dates; `Table` and `Array`, which the reader does not make |
| pkm-cli: utils/method_clis.py | 30-78 | Cli/TaskArgs | keyword-only parameters, `**kwargs`; annotations but for what they make of a text |

Not modelled at all: network and TLS, the operating system below files and pipes, the format of zip and tar files,
Python build back-ends, the drawing of terminal widgets, the reports on projects, packages and repositories, the
launchers of Windows, the documentation builder, the bootstrap script get_pkm.py.

## Findings

Behaviours of the code that contradict a property. Those with a theorem name in parentheses are proved of the model.

* **Versions.** Order and equality disagree for local labels and URLs (`version_trichotomy_violated`). Equal versions
  hash differently if one has an explicit epoch 0 (`version_hash_violated`). `bump("b")` of an rc goes backwards
  (`bump_pre_violated`).
* **Specifiers.** Operations are wrong for post releases, local labels, named versions and exclusion lists
  (`intersect_violated_*`, `union_violated*`, `inverse_violated`, `difference_violated`, `allows_any_violated`,
  `allows_all_violated`); a union of two unions empties its argument (`union_mutates_argument_violated`); `!=1.0,!=2.0`
  allows `0!1.0`; `!=1.0,!=2.*` loses a clause (`comma_violated`). Some texts are read back as something else
  (`specifier_text_violated_*`).
* **Solver.** A version that is decided a second time makes a new, unlisted dependency object, so a wrong selection is returned
  (`resolution_satisfies_violated`); learned incompatibilities use accumulated constraints, so solvable problems are
  called unsolvable (`resolution_unsolvable_violated`); `AssertionError`, `IndexError` (`resolution_fails_violated`) and
  endless loops (`resolution_ends_violated`) on solvable problems; a post release as newest version makes the solver fail
  without any conflict (`resolution_post_violated`). `get(..) or -1` takes level 0 for missing. Versions `1.0` and `1.0.0` of
  one package raise an `AssertionError`. Of two dependencies on one package only the last counts.
* **Resolver.** An extra's own dependency on the base package replaces the version pin (`resolver_extras_violated`); `extras=[]`
  is an entry of its own (`resolver_empty_extras_violated`); overrides are looked up by the raw name
  (`resolver_override_case_violated`); the marker of an override is not consulted; `x === name` raises a `KeyError`.
* **Names and locks.** Runs of separators are not merged as documented (`name_key_violated`, `descriptor_name_violated`), which
  breaks saving and loading of locks (`lock_file_violated`).
* **Installation.** The store mode is ignored if the plan keeps the installed object (`plan_store_mode_violated`); a package in
  `updates` that nothing new needs is removed (`plan_updates_violated`); a missing package gives a `ValueError` of `max`
  (`missing_package_violated`); uninstall compares raw names (`uninstall_violated`); orphans are found by all metadata
  dependencies, the installation tree uses only the applicable ones.
* **Files.** Uninstall empties `__pycache__` directories of other packages (`uninstall_pycache_violated`) and reaches sibling
  directories (`uninstall_sibling_violated`); `path_to("/")` does not end (`path_to_root_violated`); rollback loses files that
  were overwritten twice, touched or replaced by a `file_copy` function, and leaves nested directories (`rollback_*_violated`);
  a wrong signature below any `*.dist-info` directory only warns (`verify_dist_info_violated`, `verify_nested_violated`);
  hash lines for files outside the wheel are taken over (`sign_files_signature_violated`).
* **Repositories.** Inline bindings share one name (`inline_binding_violated`), equal definitions one instance
  (`shared_instance_violated`); a configuration first reached without its parents loses them (`lookup_chain_violated`);
  an unknown URL raises `TypeError` (`raise []`).
* **Concurrency.** A false exception object counts as success (`promise_falsy_exception_violated`); deleting a cached property
  meanwhile runs it twice or fails (`cached_clear_violated`, `cached_clear_race_violated`); cancelling a completed task kills
  the worker of another (`pool_cancel_kills_other_violated`); closing a busy pool starts processes without end
  (`pool_close_spawns_violated`).
* **HTTP.** After one answer from the stored files no later fetch contacts the server (`fetch_after_hit_violated`,
  `fetch_update_violated`); truncated bodies are stored as complete (`cache_truncated_violated`); stale handles overwrite
  newer info (`cache_stale_info_violated`); a torn info file makes every later load fail (`cache_torn_info_violated`);
  relative redirections keep the old query, put the new one into the path and take `//host` for a path
  (`redirect_*_violated`).
* **TOML.** Strings ending with a backslash, NUL, empty tables and `{}` are not read back, a comment at the end of the text makes
  the reader loop, numbers at the end of the text fail (`toml_*_violated`); scanned text is passed to `eval`.
* **Markers and requirements.** `===` is unreadable, literals cannot contain `J`, `extra != x` is always true
  (`Markers.marker_*_violated`); names starting with a digit are refused, `x @ url;marker` swallows the marker, `!=1.*` is
  unreadable after printing (`Reqs.requirement_*_violated`).
* **Builds.** Metadata and wheel of one requirement, or a missing metadata hook, are reported as a cycle; with worker processes
  the recursion can be endless (`Build.build_*_violated`).
* **Environments.** Shared packages are compared by the text of their path (`Shared.shared_other_path_violated`) and linking uses an
  attribute that does not exist (`a.compatibility_tag`); the zoo unsets an empty `PATH` (`Act.zoo_empty_path_violated`);
  activation is not thread safe (`Act.activate_threads_violated`).
* **Configuration.** Loading and saving a pyproject.toml loses the `tool.pkm` tables, repository configurations cannot be saved,
  `Optional` attributes not loaded, author names grow by quoting (`Config.*_violated`). WHEEL and pyvenv.cfg values with a colon
  are unreadable (`Config.wheel_file_colon_violated`), pyvenv.cfg files of Python too.
* **Command line.** An empty argument ends the reading, `--flag=value` passes the value on, `--opt=` takes the next argument, options
  after a list of values are values (`Cli.*_violated`).
* **Tags.** On musl systems nothing is installable (`Tags.musl_violated`), one odd part rejects the whole set
  (`Tags.odd_part_violated`), a 32 bit interpreter accepts 64 bit wheels (`Tags.width_violated`), unknown manylinux spellings are
  accepted (`Tags.unknown_platform_violated`).
* **Files of installed packages.** RECORD files with a line without hash, as every RECORD has, cannot be saved and are truncated by
  the attempt (`Dist.record_file_violated`); an empty line fails (`Dist.record_empty_line_violated`). Entry points with extras change
  with each saving, names with a colon are cut (`Entry.entry_*_violated`).
* **Projects.** An optional requirement with a marker of its own is required even if its extra is not requested
  (`project_marker_violated`); a capital J in the name of a group of optional requirements makes the project unusable
  (`project_group_letter_violated`). Adding a dependency loses its extras and marker (`project_add_extras_violated`), writes
  constraints that allow the next major release or its pre-releases (`generalized_*_violated`), and a failed removal is
  not taken back (`project_remove_rollback_violated`). Groups in a cycle or with a missing child cannot be listed
  (`group_cycle_violated`, `group_missing_violated`: `.exists` is not called), `root` is always none (`group_root_violated`),
  `remove` by name fails beside a subgroup (`group_remove_named_violated`). Any `[project.entry-points]` table makes the build end
  in a `RecursionError` (`project_entry_points_violated`), gui scripts become console scripts (`project_gui_violated`).
* **Metadata.** The description of a METADATA file is dropped when it is read (`metadata_description_violated`), a single keyword
  comes back as a text (`metadata_keyword_violated`), values longer than a line come back with the line break and can then not be saved
  or are lost (`metadata_long_violated`). Maintainers are not written and authors are not paired with their addresses
  (`project_maintainers_violated`, `project_authors_violated`).
* **Connections.** An answer that is not read to its end (every status other than 200 in `fetch_resource`) garbles the next request
  on that connection (`pool_unread_violated`). A connection that broke while a request was sent is put back and taken again first, so that the
  retry and all later requests fail (`pool_broken_violated`, `pool_retry_violated`).
* **Uploads.** The closing delimiter of a form is never written (`upload_closing_violated`). When a request is repeated the file is at
  its end and nothing of it is sent, with the digests of the whole file (`upload_retry_violated`). The build number of a wheel is sent as
  its python tag (`publish_build_violated`), quotes in file names are not escaped (`upload_quote_violated`).
* **Path links.** Directories ending in a blank are linked without it (`pth_blank_violated`); an empty import becomes a link
  (`pth_import_violated`).
* **Indexes.** Relative links are resolved against the root of the host (`simple_relative_link_violated`); a wheel without a dash in its name
  makes every request for the page fail (`simple_one_bad_file_violated`); `1.0` and `1.0.0` become two packages
  (`simple_same_version_violated`).
* **Distribution files.** Names of source distributions are cut at the first dash, `my-pkg-1.0.tar.gz` becomes `my` with version `pkg`
  (`sdist_dashed_name_violated`); a local label swallows `.tar.gz` (`sdist_label_violated`). No file package can tell its dependencies:
  `published_metadata` is `None` and the request raises `AttributeError` (`file_package_dependencies_violated`). A requirement with an
  underscore finds nothing in a directory (`directory_underscore_violated`), and a directory without a project offers a project of its own
  name with version `unknown_version` (`directory_bogus_project_violated`). The name in `name @ file://..` is not compared
  (`file_url_name_violated`).
* **Git.** Branches are looked for in `.git/heads`, which git does not have: no clone is ever updated (`git_never_updated_violated`). After a
  branch has been cloned, or its clone has failed, the requirement without a branch always fails (`git_default_after_branch_violated`). A
  user name in the url becomes the host (`git_user_violated`), ssh addresses are asked at port 443 (`git_port_violated`), capital letters are
  lost (`git_case_violated`), projects of project groups raise `AttributeError` (`git_group_violated`), and an interrupted clone is
  taken for a complete one (`git_crash_violated`). A branch starting with a slash is cloned outside of the workspace
  (`git_outside_violated`).
* **Built distributions.** Modules directly in `src` are not packed (`top_module_violated`). A project without `src` packs every directory it has:
  earlier builds, `.git`, tests (`whole_project_packed_violated`); `src/__pycache__` counts as a package (`pycache_packed_violated`). A
  configured package `a/b` is installed as `b` (`nested_package_violated`), two of the same last name cannot be built
  (`same_name_violated`), and the source distribution of such a project cannot be built (`sdist_nested_violated`). The wheel of `a.b` reads
  as one of `a-b` (`dotted_name_violated`). `requires-python = ">=2.7"` gives a wheel that no Python 3 accepts (`next_major_violated`);
  `"<4"` raises `AttributeError` (`upper_bound_violated`).
* **Credentials.** `pkm publish` never reads the credentials it saves (`publish_ignores_saved_violated`). A mistyped password leaves the store
  object unlocked without contents, so every later call raises `AttributeError` (`auth_mistyped_violated`); on an open store the next addition
  seals everything with the mistyped password (`auth_rekey_violated`). Two runs lose each other's additions
  (`auth_lost_update_violated`), a crash while writing loses all (`auth_crash_violated`).
* **Publishing.** `pkm publish` uploads whatever is in `dist/<version>`: a build older than the last edit (`publish_stale_violated`), nothing, with
  success, after a build that failed (`publish_failed_build_violated`). After `bump_version` the same object takes the files of the old version
  and sends them with the new version's metadata (`publish_bumped_violated`). `clean_dist` compares texts of versions
  (`clean_dist_equal_violated`).
* **Attached environment.** A configured path that is not an environment is removed with everything in it, even the project itself and even if no
  interpreter is found afterwards (`attached_wiped_violated`).
* **Templates.** A rendered name with `..` or an absolute one leaves the temporary directory and overwrites files without `--overwrite`
  (`template_escape_violated`); so does a file whose name is that of an existing directory (`template_into_directory_violated`). What follows
  a preserved directory is not rendered (`template_preserve_violated`); `.templateignore` replaces the built-in list
  (`template_ignore_file_violated`). Read, not modelled: a template in the working directory is never loaded, since
  `spec_from_file_location` is called without a location; `render_template` calls a method that does not exist.
* **Commands from functions.** `*args` are passed by keyword (`method_varargs_violated`), `kwonlydefaults` may be `None`
  (`method_required_violated`), `_x` becomes `x` (`method_underscore_violated`).
* **Task runner** (read, not modelled). A missing comma makes `-p` part of the module name, so the first subprocess always fails and no task runs.
* **New environments.** `pyvenv.cfg` of a new environment has `key: value` lines, so that Python finds no `home` key (`EnvBuild.environment_home_violated`, for every interpreter). On Windows an interpreter with another name than `python.exe` gives a directory that is no environment, and a failed attempt leaves one behind that blocks the next (`EnvBuild.create_windows_violated`, `EnvBuild.create_windows_failed_violated`).
* **Choice of the interpreter.** One program in `PATH` named like a Python that cannot be run, or that prints anything but two lines, makes the search for interpreters raise (`Pythons.chosen_broken_violated`); so does a file among the elements of `PATH` (`Pythons.path_file_violated`). Between interpreters of one version the order of a set decides (`Pythons.chosen_tie_violated`). `>=3.9` chooses 3.13.0a2 before 3.12.1 (`Pythons.chosen_preview_violated`). `python_exe` is run (`Pythons.tried_name_violated`), `python3` below a configured directory is not found (`Pythons.search_paths_violated`).
* **Zoos.** `delete_environment` checks nothing: the names ``, `.` and `..` remove the whole zoo or the directory above it (`Zoo.delete_zoo_violated`), `.zoo` the shared packages and exported scripts (`Zoo.delete_shared_violated`). An exported script stays when its environment is deleted (`Zoo.exported_remains_violated`). `export_all_scripts` also takes the files of `bin-data` (`Zoo.export_all_violated`).
* **Containers.** `register` moves the last entry of `sys.path` to the front, which is not the container's directory if a `.pth` file there names another one: packages of the environment hide those of the container (`Containers.linked_container_violated`). Functions of the entry points module return nothing: the status is 0 (`Containers.status_violated`). Names of scripts are used as names of functions (`same_function_violated`, `bad_name_violated`, `sys_name_violated`). `container_of` looks at the package of the plain name first and gives up if it is no container (`Containers.shadowed_violated`). `Record.absolute_path` reads records from the dist-info directory instead of the site directory, so that hashes are reused for wrong files (`container_record_violated`).
* **Contexts.** `Context.of` looks for `site` among the options of `pkm`, where it never is (`site_violated`). `parent_by_path` of a command that is itself the one asked for ends in an `IndexError`, so that `pkm` alone fails (`context_of_pkm_violated`). `main` looks for a project only, and so runs the tasks of a project around commands that work on another context (`tasks_project_violated`); `-T` is never read.
* **Executing commands.** `Command.execute` resumes the generator of a parent when that parent's own child returns, so that `pkm -p self update` profiles nothing of the update (`grandparent_surrounds_violated`).
* **Tasks.** `"pkm_cli.tasks.execute_task_cli" "-p"` without a comma: no such module, every attached task fails (`attached_runs_violated`). Tasks are loaded while parsing, before `pkm -p` sets the project (`task_project_violated`). `find_spec("a.b")` raises if there is no `a`, so that `pkm_tasks.a.b` is never looked for (`packaged_task_violated`).
* **`pkm install`.** `args.update` in `on_environment` is an undefined name: no package can be installed in an environment, and `-f` removes them (`environment_install_violated`, `environment_force_violated`).
* **Conda.** `compatibility_tag` uses only the least version of the dependency on Python, so that Python 3.10 gets builds for 3.6 (`conda_python_upper_violated`), and raises for `python 3.6*`, `python 3.7` or `python <3.9`, which makes the whole package fail (`conda_odd_python_violated`). `_SUBDIR_TO_OS_CTAG` has `any` where the subdirectory is called `noarch` (`conda_noarch_violated`). `has_arm_cpu` looks for `aarch64` and `armv71` and not for `arm64` (`conda_apple_violated`). Builds are compared with `re.match` without an end, so that `py37_1` takes `py37_10` (`conda_build_violated`). A dependency on more than one artifact becomes a union of URLs, which `required_url` does not recognise: nothing is found (`conda_pin_several_violated`).
* **Conda installation.** The environment given to hooks has an integer as a value, so that every hook raises `TypeError`: artifacts with `info/bin/post-link.sh` cannot be installed (`conda_hook_never`), and trying leaves their dist-info directory, so that they count as installed (`conda_hook_violated`). The real places of conda's hooks (`bin/.<name>-post-link.sh`) are not looked at, and prefix placeholders in files are not replaced. Generated WHEEL and METADATA are not recorded and survive an uninstallation (`conda_generated_violated`). Directories made with `mkdir` are unknown to the transaction (`conda_directories_violated`). Modules for two versions of Python mix (`conda_two_pythons_violated`). The name of `lib` is compared with that of the directory of Python (cd 115), which is never equal.
* **Torch repository.** It can never be built: `CudaCompatibilityTable.load` opens a resource of the module `pkm_torch_repository`, the distribution has `download_torch_pkm_repo`. Without this it would need `nvidia-smi` even where only builds without CUDA are wanted. The rows of the shipped table for CUDA 10.0, 10.2, 11.0, 11.2 and 11.3 have a third part, so the labels `cu100`, `cu102`, `cu110`, `cu112` and `cu113` never match. The number of the label in the sort key is never used, since versions with different labels already differ: `cu92` is preferred to `cu113`. One version in the index that is not standard raises AttributeError.
* **Table of CUDA versions.** `BasicDomParser` knows no elements without an end: `<meta>`, `<br>`, `<img>` or `<link>` in another element raises, so no ordinary page is ever read (`html_void_violated`). A page without the table is not an error: the table becomes empty and replaces the saved one for good (`cuda_load_empty_violated`).
* **Shared packages.** `_shared_artifact_for` reads `compatibility_tag`, a field that artifacts do not have: as soon as a package is shared, every later installation or question for its dependencies raises `AttributeError`, so nothing is ever shared (`shared_then_unusable_violated`). Recorded files outside of the modules and scripts, such as data and headers, are deleted and not shared (`shared_data_violated`). The move uninstalls before the link is made: a link that fails, for instance at a subdirectory of scripts, leaves the package neither installed nor linked (`shared_failed_link_violated`). Paths are compared as text: a recorded file in `site-packages-extra` raises and leaves a half-filled shared directory (`shared_text_prefix_violated`). `run.py` beside an entry point `run` is lost (`shared_stem_violated`).
* **Scripts.** The platform is kept in lower case and compared with `Windows`: no environment is ever taken for one of Windows (`windows_launcher_violated`); the launchers would always raise, since the archive is opened for reading, and those for ARM have other file names (`launcher_fails_violated`). An interpreter path with a blank makes scripts run something else (`entry_blank_violated`). Arguments of `#!python -E` are dropped (`patch_arguments_violated`), `#!pythonw` names a file that need not exist (`patch_w_violated`). Scripts of shared packages keep the interpreter of the first environment (`patch_again_violated`).
* **Monitors.** A `with_` listener that handles the exception of its operation and ends turns it into `StopIteration` (`monitor_swallow_violated`). A type of events with only a `leave_` listener makes `notify` raise `TypeError` in the program (`monitor_notify_violated`). Registering a listener hides all earlier ones for the type (`listen_hides_violated`), one added within `listen` is forgotten (`listen_forgets_violated`). A listener that raises at the end of an asynchronous operation is called twice (`async_twice_violated`). `Monitor.enter` (not used) swallows the exceptions of its body.
* **Installation of wheels.** Wheels with `headers` are never installed (`wheel_headers_violated`), nor those of `Wheel-Version: 1` (`wheel_version_violated`). Launchers are written past the transaction, so a failing installation loses the script they replace (`wheel_rollback_violated`). Files of other packages are overwritten without a word (`wheel_overwrites_violated`), installing again records every file twice (`wheel_again_violated`), and the files that pkm adds to dist-info are not in RECORD (`wheel_information_unrecorded_violated`). Neither the name nor the version in dist-info is compared with the package asked for, scripts in nested directories are not patched, and the name of an entry point may lead out of the directory of scripts.
* **Execution of plans.** An update uninstalls first and puts nothing back: a failure loses the package (`plan_run_lost_violated`). With processes the operations go on after `execute` has raised, even those that had not begun, because cancelling a task that is not completed does nothing but says it did (`plan_run_quiet_violated`); after a `SystemExit` or `KeyboardInterrupt` they go on in threads too (`plan_run_interrupt_violated`). Without concurrency every operation is tried even if the first failed (`plan_run_goes_on_violated`). After a failure the view of the site is stale (`plan_run_view_violated`). Operations that execute plans of their own wait in the pool whose workers they need: with as many of them as workers the program hangs (`nested_deadlock_violated`).
* **Cache of built sources.** Nothing is written atomically and nothing is locked. If the program is stopped while METADATA or a wheel is written, every later use gets the half written file (`cache_killed_violated`, `cache_killed_wheel_violated`). With two users of the same archive, one can read half of the METADATA (`cache_half_metadata_violated`), or METADATA without any dependencies because the file is gone (`cache_empty_metadata_violated`); the wheel that one is about to install is removed by the other (`cache_wheel_removed_violated`), and removing the directory fails for the second (`cache_remove_twice_violated`). The whole directory of a version is removed before each build, so that the two archives of a version are built each time (`cache_two_archives_violated`).
* **Explanation of failures.** If the second of two incompatibilities was explained before, `l2[1]` gives the text of its line where the number should be (`report_text_violated`). If what an incompatibility with a fact was derived from was explained before, it is explained again: its first line vanishes, so that lines which go on from it have nothing above them, and two lines get the same number (`report_again_violated`).
* **Pieces of output are lost or stay (C101).** `show` replaces the list of pieces by one made from an earlier reading of it, without the lock. Two threads that begin or end work at the same time lose a piece or keep one for ever; a notification between the drawing and the waiting of the refresher is lost, so that the screen is stale.
* **Output of programs.** `monitored_run` reports an empty line per round of its loop, which does not sleep, while a program has closed its output and not ended (`proc_blanks_violated`); it waits for programs in the background that inherited the output (`proc_orphan_violated`); bytes that are not UTF-8 end it by an exception, the program is left behind (`proc_left_violated`). Blanks at the beginning of lines are lost.
* **Spelling of names.** The resolver tells packages apart by their names in lower case (`_Pkg.of`), without the normalisation that repositories and plans use. Requirements on `a-b` and `a_b` are solved apart from each other; both versions are returned, the plan keeps the last one, and the requirement of the other is broken without a message (`install_spelling_violated`).
* **Dependencies of the first environment.** `AbstractPackage` keeps the dependencies of an artifact by artifact only. Those of a source distribution are computed in an environment; asked for another one, the package answers with those for the first (`asked_environment_violated`).
* **Empty lists are not kept.** `if deps := self._dependencies_per_artifact_id.get(...)` takes an empty list for a missing one: a source distribution without dependencies is built again at each question (`asked_again_violated`).
* **Installing without an artifact.** `install_to` does not test whether `best_artifact_for` found one: for an environment that is not supported it retrieves `None` and fails with an `AttributeError` (not modelled).
* **One broken requirement blocks every removal.** `uninstall` resolves the remaining requests among what is installed; if some requirement is not met there (after `force_remove` and another install, or by another installer), it fails with `UnsolvableProblemException`, also for packages that have nothing to do with it (`uninstall_blocked_violated`).
* **Dotted names block removal.** If a package requires `zope-interface` and `zope.interface` is installed, `installed_package` finds it but `opened_packages` has it under the other spelling: `KeyError` (`uninstall_dotted_violated`).
* **Updates by name do nothing for names with dashes.** `plan_installation` compares `updates` with name keys (`pkm_cli`), but the commands, `SelfController.update` and the containers pass names as written (`pkm-cli`). For such names nothing is updated: `pkm self update` keeps the installed version for ever (`update_ignored_violated`). Store modes are passed the same way and are ignored (`store_mode_ignored_violated`).
* **An update breaks what the user requested.** On the fast path the requirements of installed packages are not given to the resolver, so `updates=['x']` installs a version that a user-requested package excludes (`update_breaks_violated`).
* **The message about packages starts with the wrong text (C107).** `with_package_install` shows the spinner and then sets its description. On a poor terminal the first line is `[START] ` with no text, later ones name the package that ended last in the batch before, and the `[END]` line names only the last package (`handling_stale_violated`, `handling_end_lines`).
* **Overrides are lost if nothing can be added without changes (C108).** The second attempt of `plan_installation` does not pass `dependencies_override`; also in an empty environment, if the newest minor release of a requested package cannot be installed, the forced dependency is ignored (`rework_override_violated`).
* **A requested package from a directory or archive blocks later changes (C108).** The second attempt asks the repository for every package that the user requested; for one that it does not have installing fails (`rework_unlisted_violated`).
* **Help.** `generate_usage` raises `AttributeError` for an option or field that takes a value and has only a `--` name, so `-h` fails for such a command (`Cli.usage_fails_violated`). It joins the letters of mutually exclusive flags (`[-ab]`), which the parser refuses (`Cli.exclusive_joined_violated`). Flags among `+fields` are shown as `-f` (`Cli.field_flag_violated`).
* **Environment report.** A dependency installed in a wrong version is not reported (`report_version_violated`). Packages of containers take no part: what only they require is shown as `(orphan)`, and a dependency on one is shown as missing (`report_container_violated`). The report's orphans are not those that `find_orphan_packages` removes (`report_cycle_violated`, `report_kept_violated`).
* **Archives.** `TarFile.extractall` is called without a filter: before Python 3.14 a source distribution writes anywhere with `..`, absolute names or links (`tar_escapes_violated`). `.tgz`, `.tar.xz` and file names in capital letters are refused, and a URL such as `https://h.org/get?file=p-1.tar.gz` gives the file name `get` (`archive_unsupported_violated`).
* **New projects.** `pkm new project` asks for a license and loses it: the template has `{{license}}` and `setup` returns `license_text` (`new_project_license_violated`). Answers are put into TOML strings without escaping: a quote makes the project unreadable, `C:\new` becomes a line feed, an author can add authors (`new_project_quotes_violated`). Read, not modelled: the template `project_from_env` always fails, as `render_template` calls `_load_template` and the runner has only `load_template`.
* **`pkm new` can be broken by a directory.** If the working directory has `project/render.py`, or an installed template has a hyphen in the name of its directory, `pkm new` fails while it lists the templates (`new_local_violated`, `new_hyphen_violated`).
* **`PKM_HOME` cannot be used.** The variable is documented; its value stays a `str`, and `mkdir` and `exists` of it are an `AttributeError`: every use of the home and every build hook but `build_editable` fails (`home_variable_violated`, `hook_variable_violated`).
* **An empty `XDG_DATA_HOME` makes a home in the working directory** (`home_xdg_empty_violated`).
* **The temporary home of the build hooks is never used.** `buildsys_pkm` sets a name in the package `pkm.api`, and all modules have `pkm` from the module `pkm.api.pkm` (`hook_home_violated`). After the hook the name `pkm.api.pkm` is the object and no longer the module (read, not modelled).
* **A broken repositories.toml prevents cleaning the caches** (`home_clean_violated`).
* **Saving a TOML file damages it.** `TomlConfigIO.write` strips the final line feed: a file that ends with a comment then makes every later load run for ever, one that ends with a number fails to load (`styled_end_violated`). A dotted key of three parts is written as another key (`styled_dotted_violated`), a comment behind a list or an inline table is lost (`styled_comment_violated`), a list with a trailing comma whose last element is removed becomes `[,` and unreadable (`styled_list_violated`), a table that stands behind one of its sub-tables replaces it (`styled_super_violated`), an added empty table, or an empty list added to a table without header, is not written at all (`styled_empty_violated`), and editing `1` to `true` has no effect (`styled_truth_violated`).
* **Arguments of tasks.** Unnamed arguments for which there is no parameter are dropped silently, even if the function has `*args` (`task_surplus_violated`); an argument with `=` in it, as a URL may have, is taken for a named one (`task_equals_violated`); `--fast=False` sets a bool parameter to true (`task_false_violated`). Read, not modelled: the script that runs a task imports `MethodCliArgs` and calls `execute`; the class is `CliMethodArgs` with `invoke`.
