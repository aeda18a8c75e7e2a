{"id": "C01", "title": "Version ordering is a strict partial order", "statement": "For versions compared with the `<` operator: no version is less than itself, two versions are never each less than the other, and a < b together with b < c gives a < c. Standard versions are compared by epoch, then numerically by release, then by dev/pre/post/local parts; URL versions sort before named versions, which sort before standard ones.", "quantifier": "all triples of versions of any kind (standard, named, URL), with any release length, epoch, pre/post/dev number and local label", "why_tests_cant": "The version space is infinite in five dimensions and the comparison is a cascade with early returns; a sample of triples cannot rule out a cycle that would make sorting or range checks inconsistent.", "anchors": ["pkm/src/pkm/api/versions/version.py:_less", "pkm/src/pkm/api/versions/version.py:StandardVersion.normalized"]}
{"id": "C02", "title": "Versions are totally ordered (trichotomy)", "statement": "For any two versions exactly one of a < b, a == b, b < a holds, so that sorting a list of versions and picking the newest is well defined.", "quantifier": "all pairs of versions", "why_tests_cant": "A pair of incomparable but different versions only shows up for particular combinations of local labels; tests sample a handful of pairs.", "anchors": ["pkm/src/pkm/api/versions/version.py:_less", "pkm/src/pkm/api/versions/version.py:StandardVersion.equals_to"]}
{"id": "C03", "title": "Version equality is an equivalence compatible with order and padding", "statement": "Version equality is reflexive, symmetric and transitive; appending zero release components (1.0 vs 1.0.0) never changes equality or ordering against any other version; and equal versions can be substituted for one another in `<`.", "quantifier": "all versions and any number of appended zero components", "why_tests_cant": "Congruence quantifies over every context version and every padding length.", "anchors": ["pkm/src/pkm/api/versions/version.py:StandardVersion.equals_to", "pkm/src/pkm/api/versions/version.py:StandardVersion.normalized", "pkm/src/pkm/api/versions/version.py:_less"]}
{"id": "C04", "title": "Equal versions hash equally", "statement": "If two versions compare equal then hash() of them is equal, so that versions can be used as dict keys and set members (blacklists, lock look-ups, resolver tables).", "quantifier": "all pairs of equal versions", "why_tests_cant": "The hash is computed on a normal form different from the one used by equality; agreement must hold for every pair.", "anchors": ["pkm/src/pkm/api/versions/version.py:StandardVersion.__hash__", "pkm/src/pkm/api/versions/version.py:StandardVersion.standartize", "pkm/src/pkm/api/versions/version.py:UrlVersion.__eq__"]}
{"id": "C05", "title": "Version text round trip", "statement": "Printing a standard version and parsing the text again gives back the same version.", "quantifier": "all standard versions whose pre-release tag is one of a/b/rc and whose local label uses lower-case letters, digits and dots; numbers of any size, releases of any length", "why_tests_cant": "Parser and printer are separate hand written programs over an infinite set of texts.", "anchors": ["pkm/src/pkm/api/versions/version_parser.py:VersionParser.read_version", "pkm/src/pkm/api/versions/version.py:StandardVersion.__str__", "pkm/src/pkm/utils/parsers.py:SimpleParser"]}
{"id": "C06", "title": "Bumping a version yields a larger version", "statement": "bump(major|minor|patch) of a three component version returns a version that is greater than the original, with the lower components reset; bump(a|b|rc) moves forward along the pre-release chain.", "quantifier": "all three-component standard versions and all particles", "why_tests_cant": "All numeric values and all combinations of suffixes are quantified.", "anchors": ["pkm/src/pkm/api/versions/version.py:StandardVersion.bump"]}
{"id": "C07", "title": "Intersection of specifiers allows exactly the common versions", "statement": "For specifiers a and b, a.intersect_with(b) allows a version iff both a and b allow it.", "quantifier": "all specifiers reachable by parsing and all versions", "why_tests_cant": "The intersection is a six-class double dispatch with many endpoint cases; the claim ranges over all endpoints, inclusiveness flags and versions.", "anchors": ["pkm/src/pkm/api/versions/version_specifiers.py:StandardVersionRange._intersect_with", "pkm/src/pkm/api/versions/version_specifiers.py:VersionMatch.intersect_with", "pkm/src/pkm/api/versions/version_specifiers.py:HetroVersionIntersection.intersect_with", "pkm/src/pkm/api/versions/version_specifiers.py:VersionsUnion.intersect_with"]}
{"id": "C08", "title": "Union of specifiers allows exactly the versions of either side", "statement": "For specifiers a and b, a.union_with(b) allows a version iff a or b allows it, and leaves a and b unchanged.", "quantifier": "all specifiers and all versions", "why_tests_cant": "Same infinite double dispatch; the argument mutation depends on the shape of both operands.", "anchors": ["pkm/src/pkm/api/versions/version_specifiers.py:StandardVersionRange._union_with", "pkm/src/pkm/api/versions/version_specifiers.py:VersionsUnion.union_with", "pkm/src/pkm/api/versions/version_specifiers.py:VersionMatch.union_with", "pkm/src/pkm/api/versions/version_specifiers.py:HetroVersionIntersection.union_with"]}
{"id": "C09", "title": "Inverse of a specifier allows exactly the other versions", "statement": "x.inverse() allows a version iff x does not; inverting twice gives back a specifier with the same meaning; a.difference_from(b) allows exactly what a allows and b does not.", "quantifier": "all specifiers and all versions", "why_tests_cant": "Complement must hold at every boundary version, including pre/post/local releases.", "anchors": ["pkm/src/pkm/api/versions/version_specifiers.py:StandardVersionRange.inverse", "pkm/src/pkm/api/versions/version_specifiers.py:VersionMatch.inverse", "pkm/src/pkm/api/versions/version_specifiers.py:VersionsUnion.inverse", "pkm/src/pkm/api/versions/version_specifiers.py:HetroVersionIntersection.inverse", "pkm/src/pkm/api/versions/version_specifiers.py:VersionSpecifier.difference_from"]}
{"id": "C10", "title": "allows_any and allows_all agree with the sets of versions", "statement": "a.allows_any(b) is false only if no version is allowed by both; a.allows_all(b) is true only if every version allowed by b is allowed by a.", "quantifier": "all pairs of specifiers and all versions", "why_tests_cant": "Both are defined through intersection and structural equality; soundness quantifies over all versions.", "anchors": ["pkm/src/pkm/api/versions/version_specifiers.py:VersionSpecifier.allows_all", "pkm/src/pkm/api/versions/version_specifiers.py:VersionSpecifier.allows_any", "pkm/src/pkm/api/versions/version_specifiers.py:_RestrictAll", "pkm/src/pkm/api/versions/version_specifiers.py:_AllowAll"]}
{"id": "C11", "title": "A comma separated specifier means the conjunction of its clauses", "statement": "Parsing \"c1, c2, ..., cn\" gives a specifier that allows a version iff each clause on its own allows it, whatever the number and order of the clauses.", "quantifier": "all lists of clauses and all versions", "why_tests_cant": "Lists of clauses are unbounded and the accumulated specifier changes class along the way.", "anchors": ["pkm/src/pkm/api/versions/version_parser.py:VersionParser.read_specifier", "pkm/src/pkm/api/versions/version_parser.py:VersionParser._read_single_specifier", "pkm/src/pkm/api/versions/version_specifiers.py:HetroVersionIntersection.create"]}
{"id": "C12", "title": "Meaning of the comparison clauses", "statement": "The clauses >=v, >v, <=v, <v, ==v, !=v, ==X.*, !=X.*, ~=v allow exactly the versions their PEP 440 reading gives: e.g. ~=X.Y.Z allows w iff w >= X.Y.Z and w has the release prefix X.Y, ==X.* iff w has the release prefix X (w a final release).", "quantifier": "all clause versions and all candidate versions", "why_tests_cant": "The statement equates an order interval with a prefix relation, for every length of release.", "anchors": ["pkm/src/pkm/api/versions/version_parser.py:VersionParser._read_single_specifier", "pkm/src/pkm/api/versions/version_specifiers.py:VersionSpecifier.create_range", "pkm/src/pkm/api/versions/version_specifiers.py:StandardVersionRange.allows_version", "pkm/src/pkm/api/versions/version_specifiers.py:VersionMatch.allows_version"]}
{"id": "C13", "title": "Specifier text round trip", "statement": "Printing a specifier and parsing it gives a specifier that allows the same versions.", "quantifier": "all specifiers built of one range or one match", "why_tests_cant": "Printer and parser are separate programs over infinitely many texts.", "anchors": ["pkm/src/pkm/api/versions/version_specifiers.py:StandardVersionRange.__str__", "pkm/src/pkm/api/versions/version_specifiers.py:VersionMatch.__str__", "pkm/src/pkm/api/versions/version_parser.py:VersionParser.read_specifier"]}
{"id": "C14", "title": "Resolution result satisfies every dependency", "statement": "If the solver returns an assignment, then for every package in it the chosen version is one the repository offers, and each of the dependencies of that version is in the assignment at a version allowed by the dependency constraint; the root package is included.", "quantifier": "all dependency problems (any number of packages, versions, dependencies) and all executions of the solver", "why_tests_cant": "The solver is a backtracking search with learned incompatibilities; soundness must hold along every path of decisions, conflicts and backjumps.", "anchors": ["pkm/src/pkm/resolution/pubgrub.py:Solver.solve", "pkm/src/pkm/resolution/pubgrub.py:Solver._propagate", "pkm/src/pkm/resolution/pubgrub.py:Solver._resolve_conflict", "pkm/src/pkm/resolution/pubgrub.py:Solver._make_next_decision", "pkm/src/pkm/resolution/pubgrub.py:PartialSolution"]}
{"id": "C15", "title": "Resolution result contains one version per package and only needed packages", "statement": "The returned assignment maps each package to a single version, and every package in it is either the root or a dependency of another package in it.", "quantifier": "all problems and executions", "why_tests_cant": "Stale decisions after backtracking only show up for particular conflict patterns.", "anchors": ["pkm/src/pkm/resolution/pubgrub.py:PartialSolution.backtrack", "pkm/src/pkm/resolution/pubgrub.py:PartialSolution.require", "pkm/src/pkm/resolution/pubgrub.py:PartialSolution.decisions"]}
{"id": "C16", "title": "Backtracking restores an earlier search state", "statement": "Backtracking to decision level L keeps exactly the assignments, decisions and requirements made at levels up to L; decision levels stay contiguous and assignments stay ordered by level.", "quantifier": "all search histories and all levels", "why_tests_cant": "Quantifies over all interleavings of decisions, derivations and backjumps.", "anchors": ["pkm/src/pkm/resolution/pubgrub.py:PartialSolution.backtrack", "pkm/src/pkm/resolution/pubgrub.py:PartialSolution.assign", "pkm/src/pkm/resolution/pubgrub.py:PartialSolution.make_assignment"]}
{"id": "C17", "title": "Unsolvable is reported only when there is no solution", "statement": "If the solver raises the unsolvable-problem error, then no assignment of available versions satisfies all dependencies.", "quantifier": "all problems and executions", "why_tests_cant": "A wrong learned incompatibility only matters for problems where it excludes the last solution.", "anchors": ["pkm/src/pkm/resolution/pubgrub.py:Solver._resolve_conflict", "pkm/src/pkm/resolution/pubgrub.py:Incompatibility.create", "pkm/src/pkm/resolution/pubgrub.py:Solver._is_tautology"]}
{"id": "C18", "title": "Resolver output for extras, overrides and markers", "statement": "resolve_dependencies returns packages without extras entries, requires the base package of every package-with-extras at the same version, ignores dependencies whose environment marker is not satisfied, and replaces dependencies named in the overrides.", "quantifier": "all repositories, dependency lists, override maps and marker valuations", "why_tests_cant": "Ranges over all dependency graphs.", "anchors": ["pkm/src/pkm/resolution/dependency_resolver.py:resolve_dependencies", "pkm/src/pkm/resolution/dependency_resolver.py:_PkmPackageInstallationProblem.get_dependencies"]}
{"id": "C19", "title": "Locking one environment keeps the locks of the others", "statement": "After update_lock(env) the lock holds, for env, exactly the installed packages of env, and for every other environment exactly what it held before, in any sequence of updates by different environments.", "quantifier": "all lock contents and all sequences of update_lock calls by any environments", "why_tests_cant": "Ranges over unbounded histories of users/environments.", "anchors": ["pkm/src/pkm/resolution/packages_lock.py:PackagesLock.update_lock", "pkm/src/pkm/resolution/packages_lock.py:PackagesLock.env_specific_locks", "pkm/src/pkm/utils/iterators.py:groupby"]}
{"id": "C20", "title": "Locked versions are preferred and nothing is lost", "statement": "sort_packages_by_lock_preference returns a permutation of its input in which all locked versions precede all unlocked ones and the relative order inside both groups is kept; locked_versions lists the env-specific lock first.", "quantifier": "all locks, environments and package lists", "why_tests_cant": "Permutation and stability over lists of any length.", "anchors": ["pkm/src/pkm/resolution/packages_lock.py:PackagesLock.sort_packages_by_lock_preference", "pkm/src/pkm/resolution/packages_lock.py:PackagesLock.locked_versions"]}
{"id": "C21", "title": "Lock file survives save and load", "statement": "Saving a lock and loading it gives a lock with the same locked versions for every package and environment.", "quantifier": "all locks", "why_tests_cant": "Grouping and flattening of arbitrary lock lists.", "anchors": ["pkm/src/pkm/resolution/packages_lock.py:PackagesLock.save", "pkm/src/pkm/resolution/packages_lock.py:PackagesLock.load", "pkm/src/pkm/utils/iterators.py:groupby"]}
{"id": "C22", "title": "Installation plan leads from the installed to the required packages", "statement": "Applying the operations computed for a target (install, update, skip, remove) to the currently installed packages gives exactly the requested set of packages plus (unless removal was asked) the untouched rest; no package gets two operations.", "quantifier": "all installed sets and required sets", "why_tests_cant": "Sets of any size and any overlap, with names that normalise to the same key.", "anchors": ["pkm/src/pkm/api/packages/package_installation.py:PackageInstallationPlan", "pkm/src/pkm/api/packages/package_installation.py:PackageOperation"]}
{"id": "C23", "title": "Orphan detection is reachability", "statement": "find_orphan_packages returns exactly the installed packages that cannot be reached from a user-requested package through installed dependencies.", "quantifier": "all installed dependency graphs, including cyclic ones", "why_tests_cant": "Transitive closure over arbitrary graphs.", "anchors": ["pkm/src/pkm/api/packages/site_packages.py:SitePackages.find_orphan_packages"]}
{"id": "C24", "title": "Uninstall removes exactly the recorded files", "statement": "Uninstalling a package removes every file listed in its RECORD and directories that became empty, and touches no file that is not listed.", "quantifier": "all file trees and RECORD contents", "why_tests_cant": "Ranges over arbitrary file trees.", "anchors": ["pkm/src/pkm/api/packages/site_packages.py:InstalledPackage.uninstall", "pkm/src/pkm/api/distributions/distinfo.py:DistInfo.installed_files"]}
{"id": "C25", "title": "A wheel whose contents do not match its RECORD is rejected", "statement": "Installing a wheel succeeds in record verification only if every file of the wheel other than the RECORD itself is listed in RECORD with a signature that matches its content.", "quantifier": "all wheels (file sets, contents and records)", "why_tests_cant": "Universal over all tampered wheels.", "anchors": ["pkm/src/pkm/api/distributions/wheel_distribution.py:_verify_records"]}
{"id": "C26", "title": "A failed installation leaves the file system as it was", "statement": "If an exception escapes a copy transaction, at whatever point, all files that existed before are back with their content and all files created by the transaction are gone.", "quantifier": "all initial file trees, sequences of copy/delete operations and failure points", "why_tests_cant": "Crash points times histories.", "anchors": ["pkm/src/pkm/utils/files.py:CopyTransaction"]}
{"id": "C27", "title": "A successful copy transaction produces the copied files", "statement": "After a transaction that ends without exception every copied file has the content of its source, removed files are gone and all other files are untouched.", "quantifier": "all file trees and operation sequences", "why_tests_cant": "Histories of any length.", "anchors": ["pkm/src/pkm/utils/files.py:CopyTransaction"]}
{"id": "C28", "title": "Relative paths lead to their target", "statement": "path_to(source, destination) joined to source resolves to destination.", "quantifier": "all pairs of absolute directories", "why_tests_cant": "Path depth is unbounded.", "anchors": ["pkm/src/pkm/utils/files.py:path_to"]}
{"id": "C29", "title": "Promises complete once and notify every listener once", "statement": "A promise is completed at most once; its result never changes afterwards; every listener is called exactly once after completion, whichever of registration and completion comes first.", "quantifier": "all interleavings of complete/fail/cancel and listener registration by any number of threads", "why_tests_cant": "Schedules.", "anchors": ["pkm/src/pkm/utils/promises.py:_SimplePromise", "pkm/src/pkm/utils/promises.py:Promise", "pkm/src/pkm/utils/promises.py:Deferred"]}
{"id": "C30", "title": "Cached properties are computed once", "statement": "Concurrent first reads of a cached property by any number of threads call the compute function once and all return the same value.", "quantifier": "all schedules of any number of threads", "why_tests_cant": "Schedules.", "anchors": ["pkm/src/pkm/utils/properties.py:cached_property"]}
{"id": "C31", "title": "A cached HTTP resource is never served half written", "statement": "At every point, including after a crash in the middle of saving or deleting a resource, if the cache says a resource exists then its stored data is the complete data belonging to the stored info.", "quantifier": "all sequences of save/delete with a crash at any step", "why_tests_cant": "Crash points.", "anchors": ["pkm/src/pkm/utils/http/http_client.py:FetchedResource.save", "pkm/src/pkm/utils/http/http_client.py:FetchedResource.delete"]}
{"id": "C32", "title": "An HTTP fetch observes the requested cache policy", "statement": "A fetch that asks for update or for no caching contacts the server, in every history of earlier fetches of the same URL; concurrent fetches of the same URL share one download.", "quantifier": "all histories and schedules of fetches", "why_tests_cant": "Histories.", "anchors": ["pkm/src/pkm/utils/http/http_client.py:HttpClient.fetch_resource"]}
{"id": "C33", "title": "HTTP requests stop after a bounded number of attempts", "statement": "A request performs at most a bounded number of connection attempts and follows at most a bounded number of redirects for every server behaviour.", "quantifier": "all (adversarial, unbounded) sequences of server responses", "why_tests_cant": "Infinite response sequences.", "anchors": ["pkm/src/pkm/utils/http/http_client.py:HttpClient._request"]}
{"id": "C34", "title": "TOML values survive writing and reading", "statement": "Dumping a TOML string value and reading it back gives the same string.", "quantifier": "all strings", "why_tests_cant": "All strings.", "anchors": ["pkm/src/pkm/config/toml.py:TOMLParser", "pkm/src/pkm/config/toml.py:TOMLWriter"]}
{"id": "C35", "title": "Package name normalisation is stable", "statement": "Normalising a package name twice is the same as once, and names that only differ in case or in the separators - _ . have the same lookup key.", "quantifier": "all names", "why_tests_cant": "All strings.", "anchors": ["pkm/src/pkm/api/packages/package.py:PackageDescriptor.normalize_name", "pkm/src/pkm/api/packages/package.py:PackageDescriptor"]}
{"id": "C36", "title": "A pre-release is offered only if asked for or if nothing else matches", "statement": "repository.match returns a pre-release or dev release only if the dependency allows pre-releases or no final release matches; otherwise all final releases that match, in order.", "quantifier": "all package lists and dependencies", "why_tests_cant": "Lists of any length.", "anchors": ["pkm/src/pkm/api/repositories/repository.py:AbstractRepository._filter_prereleases", "pkm/src/pkm/api/repositories/repository.py:AbstractRepository.match"]}
{"id": "C37", "title": "The installed artifact is the best compatible one", "statement": "best_artifact_for returns a binary artifact of maximal compatibility score among the compatible ones, falls back to a source distribution only if no binary is compatible, and returns none only if no artifact is compatible.", "quantifier": "all lists of artifacts and score functions", "why_tests_cant": "Lists of any length.", "anchors": ["pkm/src/pkm/api/packages/standard_package.py:AbstractPackage.best_artifact_for"]}
{"id": "C38", "title": "Repository selection follows the bindings and the declared order", "statement": "A composite repository asks the bound repository for a bound package, otherwise returns the matches of the first repository with a non-empty answer.", "quantifier": "all repository lists, bindings and dependencies", "why_tests_cant": "Lists of any length and any answers.", "anchors": ["pkm/src/pkm/api/repositories/repository_loader.py:_CompositeRepository._do_match"]}
{"id": "C39", "title": "The repository lookup chain terminates and visits each configuration once", "statement": "Following the inherited repository configurations visits every reachable configuration once and stops, even if configurations inherit from each other in a cycle.", "quantifier": "all inheritance graphs", "why_tests_cant": "Graphs.", "anchors": ["pkm/src/pkm/api/repositories/repository_management.py:RepositoryManagement.package_lookup_chain"]}
{"id": "C40", "title": "Recursive source builds terminate", "statement": "Building wheels recursively for build requirements never builds the same package inside its own build, and reports a build cycle only if there is one.", "quantifier": "all build requirement graphs", "why_tests_cant": "Graphs and recursion.", "anchors": ["pkm/src/pkm/build/external_builders.py:build_wheel"]}
{"id": "C41", "title": "Unordered hashes do not depend on iteration order", "statement": "HashBuilder.unordered_seq gives the same hash for every order of the elements; ordered hashes of equal sequences are equal.", "quantifier": "all permutations of all sequences", "why_tests_cant": "Permutations.", "anchors": ["pkm/src/pkm/utils/hashes.py:HashBuilder"]}
{"id": "C42", "title": "Environment markers follow boolean precedence", "statement": "Evaluating a parsed marker expression gives the value of its reading with \"and\" binding stronger than \"or\" and parentheses first.", "quantifier": "all marker expressions and environments", "why_tests_cant": "Expressions of any depth.", "anchors": ["pkm/src/pkm/api/dependencies/env_markers.py:EnvironmentMarkerParser", "pkm/src/pkm/api/dependencies/env_markers.py:EnvironmentMarker"]}
{"id": "C43", "title": "Cleaning the shared packages removes only unused packages", "statement": "remove_unused_packages deletes a shared package directory iff no environment uses it.", "quantifier": "all shared directories and usage files", "why_tests_cant": "Sets of any size.", "anchors": ["pkm/src/pkm/repositories/shared_pacakges_repo.py:SharedPackagesRepository.remove_unused_packages"]}
{"id": "C44", "title": "Activating an environment is undone on exit", "statement": "After leaving env.activate() the environment variables it changed have their previous values, for nested activations as well.", "quantifier": "all variable states and nestings", "why_tests_cant": "Nesting depth.", "anchors": ["pkm/src/pkm/api/environments/environment.py:Environment.activate"]}
{"id": "C45", "title": "Grouping, partitioning and deduplicating collections lose nothing", "statement": "groupby keeps every element exactly once under its key in the original order; partition splits a list into the elements that satisfy the predicate and those that do not; unique_by keeps the first element of every key.", "quantifier": "all lists and key functions", "why_tests_cant": "Lists of any length.", "anchors": ["pkm/src/pkm/utils/iterators.py:groupby", "pkm/src/pkm/utils/iterators.py:partition", "pkm/src/pkm/utils/seqs.py:Seq"]}
{"id": "C46", "title": "The process pool never runs more workers than allowed", "statement": "At any time at most max_workers worker processes exist, every submitted task is run at most once, and tasks start in submission order.", "quantifier": "all sequences of submissions and completions", "why_tests_cant": "Schedules.", "anchors": ["pkm/src/pkm/utils/multiproc/__init__.py:ProcessPoolExecutor"]}
{"id": "C47", "title": "Configuration objects survive unparse and parse", "statement": "Unparsing a configuration object to its dictionary form and parsing it back gives an equal object, with unknown keys preserved by the leftover field; dotted keys address nested tables.", "quantifier": "all field lists and all values", "why_tests_cant": "Nested tables of any depth.", "anchors": ["pkm/src/pkm/config/configclass.py:ConfigCodec"]}
{"id": "C48", "title": "Command line arguments are bound as declared", "statement": "Parsing a command line binds every option and positional argument to the declared field, applies defaults to the rest, and reports missing required arguments and violated mutual exclusions.", "quantifier": "all command definitions and argument lists", "why_tests_cant": "Argument lists of any length.", "anchors": ["pkm-cli/src/pkm_cli/api/dynamic_cli/command_parser.py"]}
{"id": "C49", "title": "Version order agrees with PEP 440 for final, pre and dev releases", "statement": "Sorting versions of one release gives dev releases first, then a, b, rc, then the final release, then post releases, as PEP 440 prescribes.", "quantifier": "all versions of one release", "why_tests_cant": "All suffix combinations.", "anchors": ["pkm/src/pkm/api/versions/version.py:_less"]}
{"id": "C50", "title": "A requirement line survives printing and parsing", "statement": "str(dependency) parsed again gives a dependency with the same name, extras, version constraint and marker.", "quantifier": "all dependencies with a range or match constraint", "why_tests_cant": "All names, extras and constraints.", "anchors": ["pkm/src/pkm/api/dependencies/dependency.py:Dependency"]}
{"id": "C51", "title": "Small collection helpers do what their documentation says", "statement": "add_if_absent, put_if_absent, get_or_put, without_keys, remove_by_value, startswith, argmin, without_prefix, without_suffix and get_or_default do what their docstrings say.", "quantifier": "all dictionaries, sequences, texts and keys", "why_tests_cant": "All inputs of general purpose helpers used all over the code.", "anchors": ["pkm/src/pkm/utils/sets.py", "pkm/src/pkm/utils/dicts.py", "pkm/src/pkm/utils/sequences.py", "pkm/src/pkm/utils/strings.py"]}
{"id": "C53", "title": "Uninstalling by name keeps what the remaining requests need and reports what is gone", "statement": "uninstall(names) drops the user requests of the named packages, keeps exactly the installed packages selected for the remaining user requests (unchanged, but without user request if named), and returns exactly the given names that are not installed any more.", "quantifier": "all sites, all lists of names and all answers of the resolver", "why_tests_cant": "All dependency graphs and name lists.", "anchors": ["pkm/src/pkm/api/packages/package_installation.py:PackageInstallationTarget.uninstall"]}
{"id": "C54", "title": "Planning prefers what is installed and otherwise the latest minor release", "statement": "When a plan is prepared, an installed package that satisfies the request is preferred, requests without version constraint for new packages are met by the latest release and its patch releases only, packages given in updates are taken from the repository, and all old and new user requests are handed to the resolver.", "quantifier": "all sites, repositories, requests and update lists", "why_tests_cant": "All combinations of installed packages and repository contents.", "anchors": ["pkm/src/pkm/api/packages/package_installation.py:_InstallationRepository", "pkm/src/pkm/api/packages/package_installation.py:PackageInstallationTarget.plan_installation"]}
{"id": "C55", "title": "Installing and uninstalling a package leaves none of its files", "statement": "The RECORD written by an installation lists every file that the installation created, by a path that leads to it and with its signature, so that uninstalling the package afterwards leaves no file that was not there before.", "quantifier": "all wheels, sites and file system states, and all orders in which files are recorded", "why_tests_cant": "All directory layouts and file names, and two operations in sequence.", "anchors": ["pkm/src/pkm/api/distributions/distinfo.py:RecordsFileConfiguration.sign_files", "pkm/src/pkm/api/distributions/wheel_distribution.py:WheelDistribution.install_extracted_wheel", "pkm/src/pkm/api/packages/site_packages.py:InstalledPackage.uninstall"]}
{"id": "C56", "title": "URLs survive printing and parsing", "statement": "The text of a URL of the http and https schemes parsed again gives the same URL, so different URLs have different texts.", "quantifier": "all URLs with host, port, path, query and fragment", "why_tests_cant": "All combinations of the parts.", "anchors": ["pkm/src/pkm/utils/http/http_client.py:Url"]}
{"id": "C57", "title": "A redirection leads to the location the server named", "statement": "Following a redirection requests the URL that the location header names, resolved against the URL of the request.", "quantifier": "all URLs and location headers", "why_tests_cant": "All forms of relative and absolute locations.", "anchors": ["pkm/src/pkm/utils/http/http_client.py:HttpClient", "pkm/src/pkm/utils/http/http_client.py:Url"]}
{"id": "C58", "title": "The hash check of a fetched file is about the stored data", "statement": "is_hash_valid answers whether the stored data has the given hash, also from the saved hash of an earlier check.", "quantifier": "all histories of downloads, checks, deletions and handles of one URL", "why_tests_cant": "All interleavings of downloads and checks.", "anchors": ["pkm/src/pkm/utils/http/http_client.py:FetchedResource"]}
{"id": "C59", "title": "Resolution ends with a solution or the unsolvable-problem error", "statement": "Solving a dependency problem always ends, either with an assignment or with the unsolvable-problem error, and never with an internal error.", "quantifier": "all problems and executions", "why_tests_cant": "Endless searches and failing assertions only show up for particular conflict patterns.", "anchors": ["pkm/src/pkm/resolution/pubgrub.py:Solver.solve", "pkm/src/pkm/resolution/pubgrub.py:Solver._resolve_conflict", "pkm/src/pkm/resolution/pubgrub.py:Solver._make_next_decision"]}
{"id": "C60", "title": "WHEEL and pyvenv.cfg files are read back and understood", "statement": "Data written to a file with one \"key: value\" on each line are read back as they were, and the files that Python itself makes or reads are understood on both sides.", "quantifier": "all keys and values", "why_tests_cant": "Values are arbitrary texts; a colon or blank in one of them is enough to break the file.", "anchors": ["pkm/src/pkm/config/configfiles.py:WheelFileConfigIO", "pkm/src/pkm/api/environments/environment_builder.py:PyVEnvConfiguration"]}
{"id": "C52", "title": "A wheel is installable exactly if the interpreter supports one of its tags", "statement": "The compatibility score of a wheel exists exactly if some combination of its interpreter, ABI and platform tags is supported by the interpreter, is the best score of these combinations, and prefers the better fitting ABI, then the more specific platform, then the own implementation and closer version.", "quantifier": "all interpreters and systems, and all compressed tag sets", "why_tests_cant": "All combinations of interpreter versions, ABIs, platforms and libc versions, most of which no test machine has.", "anchors": ["pkm/src/pkm/api/environments/environment_introspection.py:EnvironmentIntrospection.compatibility_score", "pkm/src/pkm/api/environments/environment_introspection.py:EnvironmentIntrospection"]}
{"id": "C61", "title": "RECORD files survive saving and loading", "statement": "The list of installed files, with paths, signatures and lengths, is read back as it was saved, whatever the paths contain, and a signature read back accepts exactly the data it was made for.", "quantifier": "all lists of records, all paths, digests and lengths", "why_tests_cant": "Paths are arbitrary texts with commas, quotes and line ends.", "anchors": ["pkm/src/pkm/config/configfiles.py:CSVConfigIO", "pkm/src/pkm/api/distributions/distinfo.py:RecordsFileConfiguration", "pkm/src/pkm/utils/hashes.py:HashSignature"]}
{"id": "C62", "title": "Entry points survive saving and loading", "statement": "Entry points saved to entry_points.txt and loaded again are the same: group, name, module, object and extras.", "quantifier": "all lists of entry points with distinct names in each group", "why_tests_cant": "Names and references are arbitrary texts of a format with several delimiters.", "anchors": ["pkm/src/pkm/utils/entrypoints.py:ObjectReference", "pkm/src/pkm/api/distributions/distinfo.py:EntrypointsConfiguration", "pkm/src/pkm/config/configfiles.py:INIConfigIO"]}
{"id": "C63", "title": "A project needs its dependencies and those of the requested extras", "statement": "The dependencies of a project that apply in an environment are its own requirements whose marker holds, and of each group of optional requirements, if and only if the extra of this name is requested, those whose marker holds.", "quantifier": "all projects, groups of optional requirements, markers, environments and requested extras", "why_tests_cant": "All combinations of markers, groups and extras.", "anchors": ["pkm/src/pkm/api/projects/pyproject_configuration.py:ProjectConfig.all_dependencies", "pkm/src/pkm/api/projects/project.py:Project.dependencies", "pkm/src/pkm/api/dependencies/dependency.py:Dependency.is_applicable_for"]}
{"id": "C64", "title": "Adding and removing dependencies of a project updates its configuration", "statement": "Installing dependencies for a project adds them to its dependencies, without version constraint as one that allows the version installed and later compatible ones, and replaces those of the same name; removing drops exactly the named ones; the saved configuration and lock tell the same; a failed installation leaves the project as it was.", "quantifier": "all projects, lists of requests, installed versions and failures of the installation", "why_tests_cant": "All combinations of old and new requests, versions and crash points.", "anchors": ["pkm-cli/src/pkm_cli/controllers/prj_controller.py:install_dependencies", "pkm-cli/src/pkm_cli/controllers/prj_controller.py:uninstall_dependencies", "pkm/src/pkm/api/packages/package.py:PackageDescriptor.to_dependency"]}
{"id": "C65", "title": "A project group consists of the projects listed in it and its subgroups", "statement": "The projects of a group are those reachable through its list of children; a project belongs to the nearest group above it that lists it; adding a project makes it a child and removing it by path or name takes exactly it away.", "quantifier": "all trees of groups and projects, and all sequences of additions and removals", "why_tests_cant": "All directory layouts and nestings of groups.", "anchors": ["pkm/src/pkm/api/projects/project_group.py:ProjectGroup"]}
{"id": "C66", "title": "The entry points of a project are in what is built from it", "statement": "The scripts, gui scripts and other entry points declared in a project configuration are exactly the entry points of the distribution built from it, each in its group.", "quantifier": "all project configurations", "why_tests_cant": "Names and references are arbitrary texts, in any number of groups.", "anchors": ["pkm/src/pkm/api/projects/pyproject_configuration.py:ProjectConfig.entry_points", "pkm/src/pkm/api/projects/pyproject_configuration.py:ProjectConfig.all_entrypoints", "pkm/src/pkm/build/pkm_builders.py:build_dist_info"]}
{"id": "C67", "title": "METADATA files keep what they describe", "statement": "Saving metadata and loading it again gives every field back, and the METADATA of a distribution built from a project says what the project configuration says: name, version, summary, people, python constraint, extras and requirements, so that whoever installs it gets the dependencies the project asks for.", "quantifier": "all metadata and all project configurations", "why_tests_cant": "Fields are arbitrary texts of any length and number.", "anchors": ["pkm/src/pkm/api/distributions/wheel_distribution.py", "pkm/src/pkm/api/packages/package_metadata.py:PackageMetadataIO", "pkm/src/pkm/api/packages/package_metadata.py:PackageMetadata.from_project_config"]}
{"id": "C68", "title": "Pooled http connections serve one request at a time, with its own answer", "statement": "A connection is never used by two requests at once nor offered for reuse while in use; at most the configured number is kept; after closing the client every connection gets closed; every request is answered by the response to that request, and a request on a connection that the server has closed meanwhile is repeated.", "quantifier": "all numbers of users, all interleavings of their requests and of the closing, and all points at which connections break", "why_tests_cant": "The order of requests, releases and breakdowns is decided by schedules and the network.", "anchors": ["pkm/src/pkm/utils/http/http_client.py:_Connections", "pkm/src/pkm/utils/http/http_client.py:_ConnectionPool", "pkm/src/pkm/utils/http/http_client.py:HttpClient._request"]}
{"id": "C69", "title": "What is uploaded is what the server reads", "statement": "Publishing a distribution sends a form in which the server finds every metadata field, the kind of the file and its python tag, the digests of the file and the file itself under its name, whatever the contents and however the file is read in chunks; if the request has to be repeated, the same is sent again.", "quantifier": "all metadata, file names and contents, chunk sizes, sizes of reads and numbers of tries", "why_tests_cant": "Contents, field names and the points at which connections fail are arbitrary.", "anchors": ["pkm/src/pkm/utils/http/mfd_payload.py:MultipartFormDataPayload", "pkm/src/pkm/utils/io_streams.py:chunks", "pkm/src/pkm/repositories/pypi_repository.py:PyPiPublisher.publish"]}
{"id": "C70", "title": "Path links put exactly their paths on the path", "statement": "Saving a path configuration file and loading it gives the same links and imports, and Python adds exactly these links to its path, in order.", "quantifier": "all lists of paths and imports", "why_tests_cant": "Paths are arbitrary texts.", "anchors": ["pkm/src/pkm/api/distributions/pth_link.py:PthLink"]}
{"id": "C71", "title": "An index is offered as it is", "statement": "A package index answers a requirement with one package per allowed release, holding exactly the usable files of this release as the index lists them, newest first; the answer does not depend on earlier requests; one unusable file does not hide the others; a file with a listed digest is used only if the digest fits.", "quantifier": "all pages and release listings of an index, all requirements and sequences of requirements", "why_tests_cant": "Pages are arbitrary sequences of tags and texts, and listings arbitrary dictionaries written by others.", "anchors": ["pkm/src/pkm/repositories/simple_repository.py:SimpleRepository._do_match", "pkm/src/pkm/repositories/simple_repository.py:_HtmlArtifactsExtractor", "pkm/src/pkm/repositories/pypi_repository.py:PyPiRepository._do_match", "pkm/src/pkm/repositories/pypi_repository.py:PypiPackage._retrieve_artifact"]}
{"id": "C72", "title": "Distribution files and directories are offered under their name", "statement": "A wheel or source distribution is offered under the name and version that its file name carries; a directory offers exactly the distributions and projects in it, to every spelling of their names; a package found this way can tell its dependencies; a file given by url is accepted only for the package that was asked for.", "quantifier": "all file names, directories and requirements", "why_tests_cant": "File names and the contents of directories are arbitrary.", "anchors": ["pkm/src/pkm/api/packages/package.py:PackageDescriptor.from_dist_name", "pkm/src/pkm/api/distributions/distribution.py:Distribution.package_from", "pkm/src/pkm/repositories/file_system_repository.py:FileSystemRepositoryBuilder.build", "pkm/src/pkm/repositories/file_repository.py:FileRepository._do_match"]}
{"id": "C73", "title": "A git requirement gives the branch it names", "statement": "A requirement with a git url gives the project at the named branch of the named repository, as the remote has it, whatever was asked, failed or was interrupted before; clones stay inside the workspace and different repositories or branches do not share one.", "quantifier": "all urls, states of the remotes, sequences of requests, failures and crash points", "why_tests_cant": "The result depends on the history of the workspace and on remotes that change between requests.", "anchors": ["pkm/src/pkm/repositories/git_repository.py:GitRepository._do_match", "pkm/src/pkm/repositories/git_repository.py:_Git"]}
{"id": "C74", "title": "Built wheels and source distributions hold the project", "statement": "The wheel built from a project contains exactly the files of its packages at the place they are imported from, with a RECORD that lists all of them with their hashes and that the installer accepts; an editable wheel offers at least the same modules; the wheel built from the source distribution is the wheel built from the project; and the names of both files say the project, its version and the interpreters it is for.", "quantifier": "all project directories, package configurations, project names, versions and interpreter requirements", "why_tests_cant": "Every combination of directory layout, package configuration and name gives another archive; tests build a handful.", "anchors": ["pkm/src/pkm/build/pkm_builders.py:build_sdist", "pkm/src/pkm/build/pkm_builders.py:build_wheel", "pkm/src/pkm/build/pkm_builders.py:_BuildContext.copy_sources", "pkm/src/pkm/api/projects/project.py:ProjectDirectories.create", "pkm/src/pkm/api/distributions/wheel_distribution.py:WheelDistribution.expected_wheel_file_name"]}
{"id": "C75", "title": "Publishing credentials are kept and kept secret", "statement": "Credentials saved for a repository are found again, unchanged, by whoever opens the store with its password and by nobody else, after any sequence of additions, removals, mistyped passwords, concurrent runs and crashes; publishing asks the user only for credentials it does not have, sends what was given and saves only what the repository accepted.", "quantifier": "all histories of operations, passwords, answers of the user, interleavings and crash points", "why_tests_cant": "The store is shared by all runs of the program and its contents depend on the whole history.", "anchors": ["pkm-cli/src/pkm_cli/auth/publish_auth_store.py:PublishAuthenticationStore", "pkm-cli/src/pkm_cli/controllers/prj_controller.py:PrjController.publish", "pkm-cli/src/pkm_cli/main2.py:publish"]}
{"id": "C76", "title": "What is published is the release built from the present sources", "statement": "`pkm publish` uploads exactly the distributions of the project's current version, each once, built from the sources as they are at that time, under that version's names and metadata; `pkm clean dist` removes the builds of every other version and nothing of the current one.", "quantifier": "all histories of editing, bumping the version, building, cleaning and publishing, all outcomes of the builders", "why_tests_cant": "What is uploaded depends on what earlier commands left in the directory of the distributions.", "anchors": ["pkm/src/pkm/api/projects/project.py:Project.build", "pkm/src/pkm/api/projects/project.py:Project.publish", "pkm/src/pkm/api/projects/project.py:ProjectDirectories.clean_dist", "pkm-cli/src/pkm_cli/controllers/prj_controller.py:PrjController.publish", "pkm/src/pkm/build/pkm_builders.py:build_sdist"]}
{"id": "C77", "title": "Attaching an environment touches only an environment", "statement": "Using the environment attached to a project creates it if it does not exist, reuses it unchanged if it does, and never deletes or changes any other file.", "quantifier": "all contents of the disk, all configurations of the project and its group, all outcomes of looking for an interpreter", "why_tests_cant": "The configuration may name any path.", "anchors": ["pkm/src/pkm/api/projects/project.py:Project.attached_environment", "pkm/src/pkm/api/environments/environment_builder.py:EnvironmentBuilder.create_matching", "pkm/src/pkm/api/environments/environment.py:Environment.is_venv_path"]}
{"id": "C78", "title": "Rendering a template writes what it says and overwrites nothing", "statement": "Rendering a template into a directory creates exactly the files and directories the template is rendered to; without `--overwrite` no existing file is changed, and if one is in the way the command fails and changes nothing at all.", "quantifier": "all templates, contexts, ignore patterns and contents of the disk", "why_tests_cant": "Names of files are computed from what the user enters, so any file may be hit.", "anchors": ["pkm-cli/src/pkm_cli/api/templates/template_runner.py:Template.execute", "pkm-cli/src/pkm_cli/api/templates/template_runner.py:Template._render", "pkm-cli/src/pkm_cli/api/templates/template_runner.py:Template._load_ignored_files"]}
{"id": "C79", "title": "The options of a command made from a function reach its parameters", "statement": "A function that is made a command gets options of which no two share a name, every option sets the parameter it is named after, and the function is called with a value for each parameter and nothing else.", "quantifier": "all signatures of functions and all arguments", "why_tests_cant": "Short names are given out depending on all other parameters.", "anchors": ["pkm-cli/src/pkm_cli/api/dynamic_cli/method_parser.py:command_definition_from_method", "pkm-cli/src/pkm_cli/api/dynamic_cli/method_parser.py:_generate_option_names", "pkm-cli/src/pkm_cli/api/dynamic_cli/command_parser.py:ArgumentDef.field_name"]}
{"id": "C80", "title": "A new environment is complete, is recognized and changes nothing else", "statement": "Making a virtual environment at a path where there is nothing yields exactly the files of an environment, whose names of the interpreter lead to the interpreter that was given; the directory is recognized as an environment by the package manager and by Python; where there is something already, or without an interpreter, nothing is changed; nothing that was there changes, and a failed attempt leaves nothing behind.", "quantifier": "all disks with files, directories and symbolic links, paths, and interpreters with their platform and version", "why_tests_cant": "What is on the disk, the chains of symbolic links, and platform and version of the interpreter are unbounded; tests make one environment in an empty directory.", "anchors": ["pkm/src/pkm/api/environments/environment_builder.py:EnvironmentBuilder.create", "pkm/src/pkm/api/environments/environment_builder.py:PyVEnvConfiguration", "pkm/src/pkm/api/environments/environment.py:Environment.is_venv_path", "pkm/src/pkm/config/configfiles.py:WheelFileConfigIO"]}
{"id": "C81", "title": "A new environment gets the newest installed Python that is allowed", "statement": "When an environment is made for a version specifier, its interpreter is one of those that are installed, the specifier allows its version, and no installed and allowed one is newer; an interpreter is chosen whenever one is allowed, and only then; which one does not depend on the order in which the machine is searched; every executable is listed once; interpreters that cannot be used are passed over; previews are chosen only if asked for.", "quantifier": "all machines: contents of PATH and of the configured directories, what each program answers when run, all specifiers, and all orders of the search", "why_tests_cant": "The set of programs is iterated in an order that changes from process to process, and what is installed and what it prints is unbounded; tests see the interpreters of one machine.", "anchors": ["pkm/src/pkm/api/environments/installed_pythons_locator.py:InstalledPythonsLocator.all_installed", "pkm/src/pkm/api/environments/installed_pythons_locator.py:InstalledPythonsLocator.match", "pkm/src/pkm/api/environments/installed_pythons_locator.py:_lookup_in_env_path", "pkm/src/pkm/api/environments/installed_pythons_locator.py:_lookup_in_path", "pkm/src/pkm/api/environments/environment_builder.py:EnvironmentBuilder.create_matching"]}
{"id": "C82", "title": "A zoo has exactly the environments that were made in it and not deleted", "statement": "After any history of making and deleting environments in a zoo, installing into them and exporting their scripts, the environments that are listed and can be loaded are those that were made and not deleted since; making one fails iff there is one of that name, deleting one fails iff there is none; what is done with one environment leaves the others and everything outside the zoo as they are; an exported script is a copy of the script and is there as long as its environment; no name deletes anything but an environment.", "quantifier": "all disks with an empty directory for the zoo, all histories of operations, names, interpreters and files", "why_tests_cant": "The histories are unbounded, and the names come from the user; tests make a few environments with usual names.", "anchors": ["pkm/src/pkm/api/environments/environments_zoo.py:EnvironmentsZoo.create_environment", "pkm/src/pkm/api/environments/environments_zoo.py:EnvironmentsZoo.delete_environment", "pkm/src/pkm/api/environments/environments_zoo.py:EnvironmentsZoo.list", "pkm/src/pkm/api/environments/environments_zoo.py:EnvironmentsZoo.load_environment", "pkm/src/pkm/api/environments/environments_zoo.py:EnvironmentsZoo.export_script", "pkm/src/pkm/api/environments/environments_zoo.py:EnvironmentsZoo.export_all_scripts", "pkm/src/pkm/api/environments/environments_zoo.py:EnvironmentsZoo.load"]}
{"id": "C83", "title": "A program of a package container runs its own package with the container's packages", "statement": "A script that a container puts into the environment runs the object that its package declares for it, taken from the container, and ends with its status; the container's directory comes before the environment's when modules are looked for; its programs are in PATH; a Python program of the environment that it starts has the same container; programs that are not started by a container see nothing of the containers.", "quantifier": "all containers, scripts, search paths, environment variables and chains of processes", "why_tests_cant": "The programs run later, in processes that pkm does not control, with any environment variables; tests run one script in a clean environment.", "anchors": ["pkm/src/pkm/api/environments/package_containers.py:_entrypoints_script", "pkm/src/pkm/api/environments/package_containers.py:_register_container_script", "pkm/src/pkm/api/environments/package_containers.py:_register_container_import_hook", "pkm/src/pkm/api/environments/package_containers.py:PackageContainers._install", "pkm/src/pkm/launchers/executables.py:Executables.generate_for_entrypoint"]}
{"id": "C84", "title": "An application that was installed in a container is found by its name", "statement": "After installing an application in a container, its container is found by the application's name, holds the application in a version that was asked for, and installing it again does nothing; other packages and containers of the environment stay as they are; the containers that are listed are those that can be found; the plugins of a container are what was asked for in it besides the application.", "quantifier": "all sites, applications, versions and resolutions", "why_tests_cant": "The statement is about every earlier content of the environment, in particular packages whose names are similar to that of the application.", "anchors": ["pkm/src/pkm/api/environments/package_containers.py:PackageContainers.container_of", "pkm/src/pkm/api/environments/package_containers.py:PackageContainers.containers", "pkm/src/pkm/api/environments/package_containers.py:PackageContainers.install", "pkm/src/pkm/api/environments/package_containers.py:PackageContainers._get_or_install", "pkm/src/pkm/api/environments/package_containers.py:PackageContainers._wrapper_project", "pkm/src/pkm/api/environments/package_containers.py:PackageContainer.containerized_package", "pkm/src/pkm/api/environments/package_containers.py:PackageContainer.list_installed_plugins"]}
{"id": "C85", "title": "A command works on the nearest context it can work on", "statement": "Without options a command works on the project, project group, environment or zoo (in this order) of the nearest directory, from the working directory upwards, that has one it can handle, and moving into directories that have none changes nothing; `-c DIR` means that directory and no other; `-g` means the environment of the running interpreter, in the site that was asked for; if there is none the command runs without a context or is refused. The tasks that run around a command are those of the project it works on.", "quantifier": "all directory trees, working directories, sets of contexts a command handles, and options", "why_tests_cant": "The statement is about every nesting of projects, environments and groups on a disk.", "anchors": ["pkm-cli/src/pkm_cli/utils/context.py:Context.run", "pkm-cli/src/pkm_cli/utils/context.py:Context.of", "pkm-cli/src/pkm_cli/utils/context.py:Context.lookup_project", "pkm-cli/src/pkm_cli/utils/context.py:_ContextualCommand.execute", "pkm-cli/src/pkm_cli/utils/context.py:_lookup_env", "pkm-cli/src/pkm_cli/api/dynamic_cli/command_parser.py:Command.parent_by_path", "pkm-cli/src/pkm_cli/api/dynamic_cli/command_parser.py:Command.__getattr__", "pkm-cli/src/pkm_cli/main.py:main"]}
{"id": "C86", "title": "Executing a command runs its parents around it", "statement": "Executing a command runs the functions of the words before it first, from the first to the last, and stops at the first that fails; what a word does after its yield is done after every command below it, whether that fails or not.", "quantifier": "all chains of commands, and everything that their functions do, with failures at any point", "why_tests_cant": "The statement is about every nesting of commands and every failure.", "anchors": ["pkm-cli/src/pkm_cli/api/dynamic_cli/command_parser.py:Command.execute", "pkm-cli/src/pkm_cli/main.py:pkm_"]}
{"id": "C87", "title": "Attached tasks run around their command, tasks run by name with their arguments", "statement": "If a project has a task for before or after a command, that file runs before or after it, and a command without such files runs as it is; `pkm run @name` runs the task of this name of the project or of an installed package, in the project, and passes its arguments as they are; PYTHONPATH is afterwards what it was.", "quantifier": "all commands, projects, module search paths, arguments and values of PYTHONPATH", "why_tests_cant": "What Python finds by a name depends on every directory that it searches, and the arguments are any texts.", "anchors": ["pkm-cli/src/pkm_cli/api/tasks/tasks_runner.py:TasksRunner.run_attached", "pkm-cli/src/pkm_cli/api/tasks/tasks_runner.py:_Task._execute", "pkm-cli/src/pkm_cli/api/tasks/tasks_runner.py:_get_attached_name", "pkm-cli/src/pkm_cli/api/tasks/tasks_executor.py:TasksExecutor.execute", "pkm-cli/src/pkm_cli/api/tasks/tasks_executor.py:_load_task", "pkm-cli/src/pkm_cli/api/tasks/tasks_executor.py:pkm_run", "pkm-cli/src/pkm_cli/main.py:pkm_run", "pkm-cli/src/pkm_cli/main.py:main"]}
{"id": "C88", "title": "`pkm install` installs the packages it is given", "statement": "`pkm install` binds the packages to the repository that was named, removes them first if that was asked for, and installs them in the project or environment it works on; a command that is refused changes nothing.", "quantifier": "all options and lists of packages", "why_tests_cant": "The statement is about every combination of options and contexts.", "anchors": ["pkm-cli/src/pkm_cli/main.py:pkm_install"]}
{"id": "C89", "title": "A conda channel offers what it has for the platform, and the best artifact of it", "statement": "Asked for a package, a conda channel offers exactly the versions that its subdirectory for the platform has and the request allows, newest first; of their artifacts the one is installed whose dependencies exist, that is made for this platform and Python, and that has the highest build number among the best; dependencies mean what conda means by them, and one on a build is answered with that build.", "quantifier": "all contents of a channel, requests, platforms, interpreters and texts of dependencies", "why_tests_cant": "Channels have tens of thousands of artifacts whose dependencies are written in a language of their own.", "anchors": ["repositories/conda-pkm-repo/src/conda_pkm_repo/conda_channel_subdir.py:CondaChannelSubdir", "repositories/conda-pkm-repo/src/conda_pkm_repo/conda_channel_subdir.py:subdir_of", "repositories/conda-pkm-repo/src/conda_pkm_repo/conda_channel_subdir.py:_parse_specifier", "repositories/conda-pkm-repo/src/conda_pkm_repo/conda_channel_subdir.py:CondaPackageArtifact.compatibility_tag", "repositories/conda-pkm-repo/src/conda_pkm_repo/conda_channel_subdir.py:CondaSubdirPackage._best_artifact_for", "repositories/conda-pkm-repo/src/conda_pkm_repo/conda_repo.py:CondaRepository._do_match"]}
{"id": "C90", "title": "Installing a conda artifact installs its files, verified and recorded, or nothing", "statement": "The installation of a conda artifact changes nothing before every file that the artifact lists was found with the listed hash. When it succeeds every file is at its place in the environment, modules in the directory of the environment's version of Python, with the content of the artifact; RECORD has exactly these files with the hashes of their contents; nothing else is changed. When it fails the environment is as before.", "quantifier": "all artifacts, environments, hash functions and points of failure", "why_tests_cant": "The files of the artifact are moved, copied over existing ones and rolled back; any file can be missing, changed or in the way.", "anchors": ["repositories/conda-pkm-repo/src/conda_pkm_repo/conda_distribution.py:CondaDistribution.install_to", "pkm/src/pkm/utils/files.py:CopyTransaction"]}
{"id": "C91", "title": "The torch repository offers the builds that fit the machine, best first", "statement": "Of the packages of the torch index exactly those are offered that were built for a version of CUDA that the installed driver supports, and, if allowed, those built without CUDA. Builds for CUDA come before those without, newer versions before older ones, and among the builds of a version those for newer CUDA come first. It can be used on a machine without a driver, and odd versions in the index do not disturb it.", "quantifier": "all contents of the index, tables of compatibility, drivers and platforms", "why_tests_cant": "Labels are free texts, compared partly as texts and partly as numbers; tests use few labels.", "anchors": ["repositories/download-torch-pkm-repo/src/download_torch_pkm_repo/torch_repository.py:DownloadTorchRepository", "repositories/download-torch-pkm-repo/src/download_torch_pkm_repo/torch_repository.py:DownloadTorchRepositoryBuilder", "repositories/download-torch-pkm-repo/src/download_torch_pkm_repo/cuda_compatibility.py:CudaCompatibilityTable"]}
{"id": "C92", "title": "The table of CUDA versions is read from the page of NVIDIA as it is there, or kept", "statement": "The rows of the table of the page become the table of compatibility, all of them and nothing else, and are saved. When the page cannot be had or read, in whole or in one row, the saved table is used and stays as it is.", "quantifier": "all pages, as sequences of tags and texts, and all saved tables", "why_tests_cant": "The page belongs to somebody else and changes; a test has one page.", "anchors": ["repositories/download-torch-pkm-repo/src/download_torch_pkm_repo/cuda_compatibility.py:CudaCompatibilityTable.load", "repositories/download-torch-pkm-repo/src/download_torch_pkm_repo/utils/html.py:Element", "repositories/download-torch-pkm-repo/src/download_torch_pkm_repo/utils/html.py:BasicDomParser"]}
{"id": "C93", "title": "A package that environments share is moved once and linked, whole", "statement": "When a package with a compatibility tag is installed, its modules and scripts are afterwards in the shared directory with their contents, and the environment has a link to the modules, the scripts patched for its interpreter, the entry points, the metadata and a RECORD of all that was made there. Nothing else in the environment or elsewhere changes, unlinking removes what the link made and leaves the shared files, and other environments can link the package too.", "quantifier": "all environments, installed packages, shared directories and contents of files", "why_tests_cant": "Which files a package records, where and under which names is up to its author; a failure in the middle needs a particular file system.", "anchors": ["pkm/src/pkm/repositories/shared_pacakges_repo.py:_SharedPackage.install_to", "pkm/src/pkm/repositories/shared_pacakges_repo.py:_move_to_shared", "pkm/src/pkm/repositories/shared_pacakges_repo.py:_link_shared", "pkm/src/pkm/repositories/shared_pacakges_repo.py:_SharedPackage._shared_artifact_for"]}
{"id": "C94", "title": "The scripts of an environment are run by its interpreter", "statement": "A script of a wheel that asks for python, and the script of every entry point, is run by the interpreter of the environment it was installed to, with the arguments its author gave, and can be executed; everything behind the first line, and every other script, is unchanged. On Windows a launcher of the right kind is made.", "quantifier": "all scripts, entry points, paths of interpreters and platforms", "why_tests_cant": "The first line is free text, and paths of environments are chosen by users; tests use one of each.", "anchors": ["pkm/src/pkm/launchers/executables.py:Executables.patch_shabang_for_interpreter", "pkm/src/pkm/launchers/executables.py:Executables.generate", "pkm/src/pkm/launchers/executables.py:Executables.generate_for_entrypoint", "pkm/src/pkm/launchers/__init__.py:build_windows_script_launcher"]}
{"id": "C95", "title": "Listeners hear what happens and do not change it", "statement": "A program does the same and ends in the same way whether or not anybody listens to its operations. A listener for an operation is told when it begins and once when it ends, with the exception if there was one, nested like the operations; a listener for the events of an operation hears all of them and no others. Listening for a time leaves the listeners as they were.", "quantifier": "all programs of nested operations and events, all sets of listeners and all points where something raises", "why_tests_cant": "Nesting, failures and registrations combine without bound; tests have a few.", "anchors": ["pkm/src/pkm/utils/monitors.py:MonitoredOperation", "pkm/src/pkm/utils/monitors.py:_Monitor.listen", "pkm/src/pkm/utils/monitors.py:_Monitor.add_listeners", "pkm/src/pkm/utils/monitors.py:_Monitor.notify", "pkm/src/pkm/utils/monitors.py:MonitoredOperation.with_async"]}
{"id": "C96", "title": "A wheel is installed as it says", "statement": "Installing a wheel is refused, with nothing changed, unless it has one dist-info directory, a supported format and a RECORD that signs all its files. Otherwise every file of it goes to the place for its kind, every script entry point gets a launcher, every module is compiled, nothing else changes, and RECORD lists what came, so that uninstalling leaves no new file. A failing installation leaves everything as it was.", "quantifier": "all wheels, all trees of files of the target and of the wheel, all points of failure", "why_tests_cant": "The shapes of wheels and of what is installed already combine without bound, and each place of a failure leaves another state; tests install a few wheels into empty environments.", "anchors": ["pkm/src/pkm/api/distributions/wheel_distribution.py:WheelDistribution.install_to", "pkm/src/pkm/api/distributions/wheel_distribution.py:WheelDistribution.install_extracted_wheel", "pkm/src/pkm/api/distributions/wheel_distribution.py:_find_dist_info", "pkm/src/pkm/api/distributions/wheel_distribution.py:_verify_records"]}
{"id": "C97", "title": "Executing a plan: failures, schedules and crashes", "statement": "Executing a plan always ends. If it returns, every operation was done and nothing else changed. If it raises, the exception is that of the first operation of the plan that failed, nothing goes on behind the caller's back, and at every moment each package is as it was or as its operation makes it, so that a failure or a crash loses no package.", "quantifier": "all plans, all schedules of the caller and the workers, all operations that fail, all points at which the program is killed", "why_tests_cant": "The number of schedules grows exponentially with the operations, and a failure may meet the others at any of their phases; a test sees one schedule.", "anchors": ["pkm/src/pkm/api/packages/package_installation.py:InstallationPlan.execute", "pkm/src/pkm/api/packages/package_installation.py:_PackageOperationTask.execute", "pkm/src/pkm/utils/promises.py:Promise.execute", "pkm/src/pkm/utils/promises.py:await_all_promises_or_cancel"]}
{"id": "C98", "title": "Plans executed inside plans do not get stuck", "statement": "An operation of a plan may execute a plan of its own, to install the requirements of a build or the packages of an application. Whatever the number of such operations, executing the outer plan ends.", "quantifier": "all plans, all sizes of the inner plans, all numbers of workers, all schedules", "why_tests_cant": "Whether the workers wait for each other depends on the schedule and on the number of processors of the machine; a test on a machine with more workers than builds never sees it.", "anchors": ["pkm/src/pkm/api/packages/package_installation.py:InstallationPlan.execute", "pkm/src/pkm/api/pkm.py:Pkm", "pkm/src/pkm/build/external_builders.py:build_wheel"]}
{"id": "C99", "title": "The cache of built sources", "statement": "Whoever asks the cache for the METADATA or the wheel of a source distribution gets it whole and built from that archive, or the exception of the build. What was built is not built again. Users for other packages, versions or environments change nothing of this, and a crash leaves nothing in the cache that later uses would take for good.", "quantifier": "all histories of uses, all numbers of users at once, all interleavings of their accesses to the disk, all points at which users are killed", "why_tests_cant": "Whether a user sees a file that another has opened and not written, or one that is being removed, depends on the interleaving; a test runs one use after the other.", "anchors": ["pkm/src/pkm/build/source_build_cache.py:SourceBuildCache._get_or_build", "pkm/src/pkm/build/source_build_cache.py:SourceBuildCache.get_or_build_wheel", "pkm/src/pkm/build/source_build_cache.py:SourceBuildCache.get_or_build_meta", "pkm/src/pkm/api/distributions/source_distribution.py:SourceDistribution.install_to"]}
{"id": "C100", "title": "The explanation of a failed resolution", "statement": "The explanation of a failed resolution can be followed line by line: lines are numbered 0, 1, 2, ...; every number that a line gives is that of a line above it which says what the line takes it to say; every line follows from the facts it names and from what is above it; the last line is the conclusion; all facts the failure rests on are named, and no others.", "quantifier": "all derivations, of any depth and width", "why_tests_cant": "Which of nine kinds of lines is written depends on the shape of the whole derivation and on what was written before; tests look at one or two failures.", "anchors": ["pkm/src/pkm/resolution/pubgrub.py:Incompatibility.report", "pkm/src/pkm/resolution/pubgrub.py:Incompatibility.is_simple", "pkm/src/pkm/resolution/pubgrub.py:Incompatibility.__eq__"]}
{"id": "C101", "title": "The display shows the pieces of running work", "statement": "While a piece of output is shown, the display draws it; when it is no longer shown, the display removes it; changes of its text appear; and the screen never waits for work that has ended or shows pieces nobody put there.", "quantifier": "every number of threads that show pieces, every order of their steps and the refresher's, every moment a notification is given", "why_tests_cant": "The refresher runs in its own thread; a test sees a few schedules, and the ones that lose a piece or freeze the screen need particular orders of two or three steps", "anchors": ["pkm-cli/src/pkm_cli/display/display.py:_LiveOutput.show", "pkm-cli/src/pkm_cli/display/display.py:_LiveOutput._refresh_loop"]}
{"id": "C102", "title": "What is reported of programs that are run", "statement": "When another program is run, every line of its output is reported once, in order, and then its exit code, which is also returned; nothing the program did not write is reported; the run ends when the program has ended.", "quantifier": "all outputs, in all pieces in which they can be written; all orders of writing, closing, ending and reading; all ways to decode", "why_tests_cant": "How output arrives in pieces and when a program ends relative to a reading is decided by the operating system; a test sees one of the orders.", "anchors": ["pkm/src/pkm/utils/processes.py:monitored_run", "pkm/src/pkm/utils/processes.py:ProcessExecutionOutputLineEvent", "pkm/src/pkm/utils/processes.py:ProcessExecutionExitEvent", "pkm/src/pkm/api/environments/environment.py:Environment.run_proc"]}
{"id": "C103", "title": "Installed packages find what they require", "statement": "After dependencies are resolved and the plan is executed, everything that the resolved packages require, with the extras by which they are required and with overrides in the place of what they override, is installed, in a version that the requirement allows.", "quantifier": "all repositories, requirements, overrides and extras; all choices of the solver; all targets and all orders in which the operations of the plan run", "why_tests_cant": "It is a statement about resolver, plan and execution together: about every package graph and every order of the operations, while a test installs one graph.", "anchors": ["pkm/src/pkm/api/packages/package_installation.py:PackageInstallationTarget.install", "pkm/src/pkm/api/packages/package_installation.py:PackageInstallationTarget.plan_installation", "pkm/src/pkm/api/packages/package_installation.py:InstallationPlan.execute", "pkm/src/pkm/resolution/dependency_resolver.py:resolve_dependencies"]}
{"id": "C104", "title": "What a package says does not depend on what it was asked before", "statement": "Every question for the dependencies of a package is answered, with those that the best artifact for the environment declares and that apply, as if the package had not been asked before and were not asked by others at the same time; an artifact is retrieved, and its metadata read, once; a failure is not remembered.", "quantifier": "all packages and artifacts, all results of retrieving and reading them, all lists of questions of any number of threads, and all orders of their steps", "why_tests_cant": "The answers come from dictionaries that fill up as the resolver and threads ask: the property is about every history and every interleaving, and a test makes a new package.", "anchors": ["pkm/src/pkm/api/packages/standard_package.py:AbstractPackage.dependencies", "pkm/src/pkm/api/packages/standard_package.py:AbstractPackage._unfiltered_dependencies", "pkm/src/pkm/api/packages/standard_package.py:AbstractPackage._get_or_retrieve_artifact_path"]}
{"id": "C105", "title": "Uninstalling takes away what is not needed any more and breaks nothing", "statement": "Uninstalling packages by name removes exactly what the remaining user requests do not need, directly or through what is installed, with extras; what stays keeps its version, a named package that stays loses its user request, every requirement of what stays that was met is met afterwards, and the names returned are those that are not installed afterwards.", "quantifier": "all sites of any number of packages with any requirements between them, all lists of names to remove, all orders of the steps of the resolver", "why_tests_cant": "The property joins the resolver, names, extras and the plan over every dependency graph; tests cover a few small sites.", "anchors": ["pkm/src/pkm/api/packages/package_installation.py:PackageInstallationTarget.uninstall", "pkm/src/pkm/api/packages/package_installation.py:_RemovalRepository", "pkm/src/pkm/api/packages/package_installation.py:_RemovalPackage", "pkm/src/pkm/api/packages/package_installation.py:_UserRequestPackage"]}
{"id": "C106", "title": "Installing keeps what is installed, and updating updates it", "statement": "Installing dependencies leaves every installed package in its version and store mode, unless it is to be updated, so that what it met stays met; a package that is asked for without a version, and is new or to be updated, is installed in the newest minor release; a store mode that is asked for is used; however the names are spelled, and without breaking what the user requested before.", "quantifier": "all sites, repositories and lists of dependencies and names to update, all answers and orders of the resolver", "why_tests_cant": "The property joins the resolver, the spelling of names and the plan over all sites and repositories; tests use names without dashes and sites with nothing else installed.", "anchors": ["pkm/src/pkm/api/packages/package_installation.py:PackageInstallationTarget.install", "pkm/src/pkm/api/packages/package_installation.py:PackageInstallationTarget.plan_installation", "pkm/src/pkm/api/packages/package_installation.py:_InstallationRepository.match", "pkm-cli/src/pkm_cli/main.py:install", "pkm-cli/src/pkm_cli/controllers/self_controller.py:SelfController.update", "pkm/src/pkm/api/environments/package_containers.py:PackageContainers"]}
{"id": "C107", "title": "The message about packages in work tells of exactly the packages in work", "statement": "While packages are installed, updated or removed at the same time, in any number and any order of beginnings and ends, the message 'Handling Packages' is on the display exactly if at least one of them is in work, once, and names the packages that are in work: the three that began first and how many others there are. No operation fails or waits for ever because of the message.", "quantifier": "all assignments of packages to operations, all interleavings of the steps of any number of operations", "why_tests_cant": "The message is shared by all threads under a lock; tests see a few schedules only, and what is printed depends on the order of beginnings and ends.", "anchors": ["pkm-cli/src/pkm_cli/cli_monitors.py:with_package_install", "pkm-cli/src/pkm_cli/display/spinner.py:Spinner"]}
{"id": "C108", "title": "When installing has to change what is installed, the user's requests stay met and nothing else stays", "statement": "If new packages do not fit to what is installed, installing may change installed packages. Afterwards the site has exactly the packages that were selected, in the selected versions, and each of them is requested by the user or needed by one that is; every package that the user had requested is still there with its request; the new ones are there; requirements of all of them are met; forced replacements of dependencies are respected.", "quantifier": "all sites, repositories, lists of dependencies, updates, orders of solving and of executing the plan", "why_tests_cant": "The second attempt only happens for particular combinations of installed packages and repositories, and what it removes or changes depends on all of them.", "anchors": ["pkm/src/pkm/api/packages/package_installation.py:PackageInstallationTarget.plan_installation", "pkm/src/pkm/api/packages/package_installation.py:_InstallationRepository", "pkm/src/pkm/api/packages/package_installation.py:InstallationPlan.execute"]}
{"id": "C109", "title": "The help of a command lists what the command accepts", "statement": "The help lists every option that the user can give and no other, every positional argument and every sub-command, with names, hints and help texts. The usage mentions all of them, encloses what can be left out in square brackets, joins only flags that can be typed together, and is printed for every command.", "quantifier": "all commands: lists of options, flags, fields, groups, positional arguments and sub-commands, and all their names and texts", "why_tests_cant": "Which options are listed, joined or grouped depends on all names of a command; commands are also generated from methods and by extensions, so the tests cannot list them.", "anchors": ["pkm-cli/src/pkm_cli/api/dynamic_cli/help_generator.py:generate_usage", "pkm-cli/src/pkm_cli/api/dynamic_cli/help_generator.py:generate_arguments_overview", "pkm-cli/src/pkm_cli/api/dynamic_cli/help_generator.py:_create_option_usage_tokens"]}
{"id": "C110", "title": "The report about an environment tells the truth about its packages", "statement": "The report lists every installed package once (or every one that the user requested) with its version, says whether the user requested it, otherwise which packages require it, calls it an orphan exactly if nothing needs it, and warns about every dependency that is not met.", "quantifier": "all environments: sets of installed packages, containers, dependencies that apply or do not, and requests", "why_tests_cant": "What is said about a package depends on all other packages of the environment; the tests never run the report.", "anchors": ["pkm-cli/src/pkm_cli/reports/environment_report.py:EnvironmentReport.display", "pkm-cli/src/pkm_cli/reports/environment_report.py:_PackageInfo.display", "pkm/src/pkm/api/packages/site_packages.py:SitePackages.find_orphan_packages"]}
{"id": "C111", "title": "Unpacking an archive stays inside of the directory and lays out its files", "statement": "Unpacking a wheel or a source distribution into a new directory changes nothing outside of it, whatever the members are called and also if it fails; afterwards the directory has exactly the files of the archive at their names, with the data of the last member of each name. Which archives can be unpacked is decided by the end of the file name, also for packages given by a URL.", "quantifier": "all archives: any members, names, links and orders, any state of the disk around the directory", "why_tests_cant": "An archive is made by someone else, so its names are arbitrary; the tests unpack well-formed archives only.", "anchors": ["pkm/src/pkm/utils/archives.py:extract_archive", "pkm/src/pkm/repositories/url_repository.py:UrlPackage", "pkm/src/pkm/utils/http/http_client.py:HttpClient._resource_files_of"]}
{"id": "C112", "title": "A new project says what was answered", "statement": "`pkm new project` makes a directory with the name of the project, in it a pyproject.toml that reads as the name, version, description, readme, required Python, author and license that were answered, the readme and a package with a main module, and changes nothing else; where the project has a pyproject.toml already it fails and changes nothing. The configuration of a new zoo or group reads as answered too.", "quantifier": "every set of answers, every disk and target directory", "why_tests_cant": "Tests render the template with a few harmless answers; the statement is about every answer, with the characters that mean something in TOML among them, and about every disk.", "anchors": ["pkm-cli/src/pkm_templates/project/render.py: setup", "pkm-cli/src/pkm_templates/project/{{project_name}}/pyproject.toml.tmpl", "pkm-cli/src/pkm_templates/envzoo/render.py: setup", "pkm-cli/src/pkm_cli/api/templates/template_runner.py: Template.execute"]}
{"id": "C113", "title": "pkm new offers the templates there are", "statement": "`pkm new` without a name offers every installed template that is not part of another one, once for each, under its dotted name, and nothing else; with the name of an installed template it is the command of exactly this template; with the beginning of names it offers those that begin so.", "quantifier": "every tree of installed templates, every directory of modules, working directory and argument", "why_tests_cant": "Tests list the shipped templates; the statement is about every tree of templates at every depth, and about every working directory the command is run in.", "anchors": ["pkm-cli/src/pkm_cli/main.py: pkm_new", "pkm-cli/src/pkm_cli/api/templates/template_runner.py: TemplateRunner.templates_in_namespace, TemplateRunner.load_template"]}
{"id": "C114", "title": "The home directory of pkm keeps what is in it", "statement": "The home directory is the one that PKM_HOME names, and otherwise the directory pkm in the directory of the user's data. Whatever pkm does with it, settings and other files in it stay as they are: only missing directories and missing settings are made, the settings as shipped. Cleaning the caches empties them and touches nothing else, and afterwards they can be used again: a workspace that is given out is a directory.", "quantifier": "every start environment, every disk, every history of uses of the home directory with failures and cleanings among them", "why_tests_cant": "Tests run in one prepared home; the statement is about every disk, what is in the way on it, and every order of uses, failures and cleanings.", "anchors": ["pkm/src/pkm/api/pkm.py: Pkm, _default_home_directory, pkm_home", "pkm/src/pkm/utils/files.py: mkdir"]}
{"id": "C115", "title": "The build hooks of pkm return what they built", "statement": "A build hook of pkm (PEP 517, PEP 660) returns the name of the wheel, source distribution or metadata directory that it made in the given directory, and changes nothing else there. The prepared metadata is, file by file, the metadata of the wheel. The hooks work wherever the home directory of pkm is, and make none where there is none.", "quantifier": "every project that pkm builds, every hook, target directory and home directory", "why_tests_cant": "Tests build a sample project with each hook; the statement relates two hooks for every project and is about every environment they are called in.", "anchors": ["pkm/src/pkm/api/buildsys.py: build_wheel, build_sdist, build_editable, prepare_metadata_for_build_wheel, prepare_metadata_for_build_editable, buildsys_pkm", "pkm/src/pkm/build/pkm_builders.py: build_wheel, build_sdist"]}
{"id": "C116", "title": "Saving an edited TOML file keeps what was not edited", "statement": "A TOML file that pkm loads, edits and saves is afterwards the same file in which exactly the edit has been done. Lines that are kept have their comments, blanks and spellings as before, a changed line keeps all that stands before its value, a removed line or table takes only its own comments with it, added lines and tables are written in one fixed form, and the comments at the start and the end of the file stay. If nothing is edited, nothing changes.", "quantifier": "every file, every edit of its data: values changed, lines and tables removed, added and reordered, in any number and combination", "why_tests_cant": "Tests save one sample; the statement is about every layout of comments, blanks, keys and values, and every combination of edits.", "anchors": ["pkm/src/pkm/config/toml.py: loads, _StyleSheet, _Reader, _Writer", "pkm/src/pkm/config/configfiles.py: TomlConfigIO.write"]}
{"id": "C117", "title": "A function called from the command line gets the arguments as written", "statement": "Calling a function with `CliMethodArgs.parse(words).invoke(function)`, which is made for the tasks of a project, passes every word on: words without a name go to the parameters in order, `name=value`, `--name=value` and `--name` to the parameter of that name (the last one counts), other parameters have their defaults, and each value is what the annotation of its parameter makes of the text. If a word does not fit, or a value is missing or not accepted, the function is not called.", "quantifier": "every function signature, every list of words", "why_tests_cant": "Tests call a few functions with fitting words; the statement is about every signature and every order, number and form of words.", "anchors": ["pkm-cli/src/pkm_cli/utils/method_clis.py: CliMethodArgs.parse, CliMethodArgs.invoke"]}
