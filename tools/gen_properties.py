#!/usr/bin/env python3
"""Writes /verif/properties.jsonl from the table below (one property per entry)."""
import json, os
P = []
def p(id, title, statement, quantifier, why, anchors):
    P.append(dict(id=id, title=title, statement=statement, quantifier=quantifier, why_tests_cant=why, anchors=anchors))

V='pkm/src/pkm/api/versions/version.py'; VS='pkm/src/pkm/api/versions/version_specifiers.py'
VP='pkm/src/pkm/api/versions/version_parser.py'; PG='pkm/src/pkm/resolution/pubgrub.py'
DR='pkm/src/pkm/resolution/dependency_resolver.py'; PL='pkm/src/pkm/resolution/packages_lock.py'
PI='pkm/src/pkm/api/packages/package_installation.py'; SP='pkm/src/pkm/api/packages/site_packages.py'
WD='pkm/src/pkm/api/distributions/wheel_distribution.py'; DI='pkm/src/pkm/api/distributions/distinfo.py'
FI='pkm/src/pkm/utils/files.py'; PR='pkm/src/pkm/utils/promises.py'; PP='pkm/src/pkm/utils/properties.py'
HC='pkm/src/pkm/utils/http/http_client.py'; HS='pkm/src/pkm/utils/hashes.py'
EM='pkm/src/pkm/api/dependencies/env_markers.py'; DE='pkm/src/pkm/api/dependencies/dependency.py'
TO='pkm/src/pkm/config/toml.py'; PK='pkm/src/pkm/api/packages/package.py'
RE='pkm/src/pkm/api/repositories/repository.py'; RL='pkm/src/pkm/api/repositories/repository_loader.py'
RM='pkm/src/pkm/api/repositories/repository_management.py'; STP='pkm/src/pkm/api/packages/standard_package.py'

p('C01','Version ordering is a strict partial order',
  'For versions compared with the `<` operator: no version is less than itself, two versions are never each less than the other, and a < b together with b < c gives a < c. Standard versions are compared by epoch, then numerically by release, then by dev/pre/post/local parts; URL versions sort before named versions, which sort before standard ones.',
  'all triples of versions of any kind (standard, named, URL), with any release length, epoch, pre/post/dev number and local label',
  'The version space is infinite in five dimensions and the comparison is a cascade with early returns; a sample of triples cannot rule out a cycle that would make sorting or range checks inconsistent.',
  [V+':_less', V+':StandardVersion.normalized'])
p('C02','Versions are totally ordered (trichotomy)',
  'For any two versions exactly one of a < b, a == b, b < a holds, so that sorting a list of versions and picking the newest is well defined.',
  'all pairs of versions',
  'A pair of incomparable but different versions only shows up for particular combinations of local labels; tests sample a handful of pairs.',
  [V+':_less', V+':StandardVersion.equals_to'])
p('C03','Version equality is an equivalence compatible with order and padding',
  'Version equality is reflexive, symmetric and transitive; appending zero release components (1.0 vs 1.0.0) never changes equality or ordering against any other version; and equal versions can be substituted for one another in `<`.',
  'all versions and any number of appended zero components',
  'Congruence quantifies over every context version and every padding length.',
  [V+':StandardVersion.equals_to', V+':StandardVersion.normalized', V+':_less'])
p('C04','Equal versions hash equally',
  'If two versions compare equal then hash() of them is equal, so that versions can be used as dict keys and set members (blacklists, lock look-ups, resolver tables).',
  'all pairs of equal versions',
  'The hash is computed on a normal form different from the one used by equality; agreement must hold for every pair.',
  [V+':StandardVersion.__hash__', V+':StandardVersion.standartize', V+':UrlVersion.__eq__'])
p('C05','Version text round trip',
  'Printing a standard version and parsing the text again gives back the same version.',
  'all standard versions whose pre-release tag is one of a/b/rc and whose local label uses lower-case letters, digits and dots; numbers of any size, releases of any length',
  'Parser and printer are separate hand written programs over an infinite set of texts.',
  [VP+':VersionParser.read_version', V+':StandardVersion.__str__', 'pkm/src/pkm/utils/parsers.py:SimpleParser'])
p('C06','Bumping a version yields a larger version',
  'bump(major|minor|patch) of a three component version returns a version that is greater than the original, with the lower components reset; bump(a|b|rc) moves forward along the pre-release chain.',
  'all three-component standard versions and all particles',
  'All numeric values and all combinations of suffixes are quantified.',
  [V+':StandardVersion.bump'])
p('C07','Intersection of specifiers allows exactly the common versions',
  'For specifiers a and b, a.intersect_with(b) allows a version iff both a and b allow it.',
  'all specifiers reachable by parsing and all versions',
  'The intersection is a six-class double dispatch with many endpoint cases; the claim ranges over all endpoints, inclusiveness flags and versions.',
  [VS+':StandardVersionRange._intersect_with', VS+':VersionMatch.intersect_with', VS+':HetroVersionIntersection.intersect_with', VS+':VersionsUnion.intersect_with'])
p('C08','Union of specifiers allows exactly the versions of either side',
  'For specifiers a and b, a.union_with(b) allows a version iff a or b allows it, and leaves a and b unchanged.',
  'all specifiers and all versions',
  'Same infinite double dispatch; the argument mutation depends on the shape of both operands.',
  [VS+':StandardVersionRange._union_with', VS+':VersionsUnion.union_with', VS+':VersionMatch.union_with', VS+':HetroVersionIntersection.union_with'])
p('C09','Inverse of a specifier allows exactly the other versions',
  'x.inverse() allows a version iff x does not; inverting twice gives back a specifier with the same meaning; a.difference_from(b) allows exactly what a allows and b does not.',
  'all specifiers and all versions',
  'Complement must hold at every boundary version, including pre/post/local releases.',
  [VS+':StandardVersionRange.inverse', VS+':VersionMatch.inverse', VS+':VersionsUnion.inverse', VS+':HetroVersionIntersection.inverse', VS+':VersionSpecifier.difference_from'])
p('C10','allows_any and allows_all agree with the sets of versions',
  'a.allows_any(b) is false only if no version is allowed by both; a.allows_all(b) is true only if every version allowed by b is allowed by a.',
  'all pairs of specifiers and all versions',
  'Both are defined through intersection and structural equality; soundness quantifies over all versions.',
  [VS+':VersionSpecifier.allows_all', VS+':VersionSpecifier.allows_any', VS+':_RestrictAll', VS+':_AllowAll'])
p('C11','A comma separated specifier means the conjunction of its clauses',
  'Parsing "c1, c2, ..., cn" gives a specifier that allows a version iff each clause on its own allows it, whatever the number and order of the clauses.',
  'all lists of clauses and all versions',
  'Lists of clauses are unbounded and the accumulated specifier changes class along the way.',
  [VP+':VersionParser.read_specifier', VP+':VersionParser._read_single_specifier', VS+':HetroVersionIntersection.create'])
p('C12','Meaning of the comparison clauses',
  'The clauses >=v, >v, <=v, <v, ==v, !=v, ==X.*, !=X.*, ~=v allow exactly the versions their PEP 440 reading gives: e.g. ~=X.Y.Z allows w iff w >= X.Y.Z and w has the release prefix X.Y, ==X.* iff w has the release prefix X (w a final release).',
  'all clause versions and all candidate versions',
  'The statement equates an order interval with a prefix relation, for every length of release.',
  [VP+':VersionParser._read_single_specifier', VS+':VersionSpecifier.create_range', VS+':StandardVersionRange.allows_version', VS+':VersionMatch.allows_version'])
p('C13','Specifier text round trip',
  'Printing a specifier and parsing it gives a specifier that allows the same versions.',
  'all specifiers built of one range or one match',
  'Printer and parser are separate programs over infinitely many texts.',
  [VS+':StandardVersionRange.__str__', VS+':VersionMatch.__str__', VP+':VersionParser.read_specifier'])
p('C14','Resolution result satisfies every dependency',
  'If the solver returns an assignment, then for every package in it the chosen version is one the repository offers, and each of the dependencies of that version is in the assignment at a version allowed by the dependency constraint; the root package is included.',
  'all dependency problems (any number of packages, versions, dependencies) and all executions of the solver',
  'The solver is a backtracking search with learned incompatibilities; soundness must hold along every path of decisions, conflicts and backjumps.',
  [PG+':Solver.solve', PG+':Solver._propagate', PG+':Solver._resolve_conflict', PG+':Solver._make_next_decision', PG+':PartialSolution'])
p('C15','Resolution result contains one version per package and only needed packages',
  'The returned assignment maps each package to a single version, and every package in it is either the root or a dependency of another package in it.',
  'all problems and executions',
  'Stale decisions after backtracking only show up for particular conflict patterns.',
  [PG+':PartialSolution.backtrack', PG+':PartialSolution.require', PG+':PartialSolution.decisions'])
p('C16','Backtracking restores an earlier search state',
  'Backtracking to decision level L keeps exactly the assignments, decisions and requirements made at levels up to L; decision levels stay contiguous and assignments stay ordered by level.',
  'all search histories and all levels',
  'Quantifies over all interleavings of decisions, derivations and backjumps.',
  [PG+':PartialSolution.backtrack', PG+':PartialSolution.assign', PG+':PartialSolution.make_assignment'])
p('C17','Unsolvable is reported only when there is no solution',
  'If the solver raises the unsolvable-problem error, then no assignment of available versions satisfies all dependencies.',
  'all problems and executions',
  'A wrong learned incompatibility only matters for problems where it excludes the last solution.',
  [PG+':Solver._resolve_conflict', PG+':Incompatibility.create', PG+':Solver._is_tautology'])
p('C18','Resolver output for extras, overrides and markers',
  'resolve_dependencies returns packages without extras entries, requires the base package of every package-with-extras at the same version, ignores dependencies whose environment marker is not satisfied, and replaces dependencies named in the overrides.',
  'all repositories, dependency lists, override maps and marker valuations',
  'Ranges over all dependency graphs.',
  [DR+':resolve_dependencies', DR+':_PkmPackageInstallationProblem.get_dependencies'])
p('C19','Locking one environment keeps the locks of the others',
  'After update_lock(env) the lock holds, for env, exactly the installed packages of env, and for every other environment exactly what it held before, in any sequence of updates by different environments.',
  'all lock contents and all sequences of update_lock calls by any environments',
  'Ranges over unbounded histories of users/environments.',
  [PL+':PackagesLock.update_lock', PL+':PackagesLock.env_specific_locks', 'pkm/src/pkm/utils/iterators.py:groupby'])
p('C20','Locked versions are preferred and nothing is lost',
  'sort_packages_by_lock_preference returns a permutation of its input in which all locked versions precede all unlocked ones and the relative order inside both groups is kept; locked_versions lists the env-specific lock first.',
  'all locks, environments and package lists',
  'Permutation and stability over lists of any length.',
  [PL+':PackagesLock.sort_packages_by_lock_preference', PL+':PackagesLock.locked_versions'])
p('C21','Lock file survives save and load',
  'Saving a lock and loading it gives a lock with the same locked versions for every package and environment.',
  'all locks',
  'Grouping and flattening of arbitrary lock lists.',
  [PL+':PackagesLock.save', PL+':PackagesLock.load', 'pkm/src/pkm/utils/iterators.py:groupby'])
p('C22','Installation plan leads from the installed to the required packages',
  'Applying the operations computed for a target (install, update, skip, remove) to the currently installed packages gives exactly the requested set of packages plus (unless removal was asked) the untouched rest; no package gets two operations.',
  'all installed sets and required sets',
  'Sets of any size and any overlap, with names that normalise to the same key.',
  [PI+':PackageInstallationPlan', PI+':PackageOperation'])
p('C23','Orphan detection is reachability',
  'find_orphan_packages returns exactly the installed packages that cannot be reached from a user-requested package through installed dependencies.',
  'all installed dependency graphs, including cyclic ones',
  'Transitive closure over arbitrary graphs.',
  [SP+':SitePackages.find_orphan_packages'])
p('C24','Uninstall removes exactly the recorded files',
  'Uninstalling a package removes every file listed in its RECORD and directories that became empty, and touches no file that is not listed.',
  'all file trees and RECORD contents',
  'Ranges over arbitrary file trees.',
  [SP+':InstalledPackage.uninstall', DI+':DistInfo.installed_files'])
p('C25','A wheel whose contents do not match its RECORD is rejected',
  'Installing a wheel succeeds in record verification only if every file of the wheel other than the RECORD itself is listed in RECORD with a signature that matches its content.',
  'all wheels (file sets, contents and records)',
  'Universal over all tampered wheels.',
  [WD+':_verify_records'])
p('C26','A failed installation leaves the file system as it was',
  'If an exception escapes a copy transaction, at whatever point, all files that existed before are back with their content and all files created by the transaction are gone.',
  'all initial file trees, sequences of copy/delete operations and failure points',
  'Crash points times histories.',
  [FI+':CopyTransaction'])
p('C27','A successful copy transaction produces the copied files',
  'After a transaction that ends without exception every copied file has the content of its source, removed files are gone and all other files are untouched.',
  'all file trees and operation sequences',
  'Histories of any length.',
  [FI+':CopyTransaction'])
p('C28','Relative paths lead to their target',
  'path_to(source, destination) joined to source resolves to destination.',
  'all pairs of absolute directories',
  'Path depth is unbounded.',
  [FI+':path_to'])
p('C29','Promises complete once and notify every listener once',
  'A promise is completed at most once; its result never changes afterwards; every listener is called exactly once after completion, whichever of registration and completion comes first.',
  'all interleavings of complete/fail/cancel and listener registration by any number of threads',
  'Schedules.',
  [PR+':_SimplePromise', PR+':Promise', PR+':Deferred'])
p('C30','Cached properties are computed once',
  'Concurrent first reads of a cached property by any number of threads call the compute function once and all return the same value.',
  'all schedules of any number of threads',
  'Schedules.',
  [PP+':cached_property'])
p('C31','A cached HTTP resource is never served half written',
  'At every point, including after a crash in the middle of saving or deleting a resource, if the cache says a resource exists then its stored data is the complete data belonging to the stored info.',
  'all sequences of save/delete with a crash at any step',
  'Crash points.',
  [HC+':FetchedResource.save', HC+':FetchedResource.delete'])
p('C32','An HTTP fetch observes the requested cache policy',
  'A fetch that asks for update or for no caching contacts the server, in every history of earlier fetches of the same URL; concurrent fetches of the same URL share one download.',
  'all histories and schedules of fetches',
  'Histories.',
  [HC+':HttpClient.fetch_resource'])
p('C33','HTTP requests stop after a bounded number of attempts',
  'A request performs at most a bounded number of connection attempts and follows at most a bounded number of redirects for every server behaviour.',
  'all (adversarial, unbounded) sequences of server responses',
  'Infinite response sequences.',
  [HC+':HttpClient._request'])
p('C34','TOML values survive writing and reading',
  'Dumping a TOML string value and reading it back gives the same string.',
  'all strings',
  'All strings.',
  [TO+':TOMLParser', TO+':TOMLWriter'])
p('C35','Package name normalisation is stable',
  'Normalising a package name twice is the same as once, and names that only differ in case or in the separators - _ . have the same lookup key.',
  'all names',
  'All strings.',
  [PK+':PackageDescriptor.normalize_name', PK+':PackageDescriptor'])
p('C36','A pre-release is offered only if asked for or if nothing else matches',
  'repository.match returns a pre-release or dev release only if the dependency allows pre-releases or no final release matches; otherwise all final releases that match, in order.',
  'all package lists and dependencies',
  'Lists of any length.',
  [RE+':AbstractRepository._filter_prereleases', RE+':AbstractRepository.match'])
p('C37','The installed artifact is the best compatible one',
  'best_artifact_for returns a binary artifact of maximal compatibility score among the compatible ones, falls back to a source distribution only if no binary is compatible, and returns none only if no artifact is compatible.',
  'all lists of artifacts and score functions',
  'Lists of any length.',
  [STP+':AbstractPackage.best_artifact_for'])
p('C38','Repository selection follows the bindings and the declared order',
  'A composite repository asks the bound repository for a bound package, otherwise returns the matches of the first repository with a non-empty answer.',
  'all repository lists, bindings and dependencies',
  'Lists of any length and any answers.',
  [RL+':_CompositeRepository._do_match'])
p('C39','The repository lookup chain terminates and visits each configuration once',
  'Following the inherited repository configurations visits every reachable configuration once and stops, even if configurations inherit from each other in a cycle.',
  'all inheritance graphs',
  'Graphs.',
  [RM+':RepositoryManagement.package_lookup_chain'])
p('C40','Recursive source builds terminate',
  'Building wheels recursively for build requirements never builds the same package inside its own build, and reports a build cycle only if there is one.',
  'all build requirement graphs',
  'Graphs and recursion.',
  ['pkm/src/pkm/build/external_builders.py:build_wheel'])
p('C41','Unordered hashes do not depend on iteration order',
  'HashBuilder.unordered_seq gives the same hash for every order of the elements; ordered hashes of equal sequences are equal.',
  'all permutations of all sequences',
  'Permutations.',
  [HS+':HashBuilder'])
p('C42','Environment markers follow boolean precedence',
  'Evaluating a parsed marker expression gives the value of its reading with "and" binding stronger than "or" and parentheses first.',
  'all marker expressions and environments',
  'Expressions of any depth.',
  [EM+':EnvironmentMarkerParser', EM+':EnvironmentMarker'])
p('C43','Cleaning the shared packages removes only unused packages',
  'remove_unused_packages deletes a shared package directory iff no environment uses it.',
  'all shared directories and usage files',
  'Sets of any size.',
  ['pkm/src/pkm/repositories/shared_pacakges_repo.py:SharedPackagesRepository.remove_unused_packages'])
p('C44','Activating an environment is undone on exit',
  'After leaving env.activate() the environment variables it changed have their previous values, for nested activations as well.',
  'all variable states and nestings',
  'Nesting depth.',
  ['pkm/src/pkm/api/environments/environment.py:Environment.activate'])
p('C45','Grouping, partitioning and deduplicating collections lose nothing',
  'groupby keeps every element exactly once under its key in the original order; partition splits a list into the elements that satisfy the predicate and those that do not; unique_by keeps the first element of every key.',
  'all lists and key functions',
  'Lists of any length.',
  ['pkm/src/pkm/utils/iterators.py:groupby','pkm/src/pkm/utils/iterators.py:partition','pkm/src/pkm/utils/seqs.py:Seq'])
p('C46','The process pool never runs more workers than allowed',
  'At any time at most max_workers worker processes exist, every submitted task is run at most once, and tasks start in submission order.',
  'all sequences of submissions and completions',
  'Schedules.',
  ['pkm/src/pkm/utils/multiproc/__init__.py:ProcessPoolExecutor'])
p('C47','Configuration objects survive unparse and parse',
  'Unparsing a configuration object to its dictionary form and parsing it back gives an equal object, with unknown keys preserved by the leftover field; dotted keys address nested tables.',
  'all field lists and all values',
  'Nested tables of any depth.',
  ['pkm/src/pkm/config/configclass.py:ConfigCodec'])
p('C48','Command line arguments are bound as declared',
  'Parsing a command line binds every option and positional argument to the declared field, applies defaults to the rest, and reports missing required arguments and violated mutual exclusions.',
  'all command definitions and argument lists',
  'Argument lists of any length.',
  ['pkm-cli/src/pkm_cli/api/dynamic_cli/command_parser.py'])
p('C49','Version order agrees with PEP 440 for final, pre and dev releases',
  'Sorting versions of one release gives dev releases first, then a, b, rc, then the final release, then post releases, as PEP 440 prescribes.',
  'all versions of one release',
  'All suffix combinations.',
  [V+':_less'])
p('C50','A requirement line survives printing and parsing',
  'str(dependency) parsed again gives a dependency with the same name, extras, version constraint and marker.',
  'all dependencies with a range or match constraint',
  'All names, extras and constraints.',
  [DE+':Dependency'])
p('C51','Small collection helpers do what their documentation says',
  'add_if_absent, put_if_absent, get_or_put, without_keys, remove_by_value, startswith, argmin, without_prefix, without_suffix and get_or_default do what their docstrings say.',
  'all dictionaries, sequences, texts and keys',
  'All inputs of general purpose helpers used all over the code.',
  ['pkm/src/pkm/utils/sets.py','pkm/src/pkm/utils/dicts.py','pkm/src/pkm/utils/sequences.py','pkm/src/pkm/utils/strings.py'])
p('C53','Uninstalling by name keeps what the remaining requests need and reports what is gone',
  'uninstall(names) drops the user requests of the named packages, keeps exactly the installed packages selected for the remaining user requests (unchanged, but without user request if named), and returns exactly the given names that are not installed any more.',
  'all sites, all lists of names and all answers of the resolver',
  'All dependency graphs and name lists.',
  ['pkm/src/pkm/api/packages/package_installation.py:PackageInstallationTarget.uninstall'])
p('C54','Planning prefers what is installed and otherwise the latest minor release',
  'When a plan is prepared, an installed package that satisfies the request is preferred, requests without version constraint for new packages are met by the latest release and its patch releases only, packages given in updates are taken from the repository, and all old and new user requests are handed to the resolver.',
  'all sites, repositories, requests and update lists',
  'All combinations of installed packages and repository contents.',
  ['pkm/src/pkm/api/packages/package_installation.py:_InstallationRepository','pkm/src/pkm/api/packages/package_installation.py:PackageInstallationTarget.plan_installation'])
p('C55','Installing and uninstalling a package leaves none of its files',
  'The RECORD written by an installation lists every file that the installation created, by a path that leads to it and with its signature, so that uninstalling the package afterwards leaves no file that was not there before.',
  'all wheels, sites and file system states, and all orders in which files are recorded',
  'All directory layouts and file names, and two operations in sequence.',
  ['pkm/src/pkm/api/distributions/distinfo.py:RecordsFileConfiguration.sign_files','pkm/src/pkm/api/distributions/wheel_distribution.py:WheelDistribution.install_extracted_wheel','pkm/src/pkm/api/packages/site_packages.py:InstalledPackage.uninstall'])
p('C56','URLs survive printing and parsing',
  'The text of a URL of the http and https schemes parsed again gives the same URL, so different URLs have different texts.',
  'all URLs with host, port, path, query and fragment',
  'All combinations of the parts.',
  ['pkm/src/pkm/utils/http/http_client.py:Url'])
p('C57','A redirection leads to the location the server named',
  'Following a redirection requests the URL that the location header names, resolved against the URL of the request.',
  'all URLs and location headers',
  'All forms of relative and absolute locations.',
  ['pkm/src/pkm/utils/http/http_client.py:HttpClient','pkm/src/pkm/utils/http/http_client.py:Url'])
p('C58','The hash check of a fetched file is about the stored data',
  'is_hash_valid answers whether the stored data has the given hash, also from the saved hash of an earlier check.',
  'all histories of downloads, checks, deletions and handles of one URL',
  'All interleavings of downloads and checks.',
  ['pkm/src/pkm/utils/http/http_client.py:FetchedResource'])
p('C59','Resolution ends with a solution or the unsolvable-problem error',
  'Solving a dependency problem always ends, either with an assignment or with the unsolvable-problem error, and never with an internal error.',
  'all problems and executions',
  'Endless searches and failing assertions only show up for particular conflict patterns.',
  ['pkm/src/pkm/resolution/pubgrub.py:Solver.solve','pkm/src/pkm/resolution/pubgrub.py:Solver._resolve_conflict','pkm/src/pkm/resolution/pubgrub.py:Solver._make_next_decision'])
p('C60','WHEEL and pyvenv.cfg files are read back and understood',
  'Data written to a file with one "key: value" on each line are read back as they were, and the files that Python itself makes or reads are understood on both sides.',
  'all keys and values',
  'Values are arbitrary texts; a colon or blank in one of them is enough to break the file.',
  ['pkm/src/pkm/config/configfiles.py:WheelFileConfigIO','pkm/src/pkm/api/environments/environment_builder.py:PyVEnvConfiguration'])
p('C52','A wheel is installable exactly if the interpreter supports one of its tags',
  'The compatibility score of a wheel exists exactly if some combination of its interpreter, ABI and platform tags is supported by the interpreter, is the best score of these combinations, and prefers the better fitting ABI, then the more specific platform, then the own implementation and closer version.',
  'all interpreters and systems, and all compressed tag sets',
  'All combinations of interpreter versions, ABIs, platforms and libc versions, most of which no test machine has.',
  ['pkm/src/pkm/api/environments/environment_introspection.py:EnvironmentIntrospection.compatibility_score','pkm/src/pkm/api/environments/environment_introspection.py:EnvironmentIntrospection'])
p('C61','RECORD files survive saving and loading',
  'The list of installed files, with paths, signatures and lengths, is read back as it was saved, whatever the paths contain, and a signature read back accepts exactly the data it was made for.',
  'all lists of records, all paths, digests and lengths',
  'Paths are arbitrary texts with commas, quotes and line ends.',
  ['pkm/src/pkm/config/configfiles.py:CSVConfigIO','pkm/src/pkm/api/distributions/distinfo.py:RecordsFileConfiguration','pkm/src/pkm/utils/hashes.py:HashSignature'])
p('C62','Entry points survive saving and loading',
  'Entry points saved to entry_points.txt and loaded again are the same: group, name, module, object and extras.',
  'all lists of entry points with distinct names in each group',
  'Names and references are arbitrary texts of a format with several delimiters.',
  ['pkm/src/pkm/utils/entrypoints.py:ObjectReference','pkm/src/pkm/api/distributions/distinfo.py:EntrypointsConfiguration','pkm/src/pkm/config/configfiles.py:INIConfigIO'])
p('C63','A project needs its dependencies and those of the requested extras',
  'The dependencies of a project that apply in an environment are its own requirements whose marker holds, and of each group of optional requirements, if and only if the extra of this name is requested, those whose marker holds.',
  'all projects, groups of optional requirements, markers, environments and requested extras',
  'All combinations of markers, groups and extras.',
  ['pkm/src/pkm/api/projects/pyproject_configuration.py:ProjectConfig.all_dependencies','pkm/src/pkm/api/projects/project.py:Project.dependencies','pkm/src/pkm/api/dependencies/dependency.py:Dependency.is_applicable_for'])
p('C64','Adding and removing dependencies of a project updates its configuration',
  'Installing dependencies for a project adds them to its dependencies, without version constraint as one that allows the version installed and later compatible ones, and replaces those of the same name; removing drops exactly the named ones; the saved configuration and lock tell the same; a failed installation leaves the project as it was.',
  'all projects, lists of requests, installed versions and failures of the installation',
  'All combinations of old and new requests, versions and crash points.',
  ['pkm-cli/src/pkm_cli/controllers/prj_controller.py:install_dependencies','pkm-cli/src/pkm_cli/controllers/prj_controller.py:uninstall_dependencies','pkm/src/pkm/api/packages/package.py:PackageDescriptor.to_dependency'])
p('C65','A project group consists of the projects listed in it and its subgroups',
  'The projects of a group are those reachable through its list of children; a project belongs to the nearest group above it that lists it; adding a project makes it a child and removing it by path or name takes exactly it away.',
  'all trees of groups and projects, and all sequences of additions and removals',
  'All directory layouts and nestings of groups.',
  ['pkm/src/pkm/api/projects/project_group.py:ProjectGroup'])
p('C66','The entry points of a project are in what is built from it',
  'The scripts, gui scripts and other entry points declared in a project configuration are exactly the entry points of the distribution built from it, each in its group.',
  'all project configurations',
  'Names and references are arbitrary texts, in any number of groups.',
  ['pkm/src/pkm/api/projects/pyproject_configuration.py:ProjectConfig.entry_points','pkm/src/pkm/api/projects/pyproject_configuration.py:ProjectConfig.all_entrypoints','pkm/src/pkm/build/pkm_builders.py:build_dist_info'])
p('C67',
  'METADATA files keep what they describe',
  'Saving metadata and loading it again gives every field back, and the METADATA of a distribution built from a project says what the project configuration says: name, version, summary, people, python constraint, extras and requirements, so that whoever installs it gets the dependencies the project asks for.',
  'all metadata and all project configurations',
  'Fields are arbitrary texts of any length and number.',
  ['pkm/src/pkm/api/distributions/wheel_distribution.py', 'pkm/src/pkm/api/packages/package_metadata.py:PackageMetadataIO', 'pkm/src/pkm/api/packages/package_metadata.py:PackageMetadata.from_project_config'])
p('C68',
  'Pooled http connections serve one request at a time, with its own answer',
  'A connection is never used by two requests at once nor offered for reuse while in use; at most the configured number is kept; after closing the client every connection gets closed; every request is answered by the response to that request, and a request on a connection that the server has closed meanwhile is repeated.',
  'all numbers of users, all interleavings of their requests and of the closing, and all points at which connections break',
  'The order of requests, releases and breakdowns is decided by schedules and the network.',
  ['pkm/src/pkm/utils/http/http_client.py:_Connections', 'pkm/src/pkm/utils/http/http_client.py:_ConnectionPool', 'pkm/src/pkm/utils/http/http_client.py:HttpClient._request'])
p('C69',
  'What is uploaded is what the server reads',
  'Publishing a distribution sends a form in which the server finds every metadata field, the kind of the file and its python tag, the digests of the file and the file itself under its name, whatever the contents and however the file is read in chunks; if the request has to be repeated, the same is sent again.',
  'all metadata, file names and contents, chunk sizes, sizes of reads and numbers of tries',
  'Contents, field names and the points at which connections fail are arbitrary.',
  ['pkm/src/pkm/utils/http/mfd_payload.py:MultipartFormDataPayload', 'pkm/src/pkm/utils/io_streams.py:chunks', 'pkm/src/pkm/repositories/pypi_repository.py:PyPiPublisher.publish'])
p('C70',
  'Path links put exactly their paths on the path',
  'Saving a path configuration file and loading it gives the same links and imports, and Python adds exactly these links to its path, in order.',
  'all lists of paths and imports',
  'Paths are arbitrary texts.',
  ['pkm/src/pkm/api/distributions/pth_link.py:PthLink'])
p('C71',
  'An index is offered as it is',
  'A package index answers a requirement with one package per allowed release, holding exactly the usable files of this release as the index lists them, newest first; the answer does not depend on earlier requests; one unusable file does not hide the others; a file with a listed digest is used only if the digest fits.',
  'all pages and release listings of an index, all requirements and sequences of requirements',
  'Pages are arbitrary sequences of tags and texts, and listings arbitrary dictionaries written by others.',
  ['pkm/src/pkm/repositories/simple_repository.py:SimpleRepository._do_match', 'pkm/src/pkm/repositories/simple_repository.py:_HtmlArtifactsExtractor', 'pkm/src/pkm/repositories/pypi_repository.py:PyPiRepository._do_match', 'pkm/src/pkm/repositories/pypi_repository.py:PypiPackage._retrieve_artifact'])
p('C72',
  'Distribution files and directories are offered under their name',
  'A wheel or source distribution is offered under the name and version that its file name carries; a directory offers exactly the distributions and projects in it, to every spelling of their names; a package found this way can tell its dependencies; a file given by url is accepted only for the package that was asked for.',
  'all file names, directories and requirements',
  'File names and the contents of directories are arbitrary.',
  ['pkm/src/pkm/api/packages/package.py:PackageDescriptor.from_dist_name', 'pkm/src/pkm/api/distributions/distribution.py:Distribution.package_from', 'pkm/src/pkm/repositories/file_system_repository.py:FileSystemRepositoryBuilder.build', 'pkm/src/pkm/repositories/file_repository.py:FileRepository._do_match'])
p('C73',
  'A git requirement gives the branch it names',
  'A requirement with a git url gives the project at the named branch of the named repository, as the remote has it, whatever was asked, failed or was interrupted before; clones stay inside the workspace and different repositories or branches do not share one.',
  'all urls, states of the remotes, sequences of requests, failures and crash points',
  'The result depends on the history of the workspace and on remotes that change between requests.',
  ['pkm/src/pkm/repositories/git_repository.py:GitRepository._do_match', 'pkm/src/pkm/repositories/git_repository.py:_Git'])
p('C74',
  'Built wheels and source distributions hold the project',
  'The wheel built from a project contains exactly the files of its packages at the place they are imported from, with a RECORD that lists all of them with their hashes and that the installer accepts; an editable wheel offers at least the same modules; the wheel built from the source distribution is the wheel built from the project; and the names of both files say the project, its version and the interpreters it is for.',
  'all project directories, package configurations, project names, versions and interpreter requirements',
  'Every combination of directory layout, package configuration and name gives another archive; tests build a handful.',
  ['pkm/src/pkm/build/pkm_builders.py:build_sdist', 'pkm/src/pkm/build/pkm_builders.py:build_wheel', 'pkm/src/pkm/build/pkm_builders.py:_BuildContext.copy_sources', 'pkm/src/pkm/api/projects/project.py:ProjectDirectories.create', 'pkm/src/pkm/api/distributions/wheel_distribution.py:WheelDistribution.expected_wheel_file_name'])
p('C75',
  'Publishing credentials are kept and kept secret',
  'Credentials saved for a repository are found again, unchanged, by whoever opens the store with its password and by nobody else, after any sequence of additions, removals, mistyped passwords, concurrent runs and crashes; publishing asks the user only for credentials it does not have, sends what was given and saves only what the repository accepted.',
  'all histories of operations, passwords, answers of the user, interleavings and crash points',
  'The store is shared by all runs of the program and its contents depend on the whole history.',
  ['pkm-cli/src/pkm_cli/auth/publish_auth_store.py:PublishAuthenticationStore', 'pkm-cli/src/pkm_cli/controllers/prj_controller.py:PrjController.publish', 'pkm-cli/src/pkm_cli/main2.py:publish'])
p('C76',
  'What is published is the release built from the present sources',
  "`pkm publish` uploads exactly the distributions of the project's current version, each once, built from the sources as they are at that time, under that version's names and metadata; `pkm clean dist` removes the builds of every other version and nothing of the current one.",
  'all histories of editing, bumping the version, building, cleaning and publishing, all outcomes of the builders',
  'What is uploaded depends on what earlier commands left in the directory of the distributions.',
  ['pkm/src/pkm/api/projects/project.py:Project.build', 'pkm/src/pkm/api/projects/project.py:Project.publish', 'pkm/src/pkm/api/projects/project.py:ProjectDirectories.clean_dist', 'pkm-cli/src/pkm_cli/controllers/prj_controller.py:PrjController.publish', 'pkm/src/pkm/build/pkm_builders.py:build_sdist'])
p('C77',
  'Attaching an environment touches only an environment',
  'Using the environment attached to a project creates it if it does not exist, reuses it unchanged if it does, and never deletes or changes any other file.',
  'all contents of the disk, all configurations of the project and its group, all outcomes of looking for an interpreter',
  'The configuration may name any path.',
  ['pkm/src/pkm/api/projects/project.py:Project.attached_environment', 'pkm/src/pkm/api/environments/environment_builder.py:EnvironmentBuilder.create_matching', 'pkm/src/pkm/api/environments/environment.py:Environment.is_venv_path'])
p('C78',
  'Rendering a template writes what it says and overwrites nothing',
  'Rendering a template into a directory creates exactly the files and directories the template is rendered to; without `--overwrite` no existing file is changed, and if one is in the way the command fails and changes nothing at all.',
  'all templates, contexts, ignore patterns and contents of the disk',
  'Names of files are computed from what the user enters, so any file may be hit.',
  ['pkm-cli/src/pkm_cli/api/templates/template_runner.py:Template.execute', 'pkm-cli/src/pkm_cli/api/templates/template_runner.py:Template._render', 'pkm-cli/src/pkm_cli/api/templates/template_runner.py:Template._load_ignored_files'])
p('C79',
  'The options of a command made from a function reach its parameters',
  'A function that is made a command gets options of which no two share a name, every option sets the parameter it is named after, and the function is called with a value for each parameter and nothing else.',
  'all signatures of functions and all arguments',
  'Short names are given out depending on all other parameters.',
  ['pkm-cli/src/pkm_cli/api/dynamic_cli/method_parser.py:command_definition_from_method', 'pkm-cli/src/pkm_cli/api/dynamic_cli/method_parser.py:_generate_option_names', 'pkm-cli/src/pkm_cli/api/dynamic_cli/command_parser.py:ArgumentDef.field_name'])
p('C80',
  'A new environment is complete, is recognized and changes nothing else',
  'Making a virtual environment at a path where there is nothing yields exactly the files of an environment, whose names of the interpreter lead to the interpreter that was given; the directory is recognized as an environment by the package manager and by Python; where there is something already, or without an interpreter, nothing is changed; nothing that was there changes, and a failed attempt leaves nothing behind.',
  'all disks with files, directories and symbolic links, paths, and interpreters with their platform and version',
  'What is on the disk, the chains of symbolic links, and platform and version of the interpreter are unbounded; tests make one environment in an empty directory.',
  ['pkm/src/pkm/api/environments/environment_builder.py:EnvironmentBuilder.create', 'pkm/src/pkm/api/environments/environment_builder.py:PyVEnvConfiguration', 'pkm/src/pkm/api/environments/environment.py:Environment.is_venv_path', 'pkm/src/pkm/config/configfiles.py:WheelFileConfigIO'])
p('C81',
  'A new environment gets the newest installed Python that is allowed',
  'When an environment is made for a version specifier, its interpreter is one of those that are installed, the specifier allows its version, and no installed and allowed one is newer; an interpreter is chosen whenever one is allowed, and only then; which one does not depend on the order in which the machine is searched; every executable is listed once; interpreters that cannot be used are passed over; previews are chosen only if asked for.',
  'all machines: contents of PATH and of the configured directories, what each program answers when run, all specifiers, and all orders of the search',
  'The set of programs is iterated in an order that changes from process to process, and what is installed and what it prints is unbounded; tests see the interpreters of one machine.',
  ['pkm/src/pkm/api/environments/installed_pythons_locator.py:InstalledPythonsLocator.all_installed', 'pkm/src/pkm/api/environments/installed_pythons_locator.py:InstalledPythonsLocator.match', 'pkm/src/pkm/api/environments/installed_pythons_locator.py:_lookup_in_env_path', 'pkm/src/pkm/api/environments/installed_pythons_locator.py:_lookup_in_path', 'pkm/src/pkm/api/environments/environment_builder.py:EnvironmentBuilder.create_matching'])
p('C82',
  'A zoo has exactly the environments that were made in it and not deleted',
  'After any history of making and deleting environments in a zoo, installing into them and exporting their scripts, the environments that are listed and can be loaded are those that were made and not deleted since; making one fails iff there is one of that name, deleting one fails iff there is none; what is done with one environment leaves the others and everything outside the zoo as they are; an exported script is a copy of the script and is there as long as its environment; no name deletes anything but an environment.',
  'all disks with an empty directory for the zoo, all histories of operations, names, interpreters and files',
  'The histories are unbounded, and the names come from the user; tests make a few environments with usual names.',
  ['pkm/src/pkm/api/environments/environments_zoo.py:EnvironmentsZoo.create_environment', 'pkm/src/pkm/api/environments/environments_zoo.py:EnvironmentsZoo.delete_environment', 'pkm/src/pkm/api/environments/environments_zoo.py:EnvironmentsZoo.list', 'pkm/src/pkm/api/environments/environments_zoo.py:EnvironmentsZoo.load_environment', 'pkm/src/pkm/api/environments/environments_zoo.py:EnvironmentsZoo.export_script', 'pkm/src/pkm/api/environments/environments_zoo.py:EnvironmentsZoo.export_all_scripts', 'pkm/src/pkm/api/environments/environments_zoo.py:EnvironmentsZoo.load'])
p('C83',
  "A program of a package container runs its own package with the container's packages",
  "A script that a container puts into the environment runs the object that its package declares for it, taken from the container, and ends with its status; the container's directory comes before the environment's when modules are looked for; its programs are in PATH; a Python program of the environment that it starts has the same container; programs that are not started by a container see nothing of the containers.",
  'all containers, scripts, search paths, environment variables and chains of processes',
  'The programs run later, in processes that pkm does not control, with any environment variables; tests run one script in a clean environment.',
  ['pkm/src/pkm/api/environments/package_containers.py:_entrypoints_script', 'pkm/src/pkm/api/environments/package_containers.py:_register_container_script', 'pkm/src/pkm/api/environments/package_containers.py:_register_container_import_hook', 'pkm/src/pkm/api/environments/package_containers.py:PackageContainers._install', 'pkm/src/pkm/launchers/executables.py:Executables.generate_for_entrypoint'])
p('C84',
  'An application that was installed in a container is found by its name',
  "After installing an application in a container, its container is found by the application's name, holds the application in a version that was asked for, and installing it again does nothing; other packages and containers of the environment stay as they are; the containers that are listed are those that can be found; the plugins of a container are what was asked for in it besides the application.",
  'all sites, applications, versions and resolutions',
  'The statement is about every earlier content of the environment, in particular packages whose names are similar to that of the application.',
  ['pkm/src/pkm/api/environments/package_containers.py:PackageContainers.container_of', 'pkm/src/pkm/api/environments/package_containers.py:PackageContainers.containers', 'pkm/src/pkm/api/environments/package_containers.py:PackageContainers.install', 'pkm/src/pkm/api/environments/package_containers.py:PackageContainers._get_or_install', 'pkm/src/pkm/api/environments/package_containers.py:PackageContainers._wrapper_project', 'pkm/src/pkm/api/environments/package_containers.py:PackageContainer.containerized_package', 'pkm/src/pkm/api/environments/package_containers.py:PackageContainer.list_installed_plugins'])
p('C85',
  'A command works on the nearest context it can work on',
  'Without options a command works on the project, project group, environment or zoo (in this order) of the nearest directory, from the working directory upwards, that has one it can handle, and moving into directories that have none changes nothing; `-c DIR` means that directory and no other; `-g` means the environment of the running interpreter, in the site that was asked for; if there is none the command runs without a context or is refused. The tasks that run around a command are those of the project it works on.',
  'all directory trees, working directories, sets of contexts a command handles, and options',
  'The statement is about every nesting of projects, environments and groups on a disk.',
  ['pkm-cli/src/pkm_cli/utils/context.py:Context.run', 'pkm-cli/src/pkm_cli/utils/context.py:Context.of', 'pkm-cli/src/pkm_cli/utils/context.py:Context.lookup_project', 'pkm-cli/src/pkm_cli/utils/context.py:_ContextualCommand.execute', 'pkm-cli/src/pkm_cli/utils/context.py:_lookup_env', 'pkm-cli/src/pkm_cli/api/dynamic_cli/command_parser.py:Command.parent_by_path', 'pkm-cli/src/pkm_cli/api/dynamic_cli/command_parser.py:Command.__getattr__', 'pkm-cli/src/pkm_cli/main.py:main'])
p('C86',
  'Executing a command runs its parents around it',
  'Executing a command runs the functions of the words before it first, from the first to the last, and stops at the first that fails; what a word does after its yield is done after every command below it, whether that fails or not.',
  'all chains of commands, and everything that their functions do, with failures at any point',
  'The statement is about every nesting of commands and every failure.',
  ['pkm-cli/src/pkm_cli/api/dynamic_cli/command_parser.py:Command.execute', 'pkm-cli/src/pkm_cli/main.py:pkm_'])
p('C87',
  'Attached tasks run around their command, tasks run by name with their arguments',
  'If a project has a task for before or after a command, that file runs before or after it, and a command without such files runs as it is; `pkm run @name` runs the task of this name of the project or of an installed package, in the project, and passes its arguments as they are; PYTHONPATH is afterwards what it was.',
  'all commands, projects, module search paths, arguments and values of PYTHONPATH',
  'What Python finds by a name depends on every directory that it searches, and the arguments are any texts.',
  ['pkm-cli/src/pkm_cli/api/tasks/tasks_runner.py:TasksRunner.run_attached', 'pkm-cli/src/pkm_cli/api/tasks/tasks_runner.py:_Task._execute', 'pkm-cli/src/pkm_cli/api/tasks/tasks_runner.py:_get_attached_name', 'pkm-cli/src/pkm_cli/api/tasks/tasks_executor.py:TasksExecutor.execute', 'pkm-cli/src/pkm_cli/api/tasks/tasks_executor.py:_load_task', 'pkm-cli/src/pkm_cli/api/tasks/tasks_executor.py:pkm_run', 'pkm-cli/src/pkm_cli/main.py:pkm_run', 'pkm-cli/src/pkm_cli/main.py:main'])
p('C88',
  '`pkm install` installs the packages it is given',
  '`pkm install` binds the packages to the repository that was named, removes them first if that was asked for, and installs them in the project or environment it works on; a command that is refused changes nothing.',
  'all options and lists of packages',
  'The statement is about every combination of options and contexts.',
  ['pkm-cli/src/pkm_cli/main.py:pkm_install'])
p('C89',
  'A conda channel offers what it has for the platform, and the best artifact of it',
  'Asked for a package, a conda channel offers exactly the versions that its subdirectory for the platform has and the request allows, newest first; of their artifacts the one is installed whose dependencies exist, that is made for this platform and Python, and that has the highest build number among the best; dependencies mean what conda means by them, and one on a build is answered with that build.',
  'all contents of a channel, requests, platforms, interpreters and texts of dependencies',
  'Channels have tens of thousands of artifacts whose dependencies are written in a language of their own.',
  ['repositories/conda-pkm-repo/src/conda_pkm_repo/conda_channel_subdir.py:CondaChannelSubdir', 'repositories/conda-pkm-repo/src/conda_pkm_repo/conda_channel_subdir.py:subdir_of', 'repositories/conda-pkm-repo/src/conda_pkm_repo/conda_channel_subdir.py:_parse_specifier', 'repositories/conda-pkm-repo/src/conda_pkm_repo/conda_channel_subdir.py:CondaPackageArtifact.compatibility_tag', 'repositories/conda-pkm-repo/src/conda_pkm_repo/conda_channel_subdir.py:CondaSubdirPackage._best_artifact_for', 'repositories/conda-pkm-repo/src/conda_pkm_repo/conda_repo.py:CondaRepository._do_match'])
p('C90',
  'Installing a conda artifact installs its files, verified and recorded, or nothing',
  "The installation of a conda artifact changes nothing before every file that the artifact lists was found with the listed hash. When it succeeds every file is at its place in the environment, modules in the directory of the environment's version of Python, with the content of the artifact; RECORD has exactly these files with the hashes of their contents; nothing else is changed. When it fails the environment is as before.",
  'all artifacts, environments, hash functions and points of failure',
  'The files of the artifact are moved, copied over existing ones and rolled back; any file can be missing, changed or in the way.',
  ['repositories/conda-pkm-repo/src/conda_pkm_repo/conda_distribution.py:CondaDistribution.install_to', 'pkm/src/pkm/utils/files.py:CopyTransaction'])
p('C91',
  'The torch repository offers the builds that fit the machine, best first',
  'Of the packages of the torch index exactly those are offered that were built for a version of CUDA that the installed driver supports, and, if allowed, those built without CUDA. Builds for CUDA come before those without, newer versions before older ones, and among the builds of a version those for newer CUDA come first. It can be used on a machine without a driver, and odd versions in the index do not disturb it.',
  'all contents of the index, tables of compatibility, drivers and platforms',
  'Labels are free texts, compared partly as texts and partly as numbers; tests use few labels.',
  ['repositories/download-torch-pkm-repo/src/download_torch_pkm_repo/torch_repository.py:DownloadTorchRepository', 'repositories/download-torch-pkm-repo/src/download_torch_pkm_repo/torch_repository.py:DownloadTorchRepositoryBuilder', 'repositories/download-torch-pkm-repo/src/download_torch_pkm_repo/cuda_compatibility.py:CudaCompatibilityTable'])
p('C92',
  'The table of CUDA versions is read from the page of NVIDIA as it is there, or kept',
  'The rows of the table of the page become the table of compatibility, all of them and nothing else, and are saved. When the page cannot be had or read, in whole or in one row, the saved table is used and stays as it is.',
  'all pages, as sequences of tags and texts, and all saved tables',
  'The page belongs to somebody else and changes; a test has one page.',
  ['repositories/download-torch-pkm-repo/src/download_torch_pkm_repo/cuda_compatibility.py:CudaCompatibilityTable.load', 'repositories/download-torch-pkm-repo/src/download_torch_pkm_repo/utils/html.py:Element', 'repositories/download-torch-pkm-repo/src/download_torch_pkm_repo/utils/html.py:BasicDomParser'])
p('C93',
  'A package that environments share is moved once and linked, whole',
  'When a package with a compatibility tag is installed, its modules and scripts are afterwards in the shared directory with their contents, and the environment has a link to the modules, the scripts patched for its interpreter, the entry points, the metadata and a RECORD of all that was made there. Nothing else in the environment or elsewhere changes, unlinking removes what the link made and leaves the shared files, and other environments can link the package too.',
  'all environments, installed packages, shared directories and contents of files',
  'Which files a package records, where and under which names is up to its author; a failure in the middle needs a particular file system.',
  ['pkm/src/pkm/repositories/shared_pacakges_repo.py:_SharedPackage.install_to', 'pkm/src/pkm/repositories/shared_pacakges_repo.py:_move_to_shared', 'pkm/src/pkm/repositories/shared_pacakges_repo.py:_link_shared', 'pkm/src/pkm/repositories/shared_pacakges_repo.py:_SharedPackage._shared_artifact_for'])
p('C94',
  'The scripts of an environment are run by its interpreter',
  'A script of a wheel that asks for python, and the script of every entry point, is run by the interpreter of the environment it was installed to, with the arguments its author gave, and can be executed; everything behind the first line, and every other script, is unchanged. On Windows a launcher of the right kind is made.',
  'all scripts, entry points, paths of interpreters and platforms',
  'The first line is free text, and paths of environments are chosen by users; tests use one of each.',
  ['pkm/src/pkm/launchers/executables.py:Executables.patch_shabang_for_interpreter', 'pkm/src/pkm/launchers/executables.py:Executables.generate', 'pkm/src/pkm/launchers/executables.py:Executables.generate_for_entrypoint', 'pkm/src/pkm/launchers/__init__.py:build_windows_script_launcher'])
p('C95',
  'Listeners hear what happens and do not change it',
  'A program does the same and ends in the same way whether or not anybody listens to its operations. A listener for an operation is told when it begins and once when it ends, with the exception if there was one, nested like the operations; a listener for the events of an operation hears all of them and no others. Listening for a time leaves the listeners as they were.',
  'all programs of nested operations and events, all sets of listeners and all points where something raises',
  'Nesting, failures and registrations combine without bound; tests have a few.',
  ['pkm/src/pkm/utils/monitors.py:MonitoredOperation', 'pkm/src/pkm/utils/monitors.py:_Monitor.listen', 'pkm/src/pkm/utils/monitors.py:_Monitor.add_listeners', 'pkm/src/pkm/utils/monitors.py:_Monitor.notify', 'pkm/src/pkm/utils/monitors.py:MonitoredOperation.with_async'])
p('C96',
  'A wheel is installed as it says',
  'Installing a wheel is refused, with nothing changed, unless it has one dist-info directory, a supported format and a RECORD that signs all its files. Otherwise every file of it goes to the place for its kind, every script entry point gets a launcher, every module is compiled, nothing else changes, and RECORD lists what came, so that uninstalling leaves no new file. A failing installation leaves everything as it was.',
  'all wheels, all trees of files of the target and of the wheel, all points of failure',
  'The shapes of wheels and of what is installed already combine without bound, and each place of a failure leaves another state; tests install a few wheels into empty environments.',
  ['pkm/src/pkm/api/distributions/wheel_distribution.py:WheelDistribution.install_to', 'pkm/src/pkm/api/distributions/wheel_distribution.py:WheelDistribution.install_extracted_wheel', 'pkm/src/pkm/api/distributions/wheel_distribution.py:_find_dist_info', 'pkm/src/pkm/api/distributions/wheel_distribution.py:_verify_records'])
p('C97',
  'Executing a plan: failures, schedules and crashes',
  "Executing a plan always ends. If it returns, every operation was done and nothing else changed. If it raises, the exception is that of the first operation of the plan that failed, nothing goes on behind the caller's back, and at every moment each package is as it was or as its operation makes it, so that a failure or a crash loses no package.",
  'all plans, all schedules of the caller and the workers, all operations that fail, all points at which the program is killed',
  'The number of schedules grows exponentially with the operations, and a failure may meet the others at any of their phases; a test sees one schedule.',
  ['pkm/src/pkm/api/packages/package_installation.py:InstallationPlan.execute', 'pkm/src/pkm/api/packages/package_installation.py:_PackageOperationTask.execute', 'pkm/src/pkm/utils/promises.py:Promise.execute', 'pkm/src/pkm/utils/promises.py:await_all_promises_or_cancel'])
p('C98',
  'Plans executed inside plans do not get stuck',
  'An operation of a plan may execute a plan of its own, to install the requirements of a build or the packages of an application. Whatever the number of such operations, executing the outer plan ends.',
  'all plans, all sizes of the inner plans, all numbers of workers, all schedules',
  'Whether the workers wait for each other depends on the schedule and on the number of processors of the machine; a test on a machine with more workers than builds never sees it.',
  ['pkm/src/pkm/api/packages/package_installation.py:InstallationPlan.execute', 'pkm/src/pkm/api/pkm.py:Pkm', 'pkm/src/pkm/build/external_builders.py:build_wheel'])
p('C99',
  'The cache of built sources',
  'Whoever asks the cache for the METADATA or the wheel of a source distribution gets it whole and built from that archive, or the exception of the build. What was built is not built again. Users for other packages, versions or environments change nothing of this, and a crash leaves nothing in the cache that later uses would take for good.',
  'all histories of uses, all numbers of users at once, all interleavings of their accesses to the disk, all points at which users are killed',
  'Whether a user sees a file that another has opened and not written, or one that is being removed, depends on the interleaving; a test runs one use after the other.',
  ['pkm/src/pkm/build/source_build_cache.py:SourceBuildCache._get_or_build', 'pkm/src/pkm/build/source_build_cache.py:SourceBuildCache.get_or_build_wheel', 'pkm/src/pkm/build/source_build_cache.py:SourceBuildCache.get_or_build_meta', 'pkm/src/pkm/api/distributions/source_distribution.py:SourceDistribution.install_to'])
p('C100',
  'The explanation of a failed resolution',
  'The explanation of a failed resolution can be followed line by line: lines are numbered 0, 1, 2, ...; every number that a line gives is that of a line above it which says what the line takes it to say; every line follows from the facts it names and from what is above it; the last line is the conclusion; all facts the failure rests on are named, and no others.',
  'all derivations, of any depth and width',
  'Which of nine kinds of lines is written depends on the shape of the whole derivation and on what was written before; tests look at one or two failures.',
  ['pkm/src/pkm/resolution/pubgrub.py:Incompatibility.report', 'pkm/src/pkm/resolution/pubgrub.py:Incompatibility.is_simple', 'pkm/src/pkm/resolution/pubgrub.py:Incompatibility.__eq__'])
p('C101',
  'The display shows the pieces of running work',
  'While a piece of output is shown, the display draws it; when it is no longer shown, the display removes it; changes of its text appear; and the screen never waits for work that has ended or shows pieces nobody put there.',
  "every number of threads that show pieces, every order of their steps and the refresher's, every moment a notification is given",
  'The refresher runs in its own thread; a test sees a few schedules, and the ones that lose a piece or freeze the screen need particular orders of two or three steps',
  ['pkm-cli/src/pkm_cli/display/display.py:_LiveOutput.show', 'pkm-cli/src/pkm_cli/display/display.py:_LiveOutput._refresh_loop'])
p('C102',
  'What is reported of programs that are run',
  'When another program is run, every line of its output is reported once, in order, and then its exit code, which is also returned; nothing the program did not write is reported; the run ends when the program has ended.',
  'all outputs, in all pieces in which they can be written; all orders of writing, closing, ending and reading; all ways to decode',
  'How output arrives in pieces and when a program ends relative to a reading is decided by the operating system; a test sees one of the orders.',
  ['pkm/src/pkm/utils/processes.py:monitored_run', 'pkm/src/pkm/utils/processes.py:ProcessExecutionOutputLineEvent', 'pkm/src/pkm/utils/processes.py:ProcessExecutionExitEvent', 'pkm/src/pkm/api/environments/environment.py:Environment.run_proc'])
p('C103',
  'Installed packages find what they require',
  'After dependencies are resolved and the plan is executed, everything that the resolved packages require, with the extras by which they are required and with overrides in the place of what they override, is installed, in a version that the requirement allows.',
  'all repositories, requirements, overrides and extras; all choices of the solver; all targets and all orders in which the operations of the plan run',
  'It is a statement about resolver, plan and execution together: about every package graph and every order of the operations, while a test installs one graph.',
  ['pkm/src/pkm/api/packages/package_installation.py:PackageInstallationTarget.install', 'pkm/src/pkm/api/packages/package_installation.py:PackageInstallationTarget.plan_installation', 'pkm/src/pkm/api/packages/package_installation.py:InstallationPlan.execute', 'pkm/src/pkm/resolution/dependency_resolver.py:resolve_dependencies'])
p('C104',
  'What a package says does not depend on what it was asked before',
  'Every question for the dependencies of a package is answered, with those that the best artifact for the environment declares and that apply, as if the package had not been asked before and were not asked by others at the same time; an artifact is retrieved, and its metadata read, once; a failure is not remembered.',
  'all packages and artifacts, all results of retrieving and reading them, all lists of questions of any number of threads, and all orders of their steps',
  'The answers come from dictionaries that fill up as the resolver and threads ask: the property is about every history and every interleaving, and a test makes a new package.',
  ['pkm/src/pkm/api/packages/standard_package.py:AbstractPackage.dependencies', 'pkm/src/pkm/api/packages/standard_package.py:AbstractPackage._unfiltered_dependencies', 'pkm/src/pkm/api/packages/standard_package.py:AbstractPackage._get_or_retrieve_artifact_path'])
p('C105',
  'Uninstalling takes away what is not needed any more and breaks nothing',
  'Uninstalling packages by name removes exactly what the remaining user requests do not need, directly or through what is installed, with extras; what stays keeps its version, a named package that stays loses its user request, every requirement of what stays that was met is met afterwards, and the names returned are those that are not installed afterwards.',
  'all sites of any number of packages with any requirements between them, all lists of names to remove, all orders of the steps of the resolver',
  'The property joins the resolver, names, extras and the plan over every dependency graph; tests cover a few small sites.',
  ['pkm/src/pkm/api/packages/package_installation.py:PackageInstallationTarget.uninstall', 'pkm/src/pkm/api/packages/package_installation.py:_RemovalRepository', 'pkm/src/pkm/api/packages/package_installation.py:_RemovalPackage', 'pkm/src/pkm/api/packages/package_installation.py:_UserRequestPackage'])
p('C106',
  'Installing keeps what is installed, and updating updates it',
  'Installing dependencies leaves every installed package in its version and store mode, unless it is to be updated, so that what it met stays met; a package that is asked for without a version, and is new or to be updated, is installed in the newest minor release; a store mode that is asked for is used; however the names are spelled, and without breaking what the user requested before.',
  'all sites, repositories and lists of dependencies and names to update, all answers and orders of the resolver',
  'The property joins the resolver, the spelling of names and the plan over all sites and repositories; tests use names without dashes and sites with nothing else installed.',
  ['pkm/src/pkm/api/packages/package_installation.py:PackageInstallationTarget.install', 'pkm/src/pkm/api/packages/package_installation.py:PackageInstallationTarget.plan_installation', 'pkm/src/pkm/api/packages/package_installation.py:_InstallationRepository.match', 'pkm-cli/src/pkm_cli/main.py:install', 'pkm-cli/src/pkm_cli/controllers/self_controller.py:SelfController.update', 'pkm/src/pkm/api/environments/package_containers.py:PackageContainers'])
p('C107',
  'The message about packages in work tells of exactly the packages in work',
  "While packages are installed, updated or removed at the same time, in any number and any order of beginnings and ends, the message 'Handling Packages' is on the display exactly if at least one of them is in work, once, and names the packages that are in work: the three that began first and how many others there are. No operation fails or waits for ever because of the message.",
  'all assignments of packages to operations, all interleavings of the steps of any number of operations',
  'The message is shared by all threads under a lock; tests see a few schedules only, and what is printed depends on the order of beginnings and ends.',
  ['pkm-cli/src/pkm_cli/cli_monitors.py:with_package_install', 'pkm-cli/src/pkm_cli/display/spinner.py:Spinner'])
p('C108',
  "When installing has to change what is installed, the user's requests stay met and nothing else stays",
  'If new packages do not fit to what is installed, installing may change installed packages. Afterwards the site has exactly the packages that were selected, in the selected versions, and each of them is requested by the user or needed by one that is; every package that the user had requested is still there with its request; the new ones are there; requirements of all of them are met; forced replacements of dependencies are respected.',
  'all sites, repositories, lists of dependencies, updates, orders of solving and of executing the plan',
  'The second attempt only happens for particular combinations of installed packages and repositories, and what it removes or changes depends on all of them.',
  ['pkm/src/pkm/api/packages/package_installation.py:PackageInstallationTarget.plan_installation', 'pkm/src/pkm/api/packages/package_installation.py:_InstallationRepository', 'pkm/src/pkm/api/packages/package_installation.py:InstallationPlan.execute'])
p('C109',
  'The help of a command lists what the command accepts',
  'The help lists every option that the user can give and no other, every positional argument and every sub-command, with names, hints and help texts. The usage mentions all of them, encloses what can be left out in square brackets, joins only flags that can be typed together, and is printed for every command.',
  'all commands: lists of options, flags, fields, groups, positional arguments and sub-commands, and all their names and texts',
  'Which options are listed, joined or grouped depends on all names of a command; commands are also generated from methods and by extensions, so the tests cannot list them.',
  ['pkm-cli/src/pkm_cli/api/dynamic_cli/help_generator.py:generate_usage', 'pkm-cli/src/pkm_cli/api/dynamic_cli/help_generator.py:generate_arguments_overview', 'pkm-cli/src/pkm_cli/api/dynamic_cli/help_generator.py:_create_option_usage_tokens'])
p('C110',
  'The report about an environment tells the truth about its packages',
  'The report lists every installed package once (or every one that the user requested) with its version, says whether the user requested it, otherwise which packages require it, calls it an orphan exactly if nothing needs it, and warns about every dependency that is not met.',
  'all environments: sets of installed packages, containers, dependencies that apply or do not, and requests',
  'What is said about a package depends on all other packages of the environment; the tests never run the report.',
  ['pkm-cli/src/pkm_cli/reports/environment_report.py:EnvironmentReport.display', 'pkm-cli/src/pkm_cli/reports/environment_report.py:_PackageInfo.display', 'pkm/src/pkm/api/packages/site_packages.py:SitePackages.find_orphan_packages'])
p('C111',
  'Unpacking an archive stays inside of the directory and lays out its files',
  'Unpacking a wheel or a source distribution into a new directory changes nothing outside of it, whatever the members are called and also if it fails; afterwards the directory has exactly the files of the archive at their names, with the data of the last member of each name. Which archives can be unpacked is decided by the end of the file name, also for packages given by a URL.',
  'all archives: any members, names, links and orders, any state of the disk around the directory',
  'An archive is made by someone else, so its names are arbitrary; the tests unpack well-formed archives only.',
  ['pkm/src/pkm/utils/archives.py:extract_archive', 'pkm/src/pkm/repositories/url_repository.py:UrlPackage', 'pkm/src/pkm/utils/http/http_client.py:HttpClient._resource_files_of'])
p('C112',
  'A new project says what was answered',
  '`pkm new project` makes a directory with the name of the project, in it a pyproject.toml that reads as the name, version, description, readme, required Python, author and license that were answered, the readme and a package with a main module, and changes nothing else; where the project has a pyproject.toml already it fails and changes nothing. The configuration of a new zoo or group reads as answered too.',
  'every set of answers, every disk and target directory',
  'Tests render the template with a few harmless answers; the statement is about every answer, with the characters that mean something in TOML among them, and about every disk.',
  ['pkm-cli/src/pkm_templates/project/render.py: setup', 'pkm-cli/src/pkm_templates/project/{{project_name}}/pyproject.toml.tmpl', 'pkm-cli/src/pkm_templates/envzoo/render.py: setup', 'pkm-cli/src/pkm_cli/api/templates/template_runner.py: Template.execute'])
p('C113',
  'pkm new offers the templates there are',
  '`pkm new` without a name offers every installed template that is not part of another one, once for each, under its dotted name, and nothing else; with the name of an installed template it is the command of exactly this template; with the beginning of names it offers those that begin so.',
  'every tree of installed templates, every directory of modules, working directory and argument',
  'Tests list the shipped templates; the statement is about every tree of templates at every depth, and about every working directory the command is run in.',
  ['pkm-cli/src/pkm_cli/main.py: pkm_new', 'pkm-cli/src/pkm_cli/api/templates/template_runner.py: TemplateRunner.templates_in_namespace, TemplateRunner.load_template'])
p('C114',
  'The home directory of pkm keeps what is in it',
  "The home directory is the one that PKM_HOME names, and otherwise the directory pkm in the directory of the user's data. Whatever pkm does with it, settings and other files in it stay as they are: only missing directories and missing settings are made, the settings as shipped. Cleaning the caches empties them and touches nothing else, and afterwards they can be used again: a workspace that is given out is a directory.",
  'every start environment, every disk, every history of uses of the home directory with failures and cleanings among them',
  'Tests run in one prepared home; the statement is about every disk, what is in the way on it, and every order of uses, failures and cleanings.',
  ['pkm/src/pkm/api/pkm.py: Pkm, _default_home_directory, pkm_home', 'pkm/src/pkm/utils/files.py: mkdir'])
p('C115',
  'The build hooks of pkm return what they built',
  'A build hook of pkm (PEP 517, PEP 660) returns the name of the wheel, source distribution or metadata directory that it made in the given directory, and changes nothing else there. The prepared metadata is, file by file, the metadata of the wheel. The hooks work wherever the home directory of pkm is, and make none where there is none.',
  'every project that pkm builds, every hook, target directory and home directory',
  'Tests build a sample project with each hook; the statement relates two hooks for every project and is about every environment they are called in.',
  ['pkm/src/pkm/api/buildsys.py: build_wheel, build_sdist, build_editable, prepare_metadata_for_build_wheel, prepare_metadata_for_build_editable, buildsys_pkm', 'pkm/src/pkm/build/pkm_builders.py: build_wheel, build_sdist'])
p('C116',
  'Saving an edited TOML file keeps what was not edited',
  'A TOML file that pkm loads, edits and saves is afterwards the same file in which exactly the edit has been done. Lines that are kept have their comments, blanks and spellings as before, a changed line keeps all that stands before its value, a removed line or table takes only its own comments with it, added lines and tables are written in one fixed form, and the comments at the start and the end of the file stay. If nothing is edited, nothing changes.',
  'every file, every edit of its data: values changed, lines and tables removed, added and reordered, in any number and combination',
  'Tests save one sample; the statement is about every layout of comments, blanks, keys and values, and every combination of edits.',
  ['pkm/src/pkm/config/toml.py: loads, _StyleSheet, _Reader, _Writer', 'pkm/src/pkm/config/configfiles.py: TomlConfigIO.write'])
p('C117',
  'A function called from the command line gets the arguments as written',
  'Calling a function with `CliMethodArgs.parse(words).invoke(function)`, which is made for the tasks of a project, passes every word on: words without a name go to the parameters in order, `name=value`, `--name=value` and `--name` to the parameter of that name (the last one counts), other parameters have their defaults, and each value is what the annotation of its parameter makes of the text. If a word does not fit, or a value is missing or not accepted, the function is not called.',
  'every function signature, every list of words',
  'Tests call a few functions with fitting words; the statement is about every signature and every order, number and form of words.',
  ['pkm-cli/src/pkm_cli/utils/method_clis.py: CliMethodArgs.parse, CliMethodArgs.invoke'])
with open(os.path.join(os.path.dirname(os.path.abspath(__file__)),'..','properties.jsonl'),'w') as f:
    for x in P: f.write(json.dumps(x)+'\n')
print(len(P))
