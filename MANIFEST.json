{
 "claims": [
  {
   "property": "C01",
   "status": "proved",
   "theorems": [
    "Pkm.version_lt_irrefl",
    "Pkm.version_lt_trans",
    "Pkm.version_lt_asymm",
    "Pkm.version_lt_kinds",
    "Pkm.std_lt_by_epoch",
    "Pkm.std_lt_by_release",
    "Pkm.std_lt_by_suffix"
   ],
   "note": "All versions of all three kinds."
  },
  {
   "property": "C02",
   "status": "partial",
   "theorems": [
    "Pkm.version_trichotomy_violated",
    "Pkm.version_trichotomy_violated_url",
    "Pkm.std_trichotomy_iff",
    "Pkm.version_trichotomy_partial"
   ],
   "note": "The code violates trichotomy (local labels, URLs). std_trichotomy_iff characterises exactly when it holds for standard versions; URLs are ordered if both or none name how they are fetched."
  },
  {
   "property": "C03",
   "status": "partial",
   "theorems": [
    "Pkm.version_eq_equivalence",
    "Pkm.std_eq_iff",
    "Pkm.std_padding",
    "Pkm.std_eq_lt_congr",
    "Pkm.version_eq_lt_congr_partial",
    "Pkm.version_eq_lt_congr_violated"
   ],
   "note": "Equivalence and padding hold for all; congruence with < fails for URL versions with different raw fields, proved for the rest."
  },
  {
   "property": "C04",
   "status": "partial",
   "theorems": [
    "Pkm.version_hash_violated",
    "Pkm.version_hash_partial",
    "Pkm.named_hash",
    "Pkm.url_hash_violated"
   ],
   "note": "The hash contract fails for explicit epoch 0 and for URLs; proved when the epochs are both written or both absent."
  },
  {
   "property": "C05",
   "status": "proved",
   "theorems": [
    "Pkm.version_text_round_trip",
    "Pkm.version_text_normalises",
    "Pkm.version_text_injective",
    "Pkm.version_text_other_tag"
   ],
   "note": "All versions in normal form; the second theorem covers every text that parses to a standard version."
  },
  {
   "property": "C06",
   "status": "partial",
   "theorems": [
    "Pkm.bump_release_greater",
    "Pkm.bump_pre_violated",
    "Pkm.bump_greater_partial",
    "Pkm.bump_needs_three"
   ],
   "note": "bump(major|minor|patch) proved; bump(a|b|rc) of a pre-release can go backwards (witness)."
  },
  {
   "property": "C07",
   "status": "partial",
   "theorems": [
    "Pkm.intersect_exact_conj_partial",
    "Pkm.intersect_exact_region_partial",
    "Pkm.intersect_violated_post",
    "Pkm.intersect_violated_local",
    "Pkm.intersect_violated_named",
    "Pkm.intersect_violated_exclusions"
   ],
   "note": "The full claim is false of the code (four witnesses); proved exact on the two closed fragments Conj and Region for candidate versions."
  },
  {
   "property": "C08",
   "status": "partial",
   "theorems": [
    "Pkm.union_exact_partial",
    "Pkm.union_exact_apart_partial",
    "Pkm.union_violated",
    "Pkm.union_violated_same_min",
    "Pkm.union_mutates_argument_violated",
    "Pkm.union_keeps_argument_partial"
   ],
   "note": "False for nested ranges and the argument is mutated; proved for staggered ranges, matches, and separated unions."
  },
  {
   "property": "C09",
   "status": "partial",
   "theorems": [
    "Pkm.inverse_exact_conj_partial",
    "Pkm.inverse_exact_region_partial",
    "Pkm.inverse_inverse_partial",
    "Pkm.difference_exact_region_partial",
    "Pkm.difference_exact_match_partial",
    "Pkm.inverse_violated",
    "Pkm.difference_violated"
   ],
   "note": "False for post releases and for exclusion lists; proved on the fragments."
  },
  {
   "property": "C10",
   "status": "partial",
   "theorems": [
    "Pkm.allows_any_sound_conj_partial",
    "Pkm.allows_any_sound_region_partial",
    "Pkm.allows_all_sound_conj_partial",
    "Pkm.allows_all_sound_region_partial",
    "Pkm.equal_specifiers_allow_same",
    "Pkm.allows_any_violated",
    "Pkm.allows_all_violated",
    "Pkm.allows_all_none"
   ],
   "note": "False for named versions and post releases; proved on the fragments."
  },
  {
   "property": "C100",
   "status": "partial",
   "theorems": [
    "Pkm.report_explains_partial",
    "Pkm.report_explains_if_numbered",
    "Pkm.report_convinces",
    "Pkm.report_fact",
    "Pkm.report_text_violated",
    "Pkm.report_again_violated"
   ],
   "note": "Proved for every derivation in which no set of terms is derived twice; and for others whenever the printed numbers are 0, 1, 2, ... and no text stands for a number, when also the named facts alone force the conclusion. Missing, because false: if something is used twice, the text of a line can stand in place of its number, lines vanish and numbers occur twice."
  },
  {
   "property": "C101",
   "status": "partial",
   "theorems": [
    "Pkm.Live.display_no_strangers",
    "Pkm.Live.display_never_blocks",
    "Pkm.Live.display_shows_partial",
    "Pkm.Live.display_draws_partial",
    "Pkm.Live.display_lost_violated",
    "Pkm.Live.display_stays_violated",
    "Pkm.Live.display_stale_violated",
    "Pkm.Live.display_frozen_violated"
   ],
   "note": "The display only shows pieces that were begun and no thread can be stuck for ever. If updates of the list of pieces do not overlap, what is shown is what is in progress, and with a notification the refresher draws it within four of its steps. The full statement fails: overlapping updates lose pieces or keep ended ones, a notification given while the refresher draws is lost, and a list that is empty for a moment stops the refresher without anybody waking it again."
  },
  {
   "property": "C102",
   "status": "partial",
   "theorems": [
    "Pkm.proc_reports",
    "Pkm.proc_strips",
    "Pkm.proc_reports_so_far",
    "Pkm.proc_raises",
    "Pkm.proc_ends",
    "Pkm.proc_waits_for",
    "Pkm.proc_blanks_violated",
    "Pkm.proc_orphan_violated",
    "Pkm.proc_left_violated"
   ],
   "note": "Proved for every schedule: all lines once and in order (with blanks around them removed), then the code, which is the program's; the run ends when the program has ended and its output is closed; it waits only while the output is open and all lines were reported. The rest of the statement fails: empty lines that were never written are reported between the closing of the output and the end of the program; a program in the background that keeps the output open keeps the run from ending; output that cannot be decoded ends the run while the program goes on."
  },
  {
   "property": "C103",
   "status": "partial",
   "theorems": [
    "Pkm.install_consistent_partial",
    "Pkm.install_closed_partial",
    "Pkm.install_found_partial",
    "Pkm.install_spelling_violated"
   ],
   "note": "Composition of the models of the resolver, of names and of plans. Proved for all graphs in which no package is named in two spellings that differ by more than case: all requirements of resolved packages are installed in some version (`install_closed_partial`); in an allowed version, with extras, for exact specifier operations and versions whose neighbours share no dependency (`install_consistent_partial`), and for pkm's own versions and specifiers when the preferred versions are compatible (`install_found_partial`). It fails for two spellings of one name (`install_spelling_violated`): `a-b<2` and `a_b>=2` are both \"solved\"."
  },
  {
   "property": "C104",
   "status": "partial",
   "theorems": [
    "Pkm.asked_right",
    "Pkm.asked_same_partial",
    "Pkm.asked_retrieved_once",
    "Pkm.asked_read_once_partial",
    "Pkm.asked_replies",
    "Pkm.asked_failure_forgotten",
    "Pkm.asked_environment_violated",
    "Pkm.asked_again_violated",
    "Pkm.asked_threads_violated"
   ],
   "note": "Proved for every history and interleaving: replies come in order and are right for some environment with the same best artifact (`asked_right`); they are those of an unused package if retrieving is steady and the metadata does not depend on the environment, as of wheels (`asked_same_partial`); each thread retrieves an artifact at most once with success; it reads its metadata once if that is not empty; each question takes at most seven steps; failures are not remembered. It fails for source distributions, which answer with the dependencies for the first environment asked about (`asked_environment_violated`), and for empty lists, which are read again each time (`asked_again_violated`), and several threads at once each retrieve and read the same artifact (`asked_threads_violated`)."
  },
  {
   "property": "C105",
   "status": "partial",
   "theorems": [
    "Pkm.uninstall_exact_partial",
    "Pkm.uninstall_unbroken_partial",
    "Pkm.uninstall_blocked_violated",
    "Pkm.uninstall_dotted_violated"
   ],
   "note": "Proved, with the resolver inside, for all sites that fit together: `uninstall` succeeds and keeps exactly what is needed. It fails for sites where a requirement is not met already (nothing can be uninstalled) and for requirements that spell a dotted name with `-`. Missing: post releases and local versions, and a proof that names are removed when the user spells them differently (they are not: C53)."
  },
  {
   "property": "C106",
   "status": "partial",
   "theorems": [
    "Pkm.install_keeps_partial",
    "Pkm.update_newest_partial",
    "Pkm.update_ignored_violated",
    "Pkm.update_breaks_violated",
    "Pkm.store_mode_ignored_violated"
   ],
   "note": "Proved, with the resolver inside, for the first attempt (adding packages): what is not to be updated stays; what is asked for without a version and is new, or listed in `updates` by its key, is installed in the newest minor release. It fails for the commands, which list names as written: for names with dashes, dots or capitals nothing is updated (proved in general) and store modes are ignored; and an update breaks packages that the user requested. Missing: the second attempt (C54)."
  },
  {
   "property": "C107",
   "status": "partial",
   "theorems": [
    "Pkm.handling_shown",
    "Pkm.handling_once",
    "Pkm.handling_never_blocks",
    "Pkm.handling_oldest_partial",
    "Pkm.handling_end_lines",
    "Pkm.handling_stale_violated",
    "Pkm.handling_oldest_violated"
   ],
   "note": "Every schedule; one step is one statement, so the lock is part of what is proved. The names are in the order of the beginnings if no two operations have the same package. Violated: the spinner is shown before its text is set, so the start is told of nothing or of the package that ended last; with equal packages the order is lost."
  },
  {
   "property": "C108",
   "status": "partial",
   "theorems": [
    "Pkm.rework_leaves_selected",
    "Pkm.rework_keeps_requests",
    "Pkm.rework_meets_partial",
    "Pkm.no_overriding",
    "Pkm.rework_unlisted_violated",
    "Pkm.rework_override_violated"
   ],
   "note": "Whatever the resolver selects, the site has exactly this afterwards and every request is kept. That requirements are met is proved where the preferred versions fit (as C103). Violated: overrides are ignored by the second attempt, and a requested package that the repository does not have makes it fail."
  },
  {
   "property": "C109",
   "status": "partial",
   "theorems": [
    "Pkm.Cli.help_lists_accepted",
    "Pkm.Cli.help_lists_all",
    "Pkm.Cli.usage_fails_iff",
    "Pkm.Cli.usage_mentions_partial",
    "Pkm.Cli.usage_says_required",
    "Pkm.Cli.usage_groups",
    "Pkm.Cli.usage_mentions_arguments",
    "Pkm.Cli.overview_mentions",
    "Pkm.Cli.combined_flags_accepted",
    "Pkm.Cli.usage_fails_violated",
    "Pkm.Cli.exclusive_joined_violated",
    "Pkm.Cli.field_flag_violated",
    "Pkm.Cli.help_unlisted_violated",
    "Pkm.Cli.shared_name_violated",
    "Pkm.Cli.method_usage_violated"
   ],
   "note": "Which options are listed is settled, and exactly when the usage fails. Violated: the usage fails for an option that takes a value and has a long name only; flags that exclude each other are shown as if they could be joined; flags among fields are shown with the wrong sign; -h is not listed; a shared name is shown for the option that does not have it."
  },
  {
   "property": "C11",
   "status": "partial",
   "theorems": [
    "Pkm.comma_is_conjunction_partial",
    "Pkm.comma_violated",
    "Pkm.clauses_conj_partial",
    "Pkm.clauses_region_partial",
    "Pkm.clauses_violated"
   ],
   "note": "Any number and order of clauses without !=X.*, or without !=v; mixing them is a witness of failure."
  },
  {
   "property": "C110",
   "status": "partial",
   "theorems": [
    "Pkm.report_lists",
    "Pkm.report_reason_partial",
    "Pkm.report_missing_partial",
    "Pkm.report_missing_unmet",
    "Pkm.report_lines",
    "Pkm.report_section",
    "Pkm.report_orphan_partial",
    "Pkm.report_version_violated",
    "Pkm.report_container_violated",
    "Pkm.report_cycle_violated",
    "Pkm.report_kept_violated"
   ],
   "note": "What is listed, the reasons and the missing dependencies are settled for every environment. Violated: a dependency in a version that is not allowed is not reported; containers are left out, so what they require is called an orphan and they are called missing; packages that require each other are no orphans; a package is called an orphan although pkm keeps it."
  },
  {
   "property": "C111",
   "status": "partial",
   "theorems": [
    "Pkm.zip_confined",
    "Pkm.tar_confined_partial",
    "Pkm.extract_lays_out",
    "Pkm.zip_done_iff",
    "Pkm.extract_unsupported_iff",
    "Pkm.url_data_named",
    "Pkm.url_artifact_named",
    "Pkm.tar_escapes_violated",
    "Pkm.archive_unsupported_violated",
    "Pkm.zip_merged_violated"
   ],
   "note": "Zip files and wheels are confined for every content. Violated: tar files escape the directory with .., absolute names and links; .tgz, .tar.xz, names in capital letters and URLs with the name in the query are refused; two members of a zip file may become one file."
  },
  {
   "property": "C112",
   "status": "partial",
   "theorems": [
    "Pkm.NewProject.new_project_partial",
    "Pkm.NewProject.new_project_exists",
    "Pkm.NewProject.new_zoo_group",
    "Pkm.NewProject.new_project_license_violated",
    "Pkm.NewProject.new_project_quotes_violated"
   ],
   "note": "Proved from the answers to the disk, and to the configuration the model of the TOML reader reads from it, for answers without quotes, backslashes and line ends. Violated: the license is lost for every answer (the template names a variable that setup does not have), and answers with quotes or backslashes give files that cannot be read or read as something else."
  },
  {
   "property": "C113",
   "status": "partial",
   "theorems": [
    "Pkm.NewCommand.new_lists",
    "Pkm.NewCommand.new_named_partial",
    "Pkm.NewCommand.new_offers_partial",
    "Pkm.NewCommand.new_local_violated",
    "Pkm.NewCommand.new_hyphen_violated"
   ],
   "note": "Proved for templates that can be imported and working directories without a directory of the same name that has a render.py. Violated: such a directory makes the listing fail for every argument that is no other template; a template in a directory with a hyphen is listed, is looked up with an underscore, and the listing fails."
  },
  {
   "property": "C114",
   "status": "partial",
   "theorems": [
    "Pkm.Home.home_kept",
    "Pkm.Home.home_settings",
    "Pkm.Home.home_workspaces",
    "Pkm.Home.home_cleaned",
    "Pkm.Home.home_place_partial",
    "Pkm.Home.home_variable_violated",
    "Pkm.Home.home_xdg_empty_violated",
    "Pkm.Home.home_clean_violated",
    "Pkm.Home.home_workspace_violated"
   ],
   "note": "Proved for every history of uses: what is kept, what is made, what cleaning removes. The place is proved for environments without PKM_HOME. Violated: with PKM_HOME set every use of the home fails; an empty XDG_DATA_HOME makes a home in the working directory; cleaning fails if the repository settings cannot be loaded; a cleaning that fails in its middle leaves a cached workspace without directory."
  },
  {
   "property": "C115",
   "status": "partial",
   "theorems": [
    "Pkm.Hooks.hook_returns",
    "Pkm.Hooks.hook_metadata",
    "Pkm.Hooks.hook_builds_partial",
    "Pkm.Hooks.hook_variable_violated",
    "Pkm.Hooks.hook_home_violated"
   ],
   "note": "Proved for projects that pkm builds itself. Violated: with PKM_HOME set all hooks but build_editable fail for every project; a containerized application that is built where pkm has no home makes one."
  },
  {
   "property": "C116",
   "status": "partial",
   "theorems": [
    "Pkm.TomlStyle.styled_edit_partial",
    "Pkm.TomlStyle.styled_unchanged_partial",
    "Pkm.TomlStyle.styled_read_back_partial",
    "Pkm.TomlStyle.styled_comment_violated",
    "Pkm.TomlStyle.styled_dotted_violated",
    "Pkm.TomlStyle.styled_truth_violated",
    "Pkm.TomlStyle.styled_retyped_violated",
    "Pkm.TomlStyle.styled_end_violated",
    "Pkm.TomlStyle.styled_list_violated",
    "Pkm.TomlStyle.styled_super_violated",
    "Pkm.TomlStyle.styled_empty_violated",
    "Pkm.TomlStyle.styled_layout_violated"
   ],
   "note": "Proved, up to white space at the end, for files of lines with simple keys and scalars or lists of scalars, in one line or several, and of tables nested to any depth, with or without a header of their own, with comments and blanks anywhere but behind lists and around their commas, and for all combinations of edits, of elements of lists too, that keep tables tables and values values; new tables have lines and are at the top level or too large for one line. From what is saved, with the white space at its end put back, the edited data is read. Violated outside: comments behind lists and inline tables are lost, dotted keys of three parts are corrupted, 1 is not edited to true, a table replaced by a value is unreadable, empty tables and an empty list in a table without header are not written, a list with a trailing comma that gets empty is unreadable, the lost final line feed makes a file with a comment or number at its end unreadable, blanks in lists change."
  },
  {
   "property": "C117",
   "status": "partial",
   "theorems": [
    "Pkm.TaskArgs.task_args_partial",
    "Pkm.TaskArgs.task_order_refused",
    "Pkm.TaskArgs.task_surplus_violated",
    "Pkm.TaskArgs.task_equals_violated",
    "Pkm.TaskArgs.task_false_violated"
   ],
   "note": "Proved as an equivalence for all signatures without keyword-only parameters and `**kwargs`: with at most as many unnamed words as parameters the function is called exactly if all fits, with exactly these values; unnamed words after named ones are refused. It fails for surplus unnamed words, which get lost without an error, also for functions with `*args` (proved for all calls), for unnamed words that contain `=`, and for parameters of type bool, which are true for `False`. The code of the task runner that would use this class asks for it under another name (`MethodCliArgs`, `execute`), so no task reaches it."
  },
  {
   "property": "C12",
   "status": "partial",
   "theorems": [
    "Pkm.clause_meaning_final_partial",
    "Pkm.clause_meaning_candidate_partial",
    "Pkm.clause_post_violated",
    "Pkm.clause_pre_violated"
   ],
   "note": "All nine kinds of clauses for final releases, comparison clauses for pre- and dev-releases too. Post releases and the pre-releases of the upper end are treated differently from PEP 440 (witnesses)."
  },
  {
   "property": "C13",
   "status": "partial",
   "theorems": [
    "Pkm.specifier_text_all",
    "Pkm.specifier_text_match",
    "Pkm.specifier_text_range_partial",
    "Pkm.specifier_text_minus_partial",
    "Pkm.specifier_text_violated_tilde",
    "Pkm.specifier_text_violated_union",
    "Pkm.specifier_text_violated_none",
    "Pkm.specifier_text_violated_label"
   ],
   "note": "Exact for matches and unambiguous ranges, semantic for exclusion lists; four witnesses of texts that read back differently."
  },
  {
   "property": "C14",
   "status": "partial",
   "theorems": [
    "Pkm.resolution_closed_partial",
    "Pkm.resolution_solves_partial",
    "Pkm.resolution_satisfies_violated"
   ],
   "note": "The selection contains the root, only offered versions, and every dependency of every selected version, for any problem, any set order and any specifier operations. That the constraints are met is false of the code (witness with the specifiers of the code): a version that is selected a second time makes a dependency object that is never looked at again. For exact specifier operations and problems whose neighbouring versions share no dependency the full claim is proved, for any problem size and any set order."
  },
  {
   "property": "C15",
   "status": "proved",
   "theorems": [
    "Pkm.resolution_one_version",
    "Pkm.resolution_needed"
   ],
   "note": "For any problem, any set order and any specifier operations; needed is taken transitively from the root."
  },
  {
   "property": "C16",
   "status": "proved",
   "theorems": [
    "Pkm.backtrack_keeps",
    "Pkm.backtrack_restores",
    "Pkm.resolution_is_search"
   ],
   "note": "For all searches, of which the runs of the solver are instances."
  },
  {
   "property": "C17",
   "status": "partial",
   "theorems": [
    "Pkm.resolution_unsolvable_violated",
    "Pkm.resolution_found_partial"
   ],
   "note": "False of the code: a witness with a solution that the solver calls unsolvable (a learned incompatibility uses the accumulated constraint in place of the term). Proved where no decision has to be taken back: such a problem is solved, so it is not called unsolvable."
  },
  {
   "property": "C18",
   "status": "partial",
   "theorems": [
    "Pkm.resolver_output",
    "Pkm.resolver_no_key_error",
    "Pkm.resolver_packages",
    "Pkm.resolver_names_once",
    "Pkm.resolver_constraints_partial",
    "Pkm.resolver_extras_violated",
    "Pkm.resolver_empty_extras_violated",
    "Pkm.resolver_override_case_violated"
   ],
   "note": "Every successful resolution returns the packages of the entries without extras of a selection that is closed under the applicable, possibly overridden dependencies and the base packages of entries with extras, and in which every entry has a reason; for all repositories, overrides, markers and set orders. The version of the base package and the constraints: proved for exact specifier operations and unshared neighbours. False in general: a further dependency on the base package replaces the pin, an empty extras list is an entry of its own, overrides are looked up by the unnormalised name."
  },
  {
   "property": "C19",
   "status": "proved",
   "theorems": [
    "Pkm.update_lock_env",
    "Pkm.update_lock_others",
    "Pkm.update_lock_history",
    "Pkm.update_lock_package",
    "Pkm.unlock_packages_spec",
    "Pkm.lock_grouped"
   ],
   "note": "As multisets for any lock and any history, and package by package in order for every lock the API can build."
  },
  {
   "property": "C20",
   "status": "proved",
   "theorems": [
    "Pkm.sort_by_lock_preference",
    "Pkm.sort_by_lock_preference_perm",
    "Pkm.locked_versions_spec"
   ],
   "note": "Locked means that the version is an element of the Python set of locked versions (same hash and equal)."
  },
  {
   "property": "C21",
   "status": "partial",
   "theorems": [
    "Pkm.lock_file_round_trip_partial",
    "Pkm.lock_file_violated"
   ],
   "note": "For standard versions and plain names; a name with a separator run is read back differently (witness). The TOML layer is C34 and C47."
  },
  {
   "property": "C22",
   "status": "partial",
   "theorems": [
    "Pkm.plan_operations",
    "Pkm.plan_executes",
    "Pkm.plan_keeps_untouched",
    "Pkm.plan_keeps_request_partial",
    "Pkm.plan_store_mode_partial",
    "Pkm.plan_store_mode_violated"
   ],
   "note": "Every plan and site, tasks in any order. A store mode is ignored if the plan keeps the installed object (witness)."
  },
  {
   "property": "C23",
   "status": "proved",
   "theorems": [
    "Pkm.find_orphans_exact",
    "Pkm.installation_tree_exact"
   ],
   "note": "Every site graph, cyclic ones included."
  },
  {
   "property": "C24",
   "status": "partial",
   "theorems": [
    "Pkm.uninstall_succeeds",
    "Pkm.uninstall_removes_recorded",
    "Pkm.uninstall_touches_only_partial",
    "Pkm.uninstall_directories_partial",
    "Pkm.uninstall_leaves_no_empty_directory",
    "Pkm.uninstall_pycache_violated",
    "Pkm.uninstall_sibling_violated"
   ],
   "note": "Every file system, RECORD and set order. Also files in __pycache__ directories next to recorded files go, and sibling directories whose names start like the site (witnesses)."
  },
  {
   "property": "C25",
   "status": "partial",
   "theorems": [
    "Pkm.verify_iff",
    "Pkm.verify_sound_partial",
    "Pkm.verify_warns",
    "Pkm.verify_dist_info_violated",
    "Pkm.verify_nested_violated"
   ],
   "note": "Exact characterisation of acceptance. Below any directory named *.dist-info a wrong signature only gives a warning (witnesses). Hash functions are abstract."
  },
  {
   "property": "C26",
   "status": "partial",
   "theorems": [
    "Pkm.rollback_exact_partial",
    "Pkm.rollback_restores_partial",
    "Pkm.copy_tree_rolls_back_partial",
    "Pkm.rollback_twice_violated",
    "Pkm.rollback_directories_violated",
    "Pkm.rollback_touch_violated",
    "Pkm.rollback_file_copy_violated"
   ],
   "note": "For bodies of mkdir, copy and rm calls with an exception at any point that touch no file twice and overwrite no directory. Nested created directories stay for some set orders; touched files and files overwritten twice are lost (witnesses)."
  },
  {
   "property": "C27",
   "status": "partial",
   "theorems": [
    "Pkm.transaction_success",
    "Pkm.transaction_copied",
    "Pkm.transaction_untouched",
    "Pkm.copied_files_complete",
    "Pkm.copy_tree_copies",
    "Pkm.copy_tree_inside",
    "Pkm.copy_tree_nested_violated"
   ],
   "note": "Full for copy, mkdir, rm, touch and copy_tree; copy_tree does not hand file_copy on to subdirectories (witness)."
  },
  {
   "property": "C28",
   "status": "partial",
   "theorems": [
    "Pkm.path_to_leads_partial",
    "Pkm.path_to_root_violated"
   ],
   "note": "All absolute paths without dot components except the root as destination, for which the code does not end."
  },
  {
   "property": "C29",
   "status": "partial",
   "theorems": [
    "Pkm.promise_completed_once",
    "Pkm.promise_result_fixed_partial",
    "Pkm.promise_falsy_exception_violated",
    "Pkm.promise_called_after_completion",
    "Pkm.promise_listener_at_most_once",
    "Pkm.promise_no_deadlock",
    "Pkm.promise_listeners_all_called",
    "Pkm.promise_terminates",
    "Pkm.promise_no_crash"
   ],
   "note": "All schedules of any number of threads. An exception object that is false in a boolean context is taken for success (witness); otherwise the full property."
  },
  {
   "property": "C30",
   "status": "proved",
   "theorems": [
    "Pkm.cached_computed_once",
    "Pkm.cached_same_value",
    "Pkm.cached_no_deadlock",
    "Pkm.cached_terminates",
    "Pkm.cached_no_key_error",
    "Pkm.cached_clear_violated",
    "Pkm.cached_clear_race_violated"
   ],
   "note": "All schedules of reading threads, with exceptions of the compute function. Deleting the value meanwhile, which the property does not speak about, can run the computation twice at a time or fail with AttributeError (witnesses)."
  },
  {
   "property": "C31",
   "status": "partial",
   "theorems": [
    "Pkm.cache_complete_partial",
    "Pkm.cache_saved",
    "Pkm.cache_deleted",
    "Pkm.cache_truncated_violated",
    "Pkm.cache_stale_info_violated",
    "Pkm.cache_torn_info_violated"
   ],
   "note": "All crash points of all histories of stores, provided that the transfer reports errors. A body that ends early without error is stored as complete, an old handle can write its info over newer data, and an info file torn by a crash makes every later load fail (witnesses)."
  },
  {
   "property": "C32",
   "status": "partial",
   "theorems": [
    "Pkm.fetch_one_download",
    "Pkm.fetch_no_deadlock",
    "Pkm.fetch_no_key_error",
    "Pkm.fetch_fresh_partial",
    "Pkm.fetch_contacts_partial",
    "Pkm.fetch_after_hit_violated",
    "Pkm.fetch_update_violated",
    "Pkm.fetch_broken_violated",
    "Pkm.fetch_not_modified_violated",
    "Pkm.retrieved_after_sound",
    "Pkm.retrieved_after_violated"
   ],
   "note": "All schedules. Downloads are shared and fresh if no fetch was answered from the stored files before; after such a fetch no fetch of the URL contacts the server any more (general theorem and witness). Different texts of the same URL have their own entries, which is not modelled."
  },
  {
   "property": "C33",
   "status": "partial",
   "theorems": [
    "Pkm.request_bounded",
    "Pkm.request_redirects_bounded",
    "Pkm.request_reaches_answer",
    "Pkm.request_all_fail",
    "Pkm.request_repeated_violated",
    "Pkm.request_message_violated"
   ],
   "note": "All servers. A failure while the body is read makes the request being sent again; the message of too many redirections names a wrong number (witnesses)."
  },
  {
   "property": "C34",
   "status": "partial",
   "theorems": [
    "Pkm.toml_string_partial",
    "Pkm.toml_round_trip_partial",
    "Pkm.toml_backslash_violated",
    "Pkm.toml_null_violated",
    "Pkm.toml_number_violated",
    "Pkm.toml_empty_table_violated",
    "Pkm.toml_inline_empty_violated",
    "Pkm.toml_comment_end_violated"
   ],
   "note": "Strings without null characters that do not end with a backslash are read back as themselves. Whole documents, nested to any depth, are read back as equal data (dict equality), given that strings are of that kind, that no table below the root is empty and that the text does not end with a digit. The code fails in the excluded cases: witnesses are proved. Floats, dates and recorded styles are not modelled."
  },
  {
   "property": "C35",
   "status": "partial",
   "theorems": [
    "Pkm.normalize_name_idempotent",
    "Pkm.normalize_name_shape",
    "Pkm.name_key_ignores_case",
    "Pkm.name_key_idempotent",
    "Pkm.name_key_same_iff_partial",
    "Pkm.descriptor_name_stable_partial",
    "Pkm.descriptor_name_violated",
    "Pkm.name_key_violated"
   ],
   "note": "Normalising twice is the same as once. Keys ignore case for all names, and separators for names without runs of separators; runs are not merged although documented (witnesses)."
  },
  {
   "property": "C36",
   "status": "proved",
   "theorems": [
    "Pkm.match_result",
    "Pkm.pre_release_only_if",
    "Pkm.final_release_offered",
    "Pkm.match_idempotent"
   ],
   "note": "For every answer of the concrete repository and every compatibility predicate."
  },
  {
   "property": "C37",
   "status": "proved",
   "theorems": [
    "Pkm.best_artifact_spec"
   ],
   "note": "For every score function and every strict weak order of scores."
  },
  {
   "property": "C38",
   "status": "partial",
   "theorems": [
    "Pkm.bound_package",
    "Pkm.bound_package_missing",
    "Pkm.unbound_package",
    "Pkm.url_package",
    "Pkm.nested_lookup_order",
    "Pkm.register_bindings_spec",
    "Pkm.remove_repository_spec",
    "Pkm.all_repositories_nearest",
    "Pkm.inline_binding_violated",
    "Pkm.shared_instance_violated"
   ],
   "note": "Holds for repositories with their own names; inline bindings share one name and equal definitions share one instance (witnesses)."
  },
  {
   "property": "C39",
   "status": "partial",
   "theorems": [
    "Pkm.lookup_chain_terminates",
    "Pkm.lookup_chain_once",
    "Pkm.lookup_chain_complete_partial",
    "Pkm.lookup_chain_violated",
    "Pkm.lookup_chain_global_violated"
   ],
   "note": "Termination and no duplicates in general; completeness if every configuration is inherited from in one way."
  },
  {
   "property": "C40",
   "status": "partial",
   "theorems": [
    "Pkm.Build.build_never_nested",
    "Pkm.Build.build_ends",
    "Pkm.Build.build_order",
    "Pkm.Build.build_success_acyclic",
    "Pkm.Build.build_cycle_partial",
    "Pkm.Build.build_meta_then_wheel_violated",
    "Pkm.Build.build_missing_hook_violated",
    "Pkm.Build.build_processes_violated"
   ],
   "note": "No package is built inside its own build, building ends, builds complete after everything they need, and every cycle makes the build fail: proved for all requirement graphs and caches, for builds that stay in one process (the order also otherwise). That a reported cycle is a real one is proved when no two requests of a build lead to the same package; it is false of the code when metadata and wheel of a requirement are both built, or the metadata hook is missing. With other processes the recursion can be endless (witness)."
  },
  {
   "property": "C41",
   "status": "proved",
   "theorems": [
    "Pkm.unordered_hash_perm",
    "Pkm.unordered_mapping_perm",
    "Pkm.ordered_hash_congr",
    "Pkm.ordered_hash_regulars"
   ],
   "note": "For the hash values of the items as arbitrary integers."
  },
  {
   "property": "C42",
   "status": "partial",
   "theorems": [
    "Pkm.Markers.marker_precedence",
    "Pkm.Markers.marker_read_sound",
    "Pkm.Markers.marker_unambiguous",
    "Pkm.Markers.marker_extra",
    "Pkm.Markers.marker_unknown",
    "Pkm.Markers.marker_version_partial",
    "Pkm.Markers.marker_string_partial",
    "Pkm.Markers.marker_in",
    "Pkm.Markers.marker_arbitrary_violated",
    "Pkm.Markers.marker_letter_violated",
    "Pkm.Markers.marker_extra_ne_violated"
   ],
   "note": "The reading of and, or and parentheses, and the evaluation order, are proved for all expressions of any size, all environments and all extras; the accepted texts are exactly those of well formed expressions. Comparisons: extra == is proved; version comparisons for final releases and literals in normal form; text comparisons for texts starting with a letter other than v; in and not in for all texts. False of the code: === is not readable, literals cannot contain J, extra != is always true (witnesses)."
  },
  {
   "property": "C43",
   "status": "partial",
   "theorems": [
    "Pkm.Shared.shared_kept_iff",
    "Pkm.Shared.shared_files_kept",
    "Pkm.Shared.shared_no_empty",
    "Pkm.Shared.shared_idempotent",
    "Pkm.Shared.shared_other_path_violated"
   ],
   "note": "A directory is kept iff an environment names it by the text of its path; for all workspaces and environments, without symbolic links. False if the workspace was reached by another path when the package was linked (witness)."
  },
  {
   "property": "C44",
   "status": "partial",
   "theorems": [
    "Pkm.Act.activate_restores",
    "Pkm.Act.activate_restores_set",
    "Pkm.Act.activate_nested",
    "Pkm.Act.activate_search_order",
    "Pkm.Act.activate_search_order_unset",
    "Pkm.Act.zoo_restores_partial",
    "Pkm.Act.run_proc_vars",
    "Pkm.Act.zoo_empty_path_violated",
    "Pkm.Act.activate_deleted_violated",
    "Pkm.Act.activate_threads_violated"
   ],
   "note": "For bodies of any kind and any nesting, ending normally or by an exception, as long as the body does not leave the variables unset. Witnesses: the zoo unsets an empty PATH, a deleted PATH leaves VIRTUAL_ENV set, two threads leaving in the order they came."
  },
  {
   "property": "C45",
   "status": "proved",
   "theorems": [
    "Pkm.groupby_groups",
    "Pkm.groupby_keys",
    "Pkm.groupby_loses_nothing",
    "Pkm.partition_exact",
    "Pkm.unique_by_first",
    "Pkm.unique_by_keys"
   ],
   "note": "All lists and key functions."
  },
  {
   "property": "C46",
   "status": "proved",
   "theorems": [
    "Pkm.pool_bounded",
    "Pkm.pool_fifo",
    "Pkm.pool_done_once",
    "Pkm.pool_nothing_lost",
    "Pkm.pool_uses_workers",
    "Pkm.pool_cancel_ignored",
    "Pkm.pool_cancel_kills_other_violated",
    "Pkm.pool_close_spawns_violated"
   ],
   "note": "All schedules with process deaths, idle timeouts, close and cancel. Beyond the property: cancel does nothing for running tasks and kills other tasks for completed ones; close with a busy worker starts processes without end (witnesses)."
  },
  {
   "property": "C47",
   "status": "partial",
   "theorems": [
    "Pkm.Config.config_round_trip_partial",
    "Pkm.Config.value_round_trip_partial",
    "Pkm.Config.version_belongs",
    "Pkm.Config.raw_belongs",
    "Pkm.Config.enum_belongs",
    "Pkm.Config.path_belongs",
    "Pkm.Config.config_written_at_keys",
    "Pkm.Config.unknown_data_kept_partial",
    "Pkm.Config.absent_attribute",
    "Pkm.Config.contact_name_kept",
    "Pkm.Config.pyproject_loses_tool_tables_violated",
    "Pkm.Config.repositories_never_saved_violated",
    "Pkm.Config.optional_attribute_not_loaded_violated",
    "Pkm.Config.none_becomes_default_violated",
    "Pkm.Config.string_for_list_violated",
    "Pkm.Config.contact_name_grows_violated",
    "Pkm.Config.contact_without_name_violated"
   ],
   "note": "Objects of configuration classes, nested to any depth, are loaded as they were saved, given codecs that read what they write, keys that name different places and either no dotted keys or no field for what is left. Each value is written at its dotted key and nowhere else; unknown data are kept. False in general: a pyproject.toml that is loaded and saved loses its tool.pkm tables, repository configurations can never be saved, Optional attributes cannot be loaded, names of authors grow with each saving."
  },
  {
   "property": "C48",
   "status": "partial",
   "theorems": [
    "Pkm.Cli.line_is_read_as_typed_partial",
    "Pkm.Cli.incomplete_line_is_refused",
    "Pkm.Cli.unknown_option_is_refused",
    "Pkm.Cli.extra_argument_is_refused",
    "Pkm.Cli.too_few_values_are_refused",
    "Pkm.Cli.fields_are_read_as_typed",
    "Pkm.Cli.missing_field_is_refused",
    "Pkm.Cli.parse_ends",
    "Pkm.Cli.empty_argument_violated",
    "Pkm.Cli.flag_with_value_violated",
    "Pkm.Cli.empty_value_violated",
    "Pkm.Cli.value_blanks_violated",
    "Pkm.Cli.option_after_values_violated",
    "Pkm.Cli.lone_dash_violated"
   ],
   "note": "For all command trees with distinct attribute names and all lines made of options in their spellings, positional arguments and sub-commands: each value is bound, the rest gets its default, incomplete lines and unknown options are refused, reading ends. Fields are treated apart from lines. Dynamic commands are not modelled. Witnesses: arguments after an empty one are ignored, a value typed with a flag is taken as the next argument, an empty value takes the next argument, blanks around values are lost, options after a list of values are values, a lone dash is ignored."
  },
  {
   "property": "C49",
   "status": "partial",
   "theorems": [
    "Pkm.pep440_order_violated",
    "Pkm.pep440_order_partial"
   ],
   "note": "The order is exactly that of PEP 440 for all versions without local label in which dev stands alone. With pre and dev, or post and dev, together the code orders the other way (witnesses)."
  },
  {
   "property": "C50",
   "status": "partial",
   "theorems": [
    "Pkm.Reqs.requirement_round_trip_partial",
    "Pkm.Reqs.requirement_round_trip_minus_partial",
    "Pkm.Reqs.requirement_reparse_partial",
    "Pkm.Reqs.requirement_name_normal",
    "Pkm.Reqs.requirement_digit_violated",
    "Pkm.Reqs.requirement_empty_extras_violated",
    "Pkm.Reqs.requirement_exclusion_violated",
    "Pkm.Reqs.requirement_url_marker_violated"
   ],
   "note": "Printing and reading gives the same requirement (name, extras, constraint, marker text and value everywhere) for names that start with a letter or underscore, extras other than the empty list, and constraints that are a match, an exclusion, a range or a range minus versions in normal form. The excluded cases fail: witnesses are proved."
  },
  {
   "property": "C51",
   "status": "partial",
   "theorems": [
    "Pkm.add_if_absent_spec",
    "Pkm.put_if_absent_spec",
    "Pkm.get_or_put_spec",
    "Pkm.without_keys_spec",
    "Pkm.remove_by_value_spec",
    "Pkm.startswith_spec",
    "Pkm.argmin_spec",
    "Pkm.without_prefix_spec",
    "Pkm.without_suffix_partial",
    "Pkm.without_suffix_violated",
    "Pkm.get_or_default_violated",
    "Pkm.without_first_spec"
   ],
   "note": "Holds except for without_suffix with an empty suffix and get_or_default (witnesses)."
  },
  {
   "property": "C52",
   "status": "partial",
   "theorems": [
    "Pkm.Tags.scored_iff_supported_partial",
    "Pkm.Tags.set_has_best_score",
    "Pkm.Tags.better_abi_preferred",
    "Pkm.Tags.specific_platform_preferred",
    "Pkm.Tags.newer_manylinux_preferred",
    "Pkm.Tags.own_implementation_preferred",
    "Pkm.Tags.closer_version_preferred",
    "Pkm.Tags.tags_of_wheel_name",
    "Pkm.Tags.musl_violated",
    "Pkm.Tags.odd_part_violated",
    "Pkm.Tags.width_violated",
    "Pkm.Tags.unknown_platform_violated"
   ],
   "note": "For all tag sets of the known forms (any number of tags, musllinux tags excluded) and all glibc linux, mac and other systems: a score exists iff a combination is supported; best score and preferences. Fails on musl systems (nothing installable), for sets with one part of another form, for a 32 bit interpreter on a 64 bit system, and accepts unknown manylinux spellings (witnesses)."
  },
  {
   "property": "C53",
   "status": "partial",
   "theorems": [
    "Pkm.uninstall_keeps",
    "Pkm.uninstall_reports_partial",
    "Pkm.uninstall_violated"
   ],
   "note": "For every answer of the resolver; the report is right for names written as installed, wrong for equivalent spellings (witness)."
  },
  {
   "property": "C54",
   "status": "partial",
   "theorems": [
    "Pkm.installed_offered_fast",
    "Pkm.installed_offered_slow",
    "Pkm.new_offered",
    "Pkm.latest_offered",
    "Pkm.missing_package_violated",
    "Pkm.fast_plan_keeps_installed_partial",
    "Pkm.slow_plan_roots",
    "Pkm.plan_updates_violated"
   ],
   "note": "A missing package makes planning fail with ValueError, and a package in updates that nothing new needs is removed (witnesses)."
  },
  {
   "property": "C55",
   "status": "partial",
   "theorems": [
    "Pkm.sign_files_records",
    "Pkm.sign_files_signature_partial",
    "Pkm.install_uninstall_partial",
    "Pkm.sign_files_signature_violated",
    "Pkm.container_record_partial",
    "Pkm.container_record_violated"
   ],
   "note": "For files; a hash line of the wheel for a file that is not in the wheel is taken over unchecked (witness). The RECORD of a container may reuse the hash of another file (witness). Compilation to pyc files and the generation of scripts enter as touched files."
  },
  {
   "property": "C56",
   "status": "proved",
   "theorems": [
    "Pkm.url_round_trip",
    "Pkm.url_text_injective",
    "Pkm.url_parse_web"
   ],
   "note": "All URLs of the http and https schemes; urlsplit of the standard library is modelled without its checks for brackets and control characters."
  },
  {
   "property": "C57",
   "status": "partial",
   "theorems": [
    "Pkm.redirect_path_partial",
    "Pkm.redirect_absolute",
    "Pkm.redirect_query_violated",
    "Pkm.redirect_path_query_violated",
    "Pkm.redirect_network_path_violated",
    "Pkm.request_follows"
   ],
   "note": "Absolute locations and absolute paths without query from URLs without query. Otherwise the old query is kept, the new one is put into the path, and //host is taken for a path (witnesses)."
  },
  {
   "property": "C58",
   "status": "partial",
   "theorems": [
    "Pkm.hash_check_partial",
    "Pkm.hash_check_answers",
    "Pkm.hash_check_violated"
   ],
   "note": "All histories, as long as the files are not replaced after the handle was made."
  },
  {
   "property": "C59",
   "status": "partial",
   "theorems": [
    "Pkm.resolution_found_partial",
    "Pkm.resolution_ends_violated",
    "Pkm.resolution_fails_violated",
    "Pkm.resolution_post_violated"
   ],
   "note": "Proved for all problems in which the preferred versions fit together (final-ended ranges, `==`, `*`; no post releases offered), whatever the set orders: the solver ends with exactly these versions and they solve the problem. False of the code in general: two endless searches (for all fuel), an AssertionError and an IndexError on problems with solutions, an IndexError without any conflict when the newest version is a post release."
  },
  {
   "property": "C60",
   "status": "partial",
   "theorems": [
    "Pkm.Config.wheel_file_round_trip_partial",
    "Pkm.Config.wheel_file_colon_violated",
    "Pkm.Config.pyvenv_of_python_violated",
    "Pkm.Config.wheel_file_repeated_key_violated",
    "Pkm.Config.pyvenv_not_for_python_violated"
   ],
   "note": "Read back for keys and values on one line without colon and surrounding blanks; with a colon the written file is unreadable, a repeated key keeps its last value, pyvenv.cfg files made by Python are not readable and those made here have no line that Python takes into account."
  },
  {
   "property": "C61",
   "status": "partial",
   "theorems": [
    "Pkm.Dist.csv_round_trip",
    "Pkm.Dist.record_file_round_trip_partial",
    "Pkm.Dist.signature_round_trip",
    "Pkm.Dist.encode64_injective",
    "Pkm.Dist.signature_accepts",
    "Pkm.Dist.signature_malformed",
    "Pkm.Dist.record_columns_refused",
    "Pkm.Dist.record_hash_refused",
    "Pkm.Dist.encode64_is_base64",
    "Pkm.Dist.record_file_violated",
    "Pkm.Dist.record_empty_line_violated"
   ],
   "note": "The csv layer reads back every list of rows of any texts. Records with path, signature and length are read back for all paths; a signature accepts exactly the data with the same digest. Records without signature, such as that of RECORD itself, are loaded but cannot be saved, and the attempt truncates the file (witness)."
  },
  {
   "property": "C62",
   "status": "partial",
   "theorems": [
    "Pkm.Entry.reference_round_trip",
    "Pkm.Entry.reference_extras_partial",
    "Pkm.Entry.entrypoints_round_trip_partial",
    "Pkm.Entry.entry_twice_refused",
    "Pkm.Entry.entry_group_twice_refused",
    "Pkm.Entry.entry_scripts",
    "Pkm.Entry.entry_extras_violated",
    "Pkm.Entry.entry_module_extras_violated",
    "Pkm.Entry.entry_colon_violated"
   ],
   "note": "For all lists of entry points without extras whose names fit the format. With extras the object gets a blank at its end with each saving, extras after a module become part of its name, and names with a colon, which the format allows, are cut (witnesses)."
  },
  {
   "property": "C63",
   "status": "partial",
   "theorems": [
    "Pkm.Projects.project_dependencies_partial",
    "Pkm.Projects.project_no_extras_partial",
    "Pkm.Projects.project_marker_violated",
    "Pkm.Projects.project_group_letter_violated"
   ],
   "note": "For all projects whose optional requirements have no marker or one that starts with the clause of their extra, and all environments in which the markers have a value. An optional requirement with a marker of its own applies without its extra, and a group with a capital J in its name makes the project unusable (both general)."
  },
  {
   "property": "C64",
   "status": "partial",
   "theorems": [
    "Pkm.Projects.generalized_allows",
    "Pkm.Projects.generalized_major_partial",
    "Pkm.Projects.generalized_post_violated",
    "Pkm.Projects.generalized_local_violated",
    "Pkm.Projects.generalized_pre_violated",
    "Pkm.Projects.project_add",
    "Pkm.Projects.project_add_rollback",
    "Pkm.Projects.project_add_file",
    "Pkm.Projects.project_add_extras_violated",
    "Pkm.Projects.project_add_lock_violated",
    "Pkm.Projects.project_add_group_violated",
    "Pkm.Projects.project_remove",
    "Pkm.Projects.project_remove_rollback_violated"
   ],
   "note": "For all projects and lists of requests: what is written, what is kept and the return to the old configuration when installing fails. Lost are extras and markers of requests without version; the lock may not have what the configuration names; a failed removal leaves the configuration changed (witnesses)."
  },
  {
   "property": "C65",
   "status": "partial",
   "theorems": [
    "Pkm.Projects.group_projects",
    "Pkm.Projects.group_projects_exist",
    "Pkm.Projects.group_cycle_violated",
    "Pkm.Projects.group_missing_violated",
    "Pkm.Projects.group_of",
    "Pkm.Projects.group_of_none",
    "Pkm.Projects.group_and_back",
    "Pkm.Projects.group_root_violated",
    "Pkm.Projects.group_add",
    "Pkm.Projects.group_add_violated",
    "Pkm.Projects.group_remove",
    "Pkm.Projects.group_add_remove",
    "Pkm.Projects.group_remove_relative_violated",
    "Pkm.Projects.group_remove_named_partial",
    "Pkm.Projects.group_remove_named_violated"
   ],
   "note": "For all trees of groups. Groups that contain each other and listed directories without project make the listing fail, the root of a group is always none, an addition is not seen by an object that has listed its children, removal by name fails for a group with subgroups and removal by relative path depends on the working directory (witnesses)."
  },
  {
   "property": "C66",
   "status": "partial",
   "theorems": [
    "Pkm.Projects.project_scripts_partial",
    "Pkm.Projects.project_gui_violated",
    "Pkm.Projects.project_entry_points_violated"
   ],
   "note": "For all projects with scripts only. Gui scripts become console scripts (witness); a project with other entry points cannot be built at all: the property asks for itself without end (general). Two projects of the repository itself are of this kind."
  },
  {
   "property": "C67",
   "status": "partial",
   "theorems": [
    "Pkm.Meta.metadata_round_trip_partial",
    "Pkm.Meta.metadata_description_violated",
    "Pkm.Meta.metadata_keyword_violated",
    "Pkm.Meta.metadata_long_violated",
    "Pkm.Meta.project_metadata_partial",
    "Pkm.Meta.project_maintainers_violated",
    "Pkm.Meta.project_authors_violated",
    "Pkm.Meta.built_dependencies_partial"
   ],
   "note": "For all metadata whose lines fit in one header line, for every header printer that prints such lines plainly. The description is never read back, a single keyword comes back as a text, folded values come back with the line break (general), maintainers are not written and authors lose their pairing (general)."
  },
  {
   "property": "C68",
   "status": "partial",
   "theorems": [
    "Pkm.Http.Pool.pool_exclusive",
    "Pkm.Http.Pool.pool_bounded",
    "Pkm.Http.Pool.pool_closed",
    "Pkm.Http.Pool.pool_answers_partial",
    "Pkm.Http.Pool.pool_unread_violated",
    "Pkm.Http.Pool.pool_broken_violated",
    "Pkm.Http.Pool.pool_retry_partial",
    "Pkm.Http.Pool.pool_retry_violated"
   ],
   "note": "Exclusion, the limit and the closing for all interleavings. Answers are right if bodies are read to their end and nothing breaks while a request is sent; an unread body garbles the next answer and a connection that broke is kept and refuses every later request (general)."
  },
  {
   "property": "C69",
   "status": "partial",
   "theorems": [
    "Pkm.Upload.chunks_content",
    "Pkm.Upload.upload_read_partial",
    "Pkm.Upload.upload_closed",
    "Pkm.Upload.upload_closing_violated",
    "Pkm.Upload.upload_quote_violated",
    "Pkm.Upload.upload_retry_violated",
    "Pkm.Upload.publish_partial",
    "Pkm.Upload.publish_build_violated"
   ],
   "note": "Against a reader of forms after RFC 2046 and 7578, for all fields without quotes in names. The end of the form is never marked, repeated requests send an empty file, the build number of a wheel is sent as python tag (general), a quote in a file name breaks the form (witness)."
  },
  {
   "property": "C70",
   "status": "partial",
   "theorems": [
    "Pkm.Pth.pth_round_trip_partial",
    "Pkm.Pth.pth_site_partial",
    "Pkm.Pth.pth_import_violated",
    "Pkm.Pth.pth_blank_violated"
   ],
   "note": "For all absolute paths in one line that do not end in a blank, against what site.py does. Paths ending in a blank link another directory (general), an empty import becomes a link (witness)."
  },
  {
   "property": "C71",
   "status": "partial",
   "theorems": [
    "Pkm.Index.simple_links",
    "Pkm.Index.simple_links_readable",
    "Pkm.Index.simple_file_version",
    "Pkm.Index.simple_file_version_violated",
    "Pkm.Index.simple_match_exact",
    "Pkm.Index.simple_match_order_partial",
    "Pkm.Index.simple_history",
    "Pkm.Index.simple_match_total",
    "Pkm.Index.simple_relative_link_violated",
    "Pkm.Index.simple_absolute_link",
    "Pkm.Index.simple_same_version_violated",
    "Pkm.Index.simple_one_bad_file_violated",
    "Pkm.Index.pypi_match_exact",
    "Pkm.Index.pypi_match_order_partial",
    "Pkm.Index.pypi_match_total",
    "Pkm.Index.pypi_odd_versions_violated",
    "Pkm.Index.pypi_download_checked",
    "Pkm.Index.simple_download_checked",
    "Pkm.Index.simple_download_unchecked"
   ],
   "note": "Answers are exact for every page and listing. The order is proved for versions without local labels. Relative links are resolved against the root of the host, a file without a version in its name makes all requests for its page fail (both general), spellings of one version are offered as several packages (witness)."
  },
  {
   "property": "C72",
   "status": "partial",
   "theorems": [
    "Pkm.DistFiles.wheel_name_read",
    "Pkm.DistFiles.sdist_name_read_partial",
    "Pkm.DistFiles.sdist_label_violated",
    "Pkm.DistFiles.sdist_dashed_name_violated",
    "Pkm.DistFiles.file_package_dependencies_violated",
    "Pkm.DistFiles.project_package_dependencies",
    "Pkm.DistFiles.directory_answer",
    "Pkm.DistFiles.directory_packages",
    "Pkm.DistFiles.directory_underscore_violated",
    "Pkm.DistFiles.directory_bogus_project_violated",
    "Pkm.DistFiles.file_url_name_violated",
    "Pkm.DistFiles.file_url_answer"
   ],
   "note": "File names of wheels, and of source distributions with plain names and no local label; projects tell their dependencies. Labels, dashed names, requests with an underscore and the dependencies of file packages go wrong in general; every directory without a project offers one."
  },
  {
   "property": "C73",
   "status": "partial",
   "theorems": [
    "Pkm.Git.git_first_request",
    "Pkm.Git.git_history_partial",
    "Pkm.Git.git_inside_partial",
    "Pkm.Git.git_never_updated_violated",
    "Pkm.Git.git_default_after_branch_violated",
    "Pkm.Git.git_user_violated",
    "Pkm.Git.git_port_violated",
    "Pkm.Git.git_crash_violated",
    "Pkm.Git.git_crash_point",
    "Pkm.Git.git_group_violated",
    "Pkm.Git.git_collision_violated",
    "Pkm.Git.git_outside_violated",
    "Pkm.Git.git_case_violated"
   ],
   "note": "For all histories of requirements on hosting sites (https://host/owner/name, with or without a branch) an answer is a clone of what was asked for, at the time of this or an earlier request. Clones are never updated; after a branch the project without a branch is lost; user names, other ports, capital letters, project groups and interrupted clones go wrong, all in general; collisions by a witness."
  },
  {
   "property": "C74",
   "status": "partial",
   "theorems": [
    "Pkm.Dists.wheel_contents_src",
    "Pkm.Dists.wheel_contents_root",
    "Pkm.Dists.wheel_contents_configured",
    "Pkm.Dists.configured_built_iff",
    "Pkm.Dists.default_built",
    "Pkm.Dists.wheel_record_exact",
    "Pkm.Dists.built_wheel_verifies",
    "Pkm.Dists.built_editable_verifies",
    "Pkm.Dists.editable_links",
    "Pkm.Dists.editable_offers_all",
    "Pkm.Dists.wheel_from_sdist",
    "Pkm.Dists.wheel_from_sdist_partial",
    "Pkm.Dists.sdist_buildable_partial",
    "Pkm.Dists.wheel_name_back_partial",
    "Pkm.Dists.sdist_name_back_partial",
    "Pkm.Dists.accepted_by_partial",
    "Pkm.Dists.accepted_by_default_partial",
    "Pkm.Dists.top_module_violated",
    "Pkm.Dists.whole_project_packed_violated",
    "Pkm.Dists.pycache_packed_violated",
    "Pkm.Dists.nested_package_violated",
    "Pkm.Dists.same_name_violated",
    "Pkm.Dists.sdist_nested_violated",
    "Pkm.Dists.dotted_name_violated",
    "Pkm.Dists.next_major_violated",
    "Pkm.Dists.upper_bound_violated"
   ],
   "note": "Exact contents for the three layouts, RECORD and its verification, editable links, the way through the source distribution and the names are proved for all projects, with the restrictions named in the theorems. Modules outside of packages are left out, projects without src pack everything, nested packages are flattened and their source distributions cannot be built, dots in names are lost, an interpreter requirement is cut to one major version and one with only an upper bound raises."
  },
  {
   "property": "C75",
   "status": "partial",
   "theorems": [
    "Pkm.Auth.auth_history",
    "Pkm.Auth.auth_typed_twice",
    "Pkm.Auth.auth_wrong_password",
    "Pkm.Auth.auth_locked_out",
    "Pkm.Auth.publish_asks",
    "Pkm.Auth.publish_saves_only",
    "Pkm.Auth.publish_saves",
    "Pkm.Auth.auth_mistyped_violated",
    "Pkm.Auth.auth_rekey_violated",
    "Pkm.Auth.auth_lost_update_violated",
    "Pkm.Auth.auth_crash_violated",
    "Pkm.Auth.publish_ignores_saved_violated"
   ],
   "note": "Proved for all histories of one user who knows the password, with an ideal cipher. A mistyped password spoils the store object, or re-seals the file; concurrent runs lose additions; a crash loses everything; and saved credentials are never used."
  },
  {
   "property": "C76",
   "status": "partial",
   "theorems": [
    "Pkm.Releases.publish_careful_partial",
    "Pkm.Releases.publish_succeeds",
    "Pkm.Releases.clean_dist",
    "Pkm.Releases.clean_dist_versions",
    "Pkm.Releases.clean_dist_all",
    "Pkm.Releases.publish_stale_violated",
    "Pkm.Releases.publish_failed_build_violated",
    "Pkm.Releases.publish_bumped_violated",
    "Pkm.Releases.clean_dist_equal_violated"
   ],
   "note": "Proved for all histories in which commands succeed and the sources are edited only before the version is built. Otherwise publish uploads the stale build, or nothing after a failed build; a bumped project object publishes the old files as the new version."
  },
  {
   "property": "C77",
   "status": "partial",
   "theorems": [
    "Pkm.Releases.attached_existing",
    "Pkm.Releases.attached_outside",
    "Pkm.Releases.attached_created",
    "Pkm.Releases.attached_place",
    "Pkm.Releases.attached_default_separate",
    "Pkm.Releases.attached_wiped_violated",
    "Pkm.Releases.attached_zoo_shared_violated"
   ],
   "note": "Proved: existing environments are unchanged and nothing outside the configured directory changes. Violated inside it: a configured directory that is not an environment is deleted, also when no interpreter fits; projects of one name in a zoo share the environment."
  },
  {
   "property": "C78",
   "status": "partial",
   "theorems": [
    "Pkm.Templates.template_conflict",
    "Pkm.Templates.template_rendered_partial",
    "Pkm.Templates.template_keeps_files_partial",
    "Pkm.Templates.template_overwrite",
    "Pkm.Templates.template_kinds",
    "Pkm.Templates.template_no_rest",
    "Pkm.Templates.template_success",
    "Pkm.Templates.template_default_ignored",
    "Pkm.Templates.template_ignore_patterns",
    "Pkm.Templates.template_ignore_file_violated",
    "Pkm.Templates.template_preserve_violated",
    "Pkm.Templates.template_escape_violated",
    "Pkm.Templates.template_into_directory_violated",
    "Pkm.Templates.template_clash_violated"
   ],
   "note": "Proved for templates whose names are rendered to plain, distinct names, without preserved directories, and where no file comes on a directory. Otherwise existing files are overwritten (names with .., files on directories), files are lost (two with one name, those after a preserved directory) and an ignore file makes render.py part of the output. For every template without preserved directories: files stay files, directories stay directories, nothing is left of the temporary directory, and success means that everything is there."
  },
  {
   "property": "C79",
   "status": "partial",
   "theorems": [
    "Pkm.Cli.Methods.option_names",
    "Pkm.Cli.Methods.option_names_distinct",
    "Pkm.Cli.Methods.stripped_field",
    "Pkm.Cli.Methods.method_fields_partial",
    "Pkm.Cli.Methods.method_option_reaches",
    "Pkm.Cli.Methods.method_call",
    "Pkm.Cli.Methods.method_varargs_violated",
    "Pkm.Cli.Methods.method_required_violated",
    "Pkm.Cli.Methods.method_underscore_violated",
    "Pkm.Cli.Methods.method_help_violated"
   ],
   "note": "Proved for functions without *args whose parameters have no runs of underscores and some keyword-only default. Functions with *args cannot be called, those with only required keyword-only parameters cannot be made a command, and a parameter may take -h from the help."
  },
  {
   "property": "C80",
   "status": "partial",
   "theorems": [
    "Pkm.EnvBuild.create_contents",
    "Pkm.EnvBuild.create_is_venv",
    "Pkm.EnvBuild.create_keeps",
    "Pkm.EnvBuild.create_refuses",
    "Pkm.EnvBuild.create_failed",
    "Pkm.EnvBuild.create_windows_partial",
    "Pkm.EnvBuild.create_windows_violated",
    "Pkm.EnvBuild.create_windows_failed_violated",
    "Pkm.EnvBuild.environment_home_violated",
    "Pkm.EnvBuild.create_windows_files_partial",
    "Pkm.EnvBuild.not_venv",
    "Pkm.EnvBuild.create_lib64"
   ],
   "note": "Outside Windows all of it holds, except that Python does not find the keys of pyvenv.cfg, for any interpreter. On Windows an environment is made only if there is a python.exe beside the interpreter, and a failed attempt leaves a directory behind that blocks the next one."
  },
  {
   "property": "C81",
   "status": "partial",
   "theorems": [
    "Pkm.Pythons.chosen_best",
    "Pkm.Pythons.chosen_iff",
    "Pkm.Pythons.chosen_any_order",
    "Pkm.Pythons.installed_list",
    "Pkm.Pythons.installed_fails_iff",
    "Pkm.Pythons.chosen_later",
    "Pkm.Pythons.pythons_tried",
    "Pkm.Pythons.tried_only",
    "Pkm.Pythons.chosen_broken_violated",
    "Pkm.Pythons.path_file_violated",
    "Pkm.Pythons.chosen_tie_violated",
    "Pkm.Pythons.chosen_preview_violated",
    "Pkm.Pythons.tried_name_violated",
    "Pkm.Pythons.search_paths_violated"
   ],
   "note": "The choice is proved the best, for versions without local labels, if no program that is tried breaks the search. A program that cannot be run, or a file in PATH, makes every search fail; between two interpreters of one version the choice changes from process to process; previews are preferred to releases; the configured directories are searched for files named python only."
  },
  {
   "property": "C82",
   "status": "partial",
   "theorems": [
    "Pkm.Zoo.zoo_history",
    "Pkm.Zoo.zoo_outcome",
    "Pkm.Zoo.open_again",
    "Pkm.Zoo.list_load",
    "Pkm.Zoo.delete_only",
    "Pkm.Zoo.others_untouched",
    "Pkm.Zoo.export_copies",
    "Pkm.Zoo.exported_stays",
    "Pkm.Zoo.export_all",
    "Pkm.Zoo.exported_remains_violated",
    "Pkm.Zoo.delete_zoo_violated",
    "Pkm.Zoo.delete_shared_violated",
    "Pkm.Zoo.export_all_violated"
   ],
   "note": "Proved for names that are one component of a path and not one of the two the zoo uses, outside Windows, and for interpreters outside the zoo. The names '', '.', '..' and '.zoo' delete the zoo, what is above it, or its shared packages; exported scripts outlive their environment; export_all_scripts takes files from directories whose name begins with bin."
  },
  {
   "property": "C83",
   "status": "partial",
   "theorems": [
    "Pkm.Containers.script_runs",
    "Pkm.Containers.launch_own_module",
    "Pkm.Containers.launch_directories",
    "Pkm.Containers.child_directories",
    "Pkm.Containers.plain_program",
    "Pkm.Containers.path_has_bin_partial",
    "Pkm.Containers.scripts_exposed",
    "Pkm.Containers.linked_container_violated",
    "Pkm.Containers.status_violated",
    "Pkm.Containers.same_function_violated",
    "Pkm.Containers.bad_name_violated",
    "Pkm.Containers.sys_name_violated",
    "Pkm.Containers.nested_violated",
    "Pkm.Containers.path_part_violated"
   ],
   "note": "The meaning of the Python texts that pkm writes is modelled, not the texts. Proved for containers without links, and for scripts whose names, with _ for - and ., are different identifiers other than sys. Violated: with a link (editable installation) in the container the environment's modules come first; the status is always 0; scripts whose names differ in - . _ only run the same function; a name that is no identifier breaks all scripts; a program that is started by one of another container also has the packages of that one; PATH is searched for a part of a text."
  },
  {
   "property": "C84",
   "status": "partial",
   "theorems": [
    "Pkm.Containers.install_found_partial",
    "Pkm.Containers.install_others",
    "Pkm.Containers.install_new_iff",
    "Pkm.Containers.containers_found",
    "Pkm.Containers.plugins_are",
    "Pkm.Containers.main_exists",
    "Pkm.Containers.shadowed_violated",
    "Pkm.Containers.main_violated"
   ],
   "note": "Proved for applications that the environment itself does not have and whose names have no neighbouring separators; what the resolution in the container arrives at is a parameter. Violated: if the environment has the application itself, its container is not found and is installed anew each time; an application named x-containerized is taken for x."
  },
  {
   "property": "C85",
   "status": "partial",
   "theorems": [
    "Pkm.context_nearest",
    "Pkm.context_given",
    "Pkm.context_none",
    "Pkm.context_of_subdirectory",
    "Pkm.context_global",
    "Pkm.context_global_refused",
    "Pkm.parent_by_path",
    "Pkm.parent_by_path_found",
    "Pkm.context_options",
    "Pkm.option_nearest",
    "Pkm.context_of_partial",
    "Pkm.context_of_pkm_violated",
    "Pkm.site_violated",
    "Pkm.tasks_project_partial",
    "Pkm.tasks_project_violated"
   ],
   "note": "The search is proved in full for disks without links. Violated: the site asked for with -s is never used; `pkm` without a command ends in an IndexError; in an environment inside a project a command works on the environment while the tasks of the project run around it."
  },
  {
   "property": "C86",
   "status": "partial",
   "theorems": [
    "Pkm.execute_in_order",
    "Pkm.parent_surrounds",
    "Pkm.parent_fails",
    "Pkm.grandparent_surrounds_violated",
    "Pkm.generator_runs_violated"
   ],
   "note": "Proved for a parent and the command directly below. Violated: two words below, the second part of a parent is over before the command starts; a generator without a word after it does not run at all."
  },
  {
   "property": "C87",
   "status": "partial",
   "theorems": [
    "Pkm.attached_leads_partial",
    "Pkm.attached_none",
    "Pkm.attached_order_partial",
    "Pkm.attached_runs_violated",
    "Pkm.attached_shadowed_violated",
    "Pkm.attached_dotted_violated",
    "Pkm.attached_own_violated",
    "Pkm.task_pythonpath",
    "Pkm.pythonpath_kept_partial",
    "Pkm.pythonpath_kept_violated",
    "Pkm.run_by_name_partial",
    "Pkm.run_by_name_violated",
    "Pkm.packaged_task_partial",
    "Pkm.packaged_task_violated",
    "Pkm.task_project_violated",
    "Pkm.program_arguments",
    "Pkm.task_arguments_partial",
    "Pkm.task_empty_violated",
    "Pkm.task_option_violated"
   ],
   "note": "Python's search for modules is modelled for directories (packages, modules, namespace packages). Violated: a missing comma makes every attached task fail, and with a task before it no command runs; a package `commands` or a package in the working directory hides tasks; tasks do not see the project; options given first are refused, an empty argument drops the rest."
  },
  {
   "property": "C88",
   "status": "partial",
   "theorems": [
    "Pkm.project_install_partial",
    "Pkm.app_install_partial",
    "Pkm.app_install_several_partial",
    "Pkm.environment_install_violated",
    "Pkm.environment_force_violated",
    "Pkm.refused_install_violated"
   ],
   "note": "Proved for projects, and for a single application in an environment. Violated in every environment otherwise: the command ends in a NameError, with -f after removing the packages."
  },
  {
   "property": "C89",
   "status": "partial",
   "theorems": [
    "Pkm.conda_offers",
    "Pkm.conda_order_partial",
    "Pkm.conda_answers",
    "Pkm.conda_best",
    "Pkm.conda_best_exists",
    "Pkm.conda_match",
    "Pkm.conda_build_partial",
    "Pkm.conda_build_violated",
    "Pkm.conda_dependency_any",
    "Pkm.conda_dependency_alternatives_partial",
    "Pkm.conda_any_alternative_violated",
    "Pkm.conda_version_exact",
    "Pkm.conda_version_star",
    "Pkm.conda_version_clause",
    "Pkm.conda_version_any",
    "Pkm.conda_pin_no_build",
    "Pkm.conda_pin_other_channel",
    "Pkm.conda_star_violated",
    "Pkm.conda_pin_matches",
    "Pkm.conda_pin_one_partial",
    "Pkm.conda_pin_several_violated",
    "Pkm.conda_python_from_partial",
    "Pkm.conda_python_any_partial",
    "Pkm.conda_python_upper_violated",
    "Pkm.conda_subdir_platform",
    "Pkm.conda_subdir_table",
    "Pkm.conda_apple_violated",
    "Pkm.conda_linux32_violated",
    "Pkm.conda_noarch_violated",
    "Pkm.conda_odd_python_violated",
    "Pkm.conda_name_violated",
    "Pkm.conda_channel_partial",
    "Pkm.conda_channel_case_violated"
   ],
   "note": "What is offered, the choice of artifacts and the reading of versions are proved; order without local labels, Pythons by their least version. Violated: the upper end of a dependency on Python is not looked at; a single artifact with another kind of dependency on Python makes its package fail; builds match by their beginning; a dependency on several builds has no answer; artifacts for any platform, Apple's processor and 32-bit Linux are never served; `3.6*` is 3.6 alone."
  },
  {
   "property": "C90",
   "status": "partial",
   "theorems": [
    "Pkm.conda_checked_first",
    "Pkm.conda_rejected",
    "Pkm.conda_installed_partial",
    "Pkm.conda_untouched",
    "Pkm.conda_record_partial",
    "Pkm.conda_failed_partial",
    "Pkm.conda_directories_violated",
    "Pkm.conda_hook_never",
    "Pkm.conda_hook_violated",
    "Pkm.conda_generated_violated",
    "Pkm.conda_two_pythons_violated"
   ],
   "note": "Proved for artifacts whose modules are for one version of Python and whose files have places of their own. A failed installation leaves directories; one that fails in its hook leaves the information about the package; generated files are not recorded."
  },
  {
   "property": "C91",
   "status": "partial",
   "theorems": [
    "Pkm.torch_offers",
    "Pkm.torch_answers",
    "Pkm.torch_order",
    "Pkm.torch_compatible",
    "Pkm.torch_cuda_order_partial",
    "Pkm.torch_cuda_order_violated",
    "Pkm.torch_odd_version_violated",
    "Pkm.torch_table_violated",
    "Pkm.torch_build_violated",
    "Pkm.torch_no_driver_violated"
   ],
   "note": "The order among the builds of one version holds for labels with the same number of digits. The repository cannot be built at all, as it looks for its table in a module of another name; with the shipped table the builds for five versions of CUDA are never offered."
  },
  {
   "property": "C92",
   "status": "partial",
   "theorems": [
    "Pkm.html_select",
    "Pkm.html_round_trip",
    "Pkm.cuda_load_partial",
    "Pkm.cuda_load_backup",
    "Pkm.cuda_load_empty_violated",
    "Pkm.html_void_violated",
    "Pkm.html_unclosed_violated",
    "Pkm.html_data_violated",
    "Pkm.cuda_row",
    "Pkm.html_extra_end"
   ],
   "note": "Proved for properly nested pages that have the table. A page without it erases the saved table; a page with elements that have no end is never read."
  },
  {
   "property": "C93",
   "status": "partial",
   "theorems": [
    "Pkm.shared_modules",
    "Pkm.shared_scripts",
    "Pkm.shared_info",
    "Pkm.shared_only",
    "Pkm.shared_elsewhere",
    "Pkm.shared_bystanders",
    "Pkm.shared_record",
    "Pkm.shared_unlink",
    "Pkm.shared_untagged",
    "Pkm.shared_base_fails",
    "Pkm.shared_data_violated",
    "Pkm.shared_second_use_violated",
    "Pkm.shared_then_unusable_violated",
    "Pkm.shared_failed_link_violated",
    "Pkm.shared_text_prefix_violated",
    "Pkm.shared_stem_violated",
    "Pkm.shared_no_mode_violated",
    "Pkm.shared_dependencies"
   ],
   "note": "Proved for the first environment that installs the package, when the installation succeeds. Recorded data files are lost, a second environment always gets an AttributeError, and a failure after the move leaves the package nowhere in the environment."
  },
  {
   "property": "C94",
   "status": "partial",
   "theorems": [
    "Pkm.patch_runs_partial",
    "Pkm.patch_others",
    "Pkm.script_mode",
    "Pkm.patch_arguments_violated",
    "Pkm.patch_w_violated",
    "Pkm.patch_again_violated",
    "Pkm.entry_runs_partial",
    "Pkm.entry_blank_violated",
    "Pkm.windows_launcher_violated",
    "Pkm.launcher_fails_violated",
    "Pkm.launcher_kind",
    "Pkm.entry_launcher_kind"
   ],
   "note": "Proved for paths of interpreters without blanks and scripts without arguments. Windows is never recognised, and its launchers always raise."
  },
  {
   "property": "C95",
   "status": "partial",
   "theorems": [
    "Pkm.monitor_transparent",
    "Pkm.monitor_nested",
    "Pkm.monitor_told",
    "Pkm.monitor_events",
    "Pkm.monitor_swallow_violated",
    "Pkm.monitor_enter_violated",
    "Pkm.monitor_notify_violated",
    "Pkm.async_once",
    "Pkm.async_twice_violated",
    "Pkm.listen_restores",
    "Pkm.listen_hides_violated",
    "Pkm.listen_forgets_violated"
   ],
   "note": "Proved for listeners that raise nothing and let exceptions pass (nesting for all). A listener that ends its generator replaces the exception by StopIteration; a second registration for a type hides the first."
  },
  {
   "property": "C96",
   "status": "partial",
   "theorems": [
    "Pkm.wheel_accepted",
    "Pkm.wheel_refused",
    "Pkm.wheel_puts",
    "Pkm.wheel_launchers",
    "Pkm.wheel_compiled",
    "Pkm.wheel_only",
    "Pkm.wheel_information",
    "Pkm.wheel_record",
    "Pkm.wheel_uninstalls",
    "Pkm.wheel_kinds",
    "Pkm.wheel_headers_violated",
    "Pkm.wheel_version_violated",
    "Pkm.wheel_information_unrecorded_violated",
    "Pkm.wheel_rollback_partial",
    "Pkm.wheel_overwrites_violated",
    "Pkm.wheel_again_violated",
    "Pkm.wheel_rollback_violated"
   ],
   "note": "All but the last sentence is proved for all wheels and trees (places that the wheel itself uses twice excepted). Rolling back is proved up to new directories and for wheels without script entry points; it is false for launchers. Headers, version `1` and the files of information in RECORD are violated, files of others are overwritten, and installing twice doubles RECORD."
  },
  {
   "property": "C97",
   "status": "partial",
   "theorems": [
    "Pkm.plan_run_returns",
    "Pkm.plan_run_states",
    "Pkm.plan_run_failed_partial",
    "Pkm.plan_run_raises",
    "Pkm.plan_run_quiet_partial",
    "Pkm.plan_run_progress",
    "Pkm.plan_run_ends",
    "Pkm.plan_run_view",
    "Pkm.plan_run_limit",
    "Pkm.plan_run_place",
    "Pkm.plan_run_refines",
    "Pkm.plan_run_reaches_plan",
    "Pkm.plan_run_no_failure",
    "Pkm.plan_run_untouched",
    "Pkm.plan_run_lost_violated",
    "Pkm.plan_run_quiet_violated",
    "Pkm.plan_run_interrupt_violated",
    "Pkm.plan_run_goes_on_violated",
    "Pkm.plan_run_view_violated"
   ],
   "note": "Proved for all plans and schedules: ending, the agreement with the sequential meaning of plans (C22), the result of a return, the exception, and the states at every moment. Missing: an update that fails or is killed between its phases loses the package; with processes, or after exceptions that are not `Exception`s, operations go on after the caller got the exception; without concurrency a failure stops nothing; after a failure the site is not read anew."
  },
  {
   "property": "C98",
   "status": "partial",
   "theorems": [
    "Pkm.nested_progress_partial",
    "Pkm.nested_deadlock_violated",
    "Pkm.nested_never_done_violated",
    "Pkm.nested_ends"
   ],
   "note": "Exactly characterised for two levels and mode `thread`: with fewer nested plans than workers no schedule gets stuck, with as many or more some schedule does. Plans below the inner ones and failures are not modelled."
  },
  {
   "property": "C99",
   "status": "partial",
   "theorems": [
    "Pkm.BuildCache.cache_hit",
    "Pkm.BuildCache.cache_miss",
    "Pkm.BuildCache.cache_sequence",
    "Pkm.BuildCache.cache_builds_once",
    "Pkm.BuildCache.cache_right_archive",
    "Pkm.BuildCache.cache_whole_at_end_partial",
    "Pkm.BuildCache.cache_ends",
    "Pkm.BuildCache.cache_isolated",
    "Pkm.BuildCache.cache_build_together",
    "Pkm.BuildCache.cache_killed_violated",
    "Pkm.BuildCache.cache_killed_wheel_violated",
    "Pkm.BuildCache.cache_half_metadata_violated",
    "Pkm.BuildCache.cache_empty_metadata_violated",
    "Pkm.BuildCache.cache_wheel_removed_violated",
    "Pkm.BuildCache.cache_remove_twice_violated",
    "Pkm.BuildCache.cache_two_archives_violated",
    "Pkm.BuildCache.cache_path_for_metadata_violated"
   ],
   "note": "For uses one after the other the property holds exactly as stated, except that a path is given for METADATA that had to be built as a wheel, and that two archives of one version push each other out. For any number of users at once, with kills: what is given is from the right archive, users end, users for other packages change nothing, and files are whole in the end unless a user is killed between opening a file and writing it. Missing, because false: users for the same package get half of the METADATA, empty METADATA, or an exception because their wheel or directory is gone; what is half written by a killed user is given for ever."
  }
 ]
}