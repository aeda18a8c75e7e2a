C01 proved
: version_lt_irrefl version_lt_trans version_lt_asymm version_lt_kinds std_lt_by_epoch std_lt_by_release std_lt_by_suffix
All versions of all three kinds.

C02 partial
: version_trichotomy_violated version_trichotomy_violated_url std_trichotomy_iff version_trichotomy_partial
The code violates trichotomy (local labels, URLs). std_trichotomy_iff characterises exactly when it holds for standard versions; URLs are ordered if both or none name how they are fetched.

C03 partial
: version_eq_equivalence std_eq_iff std_padding std_eq_lt_congr version_eq_lt_congr_partial version_eq_lt_congr_violated
Equivalence and padding hold for all; congruence with < fails for URL versions with different raw fields, proved for the rest.

C04 partial
: version_hash_violated version_hash_partial named_hash url_hash_violated
The hash contract fails for explicit epoch 0 and for URLs; proved when the epochs are both written or both absent.

C05 proved
: version_text_round_trip version_text_normalises version_text_injective version_text_other_tag
All versions in normal form; the second theorem covers every text that parses to a standard version.

C06 partial
: bump_release_greater bump_pre_violated bump_greater_partial bump_needs_three
bump(major|minor|patch) proved; bump(a|b|rc) of a pre-release can go backwards (witness).

C07 partial
: intersect_exact_conj_partial intersect_exact_region_partial intersect_violated_post intersect_violated_local intersect_violated_named intersect_violated_exclusions
The full claim is false of the code (four witnesses); proved exact on the two closed fragments Conj and Region for candidate versions.

C08 partial
: union_exact_partial union_exact_apart_partial union_violated union_violated_same_min union_mutates_argument_violated union_keeps_argument_partial
False for nested ranges and the argument is mutated; proved for staggered ranges, matches, and separated unions.

C09 partial
: inverse_exact_conj_partial inverse_exact_region_partial inverse_inverse_partial difference_exact_region_partial difference_exact_match_partial inverse_violated difference_violated
False for post releases and for exclusion lists; proved on the fragments.

C10 partial
: allows_any_sound_conj_partial allows_any_sound_region_partial allows_all_sound_conj_partial allows_all_sound_region_partial equal_specifiers_allow_same allows_any_violated allows_all_violated allows_all_none
False for named versions and post releases; proved on the fragments.

C11 partial
: comma_is_conjunction_partial comma_violated clauses_conj_partial clauses_region_partial clauses_violated
Any number and order of clauses without !=X.*, or without !=v; mixing them is a witness of failure.

C12 partial
: clause_meaning_final_partial clause_meaning_candidate_partial clause_post_violated clause_pre_violated
All nine kinds of clauses for final releases, comparison clauses for pre- and dev-releases too. Post releases and the pre-releases of the upper end are treated differently from PEP 440 (witnesses).

C13 partial
: specifier_text_all specifier_text_match specifier_text_range_partial specifier_text_minus_partial specifier_text_violated_tilde specifier_text_violated_union specifier_text_violated_none specifier_text_violated_label
Exact for matches and unambiguous ranges, semantic for exclusion lists; four witnesses of texts that read back differently.

C49 partial
: pep440_order_violated pep440_order_partial
The order is exactly that of PEP 440 for all versions without local label in which dev stands alone. With pre and dev, or post and dev, together the code orders the other way (witnesses).

C41 proved
: unordered_hash_perm unordered_mapping_perm ordered_hash_congr ordered_hash_regulars
For the hash values of the items as arbitrary integers.

C45 proved
: groupby_groups groupby_keys groupby_loses_nothing partition_exact unique_by_first unique_by_keys
All lists and key functions.

C51 partial
: add_if_absent_spec put_if_absent_spec get_or_put_spec without_keys_spec remove_by_value_spec startswith_spec argmin_spec without_prefix_spec without_suffix_partial without_suffix_violated get_or_default_violated without_first_spec
Holds except for without_suffix with an empty suffix and get_or_default (witnesses).

C35 partial
: normalize_name_idempotent normalize_name_shape name_key_ignores_case name_key_idempotent name_key_same_iff_partial descriptor_name_stable_partial descriptor_name_violated name_key_violated
Normalising twice is the same as once. Keys ignore case for all names, and separators for names without runs of separators; runs are not merged although documented (witnesses).

C19 proved
: update_lock_env update_lock_others update_lock_history update_lock_package unlock_packages_spec lock_grouped
As multisets for any lock and any history, and package by package in order for every lock the API can build.

C20 proved
: sort_by_lock_preference sort_by_lock_preference_perm locked_versions_spec
Locked means that the version is an element of the Python set of locked versions (same hash and equal).

C21 partial
: lock_file_round_trip_partial lock_file_violated
For standard versions and plain names; a name with a separator run is read back differently (witness). The TOML layer is C34 and C47.

C36 proved
: match_result pre_release_only_if final_release_offered match_idempotent
For every answer of the concrete repository and every compatibility predicate.

C37 proved
: best_artifact_spec
For every score function and every strict weak order of scores.

C38 partial
: bound_package bound_package_missing unbound_package url_package nested_lookup_order register_bindings_spec remove_repository_spec all_repositories_nearest inline_binding_violated shared_instance_violated
Holds for repositories with their own names; inline bindings share one name and equal definitions share one instance (witnesses).

C39 partial
: lookup_chain_terminates lookup_chain_once lookup_chain_complete_partial lookup_chain_violated lookup_chain_global_violated
Termination and no duplicates in general; completeness if every configuration is inherited from in one way.

C22 partial
: plan_operations plan_executes plan_keeps_untouched plan_keeps_request_partial plan_store_mode_partial plan_store_mode_violated
Every plan and site, tasks in any order. A store mode is ignored if the plan keeps the installed object (witness).

C23 proved
: find_orphans_exact installation_tree_exact
Every site graph, cyclic ones included.

C53 partial
: uninstall_keeps uninstall_reports_partial uninstall_violated
For every answer of the resolver; the report is right for names written as installed, wrong for equivalent spellings (witness).

C54 partial
: installed_offered_fast installed_offered_slow new_offered latest_offered missing_package_violated fast_plan_keeps_installed_partial slow_plan_roots plan_updates_violated
A missing package makes planning fail with ValueError, and a package in updates that nothing new needs is removed (witnesses).

C24 partial
: uninstall_succeeds uninstall_removes_recorded uninstall_touches_only_partial uninstall_directories_partial uninstall_leaves_no_empty_directory uninstall_pycache_violated uninstall_sibling_violated
Every file system, RECORD and set order. Also files in __pycache__ directories next to recorded files go, and sibling directories whose names start like the site (witnesses).

C25 partial
: verify_iff verify_sound_partial verify_warns verify_dist_info_violated verify_nested_violated
Exact characterisation of acceptance. Below any directory named *.dist-info a wrong signature only gives a warning (witnesses). Hash functions are abstract.

C26 partial
: rollback_exact_partial rollback_restores_partial copy_tree_rolls_back_partial rollback_twice_violated rollback_directories_violated rollback_touch_violated rollback_file_copy_violated
For bodies of mkdir, copy and rm calls with an exception at any point that touch no file twice and overwrite no directory. Nested created directories stay for some set orders; touched files and files overwritten twice are lost (witnesses).

C27 partial
: transaction_success transaction_copied transaction_untouched copied_files_complete copy_tree_copies copy_tree_inside copy_tree_nested_violated
Full for copy, mkdir, rm, touch and copy_tree; copy_tree does not hand file_copy on to subdirectories (witness).

C28 partial
: path_to_leads_partial path_to_root_violated
All absolute paths without dot components except the root as destination, for which the code does not end.

C55 partial
: sign_files_records sign_files_signature_partial install_uninstall_partial sign_files_signature_violated container_record_partial container_record_violated
For files; a hash line of the wheel for a file that is not in the wheel is taken over unchecked (witness). The RECORD of a container may reuse the hash of another file (witness). Compilation to pyc files and the generation of scripts enter as touched files.

C29 partial
: promise_completed_once promise_result_fixed_partial promise_falsy_exception_violated promise_called_after_completion promise_listener_at_most_once promise_no_deadlock promise_listeners_all_called promise_terminates promise_no_crash
All schedules of any number of threads. An exception object that is false in a boolean context is taken for success (witness); otherwise the full property.

C30 proved
: cached_computed_once cached_same_value cached_no_deadlock cached_terminates cached_no_key_error cached_clear_violated cached_clear_race_violated
All schedules of reading threads, with exceptions of the compute function. Deleting the value meanwhile, which the property does not speak about, can run the computation twice at a time or fail with AttributeError (witnesses).

C46 proved
: pool_bounded pool_fifo pool_done_once pool_nothing_lost pool_uses_workers pool_cancel_ignored pool_cancel_kills_other_violated pool_close_spawns_violated
All schedules with process deaths, idle timeouts, close and cancel. Beyond the property: cancel does nothing for running tasks and kills other tasks for completed ones; close with a busy worker starts processes without end (witnesses).

C31 partial
: cache_complete_partial cache_saved cache_deleted cache_truncated_violated cache_stale_info_violated cache_torn_info_violated
All crash points of all histories of stores, provided that the transfer reports errors. A body that ends early without error is stored as complete, an old handle can write its info over newer data, and an info file torn by a crash makes every later load fail (witnesses).

C32 partial
: fetch_one_download fetch_no_deadlock fetch_no_key_error fetch_fresh_partial fetch_contacts_partial fetch_after_hit_violated fetch_update_violated fetch_broken_violated fetch_not_modified_violated retrieved_after_sound retrieved_after_violated
All schedules. Downloads are shared and fresh if no fetch was answered from the stored files before; after such a fetch no fetch of the URL contacts the server any more (general theorem and witness). Different texts of the same URL have their own entries, which is not modelled.

C33 partial
: request_bounded request_redirects_bounded request_reaches_answer request_all_fail request_repeated_violated request_message_violated
All servers. A failure while the body is read makes the request being sent again; the message of too many redirections names a wrong number (witnesses).

C56 proved
: url_round_trip url_text_injective url_parse_web
All URLs of the http and https schemes; urlsplit of the standard library is modelled without its checks for brackets and control characters.

C57 partial
: redirect_path_partial redirect_absolute redirect_query_violated redirect_path_query_violated redirect_network_path_violated request_follows
Absolute locations and absolute paths without query from URLs without query. Otherwise the old query is kept, the new one is put into the path, and //host is taken for a path (witnesses).

C58 partial
: hash_check_partial hash_check_answers hash_check_violated
All histories, as long as the files are not replaced after the handle was made.

C14 partial
: resolution_closed_partial resolution_solves_partial resolution_satisfies_violated
The selection contains the root, only offered versions, and every dependency of every selected version, for any problem, any set order and any specifier operations. That the constraints are met is false of the code (witness with the specifiers of the code): a version that is selected a second time makes a dependency object that is never looked at again. For exact specifier operations and problems whose neighbouring versions share no dependency the full claim is proved, for any problem size and any set order.

C15 proved
: resolution_one_version resolution_needed
For any problem, any set order and any specifier operations; needed is taken transitively from the root.

C16 proved
: backtrack_keeps backtrack_restores resolution_is_search
For all searches, of which the runs of the solver are instances.

C17 partial
: resolution_unsolvable_violated resolution_found_partial
False of the code: a witness with a solution that the solver calls unsolvable (a learned incompatibility uses the accumulated constraint in place of the term). Proved where no decision has to be taken back: such a problem is solved, so it is not called unsolvable.

C59 partial
: resolution_found_partial resolution_ends_violated resolution_fails_violated resolution_post_violated
Proved for all problems in which the preferred versions fit together (final-ended ranges, `==`, `*`; no post releases offered), whatever the set orders: the solver ends with exactly these versions and they solve the problem. False of the code in general: two endless searches (for all fuel), an AssertionError and an IndexError on problems with solutions, an IndexError without any conflict when the newest version is a post release.

C18 partial
: resolver_output resolver_no_key_error resolver_packages resolver_names_once resolver_constraints_partial resolver_extras_violated resolver_empty_extras_violated resolver_override_case_violated
Every successful resolution returns the packages of the entries without extras of a selection that is closed under the applicable, possibly overridden dependencies and the base packages of entries with extras, and in which every entry has a reason; for all repositories, overrides, markers and set orders. The version of the base package and the constraints: proved for exact specifier operations and unshared neighbours. False in general: a further dependency on the base package replaces the pin, an empty extras list is an entry of its own, overrides are looked up by the unnormalised name.

C34 partial
: toml_string_partial toml_round_trip_partial toml_backslash_violated toml_null_violated toml_number_violated toml_empty_table_violated toml_inline_empty_violated toml_comment_end_violated
Strings without null characters that do not end with a backslash are read back as themselves. Whole documents, nested to
any depth, are read back as equal data (dict equality), given that strings are of that kind, that no table below the root is
empty and that the text does not end with a digit. The code fails in the excluded cases: witnesses are proved. Floats, dates
and recorded styles are not modelled.

C42 partial
: Markers.marker_precedence Markers.marker_read_sound Markers.marker_unambiguous Markers.marker_extra Markers.marker_unknown Markers.marker_version_partial Markers.marker_string_partial Markers.marker_in Markers.marker_arbitrary_violated Markers.marker_letter_violated Markers.marker_extra_ne_violated
The reading of and, or and parentheses, and the evaluation order, are proved for all expressions of any size, all environments and all extras; the accepted texts are exactly those of well formed expressions. Comparisons: extra == is proved; version comparisons for final releases and literals in normal form; text comparisons for texts starting with a letter other than v; in and not in for all texts. False of the code: === is not readable, literals cannot contain J, extra != is always true (witnesses).

C50 partial
: Reqs.requirement_round_trip_partial Reqs.requirement_round_trip_minus_partial Reqs.requirement_reparse_partial Reqs.requirement_name_normal Reqs.requirement_digit_violated Reqs.requirement_empty_extras_violated Reqs.requirement_exclusion_violated Reqs.requirement_url_marker_violated
Printing and reading gives the same requirement (name, extras, constraint, marker text and value everywhere) for names that start with a letter or underscore, extras other than the empty list, and constraints that are a match, an exclusion, a range or a range minus versions in normal form. The excluded cases fail: witnesses are proved.

C40 partial
: Build.build_never_nested Build.build_ends Build.build_order Build.build_success_acyclic Build.build_cycle_partial Build.build_meta_then_wheel_violated Build.build_missing_hook_violated Build.build_processes_violated
No package is built inside its own build, building ends, builds complete after everything they need, and every cycle makes the build fail: proved for all requirement graphs and caches, for builds that stay in one process (the order also otherwise). That a reported cycle is a real one is proved when no two requests of a build lead to the same package; it is false of the code when metadata and wheel of a requirement are both built, or the metadata hook is missing. With other processes the recursion can be endless (witness).

C43 partial
: Shared.shared_kept_iff Shared.shared_files_kept Shared.shared_no_empty Shared.shared_idempotent Shared.shared_other_path_violated
A directory is kept iff an environment names it by the text of its path; for all workspaces and environments, without symbolic links. False if the workspace was reached by another path when the package was linked (witness).

C44 partial
: Act.activate_restores Act.activate_restores_set Act.activate_nested Act.activate_search_order Act.activate_search_order_unset Act.zoo_restores_partial Act.run_proc_vars Act.zoo_empty_path_violated Act.activate_deleted_violated Act.activate_threads_violated
For bodies of any kind and any nesting, ending normally or by an exception, as long as the body does not leave the variables unset. Witnesses: the zoo unsets an empty PATH, a deleted PATH leaves VIRTUAL_ENV set, two threads leaving in the order they came.

C47 partial
: Config.config_round_trip_partial Config.value_round_trip_partial Config.version_belongs Config.raw_belongs Config.enum_belongs Config.path_belongs Config.config_written_at_keys Config.unknown_data_kept_partial Config.absent_attribute Config.contact_name_kept Config.pyproject_loses_tool_tables_violated Config.repositories_never_saved_violated Config.optional_attribute_not_loaded_violated Config.none_becomes_default_violated Config.string_for_list_violated Config.contact_name_grows_violated Config.contact_without_name_violated
Objects of configuration classes, nested to any depth, are loaded as they were saved, given codecs that read what they write, keys that name different places and either no dotted keys or no field for what is left. Each value is written at its dotted key and nowhere else; unknown data are kept. False in general: a pyproject.toml that is loaded and saved loses its tool.pkm tables, repository configurations can never be saved, Optional attributes cannot be loaded, names of authors grow with each saving.

C60 partial
: Config.wheel_file_round_trip_partial Config.wheel_file_colon_violated Config.pyvenv_of_python_violated Config.wheel_file_repeated_key_violated Config.pyvenv_not_for_python_violated
Read back for keys and values on one line without colon and surrounding blanks; with a colon the written file is unreadable, a repeated key keeps its last value, pyvenv.cfg files made by Python are not readable and those made here have no line that Python takes into account.

C48 partial
: Cli.line_is_read_as_typed_partial Cli.incomplete_line_is_refused Cli.unknown_option_is_refused Cli.extra_argument_is_refused Cli.too_few_values_are_refused Cli.fields_are_read_as_typed Cli.missing_field_is_refused Cli.parse_ends Cli.empty_argument_violated Cli.flag_with_value_violated Cli.empty_value_violated Cli.value_blanks_violated Cli.option_after_values_violated Cli.lone_dash_violated
For all command trees with distinct attribute names and all lines made of options in their spellings, positional arguments and sub-commands: each value is bound, the rest gets its default, incomplete lines and unknown options are refused, reading ends. Fields are treated apart from lines. Dynamic commands are not modelled. Witnesses: arguments after an empty one are ignored, a value typed with a flag is taken as the next argument, an empty value takes the next argument, blanks around values are lost, options after a list of values are values, a lone dash is ignored.

C52 partial
: Tags.scored_iff_supported_partial Tags.set_has_best_score Tags.better_abi_preferred Tags.specific_platform_preferred Tags.newer_manylinux_preferred Tags.own_implementation_preferred Tags.closer_version_preferred Tags.tags_of_wheel_name Tags.musl_violated Tags.odd_part_violated Tags.width_violated Tags.unknown_platform_violated
For all tag sets of the known forms (any number of tags, musllinux tags excluded) and all glibc linux, mac and other systems: a score exists iff a combination is supported; best score and preferences. Fails on musl systems (nothing installable), for sets with one part of another form, for a 32 bit interpreter on a 64 bit system, and accepts unknown manylinux spellings (witnesses).

C61 partial
: Dist.csv_round_trip Dist.record_file_round_trip_partial Dist.signature_round_trip Dist.encode64_injective Dist.signature_accepts Dist.signature_malformed Dist.record_columns_refused Dist.record_hash_refused Dist.encode64_is_base64 Dist.record_file_violated Dist.record_empty_line_violated
The csv layer reads back every list of rows of any texts. Records with path, signature and length are read back for all paths; a signature accepts exactly the data with the same digest. Records without signature, such as that of RECORD itself, are loaded but cannot be saved, and the attempt truncates the file (witness).

C62 partial
: Entry.reference_round_trip Entry.reference_extras_partial Entry.entrypoints_round_trip_partial Entry.entry_twice_refused Entry.entry_group_twice_refused Entry.entry_scripts Entry.entry_extras_violated Entry.entry_module_extras_violated Entry.entry_colon_violated
For all lists of entry points without extras whose names fit the format. With extras the object gets a blank at its end with each saving, extras after a module become part of its name, and names with a colon, which the format allows, are cut (witnesses).

C63 partial
: Projects.project_dependencies_partial Projects.project_no_extras_partial Projects.project_marker_violated Projects.project_group_letter_violated
For all projects whose optional requirements have no marker or one that starts with the clause of their extra, and all environments in which the markers have a value. An optional requirement with a marker of its own applies without its extra, and a group with a capital J in its name makes the project unusable (both general).

C64 partial
: Projects.generalized_allows Projects.generalized_major_partial Projects.generalized_post_violated Projects.generalized_local_violated Projects.generalized_pre_violated Projects.project_add Projects.project_add_rollback Projects.project_add_file Projects.project_add_extras_violated Projects.project_add_lock_violated Projects.project_add_group_violated Projects.project_remove Projects.project_remove_rollback_violated
For all projects and lists of requests: what is written, what is kept and the return to the old configuration when installing fails. Lost are extras and markers of requests without version; the lock may not have what the configuration names; a failed removal leaves the configuration changed (witnesses).

C65 partial
: Projects.group_projects Projects.group_projects_exist Projects.group_cycle_violated Projects.group_missing_violated Projects.group_of Projects.group_of_none Projects.group_and_back Projects.group_root_violated Projects.group_add Projects.group_add_violated Projects.group_remove Projects.group_add_remove Projects.group_remove_relative_violated Projects.group_remove_named_partial Projects.group_remove_named_violated
For all trees of groups. Groups that contain each other and listed directories without project make the listing fail, the root of a group is always none, an addition is not seen by an object that has listed its children, removal by name fails for a group with subgroups and removal by relative path depends on the working directory (witnesses).

C66 partial
: Projects.project_scripts_partial Projects.project_gui_violated Projects.project_entry_points_violated
For all projects with scripts only. Gui scripts become console scripts (witness); a project with other entry points cannot be built at all: the property asks for itself without end (general). Two projects of the repository itself are of this kind.

C67 partial
: Meta.metadata_round_trip_partial Meta.metadata_description_violated Meta.metadata_keyword_violated Meta.metadata_long_violated Meta.project_metadata_partial Meta.project_maintainers_violated Meta.project_authors_violated Meta.built_dependencies_partial
For all metadata whose lines fit in one header line, for every header printer that prints such lines plainly. The description is never read back, a single keyword comes back as a text, folded values come back with the line break (general), maintainers are not written and authors lose their pairing (general).

C68 partial
: Http.Pool.pool_exclusive Http.Pool.pool_bounded Http.Pool.pool_closed Http.Pool.pool_answers_partial Http.Pool.pool_unread_violated Http.Pool.pool_broken_violated Http.Pool.pool_retry_partial Http.Pool.pool_retry_violated
Exclusion, the limit and the closing for all interleavings. Answers are right if bodies are read to their end and nothing breaks while a request is sent; an unread body garbles the next answer and a connection that broke is kept and refuses every later request (general).

C69 partial
: Upload.chunks_content Upload.upload_read_partial Upload.upload_closed Upload.upload_closing_violated Upload.upload_quote_violated Upload.upload_retry_violated Upload.publish_partial Upload.publish_build_violated
Against a reader of forms after RFC 2046 and 7578, for all fields without quotes in names. The end of the form is never marked, repeated requests send an empty file, the build number of a wheel is sent as python tag (general), a quote in a file name breaks the form (witness).

C70 partial
: Pth.pth_round_trip_partial Pth.pth_site_partial Pth.pth_import_violated Pth.pth_blank_violated
For all absolute paths in one line that do not end in a blank, against what site.py does. Paths ending in a blank link another directory (general), an empty import becomes a link (witness).

C71 partial
: Index.simple_links Index.simple_links_readable Index.simple_file_version Index.simple_file_version_violated Index.simple_match_exact Index.simple_match_order_partial Index.simple_history Index.simple_match_total Index.simple_relative_link_violated Index.simple_absolute_link Index.simple_same_version_violated Index.simple_one_bad_file_violated Index.pypi_match_exact Index.pypi_match_order_partial Index.pypi_match_total Index.pypi_odd_versions_violated Index.pypi_download_checked Index.simple_download_checked Index.simple_download_unchecked
Answers are exact for every page and listing. The order is proved for versions without local labels. Relative links are resolved against the root of the host, a file without a version in its name makes all requests for its page fail (both general), spellings of one version are offered as several packages (witness).

C72 partial
: DistFiles.wheel_name_read DistFiles.sdist_name_read_partial DistFiles.sdist_label_violated DistFiles.sdist_dashed_name_violated DistFiles.file_package_dependencies_violated DistFiles.project_package_dependencies DistFiles.directory_answer DistFiles.directory_packages DistFiles.directory_underscore_violated DistFiles.directory_bogus_project_violated DistFiles.file_url_name_violated DistFiles.file_url_answer
File names of wheels, and of source distributions with plain names and no local label; projects tell their dependencies. Labels, dashed names, requests with an underscore and the dependencies of file packages go wrong in general; every directory without a project offers one.

C73 partial
: Git.git_first_request Git.git_history_partial Git.git_inside_partial Git.git_never_updated_violated Git.git_default_after_branch_violated Git.git_user_violated Git.git_port_violated Git.git_crash_violated Git.git_crash_point Git.git_group_violated Git.git_collision_violated Git.git_outside_violated Git.git_case_violated
For all histories of requirements on hosting sites (https://host/owner/name, with or without a branch) an answer is a clone of what was asked for, at the time of this or an earlier request. Clones are never updated; after a branch the project without a branch is lost; user names, other ports, capital letters, project groups and interrupted clones go wrong, all in general; collisions by a witness.

C74 partial
: Dists.wheel_contents_src Dists.wheel_contents_root Dists.wheel_contents_configured Dists.configured_built_iff Dists.default_built Dists.wheel_record_exact Dists.built_wheel_verifies Dists.built_editable_verifies Dists.editable_links Dists.editable_offers_all Dists.wheel_from_sdist Dists.wheel_from_sdist_partial Dists.sdist_buildable_partial Dists.wheel_name_back_partial Dists.sdist_name_back_partial Dists.accepted_by_partial Dists.accepted_by_default_partial Dists.top_module_violated Dists.whole_project_packed_violated Dists.pycache_packed_violated Dists.nested_package_violated Dists.same_name_violated Dists.sdist_nested_violated Dists.dotted_name_violated Dists.next_major_violated Dists.upper_bound_violated
Exact contents for the three layouts, RECORD and its verification, editable links, the way through the source distribution and the names are proved for all projects, with the restrictions named in the theorems. Modules outside of packages are left out, projects without src pack everything, nested packages are flattened and their source distributions cannot be built, dots in names are lost, an interpreter requirement is cut to one major version and one with only an upper bound raises.

C75 partial
: Auth.auth_history Auth.auth_typed_twice Auth.auth_wrong_password Auth.auth_locked_out Auth.publish_asks Auth.publish_saves_only Auth.publish_saves Auth.auth_mistyped_violated Auth.auth_rekey_violated Auth.auth_lost_update_violated Auth.auth_crash_violated Auth.publish_ignores_saved_violated
Proved for all histories of one user who knows the password, with an ideal cipher. A mistyped password spoils the store object, or re-seals the file; concurrent runs lose additions; a crash loses everything; and saved credentials are never used.

C76 partial
: Releases.publish_careful_partial Releases.publish_succeeds Releases.clean_dist Releases.clean_dist_versions Releases.clean_dist_all Releases.publish_stale_violated Releases.publish_failed_build_violated Releases.publish_bumped_violated Releases.clean_dist_equal_violated
Proved for all histories in which commands succeed and the sources are edited only before the version is built. Otherwise publish uploads the stale build, or nothing after a failed build; a bumped project object publishes the old files as the new version.

C77 partial
: Releases.attached_existing Releases.attached_outside Releases.attached_created Releases.attached_place Releases.attached_default_separate Releases.attached_wiped_violated Releases.attached_zoo_shared_violated
Proved: existing environments are unchanged and nothing outside the configured directory changes. Violated inside it: a configured directory that is not an environment is deleted, also when no interpreter fits; projects of one name in a zoo share the environment.

C78 partial
: Templates.template_conflict Templates.template_rendered_partial Templates.template_keeps_files_partial Templates.template_overwrite Templates.template_kinds Templates.template_no_rest Templates.template_success Templates.template_default_ignored Templates.template_ignore_patterns Templates.template_ignore_file_violated Templates.template_preserve_violated Templates.template_escape_violated Templates.template_into_directory_violated Templates.template_clash_violated
Proved for templates whose names are rendered to plain, distinct names, without preserved directories, and where no file comes on a directory. Otherwise existing files are overwritten (names with .., files on directories), files are lost (two with one name, those after a preserved directory) and an ignore file makes render.py part of the output. For every template without preserved directories: files stay files, directories stay directories, nothing is left of the temporary directory, and success means that everything is there.

C79 partial
: Cli.Methods.option_names Cli.Methods.option_names_distinct Cli.Methods.stripped_field Cli.Methods.method_fields_partial Cli.Methods.method_option_reaches Cli.Methods.method_call Cli.Methods.method_varargs_violated Cli.Methods.method_required_violated Cli.Methods.method_underscore_violated Cli.Methods.method_help_violated
Proved for functions without *args whose parameters have no runs of underscores and some keyword-only default. Functions with *args cannot be called, those with only required keyword-only parameters cannot be made a command, and a parameter may take -h from the help.

C80 partial
: EnvBuild.create_contents EnvBuild.create_is_venv EnvBuild.create_keeps EnvBuild.create_refuses EnvBuild.create_failed EnvBuild.create_windows_partial EnvBuild.create_windows_violated EnvBuild.create_windows_failed_violated EnvBuild.environment_home_violated EnvBuild.create_windows_files_partial EnvBuild.not_venv EnvBuild.create_lib64
Outside Windows all of it holds, except that Python does not find the keys of pyvenv.cfg, for any interpreter. On Windows an environment is made only if there is a python.exe beside the interpreter, and a failed attempt leaves a directory behind that blocks the next one.

C81 partial
: Pythons.chosen_best Pythons.chosen_iff Pythons.chosen_any_order Pythons.installed_list Pythons.installed_fails_iff Pythons.chosen_later Pythons.pythons_tried Pythons.tried_only Pythons.chosen_broken_violated Pythons.path_file_violated Pythons.chosen_tie_violated Pythons.chosen_preview_violated Pythons.tried_name_violated Pythons.search_paths_violated
The choice is proved the best, for versions without local labels, if no program that is tried breaks the search. A program that cannot be run, or a file in PATH, makes every search fail; between two interpreters of one version the choice changes from process to process; previews are preferred to releases; the configured directories are searched for files named python only.

C82 partial
: Zoo.zoo_history Zoo.zoo_outcome Zoo.open_again Zoo.list_load Zoo.delete_only Zoo.others_untouched Zoo.export_copies Zoo.exported_stays Zoo.export_all Zoo.exported_remains_violated Zoo.delete_zoo_violated Zoo.delete_shared_violated Zoo.export_all_violated
Proved for names that are one component of a path and not one of the two the zoo uses, outside Windows, and for interpreters outside the zoo. The names '', '.', '..' and '.zoo' delete the zoo, what is above it, or its shared packages; exported scripts outlive their environment; export_all_scripts takes files from directories whose name begins with bin.

C83 partial
: Containers.script_runs Containers.launch_own_module Containers.launch_directories Containers.child_directories Containers.plain_program Containers.path_has_bin_partial Containers.scripts_exposed Containers.linked_container_violated Containers.status_violated Containers.same_function_violated Containers.bad_name_violated Containers.sys_name_violated Containers.nested_violated Containers.path_part_violated
The meaning of the Python texts that pkm writes is modelled, not the texts. Proved for containers without links, and for scripts whose names, with _ for - and ., are different identifiers other than sys. Violated: with a link (editable installation) in the container the environment's modules come first; the status is always 0; scripts whose names differ in - . _ only run the same function; a name that is no identifier breaks all scripts; a program that is started by one of another container also has the packages of that one; PATH is searched for a part of a text.

C84 partial
: Containers.install_found_partial Containers.install_others Containers.install_new_iff Containers.containers_found Containers.plugins_are Containers.main_exists Containers.shadowed_violated Containers.main_violated
Proved for applications that the environment itself does not have and whose names have no neighbouring separators; what the resolution in the container arrives at is a parameter. Violated: if the environment has the application itself, its container is not found and is installed anew each time; an application named x-containerized is taken for x.

C85 partial
: context_nearest context_given context_none context_of_subdirectory context_global context_global_refused parent_by_path parent_by_path_found context_options option_nearest context_of_partial context_of_pkm_violated site_violated tasks_project_partial tasks_project_violated
The search is proved in full for disks without links. Violated: the site asked for with -s is never used; `pkm` without a command ends in an IndexError; in an environment inside a project a command works on the environment while the tasks of the project run around it.

C86 partial
: execute_in_order parent_surrounds parent_fails grandparent_surrounds_violated generator_runs_violated
Proved for a parent and the command directly below. Violated: two words below, the second part of a parent is over before the command starts; a generator without a word after it does not run at all.

C87 partial
: attached_leads_partial attached_none attached_order_partial attached_runs_violated attached_shadowed_violated attached_dotted_violated attached_own_violated task_pythonpath pythonpath_kept_partial pythonpath_kept_violated run_by_name_partial run_by_name_violated packaged_task_partial packaged_task_violated task_project_violated program_arguments task_arguments_partial task_empty_violated task_option_violated
Python's search for modules is modelled for directories (packages, modules, namespace packages). Violated: a missing comma makes every attached task fail, and with a task before it no command runs; a package `commands` or a package in the working directory hides tasks; tasks do not see the project; options given first are refused, an empty argument drops the rest.

C88 partial
: project_install_partial app_install_partial app_install_several_partial environment_install_violated environment_force_violated refused_install_violated
Proved for projects, and for a single application in an environment. Violated in every environment otherwise: the command ends in a NameError, with -f after removing the packages.

C89 partial
: conda_offers conda_order_partial conda_answers conda_best conda_best_exists conda_match conda_build_partial conda_build_violated conda_dependency_any conda_dependency_alternatives_partial conda_any_alternative_violated conda_version_exact conda_version_star conda_version_clause conda_version_any conda_pin_no_build conda_pin_other_channel conda_star_violated conda_pin_matches conda_pin_one_partial conda_pin_several_violated conda_python_from_partial conda_python_any_partial conda_python_upper_violated conda_subdir_platform conda_subdir_table conda_apple_violated conda_linux32_violated conda_noarch_violated conda_odd_python_violated conda_name_violated conda_channel_partial conda_channel_case_violated
What is offered, the choice of artifacts and the reading of versions are proved; order without local labels, Pythons by their least version. Violated: the upper end of a dependency on Python is not looked at; a single artifact with another kind of dependency on Python makes its package fail; builds match by their beginning; a dependency on several builds has no answer; artifacts for any platform, Apple's processor and 32-bit Linux are never served; `3.6*` is 3.6 alone.

C90 partial
: conda_checked_first conda_rejected conda_installed_partial conda_untouched conda_record_partial conda_failed_partial conda_directories_violated conda_hook_never conda_hook_violated conda_generated_violated conda_two_pythons_violated
Proved for artifacts whose modules are for one version of Python and whose files have places of their own. A failed installation leaves directories; one that fails in its hook leaves the information about the package; generated files are not recorded.

C91 partial
: torch_offers torch_answers torch_order torch_compatible torch_cuda_order_partial torch_cuda_order_violated torch_odd_version_violated torch_table_violated torch_build_violated torch_no_driver_violated
The order among the builds of one version holds for labels with the same number of digits. The repository cannot be built at all, as it looks for its table in a module of another name; with the shipped table the builds for five versions of CUDA are never offered.

C92 partial
: html_select html_round_trip cuda_load_partial cuda_load_backup cuda_load_empty_violated html_void_violated html_unclosed_violated html_data_violated cuda_row html_extra_end
Proved for properly nested pages that have the table. A page without it erases the saved table; a page with elements that have no end is never read.

C93 partial
: shared_modules shared_scripts shared_info shared_only shared_elsewhere shared_bystanders shared_record shared_unlink shared_untagged shared_base_fails shared_data_violated shared_second_use_violated shared_then_unusable_violated shared_failed_link_violated shared_text_prefix_violated shared_stem_violated shared_no_mode_violated shared_dependencies
Proved for the first environment that installs the package, when the installation succeeds. Recorded data files are lost, a second environment always gets an AttributeError, and a failure after the move leaves the package nowhere in the environment.

C94 partial
: patch_runs_partial patch_others script_mode patch_arguments_violated patch_w_violated patch_again_violated entry_runs_partial entry_blank_violated windows_launcher_violated launcher_fails_violated launcher_kind entry_launcher_kind
Proved for paths of interpreters without blanks and scripts without arguments. Windows is never recognised, and its launchers always raise.

C95 partial
: monitor_transparent monitor_nested monitor_told monitor_events monitor_swallow_violated monitor_enter_violated monitor_notify_violated async_once async_twice_violated listen_restores listen_hides_violated listen_forgets_violated
Proved for listeners that raise nothing and let exceptions pass (nesting for all). A listener that ends its generator replaces the exception by StopIteration; a second registration for a type hides the first.

C96 partial
: wheel_accepted wheel_refused wheel_puts wheel_launchers wheel_compiled wheel_only wheel_information wheel_record wheel_uninstalls wheel_kinds wheel_headers_violated wheel_version_violated wheel_information_unrecorded_violated wheel_rollback_partial wheel_overwrites_violated wheel_again_violated wheel_rollback_violated
All but the last sentence is proved for all wheels and trees (places that the wheel itself uses twice excepted). Rolling back is proved up to new directories and for wheels without script entry points; it is false for launchers. Headers, version `1` and the files of information in RECORD are violated, files of others are overwritten, and installing twice doubles RECORD.

C97 partial
: plan_run_returns plan_run_states plan_run_failed_partial plan_run_raises plan_run_quiet_partial plan_run_progress plan_run_ends plan_run_view plan_run_limit plan_run_place plan_run_refines plan_run_reaches_plan plan_run_no_failure plan_run_untouched plan_run_lost_violated plan_run_quiet_violated plan_run_interrupt_violated plan_run_goes_on_violated plan_run_view_violated
Proved for all plans and schedules: ending, the agreement with the sequential meaning of plans (C22), the result of a return, the exception, and the states at every moment. Missing: an update that fails or is killed between its phases loses the package; with processes, or after exceptions that are not `Exception`s, operations go on after the caller got the exception; without concurrency a failure stops nothing; after a failure the site is not read anew.

C98 partial
: nested_progress_partial nested_deadlock_violated nested_never_done_violated nested_ends
Exactly characterised for two levels and mode `thread`: with fewer nested plans than workers no schedule gets stuck, with as many or more some schedule does. Plans below the inner ones and failures are not modelled.

C99 partial
: BuildCache.cache_hit BuildCache.cache_miss BuildCache.cache_sequence BuildCache.cache_builds_once BuildCache.cache_right_archive BuildCache.cache_whole_at_end_partial BuildCache.cache_ends BuildCache.cache_isolated BuildCache.cache_build_together BuildCache.cache_killed_violated BuildCache.cache_killed_wheel_violated BuildCache.cache_half_metadata_violated BuildCache.cache_empty_metadata_violated BuildCache.cache_wheel_removed_violated BuildCache.cache_remove_twice_violated BuildCache.cache_two_archives_violated BuildCache.cache_path_for_metadata_violated
For uses one after the other the property holds exactly as stated, except that a path is given for METADATA that had to be built as a wheel, and that two archives of one version push each other out. For any number of users at once, with kills: what is given is from the right archive, users end, users for other packages change nothing, and files are whole in the end unless a user is killed between opening a file and writing it. Missing, because false: users for the same package get half of the METADATA, empty METADATA, or an exception because their wheel or directory is gone; what is half written by a killed user is given for ever.

C100 partial
: report_explains_partial report_explains_if_numbered report_convinces report_fact report_text_violated report_again_violated
Proved for every derivation in which no set of terms is derived twice; and for others whenever the printed numbers are 0, 1, 2, ... and no text stands for a number, when also the named facts alone force the conclusion. Missing, because false: if something is used twice, the text of a line can stand in place of its number, lines vanish and numbers occur twice.

C101 partial
: Live.display_no_strangers Live.display_never_blocks Live.display_shows_partial Live.display_draws_partial Live.display_lost_violated Live.display_stays_violated Live.display_stale_violated Live.display_frozen_violated
The display only shows pieces that were begun and no thread can be stuck for ever. If updates of the list of pieces do not overlap, what is shown is what is in progress, and with a notification the refresher draws it within four of its steps. The full statement fails: overlapping updates lose pieces or keep ended ones, a notification given while the refresher draws is lost, and a list that is empty for a moment stops the refresher without anybody waking it again.

C102 partial
: proc_reports proc_strips proc_reports_so_far proc_raises proc_ends proc_waits_for proc_blanks_violated proc_orphan_violated proc_left_violated
Proved for every schedule: all lines once and in order (with blanks around them removed), then the code, which is the program's; the run ends when the program has ended and its output is closed; it waits only while the output is open and all lines were reported. The rest of the statement fails: empty lines that were never written are reported between the closing of the output and the end of the program; a program in the background that keeps the output open keeps the run from ending; output that cannot be decoded ends the run while the program goes on.

C103 partial
: install_consistent_partial install_closed_partial install_found_partial install_spelling_violated
Composition of the models of the resolver, of names and of plans. Proved for all graphs in which no package is named in two spellings that differ by more than case: all requirements of resolved packages are installed in some version (`install_closed_partial`); in an allowed version, with extras, for exact specifier operations and versions whose neighbours share no dependency (`install_consistent_partial`), and for pkm's own versions and specifiers when the preferred versions are compatible (`install_found_partial`). It fails for two spellings of one name (`install_spelling_violated`): `a-b<2` and `a_b>=2` are both "solved".

C104 partial
: asked_right asked_same_partial asked_retrieved_once asked_read_once_partial asked_replies asked_failure_forgotten asked_environment_violated asked_again_violated asked_threads_violated
Proved for every history and interleaving: replies come in order and are right for some environment with the same best artifact (`asked_right`); they are those of an unused package if retrieving is steady and the metadata does not depend on the environment, as of wheels (`asked_same_partial`); each thread retrieves an artifact at most once with success; it reads its metadata once if that is not empty; each question takes at most seven steps; failures are not remembered. It fails for source distributions, which answer with the dependencies for the first environment asked about (`asked_environment_violated`), and for empty lists, which are read again each time (`asked_again_violated`), and several threads at once each retrieve and read the same artifact (`asked_threads_violated`).

C105 partial
: uninstall_exact_partial uninstall_unbroken_partial uninstall_blocked_violated uninstall_dotted_violated
Proved, with the resolver inside, for all sites that fit together: `uninstall` succeeds and keeps exactly what is needed. It fails for sites where a requirement is not met already (nothing can be uninstalled) and for requirements that spell a dotted name with `-`. Missing: post releases and local versions, and a proof that names are removed when the user spells them differently (they are not: C53).

C106 partial
: install_keeps_partial update_newest_partial update_ignored_violated update_breaks_violated store_mode_ignored_violated
Proved, with the resolver inside, for the first attempt (adding packages): what is not to be updated stays; what is asked for without a version and is new, or listed in `updates` by its key, is installed in the newest minor release. It fails for the commands, which list names as written: for names with dashes, dots or capitals nothing is updated (proved in general) and store modes are ignored; and an update breaks packages that the user requested. Missing: the second attempt (C54).

C107 partial
: handling_shown handling_once handling_never_blocks handling_oldest_partial handling_end_lines handling_stale_violated handling_oldest_violated
Every schedule; one step is one statement, so the lock is part of what is proved. The names are in the order of the beginnings if no two operations have the same package. Violated: the spinner is shown before its text is set, so the start is told of nothing or of the package that ended last; with equal packages the order is lost.

C108 partial
: rework_leaves_selected rework_keeps_requests rework_meets_partial no_overriding rework_unlisted_violated rework_override_violated
Whatever the resolver selects, the site has exactly this afterwards and every request is kept. That requirements are met is proved where the preferred versions fit (as C103). Violated: overrides are ignored by the second attempt, and a requested package that the repository does not have makes it fail.

C109 partial
: Cli.help_lists_accepted Cli.help_lists_all Cli.usage_fails_iff Cli.usage_mentions_partial Cli.usage_says_required Cli.usage_groups Cli.usage_mentions_arguments Cli.overview_mentions Cli.combined_flags_accepted Cli.usage_fails_violated Cli.exclusive_joined_violated Cli.field_flag_violated Cli.help_unlisted_violated Cli.shared_name_violated Cli.method_usage_violated
Which options are listed is settled, and exactly when the usage fails. Violated: the usage fails for an option that takes a value and has a long name only; flags that exclude each other are shown as if they could be joined; flags among fields are shown with the wrong sign; -h is not listed; a shared name is shown for the option that does not have it.

C110 partial
: report_lists report_reason_partial report_missing_partial report_missing_unmet report_lines report_section report_orphan_partial report_version_violated report_container_violated report_cycle_violated report_kept_violated
What is listed, the reasons and the missing dependencies are settled for every environment. Violated: a dependency in a version that is not allowed is not reported; containers are left out, so what they require is called an orphan and they are called missing; packages that require each other are no orphans; a package is called an orphan although pkm keeps it.

C111 partial
: zip_confined tar_confined_partial extract_lays_out zip_done_iff extract_unsupported_iff url_data_named url_artifact_named tar_escapes_violated archive_unsupported_violated zip_merged_violated
Zip files and wheels are confined for every content. Violated: tar files escape the directory with .., absolute names and links; .tgz, .tar.xz, names in capital letters and URLs with the name in the query are refused; two members of a zip file may become one file.

C112 partial
: NewProject.new_project_partial NewProject.new_project_exists NewProject.new_zoo_group NewProject.new_project_license_violated NewProject.new_project_quotes_violated
Proved from the answers to the disk, and to the configuration the model of the TOML reader reads from it, for answers without quotes, backslashes and line ends. Violated: the license is lost for every answer (the template names a variable that setup does not have), and answers with quotes or backslashes give files that cannot be read or read as something else.

C113 partial
: NewCommand.new_lists NewCommand.new_named_partial NewCommand.new_offers_partial NewCommand.new_local_violated NewCommand.new_hyphen_violated
Proved for templates that can be imported and working directories without a directory of the same name that has a render.py. Violated: such a directory makes the listing fail for every argument that is no other template; a template in a directory with a hyphen is listed, is looked up with an underscore, and the listing fails.

C114 partial
: Home.home_kept Home.home_settings Home.home_workspaces Home.home_cleaned Home.home_place_partial Home.home_variable_violated Home.home_xdg_empty_violated Home.home_clean_violated Home.home_workspace_violated
Proved for every history of uses: what is kept, what is made, what cleaning removes. The place is proved for environments without PKM_HOME. Violated: with PKM_HOME set every use of the home fails; an empty XDG_DATA_HOME makes a home in the working directory; cleaning fails if the repository settings cannot be loaded; a cleaning that fails in its middle leaves a cached workspace without directory.

C115 partial
: Hooks.hook_returns Hooks.hook_metadata Hooks.hook_builds_partial Hooks.hook_variable_violated Hooks.hook_home_violated
Proved for projects that pkm builds itself. Violated: with PKM_HOME set all hooks but build_editable fail for every project; a containerized application that is built where pkm has no home makes one.

C116 partial
: TomlStyle.styled_edit_partial TomlStyle.styled_unchanged_partial TomlStyle.styled_read_back_partial TomlStyle.styled_comment_violated TomlStyle.styled_dotted_violated TomlStyle.styled_truth_violated TomlStyle.styled_retyped_violated TomlStyle.styled_end_violated TomlStyle.styled_list_violated TomlStyle.styled_super_violated TomlStyle.styled_empty_violated TomlStyle.styled_layout_violated
Proved, up to white space at the end, for files of lines with simple keys and scalars or lists of scalars, in one line or several, and of tables nested to any depth, with or without a header of their own, with comments and blanks anywhere but behind lists and around their commas, and for all combinations of edits, of elements of lists too, that keep tables tables and values values; new tables have lines and are at the top level or too large for one line. From what is saved, with the white space at its end put back, the edited data is read. Violated outside: comments behind lists and inline tables are lost, dotted keys of three parts are corrupted, 1 is not edited to true, a table replaced by a value is unreadable, empty tables and an empty list in a table without header are not written, a list with a trailing comma that gets empty is unreadable, the lost final line feed makes a file with a comment or number at its end unreadable, blanks in lists change.

C117 partial
: TaskArgs.task_args_partial TaskArgs.task_order_refused TaskArgs.task_surplus_violated TaskArgs.task_equals_violated TaskArgs.task_false_violated
Proved as an equivalence for all signatures without keyword-only parameters and `**kwargs`: with at most as many unnamed words as parameters the function is called exactly if all fits, with exactly these values; unnamed words after named ones are refused. It fails for surplus unnamed words, which get lost without an error, also for functions with `*args` (proved for all calls), for unnamed words that contain `=`, and for parameters of type bool, which are true for `False`. The code of the task runner that would use this class asks for it under another name (`MethodCliArgs`, `execute`), so no task reaches it.
