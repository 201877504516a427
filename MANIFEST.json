{
 "claims": [
  {
   "property": "C01",
   "status": "proved",
   "theorems": [
    "Pisi.Version.version_operators",
    "Pisi.Version.version_trichotomy",
    "Pisi.Version.version_total_preorder",
    "Pisi.Version.version_lt_trans"
   ],
   "note": "Order over all parsed versions; strings are ASCII."
  },
  {
   "property": "C02",
   "status": "proved",
   "theorems": [
    "Pisi.Version.compare_history_independent",
    "Pisi.Version.version_trailing_zeros"
   ],
   "note": "Mutable heap of Version objects, any comparison history."
  },
  {
   "property": "C03",
   "status": "proved",
   "theorems": [
    "Pisi.Version.suffix_ranking",
    "Pisi.Version.suffix_vs_plain",
    "Pisi.Version.letter_ranking",
    "Pisi.Version.numeric_ranking"
   ],
   "note": ""
  },
  {
   "property": "C04",
   "status": "proved",
   "theorems": [
    "Pisi.Version.version_grammar",
    "Pisi.Version.version_rejects",
    "Pisi.Version.version_grammar_unique",
    "Pisi.Version.item_dict_order"
   ],
   "note": "Grammar is that of the code: see Spec/Version.lean."
  },
  {
   "property": "C05",
   "status": "proved",
   "theorems": [
    "Pisi.satisfies_iff",
    "Pisi.satisfies_error_iff",
    "Pisi.satisfies_antitone",
    "Pisi.dict_satisfies_iff",
    "Pisi.satisfies_dependencies_iff"
   ],
   "note": "The name argument is ignored by the code; lookup is by name."
  },
  {
   "property": "C06",
   "status": "proved",
   "theorems": [
    "Pisi.Graph.topological_sort_sound",
    "Pisi.Graph.graph_contents",
    "Pisi.Graph.fromList_build",
    "Pisi.Graph.graph_add_vertex_error"
   ],
   "note": ""
  },
  {
   "property": "C07",
   "status": "proved",
   "theorems": [
    "Pisi.Graph.cycle_detection_exact"
   ],
   "note": ""
  },
  {
   "property": "C08",
   "status": "partial",
   "theorems": [
    "Pisi.Graph.reported_cycle_partial",
    "Pisi.Graph.reported_cycle_refuted"
   ],
   "note": "Full statement is false of the code (report includes the path leading to the cycle); a suffix of the report is proved to be a cycle."
  },
  {
   "property": "C09",
   "status": "proved",
   "theorems": [
    "Pisi.Plan.install_plan_closed_minimal",
    "Pisi.Plan.install_plan_deps_covered"
   ],
   "note": ""
  },
  {
   "property": "C10",
   "status": "proved",
   "theorems": [
    "Pisi.Plan.install_plan_order"
   ],
   "note": ""
  },
  {
   "property": "C11",
   "status": "proved",
   "theorems": [
    "Pisi.Plan.install_plan_failure",
    "Pisi.Plan.install_plan_succeeds_iff"
   ],
   "note": ""
  },
  {
   "property": "C12",
   "status": "partial",
   "theorems": [
    "Pisi.Plan.plan_executable_partial",
    "Pisi.Plan.plan_executable_refuted"
   ],
   "note": "Full statement false of the code: planning never compares the repository version with the dependency."
  },
  {
   "property": "C13",
   "status": "proved",
   "theorems": [
    "Pisi.Plan.remove_plan_exact",
    "Pisi.Plan.remove_plan_no_dangling"
   ],
   "note": ""
  },
  {
   "property": "C14",
   "status": "partial",
   "theorems": [
    "Pisi.Plan.removal_order_partial",
    "Pisi.Plan.removal_order_refuted"
   ],
   "note": "Full statement false of the code: no edge is recorded towards a package already in the graph."
  },
  {
   "property": "C15",
   "status": "proved",
   "theorems": [
    "Pisi.Plan.remove_plan_failure",
    "Pisi.Plan.remove_plan_succeeds_iff"
   ],
   "note": ""
  },
  {
   "property": "C16",
   "status": "proved",
   "theorems": [
    "Pisi.Plan.upgrade_plan_sound",
    "Pisi.Plan.upgrade_plan_revdeps",
    "Pisi.Plan.upgrade_plan_failure"
   ],
   "note": ""
  },
  {
   "property": "C17",
   "status": "proved",
   "theorems": [
    "Pisi.Plan.is_upgradable_iff",
    "Pisi.Plan.is_upgradable_error",
    "Pisi.Plan.upgrade_settles"
   ],
   "note": ""
  },
  {
   "property": "C18",
   "status": "partial",
   "theorems": [
    "Pisi.Plan.security_selection_partial",
    "Pisi.Plan.security_selection_refuted"
   ],
   "note": "Full statement false of the code: the list comprehension overwrites the loop variable, so an Update object is queued instead of the package name."
  },
  {
   "property": "C19",
   "status": "partial",
   "theorems": [
    "Pisi.Plan.base_safety_partial",
    "Pisi.Plan.base_safety_refuted",
    "Pisi.Plan.remove_cmd_installed_only",
    "Pisi.Plan.remove_cmd_exact",
    "Pisi.Plan.remove_cmd_error"
   ],
   "note": "Full statement false of the code: system.base packages depending on a removed package are removed."
  },
  {
   "property": "C20",
   "status": "partial",
   "theorems": [
    "Pisi.DB.rev_deps_sound_partial",
    "Pisi.DB.rev_deps_complete_partial",
    "Pisi.DB.rev_deps_exact_partial",
    "Pisi.DB.rev_deps_refuted",
    "Pisi.DB.rev_deps_stale",
    "Pisi.DB.rev_deps_total",
    "Pisi.DB.update_db_rev_deps"
   ],
   "note": "Full statement false of the code: removing a package drops the records of its dependents (so reinstalling or upgrading it loses them), and adding a package again keeps records of dependencies it no longer has. Exact for histories that add absent packages and remove packages nothing depends on; exact for every repository after an index update."
  },
  {
   "property": "C21",
   "status": "proved",
   "theorems": [
    "Pisi.DB.is_installed_iff",
    "Pisi.DB.list_installed_exact",
    "Pisi.DB.install_rejected",
    "Pisi.DB.install_accepted",
    "Pisi.DB.recorded_version",
    "Pisi.DB.recorded_version_exists",
    "Pisi.DB.remove_installed"
   ],
   "note": ""
  },
  {
   "property": "C22",
   "status": "partial",
   "theorems": [
    "Pisi.DB.pending_exact_partial",
    "Pisi.DB.pending_complete_partial",
    "Pisi.DB.pending_exact_refuted",
    "Pisi.DB.pending_list_fails"
   ],
   "note": "Full statement false of the code: remove and purge leave the pending mark. Proved for histories that configure packages before removing them."
  },
  {
   "property": "C23",
   "status": "proved",
   "theorems": [
    "Pisi.Plan.pending_order",
    "Pisi.Plan.pending_plan_succeeds_iff",
    "Pisi.Plan.configure_pending_safe",
    "Pisi.Plan.configure_pending_complete",
    "Pisi.Plan.configure_pending_resumable"
   ],
   "note": ""
  },
  {
   "property": "C24",
   "status": "partial",
   "theorems": [
    "Pisi.DB.get_file_iff",
    "Pisi.DB.has_file_iff",
    "Pisi.DB.match_files_exact",
    "Pisi.DB.unregister_frame",
    "Pisi.DB.ownership_partial",
    "Pisi.DB.ownership_refuted"
   ],
   "note": "Full statement false of the code: remove_files deletes the record whoever owns it."
  },
  {
   "property": "C25",
   "status": "proved",
   "theorems": [
    "Pisi.DB.item_db_is_map",
    "Pisi.DB.item_db_frame",
    "Pisi.DB.item_db_list",
    "Pisi.DB.str_repo_repo_str",
    "Pisi.DB.repo_str_injective"
   ],
   "note": ""
  },
  {
   "property": "C26",
   "status": "proved",
   "theorems": [
    "Pisi.DB.lookup_priority",
    "Pisi.DB.lookup_which",
    "Pisi.DB.lookup_missing",
    "Pisi.DB.exists_unqualified",
    "Pisi.DB.exists_iff_lookup",
    "Pisi.DB.list_unqualified",
    "Pisi.DB.existence_retrieval_agree"
   ],
   "note": ""
  },
  {
   "property": "C27",
   "status": "proved",
   "theorems": [
    "Pisi.DB.repo_list_consistent",
    "Pisi.DB.add_repo_succeeds_iff",
    "Pisi.DB.add_repo_position",
    "Pisi.DB.remove_repo_list",
    "Pisi.DB.remove_repo_items"
   ],
   "note": ""
  },
  {
   "property": "C28",
   "status": "proved",
   "theorems": [
    "Pisi.DB.update_db_exact",
    "Pisi.DB.update_db_succeeds_iff",
    "Pisi.DB.update_db_rev_deps"
   ],
   "note": ""
  },
  {
   "property": "C29",
   "status": "proved",
   "theorems": [
    "Pisi.Plan.conflicts_exact",
    "Pisi.Plan.conflicts_total",
    "Pisi.Plan.check_conflicts_decision"
   ],
   "note": ""
  },
  {
   "property": "C30",
   "status": "partial",
   "theorems": [
    "Pisi.Plan.conflicts_gone_partial",
    "Pisi.Plan.conflicts_gone_refuted",
    "Pisi.Plan.check_conflicts_removed"
   ],
   "note": "Full statement false of the code: a conflicting package in system.base is refused while the others are removed. Proved when no conflicting package is in system.base (or safety is bypassed) and none is named like a component."
  },
  {
   "property": "C31",
   "status": "partial",
   "theorems": [
    "Pisi.FS.config_preserved_partial",
    "Pisi.FS.config_preserved_refuted"
   ],
   "note": "Full statement false of the code when one configuration file of the package has the backup name of another. Proved for all packages without such names and without links above configuration files."
  },
  {
   "property": "C32",
   "status": "partial",
   "theorems": [
    "Pisi.FS.config_crash_safe_partial",
    "Pisi.FS.config_crash_safe_refuted"
   ],
   "note": "As C31; every intermediate state is covered, including partially written files."
  },
  {
   "property": "C33",
   "status": "proved",
   "theorems": [
    "Pisi.FS.remove_decision",
    "Pisi.FS.remove_links",
    "Pisi.FS.remove_only_listed",
    "Pisi.FS.remove_total"
   ],
   "note": ""
  },
  {
   "property": "C34",
   "status": "partial",
   "theorems": [
    "Pisi.FS.foreign_kept_partial",
    "Pisi.FS.foreign_kept_refuted"
   ],
   "note": "Full statement false of the code: file records have relative paths, the ownership check looks up absolute ones. Proved when the recorded path is the full one."
  },
  {
   "property": "C35",
   "status": "partial",
   "theorems": [
    "Pisi.Txn.txn_shelf_partial",
    "Pisi.Txn.txn_refuted",
    "Pisi.Txn.txn_context",
    "Pisi.Txn.txn_interrupt",
    "Pisi.Txn.txn_unthreaded",
    "Pisi.Txn.txn_no_env"
   ],
   "note": "Full statement false of the code: context.txn_proc refers to an undefined name instead of aborting, KeyboardInterrupt is not caught. Proved for the shelf-level helper, ordinary exceptions and bodies that pass the transaction on."
  },
  {
   "property": "C36",
   "status": "partial",
   "theorems": [
    "Pisi.Fetch.download_partial",
    "Pisi.Fetch.downloads_partial",
    "Pisi.Fetch.download_refuted"
   ],
   "note": "Full statement false of the code: a .part file of other content (another version, another mirror) is continued and moved into place. Proved for all downloads that find no .part file or a part of the same file, and for any sequence of interrupted downloads of it."
  },
  {
   "property": "C37",
   "status": "partial",
   "theorems": [
    "Pisi.Fetch.mirror_partial",
    "Pisi.Fetch.mirror_first_partial",
    "Pisi.Fetch.mirror_order",
    "Pisi.Fetch.mirror_refuted",
    "Pisi.Fetch.mirror_unknown"
   ],
   "note": "Full statement false of the code: a mirror that breaks off after the last byte leaves a complete .part file on which the next mirror fails. Proved when mirrors deliver or fail before the end; the order of the attempts is proved in general."
  },
  {
   "property": "C38",
   "status": "proved",
   "theorems": [
    "Pisi.Fetch.unpack_checked",
    "Pisi.Fetch.fetch_cached",
    "Pisi.Fetch.fetch_then_unpack",
    "Pisi.Fetch.wrong_not_unpacked"
   ],
   "note": ""
  },
  {
   "property": "C39",
   "status": "partial",
   "theorems": [
    "Pisi.Search.query_partial",
    "Pisi.Search.query_refuted",
    "Pisi.Search.query_exact",
    "Pisi.Search.query_mixed",
    "Pisi.Search.query_one_repo"
   ],
   "note": "Full statement false of the code: the repositories are united per term, so a document with its terms spread over several repositories is returned. Proved for documents in at most one active store; query_exact gives the results in general."
  },
  {
   "property": "C40",
   "status": "partial",
   "theorems": [
    "Pisi.Search.search_exists_partial",
    "Pisi.Search.search_refuted",
    "Pisi.Search.search_origin",
    "Pisi.Search.search_finds",
    "Pisi.Search.search_exact_partial",
    "Pisi.Search.search_package_exact",
    "Pisi.Search.search_language",
    "Pisi.Search.cli_language"
   ],
   "note": "Full statement false of the code: update_db and remove_repo clear the packages of a repository without touching the search index. Proved for the tracking stores; in general results exist or were named in an index read earlier."
  },
  {
   "property": "C41",
   "status": "partial",
   "theorems": [
    "Pisi.Path.rebase_partial",
    "Pisi.Path.rebase_refuted",
    "Pisi.Path.join_path_denotes",
    "Pisi.Path.splitpath_spec",
    "Pisi.Path.subpath_iff",
    "Pisi.Path.subpath_sound",
    "Pisi.Path.subpath_clean",
    "Pisi.Path.removepathprefix_refuses",
    "Pisi.Path.makepath_splitpath",
    "Pisi.Path.splitpath_makepath",
    "Pisi.Path.makepath_absolute",
    "Pisi.Path.absolute_path_iff"
   ],
   "note": "Full statement false of the code for an empty first path and an absolute second one; proved otherwise."
  },
  {
   "property": "C42",
   "status": "partial",
   "theorems": [
    "Pisi.Path.suffix_inverse_partial",
    "Pisi.Path.suffix_inverse_refuted",
    "Pisi.Path.remove_prefix_append",
    "Pisi.Path.remove_prefix_ok_iff",
    "Pisi.Path.remove_refuses"
   ],
   "note": "Full statement false of the code for the empty suffix; proved for all others and for prefixes."
  },
  {
   "property": "C43",
   "status": "proved",
   "theorems": [
    "Pisi.PkgName.package_name_roundtrip",
    "Pisi.PkgName.parse_name_version",
    "Pisi.PkgName.parse_name_only"
   ],
   "note": ""
  },
  {
   "property": "C44",
   "status": "proved",
   "theorems": [
    "Pisi.Build.build_no",
    "Pisi.Build.build_no_ge",
    "Pisi.Build.changed_iff"
   ],
   "note": ""
  },
  {
   "property": "C45",
   "status": "partial",
   "theorems": [
    "Pisi.Build.staged_partial",
    "Pisi.Build.staged_refuted",
    "Pisi.Build.staged_phases",
    "Pisi.Build.staged_again",
    "Pisi.Build.staged_unknown",
    "Pisi.Build.one_shot_phases",
    "Pisi.Build.staged_order_partial",
    "Pisi.Build.staged_complete_partial"
   ],
   "note": "Full statement false of the code: the requested phase is run again when it is recorded already. Proved for requests beyond the recorded stage; staged_phases is exact for all. Over histories with interruptions every phase follows its predecessors unless a build stopped between writing the state file and the last patch or while cleaning."
  },
  {
   "property": "C46",
   "status": "partial",
   "theorems": [
    "Pisi.Build.patches_partial",
    "Pisi.Build.patches_refuted",
    "Pisi.Build.patches_none"
   ],
   "note": "Full statement false of the code: the state file says 'unpack' before the patches are applied. Proved for histories in which no build stopped there (or between the removal of the source and of the state file)."
  },
  {
   "property": "C47",
   "status": "proved",
   "theorems": [
    "Pisi.Unpack.file_perm",
    "Pisi.Unpack.dir_perm",
    "Pisi.Unpack.file_perm_bits"
   ],
   "note": ""
  },
  {
   "property": "C48",
   "status": "partial",
   "theorems": [
    "Pisi.Unpack.confined_partial",
    "Pisi.Unpack.confined_flat_partial",
    "Pisi.Unpack.confined_refuted",
    "Pisi.Unpack.confined_refuted_dotdot",
    "Pisi.Unpack.confined_refuted_link"
   ],
   "note": "Full statement false of the code: absolute names, '..' and members below an archived link leave the target. Proved for clean names with no member below a link and no link in the target above a member."
  },
  {
   "property": "C49",
   "status": "proved",
   "theorems": [
    "Pisi.Config.lookup_file",
    "Pisi.Config.lookup_default",
    "Pisi.Config.lookup_empty",
    "Pisi.Config.lookup_attr"
   ],
   "note": ""
  },
  {
   "property": "C50",
   "status": "proved",
   "theorems": [
    "Pisi.Config.constant_first",
    "Pisi.Config.constant_raises"
   ],
   "note": ""
  },
  {
   "property": "C51",
   "status": "partial",
   "theorems": [
    "Pisi.Xml.round_trip_partial",
    "Pisi.Xml.write_read_partial",
    "Pisi.Xml.classes_well_formed",
    "Pisi.Xml.round_trip_refuted",
    "Pisi.Xml.round_trip_refuted_space",
    "Pisi.Xml.round_trip_refuted_int"
   ],
   "note": "Full statement false of the code: 0, empty texts and white space around texts are lost. Proved for all well-formed classes (the ones of pisi/data are), values without these and any layout of the file."
  },
  {
   "property": "C52",
   "status": "proved",
   "theorems": [
    "Pisi.Xml.text_own",
    "Pisi.Xml.text_en",
    "Pisi.Xml.text_tr",
    "Pisi.Xml.text_none",
    "Pisi.Xml.text_read",
    "Pisi.Xml.text_lang",
    "Pisi.Xml.user_lang"
   ],
   "note": ""
  },
  {
   "property": "C53",
   "status": "proved",
   "theorems": [
    "Pisi.DB.expand_components_exact"
   ],
   "note": ""
  },
  {
   "property": "C54",
   "status": "partial",
   "theorems": [
    "Pisi.FS.check_partial",
    "Pisi.FS.check_refuted",
    "Pisi.FS.check_reports",
    "Pisi.FS.check_fails_iff"
   ],
   "note": "Full statement false of the code: a missing file aborts the check, configuration files and links are skipped. check_reports and check_fails_iff give the exact behaviour."
  },
  {
   "property": "C55",
   "status": "proved",
   "theorems": [
    "Pisi.DB.lookup_all",
    "Pisi.DB.exists_all",
    "Pisi.DB.list_all"
   ],
   "note": ""
  },
  {
   "property": "C56",
   "status": "partial",
   "theorems": [
    "Pisi.DB.components_exact_partial",
    "Pisi.DB.components_exact_refuted"
   ],
   "note": "Full statement false of the code: adding a package again under another component leaves it listed in the old one. Proved for histories that add only absent packages."
  },
  {
   "property": "C57",
   "status": "proved",
   "theorems": [
    "Pisi.DB.track_exact",
    "Pisi.DB.remove_tracking_exact"
   ],
   "note": ""
  },
  {
   "property": "C58",
   "status": "partial",
   "theorems": [
    "Pisi.Plan.configure_succeeds_partial",
    "Pisi.Plan.configure_stuck_refuted"
   ],
   "note": "Full statement false of the code: a package installed with deferred configuration, removed and installed again normally makes clear_pending raise. Proved for histories that configure packages before removing them."
  },
  {
   "property": "C59",
   "status": "partial",
   "theorems": [
    "Pisi.Path.parentpath_partial",
    "Pisi.Path.parentpath_refuted"
   ],
   "note": "Full statement false of the code: a name without a separator loses its last character. Proved for all paths with a separator before the last name."
  },
  {
   "property": "C60",
   "status": "proved",
   "theorems": [
    "Pisi.PkgName.pure_name_of_file",
    "Pisi.PkgName.pure_name_of_name"
   ],
   "note": ""
  },
  {
   "property": "C61",
   "status": "proved",
   "theorems": [
    "Pisi.PkgName.package_name_injective",
    "Pisi.PkgName.is_package_name_iff"
   ],
   "note": ""
  },
  {
   "property": "C62",
   "status": "partial",
   "theorems": [
    "Pisi.FS.drops_files_partial",
    "Pisi.FS.drops_files_refuted",
    "Pisi.FS.upgrade_with_leftover_fails"
   ],
   "note": "Full statement false of the code: the deletion loop calls an unbound method and raises TypeError."
  },
  {
   "property": "C63",
   "status": "partial",
   "theorems": [
    "Pisi.Txn.operation_partial",
    "Pisi.Txn.operation_refuted",
    "Pisi.Txn.operation_other"
   ],
   "note": "Full statement false of the code: only DBError aborts. Proved for DBError; operation_other gives the behaviour for the others."
  },
  {
   "property": "C64",
   "status": "partial",
   "theorems": [
    "Pisi.Search.case_partial",
    "Pisi.Search.case_refuted"
   ],
   "note": "Full statement false of the code: the Turkish lower-casing returns its input. Proved for all other languages."
  },
  {
   "property": "C65",
   "status": "proved",
   "theorems": [
    "Pisi.Search.tokenize_words",
    "Pisi.Search.words_unique",
    "Pisi.Search.words_nosep",
    "Pisi.Search.contains_iff"
   ],
   "note": ""
  },
  {
   "property": "C66",
   "status": "partial",
   "theorems": [
    "Pisi.Fetch.resume_partial",
    "Pisi.Fetch.resume_refuted",
    "Pisi.Fetch.resume_stuck"
   ],
   "note": "Full statement false of the code: with a complete .part file every further attempt fails. Proved for all other interruption points."
  },
  {
   "property": "C67",
   "status": "proved",
   "theorems": [
    "Pisi.Fetch.mirrors_exact",
    "Pisi.Fetch.mirrors_missing"
   ],
   "note": ""
  },
  {
   "property": "C68",
   "status": "proved",
   "theorems": [
    "Pisi.Fetch.download_frame"
   ],
   "note": ""
  },
  {
   "property": "C69",
   "status": "partial",
   "theorems": [
    "Pisi.Build.unpack_again_partial",
    "Pisi.Build.unpack_again_refuted",
    "Pisi.Build.unpack_again_fails",
    "Pisi.Build.unpack_first"
   ],
   "note": "Full statement false of the code: with norootdir the source directory is made with makedirs, which fails when it exists. Proved for archives with a root directory and for empty build directories."
  },
  {
   "property": "C70",
   "status": "partial",
   "theorems": [
    "Pisi.Build.action_called_partial",
    "Pisi.Build.mandatory_refuted"
   ],
   "note": "Full statement false of the code: the raise is missing. action_called_partial gives what happens."
  },
  {
   "property": "C71",
   "status": "proved",
   "theorems": [
    "Pisi.Unpack.unpack_content",
    "Pisi.Unpack.unpack_keeps",
    "Pisi.Unpack.unpack_dirs",
    "Pisi.Unpack.unpack_skips"
   ],
   "note": ""
  },
  {
   "property": "C72",
   "status": "partial",
   "theorems": [
    "Pisi.Unpack.mode_partial",
    "Pisi.Unpack.mode_refuted"
   ],
   "note": "Full statement false of the code: the mask 0x08FF drops the setgid and sticky bits of files, and owner-read is set. Proved for the other bits of owner-readable files and for directories."
  },
  {
   "property": "C73",
   "status": "partial",
   "theorems": [
    "Pisi.Config.setting_partial",
    "Pisi.Config.unset_default",
    "Pisi.Config.setting_refuted",
    "Pisi.Config.setting_refuted_own"
   ],
   "note": "Full statement false of the code: ConfigParser lower-cases option names, so generateDebug (as documented) always reads as its default; options called items, defaults or section are hidden by attributes of the object. Proved for all other lower-case names."
  },
  {
   "property": "C74",
   "status": "partial",
   "theorems": [
    "Pisi.Config.truthy_partial",
    "Pisi.Config.off_refuted"
   ],
   "note": "Full statement false of the code: only 'False' and the empty value are off. truthy_partial is exact."
  },
  {
   "property": "C75",
   "status": "partial",
   "theorems": [
    "Pisi.Config.compression_default_partial",
    "Pisi.Config.compression_fails",
    "Pisi.Config.compression_refuted"
   ],
   "note": "Full statement false of the code: the value is a string and '%d' raises TypeError. Proved for files without the setting; compression_fails shows that all other settings fail."
  },
  {
   "property": "C76",
   "status": "proved",
   "theorems": [
    "Pisi.Config.limit_option",
    "Pisi.Config.limit_file",
    "Pisi.Config.limit_unset",
    "Pisi.Config.limit_bad"
   ],
   "note": ""
  },
  {
   "property": "C77",
   "status": "partial",
   "theorems": [
    "Pisi.Config.proxy_partial",
    "Pisi.Config.proxy_exact",
    "Pisi.Config.proxy_refuted",
    "Pisi.Config.scheme_lower"
   ],
   "note": "Full statement false of the code: the proxy is entered under the scheme of the proxy's own URL, so an http proxy for https is not used. Proved when both schemes agree; proxy_exact gives the map in general."
  },
  {
   "property": "C78",
   "status": "partial",
   "theorems": [
    "Pisi.Config.subdir_partial",
    "Pisi.Config.dest_abs_partial",
    "Pisi.Config.dest_refuted",
    "Pisi.Config.dest_refuted_space",
    "Pisi.Config.tmp_refuted"
   ],
   "note": "Full statement false of the code: without write access the temporary directory is /tmp/pisi-USER; a destdir option with leading space is relative. Proved otherwise."
  },
  {
   "property": "C79",
   "status": "proved",
   "theorems": [
    "Pisi.Unpack.unpack_succeeds",
    "Pisi.Unpack.unpack_again"
   ],
   "note": ""
  },
  {
   "property": "C80",
   "status": "partial",
   "theorems": [
    "Pisi.Xml.mandatory_missing",
    "Pisi.Xml.optional_partial",
    "Pisi.Xml.optional_refuted"
   ],
   "note": "Full statement false of the code: an optional localised text that is missing makes the file invalid. Proved for all other members, and for mandatory ones in general."
  },
  {
   "property": "C81",
   "status": "partial",
   "theorems": [
    "Pisi.Xml.writable_partial",
    "Pisi.Xml.writable_refuted",
    "Pisi.Xml.writable_refuted_ascii",
    "Pisi.Xml.writable_refuted_attr"
   ],
   "note": "Full statement false of the code: a mandatory 0 (the installed size of a package of empty files) and byte strings that are not ASCII cannot be written although errors() finds nothing. Proved for values other than 0, empty and non-ASCII byte strings."
  },
  {
   "property": "C82",
   "status": "partial",
   "theorems": [
    "Pisi.Xml.any_lang_partial",
    "Pisi.Xml.any_lang_refuted"
   ],
   "note": "Full statement false of the code: a text only in the language of the packager is an error elsewhere. Proved for files with English or Turkish texts."
  },
  {
   "property": "C83",
   "status": "partial",
   "theorems": [
    "Pisi.FS.keeps_foreign_partial",
    "Pisi.FS.conflict_refused",
    "Pisi.FS.file_conflicts_exact",
    "Pisi.FS.keeps_foreign_refuted",
    "Pisi.FS.keeps_foreign_refuted_backup",
    "Pisi.FS.keeps_foreign_refuted_upgrade"
   ],
   "note": "Full statement false of the code: a link in the place of a directory removes the tree with the files of other packages, backups of configuration files overwrite other packages' files called X.old or X.newconfig, and upgrades ignore conflicts. Proved otherwise, for relative recorded paths."
  },
  {
   "property": "C84",
   "status": "partial",
   "theorems": [
    "Pisi.Plan.confirmed_downgrade_partial",
    "Pisi.Plan.unconfirmed_replacement",
    "Pisi.Plan.declined_question",
    "Pisi.Plan.confirmed_downgrade_refuted"
   ],
   "note": "Full statement false of the code: the question about an older upstream version is switched off. Proved for versions that are not older; unconfirmed_replacement shows that this is the only exception."
  },
  {
   "property": "C85",
   "status": "partial",
   "theorems": [
    "Pisi.Plan.offered_is_upgrade_partial",
    "Pisi.Plan.offered_is_upgrade_refuted"
   ],
   "note": "Full statement false of the code: a newer build of the same release from another distribution counts as the same version. Proved when the distributions agree or builds are not compared."
  },
  {
   "property": "C86",
   "status": "proved",
   "theorems": [
    "Pisi.Plan.files_plan_order",
    "Pisi.Plan.files_plan_succeeds_iff",
    "Pisi.Plan.files_plan_failure"
   ],
   "note": ""
  },
  {
   "property": "C87",
   "status": "partial",
   "theorems": [
    "Pisi.Plan.files_satisfied_partial",
    "Pisi.Plan.files_executable_partial",
    "Pisi.Plan.files_installed",
    "Pisi.Plan.files_satisfied_refuted",
    "Pisi.Plan.files_executable_refuted"
   ],
   "note": "Full statement false of the code: a dependency met by an installed package is not looked up among the given files, one of which may replace that package; packages installed in an unsuitable version are not upgraded to satisfy extra dependencies, so the installation stops half way. Proved when dependencies between given packages are met by the given files (and, for completion, the others by the installed system)."
  },
  {
   "property": "C88",
   "status": "partial",
   "theorems": [
    "Pisi.Plan.install_keeps_deps_partial",
    "Pisi.Plan.install_names_keeps_deps_partial",
    "Pisi.Plan.install_keeps_deps_refuted"
   ],
   "note": "Full statement false of the code: the dependents of a replaced package are not examined. Proved for dependencies on packages that are not replaced."
  },
  {
   "property": "C89",
   "status": "proved",
   "theorems": [
    "Pisi.Pack.files_exact",
    "Pisi.Pack.files_plain",
    "Pisi.Pack.files_built",
    "Pisi.Pack.files_once",
    "Pisi.Pack.static_apart",
    "Pisi.Pack.entry_exact"
   ],
   "note": ""
  },
  {
   "property": "C90",
   "status": "proved",
   "theorems": [
    "Pisi.Pack.files_succeed"
   ],
   "note": ""
  },
  {
   "property": "C91",
   "status": "partial",
   "theorems": [
    "Pisi.Pack.one_package_partial",
    "Pisi.Pack.one_package_refuted",
    "Pisi.Pack.nested_lost",
    "Pisi.Pack.one_package_glob_refuted"
   ],
   "note": "Full statement false of the code: the test of other packages' paths is a string prefix (/usr/share/doc takes /usr/share/docbook away), a path between two paths of another package loses files, and paths with wildcards are not compared. Proved for literal paths without these."
  },
  {
   "property": "C92",
   "status": "partial",
   "theorems": [
    "Pisi.Pack.type_of_deepest_partial",
    "Pisi.Pack.type_of_deepest_refuted"
   ],
   "note": "Full statement false of the code: substrings instead of paths are compared. Proved when no listed path is a mere beginning of the file name and the build root does not occur again in the path."
  },
  {
   "property": "C93",
   "status": "partial",
   "theorems": [
    "Pisi.Pack.abandoned_sound",
    "Pisi.Pack.mem_abandoned",
    "Pisi.Pack.abandoned_complete_partial",
    "Pisi.Pack.abandoned_complete_refuted"
   ],
   "note": "Full statement false of the code: files lost as in C91 are not reported. Reported files are in no package in general; completeness under the conditions of C91."
  },
  {
   "property": "C94",
   "status": "partial",
   "theorems": [
    "Pisi.Pack.size_sum_partial",
    "Pisi.Pack.size_sum_refuted"
   ],
   "note": "Full statement false of the code: overlapping paths count twice, files of other packages and links to directories are treated differently. Proved without these."
  },
  {
   "property": "C95",
   "status": "partial",
   "theorems": [
    "Pisi.Pack.link_hash_partial",
    "Pisi.Pack.link_hash_refuted",
    "Pisi.Pack.entry_exact"
   ],
   "note": "Full statement false of the code: a link listed itself that leads to a file gets the hash of that file. Proved for links found in directories."
  },
  {
   "property": "C96",
   "status": "partial",
   "theorems": [
    "Pisi.Pspec.built_describes",
    "Pisi.Pspec.built_settings",
    "Pisi.Pspec.built_component",
    "Pisi.Pspec.built_succeedsPisi.BuildRun.component_partial",
    "Pisi.BuildRun.component_refuted"
   ],
   "note": "Full statement over all requests: BuildRun.ComponentFull, refuted by a build in stages of a source that names no component; proved for builds in one shot. What the metadata say (built_*) holds for all."
  },
  {
   "property": "C97",
   "status": "partial",
   "theorems": [
    "Pisi.Pspec.name_version_partial",
    "Pisi.Pspec.built_latest",
    "Pisi.Pspec.name_version_refuted"
   ],
   "note": "Full statement false of the code: a Version or Release tag of the source gives the file name, but the metadata are read from the history. Proved when these agree or are missing."
  },
  {
   "property": "C98",
   "status": "partial",
   "theorems": [
    "Pisi.Pspec.build_deps_sound",
    "Pisi.Pspec.build_deps_completePisi.BuildRun.deps_partial",
    "Pisi.BuildRun.deps_refuted",
    "Pisi.BuildRun.staged_unchecked"
   ],
   "note": "Full statement over all requests: BuildRun.DepsFull, refuted by a build in stages, which checks nothing (staged_unchecked); proved for builds in one shot."
  },
  {
   "property": "C99",
   "status": "partial",
   "theorems": [
    "Pisi.Pspec.build_deps_installed_partial",
    "Pisi.Pspec.build_deps_fail",
    "Pisi.Pspec.build_deps_installed_refuted"
   ],
   "note": "Full statement false of the code: the installation calls an undefined name and always ends in a NameError (build_deps_fail). Proved when nothing is missing."
  },
  {
   "property": "C100",
   "status": "partial",
   "theorems": [
    "Pisi.Pspec.static_partial",
    "Pisi.Pspec.static_exact",
    "Pisi.Pspec.static_refuted",
    "Pisi.Pspec.debug_exact"
   ],
   "note": "Full statement false of the code: pisi.specfile does not exist, so the build fails when there is a library. Proved when there is none; static_exact and debug_exact are exact."
  },
  {
   "property": "C101",
   "status": "partial",
   "theorems": [
    "Pisi.DbEnv.one_writer_partial",
    "Pisi.DbEnv.changes_alone",
    "Pisi.DbEnv.writer_goes_on",
    "Pisi.DbEnv.one_writer_refuted"
   ],
   "note": "Full statement false of the code: pisi clean in the database directory deletes locks that are in use. Proved for all executions without it."
  },
  {
   "property": "C102",
   "status": "partial",
   "theorems": [
    "Pisi.DbEnv.ended_block_nobody_partial",
    "Pisi.DbEnv.ended_block_nobody_refuted"
   ],
   "note": "Full statement false of the code: a program started from PiSi inherits the locks and keeps them if it outlives the command. Proved when these programs have ended too."
  },
  {
   "property": "C103",
   "status": "partial",
   "theorems": [
    "Pisi.DbEnv.matched_partial",
    "Pisi.DbEnv.matched_releases_partial",
    "Pisi.DbEnv.matched_refuted"
   ],
   "note": "Full statement false of the code: rebuild-db writes the versions before it destroys the databases, and may be killed in between. Proved for any interleaving and kills without rebuild-db, and for any sequence of complete commands of any releases with rebuild-db."
  },
  {
   "property": "C104",
   "status": "partial",
   "theorems": [
    "Pisi.DbEnv.rebuild_repairs_partial",
    "Pisi.DbEnv.never_left_empty",
    "Pisi.DbEnv.rebuild_repairs_refuted"
   ],
   "note": "Full statement false of the code: a command killed between emptying and writing a version file leaves an empty one, which stops every command. Proved when the version files are not empty; never_left_empty shows that nothing else leaves them empty."
  },
  {
   "property": "C105",
   "status": "proved",
   "theorems": [
    "Pisi.DbEnv.readers_harmless",
    "Pisi.DbEnv.readers_not_blocked"
   ],
   "note": ""
  },
  {
   "property": "C106",
   "status": "partial",
   "theorems": [
    "Pisi.Rebuild.clean_partial",
    "Pisi.Rebuild.clean_exact",
    "Pisi.Rebuild.clean_refuted"
   ],
   "note": "Full statement false of the code: the current directory is cleaned, wherever it is. Proved when it is the database directory; clean_exact says exactly what is deleted."
  },
  {
   "property": "C107",
   "status": "partial",
   "theorems": [
    "Pisi.Rebuild.reconstruct_partial",
    "Pisi.Rebuild.reconstruct_fails",
    "Pisi.Rebuild.reconstruct_refuted"
   ],
   "note": "Full statement false of the code: pisi.api.resurrect_package and pisi.api.rebuild_repo do not exist, so rebuild-db fails with the first package or repository after the old databases have been destroyed. Proved for systems without either; reconstruct_fails is what happens otherwise."
  },
  {
   "property": "C108",
   "status": "proved",
   "theorems": [
    "Pisi.Rebuild.clean_duplicates_newest",
    "Pisi.Rebuild.clean_duplicates_succeeds",
    "Pisi.Rebuild.clean_duplicates_refuted"
   ],
   "note": "clean_duplicates_refuted: it does not get through if an entry has a name with an empty part."
  },
  {
   "property": "C109",
   "status": "partial",
   "theorems": [
    "Pisi.Repo.integrity_partial",
    "Pisi.Repo.integrity_history",
    "Pisi.Repo.update_result",
    "Pisi.Repo.integrity_refuted"
   ],
   "note": "Full statement false of the code: with --force an index that is there already is read again without looking at the hash. Proved without --force; integrity_history and update_result hold with it as well."
  },
  {
   "property": "C110",
   "status": "partial",
   "theorems": [
    "Pisi.Repo.no_updates_partial",
    "Pisi.Repo.smooth_invariant",
    "Pisi.Repo.no_updates_refuted",
    "Pisi.Repo.no_updates_refuted_killed"
   ],
   "note": "Full statement false of the code: when a command fails or is killed after the index has been fetched, the next one takes it for known; this happens also when the server is updated between two requests. Proved for histories in which commands end successfully or cannot reach the server."
  },
  {
   "property": "C111",
   "status": "partial",
   "theorems": [
    "Pisi.Repo.forged_partial",
    "Pisi.Repo.forged_refused",
    "Pisi.Repo.forged_fails",
    "Pisi.Repo.forged_refuted"
   ],
   "note": "Full statement false of the code: a refused index stays in the directory, from which rebuild_repo reads it unchecked (at this commit rebuild-db fails before it gets there, C107). Proved for all histories of update-repo."
  },
  {
   "property": "C112",
   "status": "partial",
   "theorems": [
    "Pisi.Repo.arrives_partial",
    "Pisi.Repo.readUri_succeeds",
    "Pisi.Repo.checkSignature_succeeds",
    "Pisi.Repo.arrives_refuted",
    "Pisi.Repo.arrives_refuted_name"
   ],
   "note": "Full statement false of the code: an old signature stays on the server when the new index is not signed, and an index written to a name in .bz2 is not compressed but is unpacked. Proved for other names and servers without an old signature, and clients with histories as in C110."
  },
  {
   "property": "C113",
   "status": "partial",
   "theorems": [
    "Pisi.Act.inside_partial",
    "Pisi.Act.inside_links",
    "Pisi.Act.inside_dosym",
    "Pisi.Act.inside_refuted",
    "Pisi.Act.inside_refuted_link"
   ],
   "note": "Full statement false of the code: paths with .. lead out of the install directory, and so does a link made by dosym to an absolute path. Proved for all scripts without dosym (or with one dosym at the end) whose arguments do not lead upwards, on file systems without links, successful or failing."
  },
  {
   "property": "C114",
   "status": "partial",
   "theorems": [
    "Pisi.Act.insinto_partial",
    "Pisi.Act.insinto_refuted",
    "Pisi.Act.insinto_refuted_other",
    "Pisi.Act.fnmatch_iff",
    "Pisi.Act.glob1_iff",
    "Pisi.Act.glob0_iff",
    "Pisi.Act.glob_dir_iff",
    "Pisi.Act.namesAt_iff"
   ],
   "note": "Full statement false of the code: the names found are expanded as patterns once more, so a file a[1] is left out silently or replaced by a1. Proved for names without wild cards that come from outside, differ from one another and find no directory in their place."
  },
  {
   "property": "C115",
   "status": "partial",
   "theorems": [
    "Pisi.Act.domove_partial",
    "Pisi.Act.domove_refuted",
    "Pisi.Act.domove_lost"
   ],
   "note": "Full statement false of the code: the destination is always made a directory (also in the documented example), and several matches with a destination file overwrite one another. Proved for a source without wild cards, into a directory in which nothing of that name is."
  },
  {
   "property": "C116",
   "status": "partial",
   "theorems": [
    "Pisi.Act.remove_partial",
    "Pisi.Act.removeDir_partial",
    "Pisi.Act.removeDir_files",
    "Pisi.Act.unlinkDir_neither",
    "Pisi.Act.remove_refuted",
    "Pisi.Act.removeDir_refuted"
   ],
   "note": "Full statement false of the code: remove leaves directories without a word, removeDir fails on a link to a directory. Proved: remove removes exactly the files, removeDir exactly the trees that match, without links."
  },
  {
   "property": "C117",
   "status": "partial",
   "theorems": [
    "Pisi.Act.dosed_partial",
    "Pisi.Act.dosed_text",
    "Pisi.Act.dosed_blind",
    "Pisi.Act.dosed_refuted",
    "Pisi.Act.dosed_refuted_bak",
    "Pisi.Act.dosed_link",
    "Pisi.Act.dosed_system"
   ],
   "note": "Full statement false of the code: a text over a line end is never found, and a file with .bak after the name is lost. dosed_text is the full statement for texts without line ends when there is no such file; dosed_partial holds for any substitution."
  },
  {
   "property": "C118",
   "status": "partial",
   "theorems": [
    "Pisi.Act.dodir_partial",
    "Pisi.Act.dodir_succeeds",
    "Pisi.Act.dodir_refuted"
   ],
   "note": "Full statement false of the code: a file of that name is silently taken for the directory. Proved otherwise, without links."
  },
  {
   "property": "C119",
   "status": "partial",
   "theorems": [
    "Pisi.Act.rename_partial",
    "Pisi.Act.rename_missing",
    "Pisi.Act.rename_refuted"
   ],
   "note": "Full statement false of the code: a file with the new name is overwritten silently. Proved when there is none, without links."
  },
  {
   "property": "C120",
   "status": "proved",
   "theorems": [
    "Pisi.Act.dosym_exact",
    "Pisi.Act.dosym_succeeds",
    "Pisi.Act.dosym_exists"
   ],
   "note": ""
  },
  {
   "property": "C121",
   "status": "partial",
   "theorems": [
    "Pisi.Act.readable_partial",
    "Pisi.Act.dodoc_partial",
    "Pisi.Act.readable_words",
    "Pisi.Act.executable_none",
    "Pisi.Act.readable_refuted"
   ],
   "note": "Full statement false of the code: a name with two blanks or with $ is not found by install, and the exit code is not looked at. Proved for one pattern and names with single blanks at most and without characters that mean something between double quotes."
  },
  {
   "property": "C122",
   "status": "partial",
   "theorems": [
    "Pisi.Act.executable_partial",
    "Pisi.Act.dobin_partial",
    "Pisi.Act.executable_words",
    "Pisi.Act.shWords_special",
    "Pisi.Act.executable_none",
    "Pisi.Act.executable_refuted",
    "Pisi.Act.doexes_fails"
   ],
   "note": "Full statement false of the code: names with blanks are left out silently, and doexes always ends in an AttributeError. Proved for one pattern and names without characters that mean something to the shell."
  },
  {
   "property": "C123",
   "status": "partial",
   "theorems": [
    "Pisi.Act.dolib_partial",
    "Pisi.Act.dolib_link",
    "Pisi.Act.dolib_refuted"
   ],
   "note": "Full statement false of the code: os.path.join with an absolute path gives the source itself, so a link always ends in an OSError. Proved for files."
  },
  {
   "property": "C124",
   "status": "partial",
   "theorems": [
    "Pisi.Cli.command_line_partial",
    "Pisi.Cli.command_from_value",
    "Pisi.Cli.command_line_refused",
    "Pisi.Cli.badLine_removes",
    "Pisi.Cli.command_line_refuted",
    "Pisi.Cli.command_line_sound",
    "Pisi.Cli.only_options"
   ],
   "note": "Full statement false of the code: the first pass, which looks for the name of the command, takes the value of an option before it for the command: pisi -D remove install foo removes. Proved when no separate value stands before the name of the command."
  },
  {
   "property": "C125",
   "status": "proved",
   "theorems": [
    "Pisi.Cli.registry_exact",
    "Pisi.Cli.command_names",
    "Pisi.Cli.pisi_commands_registered"
   ],
   "note": ""
  },
  {
   "property": "C126",
   "status": "partial",
   "theorems": [
    "Pisi.Cli.every_command_partial",
    "Pisi.Cli.command_runs",
    "Pisi.Cli.search_broken",
    "Pisi.Cli.listUpgrades_broken",
    "Pisi.Cli.every_command_refuted"
   ],
   "note": "Full statement false of the code: search ends in an OptionConflictError and list-upgrades in a NameError whatever the arguments. Proved for all other commands and all arguments."
  },
  {
   "property": "C127",
   "status": "partial",
   "theorems": [
    "Pisi.Cli.commands_string_partial",
    "Pisi.Cli.help_lists_nothing",
    "Pisi.Cli.help_lists_refuted",
    "Pisi.Cli.usage_of_order"
   ],
   "note": "Full statement false of the code: the text is computed before the first command is registered and lists none. Proved for commands_string itself after loading."
  },
  {
   "property": "C128",
   "status": "partial",
   "theorems": [
    "Pisi.Plan.package_graph_partial",
    "Pisi.Plan.package_graph_exact",
    "Pisi.Plan.package_graph_twice",
    "Pisi.Plan.package_graph_refuted",
    "Pisi.Plan.package_graph_unknown"
   ],
   "note": "Full statement false of the code: a package given twice ends in an AssertionError. Proved for lists of distinct packages."
  },
  {
   "property": "C129",
   "status": "partial",
   "theorems": [
    "Pisi.Plan.graphviz_partial",
    "Pisi.Plan.graphviz_collide",
    "Pisi.Plan.graphviz_refuted",
    "Pisi.Plan.graphviz_digit"
   ],
   "note": "Full statement false of the code: names that differ in punctuation only become one node, and names that begin with a digit are no words of the language. Proved for all other names."
  },
  {
   "property": "C130",
   "status": "partial",
   "theorems": [
    "Pisi.Plan.emerge_partial",
    "Pisi.Plan.emerge_all_partial",
    "Pisi.Plan.emerge_fails",
    "Pisi.Plan.emerge_dry",
    "Pisi.Plan.emerge_refuted"
   ],
   "note": "Full statement false of the code: with dependencies emerge always ends in an AttributeError. Proved when dependencies are ignored."
  },
  {
   "property": "C131",
   "status": "partial",
   "theorems": [
    "Pisi.Indexing.index_partial",
    "Pisi.Indexing.index_made_iff",
    "Pisi.Indexing.index_refuted"
   ],
   "note": "Full statement refuted: for a directory whose relative path has a colon before its first slash (a:b) the paths are taken for URIs of a scheme `a` and every package ends in an ImportError of pisi/data/package.py:43. Proved for all other directories, with the exact condition under which the index is made."
  },
  {
   "property": "C132",
   "status": "partial",
   "theorems": [
    "Pisi.Indexing.find_partial",
    "Pisi.Indexing.find_source_partial",
    "Pisi.Indexing.find_remote",
    "Pisi.Indexing.find_refuted",
    "Pisi.Indexing.find_absolute"
   ],
   "note": "Full statement refuted: `#` and `?` in file names are taken for the fragment and query of a URI, so another file is opened. Proved for all names without these (and no colon in the first component). For every repository with a remote URI find_remote proves that installing by name always ends in the ImportError."
  },
  {
   "property": "C133",
   "status": "partial",
   "theorems": [
    "Pisi.Indexing.newest_partial",
    "Pisi.Indexing.offered_is_last",
    "Pisi.Indexing.newest_refuted"
   ],
   "note": "Full statement refuted: the last in the order of os.walk is offered (offered_is_last), also if it is older. Proved if no later one in the order is older."
  },
  {
   "property": "C134",
   "status": "partial",
   "theorems": [
    "Pisi.Indexing.source_partial",
    "Pisi.Indexing.source_exists",
    "Pisi.Indexing.source_refuted"
   ],
   "note": "Full statement refuted by a source in two repositories: pkgtosrc looks at the second while the specification is taken from the first. source_exists holds without hypotheses; the rest for distinct names in each index and no source in two repositories."
  },
  {
   "property": "C135",
   "status": "partial",
   "theorems": [
    "Pisi.Ar.clean_partial",
    "Pisi.Ar.clean_same",
    "Pisi.Ar.clean_twice",
    "Pisi.Ar.hashed_left",
    "Pisi.Ar.hashed_other",
    "Pisi.Ar.clean_other",
    "Pisi.Ar.isAr_space",
    "Pisi.Ar.cleanLine_early",
    "Pisi.Ar.clean_refuted"
   ],
   "note": "Full statement refuted: data of a member that contain a blank before a backquote, with a slash nearby, are overwritten, and even the size of the file changes. Proved for libraries without these bytes in the data and sizes of at most nine digits."
  },
  {
   "property": "C136",
   "status": "partial",
   "theorems": [
    "Pisi.Strip.nostrip_partial",
    "Pisi.Strip.nostrip_ignored",
    "Pisi.Strip.strip_exact",
    "Pisi.Strip.debug_place",
    "Pisi.Strip.nostrip_refuted"
   ],
   "note": "Full statement refuted: the paths compared begin with two slashes, so entries written with one have no effect at all (nostrip_ignored). Proved for entries with two slashes and no file whose path continues an entry within a name."
  },
  {
   "property": "C137",
   "status": "partial",
   "theorems": [
    "Pisi.Strip.kind_partial",
    "Pisi.Strip.strip_options",
    "Pisi.Strip.kind_exact",
    "Pisi.Strip.kind_refuted"
   ],
   "note": "Full statement refuted by a text file called `SB executable`. Proved for paths that do not contain the words."
  },
  {
   "property": "C138",
   "status": "partial",
   "theorems": [
    "Pisi.ListCmd.available_partial",
    "Pisi.ListCmd.available_first",
    "Pisi.ListCmd.available_all",
    "Pisi.ListCmd.available_named",
    "Pisi.ListCmd.available_unknown",
    "Pisi.ListCmd.available_refuted",
    "Pisi.ListCmd.available_refuted_long"
   ],
   "note": "Full statement refuted: the package shown is that of the first repository with the name, and --uninstalled has no effect with --long. available_first and available_all hold without hypotheses; the rest if no other repository has a package of the name."
  },
  {
   "property": "C139",
   "status": "proved",
   "theorems": [
    "Pisi.ListCmd.sources_exact",
    "Pisi.ListCmd.components_exact"
   ],
   "note": ""
  },
  {
   "property": "C140",
   "status": "partial",
   "theorems": [
    "Pisi.Tar.memberName_eq",
    "Pisi.Tar.install_recognised",
    "Pisi.Tar.install_partial",
    "Pisi.Tar.install_again",
    "Pisi.Tar.install_refuted"
   ],
   "note": "Full statement refuted: where a file or link of the package takes the place of a directory it is silently not installed, since TarFile.extract swallows the error. Proved for all other states of the root."
  },
  {
   "property": "C141",
   "status": "partial",
   "theorems": [
    "Pisi.Tar.opened_iff",
    "Pisi.Tar.source_partial",
    "Pisi.Tar.source_lzma",
    "Pisi.Tar.source_lost",
    "Pisi.Tar.isCached_exact",
    "Pisi.Tar.source_refuted"
   ],
   "note": "Full statement refuted for tarlzma: the archive is removed from the cache by lzma -d, and names that end in one of the characters of .lzma before the suffix are not found. Proved for the other types; source_lzma and source_lost say exactly what happens for tarlzma."
  },
  {
   "property": "C142",
   "status": "partial",
   "theorems": [
    "Pisi.Tar.zip_partial",
    "Pisi.Tar.zip_refuted"
   ],
   "note": "Full statement refuted by debug packages: their links and empty directories are stored below debug/ and not installed. Proved for ordinary packages whose paths do not end in a slash."
  },
  {
   "property": "C143",
   "status": "partial",
   "theorems": [
    "Pisi.BuildEnv.build_sees_partial",
    "Pisi.BuildEnv.reads_do_not_depend",
    "Pisi.BuildEnv.body_does_not_depend",
    "Pisi.BuildEnv.build_sees_own",
    "Pisi.BuildEnv.helper_once",
    "Pisi.BuildEnv.build_leaves",
    "Pisi.BuildEnv.builds_leave",
    "Pisi.BuildEnv.build_sees_refuted"
   ],
   "note": "Full statement refuted: os.environ is replaced by a copy, which does not undo putenv, so programs still see the variables exported by the scripts of packages built before, and the SRC_DIR of the last one while the script is being loaded. Proved: what scripts read themselves never depends on earlier builds; programs see a difference at most in variables that earlier scripts changed and builds do not set."
  },
  {
   "property": "C144",
   "status": "partial",
   "theorems": [
    "Pisi.InstallOp.agrees_partial",
    "Pisi.InstallOp.registered_partial",
    "Pisi.InstallOp.fail_keeps_db",
    "Pisi.InstallOp.fail_early",
    "Pisi.InstallOp.only_at",
    "Pisi.InstallOp.success_agrees",
    "Pisi.InstallOp.agrees_refuted"
   ],
   "note": "Full statement refuted by a first installation whose script fails: its files stay on the disk without any record. Proved for every package whose own operations succeed or fail before anything is changed, whatever happens to others; the records are never changed by an operation that fails."
  },
  {
   "property": "C145",
   "status": "partial",
   "theorems": [
    "Pisi.InstallOp.repeat_install_partial",
    "Pisi.InstallOp.repeat_remove",
    "Pisi.InstallOp.lucky_install",
    "Pisi.InstallOp.late_failure_stuck",
    "Pisi.InstallOp.stuck_forever",
    "Pisi.InstallOp.stuck_remove",
    "Pisi.InstallOp.dropping_fails",
    "Pisi.InstallOp.repeat_refuted"
   ],
   "note": "Full statement refuted: an upgrade that fails after the stored file list of the old version was deleted fails ever after (stuck_forever), and removing the package then leaves its files (stuck_remove); an upgrade that drops a file always fails (dropping_fails). Proved for first installations, removals, and upgrades that fail earlier."
  },
  {
   "property": "C146",
   "status": "proved",
   "theorems": [
    "Pisi.Comar.wait_answer",
    "Pisi.Comar.post_install_exact",
    "Pisi.Comar.post_install_stops",
    "Pisi.Comar.pre_remove_exact",
    "Pisi.Comar.closed_link",
    "Pisi.Comar.wait_fails_left",
    "Pisi.Comar.stale_reply"
   ],
   "note": ""
  },
  {
   "property": "C147",
   "status": "partial",
   "theorems": [
    "Pisi.Auth.auth_partial",
    "Pisi.Auth.lax_value",
    "Pisi.Auth.lax_knows",
    "Pisi.Auth.strict_never",
    "Pisi.Auth.line_ends",
    "Pisi.Auth.authInfo_name",
    "Pisi.Auth.probe_unknown",
    "Pisi.Auth.nothing_sent",
    "Pisi.Auth.nothing_other",
    "Pisi.Auth.decode_b2a",
    "Pisi.Auth.auth_refuted"
   ],
   "note": "Full statement refuted: base64.encodestring ends every piece of 57 bytes with a newline, so a server that keeps to the standard never reads the header (strict_never); the request by which it is found out whether loading can be continued carries no header. Proved for servers that leave out ends of lines, names without a colon, and the request for the file."
  },
  {
   "property": "C148",
   "status": "partial",
   "theorems": [
    "Pisi.SearchFile.search_partial",
    "Pisi.SearchFile.search_exact",
    "Pisi.SearchFile.search_sound",
    "Pisi.SearchFile.link_hidden",
    "Pisi.SearchFile.fuzzy_exact",
    "Pisi.SearchFile.fuzzy_plain",
    "Pisi.SearchFile.search_refuted"
   ],
   "note": "Full statement refuted: the real path is looked up, so for a recorded link the package of the place it leads to is shown, or none. Proved for all paths without links, and for files that are not on the disk."
  },
  {
   "property": "C149",
   "status": "partial",
   "theorems": [
    "Pisi.Shell.last_name_iff",
    "Pisi.Shell.strip_iff",
    "Pisi.Shell.verify_iff",
    "Pisi.Shell.sign_iff",
    "Pisi.Shell.unlzma_iff",
    "Pisi.Shell.sed_iff",
    "Pisi.Shell.patch_iff",
    "Pisi.Shell.file_partial",
    "Pisi.Shell.install_readable_partial",
    "Pisi.Shell.install_exe_partial",
    "Pisi.Shell.debug_partial",
    "Pisi.Shell.xdelta_partial",
    "Pisi.Shell.semicolon_runs",
    "Pisi.Shell.shell_refuted"
   ],
   "note": "Full statement refuted by names with blanks or characters that mean something to the shell; a name with a semicolon runs another program (semicolon_runs). For most commands it is proved exactly for which names they work."
  },
  {
   "property": "C150",
   "status": "partial",
   "theorems": [
    "Pisi.RemoteBuild.remote_partial",
    "Pisi.RemoteBuild.reads_needed",
    "Pisi.RemoteBuild.build_reads_fetched",
    "Pisi.RemoteBuild.script_misplaced",
    "Pisi.RemoteBuild.filename_join",
    "Pisi.RemoteBuild.remote_refuted"
   ],
   "note": "Full statement refuted by COMAR scripts in a directory below comar, which are fetched to comar itself. Proved for all other files, in whatever directories, with names without ?, # and ;."
  },
  {
   "property": "C151",
   "status": "partial",
   "theorems": [
    "Pisi.RemoteBuild.additional_partial",
    "Pisi.RemoteBuild.additional_iff",
    "Pisi.RemoteBuild.additional_apart",
    "Pisi.RemoteBuild.additional_refuted"
   ],
   "note": "Full statement refuted by relative targets with a directory, whose directory is glued to the name of the install directory. additional_iff says exactly for which targets it holds."
  },
  {
   "property": "C152",
   "status": "partial",
   "theorems": [
    "Pisi.Pipes.grep_partial",
    "Pisi.Pipes.cat_join",
    "Pisi.Pipes.print_lines",
    "Pisi.Pipes.print_chomped",
    "Pisi.Pipes.grep_exact",
    "Pisi.Pipes.grep_order",
    "Pisi.Pipes.grep_sound",
    "Pisi.Pipes.uniq_iff",
    "Pisi.Pipes.uniq_mem",
    "Pisi.Pipes.sort_uniq",
    "Pisi.Pipes.sort_exact",
    "Pisi.Pipes.asdict_last",
    "Pisi.Pipes.enum_exact",
    "Pisi.Pipes.pipes_refuted",
    "Pisi.Pipes.print_refuted"
   ],
   "note": "Full statement refuted: grep looks for the expression at the start of a line only, and printto adds a second newline to every line. Proved: grep for expressions beginning with .*, and sort, uniq, join, asdict and enum for all files."
  },
  {
   "property": "C153",
   "status": "partial",
   "theorems": [
    "Pisi.FS.roundtrip_partial",
    "Pisi.FS.extract_free",
    "Pisi.FS.extract_over",
    "Pisi.FS.overwritten_lost",
    "Pisi.FS.empty_dir_lost",
    "Pisi.FS.conf_dir_left",
    "Pisi.FS.roundtrip_refuted"
   ],
   "note": "Full statement refuted by files that were there before (overwritten, then deleted), empty directories that were there before (deleted) and new directories of configuration files (left behind). Proved for packages without configuration and permanent files whose members are new, in directories that are new or have something else in them; both operations are proved to succeed."
  },
  {
   "property": "C154",
   "status": "proved",
   "theorems": [
    "Pisi.Plan.upgrade_upgrades",
    "Pisi.Plan.upgrade_settles_all",
    "Pisi.Plan.upgrade_declined",
    "Pisi.Plan.upgradeRun_cases",
    "Pisi.Plan.execInstall_ok"
   ],
   "note": "Whole run of upgrade_pkg_names on the databases, including the base component; the security and ignore_dependency options are not modelled here (C18 covers the former), nor downloads."
  },
  {
   "property": "C155",
   "status": "partial",
   "theorems": [
    "Pisi.Plan.upgrade_runs_partial",
    "Pisi.Plan.upgrade_runs_refuted",
    "Pisi.Plan.execInstall_runs",
    "Pisi.Plan.planUpgrade_clean",
    "Pisi.Plan.fineWorld_fine"
   ],
   "note": "Proved when packages dragged in through reverse dependencies have no further unsatisfied dependencies and, with eager, packages that are not upgradable meet the dependencies on them. Refuted in full: the reverse loop of plan_upgrade never looks at the other dependencies of what it drags in, and the run stops with 'Package not installable' after part of the upgrade."
  },
  {
   "property": "C156",
   "status": "partial",
   "theorems": [
    "Pisi.Plan.upgrade_keeps_partial",
    "Pisi.Plan.upgrade_keeps_refuted",
    "Pisi.Plan.upgrade_keeps_stay_iff",
    "Pisi.Plan.satisfied_after"
   ],
   "note": "Proved under the condition that the repositories meet the dependencies of staying packages on upgraded ones, which upgrade_keeps_stay_iff shows to be necessary for each of them. Refuted in full: the reverse loop tests the dependency against the installed (old) package, so a package pinned to the old release is left broken."
  },
  {
   "property": "C157",
   "status": "partial",
   "theorems": [
    "Pisi.Act.copytree_partial",
    "Pisi.Act.copytree_refuted",
    "Pisi.Act.shutilCopytree_copied",
    "Pisi.Act.insinto_tree",
    "Pisi.Act.copy_tree",
    "Pisi.Act.collect_ok_iff",
    "Pisi.Act.collect_goes_on",
    "Pisi.Act.normComps_rules"
   ],
   "note": "Full statement false of the code: into a directory that is there, links are copied as links although the caller wants them followed, the function forgets sym when it calls itself. Proved for trees without links or with links kept, of every depth below the recursion limit, when the directory of the destination is there: the call succeeds and leaves an exact copy and nothing else."
  },
  {
   "property": "C158",
   "status": "partial",
   "theorems": [
    "Pisi.Act.doman_partial",
    "Pisi.Act.doman_refuted",
    "Pisi.Act.domanPages_ok",
    "Pisi.Act.doman_wrong",
    "Pisi.Act.doman_ignored",
    "Pisi.Act.afterDot_gz",
    "Pisi.Act.afterDot_last",
    "Pisi.Act.plain_words"
   ],
   "note": "Full statement false of the code: the command line is not quoted, so a page with a blank in its name is left out and nothing is said. Proved for names without blanks and shell characters that differ from one another. afterDot_gz: compressed pages go to mangz whatever their section is."
  },
  {
   "property": "C159",
   "status": "partial",
   "theorems": [
    "Pisi.Act.dohtml_partial",
    "Pisi.Act.dohtml_refuted",
    "Pisi.Act.dohtmlOne_ok",
    "Pisi.Act.osWalk_files",
    "Pisi.Act.extOf_iff"
   ],
   "note": "Full statement false of the code: files of the same name in different directories overwrite one another in the flat destination, and nothing is said. Proved for clean names when no two files have the same name, for every depth below the recursion limit; directories called CVS are left out only if they match themselves, not below, as the statement says."
  },
  {
   "property": "C160",
   "status": "partial",
   "theorems": [
    "Pisi.Act.newdoc_partial",
    "Pisi.Act.newdoc_refuted",
    "Pisi.Act.newman_partial",
    "Pisi.Act.copy_file_exact",
    "Pisi.Act.copy_same"
   ],
   "note": "Full statement false of the code: newdoc copies to the current directory but readable_insinto looks in the source directory, so after a cd nothing is put into the package and nothing is said. Proved when they are the same directory; the copy in the source directory stays there. copy_same: giving a file its own name ends with an uncaught shutil.Error."
  },
  {
   "property": "C161",
   "status": "partial",
   "theorems": [
    "Pisi.Tools.failures_partial",
    "Pisi.Tools.failures_refuted",
    "Pisi.Tools.failures_perl",
    "Pisi.Tools.script_ok",
    "Pisi.Tools.script_ends"
   ],
   "note": "Full statement false of the code: autotools.compile throws the exit status away, and the script goes on after the compiler failed. failures_perl: perlmodules.configure raises a name that does not exist, so the error is a NameError. Proved for all scripts without autotools.compile, for the class of the error without perlmodules.configure. gnuconfig_update and unlink are any functions of the state here."
  },
  {
   "property": "C162",
   "status": "partial",
   "theorems": [
    "Pisi.Tools.inst_partial",
    "Pisi.Tools.inst_refuted",
    "Pisi.Tools.inst_blank",
    "Pisi.Tools.scons_default",
    "Pisi.Tools.plain_run",
    "Pisi.Tools.told"
   ],
   "note": "Full statement false of the code: the default of the parameter prefix of scons.install is computed when the module is imported, so the second package built with scons is installed into the directory of the first. Proved with the directory told by scons being that of the first package that imported scons, for directories without blanks and characters of the shell (inst_blank shows what happens with a blank)."
  },
  {
   "property": "C163",
   "status": "partial",
   "theorems": [
    "Pisi.Tools.pyInstall_partial",
    "Pisi.Tools.pyInstall_refuted",
    "Pisi.Tools.docs_run"
   ],
   "note": "Full statement false of the code: the loop goes over the characters of a string, so no documentation is ever installed, and a file called C (or one of 29 other characters) makes the call fail after everything was installed. Proved is exactly when it succeeds and that it does nothing after setup.py."
  },
  {
   "property": "C164",
   "status": "partial",
   "theorems": [
    "Pisi.SystemCmd.system_partial",
    "Pisi.SystemCmd.system_refuted",
    "Pisi.SystemCmd.system_lines",
    "Pisi.SystemCmd.rd_squeeze"
   ],
   "note": "Full statement false of the code: runs of blanks between quotes become one blank, and ends of lines become blanks (system_lines: two commands become one). Proved for lines without quotes, backslashes and ends of lines, and for lines in which every blank stands alone."
  },
  {
   "property": "C165",
   "status": "partial",
   "theorems": [
    "Pisi.Cache.deleteCache_partial",
    "Pisi.Cache.deleteCache_refuted",
    "Pisi.Cache.deleteCache_link",
    "Pisi.Cache.deleteCache_tmp"
   ],
   "note": "Full statement false of the code: where the directory of packages is a symbolic link the command ends with an uncaught OSError and removes nothing. Proved for file systems without symbolic links when the directory for temporary files can be written to; deleteCache_tmp says what is removed when it cannot."
  },
  {
   "property": "C166",
   "status": "partial",
   "theorems": [
    "Pisi.Size.total_partial",
    "Pisi.Size.total_refuted",
    "Pisi.Size.total_unknown",
    "Pisi.Size.shown_order",
    "Pisi.Size.shown_mono",
    "Pisi.Size.human_cases",
    "Pisi.Size.cents_near"
   ],
   "note": "Full statement false of the code: the first division is one of integers, so 1023 bytes are shown as 0.00 KB, and 1001 bytes as less than 1000 (shown_order). Proved: exact up to 1000 bytes, whole KB below rounded down to 1001 KB, the nearest hundredth from there on; the order is kept when the larger one is not between 1001 and 1023 bytes (shown_mono). A package without a size in the index makes the sum fail (total_unknown)."
  },
  {
   "property": "C167",
   "status": "partial",
   "theorems": [
    "Pisi.Patches.patches_partial",
    "Pisi.Patches.patches_refuted",
    "Pisi.Patches.patchExists_iff",
    "Pisi.Patches.doPatch_plain",
    "Pisi.Patches.applyOne_plain"
   ],
   "note": "Full statement false of the code: the name of the patch is put into a line for the shell, so a name with a blank makes another file be applied to the sources. Proved for names and targets without a meaning for the shell and any behaviour of patch."
  },
  {
   "property": "C168",
   "status": "partial",
   "theorems": [
    "Pisi.Act.domo_partial",
    "Pisi.Act.domo_refuted",
    "Pisi.Act.domo_rejected",
    "Pisi.Act.domo_stale"
   ],
   "note": "Full statement false of the code: the status of msgfmt is not looked at, so a text it rejects makes a messages.mo left over from before go into the package (domo_stale), or nothing. Proved where msgfmt accepts the text, for names that are no options and have no meaning for the shell, in file systems without links."
  },
  {
   "property": "C169",
   "status": "partial",
   "theorems": [
    "Pisi.Act.gnuconfig_partial",
    "Pisi.Act.gnuconfig_refuted",
    "Pisi.Act.osWalk_all",
    "Pisi.Act.gnuconfigFile_step"
   ],
   "note": "Full statement false of the code: where the package with the newest files is not installed, symbolic links are deleted and nothing comes in their place. Proved for trees without links when the newest files are there."
  },
  {
   "property": "C170",
   "status": "proved",
   "theorems": [
    "Pisi.Act.echo_ok",
    "Pisi.Act.echo_lines",
    "Pisi.Act.echo_write"
   ],
   "note": ""
  },
  {
   "property": "C171",
   "status": "partial",
   "theorems": [
    "Pisi.Act.touch_partial",
    "Pisi.Act.touch_refuted",
    "Pisi.Act.touch_dangling"
   ],
   "note": "Full statement false of the code: whether something is there is asked with glob, so an existing file with brackets in its name is emptied. Proved for names without wild cards. touch_dangling: on a link that leads nowhere the script ends with an uncaught OSError."
  },
  {
   "property": "C172",
   "status": "partial",
   "theorems": [
    "Pisi.Act.ldscript_partial",
    "Pisi.Act.ldscript_refuted"
   ],
   "note": "Full statement false of the code: where the name is the usual symbolic link, the library it leads to is overwritten with the script. Proved for file systems without symbolic links."
  },
  {
   "property": "C173",
   "status": "proved",
   "theorems": [
    "Pisi.Tools.call_words",
    "Pisi.Tools.call_line",
    "Pisi.Tools.install_state"
   ],
   "note": "call_line gives the exact text of the line for all parameters; call_words how the shell reads it."
  },
  {
   "property": "C174",
   "status": "partial",
   "theorems": [
    "Pisi.Consent.dry_partial",
    "Pisi.Consent.dry_refuted",
    "Pisi.Consent.dry_update"
   ],
   "note": "Full statement false of the code: with --ignore-dependency package files are installed in spite of --dry-run (dry_refuted), and pisi upgrade --dry-run updates the repositories (dry_update). Proved for everything else."
  },
  {
   "property": "C175",
   "status": "partial",
   "theorems": [
    "Pisi.Consent.decline_partial",
    "Pisi.Consent.decline_any",
    "Pisi.Consent.decline_refuted",
    "Pisi.Consent.decline_files"
   ],
   "note": "Full statement false of the code: packages in conflict are removed before the second question, and install_pkg_files goes on after a no in the nested installation of missing dependencies. Proved: a no to the first question; any no for remove, and with --ignore-file-conflicts for installing names and upgrading."
  },
  {
   "property": "C176",
   "status": "partial",
   "theorems": [
    "Pisi.Consent.consent_partial",
    "Pisi.Consent.consent_bound",
    "Pisi.Consent.plans_fair",
    "Pisi.Consent.consent_refuted",
    "Pisi.Consent.consent_install",
    "Pisi.Consent.consent_base"
   ],
   "note": "Full statement false of the code: the question is asked only if there are more packages in the order than names were given, and names that need nothing count, too; what is added for system.base counts as given. Proved where no given name is left out and nothing is added for system.base. consent_bound: in general, where no question is asked, at most as many packages are treated without having been named as there are named ones left alone."
  },
  {
   "property": "C177",
   "status": "proved",
   "theorems": [
    "Pisi.Plan.install_agree",
    "Pisi.Plan.remove_agree",
    "Pisi.Plan.upgrade_agree",
    "Pisi.Plan.files_agree",
    "Pisi.Plan.files_perm",
    "Pisi.Plan.run_agree",
    "Pisi.Plan.removed_agree"
   ],
   "note": ""
  },
  {
   "property": "C178",
   "status": "partial",
   "theorems": [
    "Pisi.RepoCmd.updates_partial",
    "Pisi.RepoCmd.updates_all",
    "Pisi.RepoCmd.updates_all_refuted"
   ],
   "note": "Full statement false of the code: the loop ends with the first repository that cannot be updated (updates_all_refuted). Proved: exactly those before it are updated, nothing else changes, and if all can be updated all are."
  },
  {
   "property": "C179",
   "status": "proved",
   "theorems": [
    "Pisi.RepoCmd.remove_exact"
   ],
   "note": ""
  },
  {
   "property": "C180",
   "status": "partial",
   "theorems": [
    "Pisi.RepoCmd.files_partial",
    "Pisi.RepoCmd.files_refuted",
    "Pisi.RepoCmd.files_up"
   ],
   "note": "Full statement false of the code: a repository may be called / or .., and removing it deletes the whole file system or the directory above (files_refuted, files_up). Proved for names that are one component of a path."
  },
  {
   "property": "C181",
   "status": "proved",
   "theorems": [
    "Pisi.RepoCmd.add_exact",
    "Pisi.RepoCmd.add_refused",
    "Pisi.RepoCmd.list_exact"
   ],
   "note": ""
  },
  {
   "property": "C182",
   "status": "partial",
   "theorems": [
    "Pisi.Xml.Dtd.read_iff",
    "Pisi.Xml.Dtd.read_refuted",
    "Pisi.Xml.Dtd.read_partial"
   ],
   "note": "Full statement false of the code: the DTD allows blank elements, non-ASCII words, texts in no readable language and levels that are no numbers, which are refused (read_refuted). Proved: the exact condition, for all valid documents (read_iff), and that every valid document that meets it is read."
  },
  {
   "property": "C183",
   "status": "partial",
   "theorems": [
    "Pisi.Xml.Dtd.types_none",
    "Pisi.Xml.Dtd.types_refuted",
    "Pisi.Xml.Dtd.unread",
    "Pisi.Xml.Dtd.kept",
    "Pisi.Xml.Dtd.declared"
   ],
   "note": "Full statement false of the code: the DTD declares the type of an update as an attribute, the class reads an element, so no update ever has a type (types_none, types_refuted), and the owner of an additional file is not read. Proved for all other declared attributes."
  },
  {
   "property": "C184",
   "status": "proved",
   "theorems": [
    "Pisi.Xml.Dtd.component_iff",
    "Pisi.Xml.Dtd.distribution_iff",
    "Pisi.Xml.Dtd.files_iff",
    "Pisi.Xml.Dtd.component_writes",
    "Pisi.Xml.Dtd.distribution_writes"
   ],
   "note": ""
  },
  {
   "property": "C185",
   "status": "proved",
   "theorems": [
    "Pisi.Xml.Dtd.meta_iff"
   ],
   "note": ""
  },
  {
   "property": "C186",
   "status": "partial",
   "theorems": [
    "Pisi.Cli.Manual.readme_exact",
    "Pisi.Cli.Manual.readme_partial",
    "Pisi.Cli.Manual.readme_refuted",
    "Pisi.Cli.Manual.readme_install",
    "Pisi.Cli.Manual.readme_install_table"
   ],
   "note": "Full statement false of the code: search and list-upgrades fail while their parser is built (option letters given twice), so they never run. Proved for all other commands; the list of names is exact."
  },
  {
   "property": "C187",
   "status": "partial",
   "theorems": [
    "Pisi.Cli.Manual.manual_partial",
    "Pisi.Cli.Manual.manual_refuted",
    "Pisi.Cli.Manual.manual_dead"
   ],
   "note": "Full statement false of the code for search and list-upgrades, which end with an error whatever follows (manual_dead). Proved for all other commands and all lines."
  },
  {
   "property": "C188",
   "status": "partial",
   "theorems": [
    "Pisi.Uri.scheme_exact",
    "Pisi.Uri.remote_iff",
    "Pisi.Uri.address_parts",
    "Pisi.Uri.local_partial",
    "Pisi.Uri.local_refuted",
    "Pisi.Uri.local_refuted_fragment",
    "Pisi.Uri.no_split"
   ],
   "note": "The part about file names is false of the code: a:b is taken for an address and a#b has the path a. Proved for all names that do not begin like an address and have no ? or #."
  },
  {
   "property": "C189",
   "status": "proved",
   "theorems": [
    "Pisi.DB.update_components",
    "Pisi.DB.update_components_plain"
   ],
   "note": ""
  },
  {
   "property": "C190",
   "status": "proved",
   "theorems": [
    "Pisi.PkgName.package_file",
    "Pisi.Repo.published_names",
    "Pisi.Repo.address_written",
    "Pisi.Tar.zip_names",
    "Pisi.Strip.kind_words",
    "Pisi.Shell.debug_words",
    "Pisi.Act.ldscript_words",
    "Pisi.Act.gnuconfig_words",
    "Pisi.Pack.static_words",
    "Pisi.Plan.punctuation_iff"
   ],
   "note": ""
  },
  {
   "property": "C191",
   "status": "proved",
   "theorems": [
    "Pisi.Xml.Dtd.index_iff",
    "Pisi.Xml.Dtd.index_one"
   ],
   "note": ""
  },
  {
   "property": "C192",
   "status": "partial",
   "theorems": [
    "Pisi.Xml.reread_partial",
    "Pisi.Xml.reread_refuted",
    "Pisi.Xml.reread_refuted_zero",
    "Pisi.Xml.decode_safe",
    "Pisi.Xml.plain_attrs"
   ],
   "note": "False of the code where a number is 0: a mandatory one is read but cannot be written, an optional one is lost. Proved for all trees without zeros and with ASCII names of languages; decode_safe shows that nothing else that is read can get lost."
  },
  {
   "property": "C193",
   "status": "partial",
   "theorems": [
    "Pisi.Xml.record_eq_partial",
    "Pisi.Xml.record_eq_refuted",
    "Pisi.Xml.own_members",
    "Pisi.Xml.package_compares",
    "Pisi.Xml.no_base",
    "Pisi.Xml.dictEq_iff"
   ],
   "note": "False of the code for the packages of metadata and indices: only the members declared in the class itself are compared, so two packages with different names can be equal. Proved for all classes without bases; own_members and package_compares say what is compared of a package."
  },
  {
   "property": "C194",
   "status": "partial",
   "theorems": [
    "Pisi.Info.info_partial",
    "Pisi.Info.info_refuted",
    "Pisi.Info.package_fails",
    "Pisi.Info.xml_fails",
    "Pisi.Info.arg_told"
   ],
   "note": "False of the code: pisi.api has no info_name and no info, so the name of an installed or available package always raises, and --xml fails for every argument; so does a package file whose package depends on a component. info_partial says exactly when a run ends and what it prints then."
  },
  {
   "property": "C195",
   "status": "proved",
   "theorems": [
    "Pisi.DB.installed_exact",
    "Pisi.DB.list_installed_all",
    "Pisi.DB.remove_succeeds",
    "Pisi.DB.install_succeeds",
    "Pisi.DB.both_run"
   ],
   "note": ""
  },
  {
   "property": "C196",
   "status": "partial",
   "theorems": [
    "Pisi.Info.search_partial",
    "Pisi.Info.search_refuted"
   ],
   "note": "False of the code: for every package found that is installed or in a repository, pisi.api.info_name is called, which does not exist. search_partial: only the number is printed, and the command ends without error exactly if none of the packages found is in the databases."
  },
  {
   "property": "C197",
   "status": "partial",
   "theorems": [
    "Pisi.DB.session_partial",
    "Pisi.DB.session_refuted",
    "Pisi.DB.session_inv",
    "Pisi.DB.unsuited_breaks",
    "Pisi.DB.conflict_breaks"
   ],
   "note": "False of the code: replacing an installed package deletes the record of which packages depend on it, so it can be removed from under them afterwards (again: install 2, install 1 that depends on 2, reinstall 2, remove 2); an accepted package may replace one that others need in another version (unsuited_breaks); and a package removed because of a conflict is removed alone (conflict_breaks). session_partial: true for all sequences in which replacements suit the packages that depend on them, nothing is removed because of a conflict that another installed package depends on, and no removal takes a package that another depends on after it was replaced while it was depended on."
  },
  {
   "property": "C198",
   "status": "partial",
   "theorems": [
    "Pisi.DB.removal_partial",
    "Pisi.DB.removal_refuted"
   ],
   "note": "False of the code for the same reason as C197. After all sequences that meet the condition of C197 a removal does not fail, and it is exact if nothing that goes was replaced while others depended on it and is depended on still."
  },
  {
   "property": "C199",
   "status": "proved",
   "theorems": [
    "Pisi.DB.install_exact",
    "Pisi.DB.install_consistent",
    "Pisi.DB.install_new",
    "Pisi.DB.run_both"
   ],
   "note": ""
  },
  {
   "property": "C200",
   "status": "partial",
   "theorems": [
    "Pisi.DB.list_upgrades_partial",
    "Pisi.DB.list_upgrades_refuted"
   ],
   "note": "False of the code: --ignore-build-no is read and not used, and with --long a package is printed as if it were a string, which raises. list_upgrades_partial: exact for the build numbers, with any options; it fails exactly if a release that is to be compared is none or, with --long, if there is anything to show."
  },
  {
   "property": "C201",
   "status": "partial",
   "theorems": [
    "Pisi.DB.check_partial",
    "Pisi.DB.check_refuted",
    "Pisi.DB.check_all"
   ],
   "note": "False of the code: pisi.api has no check. check_partial: the packages before the first installed one are told to be not installed, then the command fails; check_all: without names it ends without error exactly if nothing is installed."
  },
  {
   "property": "C202",
   "status": "partial",
   "theorems": [
    "Pisi.dep_text_partial",
    "Pisi.dep_text_refuted",
    "Pisi.dep_text_hides"
   ],
   "note": "False of the code: the text leaves out the exact version and release (dep_text_hides). dep_text_partial: for dependencies without those whose words have no blanks, the text determines the package and all bounds."
  },
  {
   "property": "C203",
   "status": "partial",
   "theorems": [
    "Pisi.Xml.get_node_partial",
    "Pisi.Xml.get_node_refuted"
   ],
   "note": "False of the code: of several children with the same tag only the first is looked into. get_node_partial: what is found is the first, and it is found for single tags and if no node on the way has two children with the next tag; getAllNodes is exact."
  },
  {
   "property": "C204",
   "status": "proved",
   "theorems": [
    "Pisi.Xml.add_node_exact",
    "Pisi.Xml.add_node_empty"
   ],
   "note": ""
  },
  {
   "property": "C205",
   "status": "partial",
   "theorems": [
    "Pisi.Xml.text_partial",
    "Pisi.Xml.text_refuted"
   ],
   "note": "False of the code: a text is added under the last of several children with the same tag and looked for in the first. text_partial: true if no node on the way has two children with the next tag."
  },
  {
   "property": "C206",
   "status": "partial",
   "theorems": [
    "Pisi.Xml.backend_partial",
    "Pisi.Xml.backend_add_partial",
    "Pisi.Xml.backend_reads",
    "Pisi.Xml.backend_refuted"
   ],
   "note": "False of the code: read passes parameters that the two other implementations do not have, and write one that minidom's does not have. backend_partial: exactly what can be read and written with each; minidom's functions find the same nodes and texts at all paths but the empty one. backend_add_partial: they add the same nodes and texts at all paths."
  },
  {
   "property": "C207",
   "status": "partial",
   "theorems": [
    "Pisi.Console.console_partial",
    "Pisi.Console.console_refuted",
    "Pisi.Console.action_always",
    "Pisi.Console.console_colours"
   ],
   "note": "Full statement ConsoleFull, refuted: a status with a character outside of ASCII raises an exception if standard error is an xterm (str(message) in xterm_title), and action ignores its argument verbose (action_always). Proved: for all sequences without actions that are for --verbose only on a run without it, failing exactly for such statuses, and the streams (after taking out control sequences) and the log are exactly what they are to be."
  },
  {
   "property": "C208",
   "status": "partial",
   "theorems": [
    "Pisi.FS.reinstall_partial",
    "Pisi.FS.reinstall_over",
    "Pisi.FS.install_over_old",
    "Pisi.FS.reinstall_same",
    "Pisi.FS.reinstall_refuted",
    "Pisi.FS.old_deleted",
    "Pisi.FS.extract_open"
   ],
   "note": "Full statement ReinstallFull, refuted by a directory in the place of a file. Proved for all packages and file systems in which files and directories are not in each other's places and configuration files are not links (reinstall_partial when there is no .old file beside changed ones; reinstall_over and install_over_old also when there is: exactly those .old files are gone afterwards); reinstall_same, without exceptions: an intact package is reinstalled without any change."
  },
  {
   "property": "C209",
   "status": "partial",
   "theorems": [
    "Pisi.Handler.told",
    "Pisi.Handler.traceback_iff",
    "Pisi.Handler.advice_iff",
    "Pisi.Handler.upgraded_said",
    "Pisi.Handler.handler_partial",
    "Pisi.Handler.handler_refuted"
   ],
   "note": "Full statement HandlerFull, refuted by DBRunRecoveryError with --debug. told (status and reason) holds for all ends; traceback_iff and advice_iff say exactly when there is a traceback and when the advice is right; handler_partial is the full statement for the failures after the initialisation that are not the database asking for recovery."
  },
  {
   "property": "C210",
   "status": "partial",
   "theorems": [
    "Pisi.FS.intact_partial",
    "Pisi.FS.check_since",
    "Pisi.FS.check_intact",
    "Pisi.FS.install_over",
    "Pisi.FS.intact_refuted"
   ],
   "note": "Full statement IntactFull, refuted by a package installed below /d. Proved for installations below /, over all file systems in which files and directories are not in each other's places and changed configuration files can be kept (the hypotheses of C208); install_over is C208 for a first installation over files that are there."
  },
  {
   "property": "C211",
   "status": "partial",
   "theorems": [
    "Pisi.BuildRun.staged_same_partial",
    "Pisi.BuildRun.session_work",
    "Pisi.BuildRun.staged_unchecked",
    "Pisi.BuildRun.staged_same_refuted"
   ],
   "note": "Full statement StagedFull, refuted by a source with an unsatisfied build dependency. Proved for all divisions into increasing stages, if the checks made only by the build in one shot succeed and the source names its component."
  },
  {
   "property": "C212",
   "status": "partial",
   "theorems": [
    "Pisi.FS.upgrade_partial",
    "Pisi.FS.upgrade_puts",
    "Pisi.FS.upgrade_intact",
    "Pisi.FS.upgrade_refuted"
   ],
   "note": "Full statement UpgradeFull, refuted by a file of the user that is overwritten. upgrade_puts: whether it ends with the error or not, the new version is in place and the changed configuration files of both versions are kept; it fails exactly if a file was dropped. upgrade_partial is the full statement for upgrades that drop no file and add no configuration file over one of the user; file systems as in C208."
  },
  {
   "property": "C213",
   "status": "partial",
   "theorems": [
    "Pisi.FS.many_partial",
    "Pisi.FS.many_order",
    "Pisi.FS.many_intact",
    "Pisi.FS.many_refuted"
   ],
   "note": "Full statement ManyFull, refuted by two packages one of which has a file where the other has a directory. Proved for all lists of packages that have only directories in common and are not named like kept configuration files (Beside), under the conditions of C208 on the first file system."
  },
  {
   "property": "C214",
   "status": "partial",
   "theorems": [
    "Pisi.FS.history_partial",
    "Pisi.FS.history_intact",
    "Pisi.FS.history_edits",
    "Pisi.FS.history_frame",
    "Pisi.FS.history_inst",
    "Pisi.FS.history_refuted"
   ],
   "note": "Full statement HistoryFull, refuted by two packages one of which has a file where the other has a directory. Proved for all histories over packages that have only directories in common and are not named like kept configuration files (Proper, Beside), if the first file system has room for each (Room). The files of operations are modelled, not their effect on the databases."
  },
  {
   "property": "C215",
   "status": "partial",
   "theorems": [
    "Pisi.Progress.local_partial",
    "Pisi.Progress.local_good",
    "Pisi.Progress.local_refuted",
    "Pisi.Progress.remote_partial",
    "Pisi.Progress.update_line",
    "Pisi.Progress.update_none",
    "Pisi.Progress.remote_unknown",
    "Pisi.Progress.remote_refuted",
    "Pisi.Progress.remaining_partial",
    "Pisi.Progress.eta_shown",
    "Pisi.Progress.remaining_resumed",
    "Pisi.Progress.remaining_refuted"
   ],
   "note": "Full statements LocalFull, RemoteFull and RemainingFull, refuted by a turn in the moment of the start, by a server that does not tell the size and by a download that is taken up again. Proved for all files, parts and clocks with time passing since the start, announced sizes and, for the remaining time, downloads from the beginning that need less than a day. Floating point is taken to be exact; the rate is not modelled."
  },
  {
   "property": "C216",
   "status": "partial",
   "theorems": [
    "Pisi.Binutils.tool_partial",
    "Pisi.Binutils.tool_iff",
    "Pisi.Binutils.tool_no_path",
    "Pisi.Binutils.tool_refuted",
    "Pisi.Binutils.tool_names"
   ],
   "note": "Full statement ToolsFull, refuted by a directory of the name in a directory of PATH. tool_iff says exactly when which name is given; tool_partial is the full statement if what is called like the tool can be run."
  },
  {
   "property": "C217",
   "status": "partial",
   "theorems": [
    "Pisi.Cli.help_partial",
    "Pisi.Cli.help_all_partial",
    "Pisi.Cli.help_shown",
    "Pisi.Cli.help_refuted",
    "Pisi.Cli.help_abbreviated"
   ],
   "note": "There is no help for search and list-upgrades, whose options cannot be read, and an abbreviated option may be unclear to the command asked about. Missing: lines with abbreviations. Proved: what is shown for every line with long options in full."
  },
  {
   "property": "C218",
   "status": "partial",
   "theorems": [
    "Pisi.WorkDir.command_partial",
    "Pisi.WorkDir.created_partial",
    "Pisi.WorkDir.build_made",
    "Pisi.WorkDir.action_stays",
    "Pisi.WorkDir.farm_good",
    "Pisi.WorkDir.workdir_refuted"
   ],
   "note": "Nothing leads back when a step fails, so that a program that goes on creates the next packages elsewhere; and actions.py itself may change the directory when it is read. Missing: those two cases. Proved: everything about the command build with actions.py that only change the directory in their functions, failures included."
  },
  {
   "property": "C219",
   "status": "partial",
   "theorems": [
    "Pisi.FS.upgrades_partial",
    "Pisi.FS.upgrade_fails_iff",
    "Pisi.FS.upgrades_intact",
    "Pisi.FS.upgrades_inst",
    "Pisi.FS.upgrades_repair",
    "Pisi.FS.upgrades_failed",
    "Pisi.FS.upgrades_edits",
    "Pisi.FS.upgrades_frame",
    "Pisi.FS.upgrades_refuted"
   ],
   "note": "Full statement UpgradesFull, refuted by going back to a version without one of the files. upgrades_partial: whatever versions are installed, upgraded, downgraded, removed and edited, and whether this fails or not, what is installed is whole unless the last installation of that package failed; upgrade_fails_iff: it fails exactly if a file of the installed version is dropped; upgrades_repair: the recorded version can then be installed again; upgrades_edits and upgrades_frame: the user's configuration and files stay."
  },
  {
   "property": "C220",
   "status": "partial",
   "theorems": [
    "Pisi.FS.leftovers_partial",
    "Pisi.FS.leftovers_none_partial",
    "Pisi.FS.leftovers_removed",
    "Pisi.FS.owned_relative",
    "Pisi.FS.leftovers_refuted"
   ],
   "note": "Full statement LeftoversFull, refuted by a failed upgrade whose new file stays. leftovers_partial: for all histories, failed or not, a file of some version is there only if an installed version has it or one whose installation failed; leftovers_none_partial: the full statement for histories in which no installation drops a file of the version it replaces; leftovers_removed: then nothing is left when everything is removed."
  },
  {
   "property": "C221",
   "status": "partial",
   "theorems": [
    "Pisi.BuildCmd.build_partial",
    "Pisi.BuildCmd.build_step_iff",
    "Pisi.BuildCmd.build_refused",
    "Pisi.BuildCmd.build_eq",
    "Pisi.BuildCmd.loop_spec",
    "Pisi.BuildCmd.emerge_exact",
    "Pisi.BuildCmd.emerge_step",
    "Pisi.BuildCmd.no_names",
    "Pisi.BuildCmd.build_cmd_refuted"
   ],
   "note": "Full statement BuildCmdFull, refuted by emerge, which accepts any step. Proved: with sensible options exactly what build does and in which order (build_partial); when it refuses the step, and that then nothing is done (build_step_iff); whatever is refused, nothing is made (build_refused); exactly what emerge does, whatever the step (emerge_exact, emerge_step). Missing: the builds and the emerging themselves (C11, C176 and others); optparse."
  },
  {
   "property": "C222",
   "status": "partial",
   "theorems": [
    "Pisi.FS.interrupted_partial",
    "Pisi.FS.interrupted_conf",
    "Pisi.FS.interrupted_unchanged",
    "Pisi.FS.interrupted_refuted",
    "Pisi.FS.interrupted_lost",
    "Pisi.FS.interrupted_aside",
    "Pisi.FS.interrupted_mid"
   ],
   "note": "Full statement InterruptedFull, refuted by an interruption while a configuration file is written. Proved for all packages, all file systems with room for them and any number of interruptions anywhere: the next installation succeeds, all members but configuration files are in place and nothing that is not of the package has changed (interrupted_partial); if no configuration file was cut off, the user's text is in its place or beside it as .old (interrupted_conf), and if none was changed by the user all is as after an uninterrupted installation (interrupted_unchanged). Missing: interrupted upgrades to other files, the databases, writes that reach the disk in another order."
  },
  {
   "property": "C223",
   "status": "partial",
   "theorems": [
    "Pisi.FS.stopped_partial",
    "Pisi.FS.stopped_files",
    "Pisi.FS.stopped_down",
    "Pisi.FS.removeFiles_res",
    "Pisi.FS.stopped_refuted"
   ],
   "note": "Full statement StoppedFull, refuted by an interruption between removing the last file of a directory and the directory. Proved for all lists of files, databases and well-formed file systems in which listed configuration files are no links, with any number of interruptions after any system calls: the next removal succeeds; exactly those files and links are there afterwards that are to stay (stopped_files); everything is as after an uninterrupted removal except, possibly, directories above places of the package in which no file or link is left at any depth (stopped_partial). removeFiles_res: the step by step model has the results of the model of C33. Missing: configuration files that are links, the databases and the directory of the package, which follow after the files."
  },
  {
   "property": "C224",
   "status": "partial",
   "theorems": [
    "Pisi.FS.interruptedUp_partial",
    "Pisi.FS.interruptedUp_members",
    "Pisi.FS.interruptedUp_unchanged",
    "Pisi.FS.interruptedUp_conf",
    "Pisi.FS.interruptedUp_refuted",
    "Pisi.FS.interruptedUp_lost",
    "Pisi.FS.interruptedUp_mid",
    "Pisi.FS.upgrade_eq"
   ],
   "note": "Full statement InterruptedUpFull, refuted: if an upgrade is interrupted when the configuration file of the new version is written, even completely, the next upgrade takes that for the user's change and deletes the file in which the user's own text was kept (interruptedUp_lost). Proved for all pairs of versions, all file systems with room for the new one and any number of interruptions anywhere: the next upgrade leaves all members in place except configuration files of both versions that then differ from the old record, which are not touched, changes nothing else, and succeeds iff the new version drops no file (interruptedUp_partial, interruptedUp_members); if the user had changed no configuration file and none was cut off, all members are in place (interruptedUp_unchanged); the user's text survives in its place or as .old as long as at each interruption the place was empty, had the user's text or one the old version records (interruptedUp_conf). Missing: the user's configuration files in the other cases, where they are lost."
  },
  {
   "property": "C225",
   "status": "proved",
   "theorems": [
    "Pisi.FS.crash_history",
    "Pisi.FS.crash_intact",
    "Pisi.FS.crash_frame",
    "Pisi.FS.crash_conf",
    "Pisi.FS.ShakyInv.turn",
    "Pisi.FS.shaky_install",
    "Pisi.FS.shaky_remove"
   ],
   "note": "Induction over histories of completed and interrupted installations, removals and changes of configuration files (Spec/CrashHistory: Turn, Turns) with an invariant: the tree is well formed, there is room for every package, and installed packages with which nothing was interrupted are whole. An interruption may leave any of the states between system calls, a file being written cut off anywhere. That an upgrade to another version is interrupted is C224; that configuration files of a package whose installation was interrupted can be lost is C222."
  },
  {
   "property": "C226",
   "status": "proved",
   "theorems": [
    "Pisi.FS.extractInstall_calls",
    "Pisi.FS.removeFiles_calls",
    "Pisi.FS.Drop.call"
   ],
   "note": "For every installation, reinstallation and removal the sequence of disks is a chain of single steps (Spec/Calls: Call, Drop), and a result is the last of them. This also fixes how fine the interruptions of C222-C225 are: none of the states between system calls is left out. shutil.rmtree of a directory in the way of a link is taken as one step."
  },
  {
   "property": "C227",
   "status": "partial",
   "theorems": [
    "Pisi.FS.crashUpgrades_partial",
    "Pisi.FS.crashUpgrades_intact",
    "Pisi.FS.crashUpgrades_frame",
    "Pisi.FS.crashUpgrades_conf",
    "Pisi.FS.crash_install",
    "Pisi.FS.CrashInv.turn",
    "Pisi.FS.crashUpgrades_refuted"
   ],
   "note": "The full statement (CrashUpgradesFull) is false of the code: a version that drops a file of the installed one cannot be installed over it (crashUpgrades_refuted). Proved by induction over histories with failures and interruptions anywhere: everything else, and that installing to the end succeeds exactly if no file is dropped (crash_install)."
  },
  {
   "property": "C228",
   "status": "partial",
   "theorems": [
    "Pisi.Plan.graphCmd_partial",
    "Pisi.Plan.graphCmd_exact",
    "Pisi.Plan.graphCmd_kept",
    "Pisi.Plan.graphCmd_ignore",
    "Pisi.Plan.graphCmd_installed",
    "Pisi.Plan.graphCmd_refuted",
    "Pisi.Plan.graphCmd_conflicts_refuted",
    "Pisi.Plan.graphCmd_ignore_refuted",
    "Pisi.DB.graphSys_sound",
    "Pisi.DB.toShow_all",
    "Pisi.DB.graph_installed_succeeds"
   ],
   "note": "The full statement (GraphCmdFull, GraphConflictsFull, GraphIgnoreFull) is false of the code: a name given twice is an AssertionError, conflicts are never drawn, and packages asked for are drawn with --ignore-installed even if installed. Proved: for names given once that stay different without punctuation the file describes the graph (graphCmd_partial); whatever is written is exactly the dependencies of what was asked for (graphCmd_exact); the file is kept when something is not known (graphCmd_kept); which installed packages --ignore-installed leaves (graphCmd_ignore); --repository has no effect with --installed (graphCmd_installed); the databases are consistent after any commands (graphSys_sound), and if the dependencies of installed packages are met, graph --installed always succeeds and shows exactly the installed packages (graph_installed_succeeds, toShow_all)."
  },
  {
   "property": "C229",
   "status": "partial",
   "theorems": [
    "Pisi.DB.peace_partial",
    "Pisi.DB.clash_later",
    "Pisi.DB.request_peaceful",
    "Pisi.DB.installed_requested",
    "Pisi.DB.peace_refuted",
    "Pisi.DB.peace_ignored"
   ],
   "note": "Full statement PeaceFull, refuted: only the packages to be installed are asked for conflicts, not the installed ones. Proved for all histories in which both sides declare a conflict and the packages that have to give way may be removed (peace_partial); without the first condition: an installed package that declares a conflict with another installed one was there, as it is, before that one came (clash_later), and right after a request no package of it declares a conflict with an installed one (request_peaceful). peace_ignored: --ignore-dependency switches the check off, too. Missing: packages of system.base and those named like components, which stay (C30)."
  },
  {
   "property": "C230",
   "status": "partial",
   "theorems": [
    "Pisi.Own.said_owner_has",
    "Pisi.Own.owner_exact_partial",
    "Pisi.Own.one_owner_partial",
    "Pisi.Own.owner_info_partial",
    "Pisi.Own.nothing_left",
    "Pisi.Own.unfair_shared",
    "Pisi.Own.refused_iff",
    "Pisi.Own.owners_refuted",
    "Pisi.Own.shared_record_lost",
    "Pisi.Own.lost_list_blocks",
    "Pisi.Own.directory_shared"
   ],
   "note": "Full statement OwnersFull, refuted by an upgrade, which ignores file conflicts without being asked to. Proved for all histories: the package named for a path is installed and has it (said_owner_has, whatever was ignored, as long as no stored list was lost); for each path that was brought fairly (no directory in the way, and not ignored against another package) records and packages agree exactly. unfair_shared shows that the condition is needed. Failing operations leave the records as they are; file lists are the packages' own."
  },
  {
   "property": "C231",
   "status": "partial",
   "theorems": [
    "Pisi.Fetch.download_joined",
    "Pisi.Fetch.downloads_joined",
    "Pisi.Fetch.joined_one",
    "Pisi.Fetch.fresh_version_partial",
    "Pisi.Fetch.growing_version_partial",
    "Pisi.Fetch.versions_refuted",
    "Pisi.Fetch.mirrors_mixed"
   ],
   "note": "Full statement VersionsFull, refuted. Proved for all histories: every character of the file is one that a version had at that place, and from some place on the file is the end of one version (downloads_joined); with one version this is C36 (joined_one). A download from one address that finds no partial file gives the version of that address (fresh_version_partial); of versions that only grow the result is a beginning of one (growing_version_partial). What urlgrab does is assumed as in C36."
  },
  {
   "property": "C232",
   "status": "partial",
   "theorems": [
    "Pisi.FetchPar.always_holey_partial",
    "Pisi.FetchPar.ends_whole_partial",
    "Pisi.FetchPar.alone_whole_partial",
    "Pisi.FetchPar.always_refuted",
    "Pisi.FetchPar.ends_refuted"
   ],
   "note": "Full statements AlwaysFull and EndsFull, both refuted. Proved for all interleavings, where the server does not tell lengths so that nobody continues a file: at every moment the destination is as before or has only right characters at their places (always_holey_partial), and when all have come to an end and none was broken off while writing it is whole (ends_whole_partial). With one process at a time, as under the lock, it is at every moment as before or whole, also after kills and continuations (alone_whole_partial). Blocks are written atomically; what urlgrab does is assumed."
  },
  {
   "property": "C233",
   "status": "partial",
   "theorems": [
    "Pisi.ReadPar.apart_reads_partial",
    "Pisi.ReadPar.own_dir_reads_partial",
    "Pisi.ReadPar.alone_reads_partial",
    "Pisi.ReadPar.missing_is_stale",
    "Pisi.ReadPar.same_holey_partial",
    "Pisi.ReadPar.reads_refuted",
    "Pisi.ReadPar.alone_refuted",
    "Pisi.ReadPar.full_refuted",
    "Pisi.ReadPar.sample_alone"
   ],
   "note": "Full statement ReadFull, refuted for whole packages read at the same time (reads_refuted) and for a package without files.xml even with one command at a time (alone_refuted). Proved for all interleavings, with files deleted by delete-cache at any moment: a process that no other reading process of its directory disturbs fails or gets exactly the two files of a whole package, whatever was left in the directory and whatever happens before, after and elsewhere (apart_reads_partial; own directory, own_dir_reads_partial; one command at a time, alone_reads_partial); a file that the package lacks is read as it was left (missing_is_stale); where all read the same package, only characters of it are read, at their places (same_holey_partial). What is made of the texts is C184 and C185."
  },
  {
   "property": "C234",
   "status": "partial",
   "theorems": [
    "Pisi.FetchPar.wiped_holey_partial",
    "Pisi.FetchPar.wiped_ends_partial",
    "Pisi.FetchPar.wiped_alone_partial",
    "Pisi.FetchPar.wiped_plain_partial",
    "Pisi.FetchPar.wiped_refuted"
   ],
   "note": "Full statement WipedFull, refuted. Proved: one fetch at a time, killed anywhere and continued, with deletions at any moment but that between the request for the rest of a partial file and its opening (wiped_alone_partial); from servers that tell no lengths, with deletions at any moment, one at a time (wiped_plain_partial), and any number at the same time, at every moment up to missing characters (wiped_holey_partial) and exactly when all have come to an end (wiped_ends_partial)."
  },
  {
   "property": "C235",
   "status": "partial",
   "theorems": [
    "Pisi.DestDir.destdir_partial",
    "Pisi.DestDir.destdir_there",
    "Pisi.DestDir.destdir_made",
    "Pisi.DestDir.destdir_only",
    "Pisi.DestDir.destdir_none",
    "Pisi.DestDir.destdir_confines",
    "Pisi.DestDir.destdir_refuted",
    "Pisi.DestDir.destdir_dangling"
   ],
   "note": "Full statement DestDirFull, refuted: a regular file is accepted as the destination directory, and a link that leads nowhere ends the command with an error of the system (destdir_dangling). Proved: whenever the name does not lead to a file, what the command works in is the directory the name leads to, reached through directories only, and only directories were made; what is there is used unchanged; what is missing is made."
  },
  {
   "property": "C236",
   "status": "partial",
   "theorems": [
    "Pisi.PackRun.build_ok",
    "Pisi.PackRun.stopped_at",
    "Pisi.PackRun.tries_fair_partial",
    "Pisi.PackRun.failed_clean",
    "Pisi.PackRun.failed_then",
    "Pisi.PackRun.old_always",
    "Pisi.PackRun.old_keeps",
    "Pisi.PackRun.second_try",
    "Pisi.PackRun.empty_never",
    "Pisi.PackRun.pack_refuted",
    "Pisi.PackRun.killed_refuted",
    "Pisi.PackRun.empty_refuted"
   ],
   "note": "Full statement TriesFull, refuted three times: an exception leaves a package file without some of its members (pack_refuted), a killed build leaves install.tar.lzma, which makes the next build fail (killed_refuted), and a package without files is never built in the format 1.1 (empty_refuted, empty_never). Proved: after any history of failed and killed builds each package file is the old one or an initial part of the new one, whole if it was closed; after failures the next build succeeds; after kills the next build or the one after it succeeds; with the format 1.0 always the next one."
  },
  {
   "property": "C237",
   "status": "partial",
   "theorems": [
    "Pisi.PackRun.par_alone_partial",
    "Pisi.PackRun.par_others",
    "Pisi.PackRun.exec_built",
    "Pisi.PackRun.par_built",
    "Pisi.PackRun.par_goes_on",
    "Pisi.PackRun.par_refuted"
   ],
   "note": "Full statement ParFull, refuted: builds that take no lock (--no-install) and have the same directory take each other's install.tar, and one ends well with a package that lacks its files. Proved: a build with a directory and package files of its own is at every moment where it could be alone, whatever the others do and wherever they are stopped; it can always go on, and when it has ended well its packages are whole; no file that is nobody's package is touched."
  },
  {
   "property": "C238",
   "status": "partial",
   "theorems": [
    "Pisi.PackRun.part_install_partial",
    "Pisi.PackRun.whole_install",
    "Pisi.PackRun.short_refused",
    "Pisi.PackRun.listed_from",
    "Pisi.PackRun.left_partial",
    "Pisi.PackRun.left_refuted",
    "Pisi.PackRun.stale_list_refuted"
   ],
   "note": "Full statement LeftFull, refuted twice: what a build leaves that failed in lzma is installed and recorded without any of its files (left_refuted), and one that lacks files.xml is recorded with the file list of the package read before (stale_list_refuted). Proved: from any initial part of a package file only an initial part of its own files is unpacked, in the format 1.1 all or none; whenever a file is unpacked the right package and list are recorded; a closed file installs soundly after any history of other installations; a part without control files is refused when the temporary directory is empty."
  },
  {
   "property": "C239",
   "status": "partial",
   "theorems": [
    "Pisi.ComarWait.wait_comar_exact",
    "Pisi.ComarWait.wait_comar_total",
    "Pisi.ComarWait.back_in_time_partial",
    "Pisi.ComarWait.wait_comar_honest",
    "Pisi.ComarWait.wait_comar_soon",
    "Pisi.ComarWait.fifth_nearest",
    "Pisi.ComarWait.roundNat_nearest",
    "Pisi.ComarWait.less_round",
    "Pisi.ComarWait.back_refuted"
   ],
   "note": "Full statement BackFull, refuted: after the last sleep there is no attempt any more, so that COMAR coming back in the last 0.2 of the five seconds is not found. Proved: it always returns, at the first of 25 attempts that succeeds or after all of them (with the rounding of the floats, which decides that there are 25); COMAR back within 4.8 seconds is found; True is honest and False comes not before five seconds."
  }
 ]
}
