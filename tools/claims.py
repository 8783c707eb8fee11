CLAIMS = {
"C01": ("partial", ["C01_at_most_once_per_address", "C01_at_most_once_partial", "C01_bound_with_names", "C01_requested_targets_run", "C01_counterexample_by_name", "C01_counterexample_shared_address"],
  "False of the code for targets referenced by name (counterexample proved); proved for direct references and, in general, per reference address."),
"C02": ("partial", ["C02_same_result", "C02_result_is_execution_outcome_partial", "C02_by_any_reference", "C02_counterexample_by_name"], "Proved for all requests through one reference (C02_same_result, C02_by_any_reference), and for all requests for a target that is not referred to by name. False in general: a target that is requested through two names is run twice (see C01), and the two requests may obtain different outcomes (C02_counterexample_by_name)."),
"C03": ("partial", ["C03_run_waits", "C03_targets_done_partial", "C03_counterexample_shared_address"], "Proved for targets at addresses of their own, referred to directly or by name. False for two targets with one address (pointers to values of size zero): the second is not run at all, and Run returns nil (C03_counterexample_shared_address)."),
"C04": ("proved", ["C04_run_result", "C04_targets_outcomes"], ""),
"C11": ("proved", ["C11_depth", "C11_depth_threads"], ""),
"C05": ("proved", ["C05_no_deadlock", "C05_stuck_means_all_returned", "C05_terminates", "C05_run_always_returns"], "Hypothesis: the dependency relation between targets is well-founded (no cycle)."),
"C06": ("proved", ["C06_cycle_never_completes", "C06_self_dependency"], ""),
"C07": ("proved", ["C07_seq_order", "C07_seq_result", "finished_itself"], "FinishedOK is about the address of a target: it is the target itself that was executed if targets have addresses of their own (finished_itself), otherwise see C03."),
"C08": ("proved", ["C08_all", "C08_all_ok", "finished_itself"], "FinishedOK is about the address of a target: it is the target itself that was executed if targets have addresses of their own (finished_itself), otherwise see C03."),
"C09": ("proved", ["C09_deps_order", "C09_deps_failure", "C09_deps_success", "finished_itself"], "FinishedOK is about the address of a target: it is the target itself that was executed if targets have addresses of their own (finished_itself), otherwise see C03."),
"C10": ("proved", ["C10_context_of_starter", "C10_argtarget"], ""),
"C12": ("partial", ["C12_name_runs_target_partial", "C12_name_chain", "C01_counterexample_by_name"], "Outcome part proved; the run-once part is false of the code: `ran` is keyed by the address of the reference object, so a target referenced by two names runs twice (counterexample proved)."),
"C13": ("proved", ["C13_wait_only_after_open", "C13_ever_open_meaning", "C13_no_lost_wakeup", "C13_progress", "C13_open_step", "C13_all_waiters_released"], ""),
"C18": ("proved", ["C18_context", "C18_withArgs_frame"], ""),
"C14": ("proved", ["C14_lookup", "C14_register_result", "C14_names", "C14_names_order_independent"], ""),
"C15": ("partial", ["C15_describe_partial", "C15_exact", "C15_step", "C15_describe_nonpointer", "C15_counterexample_shared_address"], "Proved when distinct registered targets have distinct addresses; false for zero-size targets that share an address (counterexample proved). C15_exact and C15_step say what holds with no hypothesis: the last registration at that address counts."),
"C16": ("partial", ["C16_option_form", "C16_target_list_partial", "C16_ok_iff", "C16_empty_second_panics"], "With an empty second argument the code panics (proved); the target-list form is proved for a non-empty second argument."),
"C17": ("partial", ["C17_list_partial", "C17_iff", "C17_counterexample"], "Only the first line of a multi-line docstring is indented (counterexample proved); C17_iff: the property holds exactly when no docstring has several lines."),
"C19": ("proved", ["C19_absolute", "C19_relative", "C19_cases", "C19_clean", "C19_clean_form", "C19_assoc", "C19_assoc_needs_absolute_top"], ""),
"C20": ("proved", ["C20_rel_join", "C20_canonical", "C20_join_rel"], ""),
"C45": ("proved", ["C45_chunks"], ""),
"C46": ("proved", ["C46_line_semantics", "C46_indent"], ""),
"C58": ("proved", ["C58_failing_writer", "C58_loss_reported"], ""),
"C21": ("partial", ["C21_answer_partial", "C21_answer_exact", "C21_finds", "C21_unmarked", "C21_terminates", "C21_counterexample_trailing_slash"], "Proved for _dir declarations that do not end in '/'; with a trailing slash the code compares the last element twice (counterexample proved; C21_answer_exact says, with no hypothesis, which directory every answer is)."),
"C56": ("proved", ["C56_canonical_text"], ""),
"C22": ("proved", ["C22_list", "C22_succeeds", "C22_order_independent"], "Special files are not modelled (symbolic links: C81); a directory subtree is read at one moment."),
"C23": ("proved", ["C23_list_determines_files", "C23_hash_determines_files"], "Collision-freeness is assumed only of the contents and texts at hand."),
"C25": ("proved", ["C25_skip_sound", "C25_same_state"], "Several processes, crashes and edits of the files at any moment included; collision-freeness assumed of the texts and contents at hand."),
"C26": ("partial", ["C26_skip_complete_partial", "C26_counterexample_by_name", "C26_counterexample_clean"], "False for a subtarget given by name (its JSON form differs before and after resolution) and for a Clean that lists its files out of order (running sorts them), so a fresh process does not skip (counterexamples proved). Proved when the JSON form is the same."),
"C27": ("proved", ["C27_failure_propagates", "C27_error_not_recorded", "C27_success_means"], "If the insertion itself reports an error, the entry can be present nevertheless."),
"C28": ("proved", ["C28_force", "C28_dryrun"], ""),
"C29": ("proved", ["C29_registered", "C29_calls", "C29_actions", "C29_producer_fails", "find_iff"], "Hypothesis: the registry of Files targets does not change while the target runs."),
"C30": ("proved", ["C30_db_only_successes", "C25_skip_sound"], "Every moment of every execution is covered, so every crash point is."),
"C57": ("partial", ["C57_partial", "C57_counterexample_edit_during_run"], "False of the code if an input is edited while the subtarget runs (counterexample proved); proved if the inputs at the start and at the second hashing are the same."),
"C31": ("proved", ["C31_has_exact", "C31_add_adds", "C31_only_add_adds", "C31_nil"], "Histories of individual SQL statements of any number of clients, with failures and crashes; each statement is atomic."),
"C32": ("proved", ["C32_exact", "C32_fresh_survives", "C32_old_evicted", "C32_no_keep"], "The time of an entry is the clock reading of the last statement executed that touched it, in seconds."),
"C33": ("proved", ["C33_add_is_kept", "C33_counterexample_backdated"], "Expiry is by the recorded time: a client that read its clock early and runs its statement late moves an entry's time backwards (proved as C33_counterexample_backdated), so the stronger reading 'Keep since the latest touch' is false of the code."),
"C34": ("proved", ["C34_all_gone", "C34_nothing_else", "C34_failure_reported", "C34_missing_ignored", "C34_autoclean_registry"], "Files are removed with os.Remove: a non-empty directory is a failure."),
"C35": ("proved", ["C35_dry_run"], ""),
"C36": ("proved", ["C36_routing", "C36_error_carries_output", "C36_success", "C36_combined", "C36_command", "C36_stdin", "C36_finding_stdin_lost", "C36_not_started_reported"], "Files are identified by the name as spelled. C36_finding_stdin_lost: a file that is both standard input and standard output is read as empty."),
"C37": ("proved", ["C37_append_or_replace", "C37_disagreement", "C37_otherwise_runs", "C37_nothing_else"], "Files are identified by the name as spelled."),
"C40": ("proved", ["C40_dry_run"], ""),
"C59": ("partial", ["C59_clean_repeatable_partial", "C59_exact", "C59_iff", "C59_counterexample_second_run"], "False with Autoclean when the Files slice has spare capacity: append and sort then overwrite it (counterexample proved). C59_exact and C59_iff say what the slice holds afterwards, and exactly when the property holds."),
"C24": ("partial", ["C24_rule_partial", "C24_rule_exact", "C24_rule_blind", "C24_counterexample_seq", "C24_counterexample_deps", "C24_counterexample_command"], "Proved for rules all of whose contents are JSON-encoded; the exact equivalence that the hash decides is proved too (C24_rule_exact, C24_rule_blind). False for Seq, Deps, F and Commands with writers, readers or writer functions (counterexamples proved)."),
"C38": ("partial", ["C38_outputs_partial", "C38_counterexample_stdin", "C38_counterexample_append"], "Dir, Stdout and Stderr are proved for an absolute top directory. False for Stdin file names, which are ignored, and for a leading >>, which becomes part of the file name (counterexamples proved)."),
"C39": ("proved", ["C39_seq", "C39_output"], "For an absolute top directory."),
"C41": ("proved", ["C41_string_list", "C41_from_nodes", "C41_unique", "C41_file_list", "C41_file_list_from_nodes", "C41_tags", "C41_glob_dir"], "The parser, the matching of glob patterns and the functions registered by others are parameters."),
"C42": ("proved", ["C42_rejects", "C42_registers", "C42_nothing_else", "C42_registered", "C42_consistent", "C42_file", "C42_comment"], "Functions registered by others are assumed not to read YAML or register targets themselves."),
"C43": ("partial", ["C43_terminates_partial", "C43_stable", "C43_counterexample_forward_reference", "C43_counterexample_two_directories"], "Proved for references between directories without cycles. False in general: a reference to a target of the same directory that is not registered yet, or mutual references of two directories, recur forever (counterexamples proved)."),
"C44": ("proved", ["C44_foreign", "C44_describes", "C44_no_file", "C44_canonical", "C44_plain", "C44_resolve", "C44_finding_stale"], "C44_finding_stale: a directory that is read twice registers its targets twice, and references read before keep the old objects."),
"C47": ("proved", ["C47_order", "C47_determines", "C47_moved", "C47_counterexample_same_base"], "For files with distinct base names, as the files of one directory have; with equal base names the order matters (counterexample proved). Collision-freeness is assumed of the texts at hand."),
"C48": ("proved", ["C48_reuse", "C48_otherwise_compiles", "C48_force", "C48_compiled"], ""),
"C49": ("partial", ["C49_reused_partial", "C49_counterexample_second_run", "C49_counterexample_forced", "C49_counterexample_no_build_info"], "Proved from the state in which the version file has been written. False of the code after the first and after a forced compilation, which do not write the version file (counterexamples proved)."),
"C50": ("partial", ["C50_reused_current_partial", "C50_same_files_partial", "C50_counterexample_crash", "C50_counterexample_edit"], "Proved for histories without a crash between the renaming of the binary and the writing of the hash and without an edit between hashing and compiling. False otherwise (counterexamples proved)."),
"C51": ("partial", ["C51_driver_recovers", "C51_end_to_end_partial", "C51_counterexample_verbose", "C51_counterexample_rejected"], "C51_driver_recovers is an equivalence: the settings are recovered exactly if the arguments do not begin with something that looks like a flag. After a -- they can (counterexamples proved)."),
"C61": ("partial", ["C61_reused_same_fab_partial", "C61_counterexample_force", "C61_counterexample_removed", "C61_counterexample_crash"], "Proved for histories without forced runs, removed drivers and crashes; false with them (counterexamples proved)."),
"C63": ("partial", ["C63_same_directories_partial", "C63_counterexample_relative"], "Proved for an absolute -fab directory; false for a relative one if the working directory is not the top directory (counterexample proved)."),
"C52": ("proved", ["C52_accepted_matches", "Matches.surface", "C52_finding_other_package", "C52_finding_unnamed"], "The code compares bare names: a type with the same name in another package is accepted, and an unnamed type matches a named one (proved as findings)."),
"C53": ("proved", ["C53_terminates_and_accepts", "C53_order_independent", "C53_finding_unhandled"], "For the kinds of types the code handles; other kinds (aliases, type parameters, tuples) are rejected (finding proved)."),
"C60": ("partial", ["C60_complete_partial", "C60_reports", "C60_counterexample"], "Proved if no YAML file of a directory that is referred to is missing. False otherwise: the missing file's error is taken for a missing file of the top directory, and the rest of the targets are silently dropped (counterexample proved)."),
"C62": ("partial", ["C62_literal_quote", "C62_trim", "C62_compiles_iff", "C62_registers_partial", "C62_counterexample_type", "C62_counterexample_typed_variable", "C62_counterexample_not_pointer", "C62_counterexample_group"], "Exported types or typed variables without a recorded doc make the generated program uncompilable, non-pointer variables make it exit, comments in var groups are lost (counterexamples proved)."),
"C54": ("partial", ["C54_contains", "C54_sorted", "C54_nothing_unrelated", "C54_exact_partial", "C54_all_read", "C54_errors", "C54_terminates", "C54_stable", "C54_import_lines", "C54_target", "C54_target_errors", "C54_counterexample_shadowed", "C54_finding_other_forms"], "Contains, sorted, duplicate-free and termination are proved for everything. 'Nothing that is not reachable' is proved if no import finds a file in two include directories, and false otherwise (counterexample proved). An import is a line of the form that the code's regular expression matches."),
"C55": ("partial", ["C55_contents", "C55_exact_partial", "C55_order_independent", "C55_terminates", "C55_errors", "C55_counterexample_patterns", "C55_finding_no_module"], "Proved if the embedding patterns match nothing in the working directory; false otherwise, because they are matched there and not in the package's directory (counterexample proved). A package without a module makes the code panic. packages.Load is a parameter."),
"C64": ("partial", ["C64_writes_declared", "C64_yaml", "C64_finding_default_absolute", "C64_counterexample_own_directory"], "Proved unless the declared output is an existing directory, which happens in YAML with Dir: . and no Out (counterexample proved). Symbolic links and flags that redirect the output are not modelled."),
"C65": ("partial", ["C65_paths_partial", "C65_proto", "C65_proto_errors", "C65_twice_partial", "C65_counterexample_includes", "C65_finding_lost", "C65_counterexample_twice"], "False for the Includes of !proto.Deps, and for lists of files that contain !proto.Deps below a relative top directory (counterexamples proved); proved for the others, with !proto.Proto."),
"C66": ("proved", ["C66_decls", "C66_declared"], "The generator (tsdecls.Write) and Deps are parameters."),
"C67": ("proved", ["C67_autoclean", "C67_files", "C67_files_empty"], ""),
"C68": ("proved", ["C68_operation", "C68_old_or_new", "C68_cleaned", "C68_disk", "C68_bad_package", "C68_concurrent"], "Renaming is atomic; nobody else writes into the temporary directory."),
"C69": ("partial", ["C69_built_from_partial", "C69_copy_again", "C69_counterexample_lost_data", "C69_counterexample_edit"], "Proved if the code is not edited meanwhile and failures of writing are reported before a file is closed. False otherwise: the error of closing a copied file is ignored, and files may be copied before and after an edit (counterexamples proved)."),
"C70": ("partial", ["C70_message", "C70_newline_partial", "C70_one_thread", "C70_threads_partial", "C70_threads_top", "C70_counterexample_newline", "C70_counterexample_lines", "C70_counterexample_threads"], "Proved for one goroutine and one-line messages, and for concurrent ones that each appears whole and once, in order. False otherwise: only the first line is indented, a newline at the end of an argument is doubled, and the indentation of concurrent messages may be mixed up (counterexamples proved). Only the verbs %s, %v and %% are modelled."),
"C71": ("partial", ["C71_status", "C71_runs_partial", "C71_only_partial", "C71_unknown_partial", "C71_list_partial", "C71_modes_partial", "C71_counterexample_no_arguments", "C71_counterexample_list_database", "C71_counterexample_place"], "The exit status is proved for everything, the rest for command lines without '--' followed by what looks like a flag (see C51) and an empty second argument (see C16). With and without a driver fab behaves differently without arguments, with -list if the database cannot be opened, and in the standard input and working directory of the targets (counterexamples proved)."),
"C72": ("partial", ["C72_no_race_partial", "C72_counterexample_json"], "Proved for all programs whose own code uses the controller and deferred targets through their methods. False for the package's own Files targets: computing the hash marshals a deferred subtarget without its mutex, while Run may resolve it in another goroutine (counterexample proved). Happens-before is that of the Go memory model; executions are sequentially consistent ones, as DRF-SC requires."),
"C73": ("proved", ["C73_options", "C73_open_keeps", "C73_open_succeeds", "C73_thirty_days"], "Clocks are arbitrary; the entry must not be touched by a process whose clock is behind (see C33). SQLite's statements are assumed atomic and durable; nobody removes the file."),
"C74": ("proved", ["C74_sequential", "C74_schedule_independent", "C74_all_steady", "C74_seq_steady", "C74_arg_steady"], "For targets with distinct addresses (see C01). K is the set of contexts that are used; a target that is asked for with several contexts gets that of the first request (C10)."),
"C75": ("proved", ["C75_quiet", "C75_confined", "C75_status", "C75_needed", "C75_order", "C75_needs_itself", "C75_all_needs", "C75_seq_needs", "C75_arg_needs"], "C75_needed is for targets with distinct addresses (see C01). 'Needed' is: an argument, or something without asking for which a needed target cannot return nil."),
"C76": ("proved", ["C76_build", "C76_returns", "C76_older", "C76_cycle", "C76_circle", "C76_finding_twice", "C76_finding_own_output", "C76_finding_formatter"], "Reading (Verif/Yaml) and running (Verif/Runner) put together. Targets made by tags that others have registered, commands and Clean are arbitrary processes that do not run targets. A target that is referred to in two ways is run once for each (finding, see C01); this does not contradict the claim."),
"C77": ("proved", ["C77_nothing_to_do", "C77_up_to_date", "C77_second_build"], "The rules are arbitrary processes that do not run targets and remove nothing from the database. Rules that contain references by name are excluded (`NoNames`): their JSON form changes when the name is looked up, see `C26_counterexample_by_name`. During both builds others may do anything that keeps the database (first) and the files, rules and database (second)."),
"C78": ("proved", ["C78_correct", "C78_commands", "C78_sequences", "C78_trees", "C78_yaml", "C78_no_collision", "C78_history", "C78_same_as_clean", "C78_counterexample_two_names"], "The rules are arbitrary processes that do not run targets; what they should make is an arbitrary relation `Meaning`. That no target is needed under two names (by its name and as the maker of an input, for example) is necessary: `C78_counterexample_two_names` is an execution, of a project for which all other hypotheses hold, that returns nil and leaves a wrong output; see C01. `C78_commands` is about rules that are single commands, `C78_sequences` about rules that are lists of different commands, run one after the other, and `C78_trees` about rules made of commands with All, Seq and arguments in any way (given a plan: what each command makes true, and that commands that may run at the same time keep off each other's files). `C78_yaml`: what is asked of the shape of a project follows from how its YAML files are written (rules written where they are used, no plain names of Files targets)."),
"C79": ("partial", ["C79_edits_partial", "C79_clear_partial", "C79_visible", "C79_commands", "C79_counterexample_list"], "Proved for rules all of whose contents are encoded (commands, All and ArgTarget of them; `C79_clear_partial`), and more generally if rules that are meant to do different things are not encoded alike. False for a rule that is a Command with a list of shell strings (or a Seq): it is encoded as {}, so that a build after an edit returns nil without running it (counterexample proved, from the YAML file on). Clean and targets of others as rules are not modelled here."),
"C80": ("proved", ["C80_faithful", "C80_text", "C80_message", "C80_before", "C80_complete", "C80_indentation", "C80_finding_mixed"], "The description of a target is a function (targets are not registered while targets run). A message is up to two writes, and those of concurrent goroutines may be mixed (C80_finding_mixed, see C70). What targets print themselves is not part of this."),
"C81": ("partial", ["C81_detects_partial", "C81_list", "C81_succeeds", "C81_terminates", "C81_changes", "C81_real", "C81_without_links", "C81_counterexample_dotdot", "C81_finding_loop"], "Termination, the exact list and its sensitivity to changes are proved for all links. False for an item with '..' after a link (the names are joined to the cleaned text, so other files are hashed: counterexample proved), and a link that leads back to a directory above it makes the code panic instead of returning an error (C81_finding_loop, for all such links). On trees without links the model agrees with that of C22 (C81_without_links)."),
"C82": ("proved", ["C82_all_gone", "C82_nothing_else", "C82_target_kept", "C82_missing_ignored", "C82_finding_behind_link"], "The files do not change by other hands while Clean runs. C82_finding_behind_link: if a link to a directory and a file behind it are both listed, the link is removed first and the file stays, since its name then leads nowhere."),
"C83": ("partial", ["C83_exactly", "C83_shows_everything_partial", "C83_forced_partial", "C83_succeeds", "C83_touches_nothing", "C83_command", "C83_clean", "C83_counterexample_up_to_date"], "A dry run that returns nil begins all targets that a build may run, so nothing that a build would begin, in any state, is missing, and with Force or without a database a successful build begins the same targets. False the other way round: a Files target does not look at the database in a dry run, so the rules of up-to-date Files targets are shown too (counterexample proved)."),
"C84": ("partial", ["C84_closed", "C84_after", "C84_reported_partial", "C84_true", "C84_finding_files", "C84_counterexample_output_lost"], "Closing, exactly once and after everything else, is proved in full. That errors of Close are reported is proved for the writers that functions made; it is false for output files: the deferred closure assigns to a shadowed err, or ignores the error (C84_finding_files for all commands, counterexample proved)."),
"C85": ("proved", ["C85_variables", "C85_once", "C85_nothing_else", "C85_refused", "C85_run", "C85_finding_pwd"], "Includes a model of what os/exec does with the list (dedupEnvCase of Go 1.20 on POSIX). Variables are nonempty names without '='."),
"C86": ("proved", ["C86_files_quiet", "C86_files_true", "C86_files_complete", "C86_files_either", "cleanRunV_agrees", "C86_clean", "C86_clean_true", "runV_agrees", "C86_command_complete", "C86_command_true", "C86_finding_not_run"], "With the messages left out the models are those of C25, C34 and C36. C86_finding_not_run: 'Running command' is printed before the file for standard input is opened, so it may be printed although nothing is run. %s and %v of a list are modelled; (*exec.Cmd).String is the path found and the arguments, joined by spaces."),
"C87": ("proved", ["C87_every_failure", "C87_every_refusal", "C87_true", "C87_text", "C87_build", "C87_finding_ambiguous"], "Hypotheses on targets: HandsOn (proved for all targets of the package) and Frank (their own errors name no targets). The messages with which Files and others wrap errors are not modelled; the texts of errors.Wrapf and errors.Join are assumed. C87_finding_ambiguous: the text does not show where the errors of a target end, so two different ways can have the same text."),
"C88": ("proved", ["C88_line", "C88_targets", "C88_status", "C88_error", "C88_dry", "C88_right", "C88_yaml", "C88_same_as_clean", "C88_second"], "The parts put together in FabRun: command line, reading of the YAML files, runner with files and databases, exit status. The hypotheses on rules, edits and hashes are those of C76, C77, C78, C83 and C87. C88_same_as_clean and C88_yaml (in which the shape of the project follows from how its YAML files are written) are for projects without a driver."),
"C89": ("partial", ["C89_present_partial", "C89_same_files_partial", "C89_sound_partial", "C89_no_edit", "C89_same_fab", "C89_settles_partial", "C89_executes", "C89_first", "C89_no_waiting", "C89_alone", "C89_counterexample_edit", "C89_counterexample_two_fabs"], "Missing, because false: edits of the sources while fab runs (C89_counterexample_edit; one process: C50), a process cut off between putting a driver into place and opening the hash file if the sources are edited afterwards (C50_counterexample_crash), fabs of different versions (C89_counterexample_two_fabs), and that nothing is compiled after the very first runs (C49). C89_alone: one process alone is the model of C48-C50."),
"C90": ("partial", ["C90_exact", "C90_valid", "C90_written", "C90_order", "C90_record", "C90_determines_partial", "C90_finding_renamed"], "False for names that are not UTF-8: renaming such a file leaves the record unchanged (C90_finding_renamed), because the JSON text has U+FFFD for each byte that is not UTF-8; so at least one of the two sets of names must be UTF-8 without U+FFFD. That canonicaljson-go does this as encoding/json does is assumed."),
"C91": ("partial", ["C91_correct_partial", "C91_commands_partial", "several_reach", "C91_counterexample_same_target"], "C91_correct_partial and C91_commands_partial are for processes that keep apart: none changes a file that matters for another one while it runs. Without that the property is false (C91_counterexample_same_target): two fabs that build the same target at the same time can record the hash of a half-written output, and a later fab then returns nil and leaves it.."),
"C92": ("proved", ["C92_clean", "C92_success", "C92_rebuild", "C92_commands", "C92_finding_together", "C92_finding_poisoned"], "C92_rebuild has the hypotheses of C78, except that what is done first may do anything to files; C92_commands: rules that are commands meet one of them. C92_finding_together and C92_finding_poisoned: with fab A Clean (not !Seq) the property is false, and a hash can be recorded that makes the missing output look up to date for ever."),
"C93": ("proved", ["C93_needed", "C93_minimal", "C93_parts", "C93_edited", "C93_cutoff", "C93_fab"], "The project is orderly as in C78 (LooseBuild: rules change only their own outputs, each Files target is needed under one name only); nobody removes entries from the hash database meanwhile (others may add any). Nothing is assumed about collisions of hashes or about what the rules make."),
"C94": ("proved", ["C94_one_place", "C94_new", "C94_runs", "C94_rules", "C94_rule_places", "C94_orderly", "C94_once", "C94_fair"], "References with a slash to a target of another directory are that target itself, which has a name (PlaceDemo); references without a slash are objects of their own. C94_runs leaves out Files targets inside other targets, which are also run for their outputs. C94_orderly, C94_once, C94_fair: the hypotheses of C78 on rules follow."),
"C95": ("partial", ["C95_one_goroutine", "C95_pieces", "C95_lines_partial", "C95_messages_partial", "C95_counterexample_cut", "C95_counterexample_last_line", "C95_counterexample_long", "C95_counterexample_indentation"], "Proved for commands that print in chunks of whole lines, each of which fits into the 4096 bytes of the copier's buffer. False in general, with proved counterexamples: a line printed in pieces or longer than the buffer can have another command's output in its middle, and what follows the last newline gets none, so the next command's output is glued to it. With the messages of Indentf (C95_messages_partial): up to indentation only, because the indentation of a message is a write of its own (C95_counterexample_indentation)."),
"C96": ("partial", ["C96_command_partial", "C96_late", "C96_success", "C96_nothing_recorded", "C96_counterexample_emptied"], "False of files: an output file without '>>' is opened, and so emptied, before Start looks at the context (counterexample proved; C96_command_partial says that this is the only change). For builds with a hash database that are not dry runs (a dry run starts nothing anyway). Assumed of the libraries: with a cancelled context os/exec starts nothing, and the methods of database/sql return errors and do nothing. A command that is running when the context is cancelled is killed: that is one of the ways in which it may end."),
"C97": ("proved", ["C97_not_again", "C97_fab"], "In orderly projects, as in C93 (rules change only their own outputs, each Files target is needed under one name only); nobody removes entries from the hash database. Builds in between that do not need the target count as edits: they must not change the files that it depends on."),
"C98": ("proved", ["C98_force", "C98_then", "C98_yaml", "C98_fab", "C98_fab_yaml"], "In orderly projects, as in C93 (rules change only their own outputs, each Files target is needed under one name only); rules are commands or lists of them that do what they are meant to do when they are run (this follows from what their commands do: C78_commands, C78_sequences, C78_trees).  C98_yaml: for projects read from YAML files; C98_fab, C98_fab_yaml: for the command fab -f."),
"C99": ("proved", ["C99_beside", "C99_success", "C99_right", "C99_one_by_one", "C99_fab", "C99_fab_yaml"], "For orderly projects (as in C93: rules change only their own outputs, each Files target is needed under one name only, among all targets in question), builds without -f and -n, one after the other; nobody else changes the files of the project or removes entries from the hash database while a build runs. For builds at the same time see C91 and C100. C99_fab is about fab commands."),
"C100": ("proved", ["C100_apart", "C100_up_to_date", "C100_right", "C100_rules", "C100_commands", "C100_one_project", "C100_shared", "C100_yaml", "several_buildRun"], "For orderly projects (as in C93: rules change only their own outputs, each Files target is needed under one name only), which may be read by each process for itself; C100_one_project: for one project, that what two need is up to date is enough; nobody else changes the files of the project or removes entries from the hash database meanwhile. C100_right: the rules do what they should when they are run (C100_rules, C100_commands: this follows from what their commands do), nobody else adds to the databases, no two situations that come up have the same hash. Without the condition on what two of them need this is false: C91_counterexample_same_target. Operations on the database are atomic."),
"C101": ("proved", ["C101_culprit", "C101_success", "C101_ends", "C101_clean", "C101_clean_ends", "C101_yaml", "C101_trees", "C101_trees_ends", "C101_yaml_trees", "C101_session", "C101_session_ends", "C101_fab", "C101_fab_success", "C101_fab_clean", "C101_fab_trees"], "The condition on commands, files and database (InOrder) is an invariant: it must be kept by the commands, by what others do, by recording hashes and by remembering what names stand for; so each command must succeed whenever it is run in this condition. In C101_clean, C101_clean_ends, C101_yaml (for projects read from YAML files, after any history of builds and edits), C101_fab_clean rules need only succeed once their inputs have been made (InSupply), so they apply to clean checkouts; that is for projects as in C78, with rules that are commands. In C101_trees, C101_trees_ends, C101_yaml_trees, C101_fab_trees (InSupplyTrees) rules are made of commands with All, Seq and arguments, with a plan as in C78_trees: each command need only succeed once the inputs have been made and the commands before it in the rule have been run. C101_session, C101_session_ends: the condition is kept by builds, complete or interrupted, so it holds as long as edits keep it (Session). FirstFailure: everything before it in the history has succeeded. C101_ends is about schedules (Go's scheduler is not assumed to be fair: a build that cannot go on has returned nil)."),
}
