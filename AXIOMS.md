# Axioms of the theorems named in MANIFEST.json

| theorem | axioms |
|---|---|
| `Licant.Solver.C01_dependencies_first` | propext, Classical.choice, Quot.sound |
| `Licant.Solver.C01_threads` | propext, Classical.choice, Quot.sound |
| `Licant.Solver.C01_asyncio` | propext, Classical.choice, Quot.sound |
| `Licant.Solver.C02_at_most_once` | propext, Classical.choice, Quot.sound |
| `Licant.Solver.C02_threads` | propext, Classical.choice, Quot.sound |
| `Licant.Solver.C02_asyncio` | propext, Classical.choice, Quot.sound |
| `Licant.Solver.C03_true_means_all_done` | propext, Classical.choice, Quot.sound |
| `Licant.Solver.C03_threads` | propext, Classical.choice, Quot.sound |
| `Licant.Solver.C03_asyncio` | propext, Classical.choice, Quot.sound |
| `Licant.Solver.C04_threads` | propext, Classical.choice, Quot.sound |
| `Licant.Solver.C04_asyncio` | propext, Classical.choice, Quot.sound |
| `Licant.Solver.C04_failure_stops` | propext, Classical.choice, Quot.sound |
| `Licant.Solver.C04_bound_needed` | propext, Quot.sound |
| `Licant.Solver.C05_dependents_of_failed` | propext, Classical.choice, Quot.sound |
| `Licant.Solver.C05_threads` | propext, Classical.choice, Quot.sound |
| `Licant.Solver.C05_asyncio` | propext, Classical.choice, Quot.sound |
| `Licant.Solver.C06_verdict` | propext, Classical.choice, Quot.sound |
| `Licant.Solver.C06_schedule_independent` | propext, Classical.choice, Quot.sound |
| `Licant.Solver.C06_threads` | propext, Classical.choice, Quot.sound |
| `Licant.Solver.C06_asyncio` | propext, Classical.choice, Quot.sound |
| `Licant.Solver.C07_terminates` | propext, Classical.choice, Quot.sound |
| `Licant.Solver.C07_maximal_returned` | propext, Classical.choice, Quot.sound |
| `Licant.Solver.C07_threads` | propext, Classical.choice, Quot.sound |
| `Licant.Solver.C07_asyncio` | propext, Classical.choice, Quot.sound |
| `Licant.Solver.refines` | propext, Classical.choice, Quot.sound |
| `Licant.Solver.never_blocked` | propext, Classical.choice, Quot.sound |
| `Licant.Solver.C08_violated` | propext, Classical.choice, Quot.sound |
| `Licant.Solver.C08_violation_reachable` | propext, Classical.choice, Quot.sound |
| `Licant.Solver.C08_partial` | propext, Classical.choice, Quot.sound |
| `Licant.Solver.C08_threads` | propext, Classical.choice, Quot.sound |
| `Licant.Solver.C08_asyncio` | propext, Classical.choice, Quot.sound |
| `Licant.Solver.C09_parallelism` | propext, Classical.choice, Quot.sound |
| `Licant.Solver.C09_one_worker` | propext, Classical.choice, Quot.sound |
| `Licant.Solver.C09_threads` | propext, Classical.choice, Quot.sound |
| `Licant.Solver.C09_asyncio` | propext, Classical.choice, Quot.sound |
| `Licant.Solver.C10_violated` | propext, Classical.choice, Quot.sound |
| `Licant.Solver.C10_partial` | propext, Classical.choice, Quot.sound |
| `Licant.Solver.C11_accepts` | propext, Classical.choice, Quot.sound |
| `Licant.Solver.C12_right_exception` | propext, Classical.choice, Quot.sound |
| `Licant.Solver.C13_evidence` | propext, Classical.choice, Quot.sound |
| `Licant.Solver.C14_invert` | propext, Quot.sound |
| `Licant.Solver.C15_assertions` | propext, Classical.choice, Quot.sound |
| `Licant.Solver.C16_violated` | propext, Classical.choice, Quot.sound |
| `Licant.Solver.C16_partial` | propext, Classical.choice, Quot.sound |
| `Licant.Solver.C16_parallel` | propext, Classical.choice, Quot.sound |
| `Licant.Solver.C16_asyncio` | propext, Classical.choice, Quot.sound |
| `Licant.Core.C17_closure` | propext, Classical.choice, Quot.sound |
| `Licant.Core.C18_not_stale` | propext, Classical.choice, Quot.sound |
| `Licant.Core.C19_lookup` | propext, Quot.sound |
| `Licant.Core.C20_has_pure` | propext, Quot.sound |
| `Licant.Core.C21_violated` | propext, Classical.choice, Quot.sound |
| `Licant.Core.C21_partial` | propext, Quot.sound |
| `Licant.Core.C22_need_iff_stale` | propext, Classical.choice, Quot.sound |
| `Licant.Core.C23_terminates` | propext, Classical.choice, Quot.sound |
| `Licant.Core.C23_cycle` | propext, Classical.choice, Quot.sound |
| `Licant.Core.C24_exactly_the_stale` | propext, Classical.choice, Quot.sound |
| `Licant.Core.C25_accepted` | propext, Classical.choice, Quot.sound |
| `Licant.Core.C26_cyclic_runs_nothing` | propext, Classical.choice, Quot.sound |
| `Licant.Core.C27_do` | propext |
| `Licant.Core.C28_violated` | propext, Classical.choice, Quot.sound |
| `Licant.Core.C28_violated_witness` | propext, Quot.sound |
| `Licant.Core.C28_partial` | propext, Classical.choice, Quot.sound |
| `Licant.Core.C29_routine_args` | propext, Classical.choice, Quot.sound |
| `Licant.Core.C30_violated` | propext, Classical.choice, Quot.sound |
| `Licant.Core.C30_violated_witness` | propext, Classical.choice, Quot.sound |
| `Licant.Core.C30_partial` | propext, Classical.choice, Quot.sound |
| `Licant.Core.C71_violated` | propext, Classical.choice, Quot.sound |
| `Licant.Core.C71_partial` | propext, Quot.sound |
| `Licant.Core.C72_violated` | propext, Quot.sound |
| `Licant.Core.C72_partial` | propext, Classical.choice, Quot.sound |
| `Licant.Core.C73_violated` | propext, Classical.choice, Quot.sound |
| `Licant.Core.C73_partial` | propext, Classical.choice, Quot.sound |
| `Licant.Make.C31_file_cache` | propext, Quot.sound |
| `Licant.Make.C32_staleness` | propext, Classical.choice, Quot.sound |
| `Licant.Make.C32_answers` | propext, Classical.choice, Quot.sound |
| `Licant.Make.C33_up_to_date` | propext, Classical.choice, Quot.sound |
| `Licant.Make.C33_fresh` | propext, Classical.choice, Quot.sound |
| `Licant.Make.C34_second_build` | propext, Classical.choice, Quot.sound |
| `Licant.Make.C35_incremental` | propext, Classical.choice, Quot.sound |
| `Licant.Make.C36_rebuild_exactly_dependents` | propext, Classical.choice, Quot.sound |
| `Licant.Make.C37_resume` | propext, Classical.choice, Quot.sound |
| `Licant.Make.C38_violated` | propext, Classical.choice, Quot.sound |
| `Licant.Make.C38_violated_dir` | propext, Classical.choice, Quot.sound |
| `Licant.Make.C38_partial` | propext, Classical.choice, Quot.sound |
| `Licant.Make.C44_missing_source` | propext, Classical.choice, Quot.sound |
| `Licant.Make.C74_violated` | propext, Classical.choice, Quot.sound |
| `Licant.Make.C74_violated_witness` | propext, Classical.choice, Quot.sound |
| `Licant.Make.C74_partial` | propext, Classical.choice, Quot.sound |
| `Licant.Make.C76_violated` | propext, Classical.choice, Quot.sound |
| `Licant.Make.C76_violated_witness` | propext, Classical.choice, Quot.sound |
| `Licant.Make.C76_partial` | propext, Quot.sound |
| `Licant.Make.C39_clean` | propext, Classical.choice, Quot.sound |
| `Licant.Make.C39_returns` | propext, Classical.choice, Quot.sound |
| `Licant.Make.C41_directories` | propext, Classical.choice, Quot.sound |
| `Licant.Make.uninstall_nothing` | propext, Classical.choice, Quot.sound |
| `Licant.Make.C70_violated` | propext, Classical.choice, Quot.sound |
| `Licant.Make.C70_partial` | propext, Classical.choice, Quot.sound |
| `Licant.Make.C75_violated` | propext, Classical.choice, Quot.sound |
| `Licant.Make.C75_partial` | propext, Classical.choice, Quot.sound |
| `Licant.Make.C40_ftarget` | propext, Classical.choice, Quot.sound |
| `Licant.Make.C40_copy` | propext, Classical.choice, Quot.sound |
| `Licant.Make.C40_returns` | propext, Classical.choice, Quot.sound |
| `Licant.Make.C42_violated` | propext, Classical.choice, Quot.sound |
| `Licant.Make.C42_partial` | propext, Classical.choice, Quot.sound |
| `Licant.Make.C43_violated` | propext, Classical.choice, Quot.sound |
| `Licant.Make.C43_violated_witness` | propext, Classical.choice, Quot.sound |
| `Licant.Make.C43_partial` | propext, Classical.choice, Quot.sound |
| `Licant.Make.C77_wellformed` | propext, Classical.choice, Quot.sound |
| `Licant.Modules.C45_registry` | propext, Classical.choice, Quot.sound |
| `Licant.Modules.C45_returns` | propext, Classical.choice, Quot.sound |
| `Licant.Modules.C46_closed` | propext, Classical.choice, Quot.sound |
| `Licant.Modules.C47_explicit` | propext, Classical.choice, Quot.sound |
| `Licant.Modules.C48_reachable` | propext, Classical.choice, Quot.sound |
| `Licant.Modules.C49_violated` | propext, Classical.choice, Quot.sound |
| `Licant.Modules.C49_partial` | propext, Classical.choice, Quot.sound |
| `Licant.Modules.C49_loop` | propext, Classical.choice, Quot.sound |
| `Licant.Modules.C78_order` | propext, Classical.choice, Quot.sound |
| `Licant.Cxx.C53_inside` | propext, Classical.choice, Quot.sound |
| `Licant.Cxx.C54_partial` | propext, Classical.choice, Quot.sound |
| `Licant.Cxx.C54_violated` | propext, Classical.choice, Quot.sound |
| `Licant.Cxx.C55_changeext` | propext, Classical.choice, Quot.sound |
| `Licant.Cxx.C55_order` | propext |
| `Licant.Cxx.C55_name` | propext, Classical.choice, Quot.sound |
| `Licant.Cxx.C55_partial` | propext, Classical.choice, Quot.sound |
| `Licant.Cxx.C55_violated` | propext, Classical.choice, Quot.sound |
| `Licant.Cxx.C50_validation` | propext, Classical.choice, Quot.sound |
| `Licant.Cxx.C51_include` | propext, Classical.choice, Quot.sound |
| `Licant.Cxx.C51_returns` | propext, Classical.choice, Quot.sound |
| `Licant.Cxx.C52_module_paths` | propext, Classical.choice, Quot.sound |
| `Licant.Cxx.C56_headers` | propext, Classical.choice, Quot.sound |
| `Licant.Cxx.C56_other_names` | propext, Classical.choice, Quot.sound |
| `Licant.Cxx.C79_own` | propext, Classical.choice, Quot.sound |
| `Licant.Cxx.C80_violated` | propext, Classical.choice, Quot.sound |
| `Licant.Cxx.C80_violated_witness` | propext, Classical.choice, Quot.sound |
| `Licant.Cxx.C80_partial` | propext, Classical.choice, Quot.sound |
| `Licant.Cxx.C81_final` | propext, Classical.choice, Quot.sound |
| `Licant.Cxx.C81_settings` | propext, Classical.choice, Quot.sound |
| `Licant.Cxx.C82_violated` | propext, Classical.choice, Quot.sound |
| `Licant.Cxx.C82_partial` | propext, Classical.choice, Quot.sound |
| `Licant.Cxx.C83_violated` | propext, Classical.choice, Quot.sound |
| `Licant.Cxx.C83_partial` | propext, Classical.choice, Quot.sound |
| `Licant.Cxx.C84_violated` | propext, Classical.choice, Quot.sound |
| `Licant.Cxx.C84_partial` | propext, Classical.choice, Quot.sound |
| `Licant.Cxx.C58_compile` | propext, Classical.choice, Quot.sound |
| `Licant.Cxx.C58_link` | propext, Classical.choice, Quot.sound |
| `Licant.Cxx.C58_qt` | propext, Classical.choice, Quot.sound |
| `Licant.Cxx.C59_driver` | propext, Classical.choice, Quot.sound |
| `Licant.Cxx.C87_violated` | propext, Classical.choice, Quot.sound |
| `Licant.Cxx.C87_partial` | propext, Classical.choice, Quot.sound |
| `Licant.Cxx.C57_units` | propext, Classical.choice, Quot.sound |
| `Licant.Cxx.C60_violated` | propext, Classical.choice, Quot.sound |
| `Licant.Cxx.C60_partial` | propext, Classical.choice, Quot.sound |
| `Licant.Cxx.C90_linked` | propext, Classical.choice, Quot.sound |
| `Licant.Cxx.C89_violated` | propext, Classical.choice, Quot.sound |
| `Licant.Cxx.C89_partial` | propext, Classical.choice, Quot.sound |
| `Licant.Make.C88_wellformed` | propext, Classical.choice, Quot.sound |
| `Licant.Misc.C61_fifo` | propext, Quot.sound |
| `Licant.Misc.C62_dispatch` | propext, Classical.choice, Quot.sound |
| `Licant.Misc.C63_violated` | propext, Classical.choice, Quot.sound |
| `Licant.Misc.C63_partial` | propext, Classical.choice, Quot.sound |
| `Licant.Misc.C64_violated` | propext, Classical.choice, Quot.sound |
| `Licant.Misc.C64_partial` | propext, Classical.choice, Quot.sound |
| `Licant.Misc.C91_violated` | propext, Classical.choice, Quot.sound |
| `Licant.Misc.C91_partial` | propext, Classical.choice, Quot.sound |
| `Licant.Misc.Scripts.C65_once` | propext, Quot.sound |
| `Licant.Misc.Scripts.C65_terminates` | propext, Quot.sound |
| `Licant.Misc.Scripts.C66_precedence` | propext, Quot.sound |
| `Licant.Misc.Libs.C66_files` | propext, Classical.choice, Quot.sound |
| `Licant.Misc.Libs.C67_violated` | propext, Quot.sound |
| `Licant.Misc.Libs.C67_partial` | propext, Quot.sound |
| `Licant.Misc.Libs.C67_quiet` | propext |
| `Licant.Misc.Libs.C67_returns` | propext, Classical.choice, Quot.sound |
| `Licant.Misc.Scripts.C68_context` | propext, Quot.sound |
| `Licant.Misc.Install.C69_prefix` | propext, Classical.choice, Quot.sound |
| `Licant.Misc.Install.entries_spec` | propext, Quot.sound |
| `Licant.Misc.Scripts.C92_violated` | propext |
| `Licant.Misc.Scripts.C92_violated'` | propext, Quot.sound |
| `Licant.Misc.Scripts.C92_partial` | propext, Quot.sound |
| `Licant.Misc.Install.C93_violated` | propext, Classical.choice, Quot.sound |
| `Licant.Misc.Install.C93_partial` | propext, Classical.choice, Quot.sound |
| `Licant.Misc.Install.C94_violated` | propext, Classical.choice, Quot.sound |
| `Licant.Misc.Library.C94_library_violated` | propext, Classical.choice, Quot.sound |
| `Licant.Misc.Install.C94_partial` | propext, Classical.choice, Quot.sound |
| `Licant.Misc.Install.C95_violated` | propext, Classical.choice, Quot.sound |
| `Licant.Misc.Install.C95_partial` | propext, Classical.choice, Quot.sound |
| `Licant.Cxx.C96_project` | propext, Classical.choice, Quot.sound |
| `Licant.Cxx.C97_edit` | propext, Classical.choice, Quot.sound |
| `Licant.Cxx.C98_fresh` | propext, Classical.choice, Quot.sound |
| `Licant.Cxx.C99_second_run` | propext, Classical.choice, Quot.sound |
| `Licant.Make.C100_patterns` | propext, Classical.choice, Quot.sound |
| `Licant.Make.C101_violated` | propext, Classical.choice, Quot.sound |
| `Licant.Make.C101_violated_witness` | propext, Classical.choice, Quot.sound |
| `Licant.Make.C101_partial` | propext, Classical.choice, Quot.sound |
| `Licant.Make.Proc.C86_violated` | propext, Classical.choice, Quot.sound |
| `Licant.Make.Proc.C86_partial` | propext, Classical.choice, Quot.sound |
| `Licant.Make.Proc.C102_violated` | propext, Classical.choice, Quot.sound |
| `Licant.Make.Proc.C102_partial` | propext, Classical.choice, Quot.sound |
| `Licant.Make.Fs.C103_canonical` | propext, Classical.choice, Quot.sound |
| `Licant.Make.Fs.C103_same_file` | propext, Classical.choice, Quot.sound |
| `Licant.Make.Fs.Realises.sane` | propext, Classical.choice, Quot.sound |
| `Licant.Make.Fs.C104_violated` | propext, Classical.choice, Quot.sound |
| `Licant.Make.Fs.C104_partial` | propext, Classical.choice, Quot.sound |
| `Licant.Make.Fs.C104_unchanged` | propext, Classical.choice, Quot.sound |
| `Licant.Misc.Glob.C105_exact` | propext, Classical.choice, Quot.sound |
| `Licant.Misc.Glob.C105_returns` | propext, Classical.choice, Quot.sound |
| `Licant.Misc.Glob.C106_violated` | propext, Quot.sound |
| `Licant.Misc.Search.C106_violated_witness` | propext, Classical.choice, Quot.sound |
| `Licant.Misc.Glob.C106_partial` | propext, Classical.choice, Quot.sound |
| `Licant.Misc.Headers.C107_headers` | propext, Classical.choice, Quot.sound |
| `Licant.Misc.Headers.C107_returns` | propext, Classical.choice, Quot.sound |
| `Licant.Make.C108_default` | propext, Classical.choice, Quot.sound |
| `Licant.Make.C108_core` | propext, Classical.choice, Quot.sound |
| `Licant.Misc.Search.C109_recursive` | propext, Classical.choice, Quot.sound |
| `Licant.Cxx.C110_commands` | propext, Classical.choice, Quot.sound |
| `Licant.Cxx.C110_made` | propext, Classical.choice, Quot.sound |
| `Licant.Cxx.C111_violated` | propext, Classical.choice, Quot.sound |
| `Licant.Cxx.C111_partial` | propext, Classical.choice, Quot.sound |
| `Licant.Core.C112_violated` | propext |
| `Licant.Core.C112_partial` | propext, Quot.sound |
| `Licant.Core.C112_decorator_again` | propext, Quot.sound |
| `Licant.Misc.C113_violated` | propext, Classical.choice, Quot.sound |
| `Licant.Misc.C113_partial` | propext, Classical.choice, Quot.sound |
| `Licant.Misc.C113_source` | propext, Classical.choice, Quot.sound |
| `Licant.Misc.C113_routine` | propext, Classical.choice, Quot.sound |
| `Licant.Misc.Library.C114_library` | propext, Classical.choice, Quot.sound |
| `Licant.Misc.Library.C114_returns` | propext, Classical.choice, Quot.sound |
| `Licant.Misc.Library.C114_empty_name` | propext, Classical.choice, Quot.sound |
| `Licant.Cxx.C115_violated` | propext, Classical.choice, Quot.sound |
| `Licant.Cxx.C115_partial` | propext, Classical.choice, Quot.sound |
| `Licant.Make.C116_violated` | propext, Classical.choice, Quot.sound |
| `Licant.Make.C116_partial` | propext, Classical.choice, Quot.sound |
| `Licant.Make.C116_later` | propext, Classical.choice, Quot.sound |
| `Licant.Cxx.C117_given` | propext, Classical.choice, Quot.sound |
| `Licant.Make.C118_violated` | propext, Classical.choice, Quot.sound |
| `Licant.Make.C118_partial` | propext, Classical.choice, Quot.sound |
| `Licant.Cxx.C119_violated` | propext, Classical.choice, Quot.sound |
| `Licant.Cxx.C119_partial` | propext, Classical.choice, Quot.sound |
| `Licant.Cxx.C119_library` | propext, Classical.choice, Quot.sound |
| `Licant.Misc.C120_jobs` | propext, Classical.choice, Quot.sound |
| `Licant.Misc.C120_no_number` | propext, Classical.choice, Quot.sound |
| `Licant.Misc.C121_build` | propext, Classical.choice, Quot.sound |
| `Licant.Misc.C121_starts` | propext, Classical.choice, Quot.sound |
| `Licant.Misc.C121_again` | propext, Classical.choice, Quot.sound |
| `Licant.Cxx.C121_program` | propext, Classical.choice, Quot.sound |
| `Licant.Modules.C122_violated` | propext, Classical.choice, Quot.sound |
| `Licant.Modules.C122_partial` | propext, Classical.choice, Quot.sound |
| `Licant.Misc.C123_violated` | propext, Classical.choice, Quot.sound |
| `Licant.Misc.C123_command` | propext, Classical.choice, Quot.sound |
| `Licant.Misc.C123_modules_partial` | propext, Classical.choice, Quot.sound |
| `Licant.Misc.C123_collected_partial` | propext, Classical.choice, Quot.sound |
| `Licant.Misc.C123_libs_partial` | propext, Classical.choice, Quot.sound |
| `Licant.Cxx.C124_violated` | propext, Classical.choice, Quot.sound |
| `Licant.Cxx.C124_objcopy` | propext, Classical.choice, Quot.sound |
| `Licant.Cxx.C124_build` | propext, Classical.choice, Quot.sound |
| `Licant.Cxx.C124_javac_partial` | propext, Classical.choice, Quot.sound |
| `Licant.Cxx.C125_violated` | propext, Classical.choice, Quot.sound |
| `Licant.Cxx.C125_partial` | propext, Quot.sound |
| `Licant.Cxx.C126_violated` | propext |
| `Licant.Cxx.C126_partial` | propext, Classical.choice, Quot.sound |
| `Licant.Misc.Names.C127_violated` | propext, Classical.choice, Quot.sound |
| `Licant.Misc.Names.C127_partial` | propext, Quot.sound |
| `Licant.Cxx.C128_violated` | propext, Classical.choice, Quot.sound |
| `Licant.Cxx.C128_partial` | propext, Classical.choice, Quot.sound |
| `Licant.Cxx.C128_own` | propext, Classical.choice, Quot.sound |
| `Licant.Cxx.C128_flags` | propext |
| `Licant.Misc.Args.C129_violated` | propext, Classical.choice, Quot.sound |
| `Licant.Misc.Args.C129_partial` | propext, Classical.choice, Quot.sound |
| `Licant.Misc.Args.C129_dashes` | propext, Classical.choice, Quot.sound |
| `Licant.Misc.Args.C129_help` | propext, Classical.choice, Quot.sound |
| `Licant.Misc.Args.C129_unknown` | propext, Classical.choice, Quot.sound |
| `Licant.Misc.Args.C129_line` | propext, Classical.choice, Quot.sound |
| `Licant.Misc.Args.C129_ends` | propext, Classical.choice, Quot.sound |
| `Licant.Solver.C130_violated` | propext, Classical.choice, Quot.sound |
| `Licant.Solver.C130_violation_reachable` | propext, Classical.choice, Quot.sound |
| `Licant.Solver.C130_partial` | propext, Classical.choice, Quot.sound |
| `Licant.Make.C131_violated` | propext, Classical.choice, Quot.sound |
| `Licant.Make.C131_partial` | propext, Classical.choice, Quot.sound |
| `Licant.Make.C132_violated` | propext, Classical.choice, Quot.sound |
| `Licant.Make.C132_partial` | propext, Classical.choice, Quot.sound |
| `Licant.Make.C133_violated` | propext, Classical.choice, Quot.sound |
| `Licant.Make.C133_partial` | propext, Classical.choice, Quot.sound |
| `Licant.Core.C134_violated` | propext, Classical.choice, Quot.sound |
| `Licant.Core.C134_partial` | propext, Classical.choice, Quot.sound |
| `Licant.Core.updateNeedsA_forget` | propext, Quot.sound |
| `Licant.Make.C135_violated` | propext, Classical.choice, Quot.sound |
| `Licant.Make.C135_violated_witness` | propext, Classical.choice, Quot.sound |
| `Licant.Make.C135_partial` | propext, Classical.choice, Quot.sound |
| `Licant.Make.History.stamped` | propext, Classical.choice, Quot.sound |
| `Licant.Make.C136_violated` | propext, Classical.choice, Quot.sound |
| `Licant.Make.C136_violated_witness` | propext, Classical.choice, Quot.sound |
| `Licant.Make.C136_violated_contents` | propext, Classical.choice, Quot.sound |
| `Licant.Make.C136_partial` | propext, Classical.choice, Quot.sound |
| `Licant.Make.C136_succeeds` | propext, Classical.choice, Quot.sound |
| `Licant.Core.C137_violated` | propext, Classical.choice, Quot.sound |
| `Licant.Core.C137_violated_witness` | propext, Classical.choice, Quot.sound |
| `Licant.Core.C137_partial` | propext, Classical.choice, Quot.sound |
| `Licant.Core.C138_violated` | propext, Classical.choice, Quot.sound |
| `Licant.Core.C138_violated_witness` | propext, Classical.choice, Quot.sound |
| `Licant.Core.C138_violated_skipped` | propext, Classical.choice, Quot.sound |
| `Licant.Core.C138_partial` | propext, Classical.choice, Quot.sound |
| `Licant.Core.C139_violated` | propext, Classical.choice, Quot.sound |
| `Licant.Core.C139_violated_witness` | propext, Quot.sound |
| `Licant.Core.C139_partial` | propext, Quot.sound |
| `Licant.Misc.Libs.C140_violated` | propext, Quot.sound |
| `Licant.Misc.Libs.C140_partial` | propext, Classical.choice, Quot.sound |
| `Licant.Misc.Json.loads_dumps` | propext, Classical.choice, Quot.sound |
| `Licant.Misc.Json.loads_cut` | propext, Classical.choice, Quot.sound |
| `Licant.Misc.Libs.C141_violated` | propext, Classical.choice, Quot.sound |
| `Licant.Misc.Libs.C141_violated_unreadable` | propext, Classical.choice, Quot.sound |
| `Licant.Misc.Libs.C141_partial` | propext, Classical.choice, Quot.sound |
| `Licant.Misc.Libs.C141_all_calls` | propext, Classical.choice, Quot.sound |
| `Licant.Make.C142_makedir` | propext, Classical.choice, Quot.sound |
| `Licant.Make.C142_build` | propext, Classical.choice, Quot.sound |
| `Licant.Make.C143_violated` | propext, Classical.choice, Quot.sound |
| `Licant.Make.C143_violated_witness` | propext, Classical.choice, Quot.sound |
| `Licant.Make.C143_partial` | propext, Classical.choice, Quot.sound |
| `Licant.Make.C143_builds_partial` | propext, Classical.choice, Quot.sound |
| `Licant.Make.C143_sound_partial` | propext, Classical.choice, Quot.sound |
| `Licant.Make.C144_makefile` | propext, Classical.choice, Quot.sound |
| `Licant.Make.C144_rebuild` | propext, Classical.choice, Quot.sound |
| `Licant.Modules.C145_violated` | propext, Classical.choice, Quot.sound |
| `Licant.Modules.C145_partial` | propext, Classical.choice, Quot.sound |
| `Licant.Modules.collectW_eq` | propext, Classical.choice, Quot.sound |
| `Licant.Modules.C146_order` | propext, Classical.choice, Quot.sound |
| `Licant.Cxx.C146_targets` | propext, Classical.choice, Quot.sound |
| `Licant.Modules.C147_violated` | propext, Classical.choice, Quot.sound |
| `Licant.Modules.C147_partial` | propext, Classical.choice, Quot.sound |
| `Licant.Make.C148_violated` | propext, Classical.choice, Quot.sound |
| `Licant.Make.C148_unnoticed` | propext, Classical.choice, Quot.sound |
| `Licant.Make.C148_partial` | propext, Classical.choice, Quot.sound |
| `Licant.Make.C149_one_by_one` | propext, Classical.choice, Quot.sound |
| `Licant.Make.C149_any_order` | propext, Classical.choice, Quot.sound |
| `Licant.Solver.C150_named` | propext, Classical.choice, Quot.sound |
| `Licant.Make.C150_build` | propext, Classical.choice, Quot.sound |
| `Licant.Make.C151_partial` | propext, Classical.choice, Quot.sound |
| `Licant.Make.C151_blocked` | propext, Classical.choice, Quot.sound |
| `Licant.Make.C151_violated` | propext, Classical.choice, Quot.sound |
| `Licant.Make.C152_partial` | propext, Classical.choice, Quot.sound |
| `Licant.Cxx.C152_violated` | propext, Classical.choice, Quot.sound |
| `Licant.Make.C152_described` | propext, Classical.choice, Quot.sound |
| `Licant.Cxx.C152_task` | propext, Classical.choice, Quot.sound |
| `Licant.Make.C152_project` | propext, Classical.choice, Quot.sound |
| `Licant.Make.Fs.C152_directory` | propext, Classical.choice, Quot.sound |
| `Licant.Cxx.C152_program` | propext, Classical.choice, Quot.sound |
| `Licant.Cxx.C153_partial` | propext, Classical.choice, Quot.sound |
| `Licant.Make.C153_dependents` | propext, Classical.choice, Quot.sound |
| `Licant.Cxx.C153_violated` | propext, Classical.choice, Quot.sound |
| `Licant.Make.Output.C154_partial` | propext |
| `Licant.Make.Output.C154_shows` | propext, Classical.choice, Quot.sound |
| `Licant.Make.Output.C154_goes_on` | propext |
| `Licant.Make.Output.C154_violated` | propext |
| `Licant.Cxx.C155_partial` | propext, Classical.choice, Quot.sound |
| `Licant.Cxx.C155_violated` | propext, Classical.choice, Quot.sound |
| `Licant.Make.Racing.C156_partial` | propext, Quot.sound |
| `Licant.Make.Racing.C156_true` | propext, Quot.sound |
| `Licant.Make.Racing.C156_raises` | propext, Classical.choice, Quot.sound |
| `Licant.Make.Racing.C156_returns` | propext, Classical.choice, Quot.sound |
| `Licant.Make.Racing.C156_answers` | propext, Quot.sound |
| `Licant.Make.Racing.C156_violated` | propext, Quot.sound |
| `Licant.Make.Racing.C156_violated_overlap` | propext, Quot.sound |
| `Licant.Make.Scripted.C157_sources` | propext, Classical.choice, Quot.sound |
| `Licant.Make.Scripted.C157_calls` | propext, Classical.choice, Quot.sound |
| `Licant.Make.Scripted.C157_builds` | propext, Classical.choice, Quot.sound |
