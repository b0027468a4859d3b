{
 "claims": [
  {
   "property": "C01",
   "status": "proved",
   "theorems": [
    "Licant.Solver.C01_dependencies_first",
    "Licant.Solver.C01_threads",
    "Licant.Solver.C01_asyncio"
   ],
   "note": ""
  },
  {
   "property": "C02",
   "status": "proved",
   "theorems": [
    "Licant.Solver.C02_at_most_once",
    "Licant.Solver.C02_threads",
    "Licant.Solver.C02_asyncio"
   ],
   "note": ""
  },
  {
   "property": "C03",
   "status": "proved",
   "theorems": [
    "Licant.Solver.C03_true_means_all_done",
    "Licant.Solver.C03_threads",
    "Licant.Solver.C03_asyncio"
   ],
   "note": ""
  },
  {
   "property": "C04",
   "status": "proved",
   "theorems": [
    "Licant.Solver.C04_threads",
    "Licant.Solver.C04_asyncio",
    "Licant.Solver.C04_failure_stops",
    "Licant.Solver.C04_bound_needed"
   ],
   "note": "C04_bound_needed shows that a work function may begin after another has returned False"
  },
  {
   "property": "C05",
   "status": "proved",
   "theorems": [
    "Licant.Solver.C05_dependents_of_failed",
    "Licant.Solver.C05_threads",
    "Licant.Solver.C05_asyncio"
   ],
   "note": "Also covers a raising work function."
  },
  {
   "property": "C06",
   "status": "proved",
   "theorems": [
    "Licant.Solver.C06_verdict",
    "Licant.Solver.C06_schedule_independent",
    "Licant.Solver.C06_threads",
    "Licant.Solver.C06_asyncio"
   ],
   "note": ""
  },
  {
   "property": "C07",
   "status": "proved",
   "theorems": [
    "Licant.Solver.C07_terminates",
    "Licant.Solver.C07_maximal_returned",
    "Licant.Solver.C07_threads",
    "Licant.Solver.C07_asyncio",
    "Licant.Solver.refines",
    "Licant.Solver.never_blocked"
   ],
   "note": ""
  },
  {
   "property": "C08",
   "status": "partial",
   "theorems": [
    "Licant.Solver.C08_violated",
    "Licant.Solver.C08_violation_reachable",
    "Licant.Solver.C08_partial",
    "Licant.Solver.C08_threads",
    "Licant.Solver.C08_asyncio"
   ],
   "note": "False of the code: the negation is proved for every accepted list and every thread count; proved part: exec() returns iff no work function raised."
  },
  {
   "property": "C09",
   "status": "proved",
   "theorems": [
    "Licant.Solver.C09_parallelism",
    "Licant.Solver.C09_one_worker",
    "Licant.Solver.C09_threads",
    "Licant.Solver.C09_asyncio"
   ],
   "note": ""
  },
  {
   "property": "C10",
   "status": "partial",
   "theorems": [
    "Licant.Solver.C10_violated",
    "Licant.Solver.C10_partial"
   ],
   "note": "False of the code: the negation is proved for every accepted list; proved part: positive thread counts finish."
  },
  {
   "property": "C11",
   "status": "proved",
   "theorems": [
    "Licant.Solver.C11_accepts"
   ],
   "note": "Assumes that no simple dependency chain is longer than the interpreter's recursion limit (exact condition)."
  },
  {
   "property": "C12",
   "status": "proved",
   "theorems": [
    "Licant.Solver.C12_right_exception"
   ],
   "note": "Same recursion-limit assumption as C11."
  },
  {
   "property": "C13",
   "status": "proved",
   "theorems": [
    "Licant.Solver.C13_evidence"
   ],
   "note": ""
  },
  {
   "property": "C14",
   "status": "proved",
   "theorems": [
    "Licant.Solver.C14_invert"
   ],
   "note": ""
  },
  {
   "property": "C15",
   "status": "proved",
   "theorems": [
    "Licant.Solver.C15_assertions"
   ],
   "note": ""
  },
  {
   "property": "C16",
   "status": "partial",
   "theorems": [
    "Licant.Solver.C16_violated",
    "Licant.Solver.C16_partial",
    "Licant.Solver.C16_parallel",
    "Licant.Solver.C16_asyncio"
   ],
   "note": "false for more workers than the thread pool has threads; proved up to this number, and without it for handing out targets"
  },
  {
   "property": "C17",
   "status": "proved",
   "theorems": [
    "Licant.Core.C17_closure"
   ],
   "note": "Termination is stated with the recursion limit: any limit above the number of distinct dependency names."
  },
  {
   "property": "C18",
   "status": "proved",
   "theorems": [
    "Licant.Core.C18_not_stale"
   ],
   "note": ""
  },
  {
   "property": "C19",
   "status": "proved",
   "theorems": [
    "Licant.Core.C19_lookup"
   ],
   "note": ""
  },
  {
   "property": "C20",
   "status": "proved",
   "theorems": [
    "Licant.Core.C20_has_pure"
   ],
   "note": "Needs that canonical_path is idempotent (os.path.realpath)."
  },
  {
   "property": "C21",
   "status": "partial",
   "theorems": [
    "Licant.Core.C21_violated",
    "Licant.Core.C21_partial"
   ],
   "note": "False of the code: a stored alias survives; proved part is an exact characterisation."
  },
  {
   "property": "C22",
   "status": "proved",
   "theorems": [
    "Licant.Core.C22_need_iff_stale"
   ],
   "note": "For evaluations on a core whose remembered dependency lists are those of the registry (true initially, preserved); otherwise see C72."
  },
  {
   "property": "C23",
   "status": "proved",
   "theorems": [
    "Licant.Core.C23_terminates",
    "Licant.Core.C23_cycle"
   ],
   "note": ""
  },
  {
   "property": "C24",
   "status": "proved",
   "theorems": [
    "Licant.Core.C24_exactly_the_stale"
   ],
   "note": ""
  },
  {
   "property": "C25",
   "status": "proved",
   "theorems": [
    "Licant.Core.C25_accepted"
   ],
   "note": ""
  },
  {
   "property": "C26",
   "status": "proved",
   "theorems": [
    "Licant.Core.C26_cyclic_runs_nothing"
   ],
   "note": ""
  },
  {
   "property": "C27",
   "status": "proved",
   "theorems": [
    "Licant.Core.C27_do"
   ],
   "note": ""
  },
  {
   "property": "C28",
   "status": "partial",
   "theorems": [
    "Licant.Core.C28_violated",
    "Licant.Core.C28_violated_witness",
    "Licant.Core.C28_partial"
   ],
   "note": "False of the code: negation proved for every registry where a non-stale updatable target reaches a plain one; proved part: otherwise the evaluation returns."
  },
  {
   "property": "C29",
   "status": "proved",
   "theorems": [
    "Licant.Core.C29_routine_args"
   ],
   "note": ""
  },
  {
   "property": "C30",
   "status": "partial",
   "theorems": [
    "Licant.Core.C30_violated",
    "Licant.Core.C30_violated_witness",
    "Licant.Core.C30_partial"
   ],
   "note": "False of the code: negation proved for every registry; proved part: with a configured thread count the default action, after any session of registrations, lookups and evaluations, updates exactly the stale targets of the closure, and returns."
  },
  {
   "property": "C71",
   "status": "partial",
   "theorems": [
    "Licant.Core.C71_violated",
    "Licant.Core.C71_partial"
   ],
   "note": "False of the code (witness); proved part: the arguments are those of the most recent own invocation."
  },
  {
   "property": "C72",
   "status": "partial",
   "theorems": [
    "Licant.Core.C72_violated",
    "Licant.Core.C72_partial"
   ],
   "note": "False of the code (witness); proved part: every session of registrations of new names, lookups and evaluations in any order."
  },
  {
   "property": "C73",
   "status": "partial",
   "theorems": [
    "Licant.Core.C73_violated",
    "Licant.Core.C73_partial"
   ],
   "note": "False of the code (witness); proved part: histories without alias lookups."
  },
  {
   "property": "C31",
   "status": "proved",
   "theorems": [
    "Licant.Make.C31_file_cache"
   ],
   "note": ""
  },
  {
   "property": "C32",
   "status": "proved",
   "theorems": [
    "Licant.Make.C32_staleness",
    "Licant.Make.C32_answers"
   ],
   "note": "Assumes the evaluation returns; C32_answers shows that it does for registered acyclic projects."
  },
  {
   "property": "C33",
   "status": "proved",
   "theorems": [
    "Licant.Make.C33_up_to_date",
    "Licant.Make.C33_fresh"
   ],
   "note": "Assumes: project assumptions Sound (DESIGN.md), commands that report success write their target, sources exist, nothing forced, time stamps not in the future."
  },
  {
   "property": "C34",
   "status": "proved",
   "theorems": [
    "Licant.Make.C34_second_build"
   ],
   "note": ""
  },
  {
   "property": "C35",
   "status": "proved",
   "theorems": [
    "Licant.Make.C35_incremental"
   ],
   "note": "Time stamps grow strictly between steps of the history; commands write what they should (Faithful)."
  },
  {
   "property": "C36",
   "status": "proved",
   "theorems": [
    "Licant.Make.C36_rebuild_exactly_dependents"
   ],
   "note": ""
  },
  {
   "property": "C37",
   "status": "proved",
   "theorems": [
    "Licant.Make.C37_resume"
   ],
   "note": ""
  },
  {
   "property": "C38",
   "status": "partial",
   "theorems": [
    "Licant.Make.C38_violated",
    "Licant.Make.C38_violated_dir",
    "Licant.Make.C38_partial"
   ],
   "note": "False of the code (two witnesses: the failing command wrote its target; it wrote nothing, but the only reason to run it was a missing directory); proved part: failing commands that did not write their target, directories present or target missing."
  },
  {
   "property": "C44",
   "status": "proved",
   "theorems": [
    "Licant.Make.C44_missing_source"
   ],
   "note": ""
  },
  {
   "property": "C74",
   "status": "partial",
   "theorems": [
    "Licant.Make.C74_violated",
    "Licant.Make.C74_violated_witness",
    "Licant.Make.C74_partial"
   ],
   "note": "False of the code: negation proved for every project; proved part: new processes."
  },
  {
   "property": "C76",
   "status": "partial",
   "theorems": [
    "Licant.Make.C76_violated",
    "Licant.Make.C76_violated_witness",
    "Licant.Make.C76_partial"
   ],
   "note": "False of the code: negation proved for every registry with such a dependency; proved part: as long as the file does not exist."
  },
  {
   "property": "C39",
   "status": "proved",
   "theorems": [
    "Licant.Make.C39_clean",
    "Licant.Make.C39_returns"
   ],
   "note": "Shell model: only the space is special. C39_returns: clean returns for registered closures."
  },
  {
   "property": "C41",
   "status": "proved",
   "theorems": [
    "Licant.Make.C41_directories"
   ],
   "note": ""
  },
  {
   "property": "C70",
   "status": "partial",
   "theorems": [
    "Licant.Make.uninstall_nothing",
    "Licant.Make.C70_violated",
    "Licant.Make.C70_partial"
   ],
   "note": "False of the code: uninstall_nothing for every registry, C70_violated is a witness; proved part: clean of the install target deletes the installed files."
  },
  {
   "property": "C75",
   "status": "partial",
   "theorems": [
    "Licant.Make.C75_violated",
    "Licant.Make.C75_partial"
   ],
   "note": "False of the code (witness); proved part: paths without spaces."
  },
  {
   "property": "C40",
   "status": "proved",
   "theorems": [
    "Licant.Make.C40_ftarget",
    "Licant.Make.C40_copy",
    "Licant.Make.C40_returns"
   ],
   "note": "Under Env.Sane (no dangling links, working directory exists) and '*'-free paths that are not their own directory. C40_returns: the calls return."
  },
  {
   "property": "C42",
   "status": "partial",
   "theorems": [
    "Licant.Make.C42_violated",
    "Licant.Make.C42_partial"
   ],
   "note": "False of the code for paths with ~ (witness); proved part: paths without ~, and the global source()."
  },
  {
   "property": "C43",
   "status": "partial",
   "theorems": [
    "Licant.Make.C43_violated",
    "Licant.Make.C43_violated_witness",
    "Licant.Make.C43_partial"
   ],
   "note": "False of the code: negation proved for every non-default core; proved part: the default core."
  },
  {
   "property": "C77",
   "status": "proved",
   "theorems": [
    "Licant.Make.C77_wellformed"
   ],
   "note": "Reasonable and Described in Wellformed.lean specify the calls; the conclusion is Sound, the assumption of the build theorems."
  },
  {
   "property": "C45",
   "status": "proved",
   "theorems": [
    "Licant.Modules.C45_registry",
    "Licant.Modules.C45_returns"
   ],
   "note": "Declarations cannot fail (C45_returns)."
  },
  {
   "property": "C46",
   "status": "proved",
   "theorems": [
    "Licant.Modules.C46_closed"
   ],
   "note": "Declared: the library is the result of any script; the root is any module object."
  },
  {
   "property": "C47",
   "status": "proved",
   "theorems": [
    "Licant.Modules.C47_explicit"
   ],
   "note": ""
  },
  {
   "property": "C48",
   "status": "proved",
   "theorems": [
    "Licant.Modules.C48_reachable"
   ],
   "note": ""
  },
  {
   "property": "C49",
   "status": "partial",
   "theorems": [
    "Licant.Modules.C49_violated",
    "Licant.Modules.C49_partial",
    "Licant.Modules.C49_loop"
   ],
   "note": "False of the code: endless recursion on two modules that explicitly request each other; proved part: the loop always ends, and the recursion is bounded when explicit requests are acyclic."
  },
  {
   "property": "C78",
   "status": "proved",
   "theorems": [
    "Licant.Modules.C78_order"
   ],
   "note": ""
  },
  {
   "property": "C53",
   "status": "proved",
   "theorems": [
    "Licant.Cxx.C53_inside"
   ],
   "note": "Every build directory, also one with '..'."
  },
  {
   "property": "C54",
   "status": "partial",
   "theorems": [
    "Licant.Cxx.C54_partial",
    "Licant.Cxx.C54_violated"
   ],
   "note": "False of the code: four kinds of collisions; proved part: sources with the same extension, normalized, without two dots in a row."
  },
  {
   "property": "C55",
   "status": "partial",
   "theorems": [
    "Licant.Cxx.C55_changeext",
    "Licant.Cxx.C55_order",
    "Licant.Cxx.C55_name",
    "Licant.Cxx.C55_partial",
    "Licant.Cxx.C55_violated"
   ],
   "note": "Order, length and changeext are proved in full; the new extension is lost for relative names whose stem ends in a dot."
  },
  {
   "property": "C50",
   "status": "proved",
   "theorems": [
    "Licant.Cxx.C50_validation"
   ],
   "note": ""
  },
  {
   "property": "C51",
   "status": "proved",
   "theorems": [
    "Licant.Cxx.C51_include",
    "Licant.Cxx.C51_returns"
   ],
   "note": ""
  },
  {
   "property": "C52",
   "status": "proved",
   "theorems": [
    "Licant.Cxx.C52_module_paths"
   ],
   "note": ""
  },
  {
   "property": "C56",
   "status": "proved",
   "theorems": [
    "Licant.Cxx.C56_headers",
    "Licant.Cxx.C56_other_names"
   ],
   "note": "The counterexamples for other characters are C56_other_names."
  },
  {
   "property": "C79",
   "status": "proved",
   "theorems": [
    "Licant.Cxx.C79_own"
   ],
   "note": ""
  },
  {
   "property": "C80",
   "status": "partial",
   "theorems": [
    "Licant.Cxx.C80_violated",
    "Licant.Cxx.C80_violated_witness",
    "Licant.Cxx.C80_partial"
   ],
   "note": "False of the code; proved part: the result of every merge is validated."
  },
  {
   "property": "C81",
   "status": "proved",
   "theorems": [
    "Licant.Cxx.C81_final",
    "Licant.Cxx.C81_settings"
   ],
   "note": ""
  },
  {
   "property": "C82",
   "status": "partial",
   "theorems": [
    "Licant.Cxx.C82_violated",
    "Licant.Cxx.C82_partial"
   ],
   "note": "False of the code for included modules; proved part: the top level."
  },
  {
   "property": "C83",
   "status": "partial",
   "theorems": [
    "Licant.Cxx.C83_violated",
    "Licant.Cxx.C83_partial"
   ],
   "note": "False of the code; proved part: include graphs without cycles."
  },
  {
   "property": "C84",
   "status": "partial",
   "theorems": [
    "Licant.Cxx.C84_violated",
    "Licant.Cxx.C84_partial",
    "Licant.Cxx.C81_final"
   ],
   "note": "False of the code; proved part: mdepends of the built module and of what is collected from it; C81_final says what enters the build."
  },
  {
   "property": "C58",
   "status": "proved",
   "theorems": [
    "Licant.Cxx.C58_compile",
    "Licant.Cxx.C58_link",
    "Licant.Cxx.C58_qt"
   ],
   "note": "Stated on the words of the command line; words are separated by spaces, names without spaces (see C87)."
  },
  {
   "property": "C59",
   "status": "proved",
   "theorems": [
    "Licant.Cxx.C59_driver"
   ],
   "note": ""
  },
  {
   "property": "C87",
   "status": "partial",
   "theorems": [
    "Licant.Cxx.C87_violated",
    "Licant.Cxx.C87_partial",
    "Licant.Cxx.C58_compile"
   ],
   "note": "False of the code; proved part: names without spaces."
  },
  {
   "property": "C57",
   "status": "proved",
   "theorems": [
    "Licant.Cxx.C57_units"
   ],
   "note": "Registration of the sources (link_objects) in the default core; C57_units gives the view of the build (OutOfDate, NeedsWork), which C32 and C33 connect to what is run."
  },
  {
   "property": "C60",
   "status": "partial",
   "theorems": [
    "Licant.Cxx.C60_violated",
    "Licant.Cxx.C60_partial",
    "Licant.Cxx.C90_linked"
   ],
   "note": "False of the code; proved part: with default=True what is built is the implementation of the call."
  },
  {
   "property": "C89",
   "status": "partial",
   "theorems": [
    "Licant.Cxx.C89_violated",
    "Licant.Cxx.C89_partial",
    "Licant.Cxx.C90_linked"
   ],
   "note": "False of the code for every call with submodules; proved part: a call that returns had no submodules; C90_linked says what it registers."
  },
  {
   "property": "C90",
   "status": "proved",
   "theorems": [
    "Licant.Cxx.C90_linked"
   ],
   "note": ""
  },
  {
   "property": "C88",
   "status": "proved",
   "theorems": [
    "Licant.Make.C88_wellformed"
   ],
   "note": "ReasonableD and DescribedD in Default.lean specify the calls; the conclusion is Sound, the assumption of the build theorems."
  },
  {
   "property": "C61",
   "status": "proved",
   "theorems": [
    "Licant.Misc.C61_fifo"
   ],
   "note": "the two-list queue gives the same answers as a plain FIFO list for every sequence of operations"
  },
  {
   "property": "C62",
   "status": "proved",
   "theorems": [
    "Licant.Misc.C62_dispatch"
   ],
   "note": "argparse is represented by the free arguments it leaves; keyboard interrupt not modelled"
  },
  {
   "property": "C63",
   "status": "partial",
   "theorems": [
    "Licant.Misc.C63_violated",
    "Licant.Misc.C63_partial"
   ],
   "note": "false: one extra argument is passed as its characters, more than one raise TypeError; proved for no extra argument"
  },
  {
   "property": "C64",
   "status": "partial",
   "theorems": [
    "Licant.Misc.C64_violated",
    "Licant.Misc.C64_partial"
   ],
   "note": "false: the verdict of the action is dropped; proved for failures that are raised"
  },
  {
   "property": "C91",
   "status": "partial",
   "theorems": [
    "Licant.Misc.C91_violated",
    "Licant.Misc.C91_partial"
   ],
   "note": "false: later calls execute the arguments of the first call; proved for the first call"
  },
  {
   "property": "C65",
   "status": "proved",
   "theorems": [
    "Licant.Misc.Scripts.C65_once",
    "Licant.Misc.Scripts.C65_terminates"
   ],
   "note": "scripts are interaction trees over execute, execute_recursive and include; scripts that catch SystemExit are not modelled; termination for finitely many library names and plain execute calls of bounded nesting"
  },
  {
   "property": "C66",
   "status": "proved",
   "theorems": [
    "Licant.Misc.Scripts.C66_precedence",
    "Licant.Misc.Libs.C66_files"
   ],
   "note": "a tunnel whose link is missing is C92"
  },
  {
   "property": "C67",
   "status": "partial",
   "theorems": [
    "Licant.Misc.Libs.C67_violated",
    "Licant.Misc.Libs.C67_partial",
    "Licant.Misc.Libs.C67_quiet",
    "Licant.Misc.Libs.C67_returns"
   ],
   "note": "false for -r: nothing is ever removed; proved for adding a record or a directory"
  },
  {
   "property": "C68",
   "status": "proved",
   "theorems": [
    "Licant.Misc.Scripts.C68_context"
   ],
   "note": ""
  },
  {
   "property": "C69",
   "status": "proved",
   "theorems": [
    "Licant.Misc.Install.C69_prefix",
    "Licant.Misc.Install.entries_spec"
   ],
   "note": ""
  },
  {
   "property": "C92",
   "status": "partial",
   "theorems": [
    "Licant.Misc.Scripts.C92_violated",
    "Licant.Misc.Scripts.C92_violated'",
    "Licant.Misc.Scripts.C92_partial"
   ],
   "note": "false for a link name without directory and for scripts in other directories; proved: the link made and the script executed otherwise"
  },
  {
   "property": "C93",
   "status": "partial",
   "theorems": [
    "Licant.Misc.Install.C93_violated",
    "Licant.Misc.Install.C93_partial"
   ],
   "note": "false: raises without a usable PATH entry; proved otherwise"
  },
  {
   "property": "C94",
   "status": "partial",
   "theorems": [
    "Licant.Misc.Install.C94_violated",
    "Licant.Misc.Library.C94_library_violated",
    "Licant.Misc.Install.C94_partial",
    "Licant.Misc.Install.C69_prefix",
    "Licant.Misc.Install.entries_spec"
   ],
   "note": "false: the error flag is raised whenever PATH has no entry equal to /usr/local/bin; proved part: the other cases"
  },
  {
   "property": "C95",
   "status": "partial",
   "theorems": [
    "Licant.Misc.Install.C95_violated",
    "Licant.Misc.Install.C95_partial"
   ],
   "note": "false without tgt: the set depends on itself and evaluation never returns; proved with a name for the set"
  },
  {
   "property": "C96",
   "status": "proved",
   "theorems": [
    "Licant.Cxx.C96_project"
   ],
   "note": "the files of the module must not collide (Parts.Fit); the example shows an application that meets all hypotheses"
  },
  {
   "property": "C97",
   "status": "proved",
   "theorems": [
    "Licant.Cxx.C97_edit"
   ],
   "note": "for every project that C96 establishes; second half under SelfContained (nothing is made outside of the module)"
  },
  {
   "property": "C98",
   "status": "proved",
   "theorems": [
    "Licant.Cxx.C98_fresh"
   ],
   "note": "for every project that C96 establishes; commands that report success write their target; time stamps are not in the future"
  },
  {
   "property": "C99",
   "status": "proved",
   "theorems": [
    "Licant.Cxx.C99_second_run"
   ],
   "note": "Listed in Twice.lean says what is assumed of the dependency files as written by the compiler; second process with an empty cache"
  },
  {
   "property": "C100",
   "status": "proved",
   "theorems": [
    "Licant.Make.C100_patterns"
   ],
   "note": "StandsFor is the independent reading of a dependency text; glob is a parameter of the environment"
  },
  {
   "property": "C101",
   "status": "partial",
   "theorems": [
    "Licant.Make.C101_violated",
    "Licant.Make.C101_violated_witness",
    "Licant.Make.C101_partial"
   ],
   "note": "False: C101_violated for every sane environment, pattern and core, with a witness. C101_partial: the dependencies resolve if all matches were declared before in the same core"
  },
  {
   "property": "C86",
   "status": "partial",
   "theorems": [
    "Licant.Make.Proc.C86_violated",
    "Licant.Make.Proc.C86_partial"
   ],
   "note": "False (C86_violated): the command and do_execute deadlock if one stream exceeds the capacity of a pipe. C86_partial: otherwise every execution ends after a bounded number of steps as expected, or raises if the output is not UTF-8"
  },
  {
   "property": "C102",
   "status": "partial",
   "theorems": [
    "Licant.Make.Proc.C102_violated",
    "Licant.Make.Proc.C102_partial"
   ],
   "note": "False (C102_violated). C102_partial: if the output of every command fits into the pipes and is UTF-8 the build goes on until it returns, with the right verdict"
  },
  {
   "property": "C103",
   "status": "proved",
   "theorems": [
    "Licant.Make.Fs.C103_canonical",
    "Licant.Make.Fs.C103_same_file",
    "Licant.Make.Fs.Realises.sane"
   ],
   "note": "file trees with symbolic links (Tree), the kernel's walk and realpath as relations; without dangling links. Re-registration of a name is C21"
  },
  {
   "property": "C104",
   "status": "partial",
   "theorems": [
    "Licant.Make.Fs.C104_violated",
    "Licant.Make.Fs.C104_partial",
    "Licant.Make.Fs.C104_unchanged"
   ],
   "note": "False (C104_violated). C104_partial: the answer is always that of the first call for the path; C104_unchanged: right if the file system does not change"
  },
  {
   "property": "C105",
   "status": "proved",
   "theorems": [
    "Licant.Misc.Glob.C105_exact",
    "Licant.Misc.Glob.C105_returns"
   ],
   "note": "os.walk with its defaults on trees with links; patterns with *, ?, [..] and [!..]; C105_returns: it returns unless the tree is deeper than the recursion limit"
  },
  {
   "property": "C106",
   "status": "partial",
   "theorems": [
    "Licant.Misc.Glob.C106_violated",
    "Licant.Misc.Search.C106_violated_witness",
    "Licant.Misc.Glob.C106_partial"
   ],
   "note": "False (C106_violated). C106_partial: right if hide has no slash and does not occur in the path of root"
  },
  {
   "property": "C107",
   "status": "proved",
   "theorems": [
    "Licant.Misc.Headers.C107_headers",
    "Licant.Misc.Headers.C107_returns"
   ],
   "note": "provided no link is in the paths to which headers go, none of these contains a star, and no header is one of the files to be made; the example meets all hypotheses"
  },
  {
   "property": "C108",
   "status": "proved",
   "theorems": [
    "Licant.Make.C108_default",
    "Licant.Make.C108_core"
   ],
   "note": ""
  },
  {
   "property": "C109",
   "status": "proved",
   "theorems": [
    "Licant.Misc.Search.C109_recursive"
   ],
   "note": "for hide texts that do not occur in the path of the root (C106)"
  },
  {
   "property": "C110",
   "status": "proved",
   "theorems": [
    "Licant.Cxx.C110_commands",
    "Licant.Cxx.C110_made"
   ],
   "note": "for files that fit into the registry (as in C96) and texts without spaces; commands as words; C110_made: the copied headers, the headers of forms and the sources made by moc"
  },
  {
   "property": "C111",
   "status": "partial",
   "theorems": [
    "Licant.Cxx.C111_violated",
    "Licant.Cxx.C111_partial"
   ],
   "note": "false of the code: cliexecute looks at the options after the targets were described, so they have no effect; proved for command lines that the script looks at before"
  },
  {
   "property": "C112",
   "status": "partial",
   "theorems": [
    "Licant.Core.C112_violated",
    "Licant.Core.C112_partial",
    "Licant.Core.C112_decorator_again"
   ],
   "note": "false of the code for callable objects that are no plain functions and are given directly; proved for functions and for the decorator with arguments"
  },
  {
   "property": "C113",
   "status": "partial",
   "theorems": [
    "Licant.Misc.C113_violated",
    "Licant.Misc.C113_partial",
    "Licant.Misc.C113_source",
    "Licant.Misc.C113_routine"
   ],
   "note": "false of the code for source files (clr) and routines (a comma is missing in the list); proved for all other actions and targets"
  },
  {
   "property": "C114",
   "status": "proved",
   "theorems": [
    "Licant.Misc.Library.C114_library",
    "Licant.Misc.Library.C114_returns",
    "Licant.Misc.Library.C114_empty_name"
   ],
   "note": "supposing that no links, stars or clashes of names are involved (stated as hypotheses); that uninstall nevertheless deletes nothing is C70"
  },
  {
   "property": "C115",
   "status": "partial",
   "theorems": [
    "Licant.Cxx.C115_violated",
    "Licant.Cxx.C115_partial"
   ],
   "note": "false of the code: with the same build directory a source shared by two programs gives one object file, compiled with the options of the last call (witness); proved for calls of which no two make the same file"
  },
  {
   "property": "C116",
   "status": "partial",
   "theorems": [
    "Licant.Make.C116_violated",
    "Licant.Make.C116_partial",
    "Licant.Make.C116_later"
   ],
   "note": "false of the code for files called binutils, m, cxxm or l, in every project; proved for all other names, for the first call of a script (C116_partial) and for later calls (C116_later), where the name must not stand for a set of files or routine of the project either"
  },
  {
   "property": "C117",
   "status": "proved",
   "theorems": [
    "Licant.Cxx.C117_given"
   ],
   "note": "prefixes without spaces; with C111_partial for programs without toolchain="
  },
  {
   "property": "C118",
   "status": "partial",
   "theorems": [
    "Licant.Make.C118_violated",
    "Licant.Make.C118_partial"
   ],
   "note": "false of the code: with dependencies the file is written again when one is newer; proved for touch without dependencies"
  },
  {
   "property": "C119",
   "status": "partial",
   "theorems": [
    "Licant.Cxx.C119_violated",
    "Licant.Cxx.C119_partial",
    "Licant.Cxx.C119_library"
   ],
   "note": "false of the code if both libraries get the same path, as with the option target; proved for different paths that do not get in each other's way (BothFit), and for library() without such a condition"
  },
  {
   "property": "C120",
   "status": "proved",
   "theorems": [
    "Licant.Misc.C120_jobs",
    "Licant.Misc.C120_no_number"
   ],
   "note": "digits and spaces outside ASCII are not modelled"
  },
  {
   "property": "C121",
   "status": "proved",
   "theorems": [
    "Licant.Misc.C121_build",
    "Licant.Misc.C121_starts",
    "Licant.Misc.C121_again",
    "Licant.Cxx.C121_program"
   ],
   "note": "for one build per process (the cached marks of a further one: C28); C121_program joins it with C96 and C98"
  },
  {
   "property": "C122",
   "status": "partial",
   "theorems": [
    "Licant.Modules.C122_violated",
    "Licant.Modules.C122_partial"
   ],
   "note": "false: the root is recorded in place of modules, and later includers are missing; the rest is proved"
  },
  {
   "property": "C123",
   "status": "partial",
   "theorems": [
    "Licant.Misc.C123_violated",
    "Licant.Misc.C123_command",
    "Licant.Misc.C123_modules_partial",
    "Licant.Misc.C123_collected_partial",
    "Licant.Misc.C123_libs_partial"
   ],
   "note": "false on the command line (one extra argument is passed as its characters); proved for calls with a list of arguments"
  },
  {
   "property": "C124",
   "status": "partial",
   "theorems": [
    "Licant.Cxx.C124_violated",
    "Licant.Cxx.C124_objcopy",
    "Licant.Cxx.C124_build",
    "Licant.Cxx.C124_javac_partial"
   ],
   "note": "false for javac and dex; proved for objcopy, and for javac that it depends on its sources"
  },
  {
   "property": "C125",
   "status": "partial",
   "theorems": [
    "Licant.Cxx.C125_violated",
    "Licant.Cxx.C125_partial"
   ],
   "note": "false for make_gcc_binutils; proved for gcc_toolchain and for the other tools"
  },
  {
   "property": "C126",
   "status": "partial",
   "theorems": [
    "Licant.Cxx.C126_violated",
    "Licant.Cxx.C126_partial"
   ],
   "note": "false: the action raises for all arguments; proved for direct calls with a core and a target that has opts.binutils"
  },
  {
   "property": "C127",
   "status": "partial",
   "theorems": [
    "Licant.Misc.Names.C127_violated",
    "Licant.Misc.Names.C127_partial"
   ],
   "note": "false; proved for scripts that do not assign the seven names"
  },
  {
   "property": "C128",
   "status": "partial",
   "theorems": [
    "Licant.Cxx.C128_violated",
    "Licant.Cxx.C128_partial",
    "Licant.Cxx.C128_own",
    "Licant.Cxx.C128_flags"
   ],
   "note": "false for messages with unknown fields; proved for all others, and that all of licant's own messages are among these"
  },
  {
   "property": "C129",
   "status": "partial",
   "theorems": [
    "Licant.Misc.Args.C129_violated",
    "Licant.Misc.Args.C129_partial",
    "Licant.Misc.Args.C129_dashes",
    "Licant.Misc.Args.C129_help",
    "Licant.Misc.Args.C129_unknown",
    "Licant.Misc.Args.C129_line",
    "Licant.Misc.Args.C129_ends"
   ],
   "note": "false if options stand between free arguments; proved for all other places, and down to the call of the target"
  },
  {
   "property": "C130",
   "status": "partial",
   "theorems": [
    "Licant.Solver.C130_violated",
    "Licant.Solver.C130_violation_reachable",
    "Licant.Solver.C130_partial"
   ],
   "note": "false if the interrupt arrives while a worker takes a target; proved if it arrives while the event loop waits"
  },
  {
   "property": "C131",
   "status": "partial",
   "theorems": [
    "Licant.Make.C131_violated",
    "Licant.Make.C131_partial"
   ],
   "note": "false if an existing directory is named as a dependency; proved if no file target or source is a directory"
  },
  {
   "property": "C132",
   "status": "partial",
   "theorems": [
    "Licant.Make.C132_violated",
    "Licant.Make.C132_partial"
   ],
   "note": "false if a source is edited after a running command has read it; proved for edits while no command that reads the source runs"
  },
  {
   "property": "C133",
   "status": "partial",
   "theorems": [
    "Licant.Make.C133_violated",
    "Licant.Make.C133_partial"
   ],
   "note": "false: an unfinished output counts as up to date; proved if the unfinished outputs are removed first"
  },
  {
   "property": "C134",
   "status": "partial",
   "theorems": [
    "Licant.Core.C134_violated",
    "Licant.Core.C134_partial",
    "Licant.Core.updateNeedsA_forget"
   ],
   "note": "false: exponentially many calls if targets are registered before their dependencies; proved for dependencies first"
  },
  {
   "property": "C135",
   "status": "partial",
   "theorems": [
    "Licant.Make.C135_violated",
    "Licant.Make.C135_violated_witness",
    "Licant.Make.C135_partial",
    "Licant.Make.History.stamped"
   ],
   "note": "false: a replaced source that is not newer than the built files is not noticed, in every project; proved for replacements newer than the built files that read them, with any time stamps otherwise"
  },
  {
   "property": "C136",
   "status": "partial",
   "theorems": [
    "Licant.Make.C136_violated",
    "Licant.Make.C136_violated_witness",
    "Licant.Make.C136_violated_contents",
    "Licant.Make.C136_partial",
    "Licant.Make.C136_succeeds"
   ],
   "note": "false twice: two processes that begin when a directory is missing never both succeed, in every project; a half-written file is taken for a finished one. Proved: with commands that write in one piece, the files of a process that has returned True are right from then on, under every interleaving, also if a process sees different files at different moments; a process that has seen its directories and whose commands succeed is not stopped by the others"
  },
  {
   "property": "C137",
   "status": "partial",
   "theorems": [
    "Licant.Core.C137_violated",
    "Licant.Core.C137_violated_witness",
    "Licant.Core.C137_partial"
   ],
   "note": "false: for every recursion limit, chains that are longer cannot be updated, in every core. Proved: chains within the limit are accepted, however many targets there are"
  },
  {
   "property": "C138",
   "status": "partial",
   "theorems": [
    "Licant.Core.C138_violated",
    "Licant.Core.C138_violated_witness",
    "Licant.Core.C138_violated_skipped",
    "Licant.Core.C138_partial"
   ],
   "note": "false: with two workers a work function that begins while a nested core.do recomputes the needs raises and the update hangs, in every core; with one worker a dependent of an updated target is left out. Proved: with one worker, or if the callers are in line with all other targets, no work function finds its answer missing, nothing raises and the update returns"
  },
  {
   "property": "C139",
   "status": "partial",
   "theorems": [
    "Licant.Core.C139_violated",
    "Licant.Core.C139_violated_witness",
    "Licant.Core.C139_partial"
   ],
   "note": "false: if a condition asks has() for another spelling of a registered path, no evaluation of the core succeeds (every core; witness with RuntimeError). Proved: with registered names or unknown paths the evaluation is the one of a has() that changes nothing"
  },
  {
   "property": "C140",
   "status": "partial",
   "theorems": [
    "Licant.Misc.Libs.C140_violated",
    "Licant.Misc.Libs.C140_partial",
    "Licant.Misc.Json.loads_dumps",
    "Licant.Misc.Json.loads_cut"
   ],
   "note": "false: killed after the file is opened and before the text is complete, the old registry is lost (every call that changes the registry). Proved: at every moment the file is the old one, reads as the new registry, or is unreadable; rests on a model of json.dump / json.load with a round trip theorem and with the theorem that no proper prefix can be read"
  },
  {
   "property": "C141",
   "status": "partial",
   "theorems": [
    "Licant.Misc.Libs.C141_violated",
    "Licant.Misc.Libs.C141_violated_unreadable",
    "Licant.Misc.Libs.C141_partial",
    "Licant.Misc.Libs.C141_all_calls"
   ],
   "note": "false in two ways: a record of one of two overlapping calls is lost; two overlapping writes leave a file that cannot be read. Proved: calls that do not overlap give the file of the same calls one after the other, and such executions exist for any calls"
  },
  {
   "property": "C142",
   "status": "proved",
   "theorems": [
    "Licant.Make.C142_makedir",
    "Licant.Make.C142_build"
   ],
   "note": "FitsDir (Default.lean) says which directories can be described; the build is that of C31-C38."
  },
  {
   "property": "C143",
   "status": "partial",
   "theorems": [
    "Licant.Make.C143_violated",
    "Licant.Make.C143_violated_witness",
    "Licant.Make.C143_partial",
    "Licant.Make.C143_builds_partial",
    "Licant.Make.C143_sound_partial"
   ],
   "note": "False of the code (C143_violated, with a concrete case): has() remembers another spelling of an existing file as the source that it was when a dependent was described, so a later makefile() of that file is not seen under that spelling. Proved for descriptions that are Orderly: declared once, dependencies that another call makes are spelled by their canonical path, no name is also a missing directory. C143_sound_partial: what can be built when described in one order can be built when described in any other."
  },
  {
   "property": "C144",
   "status": "proved",
   "theorems": [
    "Licant.Make.C144_makefile",
    "Licant.Make.C144_rebuild"
   ],
   "note": "Paths of built files have no spaces (C75), nobody else changes files (C74)."
  },
  {
   "property": "C145",
   "status": "partial",
   "theorems": [
    "Licant.Modules.C145_violated",
    "Licant.Modules.C145_partial",
    "Licant.Modules.collectW_eq"
   ],
   "note": "false: exponentially many visits if modules are explicitly requested in several places; proved if in at most one"
  },
  {
   "property": "C146",
   "status": "proved",
   "theorems": [
    "Licant.Modules.C146_order",
    "Licant.Cxx.C146_targets"
   ],
   "note": ""
  },
  {
   "property": "C147",
   "status": "partial",
   "theorems": [
    "Licant.Modules.C147_violated",
    "Licant.Modules.C147_partial"
   ],
   "note": "false if a module is requested both by name and explicitly; proved otherwise"
  },
  {
   "property": "C148",
   "status": "partial",
   "theorems": [
    "Licant.Make.C148_violated",
    "Licant.Make.C148_unnoticed",
    "Licant.Make.C148_partial"
   ],
   "note": "false: a changed command is not noticed; proved if the products of new and changed commands are removed"
  },
  {
   "property": "C149",
   "status": "proved",
   "theorems": [
    "Licant.Make.C149_one_by_one",
    "Licant.Make.C149_any_order"
   ],
   "note": ""
  },
  {
   "property": "C150",
   "status": "proved",
   "theorems": [
    "Licant.Solver.C150_named",
    "Licant.Make.C150_build"
   ],
   "note": ""
  },
  {
   "property": "C151",
   "status": "partial",
   "theorems": [
    "Licant.Make.C151_partial",
    "Licant.Make.C151_blocked",
    "Licant.Make.C151_violated"
   ],
   "note": "false: an unrelated target can keep all builds from beginning (C151_blocked says when, C151_violated is a concrete case); proved for builds that end successfully"
  },
  {
   "property": "C152",
   "status": "partial",
   "theorems": [
    "Licant.Make.C152_partial",
    "Licant.Cxx.C152_violated",
    "Licant.Make.C152_described",
    "Licant.Cxx.C152_task",
    "Licant.Make.C152_project",
    "Licant.Make.Fs.C152_directory",
    "Licant.Cxx.C152_program"
   ],
   "note": "false for C++ modules: dependency files carry paths of the old place over (C152_violated); proved for targets that are described in the new place as in the old one, up to the replacement of paths"
  },
  {
   "property": "C153",
   "status": "partial",
   "theorems": [
    "Licant.Cxx.C153_partial",
    "Licant.Make.C153_dependents",
    "Licant.Cxx.C153_violated"
   ],
   "note": "false: the directory of a deleted header is made again (C153_violated); the rest is proved, C153_dependents for all projects"
  },
  {
   "property": "C154",
   "status": "partial",
   "theorems": [
    "Licant.Make.Output.C154_partial",
    "Licant.Make.Output.C154_shows",
    "Licant.Make.Output.C154_goes_on",
    "Licant.Make.Output.C154_violated"
   ],
   "note": "false: message, standard output and standard error are separate prints, and some prints do not take the lock (C154_violated); proved for single prints; C154_shows: each thread writes all that its commands have to show"
  },
  {
   "property": "C155",
   "status": "partial",
   "theorems": [
    "Licant.Cxx.C155_partial",
    "Licant.Cxx.C155_violated"
   ],
   "note": "false for forms in a directory (C155_violated); proved for forms in the working directory, for files that fit into the registry (as in C96)"
  },
  {
   "property": "C156",
   "status": "partial",
   "theorems": [
    "Licant.Make.Racing.C156_partial",
    "Licant.Make.Racing.C156_true",
    "Licant.Make.Racing.C156_raises",
    "Licant.Make.Racing.C156_returns",
    "Licant.Make.Racing.C156_answers",
    "Licant.Make.Racing.C156_violated",
    "Licant.Make.Racing.C156_violated_overlap"
   ],
   "note": "false if a file is removed during the call (C156_violated) and if refreshes of the same file overlap (C156_violated_overlap); proved: freshness after a refresh that began while no other was under way, C156_true, C156_raises, C156_returns, C156_answers in general"
  },
  {
   "property": "C157",
   "status": "proved",
   "theorems": [
    "Licant.Make.Scripted.C157_sources",
    "Licant.Make.Scripted.C157_calls",
    "Licant.Make.Scripted.C157_builds"
   ],
   "note": "for reasonable calls (C88)"
  }
 ]
}