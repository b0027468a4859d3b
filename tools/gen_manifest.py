#!/usr/bin/env python3
"""Regenerates MANIFEST.json; checks that every named theorem exists and every property is listed."""
import json, re, glob, os
root = os.path.dirname(os.path.dirname(os.path.abspath(__file__)))
M = []
def m(prop, status, note, *theorems):
    M.append(dict(property=prop, status=status, theorems=list(theorems), note=note))

S = "Licant.Solver."
m("C01","proved","", S+"C01_dependencies_first", S+"C01_threads", S+"C01_asyncio")
m("C02","proved","", S+"C02_at_most_once", S+"C02_threads", S+"C02_asyncio")
m("C03","proved","", S+"C03_true_means_all_done", S+"C03_threads", S+"C03_asyncio")
m("C04","proved","C04_bound_needed shows that a work function may begin after another has returned False", S+"C04_threads", S+"C04_asyncio", S+"C04_failure_stops", S+"C04_bound_needed")
m("C05","proved","Also covers a raising work function.", S+"C05_dependents_of_failed", S+"C05_threads", S+"C05_asyncio")
m("C06","proved","", S+"C06_verdict", S+"C06_schedule_independent", S+"C06_threads", S+"C06_asyncio")
m("C07","proved","", S+"C07_terminates", S+"C07_maximal_returned", S+"C07_threads", S+"C07_asyncio", S+"refines", S+"never_blocked")
m("C08","partial","False of the code: the negation is proved for every accepted list and every thread count; proved part: exec() returns iff no work function raised.", S+"C08_violated", S+"C08_violation_reachable", S+"C08_partial", S+"C08_threads", S+"C08_asyncio")
m("C09","proved","", S+"C09_parallelism", S+"C09_one_worker", S+"C09_threads", S+"C09_asyncio")
m("C10","partial","False of the code: the negation is proved for every accepted list; proved part: positive thread counts finish.", S+"C10_violated", S+"C10_partial")
m("C11","proved","Assumes that no simple dependency chain is longer than the interpreter's recursion limit (exact condition).", S+"C11_accepts")
m("C12","proved","Same recursion-limit assumption as C11.", S+"C12_right_exception")
m("C13","proved","", S+"C13_evidence")
m("C14","proved","", S+"C14_invert")
m("C15","proved","", S+"C15_assertions")
m("C16","partial","false for more workers than the thread pool has threads; proved up to this number, and without it for handing out targets", S+"C16_violated", S+"C16_partial", S+"C16_parallel", S+"C16_asyncio")
K="Licant.Core."
m("C17","proved","Termination is stated with the recursion limit: any limit above the number of distinct dependency names.", K+"C17_closure")
m("C18","proved","", K+"C18_not_stale")
m("C19","proved","", K+"C19_lookup")
m("C20","proved","Needs that canonical_path is idempotent (os.path.realpath).", K+"C20_has_pure")
m("C21","partial","False of the code: a stored alias survives; proved part is an exact characterisation.", K+"C21_violated", K+"C21_partial")
m("C22","proved","For evaluations on a core whose remembered dependency lists are those of the registry (true initially, preserved); otherwise see C72.", K+"C22_need_iff_stale")
m("C23","proved","", K+"C23_terminates", K+"C23_cycle")
m("C24","proved","", K+"C24_exactly_the_stale")
m("C25","proved","", K+"C25_accepted")
m("C26","proved","", K+"C26_cyclic_runs_nothing")
m("C27","proved","", K+"C27_do")
m("C28","partial","False of the code: negation proved for every registry where a non-stale updatable target reaches a plain one; proved part: otherwise the evaluation returns.", K+"C28_violated", K+"C28_violated_witness", K+"C28_partial")
m("C29","proved","", K+"C29_routine_args")
m("C30","partial","False of the code: negation proved for every registry; proved part: with a configured thread count the default action, after any session of registrations, lookups and evaluations, updates exactly the stale targets of the closure, and returns.", K+"C30_violated", K+"C30_violated_witness", K+"C30_partial")
m("C71","partial","False of the code (witness); proved part: the arguments are those of the most recent own invocation.", K+"C71_violated", K+"C71_partial")
m("C72","partial","False of the code (witness); proved part: every session of registrations of new names, lookups and evaluations in any order.", K+"C72_violated", K+"C72_partial")
m("C73","partial","False of the code (witness); proved part: histories without alias lookups.", K+"C73_violated", K+"C73_partial")
MK="Licant.Make."
m("C31","proved","", MK+"C31_file_cache")
m("C32","proved","Assumes the evaluation returns; C32_answers shows that it does for registered acyclic projects.", MK+"C32_staleness", MK+"C32_answers")
m("C33","proved","Assumes: project assumptions Sound (DESIGN.md), commands that report success write their target, sources exist, nothing forced, time stamps not in the future.", MK+"C33_up_to_date", MK+"C33_fresh")
m("C34","proved","", MK+"C34_second_build")
m("C35","proved","Time stamps grow strictly between steps of the history; commands write what they should (Faithful).", MK+"C35_incremental")
m("C36","proved","", MK+"C36_rebuild_exactly_dependents")
m("C37","proved","", MK+"C37_resume")
m("C38","partial","False of the code (two witnesses: the failing command wrote its target; it wrote nothing, but the only reason to run it was a missing directory); proved part: failing commands that did not write their target, directories present or target missing.", MK+"C38_violated", MK+"C38_violated_dir", MK+"C38_partial")
m("C44","proved","", MK+"C44_missing_source")
m("C74","partial","False of the code: negation proved for every project; proved part: new processes.", MK+"C74_violated", MK+"C74_violated_witness", MK+"C74_partial")
m("C76","partial","False of the code: negation proved for every registry with such a dependency; proved part: as long as the file does not exist.", MK+"C76_violated", MK+"C76_violated_witness", MK+"C76_partial")
m("C39","proved","Shell model: only the space is special. C39_returns: clean returns for registered closures.", MK+"C39_clean", MK+"C39_returns")
m("C41","proved","", MK+"C41_directories")
m("C70","partial","False of the code: uninstall_nothing for every registry, C70_violated is a witness; proved part: clean of the install target deletes the installed files.", MK+"uninstall_nothing", MK+"C70_violated", MK+"C70_partial")
m("C75","partial","False of the code (witness); proved part: paths without spaces.", MK+"C75_violated", MK+"C75_partial")
m("C40","proved","Under Env.Sane (no dangling links, working directory exists) and '*'-free paths that are not their own directory. C40_returns: the calls return.", MK+"C40_ftarget", MK+"C40_copy", MK+"C40_returns")
m("C42","partial","False of the code for paths with ~ (witness); proved part: paths without ~, and the global source().", MK+"C42_violated", MK+"C42_partial")
m("C43","partial","False of the code: negation proved for every non-default core; proved part: the default core.", MK+"C43_violated", MK+"C43_violated_witness", MK+"C43_partial")
m("C77","proved","Reasonable and Described in Wellformed.lean specify the calls; the conclusion is Sound, the assumption of the build theorems.", MK+"C77_wellformed")
MO = "Licant.Modules."
m("C45","proved","Declarations cannot fail (C45_returns).", MO+"C45_registry", MO+"C45_returns")
m("C46","proved","Declared: the library is the result of any script; the root is any module object.", MO+"C46_closed")
m("C47","proved","", MO+"C47_explicit")
m("C48","proved","", MO+"C48_reachable")
m("C49","partial","False of the code: endless recursion on two modules that explicitly request each other; proved part: the loop always ends, and the recursion is bounded when explicit requests are acyclic.", MO+"C49_violated", MO+"C49_partial", MO+"C49_loop")
m("C78","proved","", MO+"C78_order")
CX = "Licant.Cxx."
m("C53","proved","Every build directory, also one with '..'.", CX+"C53_inside")
m("C54","partial","False of the code: four kinds of collisions; proved part: sources with the same extension, normalized, without two dots in a row.", CX+"C54_partial", CX+"C54_violated")
m("C55","partial","Order, length and changeext are proved in full; the new extension is lost for relative names whose stem ends in a dot.", CX+"C55_changeext", CX+"C55_order", CX+"C55_name", CX+"C55_partial", CX+"C55_violated")
m("C50","proved","", CX+"C50_validation")
m("C51","proved","", CX+"C51_include", CX+"C51_returns")
m("C52","proved","", CX+"C52_module_paths")
m("C56","proved","The counterexamples for other characters are C56_other_names.", CX+"C56_headers", CX+"C56_other_names")
m("C79","proved","", CX+"C79_own")
m("C80","partial","False of the code; proved part: the result of every merge is validated.", CX+"C80_violated", CX+"C80_violated_witness", CX+"C80_partial")
m("C81","proved","", CX+"C81_final", CX+"C81_settings")
m("C82","partial","False of the code for included modules; proved part: the top level.", CX+"C82_violated", CX+"C82_partial")
m("C83","partial","False of the code; proved part: include graphs without cycles.", CX+"C83_violated", CX+"C83_partial")
m("C84","partial","False of the code; proved part: mdepends of the built module and of what is collected from it; C81_final says what enters the build.", CX+"C84_violated", CX+"C84_partial", CX+"C81_final")
m("C58","proved","Stated on the words of the command line; words are separated by spaces, names without spaces (see C87).", CX+"C58_compile", CX+"C58_link", CX+"C58_qt")
m("C59","proved","", CX+"C59_driver")
m("C87","partial","False of the code; proved part: names without spaces.", CX+"C87_violated", CX+"C87_partial", CX+"C58_compile")
m("C57","proved","Registration of the sources (link_objects) in the default core; C57_units gives the view of the build (OutOfDate, NeedsWork), which C32 and C33 connect to what is run.", CX+"C57_units")
m("C60","partial","False of the code; proved part: with default=True what is built is the implementation of the call.", CX+"C60_violated", CX+"C60_partial", CX+"C90_linked")
m("C89","partial","False of the code for every call with submodules; proved part: a call that returns had no submodules; C90_linked says what it registers.", CX+"C89_violated", CX+"C89_partial", CX+"C90_linked")
m("C90","proved","", CX+"C90_linked")
m("C88","proved","ReasonableD and DescribedD in Default.lean specify the calls; the conclusion is Sound, the assumption of the build theorems.", MK+"C88_wellformed")
MI = "Licant.Misc."
m("C61", "proved", "the two-list queue gives the same answers as a plain FIFO list for every sequence of operations", MI+"C61_fifo")
m("C62", "proved", "argparse is represented by the free arguments it leaves; keyboard interrupt not modelled", MI+"C62_dispatch")
m("C63", "partial", "false: one extra argument is passed as its characters, more than one raise TypeError; proved for no extra argument", MI+"C63_violated", MI+"C63_partial")
m("C64", "partial", "false: the verdict of the action is dropped; proved for failures that are raised", MI+"C64_violated", MI+"C64_partial")
m("C91", "partial", "false: later calls execute the arguments of the first call; proved for the first call", MI+"C91_violated", MI+"C91_partial")
m("C65", "proved", "scripts are interaction trees over execute, execute_recursive and include; scripts that catch SystemExit are not modelled; termination for finitely many library names and plain execute calls of bounded nesting", MI+"Scripts.C65_once", MI+"Scripts.C65_terminates")
m("C66", "proved", "a tunnel whose link is missing is C92", MI+"Scripts.C66_precedence", MI+"Libs.C66_files")
m("C67", "partial", "false for -r: nothing is ever removed; proved for adding a record or a directory", MI+"Libs.C67_violated", MI+"Libs.C67_partial", MI+"Libs.C67_quiet", MI+"Libs.C67_returns")
m("C68", "proved", "", MI+"Scripts.C68_context")
m("C69", "proved", "", MI+"Install.C69_prefix", MI+"Install.entries_spec")
m("C92", "partial", "false for a link name without directory and for scripts in other directories; proved: the link made and the script executed otherwise", MI+"Scripts.C92_violated", MI+"Scripts.C92_violated'", MI+"Scripts.C92_partial")
m("C93", "partial", "false: raises without a usable PATH entry; proved otherwise", MI+"Install.C93_violated", MI+"Install.C93_partial")
m("C94", "partial", "false: the error flag is raised whenever PATH has no entry equal to /usr/local/bin; proved part: the other cases", MI+"Install.C94_violated", MI+"Library.C94_library_violated", MI+"Install.C94_partial", MI+"Install.C69_prefix", MI+"Install.entries_spec")
m("C95", "partial", "false without tgt: the set depends on itself and evaluation never returns; proved with a name for the set", MI+"Install.C95_violated", MI+"Install.C95_partial")
m("C96", "proved", "the files of the module must not collide (Parts.Fit); the example shows an application that meets all hypotheses", CX+"C96_project")
m("C97", "proved", "for every project that C96 establishes; second half under SelfContained (nothing is made outside of the module)", CX+"C97_edit")
m("C98", "proved", "for every project that C96 establishes; commands that report success write their target; time stamps are not in the future", CX+"C98_fresh")
m("C99", "proved", "Listed in Twice.lean says what is assumed of the dependency files as written by the compiler; second process with an empty cache", CX+"C99_second_run")
m("C100","proved","StandsFor is the independent reading of a dependency text; glob is a parameter of the environment", MK+"C100_patterns")
m("C101","partial","False: C101_violated for every sane environment, pattern and core, with a witness. C101_partial: the dependencies resolve if all matches were declared before in the same core", MK+"C101_violated", MK+"C101_violated_witness", MK+"C101_partial")
PR=MK+"Proc."
m("C86","partial","False (C86_violated): the command and do_execute deadlock if one stream exceeds the capacity of a pipe. C86_partial: otherwise every execution ends after a bounded number of steps as expected, or raises if the output is not UTF-8", PR+"C86_violated", PR+"C86_partial")
m("C102","partial","False (C102_violated). C102_partial: if the output of every command fits into the pipes and is UTF-8 the build goes on until it returns, with the right verdict", PR+"C102_violated", PR+"C102_partial")
FS=MK+"Fs."
m("C103","proved","file trees with symbolic links (Tree), the kernel's walk and realpath as relations; without dangling links. Re-registration of a name is C21", FS+"C103_canonical", FS+"C103_same_file", FS+"Realises.sane")
m("C104","partial","False (C104_violated). C104_partial: the answer is always that of the first call for the path; C104_unchanged: right if the file system does not change", FS+"C104_violated", FS+"C104_partial", FS+"C104_unchanged")
GL=MI+"Glob."
HD=MI+"Headers."
SE=MI+"Search."
m("C105","proved","os.walk with its defaults on trees with links; patterns with *, ?, [..] and [!..]; C105_returns: it returns unless the tree is deeper than the recursion limit", GL+"C105_exact", GL+"C105_returns")
m("C106","partial","False (C106_violated). C106_partial: right if hide has no slash and does not occur in the path of root", GL+"C106_violated", SE+"C106_violated_witness", GL+"C106_partial")
m("C107","proved","provided no link is in the paths to which headers go, none of these contains a star, and no header is one of the files to be made; the example meets all hypotheses", HD+"C107_headers", HD+"C107_returns")
m("C108","proved","", MK+"C108_default", MK+"C108_core")
m("C109","proved","for hide texts that do not occur in the path of the root (C106)", SE+"C109_recursive")
m("C110","proved","for files that fit into the registry (as in C96) and texts without spaces; commands as words; C110_made: the copied headers, the headers of forms and the sources made by moc", CX+"C110_commands", CX+"C110_made")
m("C111","partial","false of the code: cliexecute looks at the options after the targets were described, so they have no effect; proved for command lines that the script looks at before", CX+"C111_violated", CX+"C111_partial")
m("C112","partial","false of the code for callable objects that are no plain functions and are given directly; proved for functions and for the decorator with arguments", K+"C112_violated", K+"C112_partial", K+"C112_decorator_again")
m("C113","partial","false of the code for source files (clr) and routines (a comma is missing in the list); proved for all other actions and targets", MI+"C113_violated", MI+"C113_partial", MI+"C113_source", MI+"C113_routine")
m("C114","proved","supposing that no links, stars or clashes of names are involved (stated as hypotheses); that uninstall nevertheless deletes nothing is C70", MI+"Library.C114_library", MI+"Library.C114_returns", MI+"Library.C114_empty_name")
m("C115","partial","false of the code: with the same build directory a source shared by two programs gives one object file, compiled with the options of the last call (witness); proved for calls of which no two make the same file", CX+"C115_violated", CX+"C115_partial")
m("C116","partial","false of the code for files called binutils, m, cxxm or l, in every project; proved for all other names, for the first call of a script (C116_partial) and for later calls (C116_later), where the name must not stand for a set of files or routine of the project either", MK+"C116_violated", MK+"C116_partial", MK+"C116_later")
m("C117","proved","prefixes without spaces; with C111_partial for programs without toolchain=", CX+"C117_given")
m("C118","partial","false of the code: with dependencies the file is written again when one is newer; proved for touch without dependencies", MK+"C118_violated", MK+"C118_partial")
m("C119","partial","false of the code if both libraries get the same path, as with the option target; proved for different paths that do not get in each other's way (BothFit), and for library() without such a condition", CX+"C119_violated", CX+"C119_partial", CX+"C119_library")
m("C120","proved","digits and spaces outside ASCII are not modelled", MI+"C120_jobs", MI+"C120_no_number")
m("C121","proved","for one build per process (the cached marks of a further one: C28); C121_program joins it with C96 and C98", MI+"C121_build", MI+"C121_starts", MI+"C121_again", CX+"C121_program")
m("C122","partial","false: the root is recorded in place of modules, and later includers are missing; the rest is proved", MO+"C122_violated", MO+"C122_partial")
m("C123","partial","false on the command line (one extra argument is passed as its characters); proved for calls with a list of arguments", MI+"C123_violated", MI+"C123_command", MI+"C123_modules_partial", MI+"C123_collected_partial", MI+"C123_libs_partial")
m("C124","partial","false for javac and dex; proved for objcopy, and for javac that it depends on its sources", CX+"C124_violated", CX+"C124_objcopy", CX+"C124_build", CX+"C124_javac_partial")
m("C125","partial","false for make_gcc_binutils; proved for gcc_toolchain and for the other tools", CX+"C125_violated", CX+"C125_partial")
m("C126","partial","false: the action raises for all arguments; proved for direct calls with a core and a target that has opts.binutils", CX+"C126_violated", CX+"C126_partial")
m("C127","partial","false; proved for scripts that do not assign the seven names", MI+"Names.C127_violated", MI+"Names.C127_partial")
m("C128","partial","false for messages with unknown fields; proved for all others, and that all of licant's own messages are among these", CX+"C128_violated", CX+"C128_partial", CX+"C128_own", CX+"C128_flags")
m("C129","partial","false if options stand between free arguments; proved for all other places, and down to the call of the target", MI+"Args.C129_violated", MI+"Args.C129_partial", MI+"Args.C129_dashes", MI+"Args.C129_help", MI+"Args.C129_unknown", MI+"Args.C129_line", MI+"Args.C129_ends")
m("C130","partial","false if the interrupt arrives while a worker takes a target; proved if it arrives while the event loop waits", S+"C130_violated", S+"C130_violation_reachable", S+"C130_partial")
m("C131","partial","false if an existing directory is named as a dependency; proved if no file target or source is a directory", MK+"C131_violated", MK+"C131_partial")
m("C132","partial","false if a source is edited after a running command has read it; proved for edits while no command that reads the source runs", MK+"C132_violated", MK+"C132_partial")
m("C133","partial","false: an unfinished output counts as up to date; proved if the unfinished outputs are removed first", MK+"C133_violated", MK+"C133_partial")
m("C134","partial","false: exponentially many calls if targets are registered before their dependencies; proved for dependencies first", K+"C134_violated", K+"C134_partial", K+"updateNeedsA_forget")
m("C135","partial","false: a replaced source that is not newer than the built files is not noticed, in every project; proved for replacements newer than the built files that read them, with any time stamps otherwise", MK+"C135_violated", MK+"C135_violated_witness", MK+"C135_partial", MK+"History.stamped")
m("C136","partial","false twice: two processes that begin when a directory is missing never both succeed, in every project; a half-written file is taken for a finished one. Proved: with commands that write in one piece, the files of a process that has returned True are right from then on, under every interleaving, also if a process sees different files at different moments; a process that has seen its directories and whose commands succeed is not stopped by the others", MK+"C136_violated", MK+"C136_violated_witness", MK+"C136_violated_contents", MK+"C136_partial", MK+"C136_succeeds")
m("C137","partial","false: for every recursion limit, chains that are longer cannot be updated, in every core. Proved: chains within the limit are accepted, however many targets there are", K+"C137_violated", K+"C137_violated_witness", K+"C137_partial")
m("C138","partial","false: with two workers a work function that begins while a nested core.do recomputes the needs raises and the update hangs, in every core; with one worker a dependent of an updated target is left out. Proved: with one worker, or if the callers are in line with all other targets, no work function finds its answer missing, nothing raises and the update returns", K+"C138_violated", K+"C138_violated_witness", K+"C138_violated_skipped", K+"C138_partial")
m("C139","partial","false: if a condition asks has() for another spelling of a registered path, no evaluation of the core succeeds (every core; witness with RuntimeError). Proved: with registered names or unknown paths the evaluation is the one of a has() that changes nothing", K+"C139_violated", K+"C139_violated_witness", K+"C139_partial")
m("C140","partial","false: killed after the file is opened and before the text is complete, the old registry is lost (every call that changes the registry). Proved: at every moment the file is the old one, reads as the new registry, or is unreadable; rests on a model of json.dump / json.load with a round trip theorem and with the theorem that no proper prefix can be read", MI+"Libs.C140_violated", MI+"Libs.C140_partial", MI+"Json.loads_dumps", MI+"Json.loads_cut")
m("C141","partial","false in two ways: a record of one of two overlapping calls is lost; two overlapping writes leave a file that cannot be read. Proved: calls that do not overlap give the file of the same calls one after the other, and such executions exist for any calls", MI+"Libs.C141_violated", MI+"Libs.C141_violated_unreadable", MI+"Libs.C141_partial", MI+"Libs.C141_all_calls")
m("C142","proved","FitsDir (Default.lean) says which directories can be described; the build is that of C31-C38.", MK+"C142_makedir", MK+"C142_build")
m("C143","partial","False of the code (C143_violated, with a concrete case): has() remembers another spelling of an existing file as the source that it was when a dependent was described, so a later makefile() of that file is not seen under that spelling. Proved for descriptions that are Orderly: declared once, dependencies that another call makes are spelled by their canonical path, no name is also a missing directory. C143_sound_partial: what can be built when described in one order can be built when described in any other.", MK+"C143_violated", MK+"C143_violated_witness", MK+"C143_partial", MK+"C143_builds_partial", MK+"C143_sound_partial")
m("C144","proved","Paths of built files have no spaces (C75), nobody else changes files (C74).", MK+"C144_makefile", MK+"C144_rebuild")
m("C145","partial","false: exponentially many visits if modules are explicitly requested in several places; proved if in at most one", MO+"C145_violated", MO+"C145_partial", MO+"collectW_eq")
m("C146","proved","", MO+"C146_order", CX+"C146_targets")
m("C147","partial","false if a module is requested both by name and explicitly; proved otherwise", MO+"C147_violated", MO+"C147_partial")
m("C148","partial","false: a changed command is not noticed; proved if the products of new and changed commands are removed", MK+"C148_violated", MK+"C148_unnoticed", MK+"C148_partial")
m("C149","proved","", MK+"C149_one_by_one", MK+"C149_any_order")
m("C150","proved","", S+"C150_named", MK+"C150_build")
m("C151","partial","false: an unrelated target can keep all builds from beginning (C151_blocked says when, C151_violated is a concrete case); proved for builds that end successfully", MK+"C151_partial", MK+"C151_blocked", MK+"C151_violated")
m("C152","partial","false for C++ modules: dependency files carry paths of the old place over (C152_violated); proved for targets that are described in the new place as in the old one, up to the replacement of paths", MK+"C152_partial", CX+"C152_violated", MK+"C152_described", CX+"C152_task", MK+"C152_project", MK+"Fs.C152_directory", CX+"C152_program")
m("C153","partial","false: the directory of a deleted header is made again (C153_violated); the rest is proved, C153_dependents for all projects", CX+"C153_partial", MK+"C153_dependents", CX+"C153_violated")
m("C154","partial","false: message, standard output and standard error are separate prints, and some prints do not take the lock (C154_violated); proved for single prints; C154_shows: each thread writes all that its commands have to show", MK+"Output.C154_partial", MK+"Output.C154_shows", MK+"Output.C154_goes_on", MK+"Output.C154_violated")
m("C155","partial","false for forms in a directory (C155_violated); proved for forms in the working directory, for files that fit into the registry (as in C96)", CX+"C155_partial", CX+"C155_violated")
m("C156","partial","false if a file is removed during the call (C156_violated) and if refreshes of the same file overlap (C156_violated_overlap); proved: freshness after a refresh that began while no other was under way, C156_true, C156_raises, C156_returns, C156_answers in general", MK+"Racing.C156_partial", MK+"Racing.C156_true", MK+"Racing.C156_raises", MK+"Racing.C156_returns", MK+"Racing.C156_answers", MK+"Racing.C156_violated", MK+"Racing.C156_violated_overlap")
m("C157","proved","for reasonable calls (C88)", MK+"Scripted.C157_sources", MK+"Scripted.C157_calls", MK+"Scripted.C157_builds")
#INSERT

src = ""
names = set()
for f in glob.glob(root + "/lean/Verif/**/*.lean", recursive=True):
    ns = []
    for line in open(f):
        a = re.match(r"namespace (\S+)", line)
        if a: ns.append(a.group(1))
        a = re.match(r"end (\S+)", line)
        if a and ns and ns[-1] == a.group(1): ns.pop()
        a = re.match(r"(?:@\[.*?\] )?(?:private |protected )?theorem (\S+)", line)
        if a: names.add(".".join(ns + [a.group(1)]))
for c in M:
    for t in c["theorems"]:
        if t not in names: print("MISSING THEOREM", c["property"], t)
props = [json.loads(l)["id"] for l in open(root + "/properties.jsonl")]
have = [c["property"] for c in M]
if len(set(have)) != len(have): print("DUPLICATE ids")
print("unlisted:", [p for p in props if p not in have])
json.dump({"claims": M}, open(root + "/MANIFEST.json", "w"), indent=1)
