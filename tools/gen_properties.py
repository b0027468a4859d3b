#!/usr/bin/env python3
"""Regenerates ../properties.jsonl.  P(id, title, statement, quantifier, why_tests_cant, anchors)."""
import json, os
L = []
def P(i, title, statement, quantifier, why, *anchors):
    L.append(dict(id=i, title=title, statement=statement, quantifier=quantifier,
                  why_tests_cant=why, anchors=list(anchors)))

SCHED = "Thread and event-loop interleavings are chosen by the runtime; a test observes a handful of them."
GRAPH = "The claim ranges over all finite graphs; tests fix a few small ones."

# ---- parallel solver -------------------------------------------------------
P("C01", "Dependencies complete before dependents start",
  "In every execution of InverseRecursiveSolver(targets, n).exec(), when the work function of a target starts, the work function of each of its dependencies has already returned, and returned something other than False.",
  "every accepted target list, every thread count, every schedule of the workers, every set-iteration order, every result of the work functions",
  SCHED, "licant/solver.py:DependableTargetRuntime.doit", "licant/solver.py:TaskInvoker.worker", "licant/solver.py:InverseRecursiveSolver")
P("C02", "Each target's work runs at most once",
  "During one exec() the work function of each target is started at most once (and returns at most once).",
  "every accepted target list, thread count, schedule and result assignment", SCHED,
  "licant/solver.py:TaskInvoker.worker", "licant/solver.py:DependableTargetRuntime.decrease_inverse_deps_count")
P("C03", "exec() == True means everything was done",
  "If exec() returns True then the work function of every target in the list was run exactly once and returned, none of them returned False, the queue is empty and no internal assertion can have fired.",
  "every accepted target list, thread count, schedule and result assignment", SCHED,
  "licant/solver.py:InverseRecursiveSolver.exec")
P("C04", "A failed target stops the build",
  "After some work function has returned False each other worker begins at most one more work function, with one worker none; once the event loop has continued with this result no target is handed out; and if exec() returns it returns False.",
  "every accepted target list, thread count, schedule, result assignment, and point of the failure", SCHED,
  "licant/solver.py:TaskInvoker.worker", "licant/solver.py:TaskInvoker.release_queue")
P("C05", "Transitive dependents of a failed target never run",
  "If the work function of a target returns False, no target that depends on it, directly or through other targets, is ever started in that exec().",
  "every accepted target list, thread count, schedule and result assignment", SCHED,
  "licant/solver.py:DependableTargetRuntime.doit", "licant/solver.py:TaskInvoker.worker")
P("C06", "The verdict does not depend on the schedule or the thread count",
  "If each work function's result is determined by the target (and none raises), all executions of exec() that return, with any positive thread count, return the same value: True exactly when no target's work returns False.",
  "every accepted target list, every pair of schedules, every pair of positive thread counts", SCHED,
  "licant/solver.py:InverseRecursiveSolver.exec")
P("C07", "exec() always finishes (no deadlock, no livelock)",
  "With at least one thread and work functions that return (no exception), every execution reaches the return of exec(): as long as exec() has not returned some worker can make progress, and the number of scheduler steps is bounded by a function of the target list.",
  "every accepted target list, positive thread count and schedule", "A deadlock on one schedule out of exponentially many is not found by sampling; liveness is never refuted by a finished test.",
  "licant/solver.py:TaskInvoker.start", "licant/solver.py:TaskInvoker.worker", "licant/solver.py:TaskInvoker.release_queue")
P("C08", "An exception in a work function does not hang the build",
  "If a work function raises an exception, exec() still terminates (by returning False or by raising). [The code violates this: the worker dies without task_done and queue.join() waits forever.]",
  "every accepted target list, thread count and schedule in which some work function raises", "A hang is a liveness failure; a test can only time out.",
  "licant/solver.py:TaskInvoker.worker", "licant/solver.py:TaskInvoker.start")
P("C09", "Parallelism is bounded by the requested thread count",
  "At every moment at most count_of_threads work functions are running; with one thread work functions never overlap.",
  "every accepted target list, thread count, schedule, and moment of the execution", SCHED,
  "licant/solver.py:TaskInvoker.start", "licant/cli.py:cliexecute")
P("C10", "A non-positive thread count does not hang",
  "exec() with count_of_threads <= 0 terminates or is rejected. [Violated: no worker is created and queue.join() never returns, nothing is ever run.]",
  "every accepted target list", "A hang is a liveness failure; a test can only time out.",
  "licant/solver.py:TaskInvoker.start")
P("C11", "The solver accepts exactly the well-formed dependency graphs",
  "InverseRecursiveSolver(targets) is constructed without an exception if and only if the list is non-empty, every dependency names a target of the list, and there is no dependency cycle (for lists with distinct names).",
  "every finite list of targets with distinct names, every set-iteration order", GRAPH,
  "licant/solver.py:InverseRecursiveSolver.__init__", "licant/solver.py:InverseRecursiveSolver.dfs", "licant/solver.py:InverseRecursiveSolver.connectivity_check")
P("C12", "Malformed graphs get the right exception",
  "UnknowTargetError is raised iff some dependency is not a target name; otherwise NoOneNonDependableTarget iff every target has a dependency; otherwise CircularDependencyError or ConnectivityError iff there is a cycle. No other outcome exists.",
  "every finite list of targets, every set-iteration order", GRAPH,
  "licant/solver.py:InverseRecursiveSolver.__init__", "licant/solver.py:InverseRecursiveSolver.collect_depends_of_targets")
P("C13", "CircularDependencyError carries a real cycle",
  "The list carried by CircularDependencyError is a path in the inverse dependency graph whose last element occurs earlier in it, so it exhibits an actual dependency cycle; ConnectivityError lists exactly the targets not reachable from a dependency-free target.",
  "every finite list of targets, every set-iteration order", GRAPH,
  "licant/solver.py:InverseRecursiveSolver.dfs", "licant/solver.py:CircularDependencyError", "licant/solver.py:ConnectivityError")
P("C14", "invert_depends_dictionary transposes the relation",
  "For a dictionary whose dependency sets only mention keys, the result has the same keys and x is in result[d] iff d is in input[x]; inverting twice gives back the input. If a dependency is not a key, KeyError is raised.",
  "every finite dictionary of finite sets", GRAPH, "licant/util.py:invert_depends_dictionary")
P("C15", "The scheduler's internal assertions never fire",
  "No execution violates an assertion of the solver: dependency counters never go negative, task_done is never called too often, and when exec() returns without error the queue is empty, all counters are 0 and all targets are done.",
  "every accepted target list, thread count, schedule and result assignment", SCHED,
  "licant/solver.py:DependableTargetRuntime.decrease_inverse_deps_count", "licant/solver.py:InverseRecursiveSolver.exec")
P("C16", "Independent work can run in parallel",
  "As long as no failure happened, an idle worker is never blocked while a target whose dependencies are all finished is waiting: with k ready targets and k idle workers there is a schedule in which all k run simultaneously. [Violated if there are more workers than min(32, processors + 4): work functions run in the default thread pool of asyncio.]",
  "every accepted target list, thread count and reachable state", SCHED, "licant/solver.py:TaskInvoker.worker")

# ---- core ------------------------------------------------------------------
P("C17", "depends_as_set is the transitive dependency closure",
  "core.depends_as_set(t, incroot) returns a strictly sorted, duplicate-free list containing exactly the dependency names reachable from t through one or more dependency edges, plus t itself iff incroot; it terminates also on cyclic graphs.",
  "every registry, every dependency graph (cyclic or not), every root", GRAPH,
  "licant/core.py:Core.depends_as_set", "licant/core.py:Core.depends_as_set_impl")
P("C18", "depends_as_set is never stale",
  "The value returned by depends_as_set depends only on the current registry, never on earlier calls, although the method keeps a cache.",
  "every history of registrations and queries", "Cache bugs depend on histories; tests try few.",
  "licant/core.py:Core.depends_as_set")
P("C19", "Target lookup: exact name first, canonical path second",
  "core.get(n) returns the target registered under n if there is one, otherwise the one registered under the canonical path of n, otherwise terminates the program; core.has(n) is True exactly when core.get(n) succeeds.",
  "every registry and name", "Ranges over all names and registries.", "licant/core.py:Core.get", "licant/core.py:Core.has")
P("C20", "Asking has() changes nothing",
  "Calling core.has(n) any number of times with any names does not change the result of any later get() or has() call.",
  "every registry, every sequence of has() calls, every later lookup", "has() mutates the registry; interference depends on the history of calls.",
  "licant/core.py:Core.has")
P("C21", "The last registration wins, whatever spelling is used",
  "After core.add(target), every spelling of the target's name (every n whose canonical path is the target's name) resolves to that target. [Violated: an alias stored by an earlier has(n) keeps resolving to the replaced target.]",
  "every history of add and has calls", "Depends on histories of registrations and queries.",
  "licant/core.py:Core.has", "licant/core.py:Core.add")
P("C22", "A target needs an update iff something in its closure is stale",
  "After the evaluation that precedes every action, an updatable target is marked for update iff its own update_if, or that of a target reachable from it through dependencies, is true.",
  "every registry, every update_if assignment, every registration order", GRAPH,
  "licant/core.py:UpdatableTarget.recursive_update_needed_request", "licant/core.py:Core.update_update_needity")
P("C23", "Need evaluation terminates on every acyclic registry and fails on stale-free cycles",
  "For an acyclic, fully registered, updatable dependency graph whose depth is below the recursion limit the evaluation returns; if a cycle has no true update_if in its closure the evaluation ends in RecursionError before any update runs.",
  "every registry and recursion limit", GRAPH,
  "licant/core.py:UpdatableTarget.recursive_update_needed_request")
P("C24", "recurse_update runs exactly the stale part of the closure",
  "A successful recurse_update on t invokes update exactly once for each target of t's closure (t included) that was marked for update, and for no other registered target; each is invoked after the updates of its own dependencies. (Cores in which no name was registered twice; see C72, C73.)",
  "every acyclic registry, every update_if assignment, thread count and schedule", SCHED,
  "licant/core.py:UpdatableTarget.recurse_update", "licant/core.py:UpdatableTarget.update_if_need")
P("C25", "recurse_update never trips over its own graph",
  "If every target of t's closure is registered and the dependency graph of the closure is acyclic (dependencies may be spelled in any way that resolves), the graph handed to the solver is always accepted: no UnknowTargetError, no missing root, no Circular/Connectivity error. (Cores in which no name was registered twice; see C72, C73.)",
  "every acyclic registered closure, every spelling of dependencies", GRAPH,
  "licant/core.py:UpdatableTarget.recurse_update")
P("C26", "A cyclic closure never runs anything",
  "If the dependency closure of t contains a cycle, recurse_update on t raises before any update is invoked. (Cores in which no name was registered twice; see C72, C73.)",
  "every registry with a cycle below t", GRAPH, "licant/core.py:UpdatableTarget.recurse_update", "licant/solver.py:InverseRecursiveSolver.__init__")
P("C27", "do() dispatches the action",
  "core.do(name, action) resolves the name, evaluates needs for the whole registry and then calls exactly the named action (default_action when None); an attribute that does not exist is silently ignored and changes nothing but the need marks; do(list) performs the elements in order.",
  "every registry, target reference and action name", "Ranges over all references and action names.",
  "licant/core.py:Core.do", "licant/core.py:Target.invoke")
P("C28", "An updatable target may depend on any registered target",
  "Registering dependencies on plain (non-updatable) targets is safe. [Violated: need evaluation of a not-yet-stale dependent raises AttributeError, for every action on every target of that core.]",
  "every registry containing an updatable target with a plain dependency reached by the evaluation", GRAPH,
  "licant/core.py:UpdatableTarget.recursive_update_needed_request", "licant/core.py:Target")
P("C29", "Routine arguments reach the function unchanged",
  "core.do(routine, args=a) calls the decorated function exactly once (if its updates succeed), with exactly the arguments a, after all its dependencies were updated. (Cores in which no name was registered twice; see C72, C73.)",
  "every argument list, every acyclic registry, every schedule", SCHED, "licant/core.py:Routine.invoke_routine", "licant/core.py:Routine.update")
P("C30", "The default action of an updatable target works without a command line",
  "core.do(name) on a target created by core.updtarget updates it. [Violated: with no thread count configured the default action passes None as thread count and TypeError is raised before anything runs.]",
  "every registry and updtarget", "Configuration state ranges over histories.",
  "licant/core.py:UpdatableTarget.recurse_update_get_args", "licant/solver.py:TaskInvoker.__init__")

# ---- files -----------------------------------------------------------------
P("C31", "File cache: snapshot until refreshed",
  "get_info(p) returns the file status at the latest update_info(p) (or at the first get_info(p) if there was none), regardless of what other paths are queried or refreshed and of how the file system changed since.",
  "every interleaving of queries, refreshes and file-system changes", "Ranges over histories.", "licant/cache.py:FileCache")
P("C32", "A file target is stale iff forced, missing, or older than a file dependency",
  "update_if of a FileTarget is true iff force is set, or the file does not exist, or some file dependency (filesets count with the newest of their members) has a strictly larger modification time.",
  "every dependency list and time-stamp assignment", "Ranges over all time-stamp assignments.", "licant/make.py:FileTarget.internal_update_if", "licant/make.py:MakeFileTarget.mtime")
P("C33", "After a successful build nothing is out of date",
  "When makefile on t succeeds, every file target of the closure exists and its time stamp is not older than that of any of its file dependencies, and a new process that evaluates needs finds nothing to do in the closure (assuming commands create their target, sources exist, nothing is forced and time stamps do not lie in the future).",
  "every acyclic project, every initial file-system state, thread count and schedule", SCHED, "licant/make.py:FileTarget", "licant/core.py:UpdatableTarget.recurse_update")
P("C34", "The second build is a no-op",
  "Running the same build again after a successful one, with no file changed in between, invokes no build command.",
  "every acyclic project, initial state, thread count and schedule", SCHED, "licant/make.py:FileTarget.internal_update_if", "licant/core.py:UpdatableTarget.update_if_need")
P("C35", "Incremental build equals clean build",
  "After any sequence of source edits, deletions and builds, a successful build leaves every file target of the closure with the content a build from scratch of the current sources would give (commands being functions of their dependencies' contents).",
  "every acyclic project, every history of edits and (possibly partial) builds, every schedule", "Ranges over histories and schedules.",
  "licant/make.py:FileTarget", "licant/core.py:UpdatableTarget.recurse_update", "licant/solver.py:InverseRecursiveSolver.exec")
P("C36", "Editing a source rebuilds exactly its transitive dependents",
  "If a project is up to date and one source file is given a newer time stamp, the next build (in a new process) invokes the command of a file target of the closure iff the target depends on that source directly or through other targets.",
  "every acyclic up-to-date project and edited source", GRAPH, "licant/make.py:FileTarget.internal_update_if", "licant/core.py:UpdatableTarget.recursive_update_needed_request")
P("C37", "A build can be interrupted at any point and resumed",
  "If a build stops at an arbitrary point between commands (crash, failure of another target), a later successful build still leaves the same contents as a clean build.",
  "every acyclic project, every prefix of every execution", "Ranges over crash points.", "licant/make.py:FileTarget.update", "licant/core.py:UpdatableTarget.recurse_update")
P("C38", "A failed target is built again next time",
  "If the build command of a target fails, the target is considered out of date by the next build. [Violated when the failing command leaves a new output file behind: nothing deletes it and its time stamp is fresh. Also when the target existed and was out of date only because a directory it depends on was missing: the directory has been made.]",
  "every project, every failing command behaviour", "Ranges over command behaviours and time stamps.", "licant/make.py:do_execute", "licant/make.py:FileTarget.update")
P("C39", "clean deletes exactly the built files of the closure",
  "clean on t deletes exactly those files that are file targets of t's closure known to exist, except sources and directories, provided their paths are single words to the shell (C75 is about the others); no other path is deleted; afterwards the cache reports those files as missing.",
  "every registry, closure and file-system state", "Data-loss property over all graphs.", "licant/make.py:MakeFileTarget.clean", "licant/make.py:FileTarget.clr", "licant/make.py:DirectoryTarget.clr")
P("C40", "Missing parent directories are made before files in them",
  "After MakeCore.copy/touch/ftarget(dst) every missing ancestor directory of dst is a registered directory target, dst depends on its parent directory, and each missing directory depends on its own missing parent; existing directories add no dependency.",
  "every path and file-system state", "Ranges over all paths and directory states.", "licant/make.py:MakeCore.dirkeep", "licant/make.py:MakeCore.makedir")
P("C41", "Directories never trigger rebuilds and are never deleted",
  "A directory target contributes time stamp 0, so it never makes a dependent file stale once it exists; it is created only if absent, and clean never removes it.",
  "every registry and state", GRAPH, "licant/make.py:DirectoryTarget")
P("C42", "source() never replaces an existing target",
  "source(p) leaves an already registered target for p (any spelling) in place, is idempotent, and registers a target that clean never deletes. [Violated for MakeCore.source of paths with ~: the registry is asked before the tilde is expanded, so source('~/x') replaces the target of that file.]",
  "every registry history", "Ranges over histories.", "licant/make.py:source", "licant/make.py:MakeCore.source")
P("C43", "Targets registered in a non-default core are self-contained",
  "licant.make.copy(tgt, src, core=c) leaves c able to build tgt. [Violated: the source is registered in the default core, so c cannot resolve the dependency.]",
  "every non-default core and fresh paths", "Ranges over registry states.", "licant/make.py:copy", "licant/make.py:source")
P("C44", "Missing sources are reported but do not fail the build",
  "A source that does not exist makes all its dependents be rebuilt on every build, while its own work function succeeds.",
  "every registry and state", GRAPH, "licant/make.py:source", "licant/make.py:FileTarget.warn_if_not_exist")

# ---- modules ---------------------------------------------------------------
P("C45", "Module registry: latest registration, explicit implementation or default",
  "mlibrary.get(n, i) returns the module most recently registered for (n, i); get(n) the one of the most recently chosen default implementation; unknown names, unknown implementations and missing defaults terminate the program; '__none__' yields an empty module for every registered name (unless an implementation was registered under that name).",
  "every history of registrations and default choices", "Ranges over histories.", "licant/modules.py:ModuleLibrary")
P("C46", "collect_modules is closed and duplicate-free",
  "The list returned by collect_modules(m) contains each module name at most once and contains, for m and for every listed module, every name in its mdepends.",
  "every module library and root", GRAPH, "licant/cxx_modules.py:collect_modules")
P("C47", "Explicitly requested implementations are honoured",
  "If m or any collected module lists ('name', 'impl') in mdepends, the collected module of that name is exactly that implementation; conflicting explicit requests terminate the program instead of being resolved silently; a name only requested without implementation gets the default one.",
  "every module library and root", GRAPH, "licant/cxx_modules.py:collect_modules")
P("C48", "collect_modules drags in nothing else",
  "Every collected module is reachable from m through mdepends of collected modules.",
  "every module library and root", GRAPH, "licant/cxx_modules.py:collect_modules")
P("C49", "collect_modules terminates",
  "collect_modules terminates for every library. [Violated for cycles through explicit (name, impl) requests: unbounded recursion. Holds when those requests are acyclic, in particular for cycles through plain names.]",
  "every module library and root", GRAPH, "licant/cxx_modules.py:collect_modules")

# ---- C++ options and paths -------------------------------------------------
P("C50", "Option validation is exact",
  "CXXModuleOptions(**opts) is accepted iff every option is a known field with a value of exactly the declared class (or the special __script__/__dir__); otherwise the program terminates.",
  "every option dictionary", "Ranges over all dictionaries.", "licant/cxx_modules.py:CXXModuleOptions.check")
P("C51", "Included modules accumulate, they never override project settings",
  "Merging a list of included modules leaves target, builddir, type, toolchain, optimize, debug, srcdir, depends and mdepends of the base unchanged, appends libs/libdirs/defines/sources/include paths in inclusion order, joins flags with a space, and lets the last module that sets cxxstd/ccstd win.",
  "every base option set and every sequence of included modules", "Ranges over all sequences of modules.", "licant/cxx_modules.py:CXXModuleOptions.merge", "licant/cxx_modules.py:cxx_module_field_list")
P("C52", "Module sources are resolved against the module's own directory",
  "Every relative source/include path contributed by a module ends up as dir/srcdir/path (dir/path for include paths) with dir the directory of the script that declared the module; absolute paths are kept.",
  "every module, directory and path", "Ranges over all strings.", "licant/cxx_modules.py:concat_add_srcdir", "licant/cxx_modules.py:local_add_srcdir", "licant/cxx_modules.py:concat_add_locdir")
P("C53", "Object files of relative sources stay inside the build directory",
  "For every relative source path (with any number of '..') build_paths yields a normalized path inside builddir.",
  "every builddir and every relative path", "Ranges over all strings.", "licant/cxx_modules.py:build_paths")
P("C54", "Different sources get different object files",
  "build_paths maps different sources to different outputs. [Violated: a.c/a.cpp, ../x.c and __/x.c, a..b.c and a__b.c, /x/a.c and x/a.c collide. Holds for sources with one common extension that are normalized and contain no '..'.]",
  "every list of sources", "Ranges over all pairs of strings.", "licant/cxx_modules.py:build_paths", "licant/util.py:changeext")
P("C55", "Output names keep order and get the new extension",
  "build_paths returns one output per source in order, each ending in '.'+ext; changeext replaces only the last extension and never touches the directory part. [Violated for relative names whose stem ends in a dot: foo..c becomes build/foo__o.]",
  "every list of sources and extension", "Ranges over all strings.", "licant/cxx_modules.py:build_paths", "licant/util.py:changeext")
P("C56", "Dependency files are parsed into exactly the header list",
  "cxx_read_depends of a rule 'obj: src h1 ... hn' (any whitespace and backslash-newline separation) is [h1..hn] when the names only use word characters, '.', '/', '-'; None for a missing or empty file. [Other characters such as '+' split names.]",
  "every list of names and separators", "Ranges over all strings.", "licant/util.py:cxx_read_depends")
P("C57", "Editing a header recompiles",
  "For every source of a linked module, the object target depends on the source, its dependency file and every header listed there, so any newer header makes the object stale; without a dependency file the object is rebuilt.",
  "every source list, dependency-file contents and time stamps", "Ranges over contents and time stamps.", "licant/cxx_modules.py:link_objects")
P("C58", "Compile and link commands carry exactly the requested flags",
  "The command run for an object/executable/library is the toolchain driver followed by the inputs, output, -I/-D/-L/-l/-T flags in the given order and the flag strings, for every option set.",
  "every option set and path", "Ranges over all option sets.", "licant/cxx_make.py:options", "licant/cxx_modules.py:cxx_options_from_modopts", "licant/util.py:flag_prefix")
P("C59", "Compiler choice follows the extension",
  "object()/depend() choose the C++ rule for cpp/cxx/cc, the C rule for c and asm/s/S, an explicit type overrides the extension and anything else terminates the program.",
  "every source name and type", "Ranges over all strings.", "licant/cxx_make.py:object", "licant/cxx_make.py:depend")
P("C60", "The impl argument of application()/library() works",
  "application(name, impl=i, ...) builds that implementation. [Violated: the lookup that follows asks for the default implementation, which was not set, and terminates the program.]",
  "every module library without a default for that name", "Ranges over library states.", "licant/cxx_modules.py:task", "licant/cxx_modules.py:prepare_targets")

# ---- remaining utilities -----------------------------------------------------
P("C61", "util.queue is a FIFO queue",
  "Any sequence of put/get/empty on util.queue behaves like a FIFO queue; get on an empty queue raises.",
  "every operation sequence", "Ranges over histories.", "licant/util.py:queue")
P("C62", "Command-line dispatch",
  "With no free argument the default target's default action runs; a first argument naming a target runs that target (its default action or the named action, which must be declared); otherwise it must be a declared action of the default target; everything else terminates with an error and runs nothing.",
  "every registry, default and argument list", "Ranges over argument lists.", "licant/cli.py:__cliexecute")
P("C63", "Extra command-line arguments reach the action",
  "licant TARGET ACTION a1..an calls the action with (a1,..,an). [Violated: one extra argument is passed character by character, two or more raise TypeError.]",
  "every argument list", "Ranges over argument lists.", "licant/cli.py:__cliexecute", "licant/core.py:Target.invoke")
P("C64", "A failed build is visible in the exit status",
  "If the build started from the command line fails, the process terminates with a non-zero status. [Violated: the result of the action is discarded.]",
  "every registry, schedule and failing target", SCHED, "licant/cli.py:cliexecute")
P("C65", "A library is included at most once",
  "Over any sequence of include() calls, including those made by the included scripts themselves (also cyclically), the script of each library is executed at most once, and every include() call terminates if the scripts do.",
  "every library registry, every include graph", GRAPH, "licant/libs.py:include")
P("C66", "Library lookup precedence",
  "include(lib) uses the explicit path, else the local tunnel, else the user registry, else the system registry; an unknown library terminates the program; the first include decides.",
  "every registry pair and call history", "Ranges over histories.", "licant/libs.py:include", "licant/libs.py:merge_two_dicts")
P("C67", "licant-libs edits its registry as told",
  "Adding a record makes exactly that name map to the absolute path and keeps the rest; -r removes exactly the named record. [Removal is violated: the name is never read and nothing is removed.]",
  "every registry content and argument list", "Ranges over registry contents.", "licant/licant_libs.py:licant_libs_utility")
P("C68", "Script execution restores the script context",
  "Whatever nested scripts execute, when execute(path) returns the current script and current directory are those before the call, and nested relative paths are resolved against the directory of the script that mentions them.",
  "every finite tree of nested scripts", "Ranges over all trees.", "licant/scripter.py:ScriptQueue")
P("C69", "Install prefix selection",
  "PREFIX wins over PATH for the install directories; otherwise /usr/local/bin if it is on PATH; otherwise the last applicable PATH entry rule.",
  "every environment", "Ranges over all environments.", "licant/install.py:find_application_path")
P("C70", "uninstall removes what install_library installed",
  "The uninstall target of install_library deletes the installed headers and libraries. [Violated: the files are weak dependencies, which clean does not follow, so nothing is deleted.]",
  "every install and file-system state", "Ranges over states.", "licant/install.py:install_library", "licant/make.py:MakeFileTarget.clean")
P("C71", "Arguments belong to one invocation of a routine",
  "A routine that is brought up to date as a dependency of another target is called without arguments, whatever was invoked before. [Violated: the arguments of an earlier direct invocation stay in the routine object and are passed again.]",
  "every history of invocations", "Ranges over histories.", "licant/core.py:Routine.invoke_routine", "licant/core.py:Routine.update")
P("C72", "Need evaluation sees the current registry",
  "After registering a target again under the same name, the next evaluation judges its dependents by the new target. [Violated: dependency lists are looked up once per target object and kept.]",
  "every history of registrations and evaluations", "Ranges over histories.", "licant/core.py:Target.get_deplist")
P("C73", "Registering a name again keeps builds working",
  "Any history of registrations and lookups that leaves a fully registered acyclic closure can be built. [Violated: an alias stored by has() keeps the replaced target alive, two targets with one name reach the solver and are taken for a cycle.]",
  "every history of add and has calls", "Ranges over histories.", "licant/core.py:Core.has", "licant/core.py:UpdatableTarget.recurse_update")
P("C74", "An edited source is noticed by the next build of the same process",
  "A build started after a source was edited rebuilds the file targets that depend on it, also in a process that has built before. [Violated: the status of every path is read once per process; after a successful build all later builds of that process find nothing to do, whatever happens to the files.]",
  "every project, every change of the file system between two builds", "Ranges over histories of edits and builds.", "licant/cache.py:FileCache", "licant/make.py:FileTarget.internal_update_if")
P("C75", "clean deletes only files of the project",
  "clean never deletes a file that is no target. [Violated: the path is put unquoted into a shell command, so cleaning a target whose path contains a space deletes the files named by the parts and leaves the target.]",
  "every registry, path and file-system state", "Data-loss property over all paths.", "licant/make.py:FileTarget.clr", "licant/make.py:do_execute")
P("C76", "A file target may depend on any kind of target",
  "A project in which a file target depends on a routine or plain target can be built. [Violated: once the file exists the need evaluation asks the routine for its time stamp and raises AttributeError, so nothing in that registry can be built.]",
  "every registry and file-system state", "Ranges over registries and states.", "licant/make.py:FileTarget.internal_update_if", "licant/core.py:Target")
P("C77", "Projects described through MakeCore can be built",
  "Any sequence of source, ftarget, touch and copy calls on a new MakeCore, in which dependencies are declared before their use, every file is declared once and no file is also used as a directory, leaves a registry whose closures are complete, acyclic, without duplicates, and in which directories are created top down: so the guarantees about builds (C31-C38) apply to it.",
  "every sequence of calls and file-system state", "Ranges over histories of calls and directory states.", "licant/make.py:MakeCore")
P("C78", "Collected modules are listed before the modules they explicitly request",
  "In the list returned by collect_modules every module stands before each module that it explicitly requests with (name, impl), also when that module was already collected for another reason: so options are merged in an order in which the requesting module comes first.",
  "every module library and root", GRAPH, "licant/cxx_modules.py:collect_modules")
P("C79", "A target's own options take effect",
  "After prepare, each option that the built module sets itself is in the options used for the build: lists are appended to the inherited ones, flag texts are appended, single values replace the inherited one, and options the module does not mention keep the inherited value or default.",
  "every base and module option set", "Ranges over all option sets.", "licant/cxx_modules.py:CXXModuleOptions.merge")
P("C80", "Included modules are validated like the built one",
  "A module that is included with an unknown option, or with a value of the wrong class, terminates the program, as the same module does when it is built itself. [Violated: unknown options of included modules are ignored, and a text given for `sources` is taken character by character.]",
  "every option set of an included module", "Ranges over all option sets.", "licant/cxx_modules.py:CXXModuleOptions.merge", "licant/cxx_modules.py:CXXModuleOptions.check")
P("C81", "The options used for a build are exactly those of the modules it is made of",
  "The final options are the base options, merged with the module's own, then with the modules of include_modules, depth first in the given order, then with the modules collected from mdepends in the order of collect_modules, and nothing else.",
  "every module library, base options and module", GRAPH, "licant/cxx_modules.py:prepare_targets")
P("C82", "include_modules may name modules at every level",
  "include_modules accepts plain names, (name, impl) tuples and submodules, in the built module and in included modules alike. [Violated: only the top level converts names and tuples; an included module with a plain name in its include_modules raises.]",
  "every include graph", GRAPH, "licant/cxx_modules.py:CXXModuleOptions.merge")
P("C83", "Including terminates for every include graph",
  "Preparing a target returns (or reports an error) for every include_modules graph, also a cyclic one. [Violated: a module that includes itself recurses until Python's recursion limit.]",
  "every include graph and recursion limit", GRAPH, "licant/cxx_modules.py:prepare_targets")
P("C84", "mdepends of included modules are honoured",
  "If an included module asks for modules with mdepends, those are part of the build. [Violated: mdepends is only read for the built module and the modules collected from it; the option of an included module has no effect.]",
  "every module library", GRAPH, "licant/cxx_modules.py:prepare_targets", "licant/cxx_modules.py:collect_modules")
P("C87", "Paths with spaces reach the compiler whole",
  "A source, target, include path or library name that contains a space is one argument of the compiler command. [Violated: the rules substitute the text without quoting, so the shell splits it.]",
  "every path", "Ranges over all texts.", "licant/cxx_make.py:object", "licant/make.py:Executor")
P("C89", "Submodules are built and linked",
  "application(name, modules=[submodule(...)]) builds the submodules and links their objects. [Violated: the results are added as a list and an options object, joining the object names raises, so no call with submodules succeeds.]",
  "every call with submodules", "Ranges over all option sets and libraries.", "licant/cxx_modules.py:prepare_targets", "licant/cxx_modules.py:task")
P("C90", "application() and library() link exactly the objects of their sources",
  "After application/shared_library/static_library(name, target=t, ...) returns, the returned target stands for the file t (name if not given), depends on the object of every source in the final options (in their order, patterns replaced by the files found), on the objects from qt_moc and the additional objects, and its command is the linker call for exactly these objects.",
  "every library, option set and file system", "Ranges over option sets.", "licant/cxx_modules.py:task", "licant/cxx_modules.py:prepare_targets", "licant/cxx_modules.py:executable")
P("C88", "Projects described in the default core can be built",
  "Any sequence of source, makefile, copy, fileset, makedir, target, updtarget and routine calls without core= after importing licant, in which every file is declared once, dependencies are declared before or exist, and no file is also used as a directory, leaves the default core with complete, acyclic closures, consistent names and directories created top down, although directories are registered anew by every file in them: so the guarantees about builds (C31-C38) apply to it.",
  "every sequence of calls and file-system state", "Ranges over histories of calls and directory states.", "licant/make.py:source", "licant/make.py:makefile", "licant/make.py:copy", "licant/make.py:fileset", "licant/make.py:dirkeep")
P("C91", "Every call of cliexecute obeys its arguments",
  "Each call of cliexecute executes the arguments passed to that call. [Violated: the parsed options are kept in a global, so a later call executes the arguments of the first one.]",
  "every sequence of calls", "Ranges over histories of calls.", "licant/cli.py:parse", "licant/cli.py:cliexecute")
P("C92", "A local tunnel makes a library reachable",
  "include(lib, local_tunel=(link, script)) for a registered library makes the link if it is missing and executes the script through it. [Violated: a link name without a directory raises; from a script in another directory the link is made relative to the working directory but the script is looked for relative to the script's directory.]",
  "every registry, file system and including script", "Ranges over states.", "licant/libs.py:include", "licant/scripter.py:ScriptQueue.execute")
P("C93", "licant.install can be imported in every environment",
  "Importing licant.install returns, whatever PATH and PREFIX are. [Violated: UnboundLocalError if no PATH entry contains /usr/bin or /usr/local/bin, KeyError without PATH.]",
  "every environment", "Ranges over all environments.", "licant/install.py:find_application_path")
P("C94", "An install directory that was found is used",
  "If find_application_path returns an entry of PATH, install_application and install_shared_library register the installation. [Violated: the error flag is raised although an entry was found, and they silently return None.]",
  "every environment and call", "Ranges over all environments.", "licant/install.py:find_application_path", "licant/install.py:install_application", "licant/install.py:install_shared_library")
P("C95", "install_application registers the installation",
  "After install_application(src, dst, tgt) building the returned target copies src into the install directory. [Violated without tgt: the set of files takes the name of the file to install, replaces its target and depends on itself, so that no build in this core returns.]",
  "every call and registry", "Ranges over registries.", "licant/install.py:install_application", "licant/make.py:fileset")
P("C96", "A C++ program registered by task can be built",
  "If application(), shared_library() or static_library() returns a target, and the files of the module are pairwise different, not used as directories and not declared elsewhere, then the default core holds for each source an object file made from the source, its dependency file, the local headers, the generated headers and the headers of the dependency file, and the program made from all objects; it has complete, acyclic closures, consistent names and directories created top down, so the guarantees about builds (C31-C38) apply.",
  "every library, option set, file system, earlier registry", "Ranges over option sets, file systems and registries.", "licant/cxx_modules.py:task", "licant/cxx_modules.py:prepare_targets", "licant/cxx_modules.py:link_objects", "licant/cxx_make.py:object", "licant/make.py:FileTarget")
P("C97", "Editing a file recompiles exactly the units that use it",
  "When a C++ program is up to date and a source or header is edited, a successful build runs the compiler for every unit that uses the file (as its source, a header listed in its dependency file, a local header, a Qt form or moc input) and runs the linker if there is one; if everything is made within the module the compiler runs for no other unit.",
  "every module, edited file and schedule", "Ranges over projects, histories and schedules.", "licant/cxx_modules.py:prepare_targets", "licant/cxx_modules.py:link_objects", "licant/util.py:cxx_read_depends", "licant/make.py:FileTarget.internal_update_if", "licant/core.py:UpdatableTarget.recurse_update")
P("C98", "A successful build of a C++ program leaves no stale output",
  "After a successful build of a C++ program, from any earlier state of the files, every file that is used for the program and made by the module (objects, dependency files, copied and generated headers, the program) exists, and none of the files it is made from is newer.",
  "every module, state of the files and schedule", "Ranges over projects, states and schedules.", "licant/cxx_modules.py:prepare_targets", "licant/cxx_modules.py:link_objects", "licant/make.py:FileTarget.internal_update_if", "licant/make.py:FileTarget.update")
P("C99", "Building a C++ program a second time does nothing",
  "After a successful build of a C++ program a new process, which reads the dependency files written by the build and may thus know more dependencies than the first one, runs no compiler, no linker and writes no file, provided nothing is forced, the sources exist and the headers that are newly listed are sources that the build found and did not change, or headers of the module.",
  "every module, state of the files and pair of schedules", "Ranges over projects, histories and schedules.", "licant/cxx_modules.py:prepare_targets", "licant/util.py:cxx_read_depends", "licant/make.py:FileTarget.internal_update_if", "licant/core.py:UpdatableTarget.recurse_update")
P("C100", "Patterns in dependencies stand for the files they match",
  "In the default core a target made by makefile, copy, fileset, makedir, target, updtarget or routine depends exactly on the files its dependencies stand for: each file matched by a pattern (a text with *), and every other text itself; besides these only on its own directory if that was missing. Each of these files that exists is registered, so the dependency resolves.",
  "every call, dependency list, file system and registry", "Ranges over file systems, dependency lists and registries.", "licant/make.py:FileTarget.__init__", "licant/make.py:makefile", "licant/make.py:copy", "licant/make.py:fileset", "licant/core.py:Target.expand_globs")
P("C101", "Patterns in dependencies work in every core",
  "The dependencies of a target declared by MakeCore.ftarget or touch resolve when they are patterns matching existing files. [Violated: a core that is not the default core gets a target that depends on files it does not contain, and computing the dependencies exits.]",
  "every core, call, pattern and file system", "Ranges over registries and file systems.", "licant/make.py:MakeCore.ftarget", "licant/make.py:MakeCore.touch", "licant/core.py:Target.expand_globs")
P("C86", "Running a command shows its whole output and its success",
  "Executing the command of a target prints everything the command wrote to standard output, then everything it wrote to standard error, and succeeds exactly if the exit status is 0. [Violated: a command that writes more to one of the streams than a pipe holds (64 KiB on Linux) never ends, because the pipes are read only after waiting for it; output that is not valid UTF-8 raises.]",
  "every command, sequence of writes, exit status, pipe capacity and interleaving", "Ranges over interleavings of two processes and over amounts of output.", "licant/make.py:do_execute", "licant/make.py:Executor")
P("C102", "A build returns whatever its commands print",
  "A build with at least one thread returns, and returns True exactly if all commands end with status 0, whatever the commands print. [Violated: it never returns once a command was started that writes more than a pipe holds, or bytes that are not valid UTF-8.]",
  "every project, set of commands and schedule", "Ranges over schedules and outputs.", "licant/make.py:do_execute", "licant/solver.py:InverseRecursiveSolver.exec", "licant/solver.py:TaskInvoker.worker")
P("C103", "Paths of the same file name the same target",
  "Two paths have the same canonical path exactly if they stand for the same file, directory or missing name in an existing directory, whatever links, dots and relative parts they are written with. So after targets were registered for different files, looking up any path in the core gives the target of the file that path stands for, and exits if there is none, whatever the core was asked before.",
  "every file tree with links that are not dangling, working directory, sequence of registrations and queries, path", "Ranges over file trees, links and spellings.", "licant/util.py:canonical_path", "licant/core.py:Core.get", "licant/core.py:Core.has", "licant/make.py:FileTarget.__init__")
P("C104", "Paths are resolved in the file system as it is",
  "canonical_path gives the path of the file that the given path stands for when it is called. [Violated: the answer of the first call is kept for the whole process, so after a link was changed two paths of different files are taken for the same.]",
  "every history of calls and of changes of the file system", "Ranges over histories.", "licant/util.py:canonical_path", "licant/util.py:DefaultDictLazy")
P("C105", "recursive_glob finds exactly the matching files",
  "recursive_glob(root, pattern) lists exactly the files in the directory root and the directories below it (links to directories are not followed) whose names match the pattern, each once and with different paths for different files, and nothing if root is no directory.",
  "every file tree with links, root, pattern and order in which directories are listed", "Ranges over file trees and patterns.", "licant/util.py:recursive_glob")
P("C106", "execute_recursive finds exactly the scripts that are not hidden",
  "The scripts executed by execute_recursive(root, pattern, hide) are the files below root whose name contains the pattern and which are not below a directory whose name contains hide, each once. [Violated: the whole path is searched for hide, so nothing is found at all if hide occurs in the path of root.]",
  "every file tree, root, pattern and hide text", "Ranges over file trees and texts.", "licant/util.py:find_recursive", "licant/scripter.py:scriptq.execute_recursive")
P("C107", "install_headers installs every header at its place",
  "install_headers(tgtdir, srcdir, patterns, adddeps) registers, for every file below srcdir whose name matches a pattern, a target for the file at the same relative place below tgtdir in the directory for headers, which depends on the header and on adddeps; the returned targets are exactly these files, different headers go to different files, and the returned set contains them all.",
  "every file tree, directory, list of patterns and previous registry", "Ranges over file trees and registries.", "licant/install.py:install_headers", "licant/util.py:recursive_glob", "licant/make.py:copy", "licant/make.py:fileset")
P("C108", "Describing a project succeeds",
  "Every sequence of calls of source, makefile, copy, fileset, makedir, target, updtarget and routine, and every sequence of calls of the methods source, ftarget and copy of a core, returns without an exception, whatever was described before, as long as the paths are shorter than the recursion limit of the interpreter.",
  "every environment, sequence of calls and previous registry", "Ranges over descriptions of projects and file systems.", "licant/make.py:FileTarget.__init__", "licant/make.py:dirkeep", "licant/make.py:source", "licant/make.py:copy", "licant/make.py:fileset", "licant/make.py:MakeCore")
P("C109", "execute_recursive runs every script it finds",
  "A call of execute_recursive(root, pattern, hide) that returns has executed every file below root, relative to the calling script, whose name contains pattern and which is in no hidden directory, each exactly once, one after the other; anything else executed meanwhile was asked for by these scripts or by scripts they executed; afterwards the calling script is the current script again. (Where hide occurs in the path of root see C106.)",
  "every file tree, set of scripts, root, pattern, hide text and nesting of scripts", "Ranges over file trees and programs.", "licant/scripter.py:ScriptQueue.execute_recursive", "licant/util.py:find_recursive")
P("C110", "Modules are compiled and linked with their own options",
 "The command that makes an object of an application or library calls the compiler of the module's toolchain for the language of the source, with -I for exactly the include paths of the module, the directory with the copies of its local headers if it has any and the directory of the headers generated from qt_ui if it has any, with -D for exactly its defines, and with its flags; the command of the dependency file has the same options; the copies of local headers are dependencies of every object. The final target is linked from exactly the objects of the module, with its libraries, library directories, linker scripts and flags.",
 "all modules, options, sources and registries", "the options, sources and what was registered before are arbitrary",
 "licant/cxx_modules.py:prepare_targets", "licant/cxx_modules.py:cxx_options_from_modopts", "licant/cxx_modules.py:link_objects", "licant/cxx_make.py:options")
P("C111", "The toolchain selected on the command line is used",
 "If a script is started with --clang_toolchain or --gcc_toolchain, the applications and libraries that it describes without a toolchain of their own are compiled and linked with that toolchain; without these options with the standard one.",
 "all scripts, sources, options and command lines", "the descriptions, their order and the moment when the command line is looked at are arbitrary",
 "licant/cli.py:parse", "licant/cli.py:cliexecute", "licant/cxx_make.py:default_toolchain", "licant/cxx_make.py:set_default_toolchain", "licant/cxx_modules.py:cxx_module_field_list")
P("C112", "Routines are registered however they are written",
 "routine(f), routine(f, ...), the decorator @routine and the decorator @routine(...) register the callable object as one new target, under the name given as tgt or else its own name, with the dependencies and the update condition given, change no other target, and give the object back.",
 "all cores, callable objects, names, dependencies and update conditions", "all kinds of callable objects and all previous registrations",
 "licant/core.py:Core.routine", "licant/core.py:Core.routine_do", "licant/core.py:Routine")
P("C113", "Every action that a target declares can be invoked",
 "If an action is listed among the actions of a target, asking for it on the command line carries it out.",
 "all programs, targets of all classes, actions declared by classes and by the user", "all classes of targets, constructor arguments and states of the program",
 "licant/core.py:Target", "licant/core.py:Routine", "licant/make.py:FileTarget", "licant/make.py:source", "licant/cli.py:__cliexecute")
P("C114", "install_library installs the headers and the libraries",
 "install_library(tgt, hroot, headers, patterns, uninstall, libtgt) makes tgt a set that consists of the installed headers and the installed libraries: every header below the directory headers whose name matches a pattern is copied to the same relative place below hroot in the directory for headers, after the libraries are made; every library is copied to its name in the directory for libraries, and is made as before; the target uninstall names all the installed files.",
 "all directory trees, directories, patterns, libraries (none, one or a list) and previous registrations", "the tree, the number of headers and libraries and the previous registrations are arbitrary",
 "licant/install.py:install_library", "licant/install.py:install_shared_library", "licant/install.py:install_headers")
P("C115", "Programs described in one project do not disturb one another [Violated]",
 "After any number of calls of application, shared_library and static_library every program and library is still made as its own call says: every object is compiled with the include paths, definitions and flags of that call, and the result is linked from exactly its objects with its libraries; and all of them together form one complete acyclic project.",
 "all sequences of calls, sources, options, toolchains and previous registrations", "any number of programs with any options in any order",
 "licant/cxx_modules.py:task", "licant/cxx_modules.py:prepare_targets", "licant/cxx_modules.py:build_paths", "licant/cxx_make.py:object", "licant/core.py:Core.add")
P("C116", "Files may have any name [Violated]",
 "copy(tgt, src) makes tgt from the existing file src, whatever src is called: the file is registered as a source and tgt depends on it, so that a later build can succeed. [Violated: importing licant registers targets called binutils, m, cxxm and l; a file with such a name is taken for that target, it is never registered, and no build of tgt succeeds.]",
 "all file systems, projects described before, names and builds", "any file name in any project, with any schedule of the build",
 "licant/make.py:copy", "licant/make.py:source", "licant/core.py:Core.has", "licant/modules.py:modules_target", "licant/cxx_modules.py:modules_target", "licant/libs.py:libs_target", "licant/cxx_make.py:binutils_target")
P("C117", "The toolchain given for a program is the one that is used",
 "An application or library described with toolchain=gcc_toolchain(prefix) is compiled, linked and archived with the programs prefix g++, prefix gcc and prefix ar, whatever was described before and whatever toolchain the command line asks for.",
 "all scripts so far, command lines, prefixes and options", "any script history and prefix",
 "licant/cxx_make.py:gcc_toolchain", "licant/cxx_modules.py:task", "licant/cxx_modules.py:prepare_targets", "licant/cxx_modules.py:cxx_options_from_modopts")
P("C118", "touch creates missing files and leaves existing ones alone [Violated]",
 "A target described by core.touch(out, content, deps) never changes the file out if it exists, whatever is built and wherever the build stops; if it does not exist, it has the given content after every successful build it takes part in. [Violated: with dependencies, an existing file is overwritten as soon as one of them is newer.]",
 "all projects, file systems, builds, schedules and stopping points", "any schedule, crash point and project around the target",
 "licant/make.py:MakeCore.touch", "licant/make.py:FileTarget.internal_update_if", "licant/make.py:FileTarget.update")
P("C119", "static_and_shared gives both libraries, library the kind asked for [Violated]",
 "After static_and_shared(name, a, b, options...) returns, a is made by the archive command and b by the shared link command from the same object files, each object file is compiled from its source with the given options, and the target name consists of both libraries; the returned targets are those that their paths lead to. library(name, shared=...) makes a shared library if shared is true or not given, a static one otherwise. [Violated: with the option target, or if both paths are the same file, only the shared library remains and the set name consists of it alone; the first returned target is not the one its path leads to.]",
 "all registries, options, sources, headers, moc and ui files, names and paths", "any project around the call and any list of sources and options",
 "licant/cxx_modules.py:static_and_shared", "licant/cxx_modules.py:library", "licant/cxx_modules.py:task", "licant/make.py:MakeCore.fileset")
P("C120", "-j sets the number of workers",
 "If -j N is given and the text N is an integer as int() reads it (sign, digits, single underscores between digits, space around), every update that the command line asks for, by a target, a routine with arguments or an action, is performed by exactly N workers on the same targets as with any other number: at most N targets are made at a time, and for positive N the build comes to an end if no work function raises. Without -j the number of processors is used. If the text is no integer, the process ends with ValueError before anything is evaluated or called.",
 "all texts given with -j, command lines, registries, schedules", "all texts, projects and schedules",
 "licant/cli.py:cliexecute", "licant/core.py:UpdatableTarget.recurse_update", "licant/core.py:UpdatableTarget.recurse_update_get_args", "licant/core.py:Routine.invoke_routine", "licant/solver.py:TaskInvoker")
P("C121", "A command line that asks for a build builds",
 "A command line that names a target, a target and one of its build actions, a build action of the default target, or nothing at all with a default target, is a build of that target: in a complete project it always starts, with the number of workers that -j asks for, everything the target depends on takes part, at most that many targets are made at a time, it stops only by returning (unless a work function raises), and if it succeeds every file used for the target exists and is not older than the files it is made from. The same command line after that, in a new process, makes nothing. In particular a script that describes a C++ program and calls licant.ex with it builds the program.",
 "all projects, command lines, default targets, numbers of workers, file systems, schedules", "all projects, command lines and schedules",
 "licant/cli.py:cliexecute", "licant/core.py:Target.invoke", "licant/core.py:Core.update_update_needity", "licant/core.py:UpdatableTarget.recurse_update", "licant/make.py:MakeFileTarget.makefile", "licant/solver.py:InverseRecursiveSolver")
P("C122", "included_from names the modules that include a module",
 "After modules are collected for a target, included_from of each collected module is the set of the names of the modules (the root or collected ones) that name it in mdepends. [Violated: the root is recorded for every module that was resolved by default, and a module that names an already collected module is not recorded. It holds that some includer and every explicit requester is recorded, and that all recorded names but the root's are includers.]",
 "every module library, root and mdepends lists", "Ranges over all dependency graphs and collection orders.",
 "licant/cxx_modules.py:collect_modules", "licant/cxx_modules.py:included_from")
P("C123", "Listing commands print exactly what there is",
 "m list [PATTERN] prints every registered module whose name matches, once, by increasing names, with exactly its implementations; m print NAME [IMPL] shows that module; cxxm collect_modules NAME prints exactly the modules collected for NAME; l list prints every known library with the path that include would use (the user's registry first) and l included the included ones. [Violated on the command line: an extra argument is passed as its characters, so only the first character of a pattern or name is used.]",
 "every module library, registry, pattern and name", "Ranges over libraries and arguments.",
 "licant/modules.py:print_modules_list", "licant/modules.py:print_module", "licant/cxx_modules.py:print_collect_list", "licant/libs.py:print_system_libs", "licant/libs.py:print_included_libs", "licant/cli.py:cliexecute")
P("C124", "Converted files follow their sources",
 "A file registered by objcopy, javac or dex depends on the files that its command reads, so that it is made after them and remade when they change, and its command makes this file from these sources with the given tool, format, sections and flags. [Violated by dex, which depends on nothing, and by javac, whose command does not name the target; both raise during the build if no toolchain is given.]",
 "every project, path, toolchain, format and list of sections or sources", "Ranges over projects, file systems and builds.",
 "licant/cxx_make.py:objcopy", "licant/java_make.py:javac", "licant/java_make.py:dex")
P("C125", "A cross toolchain uses the tools with its prefix",
 "All binary tools of gcc_toolchain(prefix) and make_gcc_binutils(prefix), the compilers, the linker, the archiver, objdump and objcopy, have the prefix. [Violated: objcopy of make_gcc_binutils(prefix) is the one of the host.]",
 "every prefix", "Ranges over prefixes.",
 "licant/cxx_make.py:gcc_toolchain", "licant/cxx_make.py:make_gcc_binutils", "licant/cxx_make.py:objcopy")
P("C126", "binutils disasm writes the disassembly of a target",
 "The action disasm of the target binutils, given a target and a file name, builds the target and writes its disassembly into the file. [Violated: it raises for all arguments.]",
 "every project and argument list", "Ranges over projects and arguments.",
 "licant/cxx_make.py:disassembler", "licant/cxx_make.py:binutils_target")
P("C127", "Scripts may name their variables freely",
 "Which scripts are executed, and how each ends, does not depend on the names of the variables that scripts assign. [Violated: scripts share the global variables of licant's own module, so that a script that assigns os, licant, scriptq, default_core, open, exec or globals makes the scripts after it fail.]",
 "every set of scripts, and every name", "Ranges over script trees and names.",
 "licant/scripter.py:ScriptQueue.__execute", "licant/__init__.py:execute")
P("C128", "-q, -d and -t only change what is printed",
 "Whatever of the options -q, -d and -t is given, the same command is run for a target; before it, nothing is printed in quiet mode, the command in debug mode, and otherwise the message of the target, or the command if it has none. [Violated if the message has an unknown field: then the command is only run with -q or -d.]",
 "every target, command, message and combination of options", "Ranges over format strings and attribute values.",
 "licant/make.py:do_execute", "licant/cli.py:cliexecute")
P("C129", "Options may be written in any spelling and anywhere on the command line",
 "Every command line made of options, each in any of its spellings (short, several short ones together, long, abbreviated as far as it is unambiguous, -j with its number joined, after an equality sign or as the next argument), and of free arguments (which do not begin with a dash, or are a single dash or a negative number) is understood as exactly these flags, the last number of threads and these free arguments in their order; every argument after -- is passed on as it is. -h or --help among them prints the help text and nothing else happens; a long option that does not exist is answered with a usage message and nothing else happens. [Violated: options between free arguments are refused with a usage message, although options before or after all of them are not.]",
 "every list of options, every spelling of each, and every list of free arguments", "Ranges over command lines of any length.",
 "licant/cli.py:parser", "licant/cli.py:parse", "licant/cli.py:cliexecute")
P("C130", "Ctrl-C stops a build",
 "When Ctrl-C is pressed during a build, no further target is taken up: at most the work functions already handed to a thread are executed, each after those of its dependencies, and none begins after exec() has ended; exec() ends with KeyboardInterrupt and the process with a status other than 0. [Violated: if Ctrl-C arrives while a worker takes a target from the queue, exec() never ends.]",
 "every accepted list of targets, number of workers and threads, schedule, and moment of the interrupt", "Ranges over the moments at which a signal can arrive, of which tests meet few.",
 "licant/solver.py:TaskInvoker.run_until_complete", "licant/solver.py:TaskInvoker.worker", "licant/cli.py:cliexecute")
P("C131", "What else happens in the file system does not make a project out of date",
 "After a successful build the next build in a new process runs no command and changes no file, although creating files changed the time stamps of directories and although commands and other programs created, changed or removed files that are not targets, during both builds. [Violated if an existing directory is named as a dependency: it is registered as a source file, gets newer when a file is created in it, and the targets that depend on it are built again.]",
 "every project, schedule, interleaving of the build with events at paths that are not targets", "The effects of other programs and of directory time stamps interleave with the build in unboundedly many ways.",
 "licant/make.py:FileTarget.internal_update_if", "licant/make.py:source", "licant/core.py:Target.expand_globs", "licant/cache.py:FileCache.fileinfo")
P("C132", "An edit made while a build runs is noticed by the next build",
 "If a source is edited while a build is running, then after the next successful build every file target has the contents that a build from scratch of the present sources gives. [Violated: if the edit falls between the moment a command reads the source and the moment it writes its output, the output is newer than the source and the target is never built again. It holds for edits at moments when no command that reads the source is running.]",
 "every history of edits, deletions and builds with edits while they run, every schedule", "Ranges over the moments of edits relative to the reads and writes of concurrently running commands.",
 "licant/make.py:FileTarget.internal_update_if", "licant/make.py:FileTarget.update_info", "licant/cache.py:FileCache")
P("C133", "A file that was being written when the build was killed is built again",
 "If licant is killed at any moment, also while commands are writing their outputs, then after the next successful build every file target has the contents that a build from scratch gives. [Violated: an unfinished output has a new time stamp and is taken to be up to date. It holds if the unfinished outputs are removed before the next build.]",
 "every history, schedule and crash point, also in the middle of commands", "Ranges over all crash points of concurrent commands.",
 "licant/make.py:FileTarget.internal_update_if", "licant/make.py:do_execute")
P("C134", "Each update condition is asked once per action",
 "When an action is invoked, the update condition of every registered updatable target is called exactly once. [Violated: answers are kept only for the targets whose turn it is, not for the dependencies asked on the way; with 2n+1 targets that depend on the next two, registered before their dependencies, the last condition is called at least 2^n times. It holds if every target is registered after its dependencies.]",
 "every registry, history of registrations, lookups and evaluations, answers of the conditions", "The number of calls depends on the shape of the whole graph and the order of registration; a test of a small project does not see the growth.",
 "licant/core.py:UpdatableTarget.recursive_update_needed_request", "licant/core.py:UpdatableTarget.evaluate_update_needity", "licant/core.py:Core.evaluate_update_needity")
P("C135", "A changed source is noticed whatever its time stamp",
 "If a source is replaced by a file with other contents, whatever its time stamp (copied or restored with its old time, unpacked from an archive, written within the resolution of the clock, dated in the future), the next successful build makes the file targets that depend on it from the new contents. [Violated, in every project: a file not newer than what was built from the old one goes unnoticed; no update function is called. It holds if every file put in place is newer than the built files that read it; dates in the future do no harm.]",
 "every project, history of replacements, deletions and builds, time stamp", "Tests edit files and build at once, with time stamps in order; restored files and coarse clocks do not appear in them.",
 "licant/make.py:FileTarget.internal_update_if", "licant/make.py:FileTarget.mtime", "licant/cache.py:FileCache")
P("C136", "Several licant processes may build the same project at the same time",
 "Several licant processes may build targets of the same project in the same directory at the same time: all of them succeed if alone they would, and when one of them reports success its files are as a build from scratch makes them. [Violated twice. If two processes have seen that a directory target is missing, they never both succeed, in every project: in one of them making the directory raises, and the call never returns. If a command writes its target bit by bit, another process takes the first bits for a finished file and succeeds with wrong contents. It holds, as to contents: if every command writes its target in one piece, then as soon as one process reports success, and whatever the others do afterwards, its files are right; and a process that has seen all its directories and whose commands succeed ends with success.]",
 "every project, number of processes, moments at which they begin, interleaving of their work, failures and kills", "Tests run one process at a time; what another process does between a check and an action does not appear in them.",
 "licant/make.py:DirectoryKeeper", "licant/make.py:DirectoryTarget.update_if_need", "licant/make.py:FileTarget.internal_update_if", "licant/cache.py:FileCache")
P("C137", "Chains of dependencies may be of any length",
 "A set of targets without cycles whose names are all registered can be updated, however long its chains of dependencies are. [Violated: for every recursion limit of the interpreter, a target at the top of a chain of more targets than nested calls are possible cannot be updated; collecting its dependencies raises RecursionError. It holds for chains within the limit, however many targets there are altogether.]",
 "every core, recursion limit, chain of dependencies, number of threads and order of sets", "A test has one graph and one recursion limit, and graphs in tests are small.",
 "licant/core.py:Core.depends_as_set_impl", "licant/solver.py:InverseRecursiveSolver.dfs", "licant/core.py:UpdatableTarget.recurse_update")
P("C138", "Routines may invoke actions themselves",
 "The function of a routine, or the update function of any target, may call core.do: the update it is part of still returns, and updates every target that depends on a target it has updated. [Violated twice. core.do forgets and recomputes the need of all targets of the core. With two workers, a target whose turn comes in between raises 'need_update is None' and the update never returns, in every core with two such targets. With one worker, a target whose dependency was updated before the call is found not to need an update any more and is left out. It holds that nothing raises and the update returns, with one worker or if the targets that call core.do come before or after every other target.]",
 "every core, set of targets that call core.do, moment and number of these calls, answers of the conditions, schedule of the workers", "Whether another target begins just while the needs are recomputed is a matter of scheduling; tests have no nested calls.",
 "licant/core.py:Core.update_update_needity", "licant/core.py:Target.invoke", "licant/core.py:UpdatableTarget.update_if_need", "licant/core.py:Core.do")
P("C139", "Update conditions may ask the core",
 "An update condition may call core.has or core.exist, with any name: the evaluation of the needs that precedes every action succeeds, and each condition gets the answer it would get if has() changed nothing. [Violated: has() stores the name it was asked for if it is another spelling of a registered path. During the evaluation this changes the dictionary that is being iterated over, and every action of the core, on whatever target, ends with RuntimeError. It holds if the conditions ask only for registered names or for paths that are not registered in any spelling.]",
 "every core, targets whose conditions ask, names they ask for, what the conditions do with the answers", "Depends on the combination of spelling used in the script and spelling used in the condition; tests ask has() only outside of evaluations.",
 "licant/core.py:Core.has", "licant/core.py:Core.exist", "licant/core.py:Core.evaluate_update_needity", "licant/core.py:UpdatableTarget.recursive_update_needed_request")
P("C140", "The library registry survives an interrupted licant-libs",
 "If a licant-libs call is killed or loses power at any moment, the registry file afterwards still holds the registered libraries: either as they were or as the call leaves them. [Violated: the registry is opened for writing, which empties it, before the new contents are written. Killed between the two, the file is empty and every library that was registered is lost: any later use of the registry ends with an exception. What holds: after a kill at any moment the file is the old one, or reads as exactly the new registry, or cannot be read at all; it never reads as anything else.]",
 "every registry, command line and moment of the kill, including after any number of characters written", "The moment of the kill is unbounded; a test that kills the call hits only one.",
 "licant/licant_libs.py:licant_libs_utility", "licant/libs.py:init")
P("C141", "Several licant-libs calls at the same time",
 "licant-libs calls that run at the same time, in any interleaving, leave the registry as if they had run one after the other in some order. [Violated twice: two calls that both read before either writes leave only one of the two records; and two calls that write at the same time can leave a file that is no longer readable. It holds for calls that do not overlap.]",
 "every registry, list of calls and interleaving of their reads and writes", "Depends on the interleaving of processes.",
 "licant/licant_libs.py:licant_libs_utility", "licant/libs.py:init")
P("C142", "makedir makes a directory and the missing directories above it",
  "After makedir(dir) for a missing directory in a project described in the default core, dir and each of its missing ancestors is a directory target that depends exactly on its own parent if that is missing; every other name stands for the same target as before (a directory that was registered already is replaced by an equal one) and no other target is added. When a build of dir, or of anything that depends on it, ends successfully, dir and all its ancestors that were missing exist; a build of dir changes nothing that exists.",
  "every described project, file system, directory, build schedule and number of workers", "Ranges over histories of calls, file systems and schedules.", "licant/make.py:makedir", "licant/make.py:dirkeep", "licant/make.py:DirectoryTarget", "licant/make.py:DirectoryKeeper")
P("C143", "The order of the calls that describe a project does not matter",
  "A build script that declares every target once may make its calls of source, makefile, copy, fileset, makedir, target, updtarget and routine in any order, in particular describe a target before the files it is made from: afterwards each name stands for a target with the same attributes and class, the dependency sets are the same, and the same targets are out of date. [Violated: a dependency on an existing file that is spelled in another way than the call that makes the file is remembered as a plain source if it comes first. Proved if dependencies on made files are spelled by their canonical path.]",
  "every description, permutation of its calls and file system", "Ranges over all permutations of all descriptions.", "licant/make.py:makefile", "licant/make.py:source", "licant/make.py:copy", "licant/make.py:fileset", "licant/make.py:makedir", "licant/core.py:Core.has", "licant/core.py:Core.get", "licant/core.py:Target.expand_globs")
P("C144", "Actions of one process do not get in each other's way",
  "A process may perform makefile, clean and clr on any targets one after the other, successful or not, as long as nobody else changes the files: each makefile runs exactly the commands that it would run in a new process and leaves the same contents in the built files, and clean followed by makefile deletes and builds again every built file of the closure.",
  "every project, sequence of actions, verdicts, initial files, schedule and thread count", "Ranges over all sequences of actions and schedules; what a process remembers of the files depends on all earlier actions.", "licant/core.py:Core.do", "licant/make.py:MakeFileTarget.clean", "licant/make.py:MakeFileTarget.makefile", "licant/make.py:FileTarget.clr", "licant/make.py:do_execute", "licant/cache.py:FileCache")
P("C145", "The dependencies of a module are gone through once",
  "While the modules of an application are collected, the dependency list of each collected module is gone through exactly once, and no other list, so that the work grows with the size of the lists (with --trace each module is announced once). [Violated: a module that is explicitly requested, as a pair of name and implementation, is gone through again at every request; for 2n+1 modules with at most two requests each this can be 2^n times. Proved if each module is explicitly requested in at most one place.]",
  "every module library, starting module and history of the library", "Ranges over all module graphs; the cost explodes only for graphs that are larger than those of a unit test.", "licant/cxx_modules.py:collect_modules", "licant/modules.py:ModuleLibrary.get")
P("C146", "The order in which scripts describe modules does not matter",
  "If no two calls describe the same implementation of a module, and no two choose the default implementation of the same module, then the calls may be made in any order (scripts may be executed in any order): every module that can be looked up has the same name, implementation and options, every lookup that fails fails alike, and the modules collected for it are the same, in the same order, or the collection ends in the same way. So the options of every module are the same, and later calls of application, shared_library and the like register the same targets.",
  "every sequence of describing calls with this property, every permutation of it, every module, implementation, recursion limit and earlier sort keys", "Ranges over all module libraries and all permutations of their descriptions.", "licant/modules.py:ModuleLibrary", "licant/modules.py:implementation", "licant/modules.py:module_defimpl", "licant/cxx_modules.py:collect_modules")
P("C147", "The order of a dependency list does not matter",
  "If two scripts differ only in the order of the entries in mdepends lists, then the same modules in the same implementations are collected, and if the collection returns for one it returns for the other. [Violated: if a module is requested by name in one place and explicitly, as a pair of name and implementation, in another, the order can decide which implementation is collected and whether the program ends with an error. Proved if no module is requested in both ways and explicit requests have no cycle.]",
  "every pair of such scripts, starting module and history", "Ranges over all module graphs and all permutations of their lists.", "licant/cxx_modules.py:collect_modules", "licant/modules.py:ModuleLibrary.get")
P("C148", "A changed build script takes effect",
  "After the build script is changed, the next successful build leaves every file target with the contents a build from scratch with the new script gives. [Violated: only time stamps are compared, so a changed command does not make an up to date file out of date; after a successful build no change of commands alone makes the next build run anything. Proved for histories in which the products of new and changed commands are removed when the script is changed; dependencies may be changed freely.]",
  "every history of edits, deletions, complete and partial builds and changes of the script, every schedule", "Ranges over all histories, projects and schedules.", "licant/make.py:FileTarget.internal_update_if", "licant/make.py:MakeFileTarget.mtime")
P("C149", "Building targets one by one is building them together",
  "If several targets are built successfully one after the other, in any order, every file they depend on has in the end the contents that one build from scratch of a target that depends on all of them gives.",
  "every project, history, list of targets in any order, and every schedule of the builds", "Ranges over all projects, orders and schedules.", "licant/core.py:UpdatableTarget.recurse_update", "licant/make.py:FileTarget.internal_update_if")
P("C150", "A failed build says which target failed",
  "If the work of a target reports failure, the build prints exactly one line 'Error while executing task', and it names the target that reported failure first, also when others fail while they are being waited for; if none fails no such line is printed. The name is that of a target the built one depends on.",
  "every project, number of workers and schedule, with any number of failures", "Several workers may fail at about the same time.", "licant/solver.py:TaskInvoker.worker", "licant/core.py:UpdatableTarget.recurse_update")
P("C151", "Targets that are not asked for do not matter",
  "If a target and all it depends on are described in the same way in two build scripts, which may differ in all other targets, and the files of these targets are the same, then a build of this target runs the same commands and leaves the same contents in both. [Violated: every action first evaluates the update conditions of all registered targets, so an updatable target that depends on a plain one, for instance, keeps every other target from being built. Proved if both builds end successfully.]",
  "every pair of projects that agree on a target and its dependencies, every pair of file systems that agree on their files, and every schedule", "Ranges over all other targets and files.", "licant/core.py:Core.update_update_needity", "licant/core.py:UpdatableTarget.recurse_update")
P("C152", "A project may be copied to another place",
  "If a project is copied or moved to another directory, together with what has been built and with its time stamps, then a build there runs the commands that a build in the old place runs, and leaves the same contents; in particular it runs none if everything was up to date, and all of those that a later change calls for. [Violated: the dependency files that have been written for C++ sources contain the paths with which the compiler was called. If these are absolute, object files of the copy depend on the headers of the original: a changed header of the copy is not noticed. Proved for every target whose description in the new place is the old one with paths replaced; this is so for everything that make.py registers, and for C++ tasks if the names that are given and those in the dependency files are relative.]",
  "every project, every replacement of paths and names, every pair of file systems in which the files correspond, and every schedule", "Ranges over all projects, places and schedules; targets are numbered differently in the two places.", "licant/cxx_modules.py:link_objects", "licant/util.py:cxx_read_depends", "licant/core.py:UpdatableTarget.recurse_update")
P("C153", "A header that nothing includes any more may be deleted",
  "If a program is up to date and a header that the dependency files list is deleted, the next build does not fail because of it: it compiles exactly the units that used the header and writes their dependency files anew, so that it is forgotten (C99), and makes nothing outside of the build directory. [Violated: if the directory of the header was removed as well, every successful build makes this directory again. All else is proved.]",
  "every module, deleted header and schedule", "Ranges over all modules, headers and schedules; make itself is known for failing here.", "licant/cxx_modules.py:link_objects", "licant/make.py:source", "licant/make.py:FileTarget")
P("C154", "The outputs of commands that run at the same time are not mixed",
  "When several commands run at the same time, what is shown for each of them (its message, its standard output, its standard error) appears on the screen in one piece, and nothing is lost. [Violated: these are three prints, and those of another command may come in between; and what is printed without the lock, such as MAKEDIRS lines, may have other lines inside. Proved: each single print of the commands appears in one piece, nothing is lost, prints of one thread keep their order, and no thread waits for ever.]",
  "every number of threads, every list of commands and outputs, every schedule", "Ranges over all interleavings of writes.", "licant/make.py:do_execute", "licant/make.py:DirectoryKeeper")
P("C155", "The header made from a Qt form can be included by its name",
  "For each form NAME.ui given in qt_ui the header ui_NAME.h is made with uic, the objects of the task depend on it, and a source that includes \"ui_NAME.h\" is compiled with an include directory in which it is. [Violated for forms in a directory: the header is put into the same directory below BUILDDIR/ui, and only BUILDDIR/ui is an include directory. Proved for forms in the working directory.]",
  "every registry, option set, form name and source", "Ranges over all option sets, file names and registries.", "licant/cxx_modules.py:build_paths", "licant/cxx_modules.py:make", "licant/cxx_make.py:qt_uic")
P("C156", "The file cache may be used by several threads while files change",
  "get_info and update_info may be called by several threads at the same time, and other programs may change files meanwhile: every call returns, and get_info(path) returns the status that the file had at some moment since the beginning of the last update_info(path) that had returned. [Violated twice. A file that is removed between the two system calls of update_info makes it raise FileNotFoundError, and in a worker of a build this means that the build never returns (C08). If two refreshes of the same file overlap, the one that began first may store its older status last. It holds: every answer was true at one moment; a call raises only if the file was removed; no call waits for another thread; after a refresh that began while no other thread was finding out the status of that file, every answer is at most as old as that refresh.]",
  "every number of threads, sequence of calls, interleaving of system calls and dictionary accesses, and history of the file system", "Ranges over all interleavings of threads and file-system changes.", "licant/cache.py:FileCache.update_info", "licant/cache.py:FileCache.get_info", "licant/cache.py:FileCache.fileinfo")
P("C157", "Executed scripts are sources",
  "Every script that was executed, the main one and those executed by execute, execute_recursive or include at any depth, is a target of the default core afterwards, also if the program is ended by one of them, and other targets may depend on it by any of its paths. It is a source; if the scripts had described a target for the same file before, as for a generated script, it is still that target, unchanged. What the scripts describe together can be built as if it were described in one script.",
  "every tree of scripts, whose calls may depend on what is registered, every file system and recursion limit; the calls must be reasonable as in C88", "Ranges over all script trees, file systems and registries.", "licant/scripter.py:ScriptQueue", "licant/make.py:source", "licant/core.py:Core.get")
#APPEND

with open(os.path.join(os.path.dirname(os.path.abspath(__file__)), "..", "properties.jsonl"), "w") as f:
    for p in L:
        f.write(json.dumps(p, ensure_ascii=False) + "\n")
print(len(L))
