# Formal model of mirmik/licant in Lean 4 — design

The code is Python (`/repo/licant/*.py`). Nothing is run: the model is a hand
transcription, function by function; each definition cites the lines it models.

## Layout (all under `lean/Verif/`)

| directory | models | files with property theorems |
|---|---|---|
| `Py/` | insertion-ordered `dict`, `posixpath` functions on lists of characters | |
| `Solver/` | `licant/solver.py`, `util.invert_depends_dictionary` | `Props`, `Construct`, `Exec`, `Threads`, `Asyncio`, `Interrupt` |
| `Core/` | `licant/core.py`: registry, closures, evaluation of needs, recurse_update, do/invoke | `Registry`, `Need`, `Update`, `Session`, `Asked`, `Routine` |
| `Make/` | `licant/make.py`, `licant/cache.py`: file system, time stamps, builds, clean, registration functions | `Cache`, `Build`, `Same`, `History`, `Props`, `Clean`, `RegisterProps`, `Wellformed`, `Default`, `Patterns`, `Makedir`, `Execute`, `Tree`, `Keeps`, `Returns`, `Reserved`, `Touch`, `WorldSim`, `WorldHistory` |
| `Modules/` | `licant/modules.py`, `cxx_modules.collect_modules` | `Registry`, `Collect`, `Term`, `Included` |
| `Cxx/` | rest of `licant/cxx_modules.py`, `licant/cxx_make.py`, `util.changeext`, `flag_prefix`, `cxx_read_depends` | `Paths`, `Merge`, `Prepare`, `Depends`, `Command`, `LinkProps`, `Task`, `Sound`, `Parts`, `Program`, `ProgramDemo`, `Twice`, `TwiceDemo`, `Compile`, `Toolchains`, `Several`, `SeveralDemo`, `Both`, `BothDemo`, `CommandLine`, `CommandLineDemo`, `Convert`, `Messages` |
| `Misc/` | `util.queue`, `util.recursive_glob`, `util.find_recursive`, `cli.py`, `scripter.py`, `libs.py`, `licant_libs.py`, `install.py` | all |

In the larger directories `Model.lean` (also `Make/Register`, `Cxx/Options`, `Cxx/Link`) contains definitions of the model
only, and `Spec.lean` the vocabulary of the statements: reachability, staleness, inputs of a target, assumptions on
projects. In the small files the sections are marked. Every definition of the model cites the lines of /repo it models.

## Trusted base

* **Lean 4.33.0's kernel**, and Mathlib as installed. `vcheck` replays every module.
* **Axioms.** Every theorem depends on at most `propext`, `Classical.choice` and `Quot.sound`, Lean's standard axioms.
  No axiom is declared, there is no `sorry`, `native_decide`, `bv_decide`, `implemented_by` or `unsafe`. `AXIOMS.md` lists
  the axioms of every theorem named in MANIFEST.json (made by `tools/axioms.sh`).
  `decide +kernel` occurs only in examples and witnesses: it makes the kernel evaluate a closed term.
* **The transcription.** That the definitions say what the Python code does is not proved; nothing is run. The comments say
  which lines each definition stands for and where it simplifies. What follows is the list of simplifications.
  `Conformance.lean` puts the project's own unit tests (`/repo/tests`), as far as they are about modelled code, to the model: a
  check of the transcription on a few literals, on which no claim rests.

### What is modelled, and what is not

*Python.* Exceptions and `exit` are values, of few kinds; messages are dropped. The recursion limit is a number of nested
calls of the modelled function, not of frames. Integers and lists are unbounded. Strings are lists of Unicode characters.
`dict` order is modelled, `set` order is arbitrary. Garbage collection, memory exhaustion and keyboard interrupts (except in Solver/Interrupt) are not
modelled. Printing is not modelled, except where a property is about it.

*solver.py.* (`Solver/Model` has one event for handing a work function to a thread and its beginning, and one for its end and the
continuation of the worker; `Solver/Threads` separates them and models the pool of `min(32, cpus + 4)` threads.) All of `DependableTarget`, the constructor and its checks, `TaskInvoker`, `exec`. Threads: a work function is
an interval between `start` and `finish` with an arbitrary result (value, falsy value, exception). asyncio runs
a coroutine without interruption between suspension points; `Solver/Asyncio` models the ready queue of the event loop, the futures of `asyncio.Queue`, the lock
and `Queue.join`, and proves that its executions are executions of `Solver/Threads` (`refines`), that nobody waits for the lock (`never_blocked`) and that no
wake-up is lost (`C07_asyncio`, `C16_asyncio`). Not modelled: `what_to_do` printing, `trace` output,
the time a work function takes, cancellation from outside.

*core.py.* `Core` (add, get, exist, has, depends_as_set, update_update_needity, do), `Target`, `UpdatableTarget`, `Routine`,
`recurse_update`. `canonical_path` is an idempotent function. User callables (`update_if`, actions) are arbitrary functions
that do not change the registry (in Core/Nested they invoke actions, in Core/Conditions they ask `has`); they may raise. Not modelled: help texts, `print_targets`, the interactive parts, and Python's inspection of what a decorator is applied to.

*make.py, cache.py.* Files have a time stamp (`Nat`) and contents of an arbitrary type; directories have no contents.
Build commands run between start and finish of their target, may write their own target file any number of times, and end
with any result. Simplification (not in Make/World): a command changes no other file. It reads only what the project says it depends on
(`Functional`, where it matters). A crash is a run that ends after any event. Time stamps do not go backwards. The shell is
modelled by words separated by spaces; other special characters are not. Registration functions see a file system that
does not change while they run (`Env`); `Env.Sane` says what is assumed of it: no dangling links, parents of existing
files exist, canonical paths of missing directories are made from those of their parents. `Make/Tree` models file trees
with symbolic links, `realpath` and the kernel's path walk, and proves `Env.Sane` for every tree without dangling links
(`Realises.sane`); permissions, limits on the number of links and mount points are left out. `do_execute` and the command
it starts are two processes with two pipes of bounded capacity (`Make/Execute`); the command's writes are chunks of bytes.
In the first model of builds (Make/Model) commands change no other file, nobody else changes files while a build runs, and
the time stamps of directories do not change; Make/World drops these three simplifications (C131, C132, C133).
Several processes with one file system are modelled in Make/Together (C136).
The texts of messages are modelled in Cxx/Messages, how the prints of several threads come together in Make/Output. Not modelled: `FileTarget.dirkeep` messages, `printvars`.

*Assumptions about projects* (`Sound`, Make/Spec.lean): unique names, acyclic, sources depend on directories only,
files depend on targets of make.py, a target which is an ancestor directory of another directory target is a dependency of
it. C77 and C88 prove it for every project described by reasonable calls, through `MakeCore` or in the default core.

*modules.py, cxx_modules.py, cxx_make.py.* Option values are strings, lists, tuples, `None`, toolchains, submodule requests,
and opaque others. Path-like objects are not modelled. `str.format` is modelled without format specifications. The file
system is fixed while targets are registered; the contents of dependency files are a parameter (`Site`). Commands are
formatted at registration, as the code does. `included_from` is modelled apart (Modules/Included); printing is left out except in Misc/Info. The `default` keyword of
application() is a separate parameter. Toolchains and their discovery are modelled in Cxx/Toolchains; `objcopy`, `make_gcc_binutils`, the
disassembler and java_make.py in Cxx/Convert.

*cli.py.* argparse is modelled for the options declared (Misc/Args); elsewhere it is represented by the list of free arguments it leaves. Options that only set runtime values are not
modelled, except `-j` (Misc/Jobs), `-q`, `-d`, `-t` (Cxx/Messages) and the toolchain options (Cxx/Toolchains). *scripter.py, libs.py.* A script is the tree of the calls it makes, which may depend on the current directory
and the included libraries (the variables of scripts are modelled apart, in Misc/Names); the registration of scripts as sources is modelled in Make/Scripted; scripts that catch `SystemExit` of nested scripts are not
modelled; that the registry files can be read is assumed, except in Misc/Json and Misc/Kept, where their texts are modelled. *install.py.* The choice of directories and install_application,
install_shared_library, install_headers and install_library; uninstall (C70) is modelled in Make/Clean. Not modelled: `__main__.py`
and the helpers of `util.py` for colours and messages.

## Modelling conventions

* Python exceptions and `exit(-1)` are values (`Except Err α`).
* A Python `set` is a duplicate-free list; wherever code iterates over a set the
  iteration order is an arbitrary permutation, given as a parameter of the model.
* Recursion that Python does not bound structurally takes a fuel argument that
  plays the role of Python's recursion limit; running out is `RecursionError`.
* asyncio: a coroutine runs without interruption between two suspension points.
  In `TaskInvoker` these are: `queue.get()` on an empty queue, `await to_thread`,
  `queue.join()`, `gather`. `async with mtx` never suspends, because no holder of
  the lock suspends while holding it (`Queue.put` on an unbounded queue does not
  suspend). One transition of the model = one such segment; which worker moves
  next, and with what result a work function ends, is completely nondeterministic.
  That this is so is not assumed but proved from a model of these objects (`Solver/Asyncio`).
* File contents and time stamps are abstract (`Nat` clock, arbitrary content type).

## Plan per property

| id | modelled | proof |
|---|---|---|
| C01–C05, C09, C15 | labelled transition system of workers, queue, counters, error flag; traces of start/finish events | one inductive invariant on reachable (trace, state) pairs |
| C01–C09, C16 for threads | `Solver/Threads`: the thread pool of asyncio, in which work functions wait, are executed and hand over their results (first come, first served), on top of the transition system of the event loop | projection to the event loop, invariant on where work functions are, potential for the number of beginnings after a failure |
| C01–C09, C16 for the event loop | `Solver/Asyncio`: ready queue, futures of `Queue.get`, lock, `Queue.join`, results that come from threads | simulation by `Solver/Threads`; invariants: waiting workers are those whose future is pending or done, and a worker waits only if enough others were woken for what is queued; measure that every event decreases |
| C06, C07 | same | progress lemma + strictly decreasing measure; verdict from C03/C04 |
| C08, C10 | same, with `raise` results / zero workers | invariant `unfinished > 0` forever; property itself is false, negation proved, `_partial` for the good case |
| C11–C13 | constructor: name table, inverse lists, dfs with visited/path, connectivity check | dfs invariant (white/grey/black), classification by cases |
| C14 | `invert_depends_dictionary` on dicts | membership characterisation of the two loops |
| C16 | transition system | enabledness + counting |
| C17, C18 | `depends_as_set(_impl)` with accumulator and the (mis-keyed) cache | worklist/DFS closure invariant with fuel = number of names |
| C19–C21 | registry as dict + target objects, canonical path as an idempotent function | dict lemmas; C21 false: witness + `_partial` |
| C22, C23 | recursive evaluation with memo | partial correctness for any graph; totality from a rank function; divergence by induction on fuel |
| C24–C26, C29, C30 | recurse_update = closure + solver construction + every solver trace | solver theorems + evaluation theorem |
| C27, C28 | do/invoke dispatch | case analysis |
| C31 | FileCache under interleaved fs changes | refinement to "last snapshot" over op lists |
| C32 | internal_update_if, mtime of filesets | characterisation |
| C33–C38, C44 | file system with clock, build traces accepted by the solver | invariants over traces (mtime consistency, content consistency) |
| C39, C41, C70 | clean, clr, uninstall | set characterisation of deleted paths |
| C40, C42, C43 | MakeCore/make registration functions on two cores | recursion on path depth |
| C45–C49 | module library, collect_modules | invariants on the collected map; fuel/rank for termination |
| C50–C52 | option table and merge functions | per-field fold lemmas |
| C53–C55 | posixpath functions on char lists, build_paths | list induction |
| C56 | maximal-munch tokenizer | induction on the token list |
| C57, C58, C59 | link_objects, format templates, extension test | computation for all parameters |
| C60 | task/prepare_targets lookup | case analysis; property false |
| C61 | queue | refinement to a list |
| C62–C64 | cli dispatch | case analysis; C63, C64 false: negation proved, `_partial` for the good part |
| C65, C66 | include with script trees | measure on not-yet-included libraries |
| C67 | licant_libs | dict lemmas; removal false |
| C68 | script stack | induction on script trees |
| C69 | find_application_path | decision logic |
| C71 | routine arguments stored in the object | history of invocations; property false, `_partial`: last invocation wins |
| C72, C73 | remembered dependency lists, alias lookups; sessions of registrations, lookups and evaluations | witness; `_partial` for sessions in which names are registered once (invariant: remembered lists are those of the registry) |
| C74 | file cache kept between builds in one process | negation for every project; `_partial`: new processes |
| C75 | `rm -f` with unquoted paths | witness; `_partial`: no spaces |
| C76 | existing dependencies become sources | negation; `_partial`: as long as the file does not exist |
| C77 | histories of MakeCore calls | registry invariant `Good`, preserved by each call; conclusion `Sound` |
| C78 | order of collected modules | sort keys are strictly increasing in order of discovery |
| C79, C80, C81, C82, C83, C84 | option merging over included and collected modules | fold lemmas; the false ones by witness |
| C87 | names with spaces in commands | word splitting; negation |
| C88 | histories of calls in the default core, starting from the targets that licant registers itself, with sets, routines and other targets | invariant `GoodD`, with directories registered anew by each file |
| C89, C90 | application(), library() down to the linked target | composition of registry, merge and link lemmas |
| C96 | task down to the registry of the whole program | stages: every registration step keeps `GoodD` and the facts about the files registered before; conclusion `Sound` |
| C97 | up-to-date C++ program, one edited file, any run | C36 and the dependency closure of the objects computed from the registration (`Program`) |
| C98 | state after a successful build of a program | C33_fresh, and the relation made-from computed from the registration |
| C99 | two processes, the second with new dependency files | C98; a dependency of the second process is one of the first or older than the build |
| C100, C101 | patterns in dependencies, default core and other cores | list lemmas over the registration; negation for every pattern with an undeclared match |
| C103, C104 | file trees with links, realpath, memo of canonical_path | relations for the two path walks, determinism and totality, histories of registrations; negation by a tree whose link changes |
| C105, C106 | `recursive_glob`, `find_recursive` over trees with links (`View`: what `scandir`, `isdir` say about a tree) | induction over the walk; negation: `hide` in the path of the root |
| C109 | `execute_recursive` with the search of C106 in the scripts of C68 | induction over the scripts found |
| C110 | the whole of `task` for applications and libraries, commands as lists of words | C96 (what is registered) composed with C58 (what the rules expand to); how `include_paths` grows in `makeObjects` |
| C111 | a script as a sequence of descriptions (`task`), looks at a command line (`parse`) and other registrations; the globals `DEFAULT_TOOLCHAIN` and `opts` | false: what is registered before `parse` is the same for all command lines, with a computed example; partial: invariant of the globals over all scripts, composed with C110 |
| C112 | `Core.routine`, `routine_do`, the decorator; callable objects are abstract (plain function or not, name or none) | false for what is no plain function; partial by cases, decorators used repeatedly by induction |
| C113 | the classes of targets with their lists of actions and methods | false: the declared but missing actions; partial: with C62, by cases over the classes |
| C114 | `install_library` over the models of C94 and C107 | what each registration leaves alone (`Stays`), composed; the library need not exist yet; termination by the length of the paths |
| C115 | sequences of `task` calls | frame of one call (names, dependencies and commands of older targets stay), induction over the calls, C110 carried over; witness by computation |
| C116 | the registry as importing licant leaves it (`licantReg`) and the histories of C88 | the four names stay reserved (induction over the calls), a work function that raises fails every run; for other names the conditions of C88 are proved |
| C117 | the model of C111, options given to `task` | the value survives merging and defaults; words of a command that begins with a name without spaces |
| C118 | `MakeCore.touch` in the histories of C77, with a build command that writes a constant | older objects stay through further calls; what a build writes, by the invariants of C33; both parts for every run |
| C119 | `library`, `static_and_shared` over the model of `task` (C89) | the calls as a list of registrations; each stays done if no later one has its name (`regs_done`, `regs_apart`); objects are never changed (`Fixed`) |
| C120 | `-j` from the text to `runtime["threads"]`, `int()`, and the three actions that start an update, on top of the models of cli.py, core.py and solver.py | `int()` accepts exactly the texts of a grammar (`pyInt_iff`); composition of C62, C30, C09, C07 |
| C121 | the whole of `cliexecute` for a project of make.py: the dispatch of cli.py, the evaluation of core.py with the file cache, the actions of core.py and make.py, the solver | composition of C62, C120, C23, C28 and the theorems about `Invocation`; an alias registered by `has` changes nothing (`*_same`) |
| C122 | `collect_modules` with the dictionary `included_from`, next to the model without it (`collectF_eq`: the same modules are collected) | invariant over the recursion and the queue; negation by a library of five modules |
| C123 | the printing actions of the targets `m`, `cxxm` and `l`, on top of the models of modules.py, `collect_modules`, libs.py and cli.py | sorting lemmas, C46; the command line by C63; negation by a library of two modules |
| C124 | `objcopy`, `javac`, `dex` on top of `makefile` and `source`; their commands are formatted when the target is built | the registry after the call (Make/Keeps, C88), C33; negation by a project of a class file and a dex file |
| C125 | the parts of toolchains | computation; negation for every prefix |
| C126 | `disassembler` and its invocation as an action | case analysis of the arguments |
| C127 | scripts as lists of assignments and executions that share one namespace with licant/scripter.py (Misc/Names) | simulation with a namespace that scripts cannot change; negation for each of the seven names |
| C128 | `do_execute` up to the start of the command, with the formatting of commands and messages | case analysis; the token lemma for format strings; negation by a message with an unknown field |
| C129 | the steps of CPython 3.11's `ArgumentParser.parse_args` for the options of cli.py: classification of arguments, abbreviations, short options written together, one positional with `nargs="*"` (Misc/Args); `cliexecute` from its text (Misc/Line) | induction over the options; the abbreviations are the prefixes of eight names, checked one by one; negation for every line with options between free arguments |
| C130 | the executions of Solver/Threads with one more kind of event, the interrupt, in the event loop or in a worker, and the cancellation that follows it (Solver/Interrupt) | the interrupted executions are executions followed by events of the pool; negation by an invariant: more is unfinished than queued or worked on |
| C131 | builds as before, with events of other programs at any path, and time stamps of directories that change when something is created or removed in them (Make/World) | simulation by a build without these things (Make/WorldSim), then C33 |
| C132 | histories of such builds; commands read their inputs at any moments after their start and write bit by bit; edits during builds (Make/World, Make/WorldHistory) | invariant: a trusted output whose inputs exist and are not newer is right; negation by a concrete build |
| C133 | the same histories; a build may be killed after any event; the outputs of unfinished commands are not trusted (Make/WorldHistory) | the same invariant; removing a file makes it trusted; negation by a concrete build |
| C134 | the evaluation of needs with the calls of `update_if` it makes (Core/Asked); it is the evaluation of Core/Model if the calls are dropped (`updateNeedsA_forget`) | negation: a family of graphs, induction on the height; positive part: in the order of the dictionary dependencies come first, loop invariant |
| C135 | histories as for C35, but files are put in place with any time stamps (Make/Stamps) | negation for every project: nothing becomes out of date; positive part: the invariant of C35 (`Consist`) with time stamps of built files only bounded by the clock |
| C136 | processes with one file system and one file cache each, events in any order (Make/Together) | negation for every project: only one process can make a directory that both saw missing, and an exception ends a call without return; witness of a half-written file; positive part: every write is what the command makes of inputs that are already final (invariant `Sane` over the histories of all processes) |
| C137 | Python's recursion limit is the fuel of `dependsAsSetImpl` and of the solver's `dfs` (Core/Depth) | negation for every core and limit by induction on a straight chain; witness for every limit; positive part: induction on the fuel with the chains of names not yet collected |
| C138 | the model with threads (Solver/Threads) plus the `need_update` attributes and the evaluations that update functions cause, step by step (Core/Nested) | negation for every core by an explicit execution and C08; a second witness with one worker; positive part: invariant that every missing answer is on the list of an evaluation in progress, whose thread excludes other beginnings (C01, C02, C09) |
| C139 | the evaluation of the needs with the registry as part of the state: conditions ask `has` for any names; the loop over the dictionary looks at the number of keys as Python does (Core/Conditions) | negation: the dictionary only grows, and has grown after the turn of the target; positive part: equality with `updateNeeds` |
| C140 | `json.dump` and `json.load` on dictionaries of strings, character by character (Misc/Json); the registry file of a licant-libs call at each moment: before `open`, empty after it, then any prefix of the new text (Misc/Kept) | round trip by induction; a proper prefix has no closing brace where the reader needs it; negation for every call that changes the registry |
| C141 | any number of licant-libs processes, each reads the registry, opens the file (truncating it), writes it in any number of pieces at its own offset; all interleavings (Misc/Kept) | negation by two explicit interleavings, for general registries; positive part by an invariant over executions without overlap |
| C142 | `dirkeepG` as a call of `callD`; the build model of C31–C38 | `goodD_makedir`: the invariant of C88 is kept; chain of missing parents by induction; finished directory targets exist (`beliefs`) |
| C143 | `callD` of C88, in any order; `MReg.means`: what a name stands for | false of the code: witness and general violation; for `Orderly` descriptions an invariant (`J`) gives the meaning of each name from the sets of declared names, sources and directories alone, which a permutation does not change; `C143_sound_partial` carries `Sound` (C88) from one order to all |
| C144 | `Session`: evaluations, `makefile` with any result, `clean`, `clr`, with the file cache passed on | invariant: what the process remembers is true (`Accurate`) and the files have a history (C35); then needs and contents are those of a new process |
| C145 | `collect_modules` with the record of the calls of its inner function (Modules/Walks); without the record it is `collect` (`collectW_eq`) | negation: a family of module libraries, induction on the height; positive part: explicit requests form a forest, induction on the recursion, loop invariant |
| C146 | the module library and `collect_modules` (Modules/Order); the result is compared by the contents of the module objects, since their identities depend on the order | simulation between the two runs: libraries that agree up to the numbering of the objects stay so under lookups, each round of the collection and the loop; Cxx/Order carries it on through the options of a module (`C146_targets`), `modmake` and sequences of calls of `application` and its companions, which register the same targets |
| C147 | scripts that differ in the order of `mdepends` only, `collect_modules` (Modules/ListOrder) | negation: two pairs of scripts; positive part: the result is determined by reachability from the root (invariants of the collection), and a choice of implementations that answers all requests keeps the other collection from failing |
| C148 | histories of edits, deletions, builds and changes of the script (Make/Changed) | negation: the demo project with another link command; in general: `update_if` does not read the command, so nothing is out of date; positive part: every product was made from a state of the files that agrees with the present one on the inputs that are not newer (`Traced`); this carries over to the new project if the products of changed commands are removed |
| C149 | sequences of successful builds (Make/OneByOne) | after each build the files of its closure are what their commands make of the present files; a later build that makes one of them again gives it the same contents (induction along dependencies), so this stays; contents with this property are unique (as in C35) |
| C150 | the lines printed by the segments of `worker` (Solver/Reports), added to the executions of the solver model | induction along the execution: the error flag is set exactly when some work has reported failure, and it is tested before the line is printed; for builds of files by the correspondence of solver targets and file targets (Make/Reports) |
| C151 | two projects with a common part, given by the names that lead from a target to what it depends on (Make/Part) | the targets that these names stand for correspond (simulation in both directions), so the same ones need work; contents by induction along dependencies. Violated by the evaluation of all targets: what the evaluation establishes about a target contradicts a dependency that is not updatable |
| C152 | two projects whose targets correspond under a replacement of paths and names, each with its own canonical paths (Make/Moved); the targets of a C++ source and of its copy (Cxx/Moved) | simulation in both directions, without an inverse of the replacement; C151 is the case of the identity. Violated by a dependency file with absolute paths: the dependencies of the object file in the copy are computed, and none of them is the header there. Registration in two places side by side: the two registries are the same up to names (Make/Relocated, Cxx/Relocated). Calls that are reasonable (C88) here are reasonable there (Make/RelocatedCalls), and the assumptions about the outside hold for a directory copied in the file tree of C103 (Make/RelocatedTree); the same for a C++ program with relative names, whose files fit there if they fit here (Cxx/RelocatedTree) |
| C153 | the targets of a module as in C96, with a header missing (Make/Deleted, Cxx/Deleted) | what needs work after a deletion is what depends on the source, as in C36; the dependency file and the object file of a unit both depend on the listed headers. Violated by the directory target that `source` registers for a missing directory: it is in the closure of the program |
| C154 | threads that take and release a lock and write to the screen; a print is several writes (Make/Output) | invariant: complete prints, then a part of the one whose thread has the lock. Violated by two schedules |
| C155 | the task call with qt_ui, the words of the compile commands that begin with -I (Cxx/Forms) | from what is registered (C96, C110) and the name of the header as normalised path. Violated for f/win.ui (Cxx/FormsDemo) |
| C156 | cache.py by single system calls and dictionary accesses, any number of threads, arbitrary changes of files in between (Make/Racing). Elsewhere `update_info` is one step | invariants over executions: what a thread has found and what is stored held at a moment since the refresh began; rank of the program counter; two concrete executions for the violations |
| C157 | scripter.py together with the registration functions of make.py (Make/Scripted): scripts are trees of calls that may depend on what is registered | the scripts amount to a sequence of calls of make.py (invariant over the execution); then the invariant of C88 and that registered names keep their targets (`Follows`) |
| C107 | `install_headers` with `abspath`, `relpath`, `copy`, `fileset` | C105, lemmas about normalised paths, invariant over the copies |
| C108 | the functions of make.py and the methods of MakeCore as in C40, C88 | induction over the missing directories and the calls |
| C86, C102 | do_execute and the command as two processes with pipes of bounded capacity, then within the solver | transition system, invariant and measure; composition with C03, C07, C08 |
| C91 | cliexecute called twice | the parsed options are global; negation for every pair of calls |
| C92 | local tunnels | case analysis; false |
| C93, C94, C95 | install.py | case analysis; false; C95 by a cycle of length one in the registry |

Properties marked [Violated] in properties.jsonl are false of the code: the theorem `Cxx_violated` proves the negation
(for every state in question where possible, by a witness otherwise) and `Cxx_partial` the part that holds.

## Tests of the theorems

`seeded/LOG.jsonl` lists edits of the model, as realistic bugs would change the program, with the theorems that then fail,
and the theorems tightened when none did.

## Comparison of the library model with CPython

Some definitions model CPython's library and not licant: paths (`Py/Path`, `Make/Tree`), `argparse` (`Misc/Args`), `fnmatch`
(`Misc/Glob`), `relpath` (`Misc/Headers`), `int` (`Misc/Jobs`), `json` (`Misc/Json`) and `str.format` (`Cxx/Command`).
`tools/compare_library.py` runs them and CPython 3.11.10 on random inputs and prints where they differ: nowhere, about 28000 inputs.
`Walk` and `Real` of `Make/Tree` are relations; there, functions that transcribe them are compared with the file system.
These are tests, not proofs: they support that these definitions, which are part of the trusted base, are the right ones.
The comparison led to two corrections: `int` does not skip the characters 28 to 31, and `argparse` does not take `-d=q` for `-dq`.
