import Verif.Solver.Props
import Verif.Solver.Threads
import Verif.Solver.Asyncio
import Verif.Core.Update
import Verif.Core.Session
import Verif.Core.Asked
import Verif.Core.Depth
import Verif.Core.Nested
import Verif.Core.Conditions
import Verif.Make.Clean
import Verif.Make.Changed
import Verif.Make.OneByOne
import Verif.Solver.Reports
import Verif.Make.Reports
import Verif.Make.Part
import Verif.Make.Moved
import Verif.Cxx.Moved
import Verif.Make.Deleted
import Verif.Cxx.Deleted
import Verif.Cxx.DeletedDemo
import Verif.Make.Output
import Verif.Cxx.FormsDemo
import Verif.Cxx.RelocatedDemo
import Verif.Make.RelocatedTreeDemo
import Verif.Make.Racing
import Verif.Make.Wellformed
import Verif.Modules.Term
import Verif.Modules.Walks
import Verif.Modules.Order
import Verif.Modules.ListOrder
import Verif.Cxx.Paths
import Verif.Cxx.Prepare
import Verif.Cxx.Depends
import Verif.Cxx.Command
import Verif.Make.Keeps
import Verif.Cxx.LinkProps
import Verif.Make.Default
import Verif.Make.Patterns
import Verif.Make.Makedir
import Verif.Make.Order
import Verif.Make.Session
import Verif.Make.Execute
import Verif.Py.Normal
import Verif.Make.Tree
import Verif.Cxx.Task
import Verif.Cxx.Sound
import Verif.Cxx.Parts
import Verif.Cxx.Program
import Verif.Cxx.ProgramDemo
import Verif.Cxx.Compile
import Verif.Cxx.Twice
import Verif.Cxx.TwiceDemo
import Verif.Misc.Queue
import Verif.Misc.Cli
import Verif.Misc.Scripts
import Verif.Misc.Libs
import Verif.Misc.Json
import Verif.Misc.Kept
import Verif.Misc.Install
import Verif.Misc.Glob
import Verif.Make.Returns
import Verif.Misc.Headers
import Verif.Misc.Search
import Verif.Cxx.Toolchains
import Verif.Core.Routine
import Verif.Misc.Actions
import Verif.Misc.Library
import Verif.Cxx.SeveralDemo
import Verif.Make.Reserved
import Verif.Make.Touch
import Verif.Cxx.Both
import Verif.Cxx.BothDemo
import Verif.Misc.Jobs
import Verif.Misc.Command
import Verif.Cxx.CommandLine
import Verif.Cxx.CommandLineDemo
import Verif.Modules.Included
import Verif.Misc.Info
import Verif.Cxx.Convert
import Verif.Misc.Names
import Verif.Cxx.Messages
import Verif.Misc.Args
import Verif.Misc.Line
import Verif.Solver.Interrupt
import Verif.Make.World
import Verif.Make.WorldSim
import Verif.Make.WorldHistory
import Verif.Make.Stamps
import Verif.Make.Together
import Verif.Conformance
import Verif.Cxx.RelocatedTree
import Verif.Cxx.RelocatedTreeDemo
import Verif.Cxx.Order
import Verif.Cxx.OrderDemo
import Verif.Make.Scripted
