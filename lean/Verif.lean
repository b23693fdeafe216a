import Verif.Eval.Props
import Verif.Const.Props
import Verif.Opt.Props
import Verif.Check.Props
import Verif.Print.Props
import Verif.Slice.Props
import Verif.Width.Props
import Verif.Param.Props
import Verif.Fsm.Examples
import Verif.Util.Clog2Props
import Verif.Gen.TableProps
import Verif.Gen.CtxProps
import Verif.Gen.ChildrenProps
import Verif.Gen.Inline
import Verif.Graph.Levels
import Verif.Graph.StructProps
import Verif.Graph.Visitor
import Verif.Port.Props
import Verif.Sim.Static
import Verif.Sim.Seq
import Verif.Sim.SettleProps
import Verif.Text.Tokens
import Verif.Misc.Names
import Verif.Misc.XXHash
import Verif.Misc.PassManager
import Verif.Misc.Fault
import Verif.Stmt.HeapProps
import Verif.Seq.Pipeline
import Verif.Seq.Gate
import Verif.Pass.Sort
import Verif.Pass.Kinds
import Verif.Pass.Drivers
import Verif.Pass.Verify
import Verif.Pass.Enable
import Verif.Pass.Connect
import Verif.Pass.Zero
import Verif.Pass.MergeWire
import Verif.Pass.Fanout
import Verif.Pass.PassThrough
import Verif.Pass.DeadCode
import Verif.Print.ForText
import Verif.Print.StmtText
import Verif.Param.Instance
import Verif.Print.Lines
import Verif.Lib.Sram
import Verif.Misc.ModuleHash
import Verif.Py.Ssa
import Verif.Check.Content
import Verif.Check.Resets
import Verif.Check.Synth
import Verif.Pass.Replace
import Verif.Pass.Decouple
import Verif.Pass.Legal
import Verif.Pass.Lift
import Verif.Py.Elab
import Verif.Pass.Asserts
import Verif.Gen.Interface
import Verif.Gen.InterfaceProps
import Verif.Print.Lists
import Verif.Gen.Enums
import Verif.Misc.Handles
import Verif.Pass.Bundle
import Verif.Gen.FunctionsProps
import Verif.Gen.Dpi
import Verif.Py.SsaDebug
import Verif.Pass.MergeConst
import Verif.Py.Cache
import Verif.Gen.Swap
import Verif.Print.Sva
import Verif.Py.Regs
import Verif.Gen.Flatten
import Verif.Pass.Inline
import Verif.Stmt.Registry
import Verif.Sim.Links
import Verif.Sim.Arrays
import Verif.Misc.DebugScopes
import Verif.Width.Loop
import Verif.Py.Tree
import Verif.Fsm.Diagram
import Verif.Misc.Xml
import Verif.Misc.Report
import Verif.Print.Decl
import Verif.Misc.Package
import Verif.Text.Import
import Verif.Check.Scope
import Verif.Text.Coverage
import Verif.Gen.Strategy
import Verif.Check.FlipFlop
import Verif.Gen.Emit
import Verif.Print.File
import Verif.Print.Items
import Verif.Text.Icc
import Verif.Stmt.Connected
import Verif.Misc.Registers
import Verif.Misc.Flow
import Verif.Misc.Mock
import Verif.Misc.Propagate
import Verif.Misc.RunNames
import Verif.Param.Copy
import Verif.Param.Inline
import Verif.Pass.Shared
import Verif.Misc.HandleExpr
import Verif.Print.LineTable
import Verif.Py.Decl
import Verif.Misc.Events
import Verif.Py.EnumHelper
import Verif.Py.AssertPos
import Verif.Py.AddChild
import Verif.Py.FuncCall
import Verif.Py.Always
import Verif.Stmt.Remove
import Verif.Sim.Cycle
import Verif.Graph.Drivers
import Verif.Misc.DebugTable
import Verif.Py.EnumAccept
import Verif.Py.CaseCalls
import Verif.Py.Reduce
import Verif.Audit
