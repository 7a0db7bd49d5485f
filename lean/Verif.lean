import Verif.Props.Access
import Verif.Props.AccessUnit
import Verif.Props.Always
import Verif.Props.Arith
import Verif.Props.Binding
import Verif.Props.BitBinding
import Verif.Props.Bitfield
import Verif.Props.CallParams
import Verif.Props.CallPass
import Verif.Props.Checks
import Verif.Props.Circuitry
import Verif.Props.Clocks
import Verif.Props.Delayed
import Verif.Props.Deps
import Verif.Props.ExprText
import Verif.Props.FormalModes
import Verif.Props.FsmCounter
import Verif.Props.FsmNumber
import Verif.Props.FsmRun
import Verif.Props.FsmSkip
import Verif.Props.FsmStates
import Verif.Props.Gather
import Verif.Props.GatherTime
import Verif.Props.Group
import Verif.Props.Image
import Verif.Props.Import
import Verif.Props.Include
import Verif.Props.Init
import Verif.Props.Inline
import Verif.Props.InlineCode
import Verif.Props.Inout
import Verif.Props.Instantiation
import Verif.Props.Jump
import Verif.Props.LintBind
import Verif.Props.LintCode
import Verif.Props.Linter
import Verif.Props.Loops
import Verif.Props.LuaPath
import Verif.Props.LuaText
import Verif.Props.LuaUnits
import Verif.Props.Memory
import Verif.Props.Names
import Verif.Props.Naming
import Verif.Props.Number
import Verif.Props.Padded
import Verif.Props.Permission
import Verif.Props.PipeCode
import Verif.Props.PipeOrder
import Verif.Props.PipeRun
import Verif.Props.Ports
import Verif.Props.Regs
import Verif.Props.Return
import Verif.Props.Riscv
import Verif.Props.SameAs
import Verif.Props.Scope
import Verif.Props.Select
import Verif.Props.Settle
import Verif.Props.Started
import Verif.Props.Switch
import Verif.Props.Table
import Verif.Props.Template
import Verif.Props.TopPins
import Verif.Props.Tracker
import Verif.Props.Usage
import Verif.Props.Whole
import Verif.Props.WholeRun
import Verif.Props.WholeUnit
import Verif.Props.WidthOf
import Verif.Props.Wires
import Verif.Audit
