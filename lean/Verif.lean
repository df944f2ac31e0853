import Verif.Props.ExcTable
import Verif.Props.Location
import Verif.Props.LineTables
import Verif.Props.ConcreteInstr
import Verif.Props.Disassemble
import Verif.Props.Instr
import Verif.Props.Convert
import Verif.Props.ConvertEx
import Verif.Props.CachesExact
import Verif.Props.ToBytecode
import Verif.Props.ToBytecodeEx
import Verif.Props.Legalize
import Verif.Props.Flags
import Verif.Props.CFG
import Verif.Props.StackSize
import Verif.Props.StackSizeEx
import Verif.Props.CfgConv
import Verif.Props.CfgTry
import Verif.Props.Effects
import Verif.Props.EffectsExact
import Verif.Props.Iter
import Verif.Props.Copy
import Verif.Props.Equal
import Verif.Props.Code
import Verif.Props.ToCode
import Verif.Props.FromCode
import Verif.Props.FromCodeEx
import Verif.Props.StackMap
import Verif.Props.StackMapEx
import Verif.Props.CfgEqual
import Verif.Props.CfgEqualEx
import Verif.Props.GraphCode
import Verif.Props.LinearSize
import Verif.Props.LinearSizeEx
import Verif.Spec.HandlerDepths
import Verif.Proofs.HandlerDepths
import Verif.Proofs.ProgDepths
import Verif.Props.HandlerDepths
import Verif.Spec.LinearTry
import Verif.Proofs.LinearTry
import Verif.Props.LinearTry
import Verif.Props.LinearTryEx
import Verif.Model.Format
import Verif.Spec.Format
import Verif.Proofs.Format
import Verif.Proofs.FormatLine
import Verif.Proofs.FormatB
import Verif.Proofs.FormatC
import Verif.Proofs.FormatG
import Verif.Props.Format
import Verif.Spec.Joined
import Verif.Proofs.Joined
import Verif.Props.Assemblable
import Verif.Proofs.AssembleE
import Verif.Proofs.AssembleF
import Verif.Proofs.NoEmpty
import Verif.Proofs.DepthsSet
import Verif.Props.ToCodeTotal
import Verif.Props.ToCodeTotalEx
import Verif.Proofs.CfgTotal
import Verif.Proofs.CfgToTotal
import Verif.Spec.GraphRules
import Verif.Proofs.GraphRules
import Verif.Props.CfgRules
import Verif.Spec.RegionFlow
import Verif.Proofs.StackReasons
import Verif.Props.StackTotal
import Verif.Props.StackTotalEx
import Verif.Proofs.StackMapTotal
import Verif.Props.StackMapTotal
import Verif.Spec.Rewritable
import Verif.Proofs.DecodeRules
import Verif.Proofs.FromCodeRules
import Verif.Props.RoundTripTotal
import Verif.Spec.OldProgram
import Verif.Spec.OldCodeOK
import Verif.Model.OldCode
import Verif.Instances.Py39
import Verif.Proofs.OldProgram
import Verif.Proofs.OldLines
import Verif.Proofs.OldRead
import Verif.Proofs.OldTotal
import Verif.Props.OldCode
import Verif.Props.OldFromCode
import Verif.Props.OldRoundTrip
import Verif.Props.OldCodeEx
import Verif.Spec.WellFormed
import Verif.Proofs.WellFormed
import Verif.Proofs.WellFormedB
import Verif.Proofs.WellFormedC
import Verif.Proofs.WellFormedD
import Verif.Props.WellFormed
import Verif.Spec.ControlFlow
import Verif.Props.ControlFlow
import Verif.Spec.Edit
import Verif.Proofs.Edit
import Verif.Props.Edit
import Verif.Spec.OpFacts
import Verif.Props.OpFacts
import Verif.Props.EditTotal
import Verif.Props.EditOld
import Verif.Props.DefaultTrip
import Verif.Props.RealEx
import Verif.Props.Passes
import Verif.Props.RoundTripSize
import Verif.Props.Uses
import Verif.Props.SmallTables
import Verif.Props.SizeEx
import Verif.Props.Determined
import Verif.Props.Regions
import Verif.Props.Again
import Verif.Props.Errors
import Verif.Props.ConcreteToCode
import Verif.Props.ConcreteToCodeOld
import Verif.Props.Exact
import Verif.Props.ExactCode
import Verif.Props.Checked
import Verif.Props.RealCodes
import Verif.Props.EqualErrors
import Verif.Props.RealDiffers
import Verif.Props.Routes
import Verif.Props.GraphErrors
import Verif.Props.CoLines
import Verif.Props.LinetableExact
import Verif.Props.SplitExact
import Verif.Props.HandlersExact
import Verif.Props.ReadFree
import Verif.Props.RoundTripExact
import Verif.Props.DecodeErrors
import Verif.Props.DecodeErrorsEx
import Verif.Props.ConvertBack
import Verif.Props.ConvertBackEx
import Verif.Props.Unreadable
import Verif.Props.ToCodeErrors
import Verif.Props.ToCodeErrorsEx
import Verif.Spec.GraphCodeErrors
import Verif.Props.GraphCodeErrors
import Verif.Props.GraphCodeErrorsEx
import Verif.Model.CfgFlags
import Verif.Props.CfgFlags
import Verif.Props.CfgFlagsEx
import Verif.Props.UnreadableOld
import Verif.Proofs.Chain
import Verif.Proofs.ChainPass
import Verif.Props.ChainPasses
import Verif.Spec.Entered
import Verif.Proofs.DeadRemoval
import Verif.Props.DeadRemoval
import Verif.Props.DeadRemovalEx
import Verif.Props.DeadCode
import Verif.Proofs.CheckOption
import Verif.Props.CheckOption
import Verif.Props.CheckCode
