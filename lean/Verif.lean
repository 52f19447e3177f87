import Verif.Base.Outcome
import Verif.Float.Format
import Verif.Float.Lemmas
import Verif.Vprec.Model
import Verif.Vprec.Lemmas
import Verif.Float.Encode
import Verif.Vprec.Mag
import Verif.Vprec.Den
import Verif.Vprec.Rel
import Verif.Vprec.Nearest
import Verif.Vprec.Value
import Verif.Vprec.Props
import Verif.Vprec.Props2
import Verif.Vprec.AbsErr
import Verif.Vprec.AbsTotal
import Verif.Vprec.Config
import Verif.Vprec.ConfigProps
import Verif.Vprec.Ops
import Verif.Vprec.OpsProps
import Verif.Stdlib.Model
import Verif.Stdlib.Props
import Verif.Stdlib.Handlers
import Verif.Stdlib.HandlersProps
import Verif.Stdlib.Logger
import Verif.Stdlib.LoggerProps
import Verif.Rng.Props
import Verif.Hash.SetProps
import Verif.Vfi.ArgProps
import Verif.Vfi.FileProps
import Verif.Vfi.LogRunProps
import Verif.Ieee.CmpProps
import Verif.Ieee.PrintProps
import Verif.Ieee.CountProps
import Verif.Wrapper.DispatchProps
import Verif.Wrapper.InitProps
import Verif.Wrapper.DdebugProps
import Verif.Float.Class
import Verif.Float.ClassProps
import Verif.Bitmask.Model
import Verif.Bitmask.Props
import Verif.Bitmask.OpProps
import Verif.Mca.Common
import Verif.Mca.IntProps
import Verif.Float.Round
import Verif.Mca.QuadProps
import Verif.Mca.ModeProps
import Verif.Cancel.Model
import Verif.Cancel.Props
import Verif.Ddtool.Model
import Verif.Ddtool.SplitProps
import Verif.Ddtool.TestProps
import Verif.Ddtool.MinProps
import Verif.Ddtool.MaxProps
import Verif.Ddtool.RddminProps
import Verif.Ddtool.DichoProps
import Verif.Ddtool.CacheProps
import Verif.Ddtool.Config
import Verif.Ddtool.ConfigProps
import Verif.Ddtool.Outcome
import Verif.Ddtool.OutcomeProps
import Verif.Ddtool.DiffProps
import Verif.Ddtool.GenProps
import Verif.Float.Double
import Verif.Float.Div
import Verif.Float.Conv
import Verif.Mca.IeeeProps
import Verif.Mca.FlushProps
import Verif.Mca.ErrProps
import Verif.Mca.Config
import Verif.Mca.ConfigProps
import Verif.Bitmask.Config
import Verif.Bitmask.ConfigProps
import Verif.Cancel.Config
import Verif.Cancel.ConfigProps
import Verif.Hash.Entries
import Verif.Probes.Hexa
import Verif.Probes.Model
import Verif.Probes.Props
import Verif.Pass.Select
import Verif.Pass.SelectProps
import Verif.Pass.Replace
import Verif.Pass.ReplaceProps
import Verif.Pass.Block
import Verif.Pass.BlockProps
import Verif.Pass.McaBackend
import Verif.Pass.TransparentProps
import Verif.Pass.IeeeBackend
import Verif.Pass.IeeeProgProps
import Verif.Pass.Backends
import Verif.Pass.NeutralProps
import Verif.Pass.ContractProps
import Verif.Driver.Model
import Verif.Driver.Props
import Verif.FuncInst.Model
import Verif.FuncInst.Props
import Verif.FuncInst.MoreProps
import Verif.Float.Near
import Verif.Ci.Checks
import Verif.Ci.CheckProps
import Verif.Ci.Groups
import Verif.Ci.GroupProps
import Verif.Ci.Report
import Verif.Ci.NameProps
import Verif.Ci.OutlierProps
import Verif.Ci.SelectProps
import Verif.Ci.CommandProps
import Verif.Precexp.Model
import Verif.Precexp.SearchProps
import Verif.Precexp.ExploreProps
import Verif.Precexp.FileProps
import Verif.Precexp.ProfileProps
import Verif.Precexp.Report
import Verif.Precexp.ReportProps
import Verif.Prism.Features
import Verif.Prism.FeatureProps
import Verif.Prism.Model
import Verif.Prism.Operands
import Verif.Prism.NameProps
import Verif.Prism.ChoiceProps
import Verif.Prism.TypeProps
import Verif.Prism.Block
import Verif.Prism.BlockProps
import Verif.Driver.PassArgs
import Verif.Driver.PassArgsProps
import Verif.Vprec.Emulate
import Verif.Vprec.Host
import Verif.Vprec.EmulateProps
import Verif.Rng.Uniform
import Verif.Mca.StochProps
import Verif.Mca.StochQuad
import Verif.Mca.StochLimits
import Verif.Mca.UserCallProps
import Verif.Ieee.Debug
import Verif.Ieee.DebugProps
import Verif.Pass.DebugBackend
import Verif.Pass.DebugProgProps
import Verif.Pass.McaProgProps
import Verif.Pass.McaRelProps
import Verif.Pass.ExprProps
import Verif.Pass.SumProps
import Verif.Pass.ErrProps
import Verif.Pass.CastProps
import Verif.Ci.Stats
import Verif.Ci.StatsProps
import Verif.Pass.SpreadProps
import Verif.Pass.LoopProps
import Verif.Pass.NewtonProps
import Verif.Ddtool.Line
import Verif.Ddtool.LineProps
import Verif.Ddtool.Stat
import Verif.Ddtool.StatProps
import Verif.Ddtool.Links
import Verif.Ddtool.LinksProps
import Verif.Pass.MixedProps
import Verif.Pass.DotProps
import Verif.Pass.AbsProps
import Verif.Pass.AbsBackends
import Verif.Pass.AbsExample
import Verif.Pass.AbsMca
import Verif.Pass.AbsCastProps
import Verif.Pass.VecProps
import Verif.Pass.VecExample
import Verif.Cli.Argp
import Verif.Cli.Backends
import Verif.Cli.Props
import Verif.Cli.BackendProps
import Verif.Cli.MeaningProps
import Verif.Cli.Tables
import Verif.Cli.ProgProps
import Verif.Cli.VprecProps
import Verif.Cli.AbsProgProps
import Verif.Cli.VecProgProps
import Verif.Vtk.Model
import Verif.Vtk.Props
import Verif.Ci.Views
import Verif.Ci.ViewProps
import Verif.Ci.Inspect
import Verif.Ci.InspectProps
import Verif.Pass.MeanOp
import Verif.Pass.MeanProps
import Verif.Pass.MeanShare
import Verif.Pass.MeanSquare
import Verif.Pass.MeanProg
import Verif.Ci.Setup
import Verif.Ci.SetupProps
import Verif.Ci.Args
import Verif.Ci.ArgsProps
import Verif.Probes.Fortran
import Verif.Probes.FortranProps
