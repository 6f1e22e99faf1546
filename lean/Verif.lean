import Verif.Graph.Props
import Verif.Action.Props
import Verif.Dag.Lemmas
import Verif.Paths.Props
import Verif.Gen.Props
import Verif.Pipeline.Props
import Verif.CI.Props
import Verif.Orient.Props
import Verif.PC.Props
import Verif.Stats.Props
import Verif.Sample.Props
import Verif.Data.Props
import Verif.Vars.Props
import Verif.Serial.Props
import Verif.Workspace.Props
import Verif.Workspace.DiffProps
import Verif.UI.Props
import Verif.Par.Props
import Verif.PC.ParProps
import Verif.PC.StableProps
import Verif.Effects.Props
import Verif.PC.CpdagProps
import Verif.Hooks.Props
import Verif.Sample.InitialProps
import Verif.Linear.Props
import Verif.Linear.RegressionProps
import Verif.Linear.Constant
import Verif.Fci.Props
import Verif.EndToEnd.Props
import Verif.EndToEnd.WholeProps
import Verif.Cli.Props
import Verif.Heap.Props
import Verif.Mixins.Props
import Verif.Crash.Props
import Verif.Concurrent.Props
import Verif.Eject.Props
import Verif.Deaths.Props
import Verif.EndToEnd.CommandProps
import Verif.Rounding.Props
import Verif.Rename.Props
import Verif.Rounding.GenerateProps
import Verif.PC.StableCpdag
import Verif.Rounding.StableProps
