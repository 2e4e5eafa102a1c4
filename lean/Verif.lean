import Verif.Props.Bits
import Verif.Props.Morton
import Verif.Props.Build
import Verif.Props.Checked
import Verif.Props.State
import Verif.Props.Disc
import Verif.Props.NodeProps
import Verif.Props.Trav
import Verif.Props.Loops
import Verif.Props.AccPot
import Verif.Props.Force
import Verif.Props.Padding
import Verif.Props.Alloc
import Verif.Props.Newton
import Verif.Props.Print
import Verif.Props.Kwargs
import Verif.Props.Ctor
import Verif.Props.Coll
import Verif.Props.Split
import Verif.Props.Gpu
import Verif.Props.Finite
import Verif.Props.Error
import Verif.Props.Box
import Verif.Props.User
import Verif.Props.Order
import Verif.Props.Theta
import Verif.Props.Rounding
import Verif.Props.Singular
import Verif.Props.NodeErr
import Verif.Props.CellErr
import Verif.Props.TreeErr
import Verif.Props.GeomErr
import Verif.Props.PadVal
import Verif.Props.Quant
import Verif.Props.Overloads
import Verif.Props.GpuErr
import Verif.Props.Repro
import Verif.Props.Views
import Verif.Props.Races
import Verif.Props.Asserts
import Verif.Props.Cuda
import Verif.Props.Numbers
import Verif.Props.Libmorton
import Verif.Props.Buffers
import Verif.Props.Updates
import Verif.Props.Leapfrog
import Verif.Props.Builder
import Verif.Props.CollIeee
import Verif.Props.CollBench
import Verif.Props.Momentum
import Verif.Props.MoveBench
import Verif.Props.Axes
import Verif.Props.AccBench
import Verif.Props.MomentumIeee
import Verif.Props.Plummer
import Verif.Props.Rocm
import Verif.Props.Uniform
import Verif.Props.ExactIdx
