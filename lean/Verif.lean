import Verif.Props.Nodes
import Verif.Props.Vde
import Verif.Props.Mna
import Verif.Props.MnaSrc
import Verif.Props.MnaOrder
import Verif.Props.Passive
import Verif.Props.Dyn
import Verif.Props.Build
import Verif.Props.Remove
import Verif.Props.Conv
import Verif.Props.Newton
import Verif.Props.Homotopy
import Verif.Props.Axes
import Verif.Props.Sweep
import Verif.Props.Comb
import Verif.Props.StepPts
import Verif.Props.Memo
import Verif.Props.DfBuffer
import Verif.Props.Transient
import Verif.Props.DF
import Verif.Props.TimeFun
import Verif.Props.Units
import Verif.Props.Small
import Verif.Props.Directive
import Verif.Props.Netlist
import Verif.Props.Parse
import Verif.Props.Subckt
import Verif.Props.Switch
import Verif.Props.Ic
import Verif.Props.Diode
import Verif.Props.Mosq
import Verif.Props.Stamp
import Verif.Props.Ekv
import Verif.Props.Csv
import Verif.Props.Results
import Verif.Props.Power
import Verif.Props.Phasor
import Verif.Props.Run
import Verif.Props.Call
import Verif.Props.Check
import Verif.Props.Arr
import Verif.Props.Pss
import Verif.Props.Fourier
import Verif.Props.Thd
import Verif.Props.Plot
import Verif.Props.Symbolic
import Verif.Props.Pz
import Verif.Props.Guess
import Verif.Props.Op
import Verif.Props.Cli
import Verif.Props.Tran
import Verif.Props.Ac
import Verif.Props.Rlc
import Verif.Props.Iter
import Verif.Props.Files
import Verif.Props.Consts
import Verif.Props.Tunnel
import Verif.Props.Recip
import Verif.Props.Stable
import Verif.Props.Bound
import Verif.Props.Steady
import Verif.Props.Devices
import Verif.Props.OpInfo
import Verif.Props.Lookup
import Verif.Props.Signal
import Verif.Props.Rest
import Verif.Props.Mos
import Verif.Props.Models
import Verif.Props.MosqInfo
import Verif.Props.DcFront
import Verif.Props.DcLinear
import Verif.Props.Super
import Verif.Props.AcLinear
import Verif.Props.EkvInfo
import Verif.Props.PrintAn
import Verif.Props.EkvG
import Verif.Props.MosCtor
import Verif.Props.CircStr
import Verif.Props.Scale
import Verif.Props.Imp
import Verif.Props.Rename
import Verif.Props.RenameB
import Verif.Props.Laws
import Verif.Props.PssRun
import Verif.Props.PssSrc
import Verif.Props.AcLaws
import Verif.Props.Testing
import Verif.Props.Rayleigh
import Verif.Props.AcRead
import Verif.Props.EkvNewton
import Verif.Props.DiodeNewton
import Verif.Props.Conserve
import Verif.Props.Converge
import Verif.Props.Refs
import Verif.Props.Nonlin
import Verif.Props.Raise
import Verif.Props.Overshoot
import Verif.Props.Thevenin
import Verif.Props.Settle
import Verif.Props.Phasor
import Verif.Props.Accuracy
import Verif.Props.Exist
import Verif.Props.OpTable
import Verif.Props.PssAgree
import Verif.Props.GearEnergy
import Verif.Props.MosParam
import Verif.Props.TranFront
import Verif.Props.PlotFrame
import Verif.Props.Temp
import Verif.Props.SymDev
import Verif.Props.UserElem
import Verif.Props.SwitchInfo
import Verif.Props.Immittance
import Verif.Props.LineErr
import Verif.Props.NetApi
import Verif.Props.Include
import Verif.Props.IcDir
import Verif.Props.Layout
import Verif.Props.Spectrum
import Verif.Props.SymFront
import Verif.Props.Foster
import Verif.Props.Streams
import Verif.Props.Member
import Verif.Props.Parallel
import Verif.Props.AcEquiv
import Verif.Props.LawsStar
import Verif.Props.TranRecip
import Verif.Props.Messages
import Verif.Props.ShootInit
import Verif.Props.TrapRecip
import Verif.Props.AnyRecip
import Verif.Props.AcThevenin
import Verif.Props.Subst
import Verif.Props.Tellegen
import Verif.Props.AcSubst
import Verif.Props.SymTf
import Verif.Props.Headers
import Verif.Props.NewAn
import Verif.Props.OpReport
