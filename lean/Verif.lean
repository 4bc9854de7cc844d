import Verif.Props.Bdt
import Verif.Props.BigInt
import Verif.Props.Capi
import Verif.Props.CapiLock
import Verif.Props.CapiPauli
import Verif.Props.CapiRead
import Verif.Props.CapiTable
import Verif.Props.CapiWords
import Verif.Props.CtrlProb
import Verif.Props.Defaults
import Verif.Props.Depolarize
import Verif.Props.Dispatch
import Verif.Props.EngineArith
import Verif.Props.EngineCarry
import Verif.Props.EngineCompare
import Verif.Props.EngineCompose
import Verif.Props.EngineCtrl
import Verif.Props.EngineExpect
import Verif.Props.EngineFullAdd
import Verif.Props.EngineGate
import Verif.Props.EngineHeap
import Verif.Props.EngineIO
import Verif.Props.EngineMask
import Verif.Props.EngineMaskGates
import Verif.Props.EngineMeas
import Verif.Props.EngineMeasReg
import Verif.Props.EngineMul
import Verif.Props.EngineProb
import Verif.Props.EngineSigned
import Verif.Props.EngineSignedCarry
import Verif.Props.EngineSwap
import Verif.Props.EngineTable
import Verif.Props.EngineUniform
import Verif.Props.EngineUnitary
import Verif.Props.ExpUnitary
import Verif.Props.GateAdd
import Verif.Props.GateLogic
import Verif.Props.Matrix2
import Verif.Props.ModMul
import Verif.Props.MultiShot
import Verif.Props.Neuron
import Verif.Props.Ocl
import Verif.Props.OclArith
import Verif.Props.OclAvg
import Verif.Props.OclForce
import Verif.Props.OclGate
import Verif.Props.OclJoin
import Verif.Props.OclMask
import Verif.Props.OclMeas
import Verif.Props.OclMul
import Verif.Props.OclTable
import Verif.Props.Pager
import Verif.Props.PagerJoin
import Verif.Props.PagerMeas
import Verif.Props.PairShots
import Verif.Props.ParFor
import Verif.Props.ParNorm
import Verif.Props.PhaseShard
import Verif.Props.QCircuit
import Verif.Props.QCircuitCone
import Verif.Props.QCircuitInc
import Verif.Props.QCircuitInverse
import Verif.Props.QCircuitPost
import Verif.Props.QFT
import Verif.Props.Race
import Verif.Props.Rotate
import Verif.Props.Rotations
import Verif.Props.SetBits
import Verif.Props.StabClifford
import Verif.Props.StabCompare
import Verif.Props.StabCompose
import Verif.Props.StabGate
import Verif.Props.StabHistory
import Verif.Props.StabMeasure
import Verif.Props.StabProduct
import Verif.Props.StabRead
import Verif.Props.StabReadMore
import Verif.Props.StabSeparable
import Verif.Props.Stream
import Verif.Props.SwapMap
import Verif.Props.TensorNet
import Verif.Props.TensorNetCases
import Verif.Props.TimeEvolve
import Verif.Props.UnitArith
import Verif.Props.UnitClifford
import Verif.Props.UnitDetach
import Verif.Props.UnitDiff
import Verif.Props.UnitEntangle
import Verif.Props.UnitMeasure
import Verif.Props.UnitMul
import Verif.Props.UnitMulti
import Verif.Props.UnitRange
import Verif.Props.UnitRead
import Verif.Props.UnitSetState
import Verif.Props.UnitUniform
import Verif.Props.Utils
