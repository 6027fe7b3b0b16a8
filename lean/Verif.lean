import Verif.Props.Arith
import Verif.Props.Shift
import Verif.Props.Mul
import Verif.Props.Combination
import Verif.Props.Gradeschool
import Verif.Props.MulWidths
import Verif.Props.MuxGraph
import Verif.Props.MuxReduced
import Verif.Props.FheGraph
import Verif.Props.Torus
import Verif.Props.Poly
import Verif.Props.Glwe
import Verif.Props.Memory
import Verif.Props.Call
import Verif.Props.Isa
import Verif.Props.Alu
import Verif.Props.AluShift
import Verif.Props.Machine
import Verif.Props.LoadStore
import Verif.Props.Goldilocks
import Verif.Props.Zq
import Verif.Props.TriPairs
import Verif.Props.Scratch
import Verif.Props.Rlwe
import Verif.Props.Concurrency
import Verif.Props.SchedGraph
import Verif.Props.PlainInt
import Verif.Props.Fluent
import Verif.Props.FluentProg
import Verif.Props.FluentBad
import Verif.Props.FluentRunBad
import Verif.Props.FluentMul
import Verif.Props.Bincode
import Verif.Props.Keyswitch
import Verif.Props.Ggsw
import Verif.Props.Pbs
import Verif.Props.Trace
import Verif.Props.SchemeSwitch
import Verif.Props.Instr
import Verif.Props.CircuitBootstrap
import Verif.Props.Pfks
import Verif.Props.Pufks
import Verif.Props.BlindRot
import Verif.Props.GlevDec
import Verif.Props.Simd
import Verif.Props.Fft
import Verif.Props.SubAlloc
import Verif.Props.CtExec
import Verif.Props.RingPoly
import Verif.Props.LwePk
import Verif.Props.Dst
import Verif.Props.Layout
import Verif.Props.Stats
import Verif.Props.FluentRun
import Verif.Props.FluentMulProg
import Verif.Props.Traverse
import Verif.Props.Session
import Verif.Props.Computer
import Verif.Props.CellMachine
import Verif.Props.CtMachine
import Verif.Props.StoredProg
import Verif.Props.RunProgram
import Verif.Props.EncInt
import Verif.Props.EncCall
import Verif.Props.EncPacked
import Verif.Props.RoundedDiv
import Verif.Props.Rand
import Verif.Props.KeyOps
import Verif.Props.CallFrame
import Verif.Props.Security
import Verif.Props.Transforms
import Verif.Props.Debug
import Verif.Props.OneTimePad
import Verif.Props.Calls
import Verif.Props.CallsNoise
import Verif.Props.DynArgs
import Verif.Props.GasReport
import Verif.Props.TrivialInt
import Verif.Props.CircuitSession
import Verif.Props.FluentSession
