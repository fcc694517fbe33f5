import Verif.Model.Apply
import Verif.Model.Arith
import Verif.Model.Bits
import Verif.Model.Builder
import Verif.Model.Calc
import Verif.Model.Cond
import Verif.Model.Examples
import Verif.Model.Expand
import Verif.Model.Fail
import Verif.Model.Float
import Verif.Model.FloatGates
import Verif.Model.FloatLoop
import Verif.Model.FloatMeasure
import Verif.Model.Format
import Verif.Model.Gates
import Verif.Model.Hash
import Verif.Model.InvertText
import Verif.Model.Iter
import Verif.Model.Look
import Verif.Model.Measure
import Verif.Model.Ops
import Verif.Model.Parse
import Verif.Model.Program
import Verif.Model.Ratio64
import Verif.Model.Schedule
import Verif.Model.Sub
import Verif.Model.Wide
import Verif.Model.WideCalc
import Verif.Model.Words64
import Verif.Proofs.Add
import Verif.Proofs.Add2
import Verif.Proofs.AddMod
import Verif.Proofs.AddMod2
import Verif.Proofs.Adjoint
import Verif.Proofs.Apply
import Verif.Proofs.Apply2
import Verif.Proofs.Arith
import Verif.Proofs.ArithKinds
import Verif.Proofs.Asleep
import Verif.Proofs.Binary
import Verif.Proofs.Bits
import Verif.Proofs.Born
import Verif.Proofs.Both
import Verif.Proofs.Calc
import Verif.Proofs.Calc2
import Verif.Proofs.Calc3
import Verif.Proofs.Classical
import Verif.Proofs.Client
import Verif.Proofs.Clone
import Verif.Proofs.Commute
import Verif.Proofs.Cond
import Verif.Proofs.Cond2
import Verif.Proofs.Cond3
import Verif.Proofs.CondAdd
import Verif.Proofs.CondAddInv
import Verif.Proofs.CondAddInv2
import Verif.Proofs.CondCarry
import Verif.Proofs.CondGP
import Verif.Proofs.CondGamma
import Verif.Proofs.CondSeg
import Verif.Proofs.CondSub
import Verif.Proofs.Dagger
import Verif.Proofs.Dedup
import Verif.Proofs.DedupHist
import Verif.Proofs.Defer
import Verif.Proofs.Dense
import Verif.Proofs.Does
import Verif.Proofs.Doze
import Verif.Proofs.Embed
import Verif.Proofs.Emit
import Verif.Proofs.Emit2
import Verif.Proofs.Entwine
import Verif.Proofs.Equiv
import Verif.Proofs.ExactMeasure
import Verif.Proofs.FloatCertain
import Verif.Proofs.FloatErr
import Verif.Proofs.FloatExact
import Verif.Proofs.FloatExact2
import Verif.Proofs.FloatExact3
import Verif.Proofs.FloatExact4
import Verif.Proofs.FloatGates
import Verif.Proofs.FloatJoint
import Verif.Proofs.FloatJoint2
import Verif.Proofs.FloatLoop
import Verif.Proofs.FloatLoop2
import Verif.Proofs.FloatMoves
import Verif.Proofs.FloatRun
import Verif.Proofs.Freq
import Verif.Proofs.Gates2
import Verif.Proofs.Groups
import Verif.Proofs.Grover
import Verif.Proofs.Grow
import Verif.Proofs.Handle
import Verif.Proofs.History
import Verif.Proofs.Ieee
import Verif.Proofs.IeeeCircuit
import Verif.Proofs.IeeeCollapse
import Verif.Proofs.IeeeErr
import Verif.Proofs.IeeeMeasure
import Verif.Proofs.IeeeProb
import Verif.Proofs.IeeeSample
import Verif.Proofs.IeeeStep
import Verif.Proofs.IeeeStep2
import Verif.Proofs.Inverse
import Verif.Proofs.InverseSub
import Verif.Proofs.InvertFn
import Verif.Proofs.InvertSends
import Verif.Proofs.Iter
import Verif.Proofs.Iter2
import Verif.Proofs.Keep
import Verif.Proofs.Kernel
import Verif.Proofs.Kinds
import Verif.Proofs.Ledger
import Verif.Proofs.LedgerFns
import Verif.Proofs.Loose
import Verif.Proofs.LooseEqui
import Verif.Proofs.Main
import Verif.Proofs.Masked
import Verif.Proofs.Measure
import Verif.Proofs.Measure2
import Verif.Proofs.Moves
import Verif.Proofs.Nest
import Verif.Proofs.Ops
import Verif.Proofs.Ops2
import Verif.Proofs.Oracle
import Verif.Proofs.Pair
import Verif.Proofs.Panics
import Verif.Proofs.Panics2
import Verif.Proofs.Pool
import Verif.Proofs.Program
import Verif.Proofs.Program2
import Verif.Proofs.Qfft
import Verif.Proofs.QuietArith
import Verif.Proofs.QuietInv
import Verif.Proofs.QuietMod
import Verif.Proofs.Ratio64
import Verif.Proofs.Reg
import Verif.Proofs.Rename
import Verif.Proofs.Repl
import Verif.Proofs.Rows
import Verif.Proofs.Runs
import Verif.Proofs.Schedule
import Verif.Proofs.Shift
import Verif.Proofs.Shift2
import Verif.Proofs.Sim
import Verif.Proofs.Sim2
import Verif.Proofs.Simon
import Verif.Proofs.Sleep
import Verif.Proofs.Square
import Verif.Proofs.Steady
import Verif.Proofs.Struct
import Verif.Proofs.StructEqui
import Verif.Proofs.SubApply
import Verif.Proofs.SubDoes
import Verif.Proofs.Sure
import Verif.Proofs.Swell
import Verif.Proofs.Teleport
import Verif.Proofs.Temp
import Verif.Proofs.Text
import Verif.Proofs.Times
import Verif.Proofs.TimesOne
import Verif.Proofs.TimesOne2
import Verif.Proofs.Toffoli
import Verif.Proofs.Tour
import Verif.Proofs.Uncompute
import Verif.Proofs.Undo
import Verif.Proofs.Uses
import Verif.Proofs.Uses2
import Verif.Proofs.Uses3
import Verif.Proofs.Uses4
import Verif.Proofs.Uses5
import Verif.Proofs.Uses6
import Verif.Proofs.Uses7
import Verif.Proofs.Wave
import Verif.Proofs.Wave2
import Verif.Proofs.Weighs
import Verif.Proofs.Wide
import Verif.Proofs.WordRun
import Verif.Proofs.WordRun2
import Verif.Proofs.Words
import Verif.Proofs.Words64
import Verif.Props.AddMod
import Verif.Props.AllHist
import Verif.Props.Apply
import Verif.Props.Arith
import Verif.Props.Bits
import Verif.Props.Born
import Verif.Props.Calc
import Verif.Props.Client
import Verif.Props.Clone
import Verif.Props.Commute
import Verif.Props.Cond
import Verif.Props.Control
import Verif.Props.Copies
import Verif.Props.Counts
import Verif.Props.Defer
import Verif.Props.Dense
import Verif.Props.Equiv
import Verif.Props.Errors
import Verif.Props.Examples
import Verif.Props.Exp
import Verif.Props.Float
import Verif.Props.FloatCertain
import Verif.Props.FloatCertain2
import Verif.Props.FloatExact
import Verif.Props.FloatGates
import Verif.Props.FloatJoint
import Verif.Props.FloatLoop
import Verif.Props.FloatMain
import Verif.Props.FloatSimon
import Verif.Props.FloatState
import Verif.Props.FloatTeleport
import Verif.Props.Format
import Verif.Props.Freq
import Verif.Props.Gamma
import Verif.Props.Gates
import Verif.Props.Grover
import Verif.Props.Handles
import Verif.Props.Hash
import Verif.Props.Idle
import Verif.Props.Ieee
import Verif.Props.IeeeMeasure
import Verif.Props.IeeeMeasure2
import Verif.Props.IeeeMeasure3
import Verif.Props.Inverse
import Verif.Props.InvertText
import Verif.Props.Iter
import Verif.Props.Locality
import Verif.Props.Loose
import Verif.Props.Main
import Verif.Props.Matrices
import Verif.Props.Measure
import Verif.Props.Mult
import Verif.Props.Ops
import Verif.Props.Oracle
import Verif.Props.Pair
import Verif.Props.Panics
import Verif.Props.Parse
import Verif.Props.Program
import Verif.Props.Qfft
import Verif.Props.Ratio64
import Verif.Props.Refuse
import Verif.Props.Registers
import Verif.Props.Runs
import Verif.Props.Saved
import Verif.Props.Signal
import Verif.Props.Simon
import Verif.Props.Sleep
import Verif.Props.Stale
import Verif.Props.Steady
import Verif.Props.Struct
import Verif.Props.StructInv
import Verif.Props.Sub
import Verif.Props.Teleport
import Verif.Props.Temp
import Verif.Props.Text
import Verif.Props.Times
import Verif.Props.Tour
import Verif.Props.Uncompute
import Verif.Props.Undo
import Verif.Props.Wide
import Verif.Props.WideCalc
import Verif.Props.WordCalc
import Verif.Spec.Arith
import Verif.Spec.Bits
import Verif.Spec.Born
import Verif.Spec.Circuits
import Verif.Spec.Clean
import Verif.Spec.Client
import Verif.Spec.Clone
import Verif.Spec.Commute
import Verif.Spec.Cond
import Verif.Spec.Copies
import Verif.Spec.Counts
import Verif.Spec.Defer
import Verif.Spec.Dense
import Verif.Spec.Equiv
import Verif.Spec.Examples
import Verif.Spec.Float
import Verif.Spec.FloatCertain
import Verif.Spec.FloatExact
import Verif.Spec.FloatGates
import Verif.Spec.FloatJoint
import Verif.Spec.FloatLoop
import Verif.Spec.FloatMain
import Verif.Spec.FloatState
import Verif.Spec.History
import Verif.Spec.Ieee
import Verif.Spec.IeeeMeasure
import Verif.Spec.Iter
import Verif.Spec.Loose
import Verif.Spec.Main
import Verif.Spec.Matrix
import Verif.Spec.Measure
import Verif.Spec.Nest
import Verif.Spec.Oracle
import Verif.Spec.Pair
import Verif.Spec.Panics
import Verif.Spec.Program
import Verif.Spec.Ratio64
import Verif.Spec.Registers
import Verif.Spec.Schedule
import Verif.Spec.Signal
import Verif.Spec.Simon
import Verif.Spec.Sized
import Verif.Spec.Sleep
import Verif.Spec.Stale
import Verif.Spec.Steady
import Verif.Spec.Struct
import Verif.Spec.Sub
import Verif.Spec.Teleport
import Verif.Spec.Text
import Verif.Spec.Tour
import Verif.Spec.Uncompute
import Verif.Spec.Value
import Verif.Spec.Wave
