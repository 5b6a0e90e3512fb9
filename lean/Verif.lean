import Verif.Model.Bus
import Verif.Model.BusBlocks
import Verif.Model.Engine
import Verif.Model.Field
import Verif.Model.History
import Verif.Model.Report
import Verif.Model.Simulator
import Verif.Model.Stepper
import Verif.Model.Topology
import Verif.Proof.Assign
import Verif.Proof.Bus
import Verif.Props.C01
import Verif.Props.C02
import Verif.Props.C03
import Verif.Props.C04
import Verif.Props.C05
import Verif.Props.C06
import Verif.Props.C07
import Verif.Props.C08
import Verif.Props.C09
import Verif.Props.C10
import Verif.Props.C11
import Verif.Props.C12
import Verif.Props.C13
import Verif.Props.C14
import Verif.Props.C15
import Verif.Props.C16
import Verif.Props.C17
import Verif.Props.C18
import Verif.Props.C19
import Verif.Props.C20
import Verif.Props.C21
import Verif.Props.C22
import Verif.Props.C23
import Verif.Props.C24
import Verif.Props.C25
import Verif.Props.C26
import Verif.Props.C27
import Verif.Props.C28
import Verif.Props.C29
import Verif.Props.C30
import Verif.Props.C31
import Verif.Props.C32
import Verif.Props.C33
import Verif.Props.C34
import Verif.Props.C35
import Verif.Props.C36
import Verif.Props.C37
import Verif.Props.C38
import Verif.Props.C39
import Verif.Props.C40
import Verif.Props.C41
import Verif.Props.C42
import Verif.Props.C43
import Verif.Props.C44
import Verif.Props.C45
import Verif.Props.C46
import Verif.Props.C47
import Verif.Props.C48
import Verif.Props.C49
import Verif.Props.C50
import Verif.Props.C51
import Verif.Props.C52
import Verif.Props.C53
import Verif.Props.C54
import Verif.Props.C55
import Verif.Props.C56
import Verif.Spec.Total
import Verif.Proof.Total
import Verif.Proof.TotalEval
import Verif.Proof.TotalRun
import Verif.Props.C57
import Verif.Model.Build
import Verif.Spec.Build
import Verif.Proof.Build
import Verif.Props.C58
import Verif.Spec.Sealed
import Verif.Proof.Sealed
import Verif.Props.C59
import Verif.Spec.Trajectory
import Verif.Props.C60
import Verif.Proof.Converge
import Verif.Props.C61
import Verif.Model.Lifetime
import Verif.Spec.Lifetime
import Verif.Proof.Lifetime
import Verif.Props.C62
import Verif.Spec.Traceback
import Verif.Props.C63
import Verif.Model.Ownership
import Verif.Spec.Ownership
import Verif.Proof.Ownership
import Verif.Props.C64
import Verif.Spec.Mirror
import Verif.Proof.Mirror
import Verif.Props.C65
import Verif.Spec.Sketch
import Verif.Proof.Course
import Verif.Proof.Sketch
import Verif.Proof.Lag
import Verif.Proof.Drift
import Verif.Props.C66
import Verif.Spec.Session
import Verif.Proof.Session
import Verif.Props.C67
import Verif.Proof.Fourth
import Verif.Spec.Smooth
import Verif.Proof.Sharp
import Verif.Props.C68
import Verif.Proof.Settle
import Verif.Spec.Passage
import Verif.Props.C69
import Verif.Model.Rounded
import Verif.Spec.Rounding
import Verif.Proof.Rounding
import Verif.Proof.Binary
import Verif.Props.C70
import Verif.Spec.Accuracy
import Verif.Proof.Accuracy
import Verif.Proof.About
import Verif.Proof.Erring
import Verif.Proof.Gather
import Verif.Proof.Orders
import Verif.Proof.Inexact
import Verif.Props.C71
import Verif.Proof.Restrict
import Verif.Props.C72
import Verif.Props.C73
import Verif.Props.C74
import Verif.Spec.Linear
import Verif.Proof.Linear
import Verif.Props.C75
import Verif.Spec.Pace
import Verif.Spec.Steady
import Verif.Proof.Pace
import Verif.Proof.Tempo
import Verif.Props.C76
import Verif.Spec.Lump
import Verif.Proof.Lump
import Verif.Props.C77
import Verif.Proof.Repeat
import Verif.Props.C78
import Verif.Spec.Reset
import Verif.Proof.Reset
import Verif.Props.C79
import Verif.Spec.Slice
import Verif.Proof.Slice
import Verif.Props.C80
import Verif.Spec.Accept
import Verif.Proof.Accept
import Verif.Props.C81
import Verif.Model.Extended
import Verif.Spec.Extended
import Verif.Proof.Extended
import Verif.Props.C82
import Verif.Model.Text
import Verif.Spec.Text
import Verif.Proof.Text
import Verif.Props.C83
import Verif.Spec.Meet
import Verif.Props.C84
import Verif.Spec.Timed
import Verif.Proof.Timed
import Verif.Proof.Chord
import Verif.Props.C85
import Verif.Spec.Ideal
import Verif.Props.C86
import Verif.Spec.Quad
import Verif.Proof.Simpson
import Verif.Props.C87
import Verif.Spec.Swing
import Verif.Props.C88
import Verif.Model.Special
import Verif.Spec.Special
import Verif.Props.C89
import Verif.Spec.Machine
import Verif.Props.C90
import Verif.Spec.Damped
import Verif.Props.C91
import Verif.Spec.Rest
import Verif.Props.C92
import Verif.Spec.Region
import Verif.Props.C93
import Verif.Spec.Near
import Verif.Props.C94
import Verif.Spec.Compare
import Verif.Props.C95
import Verif.Spec.Coarse
import Verif.Props.C96
import Verif.Spec.Alike
import Verif.Props.C97
import Verif.Spec.Recur
import Verif.Props.C98
import Verif.Spec.Forget
import Verif.Props.C99
import Verif.Spec.Pursue
import Verif.Props.C100
import Verif.Spec.Units
import Verif.Props.C101
import Verif.Check.Tests
