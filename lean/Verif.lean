import Verif.Py.Basic
import Verif.Py.Lemmas
import Verif.Nd.Basic
import Verif.Nd.Lemmas
import Verif.Nd.Ops
import Verif.Nd.OpsLemmas
import Verif.Model.Contract
import Verif.Lemmas.Contract
import Verif.Model.Heap
import Verif.Lemmas.Heap
import Verif.Props.C01
import Verif.Props.C20
import Verif.Spec.Tree
import Verif.Lemmas.Tree
import Verif.Props.C03
import Verif.Props.C04
import Verif.Spec.Generate
import Verif.Lemmas.Generate
import Verif.Props.C07
import Verif.Model.Vector
import Verif.Model.Split
import Verif.Props.C08
import Verif.Lemmas.Relink
import Verif.Lemmas.SplitInv
import Verif.Lemmas.SplitMutual
import Verif.Props.C02
import Verif.Lemmas.Labelled
import Verif.Lemmas.SplitArrays
import Verif.Lemmas.UniteFull
import Verif.Lemmas.SplitFull
import Verif.Spec.Network
import Verif.Lemmas.Moves
import Verif.Lemmas.Moves2
import Verif.Lemmas.MidNet
import Verif.Lemmas.Network
import Verif.Lemmas.TreeNet
import Verif.Props.C10
import Verif.Lemmas.Reunite
import Verif.Props.C09
import Verif.Lemmas.TreeSum
import Verif.Lemmas.TreeSum2
import Verif.Lemmas.EnvArr
import Verif.Model.Env
import Verif.Spec.Env
import Verif.Lemmas.Env
import Verif.Lemmas.Env2
import Verif.Lemmas.Env3
import Verif.Props.C14
import Verif.Lemmas.Env4
import Verif.Props.C15
import Verif.Model.IterVisitor
import Verif.Props.C25
import Verif.Model.Huffman
import Verif.Props.C24
import Verif.Model.Triangular
import Verif.Props.C22
import Verif.Model.CompressedSvd
import Verif.Props.C21
import Verif.Model.Normalize
import Verif.Spec.Normalize
import Verif.Lemmas.Normalize
import Verif.Props.C18
import Verif.Props.C19
import Verif.Model.Ode
import Verif.Props.C30
import Verif.Props.C31
import Verif.Nd.AddLemmas
import Verif.Nd.Einsum
import Verif.Model.Dmrg
import Verif.Spec.Dmrg
import Verif.Lemmas.Dmrg
import Verif.Props.C33
import Verif.Lemmas.DmrgGrain
import Verif.Lemmas.DmrgSweep
import Verif.Props.C37
import Verif.Props.C35
import Verif.Props.C34
import Verif.Model.Units
import Verif.Props.C48
import Verif.Model.SpinBoson
import Verif.Props.C53
import Verif.Props.C54
import Verif.Props.C60
import Verif.Model.Corr
import Verif.Props.C46
import Verif.Model.Dvr
import Verif.Props.C38
import Verif.Props.C51
import Verif.Model.Sweep
import Verif.Spec.Sweep
import Verif.Lemmas.Sweep
import Verif.Lemmas.Sweep2
import Verif.Props.C26
import Verif.Lemmas.Sweep3
import Verif.Props.C27
import Verif.Props.C52
import Verif.Model.MultiLayer
import Verif.Spec.TermVisitor
import Verif.Lemmas.TermVisitor
import Verif.Lemmas.MultiLayer
import Verif.Props.C29
import Verif.Props.C16
import Verif.Model.Heom
import Verif.Spec.Heom
import Verif.Lemmas.Heom
import Verif.Lemmas.Heom2
import Verif.Model.HeomNetwork
import Verif.Lemmas.Star
import Verif.Props.C42
import Verif.Model.Phonon
import Verif.Lemmas.Phonon
import Verif.Props.C49
import Verif.Model.SineDvr
import Verif.Lemmas.Sine
import Verif.Props.C39
import Verif.Model.Grids
import Verif.Lemmas.Fourier
import Verif.Props.C41
import Verif.Model.Davidson
import Verif.Spec.Davidson
import Verif.Lemmas.Davidson
import Verif.Lemmas.Davidson2
import Verif.Props.C50
import Verif.Model.Eom
import Verif.Model.SplitProp
import Verif.Spec.SplitProp
import Verif.Lemmas.Eom
import Verif.Lemmas.Eom2
import Verif.Spec.Eom
import Verif.Lemmas.Eom3
import Verif.Lemmas.Eom4
import Verif.Props.C32
import Verif.Lemmas.Field
import Verif.Lemmas.Overlap
import Verif.Lemmas.Overlap2
import Verif.Lemmas.FormEnv
import Verif.Lemmas.RootForce
import Verif.Lemmas.SumTerms
import Verif.Lemmas.Keep
import Verif.Lemmas.SplitProp
import Verif.Lemmas.Tangent
import Verif.Lemmas.Dirac
import Verif.Lemmas.Dirac2
import Verif.Lemmas.Dirac3
import Verif.Lemmas.Euler
import Verif.Lemmas.Contraction
import Verif.Props.C17
import Verif.Lemmas.SplitProp2
import Verif.Props.C28
import Verif.Props.C63
import Verif.Model.Autocomplete
import Verif.Spec.Autocomplete
import Verif.Lemmas.Autocomplete
import Verif.Lemmas.Autocomplete2
import Verif.Lemmas.Autocomplete3
import Verif.Lemmas.Autocomplete4
import Verif.Props.C23
import Verif.Props.C64
import Verif.Model.Mctdh
import Verif.Spec.Mctdh
import Verif.Lemmas.Mctdh
import Verif.Lemmas.Mctdh2
import Verif.Lemmas.Mctdh3
import Verif.Lemmas.Mctdh4
import Verif.Lemmas.Mctdh5
import Verif.Lemmas.Mctdh6
import Verif.Props.C65
import Verif.Props.C66
import Verif.Props.C67
import Verif.Props.C68
import Verif.Props.C69
import Verif.Model.DirectSolve
import Verif.Spec.DirectSolve
import Verif.Lemmas.DirectSolve
import Verif.Lemmas.DirectSolve2
import Verif.Lemmas.DirectSolve3
import Verif.Props.C70
import Verif.Props.C71
import Verif.Props.C72
import Verif.Props.C73
import Verif.Props.C74
import Verif.Props.C75
import Verif.Props.C76
import Verif.Props.C77
import Verif.Props.C79
import Verif.Props.C80
import Verif.Props.C82
import Verif.Props.C83
import Verif.Props.C84
import Verif.Props.C87
import Verif.Props.C88
import Verif.Props.C89
import Verif.Props.C90
import Verif.Props.C91
import Verif.Props.C93
import Verif.Props.C94
import Verif.Props.C95
import Verif.Props.C96
import Verif.Props.C97
import Verif.Props.C98
import Verif.Props.C100
import Verif.Props.C101
import Verif.Props.C103
import Verif.Props.C105
import Verif.Props.C106
import Verif.Props.C107
import Verif.Props.C110
import Verif.Props.C108
import Verif.Props.C107Limit
import Verif.Props.C109
import Verif.Props.C111
import Verif.Props.C114
import Verif.Props.C115
import Verif.Props.C116
import Verif.Props.C117
import Verif.Props.C116Limit
import Verif.Props.C118
import Verif.Props.C118Eigsh
import Verif.Props.C50Exact
import Verif.Props.C119
import Verif.Props.C120
import Verif.Props.C108Matvec
import Verif.Props.C121
import Verif.Props.C122
import Verif.Spec.DmrgEnergy
import Verif.Lemmas.DmrgForm
import Verif.Lemmas.DmrgPair
import Verif.Lemmas.DmrgMove
import Verif.Props.C123
import Verif.Lemmas.DmrgDescent
import Verif.Lemmas.DmrgExact
import Verif.Lemmas.DmrgLimit
import Verif.Props.C124
import Verif.Model.FmState
import Verif.Lemmas.DmrgHeisenberg
import Verif.Props.C125
import Verif.Spec.Truncation
import Verif.Lemmas.Truncate
import Verif.Lemmas.Truncate2
import Verif.Lemmas.Truncate3
import Verif.Lemmas.Truncate4
import Verif.Lemmas.Truncate5
import Verif.Lemmas.Truncate6
import Verif.Props.C126
import Verif.Props.C126Best
import Verif.Lemmas.Truncate7
import Verif.Lemmas.EckartYoungC
import Verif.Spec.Conserve
import Verif.Lemmas.Conserve
import Verif.Lemmas.Conserve2
import Verif.Lemmas.Conserve3
import Verif.Lemmas.Conserve4
import Verif.Lemmas.Merge
import Verif.Props.C127
import Verif.Model.DmrgError
import Verif.Spec.DmrgTrunc
import Verif.Lemmas.DmrgTrunc
import Verif.Lemmas.EckartYoung
import Verif.Lemmas.DmrgSorted
import Verif.Props.C128
import Verif.Lemmas.DmrgTrunc1
import Verif.Props.C129
import Verif.Model.SbmDense
import Verif.Props.C130
import Verif.Model.OdeReal
import Verif.Spec.OdeReal
import Verif.Lemmas.Idle
import Verif.Props.C131
import Verif.Lemmas.Density
import Verif.Spec.Regular
import Verif.Lemmas.Regular
import Verif.Props.C132
import Verif.Lemmas.DmrgBest1
import Verif.Spec.Full
import Verif.Lemmas.Full
import Verif.Lemmas.Full2
import Verif.Lemmas.Full3
import Verif.Spec.FullSweep
import Verif.Props.C133
import Verif.Spec.Complete
import Verif.Lemmas.Absorb
import Verif.Lemmas.SplitRank
import Verif.Lemmas.Absorb2
import Verif.Lemmas.SweepDetail
import Verif.Lemmas.Full4
import Verif.Lemmas.Full5
import Verif.Lemmas.Full6
import Verif.Lemmas.Full7
import Verif.Lemmas.EnvRange
import Verif.Lemmas.Full8
import Verif.Lemmas.FullSvd
import Verif.Lemmas.SweepDetail2
import Verif.Lemmas.PairRank
import Verif.Lemmas.AbsorbPair
import Verif.Lemmas.Full9
import Verif.Props.C134
import Verif.Model.SbmBasis
import Verif.Props.C135
import Verif.Model.Unzip
import Verif.Props.C136
import Verif.Model.PoFast
import Verif.Props.C137
import Verif.Model.GridStates
import Verif.Props.C138
import Verif.Model.GridStatesProp
import Verif.Props.C139
