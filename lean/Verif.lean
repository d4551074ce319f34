import Verif.Props.C01
import Verif.Props.C02_C06
import Verif.Props.C04_C07_C09
import Verif.Props.C10
import Verif.Props.C11_C16
import Verif.Props.C17_C18
import Verif.Props.C19_C21
import Verif.Props.C22
import Verif.Props.C23
import Verif.Props.C24
import Verif.Props.C25
import Verif.Props.C26
import Verif.Props.C31_C33
import Verif.Props.C34_C35
import Verif.Props.C36_C37
import Verif.Props.C27
import Verif.Props.C28
import Verif.Props.C29
import Verif.Props.C30
import Verif.Props.C59
import Verif.Props.C60
import Verif.Props.C38_C39
import Verif.Props.C44_C46
import Verif.Props.C46_C61
import Verif.Props.C40
import Verif.Props.C41
import Verif.Props.C42_C43
import Verif.Props.C57
import Verif.Props.C62
import Verif.Props.C47
import Verif.Props.C48
import Verif.Props.C49_C51
import Verif.Props.C52
import Verif.Props.C53
import Verif.Props.C54_C56
import Verif.Props.C58
import Verif.Props.C66_C70
import Verif.Props.C71
import Verif.Props.C72
import Verif.Props.C73_C75
import Verif.Props.C68
import Verif.Props.C76
import Verif.Props.C77
import Verif.Props.C78
import Verif.Props.C79
import Verif.Props.C80
import Verif.Props.C81
import Verif.Props.C83
import Verif.Model.Spectrum
import Verif.Lemmas.Spectrum
import Verif.Props.C85
import Verif.Props.C86_C87
import Verif.Model.TrainStep
import Verif.Props.C88_C91
import Verif.Model.CubeStokes
import Verif.Lemmas.CubePressure
import Verif.Lemmas.CubeStokes
import Verif.Lemmas.CubeClosed
import Verif.Props.C92
import Verif.Lemmas.CubeBubble
import Verif.Lemmas.CubeKernel
import Verif.Props.C93
import Verif.Lemmas.StokesExact
import Verif.Lemmas.CubeExact
import Verif.Props.C94
import Verif.Lemmas.CubeConv
import Verif.Props.C95
import Verif.Props.C96
import Verif.Props.C97
import Verif.Props.C98
import Verif.Props.C99
import Verif.Props.C100
import Verif.Props.C101
import Verif.Props.C102
import Verif.Lemmas.BDFStable
import Verif.Lemmas.TimeConv
import Verif.Lemmas.TimeTrunc
import Verif.Lemmas.StokesTime
import Verif.Props.C103
import Verif.Props.C103Violated
import Verif.Lemmas.NSConv
import Verif.Lemmas.NSTime
import Verif.Props.C104
import Verif.Props.C104Violated
import Verif.Model.Network
import Verif.Lemmas.Network
import Verif.Lemmas.NetBatch
import Verif.Lemmas.NetTile
import Verif.Lemmas.NetSimple
import Verif.Props.C105
import Verif.Props.C106
import Verif.Model.NetClosure
import Verif.Lemmas.NetClass
import Verif.Lemmas.NetLip
import Verif.Lemmas.NetClosure
import Verif.Props.C107
import Verif.Props.C107Violated
import Verif.Props.C99Exists
import Verif.Model.Processor
import Verif.Lemmas.Processor
import Verif.Lemmas.ProcBounds
import Verif.Props.C107Processor
import Verif.Props.C108
import Verif.Props.C109
import Verif.Props.C110
import Verif.Lemmas.MeshSym
import Verif.Lemmas.StokesSym
import Verif.Lemmas.CubeSym
import Verif.Lemmas.RolloutSym
import Verif.Lemmas.CubeSeam
import Verif.Props.C111
import Verif.Props.C112
import Verif.Model.DatagenSim
import Verif.Props.C113
import Verif.Props.C114
import Verif.Props.C115
import Verif.Lemmas.IsoMesh
import Verif.Lemmas.IsoStokes
import Verif.Lemmas.CubeTurn
import Verif.Lemmas.CubeIso
import Verif.Lemmas.IsoRollout
import Verif.Props.C116
import Verif.Model.DatagenLog
import Verif.Lemmas.NodeDistance
import Verif.Props.C117
import Verif.Props.C118
import Verif.Props.C119
import Verif.Props.C120
import Verif.Props.C121
import Verif.Props.C122
import Verif.Props.C123
import Verif.Props.C124
import Verif.Props.C125
import Verif.Model.SampleNoise
import Verif.Props.C126
import Verif.Props.C127
import Verif.Lemmas.GaussKL
import Verif.Lemmas.PathKL
import Verif.Props.C128
import Verif.Props.C128Violated
import Verif.Props.C128Reported
import Verif.Model.Optimizer
import Verif.Props.C129
import Verif.Props.C130
import Verif.Props.C130Initial
import Verif.Props.C131
import Verif.Props.C132
import Verif.Props.C133
import Verif.Props.C134
import Verif.Props.C135
import Verif.Props.C136
import Verif.Props.C137
import Verif.Props.C138
import Verif.Props.C139
import Verif.Props.C140
import Verif.Props.C141
import Verif.Props.C142
import Verif.Props.C143
import Verif.Props.C144
import Verif.Props.C145
import Verif.Props.C146
import Verif.Props.C147
import Verif.Props.C148
import Verif.Props.C149
import Verif.Props.C150
import Verif.Lemmas.NetBounded
import Verif.Props.C151
import Verif.Lemmas.SpectrumSym
import Verif.Props.C152
import Verif.Lemmas.TokenPerm
import Verif.Props.C153
import Verif.Props.C154
import Verif.Lemmas.StokesScale
import Verif.Props.C155
import Verif.Props.C156
import Verif.Props.C157
import Verif.Props.C158
import Verif.Props.C159
