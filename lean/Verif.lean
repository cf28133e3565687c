import Verif.Model.Kernel
import Verif.Model.Py
import Verif.Model.CheckAb
import Verif.Model.Hankel
import Verif.Model.CheckModel
import Verif.Model.Geometry
import Verif.Model.Bipole
import Verif.Model.Fem
import Verif.Model.Dlf
import Verif.Model.Qwe
import Verif.Model.Waveform
import Verif.Model.Tem
import Verif.Model.Fftlog
import Verif.Model.Args
import Verif.Model.Json
import Verif.Model.Io
import Verif.Model.Filters
import Verif.Model.EmArray
import Verif.Model.Fullspace
import Verif.Model.Halfspace
import Verif.Model.DipoleK
import Verif.Model.Cli
import Verif.Model.Tmtemod
import Verif.Model.Dipole
import Verif.Model.Fdesign
import Verif.Model.Verb
import Verif.Model.Pairs
import Verif.Model.BipoleFull
import Verif.Model.TimeDomain
import Verif.Model.HankelFull
import Verif.Model.FullspaceReal
import Verif.Model.Hooks
import Verif.Model.DipoleKFull
import Verif.Model.AnalyticalFull
import Verif.Model.EmpyHankel
import Verif.Spec.Maxwell1D
import Verif.Spec.Medium
import Verif.Spec.Maxwell3D
import Verif.Spec.Moves
import Verif.Spec.Layers
import Verif.Spec.Curl
import Verif.Spec.Dipole
import Verif.Spec.User
import Verif.Spec.Law
import Verif.Lemmas.Passive
import Verif.Lemmas.Unique
import Verif.Lemmas.Explicit
import Verif.Lemmas.Exist
import Verif.Lemmas.KernelLink
import Verif.Lemmas.FieldsLink
import Verif.Lemmas.GreenLink
import Verif.Lemmas.GreenfctLink
import Verif.Lemmas.Lagrange
import Verif.Lemmas.Bessel
import Verif.Lemmas.Plane
import Verif.Lemmas.Ring36
import Verif.Lemmas.Angle
import Verif.Lemmas.Invariance
import Verif.Lemmas.Moves
import Verif.Lemmas.Rotation
import Verif.Lemmas.CheckModel
import Verif.Lemmas.FourierStep
import Verif.Lemmas.Args
import Verif.Lemmas.Json
import Verif.Lemmas.Io
import Verif.Lemmas.IoText
import Verif.Lemmas.Erfc
import Verif.Lemmas.Diffusion
import Verif.Lemmas.Laplace
import Verif.Lemmas.FullMaxwell
import Verif.Lemmas.FullClosed
import Verif.Lemmas.FullCurl
import Verif.Lemmas.User
import Verif.Lemmas.Subord
import Verif.Lemmas.GaussHankel
import Verif.Lemmas.Sommerfeld
import Verif.Lemmas.DirectInt
import Verif.Lemmas.DirectSomm
import Verif.Lemmas.DirectEntry
import Verif.Lemmas.Decay
import Verif.Lemmas.StackDecay
import Verif.Lemmas.ExpHankel
import Verif.Lemmas.Conj
import Verif.Props.C01_Maxwell
import Verif.Props.C03_Symmetries
import Verif.Props.C08_Rotation
import Verif.Props.C09_CheckAb
import Verif.Props.C10_Model
import Verif.Props.C11_Materials
import Verif.Props.C12_Layers
import Verif.Props.C13_Geometry
import Verif.Props.C30_Frequency
import Verif.Props.C16_Bipole
import Verif.Props.C16_Poles
import Verif.Props.C17_Fem
import Verif.Props.C18_Dlf
import Verif.Props.C19_Points
import Verif.Props.C20_Qwe
import Verif.Props.C21_Quad
import Verif.Props.C23_Waveform
import Verif.Props.C22_Signals
import Verif.Props.C43_Fft
import Verif.Props.C27_Hankel
import Verif.Props.C28_Fourier
import Verif.Props.C29_Keywords
import Verif.Props.C31_Io
import Verif.Props.C32_Filters
import Verif.Props.C33_FilterFiles
import Verif.Props.C34_EmArray
import Verif.Props.C35_Halfspace
import Verif.Props.C35_Analytical
import Verif.Props.C36_Fullspace
import Verif.Props.C38_DipoleK
import Verif.Props.C39_Cli
import Verif.Props.C40_Tmtemod
import Verif.Props.C44_Dipole
import Verif.Props.C41_IpQ
import Verif.Props.C42_Fdesign
import Verif.Props.C42_Search
import Verif.Props.C42_Design
import Verif.Props.C42_Files
import Verif.Props.C37_Dual
import Verif.Props.C26_Verb
import Verif.Props.C36_Sommerfeld
import Verif.Props.C36_Xdirect
import Verif.Props.C45_Decay
import Verif.Props.C36_XdirectDipole
import Verif.Props.C46_Pairs
import Verif.Props.C08_Methods
import Verif.Props.C35_Axis
import Verif.Props.C42_Rating
import Verif.Props.C35_Airwave
import Verif.Props.C47_Bipole
import Verif.Props.C48_Time
import Verif.Props.C49_Gpr
import Verif.Props.C50_FourierQwe
import Verif.Props.C51_Hankel
import Verif.Props.C51_Quad
import Verif.Props.C51_Cases
import Verif.Props.C51_Splined
import Verif.Props.C52_Laplace
import Verif.Props.C52_Cases
import Verif.Props.C53_Hooks
import Verif.Props.C53_Time
import Verif.Props.C53_Gallery
import Verif.Props.C54_DipoleK
import Verif.Props.C55_Analytical
import Verif.Props.C55_AnalyticalTime
import Verif.Props.C55_AnalyticalLaw
import Verif.Props.C56_EmpyHankel
import Verif.Props.C57_Symmetries
import Verif.Props.C57_Coincident
import Verif.Props.C58_Plane
import Verif.Props.C58_Rotation
import Verif.Props.C58_Exact
import Verif.Props.C59_TimeSymmetry
