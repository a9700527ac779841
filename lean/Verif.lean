import Verif.Props.Perm
import Verif.Props.SnElements
import Verif.Props.Partition
import Verif.Props.Tableau
import Verif.Props.Irrep
import Verif.Props.Schur
import Verif.Model.Classes
import Verif.Model.SnBank
import Verif.Spec.Classes
import Verif.Spec.SnBank
import Verif.Proofs.Classes
import Verif.Proofs.Character
import Verif.Proofs.SnBank
import Verif.Props.Classes
import Verif.Props.View
import Verif.Model.FFT
import Verif.Spec.FFT
import Verif.Proofs.FFTBad
import Verif.Proofs.FFTLift
import Verif.Proofs.TwoRow
import Verif.Proofs.ViewNorm
import Verif.Proofs.FFTLoss
import Verif.Proofs.FFTLossUp
import Verif.Proofs.FFTLossEnd
import Verif.Proofs.FFTLin
import Verif.Props.FFT
import Verif.Model.Function
import Verif.Spec.Function
import Verif.Proofs.Function
import Verif.Props.Function
import Verif.Model.Groups
import Verif.Spec.Groups
import Verif.Proofs.Groups
import Verif.Props.Groups
import Verif.Model.SnType
import Verif.Spec.SnType
import Verif.Proofs.SnType
import Verif.Proofs.SnRep
import Verif.Props.SnType
import Verif.Model.CG
import Verif.Model.CGVec
import Verif.Spec.CG
import Verif.Proofs.Kron
import Verif.Proofs.KronInv
import Verif.Proofs.CG
import Verif.Proofs.CGRef
import Verif.Proofs.CGRow
import Verif.Spec.CGVec
import Verif.Proofs.CGSplit
import Verif.Proofs.CGEig
import Verif.Proofs.CGPhi
import Verif.Proofs.CGStep
import Verif.Proofs.CGLoop
import Verif.Proofs.CGLoop2
import Verif.Proofs.CGAcc
import Verif.Proofs.CGAcc2
import Verif.Proofs.CGAcc3
import Verif.Proofs.CGNorm
import Verif.Proofs.CGSolver
import Verif.Proofs.CGCols
import Verif.Props.CG
import Verif.Spec.Hook
import Verif.Proofs.Hook
import Verif.Model.Machine
import Verif.Proofs.Machine
import Verif.Props.Hook
import Verif.Model.CombiBank
import Verif.Spec.CombiBank
import Verif.Proofs.CombiBank
import Verif.Props.CombiBank
import Verif.Model.Lifetime
import Verif.Spec.Lifetime
import Verif.Proofs.Lifetime
import Verif.Props.Lifetime
import Verif.Model.SnVec
import Verif.Spec.SnVec
import Verif.Proofs.SnVec
import Verif.Proofs.SnVecUp
import Verif.Proofs.SnVecUp2
import Verif.Proofs.SnVecRes
import Verif.Proofs.SnVecInd
import Verif.Proofs.SnVecAcc
import Verif.Props.SnVec
import Verif.Props.CGVec
import Verif.Proofs.CGOne
import Verif.Proofs.CGTriv
import Verif.Proofs.CGEqui
import Verif.Proofs.CGSign
import Verif.Proofs.CGSmall
import Verif.Proofs.CGFour
import Verif.Props.CGEqui
import Verif.Model.ProductRep
import Verif.Spec.ProductRep
import Verif.Proofs.ProductRep
import Verif.Props.ProductRep
import Verif.Model.SnWeights
import Verif.Spec.SnWeights
import Verif.Proofs.SnWeights
import Verif.Proofs.SnWeights2
import Verif.Props.SnWeights
import Verif.Model.SnVecB
import Verif.Spec.SnVecB
import Verif.Proofs.SnVecB
import Verif.Proofs.SnVecB2
import Verif.Model.CGVecB
import Verif.Proofs.CGVecB
import Verif.Proofs.CGVecB2
import Verif.Proofs.CGVecB3
import Verif.Props.SnVecB
import Verif.Props.CGVecB
import Verif.Spec.Plancherel
import Verif.Proofs.Plancherel
import Verif.Spec.Adjoint
import Verif.Model.PyGrad
import Verif.Props.Plancherel
import Verif.Model.SnVecAct
import Verif.Props.SnVecAct
import Verif.Model.ClassFn
import Verif.Spec.ClassFn
import Verif.Props.ClassFn
import Verif.Proofs.Rational
import Verif.Props.Rational
import Verif.Model.Heap
import Verif.Spec.Heap
import Verif.Proofs.Heap
import Verif.Props.Heap
import Verif.Model.Shallow
import Verif.Spec.Shallow
import Verif.Proofs.Shallow
import Verif.Props.Shallow
import Verif.Model.FourierOnGroup
import Verif.Spec.FourierOnGroup
import Verif.Proofs.FourierOnGroup
import Verif.Props.FourierOnGroup
import Verif.Spec.Conjugate
import Verif.Proofs.Conjugate
import Verif.Props.Conjugate
import Verif.Spec.Central
import Verif.Proofs.Central
import Verif.Proofs.Branch
import Verif.Props.Central
import Verif.Model.FFTBank
import Verif.Spec.Linear
import Verif.Spec.FFTRequests
import Verif.Proofs.FFTLinDown
import Verif.Proofs.FFTBank
import Verif.Proofs.FFTDims
import Verif.Props.FFTBank
import Verif.Props.FFTType
import Verif.Model.Iterate
import Verif.Proofs.Iterate
import Verif.Props.Iterate
import Verif.Spec.CharFn
import Verif.Props.CharFn
import Verif.Model.MultiAct
import Verif.Spec.MultiAct
import Verif.Proofs.MultiAct
import Verif.Props.MultiAct
import Verif.Model.Print
import Verif.Spec.Print
import Verif.Props.Print
import Verif.Props.Float
import Verif.Proofs.FloatSmall
import Verif.Proofs.FloatTab1
import Verif.Proofs.FloatTab2
import Verif.Proofs.FloatTab3
import Verif.Proofs.FloatTab4
import Verif.Proofs.FloatTab5
import Verif.Proofs.FloatTab6
import Verif.Proofs.FloatTab7
import Verif.Proofs.FloatCache
import Verif.Props.FloatHistory
import Verif.Proofs.MachineCoset
import Verif.Props.MachineCoset
import Verif.Model.FloatFn
import Verif.Proofs.FloatFn
import Verif.Props.FloatFn
import Verif.Model.FloatFFT
import Verif.Spec.FloatFFT
import Verif.Proofs.FloatFFTAct
import Verif.Proofs.FloatFFT
import Verif.Proofs.FloatFFTBad
import Verif.Proofs.FloatFFTLost
import Verif.Props.FloatFFT
import Verif.Proofs.FloatIFFT
import Verif.Props.FloatIFFT
import Verif.Proofs.FFTDefined
import Verif.Props.FFTFive
import Verif.Spec.FloatVec
import Verif.Model.FloatVec
import Verif.Proofs.FloatVec
import Verif.Props.FloatVec
import Verif.Spec.FourierDist
import Verif.Proofs.FloatEnergy
import Verif.Proofs.FloatEnergyDown
import Verif.Props.FloatFFTBack
import Verif.Model.Count
import Verif.Proofs.Count
import Verif.Proofs.CountFFT
import Verif.Proofs.CountLoop
import Verif.Props.Count
import Verif.Model.PySeq
import Verif.Proofs.PySeq
import Verif.Props.PySeq
import Verif.Props.Dominance
import Verif.Tests.Documented
import Verif.Proofs.TypeRing
import Verif.Props.TypeRing
import Verif.Props.Symmetry
import Verif.Model.ViewFlat
import Verif.Proofs.ViewFlat
import Verif.Props.ViewFlat
import Verif.Model.GroupRef
import Verif.Spec.GroupRef
import Verif.Props.GroupRef
import Verif.Props.Cosets
import Verif.Model.Fill
import Verif.Props.Fill
import Verif.Proofs.Counting
import Verif.Props.Counting
import Verif.Props.FourierOnto
import Verif.Proofs.Kernels
import Verif.Props.Kernels
import Verif.Model.TabEdit
import Verif.Spec.TabEdit
import Verif.Proofs.TabEdit
import Verif.Props.TabEdit
import Verif.Proofs.Walk
import Verif.Props.Walk
import Verif.Proofs.Correlate
import Verif.Props.Correlate
import Verif.Model.VecProg
import Verif.Proofs.VecProg
import Verif.Props.VecProg
import Verif.Spec.Marginals
import Verif.Proofs.Marginals
import Verif.Props.Marginals
import Verif.Model.FloatProg
import Verif.Spec.FloatProg
import Verif.Proofs.FloatProg
import Verif.Props.FloatProg
import Verif.Spec.VecTypes
import Verif.Props.VecTypes
import Verif.Spec.WeightsConv
import Verif.Proofs.WeightsConv
import Verif.Props.WeightsConv
import Verif.Model.CheckCG
import Verif.Spec.CheckCG
import Verif.Proofs.CheckCG
import Verif.Props.CheckCG
import Verif.Model.NetProg
import Verif.Spec.NetProg
import Verif.Proofs.CGFix
import Verif.Proofs.NetProg
import Verif.Props.NetProg
import Verif.Model.LetterProg
import Verif.Spec.LetterProg
import Verif.Proofs.LetterProg
import Verif.Proofs.UpDefined
import Verif.Props.LetterProg
import Verif.Spec.VecInner
import Verif.Proofs.VecInner
import Verif.Props.VecInner
import Verif.Proofs.LetterLin
import Verif.Props.LetterLin
import Verif.Model.LetterFloat
import Verif.Spec.LetterFloat
import Verif.Proofs.LetterFloat
import Verif.Props.LetterFloat
import Verif.Proofs.LetterClose
import Verif.Props.LetterClose
import Verif.Spec.LetterNear
import Verif.Proofs.LetterNear
import Verif.Props.LetterNear
import Verif.Spec.LetterWeights
import Verif.Proofs.LetterWeights
import Verif.Props.LetterWeights
import Verif.Props.FloatExact
import Verif.Spec.Like
import Verif.Proofs.Like
import Verif.Proofs.LikeFFT
import Verif.Proofs.LikeProd
import Verif.Props.Like
