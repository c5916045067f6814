import Verif.Core.Prog
import Verif.Core.Spec
import Verif.Core.Heap
import Verif.Core.SpecLemmas
import Verif.Core.Clear
import Verif.Core.Sim
import Verif.Core.Indep
import Verif.Core.Links
import Verif.Core.Write
import Verif.Core.Str
import Verif.Core.Ops
import Verif.Core.ReadFrame
import Verif.Core.Step
import Verif.Core.Reach
import Verif.Core.Inv
import Verif.Core.SameOn
import Verif.Core.Pending
import Verif.Demo
import Verif.Properties.Fresh
import Verif.Core.SameObs
import Verif.Properties.Links
import Verif.Properties.Tags
import Verif.Core.Clone
import Verif.Core.Traverse
import Verif.Core.Iso
import Verif.Core.Replace
import Verif.Properties.Structure
import Verif.Core.Off
import Verif.Core.Copy
import Verif.Properties.Copy
import Verif.Core.ClearWrt
import Verif.Properties.ClearWrt
import Verif.Core.Redundancy
import Verif.Properties.Redundancy
import Verif.AD.Num
import Verif.AD.Jac
import Verif.AD.Chain
import Verif.AD.Lib
import Verif.AD.Bcast
import Verif.AD.Arith
import Verif.Core.Build
import Verif.AD.Graph
import Verif.AD.Total
import Verif.AD.Expr
import Verif.AD.Shape
import Verif.AD.Atleast
import Verif.AD.Steps
import Verif.Properties.Jacobian
import Verif.AD.Api
import Verif.Properties.Arith
import Verif.AD.Unary
import Verif.AD.Pairwise
import Verif.AD.XFloat
import Verif.Properties.Elementwise
import Verif.Properties.NanDivide
import Verif.Core.Reverse
import Verif.AD.Reverse
import Verif.Properties.Reverse
import Verif.Properties.RevHist
import Verif.Properties.ReverseReturns
import Verif.Properties.ForwardReturns
import Verif.AD.NdIndex
import Verif.AD.Reorder
import Verif.AD.Wrong
import Verif.AD.Select
import Verif.AD.Reduce
import Verif.AD.Compose
import Verif.AD.Bilin
import Verif.AD.Dot
import Verif.AD.AxisExtremum
import Verif.Properties.Reorder
import Verif.Properties.ReorderRefuted
import Verif.Properties.Indexing
import Verif.Properties.Reshape
import Verif.Properties.Reduce
import Verif.Properties.Products
import Verif.Properties.Extrema
import Verif.Properties.Dogleg
import Verif.Properties.DoglegReal
import Verif.Properties.DoglegEnds
import Verif.Properties.Memo
import Verif.Properties.Linalg
import Verif.AD.SliceWrt
import Verif.Properties.Slices
import Verif.AD.SetItem
import Verif.Properties.Assign
import Verif.Properties.ReverseRefuted
import Verif.AD.Concat
import Verif.AD.Flatten
import Verif.Properties.Concat
import Verif.AD.ConcatMemo
import Verif.Properties.ConcatMemo
import Verif.Core.TagRead
import Verif.Core.Tags
import Verif.AD.Packing
import Verif.AD.StackedJac
import Verif.Properties.Packing
import Verif.Properties.StackedJac
import Verif.AD.Tensordot
import Verif.Properties.Tensordot
import Verif.AD.Minimize
import Verif.AD.Buffers
import Verif.Properties.Minimize
import Verif.Properties.MinimizeCalls
import Verif.Properties.Buffers
import Verif.Core.Below
import Verif.Core.Lambda
import Verif.Core.LambdaInv
import Verif.Core.LambdaSim
import Verif.Core.LambdaReach
import Verif.Core.LambdaBuild
import Verif.AD.Lambda
import Verif.Properties.Lambda
import Verif.AD.SvdMath
import Verif.AD.SvdExists
import Verif.AD.Svd
import Verif.Properties.Svd
import Verif.Properties.SvdU
import Verif.Properties.SvdRefuted
import Verif.Properties.DoglegRadius
import Verif.Core.ClassSetup
import Verif.Properties.ClassSetup
import Verif.AD.Stack
import Verif.AD.Extras
import Verif.Properties.Extras
import Verif.AD.Interp
import Verif.Properties.Interp
import Verif.Properties.AnyKey
import Verif.AD.Straight
import Verif.Properties.PinvJacobian
import Verif.AD.Objective
import Verif.Properties.Objective
import Verif.AD.Operators
import Verif.Properties.Operators
import Verif.AD.Moment
import Verif.Properties.Moment
import Verif.Properties.Call
import Verif.Core.DrCount
import Verif.Core.DrLower
import Verif.Properties.DrOnce
import Verif.Core.Alias
import Verif.Core.AliasView
import Verif.Core.AliasInv
import Verif.Core.AliasReach
import Verif.Properties.Alias
import Verif.Properties.Cross
import Verif.Core.Group
import Verif.Core.GroupInv
import Verif.Core.GroupBuild
import Verif.AD.Group
import Verif.Properties.Group
import Verif.Core.GroupCache
import Verif.AD.GroupCache
import Verif.Properties.GroupCache
import Verif.AD.Logic
import Verif.Properties.Logic
import Verif.AD.Accessors
import Verif.Properties.Accessors
import Verif.AD.Timer
import Verif.Properties.Timer
import Verif.Core.Profile
import Verif.Properties.Profile
import Verif.Core.Residuals
import Verif.Properties.Residuals
import Verif.AD.Methods
import Verif.Properties.Methods
import Verif.AD.Flip
import Verif.Properties.Flip
import Verif.AD.Report
import Verif.Properties.Report
import Verif.AD.NanToNum
import Verif.Properties.NanToNum
import Verif.Core.Draw
import Verif.Properties.Draw
import Verif.Opt.Machine
import Verif.Opt.OnHeap
import Verif.Properties.DoglegHeap
import Verif.Opt.Call
import Verif.Properties.DoglegCall
import Verif.Properties.NoFail
import Verif.Properties.DoglegChain
import Verif.Core.Depth
import Verif.Properties.Depth
import Verif.Properties.DepthMin
import Verif.Properties.DoglegList
import Verif.Properties.MergedJac
import Verif.Properties.MergedMin
import Verif.Properties.Tower
import Verif.Properties.TowerDr
import Verif.AD.Random
import Verif.Properties.Random
import Verif.Properties.SliceNone
