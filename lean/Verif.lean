import Verif.Props.Compat
import Verif.Props.CompatMore
import Verif.Props.Layout
import Verif.Props.UnionType
import Verif.Props.Enum
import Verif.Props.Seq
import Verif.Props.Hash
import Verif.Props.MapInst
import Verif.Props.Module
import Verif.Props.Log
import Verif.Props.Ops
import Verif.Props.Expr
import Verif.Props.Data
import Verif.Props.Access
import Verif.Props.Conv
import Verif.Props.Eq
import Verif.Props.EqFloat
import Verif.Props.Walk
import Verif.Props.Deps
import Verif.Props.Labels
import Verif.Props.LabelText
import Verif.Props.ArrayText
import Verif.Props.DeclOrder
import Verif.Props.Flags
import Verif.Props.ModuleMore
import Verif.Props.ModuleWalk
import Verif.Props.Codec
import Verif.Props.Api
import Verif.Props.Cast
import Verif.Props.Print
import Verif.Props.Own
import Verif.Props.MapMem
import Verif.Props.Idl
import Verif.Props.IdlUnion
import Verif.Props.IdlModules
import Verif.Props.IdlConst
import Verif.Props.ExprText
import Verif.Props.IdlTree
import Verif.Props.IdlAny
import Verif.Props.IdlSound
import Verif.Props.IdlWrite
import Verif.Props.Preprocess
import Verif.Props.TypeHeap
import Verif.Props.Context
import Verif.Props.WalkWrite
import Verif.Props.TempFile
import Verif.Props.Iterate
import Verif.Props.Kind
import Verif.Props.HashVal
import Verif.Props.Member
import Verif.Props.MemberUnion
import Verif.Props.Dict
