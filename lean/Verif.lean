import Verif.Int63.Model
import Verif.Int63.Spec
import Verif.Int63.Lemmas
import Verif.Int63.Props
import Verif.Int63.PropsWide
import Verif.GC.Model
import Verif.GC.Spec
import Verif.GC.Core
import Verif.GC.Generation
import Verif.GC.HeapStep
import Verif.GC.Heap
import Verif.GC.Mutator
import Verif.GC.Demo
import Verif.GC.Props
import Verif.GC.ExportModel
import Verif.GC.Export
import Verif.GC.ExportProps
import Verif.Runtime.FloatSpec
import Verif.Runtime.FloatModel
import Verif.Runtime.FloatLemmas
import Verif.Runtime.FloatProps
import Verif.Runtime.Mem
import Verif.Runtime.StringSpec
import Verif.Runtime.StringModel
import Verif.Runtime.StringLemmas
import Verif.Runtime.StringProps
import Verif.Runtime.AllocModel
import Verif.Runtime.AllocProps
import Verif.Runtime.GmpModel
import Verif.Runtime.GmpProps
import Verif.Wasm.Sem
import Verif.Wasm.SemLemmas
import Verif.Wasm.PrimModel
import Verif.Wasm.PrimSpec
import Verif.Wasm.PrimLemmas
import Verif.Wasm.PrimProps
import Verif.Wasm.PrimPropsWide
import Verif.Wasm.PrimDemo
import Verif.Wasm.GenModel
import Verif.Wasm.GenFuel
import Verif.Wasm.GenSpec
import Verif.Wasm.GenLemmas
import Verif.Wasm.GenPrim
import Verif.Wasm.GenSim
import Verif.Wasm.GenSimE
import Verif.Wasm.GenTop
import Verif.Wasm.GenProps
import Verif.Wasm.GenDemo
import Verif.Wasm.GenCtor
import Verif.Wasm.Valid
import Verif.Wasm.ModModel
import Verif.Wasm.ModLemmas
import Verif.Wasm.ModTyped
import Verif.Wasm.ModProps
import Verif.Ctor.Model
import Verif.Ctor.Spec
import Verif.Ctor.Lemmas
import Verif.Ctor.Props
import Verif.ANF.Syntax
import Verif.ANF.Sem
import Verif.ANF.SemLemmas
import Verif.ANF.SemProps
import Verif.ANF.Obs
import Verif.ANF.State
import Verif.ANF.Util
import Verif.ANF.HoistModel
import Verif.ANF.HoistSpec
import Verif.ANF.HoistLemmas
import Verif.ANF.HoistProps
import Verif.ANF.DpeModel
import Verif.ANF.DpeLemmas
import Verif.ANF.DpeSim
import Verif.ANF.DpeProps
import Verif.ANF.CcModel
import Verif.ANF.CcSim
import Verif.ANF.CcWf
import Verif.ANF.CcProps
import Verif.CGen.Clight
import Verif.CGen.Model
import Verif.CGen.Spec
import Verif.CGen.Lemmas
import Verif.CGen.Exec
import Verif.CGen.Around
import Verif.CGen.Frag
import Verif.CGen.Switch
import Verif.CGen.Sim
import Verif.CGen.Calls
import Verif.CGen.Prog
import Verif.CGen.Total
import Verif.CGen.Static
import Verif.CGen.Example
import Verif.CGen.Props
import Verif.Src.Local
import Verif.Src.LocalEval
import Verif.Src.Mut
import Verif.Src.MutEval
import Verif.Src.Subst
import Verif.Src.Link
import Verif.Src.LinkSim
import Verif.Src.LinkBack
import Verif.Src.LinkEnv
import Verif.Src.Props
import Verif.Conv.EnvSem
import Verif.Conv.Agree
import Verif.Conv.AnfModel
import Verif.Conv.AnfSim
import Verif.Conv.Top
import Verif.Conv.AnfWf
import Verif.Conv.Props
import Verif.Conv.CpsModel
import Verif.Conv.CpsSim
import Verif.Conv.CpsWf
import Verif.Conv.CpsProps
import Verif.Conv.Big
import Verif.Conv.PrimProps
import Verif.ANF.Flex
import Verif.ANF.UncModel
import Verif.ANF.UncSim
import Verif.ANF.UncChain
import Verif.ANF.UncBind
import Verif.ANF.UncProps
import Verif.ANF.LlModel
import Verif.ANF.LlSim
import Verif.ANF.LlGen
import Verif.ANF.LlBind
import Verif.ANF.LlProps
import Verif.ANF.InlModel
import Verif.ANF.InlRel
import Verif.ANF.InlSim
import Verif.ANF.InlGen
import Verif.ANF.InlProps
import Verif.ANF.ShrModel
import Verif.ANF.ShrCoin
import Verif.ANF.ShrSim
import Verif.ANF.ShrCount
import Verif.ANF.ShrArith
import Verif.ANF.ShrInv
import Verif.ANF.ShrInline
import Verif.ANF.ShrGood
import Verif.ANF.ShrWf
import Verif.ANF.ShrProps
import Verif.ANF.ShrCps
import Verif.ANF.Feat
import Verif.ANF.Feat2
import Verif.ANF.DpeWf
import Verif.ANF.PipeModel
import Verif.ANF.PipeStep
import Verif.ANF.PipeProps
import Verif.Conv.Feat
import Verif.E2E.Front
import Verif.E2E.WasmProps
import Verif.E2E.CProps
import Verif.E2E.CpsCProps
import Verif.CGen.Cps.Model
import Verif.CGen.Cps.Spec
import Verif.CGen.Cps.Sim
import Verif.CGen.Cps.Calls
import Verif.CGen.Cps.Prog
import Verif.CGen.Cps.Static
import Verif.CGen.Cps.Example
import Verif.CGen.Cps.Props
import Verif.CGen.Cps.StrProps
import Verif.Box.Model
import Verif.Box.Subst
import Verif.Box.Sim
import Verif.Box.Back
import Verif.Box.Typed
import Verif.Box.Props
import Verif.E2E.BoxProps
import Verif.CGen.RtModel
import Verif.CGen.RtLemmas
import Verif.CGen.RtAbort
import Verif.CGen.RtProps
import Verif.CGen.Prim.IntModel
import Verif.CGen.Prim.IntSpec
import Verif.CGen.Prim.IntLemmas
import Verif.CGen.Prim.IntExample
import Verif.CGen.Prim.IntProps
import Verif.CGen.HostModel
import Verif.CGen.HostSpec
import Verif.CGen.HostLemmas
import Verif.CGen.HostProps
import Verif.CGen.FfiModel
import Verif.CGen.FfiSpec
import Verif.CGen.FfiLemmas
import Verif.CGen.FfiProps
import Verif.E2E.RtProps
import Verif.E2E.PrimProps
import Verif.E2E.ModProps
import Verif.CPrint.Model
import Verif.CPrint.Spec
import Verif.CPrint.TyLemmas
import Verif.CPrint.ExprLemmas
import Verif.CPrint.StmtLemmas
import Verif.CPrint.LexLemmas
import Verif.CPrint.SepLemmas
import Verif.CPrint.Props
import Verif.CPrint.NameModel
import Verif.CPrint.NameProps
import Verif.CGen.TextModel
import Verif.CGen.TextRel
import Verif.CGen.TextMeaning
import Verif.CGen.TextSpec
import Verif.CGen.TextSim
import Verif.CGen.TextOk
import Verif.CGen.TextRun
import Verif.CGen.TextGood
import Verif.CGen.TextTotal
import Verif.CGen.TextFits
import Verif.CGen.TextProps
import Verif.CGen.ScopeSpec
import Verif.CGen.ScopeLemmas
import Verif.CGen.ScopeGen
import Verif.CGen.ScopeProps
import Verif.CGen.TypeSpec
import Verif.CGen.TypeLemmas
import Verif.CGen.TypeGen
import Verif.CGen.TypeProps
import Verif.E2E.TextProps
import Verif.Reify.Model
import Verif.Reify.Spec
import Verif.Reify.Lemmas
import Verif.Reify.Props
import Verif.E2E.ReifyProps
import Verif.Reify.SessionModel
import Verif.Reify.SessionProps
import Verif.Glue.Model
import Verif.Glue.Spec
import Verif.Glue.Lemmas
import Verif.Glue.Props
import Verif.Reg.Props
import Verif.Boot.Props
import Verif.Proc.Props
import Verif.Files.Props
import Verif.Bnd.Props
import Verif.Hdr.Props
import Verif.Link.Props
import Verif.Link.Generated
import Verif.Msg.Props
import Verif.Lib.Props
import Verif.CGen.CaseProps
import Verif.IR.Props
import Verif.Quote.Props
