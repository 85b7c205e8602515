import Verif.Range.Props
import Verif.MemSet.Props
import Verif.DFValue.Props
import Verif.BitTrait.Props
import Verif.Graph.Props
import Verif.Graph.PostOrder
import Verif.DataFlow.Props
import Verif.Reach.Examples
import Verif.Region.Examples
import Verif.Bimap.ListProps
import Verif.Register.Props
import Verif.Numeric.Props
import Verif.Persistent.Props
import Verif.Dep.DistProps
import Verif.Private.Store
import Verif.Cover.Props
import Verif.Alias.ChainProps
import Verif.Scev.Examples
import Verif.Primes.Props
import Verif.Loop.Examples
import Verif.Loop.InterchangeProps
import Verif.Support.Argument
import Verif.Support.SocketProps
import Verif.Support.ProtocolProps
import Verif.Support.Response
import Verif.Support.OutputFile
import Verif.Directives.Ast
import Verif.Parallel.Props
import Verif.DepTest.Props
import Verif.DIDep.Clarify
import Verif.Delin.Fails
import Verif.Attrs.Globals
import Verif.DefUse.AggregateMore
import Verif.DefUse.Bridge
import Verif.DefUse.Call
import Verif.Calls.Extract
import Verif.Calls.GlobalLiveMore
import Verif.NoCapture.Model
import Verif.NoCapture.Props
import Verif.NoCapture.Examples
import Verif.Rename.Model
import Verif.Rename.Props
import Verif.Rename.Examples
import Verif.Rewriter.Examples
import Verif.PtrReg.Examples
import Verif.Unreach.Examples
import Verif.Coverage.Props
import Verif.AstDep.Exec
import Verif.AstDep.Sound
import Verif.AstDep.Model
import Verif.AstDep.Handled
import Verif.AstDep.Props
import Verif.AstDep.Clauses
import Verif.AstDep.Examples
import Verif.Canon.Model
import Verif.Canon.Spec
import Verif.Canon.Lemmas
import Verif.Canon.Shape
import Verif.Canon.Writes
import Verif.Canon.Props
import Verif.Canon.Examples
import Verif.Ordered.Model
import Verif.Ordered.Props
import Verif.DeadDecls.Model
import Verif.DeadDecls.Spec
import Verif.DeadDecls.Visit
import Verif.DeadDecls.Sim
import Verif.DeadDecls.Props
import Verif.DeadDecls.Complete
import Verif.DeadDecls.Examples
import Verif.Inline.Lang
import Verif.Inline.Model
import Verif.Inline.Sem
import Verif.Inline.Frames
import Verif.Inline.Spec
import Verif.Inline.SimE
import Verif.Inline.SimH
import Verif.Inline.Hoist
import Verif.Inline.SimB
import Verif.Inline.SimS
import Verif.Inline.SimM
import Verif.Inline.Compile
import Verif.Inline.Props
import Verif.Inline.Check
import Verif.Inline.Fails
import Verif.Inline.Examples
import Verif.Inline.Recursion
import Verif.Inline.RecProps
import Verif.Inline.Suffix
import Verif.Unparse.Model
import Verif.Unparse.Spec
import Verif.Unparse.Lemmas
import Verif.Unparse.Inner
import Verif.Unparse.Props
import Verif.Unparse.Parse
import Verif.Unparse.Examples
import Verif.Unparse.Build
import Verif.DbgValue.Spec
import Verif.DbgValue.Model
import Verif.DbgValue.Lemmas
import Verif.DbgValue.Props
import Verif.DbgValue.Examples
import Verif.Propagate.Spec
import Verif.Propagate.Model
import Verif.Propagate.Props
import Verif.Propagate.Avail
import Verif.Propagate.Examples
import Verif.Matcher.Spec
import Verif.Matcher.Model
import Verif.Matcher.Lemmas
import Verif.Matcher.Class
import Verif.Matcher.Order
import Verif.Matcher.Props
import Verif.SrcLoop.Spec
import Verif.SrcLoop.Model
import Verif.SrcLoop.Perfect
import Verif.SrcLoop.Control
import Verif.DeadStore.Spec
import Verif.DeadStore.Model
import Verif.DeadStore.Lemmas
import Verif.DeadStore.Props
import Verif.Extern.Model
import Verif.Extern.Lookup
import Verif.Extern.Import
import Verif.Extern.File
import Verif.Extern.Export
import Verif.Extern.Props
import Verif.StructRepl.Model
import Verif.StructRepl.Cover
import Verif.StructRepl.Sem
import Verif.StructRepl.Preserve
import Verif.StructRepl.Props
import Verif.StructRepl.Call
import Verif.StructRepl.Fill
import Verif.StructRepl.InCalls
import Verif.Weights.Model
import Verif.Weights.Props
import Verif.DepInline.Model
import Verif.DepInline.Props
import Verif.NotInit.Props
import Verif.DvmhData.Props
import Verif.DvmhMerge.Props
import Verif.DvmhCoherent.Props
import Verif.DvmhAcross.Props
import Verif.DvmhRegions.Props
import Verif.OptRegion.Props
import Verif.ArrayAccess.Props
import Verif.Instrument.Props
import Verif.InstrEntry.Props
import Verif.InterchangeSem.Props
import Verif.DistrLimits.Props
import Verif.FileTree.Props
import Verif.NoMacro.Props
import Verif.AtomicFile.Props
import Verif.GlobalNames.Props
import Verif.MemMatch.Props
import Verif.MemMatch.Scope
import Verif.ToolRun.Options
