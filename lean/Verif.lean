import Verif.Props.Spec
import Verif.Props.Tree
import Verif.Props.TreeConc
import Verif.Props.TreeMany
import Verif.Props.TreeAll
import Verif.Props.TreeRace
import Verif.Props.TreeSeq
import Verif.Props.TreeEff
import Verif.Props.IPAddr
import Verif.Props.Cidr
import Verif.Check.Cidr
import Verif.Props.Det
import Verif.Props.Collect
import Verif.Props.DetGlobal
import Verif.Props.DetNil
import Verif.Model.DetGraph
import Verif.Spec.DetGraph
import Verif.Lemmas.DetGraph
import Verif.Props.DetGraph
import Verif.Spec.DetFail
import Verif.Lemmas.DetFail
import Verif.Props.DetFail
import Verif.Props.Cty
import Verif.Props.HclDecode
import Verif.Props.HclText
import Verif.Props.Convert
import Verif.Props.Encoding
import Verif.Props.Funcs
import Verif.Props.Time
import Verif.Props.TimeAdd
import Verif.Props.Number
import Verif.Props.HclStruct
import Verif.Props.HclStructMore
import Verif.Spec.HclStructAgain
import Verif.Lemmas.HclStructAgain
import Verif.Props.HclStructAgain
import Verif.Model.SpecHeap
import Verif.Spec.SpecHeap
import Verif.Lemmas.SpecHeap
import Verif.Props.SpecHeap
import Verif.Spec.SpecWire
import Verif.Lemmas.SpecWire
import Verif.Props.SpecWire
import Verif.Model.HclStructMem
import Verif.Spec.HclStructDeep
import Verif.Spec.HclStructMem
import Verif.Lemmas.HclStructDeep
import Verif.Lemmas.HclStructMem
import Verif.Props.HclStructMem
import Verif.Props.HclStructShadow
import Verif.Props.HclStructNil
import Verif.Spec.HclStructRef
import Verif.Lemmas.HclStructRef
import Verif.Props.HclStructRef
import Verif.Props.HclStructPairs
import Verif.Props.HclStructTotal
import Verif.Props.HclStructAttr
import Verif.Props.HclStructDoc
import Verif.Props.HclStructPrint
import Verif.Props.HclStructPtr
import Verif.Props.HclStructMarshal
import Verif.Props.HclStructHidden
import Verif.Props.HclStructPanic
import Verif.Props.Call
import Verif.Props.Path
import Verif.Props.File
import Verif.Model.Clone
import Verif.Model.Text
import Verif.Spec.Clone
import Verif.Spec.Text
import Verif.Lemmas.Clone
import Verif.Lemmas.Text
import Verif.Props.Clone
import Verif.Props.Text
import Verif.Model.Template
import Verif.Model.Length
import Verif.Spec.Length
import Verif.Lemmas.Template
import Verif.Props.Template
import Verif.Props.Length
import Verif.Model.Own
import Verif.Spec.Own
import Verif.Lemmas.Own
import Verif.Props.Own
import Verif.Spec.HclStructIface
import Verif.Lemmas.HclStructIface
import Verif.Props.HclStructIface
import Verif.Spec.HclStructIfacePrint
import Verif.Lemmas.HclStructIfacePrint
import Verif.Props.HclStructIfacePrint
import Verif.Model.OwnStruct
import Verif.Spec.OwnStruct
import Verif.Lemmas.OwnStruct
import Verif.Props.OwnStruct
import Verif.Lemmas.HclBraces
import Verif.Props.HclBraces
import Verif.Model.Target
import Verif.Spec.Target
import Verif.Props.Target
import Verif.Props.Log
import Verif.Props.CidrText
import Verif.Model.TreeVars
import Verif.Spec.TreeVars
import Verif.Lemmas.TreeVars
import Verif.Props.TreeVars
import Verif.Model.TreeWatch
import Verif.Spec.TreeWatch
import Verif.Lemmas.TreeWatch
import Verif.Props.TreeWatch
import Verif.Spec.HclStructGeneric
import Verif.Lemmas.HclStructGeneric
import Verif.Check.HclGenericDemo
import Verif.Props.HclStructGeneric
import Verif.Spec.HclStructFail
import Verif.Lemmas.HclStructFail
import Verif.Props.HclStructFail
import Verif.Model.Marks
import Verif.Model.Registry
import Verif.Props.Marks
import Verif.Props.Registry
import Verif.Model.Describe
import Verif.Props.Describe
import Verif.Model.Exported
import Verif.Props.Exported
import Verif.Props.OwnGeneric
import Verif.Model.Typed
import Verif.Spec.Typed
import Verif.Lemmas.Typed
import Verif.Lemmas.TypedStable
import Verif.Lemmas.TypedFinal
import Verif.Props.Typed
import Verif.Model.TypedMarks
import Verif.Spec.TypedMarks
import Verif.Lemmas.TypedMarks
import Verif.Props.TypedMarks
import Verif.Spec.Refs
import Verif.Lemmas.Refs
import Verif.Check.RefsDemo
import Verif.Props.Refs
import Verif.Model.HclTree
import Verif.Spec.HclTree
import Verif.Lemmas.HclTree
import Verif.Lemmas.HclTreePlain
import Verif.Check.HclTreeDemo
import Verif.Props.HclTree
import Verif.Spec.HclNumbers
import Verif.Lemmas.HclNumbers
import Verif.Lemmas.HclStable
import Verif.Props.HclRounds
import Verif.Spec.Cycle
import Verif.Lemmas.Cycle
import Verif.Props.Cycle
import Verif.Model.Duration
import Verif.Spec.Duration
import Verif.Lemmas.Duration
import Verif.Props.Duration
import Verif.Model.Tag
import Verif.Spec.Tag
import Verif.Lemmas.Tag
import Verif.Props.Tag
import Verif.Model.Ident
import Verif.Spec.Ident
import Verif.Lemmas.Ident
import Verif.Props.Ident
import Verif.Model.SpecArgs
import Verif.Props.SpecArgs
import Verif.Model.Scalars
import Verif.Spec.Scalars
import Verif.Lemmas.Scalars
import Verif.Props.Scalars
import Verif.Model.Edge
import Verif.Spec.Edge
import Verif.Lemmas.Edge
import Verif.Props.Edge
import Verif.Model.TemplateArgs
import Verif.Spec.TemplateArgs
import Verif.Lemmas.TemplateArgs
import Verif.Props.TemplateArgs
import Verif.Model.HclHeap
import Verif.Spec.HclHeap
import Verif.Lemmas.HclHeap
import Verif.Props.HclHeap
import Verif.Model.HclAgain
import Verif.Lemmas.HclAgainErase
import Verif.Lemmas.HclAgainLocal
import Verif.Lemmas.HclAgainRange
import Verif.Lemmas.HclAgain
import Verif.Props.HclAgain
import Verif.Model.HclBlocks
import Verif.Lemmas.HclBlocksLocal
import Verif.Lemmas.HclBlocks
import Verif.Props.HclBlocks
