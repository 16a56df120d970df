import Verif.Model.Catalog
import Verif.Model.Compare
import Verif.Model.Construct
import Verif.Model.Decode
import Verif.Model.Equality
import Verif.Model.Eval
import Verif.Model.Files
import Verif.Model.Formats
import Verif.Model.JsonHeap
import Verif.Model.JsonMixins
import Verif.Model.JsonText
import Verif.Model.Keeping
import Verif.Model.KwOrder
import Verif.Model.Locations
import Verif.Model.Metaschema
import Verif.Model.Output
import Verif.Model.OutputFormats
import Verif.Model.Patch
import Verif.Model.PatchHeap
import Verif.Model.PatchSeq
import Verif.Model.Percent
import Verif.Model.PlainEdit
import Verif.Model.Pointer
import Verif.Model.Put
import Verif.Model.Py
import Verif.Model.Regex
import Verif.Model.Registry
import Verif.Model.RelPointer
import Verif.Model.Repr
import Verif.Model.Rfc3986
import Verif.Model.Roots
import Verif.Model.Schema
import Verif.Model.SchemaEdit
import Verif.Model.Sources
import Verif.Model.UriEdit
import Verif.Model.Validate
import Verif.Model.Vocabulary
import Verif.Proof.Annotate
import Verif.Proof.Apart
import Verif.Proof.Aside
import Verif.Proof.Assertions
import Verif.Proof.Catalog
import Verif.Proof.Construct
import Verif.Proof.ConstructDoc
import Verif.Proof.ConstructInv
import Verif.Proof.ConstructKw
import Verif.Proof.ConstructLocal
import Verif.Proof.ConstructMono
import Verif.Proof.ConstructNames
import Verif.Proof.ConstructNamesAll
import Verif.Proof.ConstructReach
import Verif.Proof.ConstructRefs
import Verif.Proof.ConstructSchema
import Verif.Proof.ConstructTotal
import Verif.Proof.Cut
import Verif.Proof.DecodeOk
import Verif.Proof.Demo
import Verif.Proof.Did
import Verif.Proof.DocAssert
import Verif.Proof.DocBridge
import Verif.Proof.DocCorr
import Verif.Proof.DocDone
import Verif.Proof.DocLater
import Verif.Proof.DocObserved
import Verif.Proof.DocReads
import Verif.Proof.DocRef
import Verif.Proof.DocResolve
import Verif.Proof.DocVerdict
import Verif.Proof.DynScope
import Verif.Proof.Elsewhere
import Verif.Proof.Equality
import Verif.Proof.Errors
import Verif.Proof.EvalGood
import Verif.Proof.EvalItems
import Verif.Proof.EvalKws
import Verif.Proof.EvalKws2
import Verif.Proof.EvalKws3
import Verif.Proof.EvalKws4
import Verif.Proof.EvalLoops
import Verif.Proof.EvalMono
import Verif.Proof.EvalSim
import Verif.Proof.EvalStep
import Verif.Proof.EvalTree
import Verif.Proof.Files
import Verif.Proof.Formed
import Verif.Proof.Gather
import Verif.Proof.Halt
import Verif.Proof.IntText
import Verif.Proof.Island
import Verif.Proof.JsonBuild
import Verif.Proof.JsonDoc
import Verif.Proof.JsonDump
import Verif.Proof.JsonHeap
import Verif.Proof.JsonLex
import Verif.Proof.JsonMixins
import Verif.Proof.JsonOps
import Verif.Proof.JsonParse
import Verif.Proof.JsonStr
import Verif.Proof.JsonWritten
import Verif.Proof.Keeping
import Verif.Proof.Kinds
import Verif.Proof.KwOrder
import Verif.Proof.Later
import Verif.Proof.Load
import Verif.Proof.LoadResolve
import Verif.Proof.Locations
import Verif.Proof.NamesCheck
import Verif.Proof.NoCache
import Verif.Proof.ObsSpec
import Verif.Proof.Output
import Verif.Proof.Patch
import Verif.Proof.PatchHeap
import Verif.Proof.PatchTree
import Verif.Proof.Percent
import Verif.Proof.PlainDoc
import Verif.Proof.PlainEdit
import Verif.Proof.Pointer
import Verif.Proof.Put
import Verif.Proof.Py
import Verif.Proof.PyLiteral
import Verif.Proof.Regex
import Verif.Proof.RelPointer
import Verif.Proof.Replace
import Verif.Proof.Reports
import Verif.Proof.ResolveFrame
import Verif.Proof.ResultPlaces
import Verif.Proof.Rfc3986
import Verif.Proof.RootMeta
import Verif.Proof.RootUri
import Verif.Proof.SchemaEdit
import Verif.Proof.Shelf
import Verif.Proof.Sources
import Verif.Proof.Split
import Verif.Proof.Suite
import Verif.Proof.ToyEnv
import Verif.Proof.Traces
import Verif.Proof.Twin
import Verif.Proof.TwinDoc
import Verif.Proof.TwinForm
import Verif.Proof.Under
import Verif.Proof.Undo
import Verif.Proof.Unresolved
import Verif.Proof.UriEdit
import Verif.Proof.Value
import Verif.Proof.Verdict
import Verif.Proof.Vocabulary
import Verif.Proof.Written
import Verif.Props.Annotations
import Verif.Props.Apart
import Verif.Props.Applicators
import Verif.Props.Catalog
import Verif.Props.Compare
import Verif.Props.Construct
import Verif.Props.Constructible
import Verif.Props.Cut
import Verif.Props.DialectMeta
import Verif.Props.Dialects
import Verif.Props.DocObserved
import Verif.Props.Document
import Verif.Props.Elsewhere
import Verif.Props.Equality
import Verif.Props.Files
import Verif.Props.Formats
import Verif.Props.Formed
import Verif.Props.JsonEval
import Verif.Props.JsonHeap
import Verif.Props.JsonMixins
import Verif.Props.JsonText
import Verif.Props.JsonWritten
import Verif.Props.Keeping
import Verif.Props.Keywords
import Verif.Props.KwOrder
import Verif.Props.Labels
import Verif.Props.Locations
import Verif.Props.Metaschema
import Verif.Props.Names
import Verif.Props.OutputUnits
import Verif.Props.Outputs
import Verif.Props.Patch
import Verif.Props.PatchEq
import Verif.Props.PatchErrors
import Verif.Props.PatchFailed
import Verif.Props.PatchHeap
import Verif.Props.PatchInPlace
import Verif.Props.PatchSeq
import Verif.Props.Percent
import Verif.Props.PercentExact
import Verif.Props.PlainEdit
import Verif.Props.Pointer
import Verif.Props.PointerExact
import Verif.Props.Put
import Verif.Props.Registry
import Verif.Props.RelPointer
import Verif.Props.Replace
import Verif.Props.Reports
import Verif.Props.Repr
import Verif.Props.Results
import Verif.Props.Rfc3986
import Verif.Props.Roots
import Verif.Props.SchemaEdit
import Verif.Props.Shelf
import Verif.Props.Sources
import Verif.Props.Split
import Verif.Props.Suite
import Verif.Props.Suite19
import Verif.Props.Traces
import Verif.Props.Twin
import Verif.Props.Under
import Verif.Props.Undo
import Verif.Props.UriEdit
import Verif.Props.Validate
import Verif.Props.Validation
import Verif.Props.Vocabulary
import Verif.Spec.Apart
import Verif.Spec.Catalog
import Verif.Spec.Compare
import Verif.Spec.Conditions
import Verif.Spec.Construct
import Verif.Spec.Constructible
import Verif.Spec.Cut
import Verif.Spec.Dialect
import Verif.Spec.DocFaithful
import Verif.Spec.DocObserved
import Verif.Spec.Document
import Verif.Spec.Elsewhere
import Verif.Spec.Files
import Verif.Spec.Formats
import Verif.Spec.Formed
import Verif.Spec.IntText
import Verif.Spec.Island
import Verif.Spec.JsonHeap
import Verif.Spec.JsonMixins
import Verif.Spec.JsonSchema
import Verif.Spec.JsonText
import Verif.Spec.JsonWritten
import Verif.Spec.Keeping
import Verif.Spec.KwOrder
import Verif.Spec.Labels
import Verif.Spec.Locations
import Verif.Spec.Metaschema
import Verif.Spec.Names
import Verif.Spec.Observed
import Verif.Spec.OutputUnits
import Verif.Spec.Outputs
import Verif.Spec.Patch
import Verif.Spec.PatchErrors
import Verif.Spec.PatchHeap
import Verif.Spec.PatchInPlace
import Verif.Spec.Percent
import Verif.Spec.PlainEdit
import Verif.Spec.Pointer
import Verif.Spec.PointerExact
import Verif.Spec.Put
import Verif.Spec.PyLiteral
import Verif.Spec.Rank
import Verif.Spec.Regex
import Verif.Spec.Registry
import Verif.Spec.RelPointer
import Verif.Spec.Replace
import Verif.Spec.Reports
import Verif.Spec.Results
import Verif.Spec.Rfc3986
import Verif.Spec.Roots
import Verif.Spec.SchemaEdit
import Verif.Spec.SchemaOk
import Verif.Spec.Shelf
import Verif.Spec.Sources
import Verif.Spec.Split
import Verif.Spec.Standard
import Verif.Spec.Suite
import Verif.Spec.Traces
import Verif.Spec.Twin
import Verif.Spec.Under
import Verif.Spec.Undo
import Verif.Spec.Uri
import Verif.Spec.UriEdit
import Verif.Spec.Validate
import Verif.Spec.Value
import Verif.Spec.Vocabulary
