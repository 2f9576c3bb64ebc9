import Verif.Py.Dict
import Verif.Py.Str
import Verif.Model.Heap
import Verif.Model.Hierarchy
import Verif.Model.Elements
import Verif.Model.System
import Verif.Lemmas.Frame
import Verif.Lemmas.Struct
import Verif.Lemmas.Update
import Verif.Lemmas.AddRemove
import Verif.Lemmas.MoveFields
import Verif.Lemmas.RemoveNamed
import Verif.Lemmas.Reach
import Verif.Lemmas.Run
import Verif.Lemmas.Acts
import Verif.Lemmas.Names
import Verif.Lemmas.Effects
import Verif.Props.Sample
import Verif.Props.Containment
import Verif.Props.Moves
import Verif.Props.Removal
import Verif.Spec.Names
import Verif.Spec.Containment
import Verif.Props.NamesDepth
import Verif.Props.Relations
import Verif.Props.Values
import Verif.Lemmas.Traversal
import Verif.Props.Traversal
import Verif.Props.Homomorphism
import Verif.Props.TensorState
import Verif.Props.Factory
import Verif.Model.Factorization
import Verif.Spec.Factorization
import Verif.Props.Factorization
import Verif.Model.Search
import Verif.Spec.Search
import Verif.Props.Search
import Verif.Model.Encoding
import Verif.Spec.Encoding
import Verif.Lemmas.Encoding
import Verif.Lemmas.Placed
import Verif.Lemmas.Decode
import Verif.Props.Encoding
import Verif.Props.EncodingSafety
import Verif.Model.QueryEngine
import Verif.Spec.QueryEngine
import Verif.Props.QueryEngine
import Verif.Props.Semantics
import Verif.Model.Sdf
import Verif.Model.CogniLang
import Verif.Spec.Sdf
import Verif.Props.Script
import Verif.Props.Sdf
import Verif.Props.SdfSolid
import Verif.Props.Robot
import Verif.Props.SdfKin
import Verif.Props.SdfFrame
import Verif.Props.SdfQuery
import Verif.Props.SdfFlat
import Verif.Props.SdfConvert
import Verif.Props.SdfNested
import Verif.Props.RobotKin
import Verif.Spec.CogniLang
import Verif.Lemmas.Region
import Verif.Props.CogniSafety
import Verif.Lemmas.Visit
import Verif.Lemmas.Connect
import Verif.Lemmas.Reading
import Verif.Lemmas.ReadLink
import Verif.Lemmas.ReadJoint
import Verif.Lemmas.ReadFile
import Verif.Props.CogniFile
import Verif.Props.CogniSample
import Verif.Lemmas.Timely
import Verif.Spec.CogniAccept
import Verif.Lemmas.Accept
import Verif.Lemmas.AcceptJoint
import Verif.Lemmas.AcceptFile
import Verif.Props.CogniAccept
import Verif.Props.CogniRefuse
import Verif.Props.CogniIgnored
import Verif.Model.Entropy
import Verif.Props.Entropy
import Verif.Props.SdfLink
import Verif.Lemmas.Neat
import Verif.Spec.CogniSdf
import Verif.Lemmas.Flat
import Verif.Lemmas.Scene
import Verif.Lemmas.SceneEnds
import Verif.Lemmas.SceneSolid
import Verif.Lemmas.SceneLink
import Verif.Lemmas.SceneSdf
import Verif.Lemmas.SceneSelect
import Verif.Props.CogniSdf
import Verif.Props.CogniSdfSample
import Verif.Props.CogniNested
import Verif.Props.CogniNestedSample
import Verif.Spec.SdfClosed
import Verif.Props.SdfClosed
import Verif.Props.SdfClosedText
import Verif.Spec.SdfNested
import Verif.Props.SdfTree
import Verif.Props.SdfTreeSample
import Verif.Props.Projected
import Verif.Py.Grammar
import Verif.Model.Grammar
import Verif.Spec.Grammar
import Verif.Spec.GrammarForm
import Verif.Lemmas.Lex
import Verif.Lemmas.LexToken
import Verif.Lemmas.LexSkip
import Verif.Lemmas.GrammarShape
import Verif.Lemmas.GrammarMeans
import Verif.Lemmas.GrammarCan
import Verif.Props.Grammar
import Verif.Props.GrammarTexts
import Verif.Props.GrammarLayout
import Verif.Model.SampleGraphs
import Verif.Spec.SampleGraphs
import Verif.Lemmas.SampleGraphs
import Verif.Props.SampleGraphs
import Verif.Props.Fuzzy
import Verif.Props.Printing
import Verif.Model.EventLoop
import Verif.Spec.EventLoop
import Verif.Lemmas.EventLoop
import Verif.Props.EventLoop
import Verif.Model.QueryConcurrent
import Verif.Spec.QueryConcurrent
import Verif.Props.QueryConcurrent
import Verif.Model.HyperTraversal
import Verif.Spec.HyperTraversal
import Verif.Props.HyperTraversal
import Verif.Model.Stack
import Verif.Spec.Stack
import Verif.Props.Stack
import Verif.Props.CogniTensor
import Verif.Spec.CogniTensor
import Verif.Spec.Isomorphism
import Verif.Props.Isomorphism
import Verif.Model.App
import Verif.Spec.App
import Verif.Props.App
import Verif.Props.EncodingTensor
import Verif.Props.FactorTensor
import Verif.Props.FactorMap
import Verif.Props.EncodingCoo
import Verif.Props.PlanTensor
import Verif.Props.PlanFactor
import Verif.Props.DirectedPlan
import Verif.Spec.TensorLocal
import Verif.Props.TensorLocal
import Verif.Spec.Components
import Verif.Props.Components
import Verif.Lemmas.NewKinds
import Verif.Props.PlanSent
import Verif.Model.TensorApi
import Verif.Props.TensorApi
import Verif.Spec.Streams
import Verif.Props.Streams
import Verif.Spec.Relay
import Verif.Props.Relay
import Verif.Spec.Mixed
import Verif.Props.Mixed
import Verif.Model.EarlyCoo
import Verif.Spec.EarlyCoo
import Verif.Props.EarlyCoo
import Verif.Model.Cbor
import Verif.Spec.Cbor
import Verif.Props.Cbor
import Verif.Model.QueryEdited
import Verif.Spec.QueryEdited
import Verif.Props.QueryEdited
import Verif.Spec.Alphabet
import Verif.Props.Alphabet
import Verif.Model.LazyChildren
import Verif.Spec.LazyChildren
import Verif.Props.LazyChildren
