import Verif.Basic
import Verif.Model.VarInt
import Verif.Model.Types
import Verif.Model.Module
import Verif.Spec.Leb
import Verif.Spec.Module
import Verif.Proof.VarInt
import Verif.Proof.At
import Verif.Proof.Module
import Verif.Proof.Module2
import Verif.Proof.Module3
import Verif.Proof.Module4
import Verif.Proof.Module5
import Verif.Props.VarInt
import Verif.Props.Module
import Verif.Props.Types
import Verif.Spec.Machine
import Verif.Model.Builder
import Verif.Model.Interp
import Verif.Props.Builder
import Verif.Proof.Mem
import Verif.Spec.WellFormed
import Verif.Spec.Frame
import Verif.Spec.Call
import Verif.Spec.StraightLine
import Verif.Proof.Interp
import Verif.Proof.Interp2
import Verif.Proof.Call
import Verif.Proof.Call2
import Verif.Proof.Call3
import Verif.Props.Interp
import Verif.Props.Call
import Verif.Props.EndToEnd
import Verif.Model.ByteBuffer
import Verif.Spec.ByteBuffer
import Verif.Proof.ByteBuffer
import Verif.Proof.ByteBuffer2
import Verif.Props.ByteBuffer
import Verif.Model.Rc
import Verif.Spec.Rc
import Verif.Props.Rc
import Verif.Model.IntrusiveList
import Verif.Props.IntrusiveList
import Verif.Model.Label
import Verif.Props.Label
import Verif.Model.LineInfo
import Verif.Props.LineInfo
import Verif.Model.EdnReal
import Verif.Model.EdnNode
import Verif.Props.Symbols
import Verif.Spec.Edn
import Verif.Proof.EdnNode
import Verif.Proof.EdnNode2
import Verif.Props.EdnNode
import Verif.Model.Regex
import Verif.Model.EdnLexer
import Verif.Model.EdnParser
import Verif.Spec.Regex
import Verif.Proof.Regex
import Verif.Spec.EdnLex
import Verif.Proof.EdnLexer
import Verif.Proof.EdnLexer2
import Verif.Proof.EdnLexer3
import Verif.Spec.EdnGrammar
import Verif.Proof.EdnGrammar
import Verif.Props.EdnLexer
import Verif.Spec.EdnParse
import Verif.Proof.EdnSim
import Verif.Proof.EdnParse
import Verif.Proof.EdnParse2
import Verif.Props.EdnParse
import Verif.Spec.EdnTokens
import Verif.Spec.EdnTree
import Verif.Proof.EdnTree
import Verif.Proof.EdnTree2
import Verif.Proof.EdnTree3
import Verif.Props.EdnTree
import Verif.Model.Util
import Verif.Props.Util
import Verif.Model.LebStream
import Verif.Props.LebStream
import Verif.Model.LinearMemory
import Verif.Props.LinearMemory
import Verif.Model.Driver
import Verif.Props.Driver
import Verif.Model.Sexpr
import Verif.Props.Sexpr
import Verif.Model.Maybe
import Verif.Props.Maybe
import Verif.Model.Vec
import Verif.Spec.Vec
import Verif.Proof.Vec
import Verif.Proof.Vec2
import Verif.Proof.Vec3
import Verif.Proof.Vec4
import Verif.Proof.Vec5
import Verif.Props.Vec
import Verif.Model.WasmOps
import Verif.Model.WasmReader
import Verif.Model.Disasm
import Verif.Spec.Wasm
import Verif.Proof.Wasm
import Verif.Proof.Wasm2
import Verif.Props.Wasm
import Verif.Proof.WasmTotal
import Verif.Spec.Disasm
import Verif.Proof.Disasm
import Verif.Props.Disasm
import Verif.Model.Own
import Verif.Spec.Own
import Verif.Proof.Own
import Verif.Props.Own
import Verif.Model.TypeRef
import Verif.Props.TypeRef
import Verif.Model.Context
import Verif.Props.Context
import Verif.Model.Wast
import Verif.Spec.Wast
import Verif.Proof.Wast
import Verif.Proof.WastPieces
import Verif.Props.Wast
import Verif.Model.Tools
import Verif.Props.Tools
import Verif.Spec.EdnForm
import Verif.Proof.EdnForm
import Verif.Props.EdnForm
import Verif.Model.Result
import Verif.Props.Result
import Verif.Model.Lock
import Verif.Props.Lock
import Verif.Props.Span
import Verif.Model.WriterHeap
import Verif.Proof.WriterHeap
import Verif.Proof.WriterHeap2
import Verif.Props.WriterHeap
import Verif.Spec.Loader
import Verif.Proof.Loader
import Verif.Props.Loader
import Verif.Spec.EdnReal
import Verif.Proof.EdnReal
import Verif.Proof.EdnReal2
import Verif.Proof.EdnReal3
import Verif.Props.EdnReal
import Verif.Model.EdnHeap
import Verif.Spec.EdnHeap
import Verif.Proof.EdnHeap
import Verif.Proof.EdnHeap2
import Verif.Proof.EdnHeap3
import Verif.Proof.EdnHeap4
import Verif.Proof.EdnHeap5
import Verif.Props.EdnHeap
import Verif.Props.EdnHeap2
import Verif.Props.EdnHeap3
import Verif.Spec.EdnShare
import Verif.Proof.EdnShare
import Verif.Props.EdnShare
import Verif.Spec.Sexpr
import Verif.Props.Layout
import Verif.Spec.Disasm2
import Verif.Proof.Disasm2
import Verif.Props.Disasm2
import Verif.Spec.Code
import Verif.Props.Code
import Verif.Spec.EdnErrors
import Verif.Proof.EdnErrors
import Verif.Props.EdnErrors
import Verif.Spec.Assigned
import Verif.Proof.Assigned
import Verif.Props.Assigned
import Verif.Model.LoaderMem
import Verif.Props.LoaderMem
import Verif.Model.World
import Verif.Proof.World
import Verif.Props.World
import Verif.Spec.Answer
import Verif.Props.EndToEnd2
import Verif.Spec.EdnDouble
import Verif.Props.EdnDouble
import Verif.Model.Token
import Verif.Props.Token
import Verif.Props.Growth
import Verif.Props.VecCost
import Verif.Proof.EdnWork
import Verif.Props.EdnWork
import Verif.Spec.DisasmCode
import Verif.Props.DisasmCode
import Verif.Model.EdnStack
import Verif.Spec.EdnDepth
import Verif.Proof.EdnStack
import Verif.Props.EdnStack
import Verif.Model.EdnHeapStack
import Verif.Spec.EdnHeapStack
import Verif.Proof.EdnHeapStack
import Verif.Props.EdnHeapStack
import Verif.Model.TokenText
import Verif.Props.TokenText
import Verif.Spec.DisasmDrift
import Verif.Props.DisasmDrift
import Verif.Model.Box
import Verif.Spec.Box
import Verif.Props.Box
import Verif.Model.OpName
import Verif.Props.OpName
import Verif.Model.Trace
import Verif.Spec.Trace
import Verif.Props.Trace
import Verif.Model.EdnPrint
import Verif.Spec.EdnPrint
import Verif.Props.EdnPrint
import Verif.Model.Memories
import Verif.Spec.Memories
import Verif.Props.Memories
import Verif.Model.Machines
import Verif.Spec.Machines
import Verif.Props.Machines
import Verif.Model.RcGraph
import Verif.Spec.RcGraph
import Verif.Proof.RcGraph
import Verif.Props.RcGraph
import Verif.Model.MaybeNull
import Verif.Props.MaybeNull
import Verif.Spec.ReadBack
import Verif.Props.ReadBack
import Verif.Model.VecSteps
import Verif.Spec.VecSize
import Verif.Props.VecSize
import Verif.Model.LineSteps
import Verif.Props.LineSteps
import Verif.Model.LoadWork
import Verif.Props.LoadWork
import Verif.Spec.EdnLayout
import Verif.Proof.EdnLayout
import Verif.Props.EdnLayout
import Verif.Props.EdnLayout2
import Verif.Spec.EdnConcat
import Verif.Proof.EdnConcat
import Verif.Props.EdnConcat
import Verif.Spec.EdnReplace
import Verif.Props.HashDepends
import Verif.Spec.EdnEqual
import Verif.Proof.EdnEqual
import Verif.Props.EdnEqual
import Verif.Model.Units
import Verif.Spec.Units
import Verif.Props.Units
import Verif.Spec.Cut
import Verif.Props.Cut
import Verif.Spec.EdnCut
import Verif.Props.EdnCut
import Verif.Spec.WasmCut
import Verif.Props.WasmCut
import Verif.Spec.WastCut
import Verif.Props.WastCut
