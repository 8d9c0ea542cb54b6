import Verif.Util
import Verif.Spec.Formula
import Verif.Factory.Model
import Verif.Factory.Lemmas
import Verif.Factory.Den
import Verif.Factory.Tree
import Verif.Factory.Refine
import Verif.Factory.Props
import Verif.Factory.Shared
import Verif.Factory.Encoding
import Verif.Assignment.Model
import Verif.Assignment.Lemmas
import Verif.Assignment.Props
import Verif.Factory.TreeShape
import Verif.Spec.NormalForm
import Verif.NormalForm.Model
import Verif.NormalForm.Lemmas
import Verif.NormalForm.Fact
import Verif.NormalForm.Cancel
import Verif.NormalForm.Props
import Verif.NormalForm.Cond
import Verif.NormalForm.Vars
import Verif.NormalForm.TseitinModel
import Verif.NormalForm.Tseitin
import Verif.NormalForm.TseitinTop
import Verif.NormalForm.PG
import Verif.NormalForm.CnfProps
import Verif.Encoding.Base
import Verif.Encoding.Amo
import Verif.Encoding.AmoLemmas
import Verif.Encoding.AmoRec
import Verif.Encoding.AmoCode
import Verif.Encoding.AmoProps
import Verif.Encoding.CC
import Verif.Encoding.CCBase
import Verif.Encoding.ModTot
import Verif.Encoding.Network
import Verif.Encoding.Sorter
import Verif.Encoding.CCTop
import Verif.Encoding.Incremental
import Verif.Encoding.CCProps
import Verif.PB.Normalize
import Verif.PB.NormalizeProps
import Verif.PB.Encode
import Verif.PB.Swc
import Verif.PB.Adder
import Verif.PB.BinaryMerge
import Verif.PB.EncodeProps
import Verif.Transform.Model
import Verif.Transform.Props
import Verif.Gen.Model
import Verif.Gen.Props
import Verif.Data.SetModel
import Verif.Data.SetProps
import Verif.Data.Queue
import Verif.Data.HeapModel
import Verif.Data.HeapProps
import Verif.Factory.FuncModel
import Verif.Factory.FuncProps
import Verif.Spec.Count
import Verif.Graph.Model
import Verif.Graph.Lemmas
import Verif.Graph.Props
import Verif.MaxSat.SubsetSum
import Verif.MaxSat.Loading
import Verif.MaxSat.SetCover
import Verif.Explain.Model
import Verif.Explain.Mus
import Verif.Explain.SmusModel
import Verif.Explain.Smus
import Verif.Opt.Model
import Verif.Opt.Props
import Verif.Sat.Lit
import Verif.Sat.Model
import Verif.Sat.Inv
import Verif.Sat.Analyze
import Verif.Sat.Search
import Verif.Sat.Solve
import Verif.Sat.State
import Verif.Sat.AtMost
import Verif.Sat.Props
import Verif.Sat.Backbone
import Verif.Sat.Predicate
import Verif.Bdd.Model
import Verif.Bdd.Tree
import Verif.Bdd.Inv
import Verif.Bdd.Ops
import Verif.Bdd.Quant
import Verif.Bdd.Kernel
import Verif.Bdd.Api
import Verif.Bdd.ApiSpec
import Verif.Bdd.Cube
import Verif.Bdd.Hist
import Verif.Bdd.Count
import Verif.Bdd.World
import Verif.Bdd.Props
import Verif.Bdd.Reorder
import Verif.Bdd.ReorderInv
import Verif.Bdd.ReorderDown
import Verif.Bdd.ReorderInit
import Verif.Bdd.ReorderDone
import Verif.Bdd.ReorderProps
import Verif.Bdd.Read
import Verif.Bdd.ReadLemmas
import Verif.Bdd.ReadSpec
import Verif.Bdd.ReadProps
import Verif.Bdd.Pick
import Verif.Bdd.PickSpec
import Verif.Bdd.PickProps
import Verif.Io.Dimacs
import Verif.Prime.Model
import Verif.Prime.Props
import Verif.Prime.Minimum
import Verif.Enum.Model
import Verif.Enum.Props
import Verif.Enum.Termination
import Verif.Enum.Canon
import Verif.Simpl.Model
import Verif.Simpl.Lemmas
import Verif.Simpl.FactorOut
import Verif.Simpl.Props
import Verif.Simpl.Subsumption
import Verif.Simpl.Advanced
import Verif.Solver.Model
import Verif.Solver.PG
import Verif.Solver.Add
import Verif.Solver.Hist
import Verif.NormalForm.Constr
import Verif.NormalForm.ConstrEnc
import Verif.Solver.Props
import Verif.Solver.Constr
import Verif.Solver.Predicate
import Verif.Parser.Model
import Verif.Parser.Lex
import Verif.Parser.Parse
import Verif.Parser.Walk
import Verif.Parser.Handles
import Verif.Parser.Props
import Verif.Simpl.Units
import Verif.Simpl.Negations
import Verif.Sat.Call
import Verif.Dnnf.Count
import Verif.Dnnf.Compile
import Verif.Dnnf.CompileProps
import Verif.Dnnf.Witness
import Verif.MaxSat.Base
import Verif.MaxSat.Totalizer
import Verif.MaxSat.Relax
import Verif.MaxSat.LinearUS
import Verif.MaxSat.Msu3
import Verif.MaxSat.LinearSU
import Verif.MaxSat.Swc
import Verif.MaxSat.LinearSUW
import Verif.MaxSat.AlgProps
import Verif.MaxSat.SwcInc
import Verif.MaxSat.TotInc
import Verif.MaxSat.Wmsu3
import Verif.MaxSat.Wmsu3Bmo
import Verif.MaxSat.WmsuProps
import Verif.MaxSat.Oll
import Verif.MaxSat.OllSearch
import Verif.MaxSat.Wbo
import Verif.MaxSat.WboInv
import Verif.MaxSat.WboStep
import Verif.MaxSat.WboSym
import Verif.MaxSat.WboSearch
import Verif.MaxSat.WboSymFalse
import Verif.MaxSat.IncWbo
import Verif.MaxSat.IncWboSearch
import Verif.MaxSat.IncWboSymFalse
import Verif.MaxSat.History
import Verif.MaxSat.HistoryLemmas
import Verif.MaxSat.HistoryInv
import Verif.MaxSat.HistoryProps
import Verif.MaxSat.HistoryFalse
import Verif.Drup.Model
import Verif.Drup.Lemmas
import Verif.Drup.Inv
import Verif.Drup.Prop
import Verif.Drup.Run
import Verif.Drup.Props
import Verif.Drup.Core
import Verif.Bdd.Order
import Verif.Bdd.OrderProps
import Verif.Simpl.UnitsShape
import Verif.Bdd.NormalForm
import Verif.Enum.SplitProps
import Verif.Sat.OnSolver
import Verif.Enum.ToBdd
import Verif.Data.Bitset
import Verif.Randomizer.Props
import Verif.Enum.Cancel
import Verif.Io.Wcnf
import Verif.Io.FormulaFile
import Verif.Graphical.Formula
import Verif.Assignment.Handles
import Verif.Bdd.Graph
import Verif.Bdd.GraphEx
import Verif.Graphical.Dot
import Verif.Graphical.Mermaid
import Verif.Graph.Graphical
import Verif.Graphical.Color
import Verif.Explain.Order
import Verif.NormalForm.Terms
import Verif.Graphical.Content
