import Verif.Lemmas.Adder
import Verif.Lemmas.AdderBits
import Verif.Lemmas.AdderComp
import Verif.Lemmas.AdderShape
import Verif.Lemmas.AdderWorld
import Verif.Lemmas.Am1
import Verif.Lemmas.Am1Sub
import Verif.Lemmas.AssignIter
import Verif.Lemmas.Assignment
import Verif.Lemmas.AssignmentInput
import Verif.Lemmas.Att
import Verif.Lemmas.AvgLen
import Verif.Lemmas.Bindings
import Verif.Lemmas.BindingsToy
import Verif.Lemmas.Bound
import Verif.Lemmas.CadicalApi
import Verif.Lemmas.CadicalApiOom
import Verif.Lemmas.CadicalApiStep
import Verif.Lemmas.CadicalApiTold
import Verif.Lemmas.Capi
import Verif.Lemmas.CertDefine
import Verif.Lemmas.CertDefs
import Verif.Lemmas.CertEnc
import Verif.Lemmas.CertEncode
import Verif.Lemmas.CertEncode2
import Verif.Lemmas.CertEncodePb
import Verif.Lemmas.CertEncodePb2
import Verif.Lemmas.CertEncodePb3
import Verif.Lemmas.CertGte
import Verif.Lemmas.CertGteDef
import Verif.Lemmas.CertOps
import Verif.Lemmas.CertSem
import Verif.Lemmas.CertTotalizer
import Verif.Lemmas.CertTree
import Verif.Lemmas.Clause
import Verif.Lemmas.Clustering
import Verif.Lemmas.Clustering2
import Verif.Lemmas.ClusteringInput
import Verif.Lemmas.Collect
import Verif.Lemmas.Collector
import Verif.Lemmas.Constraints
import Verif.Lemmas.Converters
import Verif.Lemmas.Core
import Verif.Lemmas.Cover
import Verif.Lemmas.CoverTrees
import Verif.Lemmas.Define
import Verif.Lemmas.Define2
import Verif.Lemmas.Define3
import Verif.Lemmas.Dimacs
import Verif.Lemmas.Dimacs2
import Verif.Lemmas.DimacsAccept
import Verif.Lemmas.DimacsAccept2
import Verif.Lemmas.DimacsAccept3
import Verif.Lemmas.DimacsAccept4
import Verif.Lemmas.Dpw
import Verif.Lemmas.DpwEnc
import Verif.Lemmas.DpwLCore
import Verif.Lemmas.DpwLoc
import Verif.Lemmas.DpwMerge
import Verif.Lemmas.DpwMove
import Verif.Lemmas.DpwWorld
import Verif.Lemmas.Drain
import Verif.Lemmas.EncodeConstr
import Verif.Lemmas.Encoding
import Verif.Lemmas.F64
import Verif.Lemmas.Gap
import Verif.Lemmas.Gbmo
import Verif.Lemmas.Gbmo2
import Verif.Lemmas.Gte
import Verif.Lemmas.Instance
import Verif.Lemmas.KnapsackCnf
import Verif.Lemmas.LeafIter
import Verif.Lemmas.Lit
import Verif.Lemmas.MaxSat
import Verif.Lemmas.Merge
import Verif.Lemmas.Mo2Ilp
import Verif.Lemmas.Mo2Ilp2
import Verif.Lemmas.Mono
import Verif.Lemmas.NoUnit
import Verif.Lemmas.NoUnitGte
import Verif.Lemmas.NodeCon
import Verif.Lemmas.NodeDb
import Verif.Lemmas.NodeDb2
import Verif.Lemmas.Objective
import Verif.Lemmas.Objective2
import Verif.Lemmas.OpSeq
import Verif.Lemmas.Opb
import Verif.Lemmas.Opb2
import Verif.Lemmas.Opb3
import Verif.Lemmas.OpbAccept
import Verif.Lemmas.OpbAccept2
import Verif.Lemmas.Operators
import Verif.Lemmas.OptConv
import Verif.Lemmas.OutOfMem
import Verif.Lemmas.OutOfMemAny
import Verif.Lemmas.OutOfMemWorld
import Verif.Lemmas.Pigeons
import Verif.Lemmas.ProblemEnc
import Verif.Lemmas.ProblemInput
import Verif.Lemmas.ProblemPb
import Verif.Lemmas.ProofText
import Verif.Lemmas.ProofText2
import Verif.Lemmas.ProofText3
import Verif.Lemmas.ProofText4
import Verif.Lemmas.ProofText5
import Verif.Lemmas.Propagate
import Verif.Lemmas.PyEnc
import Verif.Lemmas.Referenced
import Verif.Lemmas.Reserve
import Verif.Lemmas.ReserveAll
import Verif.Lemmas.ReserveDpw
import Verif.Lemmas.ReserveShape
import Verif.Lemmas.ReserveWorld
import Verif.Lemmas.ResetVars
import Verif.Lemmas.Rup
import Verif.Lemmas.Shuffle
import Verif.Lemmas.Simp
import Verif.Lemmas.Simp2
import Verif.Lemmas.Simp3
import Verif.Lemmas.Simulators
import Verif.Lemmas.SolverOptions
import Verif.Lemmas.SolverOutput
import Verif.Lemmas.StrictExt
import Verif.Lemmas.Sums
import Verif.Lemmas.Text
import Verif.Lemmas.TotDb
import Verif.Lemmas.Totalizer
import Verif.Lemmas.Totalizer2
import Verif.Lemmas.Tracer
import Verif.Lemmas.Trees
import Verif.Lemmas.VarManager
import Verif.Lemmas.VeriPb
import Verif.Lemmas.Weighted
import Verif.Model.Adder
import Verif.Model.Am1
import Verif.Model.AssignIter
import Verif.Model.Assignment
import Verif.Model.Atomics
import Verif.Model.AvgLen
import Verif.Model.Batsat
import Verif.Model.Bindings
import Verif.Model.Bound
import Verif.Model.CadicalApi
import Verif.Model.Capi
import Verif.Model.CertDb
import Verif.Model.CertEncode
import Verif.Model.CertEncodePb
import Verif.Model.CertGte
import Verif.Model.CertInverted
import Verif.Model.CertTotalizer
import Verif.Model.Clustering
import Verif.Model.ClusteringInput
import Verif.Model.Cnf
import Verif.Model.Collect
import Verif.Model.Constraints
import Verif.Model.Dimacs
import Verif.Model.Dpw
import Verif.Model.Drain
import Verif.Model.EncodeConstr
import Verif.Model.Gbmo
import Verif.Model.Gte
import Verif.Model.Instance
import Verif.Model.KnapsackCnf
import Verif.Model.LeafIter
import Verif.Model.Lit
import Verif.Model.MaxSat
import Verif.Model.Mo2Ilp
import Verif.Model.NodeDb
import Verif.Model.Objective
import Verif.Model.OpSeq
import Verif.Model.Opb
import Verif.Model.Operators
import Verif.Model.OutOfMem
import Verif.Model.Pigeons
import Verif.Model.ProblemEnc
import Verif.Model.ProblemInput
import Verif.Model.ProofText
import Verif.Model.Propagate
import Verif.Model.Propagator
import Verif.Model.PyApi
import Verif.Model.PyEnc
import Verif.Model.Referenced
import Verif.Model.Shuffle
import Verif.Model.Simp
import Verif.Model.SolverOptions
import Verif.Model.SolverOutput
import Verif.Model.Solvers
import Verif.Model.Text
import Verif.Model.Tools
import Verif.Model.TotDb
import Verif.Model.Totalizer
import Verif.Model.Tracer
import Verif.Model.VarArith
import Verif.Model.VarManager
import Verif.Props.Adder
import Verif.Props.Am1
import Verif.Props.AssignIter
import Verif.Props.Atomics
import Verif.Props.AvgLen
import Verif.Props.Batsat
import Verif.Props.Bindings
import Verif.Props.BindingsCadical
import Verif.Props.BindingsMini
import Verif.Props.CadicalApi
import Verif.Props.Capi
import Verif.Props.Cert
import Verif.Props.CertEncode
import Verif.Props.CertEncodePb
import Verif.Props.CertGte
import Verif.Props.CertInverted
import Verif.Props.CheckSolution
import Verif.Props.Clause
import Verif.Props.Clustering
import Verif.Props.ClusteringInput
import Verif.Props.Collect
import Verif.Props.Constraints
import Verif.Props.Converters
import Verif.Props.Dimacs
import Verif.Props.DimacsAccept
import Verif.Props.Dpw
import Verif.Props.Drain
import Verif.Props.EncodeConstr
import Verif.Props.Gbmo
import Verif.Props.Gte
import Verif.Props.Instance
import Verif.Props.KnapsackCnf
import Verif.Props.LeafIter
import Verif.Props.MaxSat
import Verif.Props.Mo2Ilp
import Verif.Props.Mono
import Verif.Props.NodeCon
import Verif.Props.NodeDb
import Verif.Props.Objective
import Verif.Props.OpSeq
import Verif.Props.Opb
import Verif.Props.OpbAccept
import Verif.Props.Operators
import Verif.Props.OptConv
import Verif.Props.OutOfMem
import Verif.Props.ProblemInput
import Verif.Props.ProblemPb
import Verif.Props.ProofText
import Verif.Props.Propagate
import Verif.Props.Propagator
import Verif.Props.PyApi
import Verif.Props.PyEnc
import Verif.Props.Referenced
import Verif.Props.Reserve
import Verif.Props.ResetVars
import Verif.Props.Shuffle
import Verif.Props.Simp
import Verif.Props.Simulators
import Verif.Props.SolverOptions
import Verif.Props.SolverOutput
import Verif.Props.Solvers
import Verif.Props.Tools
import Verif.Props.Totalizer
import Verif.Props.Tracer
import Verif.Props.Types
import Verif.Props.VarArith
import Verif.Props.VarManager
import Verif.Spec.Adder
import Verif.Spec.AssignIter
import Verif.Spec.Assignment
import Verif.Spec.AvgLen
import Verif.Spec.Batsat
import Verif.Spec.Bindings
import Verif.Spec.Bound
import Verif.Spec.CadicalApi
import Verif.Spec.Capi
import Verif.Spec.CertEncode
import Verif.Spec.CertEncodePb
import Verif.Spec.CertGte
import Verif.Spec.CertInverted
import Verif.Spec.CertTotalizer
import Verif.Spec.Clustering
import Verif.Spec.ClusteringInput
import Verif.Spec.Collect
import Verif.Spec.Constraints
import Verif.Spec.Dimacs
import Verif.Spec.DimacsAccept
import Verif.Spec.Dpw
import Verif.Spec.Drain
import Verif.Spec.EncodeConstr
import Verif.Spec.Encoding
import Verif.Spec.Gbmo
import Verif.Spec.Gte
import Verif.Spec.Instance
import Verif.Spec.LeafIter
import Verif.Spec.MaxSat
import Verif.Spec.Mo2Ilp
import Verif.Spec.Mono
import Verif.Spec.Objective
import Verif.Spec.OpSeq
import Verif.Spec.Opb
import Verif.Spec.OpbAccept
import Verif.Spec.Operators
import Verif.Spec.OutOfMem
import Verif.Spec.Pigeons
import Verif.Spec.ProblemEnc
import Verif.Spec.ProblemInput
import Verif.Spec.ProofText
import Verif.Spec.Propagate
import Verif.Spec.Propagator
import Verif.Spec.PyApi
import Verif.Spec.PyEnc
import Verif.Spec.Referenced
import Verif.Spec.Reserve
import Verif.Spec.Sem
import Verif.Spec.Shuffle
import Verif.Spec.Simp
import Verif.Spec.SolverOptions
import Verif.Spec.SolverOutput
import Verif.Spec.Solvers
import Verif.Spec.Tools
import Verif.Spec.TotDb
import Verif.Spec.Totalizer
import Verif.Spec.Tracer
import Verif.Spec.VeriPb
