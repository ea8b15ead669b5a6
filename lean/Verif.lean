import Verif.Py
import Verif.Spec
import Verif.Props.Verdict
import Verif.Props.Normal
import Verif.Props.Node
import Verif.Props.Basic
import Verif.Props.Queue
import Verif.Props.Graph
import Verif.Props.Reader
import Verif.Props.ReaderExact
import Verif.Props.Gdb
import Verif.Props.Shared
import Verif.Props.Database
import Verif.Props.ThiefShared
import Verif.Props.Failure
import Verif.Props.Factorize
import Verif.Props.Circuit
import Verif.Props.FactGen
import Verif.Props.GenComments
import Verif.Props.MultGen
import Verif.Props.Thief
import Verif.Props.Draw
import Verif.Props.DrawWorkers
import Verif.Props.GdbCounts
import Verif.Props.Faults
import Verif.Props.Recursion
import Verif.Props.Program
import Verif.Props.MainLine
import Verif.Props.MainLineExact
import Verif.Cnfgen.Examples
import Verif.Cnfgen.Ordering
import Verif.Cnfgen.Counting
import Verif.Cnfgen.Tseitin
import Verif.Cnfgen.Coloring
import Verif.Cnfgen.Shuffle
import Verif.Cnfgen.Tools
import Verif.Cnfgen.Numbering
import Verif.Cnfgen.Renaming
import Verif.Cnfgen.ToolProps
import Verif.Cnfgen.ToolNumbers
import Verif.Cnfgen.WellFormed
import Verif.Cnfgen.Ramsey
import Verif.Cnfgen.CliqueColoring
import Verif.Cnfgen.DominatingSet
import Verif.Cnfgen.SubsetCard
import Verif.Cnfgen.Isomorphism
import Verif.Cnfgen.Pebbling
import Verif.Cnfgen.SubgraphMany
import Verif.Cnfgen.Models3
import Verif.Cnfgen.Clauses
import Verif.Cnfgen.Clauses2
import Verif.Cnfgen.Clauses3
import Verif.Cnfgen.Random
import Verif.Cnfgen.DimacsReader
import Verif.Cnfgen.GraphDimacs
import Verif.Cnfgen.BipRegular
import Verif.Cnfgen.AddEdges
import Verif.Cnfgen.SolverIface
import Verif.Cnfgen.CmdGraph
import Verif.Cnfgen.Commands
import Verif.Cnfgen.Pipeline
import Verif.Cnfgen.CmdBip
import Verif.Cnfgen.CmdOptions
import Verif.Cnfgen.CommandsBip
import Verif.Cnfgen.CommandModels
import Verif.Cnfgen.Latex
import Verif.Cnfgen.LatexProps
import Verif.Cnfgen.LatexRead
import Verif.Cnfgen.GraphFile
import Verif.Cnfgen.CmdInts
import Verif.Cnfgen.Provenance
import Verif.Cnfgen.Argparse
import Verif.Cnfgen.CommandLine
import Verif.Cnfgen.GraphCommand
import Verif.Cnfgen.GraphLine
import Verif.Cnfgen.BipCommand
import Verif.Cnfgen.BipLine
import Verif.Cnfgen.DagText
import Verif.Cnfgen.CnfObject
import Verif.Proofs.Lead
import Verif.Cnfgen.ToolLine
import Verif.Cnfgen.ToolLineSpec
import Verif.Cnfgen.ToolLineProps
import Verif.Cnfgen.ToolLineTrans
import Verif.Cnfgen.MainClear
import Verif.Cnfgen.FamilyExact
import Verif.Props.MainLineHelp
