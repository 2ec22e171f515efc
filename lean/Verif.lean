import Verif.Prog
import Verif.Model.Sample
import Verif.Model.Val
import Verif.Model.Lsw
import Verif.Proofs.LswAny
import Verif.Proofs.LswCon
import Verif.Proofs.LswSort
import Verif.Model.Types
import Verif.Sem
import Verif.Logic.WP
import Verif.Logic.Inv
import Verif.Logic.Pres
import Verif.Logic.Comm
import Verif.Logic.Safe
import Verif.Logic.Term
import Verif.Logic.Swp
import Verif.Proofs.Ins
import Verif.Proofs.Part
import Verif.Proofs.Sample
import Verif.Proofs.Pivot
import Verif.Proofs.Short
import Verif.Proofs.Long
import Verif.Proofs.Sort
import Verif.Spec
import Verif.Proofs.Fams
import Verif.Proofs.View
import Verif.Proofs.NaN
import Verif.Proofs.Call
import Verif.Proofs.Term
import Verif.Proofs.IsSorted
import Verif.Proofs.Dispatch
import Verif.Proofs.Mean
import Verif.Proofs.Job
import Verif.Proofs.Outcome
import Verif.Props.Slice
import Verif.Props.Conc
import Verif.Proofs.Observe
import Verif.Props.Pure
import Verif.Proofs.Check
import Verif.Props.Check
import Verif.Props.Unique
import Verif.Proofs.Hang
import Verif.Props.Hang
import Verif.SpecLsw
import Verif.Proofs.LswTerm
import Verif.Proofs.LswJob
import Verif.Proofs.Wrap
import Verif.Proofs.LswCheck
import Verif.Props.LswWitness
import Verif.Props.Lsw
import Verif.Props.LswCheck
import Verif.SpecFloat
import Verif.Props.Float
import Verif.Props.FloatUnique
import Verif.Props.LswStrict
import Verif.Props.LswAny
import Verif.SemHB
import Verif.Logic.HB
import Verif.Logic.HBTrace
import Verif.Props.HB
import Verif.Logic.Count
import Verif.Props.Count
import Verif.Props.SearchFloat
import Verif.Props.SearchSorted
import Verif.SemCost
import Verif.Logic.Cost
import Verif.Proofs.LswCost
import Verif.Proofs.ValCost
import Verif.Props.Cost
import Verif.Logic.Det
import Verif.Proofs.Det
import Verif.Props.Det
import Verif.Proofs.Loads
import Verif.Props.Loads
import Verif.SpecMedian
import Verif.Proofs.SampleOpt
import Verif.Proofs.Median
import Verif.Props.Median
import Verif.Proofs.LswMedian
import Verif.Props.LswMedian
import Verif.Proofs.ValQuiet
import Verif.Proofs.LswQuiet
import Verif.Proofs.Ascending
import Verif.Props.Sorted
import Verif.SemHigh
import Verif.Logic.High
import Verif.Proofs.Parallel
import Verif.Props.Parallel
import Verif.Model.Mach
import Verif.Logic.Twin
import Verif.Proofs.Mach
import Verif.Proofs.MachLsw
import Verif.SpecMach
import Verif.Proofs.MachJob
import Verif.Props.Mach
import Verif.SpecCounter
import Verif.Logic.Counter
import Verif.Props.Counter
import Verif.SpecStable
import Verif.Proofs.Stable
import Verif.Props.Stable
import Verif.Logic.Swaps
import Verif.Proofs.Swaps
import Verif.Props.Swaps
import Verif.Logic.Calm
import Verif.Proofs.Calm
import Verif.Props.Calm
import Verif.SemWeak
import Verif.Logic.Weak
import Verif.Props.Weak
import Verif.Logic.Left
import Verif.Props.Recover
import Verif.Logic.Eval
import Verif.Logic.Crowd
import Verif.Proofs.Flat
import Verif.Proofs.FlatFam
import Verif.Proofs.LswFlat
import Verif.Props.Crowd
import Verif.Logic.Adv
import Verif.Proofs.Killer
import Verif.Props.Killer
import Verif.Logic.Touch
import Verif.Proofs.ValKiller
import Verif.Proofs.ValSlow
import Verif.Props.ValKiller
import Verif.SpecDrops
import Verif.Proofs.TwoValued
import Verif.Props.TwoValued
import Verif.Logic.Most
import Verif.Logic.KCost
import Verif.Proofs.Balance
import Verif.Proofs.Balance2
import Verif.Proofs.FewKeys
import Verif.Proofs.FewCon
import Verif.Proofs.ValFew
import Verif.Props.FewKeys
import Verif.Props.LswUnique
import Verif.Logic.Single
import Verif.Proofs.Layered
import Verif.Proofs.LayeredRun
import Verif.Proofs.ValLayered
import Verif.Props.Layered
import Verif.Logic.Within
import Verif.Proofs.Names
import Verif.Proofs.Exch
import Verif.Proofs.ExchMid
import Verif.Proofs.XLogX
import Verif.Proofs.Average
import Verif.Proofs.AverageRun
import Verif.Proofs.ConNames
import Verif.Proofs.AverageCost
import Verif.Proofs.AverageCon
import Verif.Proofs.ValAverage
import Verif.Proofs.ValAverageCon
import Verif.Proofs.ValAverageNaN
import Verif.Props.Average
import Verif.Logic.Held
import Verif.Proofs.Held
import Verif.Props.Held
import Verif.SemLen
import Verif.Logic.Gap
import Verif.Proofs.Gap
import Verif.Props.Steps
import Verif.Model.LswVariants
import Verif.Proofs.LswVariants
import Verif.Props.Contract
import Verif.Model.LswCols
import Verif.Logic.Rows
import Verif.Logic.RowsHB
import Verif.Proofs.LswCols
import Verif.Props.Columns
import Verif.Props.Turn
import Verif.Props.AnyCmp
import Verif.Props.TurnCols
import Verif.Props.ColumnsAny
