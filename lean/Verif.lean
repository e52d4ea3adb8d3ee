import Verif.Plaschem.ChemProps
import Verif.Plaschem.ChemProps2
import Verif.Plaschem.ReactProps
import Verif.Plaschem.ReactProps2
import Verif.Plaschem.ReactRate
import Verif.Plaschem.KeyProps
import Verif.Plaschem.ReactInit
import Verif.Plaschem.Stoich
import Verif.Plaschem.Adhoc
import Verif.Plaschem.AdhocRet
import Verif.Plaschem.DumpLoad
import Verif.Plaschem.DumpProps
import Verif.Plaschem.CopyProps
import Verif.Pygmol.EqnsProps
import Verif.Pygmol.EqnsReg
import Verif.Pygmol.EqnsChem
import Verif.Pygmol.Power
import Verif.Pygmol.Params
import Verif.Pygmol.EqnsEnergy
import Verif.Pygmol.InitN
import Verif.Fwork.Global
import Verif.Fwork.GraphProps
import Verif.Fwork.FlowProps
import Verif.Fwork.Ranking
import Verif.Fwork.Compress
import Verif.Fwork.Errors
import Verif.Plaschem.Restore
import Verif.Fwork.ReduceExc
import Verif.Fwork.MorrisMap
import Verif.Fwork.MorrisRet
import Verif.Fwork.MorrisRuns
import Verif.Fwork.MorrisSeq
import Verif.Fwork.MorrisStats
import Verif.Fwork.MorrisRank
import Verif.Plaschem.Classify
import Verif.Plaschem.ClassifyLemmas
import Verif.Plaschem.ClassifyProps
import Verif.Plaschem.ClassifyHeavy
import Verif.Plaschem.ClassifyPerm
import Verif.Plaschem.Classifier
import Verif.Plaschem.ClassifierProps
import Verif.Plaschem.ClassifierHist
import Verif.Plaschem.SpeciesOrder
import Verif.Plaschem.XmlSame
import Verif.Plaschem.XmlTrip
import Verif.Plaschem.XmlBuild
import Verif.Plaschem.XmlDemo
import Verif.Plaschem.Xml
import Verif.Plaschem.XmlLemmas
import Verif.Plaschem.XmlSpec
import Verif.Plaschem.XmlRp
import Verif.Plaschem.XmlRx
import Verif.Plaschem.XmlSort
import Verif.Fwork.Rates
import Verif.Fwork.RatesProps
import Verif.Fwork.RatesDemo
import Verif.Fwork.Frames
import Verif.Fwork.Log
import Verif.Fwork.LogProps
import Verif.Fwork.LogDemo
import Verif.Fwork.Compare
import Verif.Plaschem.Latex
import Verif.Plaschem.LatexInj
import Verif.Plaschem.LatexFormula
import Verif.Plaschem.LatexProps
import Verif.Plaschem.LatexReaction
import Verif.Plaschem.LatexRate
import Verif.Pygmol.Neutral
import Verif.Plaschem.XmlHpem
import Verif.Plaschem.XmlQdb
import Verif.Plaschem.XmlQdbRx
import Verif.Plaschem.XmlQdbFile
import Verif.Plaschem.XmlQdbDemo
import Verif.Plaschem.XmlImports
import Verif.Plaschem.Pretty
import Verif.Plaschem.Table
import Verif.Plaschem.TableProps
import Verif.Plaschem.TableDemo
import Verif.Plaschem.TableRx
import Verif.Plaschem.TableRxRows
import Verif.Plaschem.TableRxProps
import Verif.Plaschem.TableRxDemo
import Verif.Plaschem.TexTable
import Verif.Plaschem.TexTableProps
import Verif.Plaschem.TexTableNest
import Verif.Plaschem.TexTableHist
import Verif.Plaschem.TexReactions
import Verif.Plaschem.TexDemo
import Verif.Fwork.MorrisBatch
import Verif.Fwork.MorrisBatchProps
import Verif.Fwork.MorrisBatchLoss
import Verif.Fwork.MorrisBatchHist
import Verif.Fwork.MorrisBatchDemo
import Verif.Fwork.CoupleInit
import Verif.Fwork.CoupleInitProps
import Verif.Fwork.CoupleChem
import Verif.Fwork.CoupleDemo
import Verif.Fwork.ReduceDisk
import Verif.Fwork.ReduceDiskProps
import Verif.Fwork.ReduceDiskLoop
import Verif.Fwork.ReduceDiskDemo
import Verif.Pygmol.Transport
import Verif.Plaschem.Lookup
import Verif.Plaschem.XmlAgree
import Verif.Fwork.ReduceRows
import Verif.Fwork.ReducePlotDemo
import Verif.Pygmol.Time
import Verif.Fwork.ReduceManual
import Verif.Pygmol.ParamsLog
import Verif.Plaschem.XmlInit
import Verif.Plaschem.ChemInit
import Verif.Plaschem.Partner
import Verif.Pygmol.NeutralTime
import Verif.Fwork.ReduceDiskMoment
import Verif.Fwork.Config
import Verif.Fwork.ConfigProps
import Verif.Fwork.RunLog
import Verif.Plaschem.Getters
import Verif.Plaschem.LoadHist
import Verif.Plaschem.RxInit
import Verif.Fwork.GraphHist
import Verif.Fwork.MorrisEval
import Verif.Fwork.MorrisEvalDemo
import Verif.Fwork.MorrisWhole
import Verif.Fwork.MorrisWholeDemo
import Verif.Fwork.MorrisWholeRet
import Verif.Fwork.MorrisWholeRetDemo
import Verif.Fwork.ReduceWhole
import Verif.Fwork.ReduceWholeDemo
import Verif.Plaschem.ReactSets
import Verif.Fwork.ReduceOrder
import Verif.Fwork.ReduceGraph
import Verif.Fwork.ReduceGraphDemo
import Verif.Fwork.GraphRun
import Verif.Fwork.GraphRunProps
import Verif.Fwork.GraphRunDemo
import Verif.Fwork.ReduceMorris
import Verif.Fwork.ReduceMorrisDemo
import Verif.Pygmol.Restrict
import Verif.Fwork.ReducedEqns
import Verif.Fwork.ReducedEqnsProps
import Verif.Fwork.ReducedEqnsDemo
import Verif.Plaschem.Shuffle
import Verif.Fwork.OrderEqns
import Verif.Fwork.AdhocEqns
import Verif.Fwork.AdhocEqnsDemo
import Verif.Pygmol.Lip
import Verif.Pygmol.Unique
import Verif.Fwork.UniqueEqns
import Verif.Fwork.PhysEqns
import Verif.Fwork.PhysEqnsDemo
import Verif.Fwork.MorrisEqns
import Verif.Fwork.MorrisEqnsDemo
import Verif.Fwork.MorrisRetEqns
import Verif.Fwork.MorrisRetEqnsDemo
import Verif.Pygmol.Maximal
import Verif.Pygmol.Edge
import Verif.Fwork.MaximalEqns
import Verif.Pygmol.Depend
import Verif.Fwork.DependEqns
import Verif.Pygmol.Removed
import Verif.Fwork.RemoveEqns
import Verif.Fwork.DependRetEqns
import Verif.Pygmol.Supply
import Verif.Fwork.SupplyEqns
import Verif.Fwork.TrueError
import Verif.Fwork.FinalRow
import Verif.Plaschem.DumpFile
import Verif.Fwork.RmsError
import Verif.Pygmol.Losses
import Verif.Fwork.LossesDemo
import Verif.Fwork.Secondary
