import Verif.Attributes
import Verif.Bdd
import Verif.BddCanon
import Verif.BddCanonGraph
import Verif.BddCtx
import Verif.BddGraph
import Verif.BddLemmas
import Verif.CacheTable
import Verif.Ccf
import Verif.CcfLemmas
import Verif.Combination
import Verif.CommandLine
import Verif.Cycle
import Verif.DeviateLaws
import Verif.Deviates
import Verif.Diagram
import Verif.Editor
import Verif.EditorAccept
import Verif.EditorDialog
import Verif.EditorDialogProof
import Verif.EditorEdit
import Verif.EditorFrame
import Verif.EditorHistory
import Verif.EditorSpec
import Verif.EditorUndo
import Verif.EditorWf
import Verif.EventTree
import Verif.EventTreeCheck
import Verif.EventTreeValue
import Verif.Extern
import Verif.Extraction
import Verif.FailureModels
import Verif.Formula
import Verif.FormulaSem
import Verif.Ids
import Verif.Intervals
import Verif.LinearMap
import Verif.Load
import Verif.LoadAll
import Verif.LoadReg
import Verif.LoadSpec
import Verif.MainWindow
import Verif.MainWindowProof
import Verif.MainWindowSpec
import Verif.Mif
import Verif.Mocus
import Verif.MocusLoop
import Verif.MocusModule
import Verif.MocusOrder
import Verif.Modular
import Verif.Order
import Verif.OverTime
import Verif.Pdag
import Verif.PdagAbsorb
import Verif.PdagArgs
import Verif.PdagBuild
import Verif.PdagCompl
import Verif.PdagDecomp
import Verif.PdagDecompEnds
import Verif.PdagDecompMarks
import Verif.PdagDecompRun
import Verif.PdagDecompSound
import Verif.PdagDefs
import Verif.PdagDistr
import Verif.PdagDistrAll
import Verif.PdagDistrClone
import Verif.PdagDistrFilter
import Verif.PdagDistrFrame
import Verif.PdagDistrGroup
import Verif.PdagDistrMore
import Verif.PdagDistrSearch
import Verif.PdagDistrStep
import Verif.PdagEdit
import Verif.PdagEnd
import Verif.PdagEx
import Verif.PdagFind
import Verif.PdagFindCut
import Verif.PdagFindRun
import Verif.PdagFlag
import Verif.PdagHand
import Verif.PdagKeep
import Verif.PdagKeepCompl
import Verif.PdagKeepFind
import Verif.PdagKeepNorm
import Verif.PdagKeepOpti
import Verif.PdagLoops
import Verif.PdagMerge
import Verif.PdagModule
import Verif.PdagMulti
import Verif.PdagNorm
import Verif.PdagNull
import Verif.PdagOpti
import Verif.PdagOptiRun
import Verif.PdagPass
import Verif.PdagRemove
import Verif.PdagRule
import Verif.PdagRules
import Verif.PdagRun
import Verif.PdagSearch
import Verif.PdagSearchAll
import Verif.PdagSearchAsserts
import Verif.PdagSearchFull
import Verif.PdagSearchKeep
import Verif.PdagSearchProof
import Verif.PdagSearchRun
import Verif.PdagSubst
import Verif.PdagTiming
import Verif.PdagTop
import Verif.PdagTree
import Verif.Phases
import Verif.Preferences
import Verif.Prob
import Verif.ProbBdd
import Verif.Products
import Verif.ProgramRun
import Verif.Props.C01
import Verif.Props.C02
import Verif.Props.C03
import Verif.Props.C04
import Verif.Props.C05
import Verif.Props.C06
import Verif.Props.C07
import Verif.Props.C08
import Verif.Props.C09
import Verif.Props.C10
import Verif.Props.C11
import Verif.Props.C12
import Verif.Props.C13
import Verif.Props.C14
import Verif.Props.C15
import Verif.Props.C16
import Verif.Props.C17
import Verif.Props.C18
import Verif.Props.C19
import Verif.Props.C20
import Verif.Props.C21
import Verif.Props.C22
import Verif.Props.C23
import Verif.Props.C24
import Verif.Props.C25
import Verif.Props.C26
import Verif.Props.C27
import Verif.Props.C28
import Verif.Props.C29
import Verif.Props.C29b
import Verif.Props.C30
import Verif.Props.C31
import Verif.Props.C32
import Verif.Props.C33
import Verif.Props.C34
import Verif.Props.C35
import Verif.Props.C36
import Verif.Props.C37
import Verif.Props.C38
import Verif.Props.C39
import Verif.Props.C40
import Verif.Props.C41
import Verif.Props.C42
import Verif.Props.C43
import Verif.Props.C44
import Verif.Props.C45
import Verif.Props.C46
import Verif.Props.C47
import Verif.Props.C48
import Verif.Props.C49
import Verif.Props.C50
import Verif.Props.C51
import Verif.Props.C52
import Verif.Props.C53
import Verif.Props.C54
import Verif.Props.C55
import Verif.Props.C56
import Verif.Props.C57
import Verif.Props.C58
import Verif.Props.C59
import Verif.Props.C60
import Verif.Props.C61
import Verif.Props.C62
import Verif.Props.C63
import Verif.Props.C64
import Verif.Props.C65
import Verif.Props.C66
import Verif.Props.C67
import Verif.Props.C68
import Verif.Props.C69
import Verif.Props.C70
import Verif.Props.C71
import Verif.Props.C72
import Verif.Props.C73
import Verif.Props.C74
import Verif.Props.C75
import Verif.Props.C76
import Verif.Props.C77
import Verif.Props.C78
import Verif.Quant
import Verif.Report
import Verif.ReportProof
import Verif.ReportSane
import Verif.ReportSpec
import Verif.ReportView
import Verif.Risk
import Verif.Sampling
import Verif.Save
import Verif.SaveFile
import Verif.SaveLoad
import Verif.SaveSchema
import Verif.SaveSpec
import Verif.SaveTree
import Verif.Settings
import Verif.SettingsDialog
import Verif.SortedSets
import Verif.Substitution
import Verif.Tables
import Verif.TablesProof
import Verif.TablesRun
import Verif.TablesStep
import Verif.TablesTitle
import Verif.TablesTree
import Verif.Tools
import Verif.TopEvents
import Verif.Uncertainty
import Verif.UniqueTable
import Verif.UniqueTableLemmas
import Verif.Usage
import Verif.UsageEdit
import Verif.XmlRead
import Verif.XmlSpec
import Verif.XmlStream
import Verif.XmlValue
import Verif.XmlValueProof
import Verif.XmlValueSpec
import Verif.XmlWrite
import Verif.Zbdd
import Verif.ZbddApply
import Verif.ZbddBuild
import Verif.ZbddCompl
import Verif.ZbddConv
import Verif.ZbddFlags
import Verif.ZbddGate
import Verif.ZbddGraph
import Verif.ZbddIter
import Verif.ZbddLemmas
import Verif.ZbddLevel
import Verif.ZbddList
import Verif.ZbddSubst
import Verif.ZbddTree
import Verif.Zoom
