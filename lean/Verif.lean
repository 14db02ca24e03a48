import Verif.Lemmas.BasicSearch
import Verif.Lemmas.Bell
import Verif.Lemmas.Change
import Verif.Lemmas.Change2
import Verif.Lemmas.Change3
import Verif.Lemmas.Conjugator
import Verif.Lemmas.Cycles
import Verif.Lemmas.Cycles2
import Verif.Lemmas.Dimension
import Verif.Lemmas.Explore
import Verif.Lemmas.Extent
import Verif.Lemmas.Extent2
import Verif.Lemmas.Extent3
import Verif.Lemmas.Extent4
import Verif.Lemmas.FalseCourse
import Verif.Lemmas.FalseGroup
import Verif.Lemmas.FalseGroup2
import Verif.Lemmas.FalseTable
import Verif.Lemmas.FalseTable2
import Verif.Lemmas.FalseTable3
import Verif.Lemmas.FalseTable4
import Verif.Lemmas.FalseTable5
import Verif.Lemmas.Falseness
import Verif.Lemmas.Falseness2
import Verif.Lemmas.FalsenessAnalysis
import Verif.Lemmas.Group
import Verif.Lemmas.Group2
import Verif.Lemmas.Group3
import Verif.Lemmas.Group4
import Verif.Lemmas.Group5
import Verif.Lemmas.Group6
import Verif.Lemmas.Group7
import Verif.Lemmas.Group8
import Verif.Lemmas.Group9
import Verif.Lemmas.JoinPlan
import Verif.Lemmas.Landau
import Verif.Lemmas.Landau2
import Verif.Lemmas.Library
import Verif.Lemmas.Mask
import Verif.Lemmas.Mask2
import Verif.Lemmas.Mask3
import Verif.Lemmas.MaskBlocks
import Verif.Lemmas.MaskBlocks2
import Verif.Lemmas.MaskBlocks3
import Verif.Lemmas.MaskSym
import Verif.Lemmas.MathUtils
import Verif.Lemmas.MethMusic
import Verif.Lemmas.MethSearch
import Verif.Lemmas.MethSearch2
import Verif.Lemmas.MethSearch3
import Verif.Lemmas.MethSearch4
import Verif.Lemmas.MethSearch5
import Verif.Lemmas.MethSearch6
import Verif.Lemmas.MethSearch7
import Verif.Lemmas.MethSearch8
import Verif.Lemmas.MethSearch9
import Verif.Lemmas.MethSearchStart
import Verif.Lemmas.Method
import Verif.Lemmas.Method2
import Verif.Lemmas.Method3
import Verif.Lemmas.MethodClass
import Verif.Lemmas.MethodClass2
import Verif.Lemmas.MethodClass3
import Verif.Lemmas.MethodName
import Verif.Lemmas.MethodUtils
import Verif.Lemmas.MethodUtils2
import Verif.Lemmas.MethodUtils3
import Verif.Lemmas.MethodUtils4
import Verif.Lemmas.Multtab
import Verif.Lemmas.Music
import Verif.Lemmas.MusicHits
import Verif.Lemmas.MusicSpec
import Verif.Lemmas.MusicState
import Verif.Lemmas.NamedRows
import Verif.Lemmas.Necklace
import Verif.Lemmas.OldCodes
import Verif.Lemmas.Out
import Verif.Lemmas.Outputs
import Verif.Lemmas.OverUnder
import Verif.Lemmas.PlaceNotation
import Verif.Lemmas.PlaceNotation2
import Verif.Lemmas.Pointers
import Verif.Lemmas.Prover
import Verif.Lemmas.Prover2
import Verif.Lemmas.Rank
import Verif.Lemmas.Row
import Verif.Lemmas.RowC
import Verif.Lemmas.RowCalc
import Verif.Lemmas.RowCalcParse
import Verif.Lemmas.RowOrder
import Verif.Lemmas.SearchRows
import Verif.Lemmas.Sign
import Verif.Lemmas.Siril
import Verif.Lemmas.SirilFilter
import Verif.Lemmas.SirilInv
import Verif.Lemmas.SirilLiterals
import Verif.Lemmas.SirilMain
import Verif.Lemmas.SirilMono
import Verif.Lemmas.SirilParser
import Verif.Lemmas.SirilParser2
import Verif.Lemmas.SirilParser3
import Verif.Lemmas.SirilParser4
import Verif.Lemmas.SirilParser5
import Verif.Lemmas.SirilRun
import Verif.Lemmas.SirilRunMono
import Verif.Lemmas.SirilStatements
import Verif.Lemmas.SirilStatements2
import Verif.Lemmas.SirilStatements3
import Verif.Lemmas.SirilStatements4
import Verif.Lemmas.SirilStatic
import Verif.Lemmas.SirilText
import Verif.Lemmas.SirilTokens
import Verif.Lemmas.SirilTokens2
import Verif.Lemmas.SirilTokens3
import Verif.Lemmas.SirilTokens4
import Verif.Lemmas.Spec
import Verif.Lemmas.TableSearch
import Verif.Lemmas.TableSearch2
import Verif.Lemmas.TableSearch3
import Verif.Lemmas.WildcardCount
import Verif.Lemmas.WildcardRun
import Verif.Model.Bell
import Verif.Model.Change
import Verif.Model.Conjugator
import Verif.Model.Dimension
import Verif.Model.Extent
import Verif.Model.ExtentApp
import Verif.Model.FalseSymbols
import Verif.Model.Falseness
import Verif.Model.FalsenessAnalysis
import Verif.Model.Group
import Verif.Model.JoinPlan
import Verif.Model.Library
import Verif.Model.Mask
import Verif.Model.MaskBlocks
import Verif.Model.MathUtils
import Verif.Model.MethMusic
import Verif.Model.MethSearch
import Verif.Model.MethSearchStart
import Verif.Model.Method
import Verif.Model.MethodClass
import Verif.Model.MethodName
import Verif.Model.MethodSet
import Verif.Model.MethodUtils
import Verif.Model.Multtab
import Verif.Model.MusGrep
import Verif.Model.Music
import Verif.Model.NamedMusic
import Verif.Model.NamedRows
import Verif.Model.Out
import Verif.Model.PlaceNotation
import Verif.Model.Pointers
import Verif.Model.PrintTouch
import Verif.Model.Prover
import Verif.Model.Row
import Verif.Model.RowCalc
import Verif.Model.RowCalcParse
import Verif.Model.RowCycles
import Verif.Model.Search
import Verif.Model.Siril
import Verif.Model.SirilFilter
import Verif.Model.SirilLiterals
import Verif.Model.SirilMain
import Verif.Model.SirilParser
import Verif.Model.SirilRun
import Verif.Model.SirilStatements
import Verif.Model.SirilTokens
import Verif.Model.Sort
import Verif.Model.Splices
import Verif.Model.TableSearch
import Verif.Model.Touch
import Verif.Model.Trim
import Verif.Model.Wildcard
import Verif.Props.Bell
import Verif.Props.Change
import Verif.Props.Conjugator
import Verif.Props.Dimension
import Verif.Props.Extent
import Verif.Props.ExtentApp
import Verif.Props.Extras
import Verif.Props.FalseCourse
import Verif.Props.FalseSymbols
import Verif.Props.Falseness
import Verif.Props.FalsenessAnalysis
import Verif.Props.Group
import Verif.Props.Hash
import Verif.Props.JoinPlan
import Verif.Props.Landau
import Verif.Props.Library
import Verif.Props.LibraryName
import Verif.Props.LibraryOut
import Verif.Props.LibrarySearch
import Verif.Props.Mask
import Verif.Props.MaskBlocks
import Verif.Props.MaskSym
import Verif.Props.MathUtils
import Verif.Props.MethMusic
import Verif.Props.MethSearch
import Verif.Props.MethSearchBlows
import Verif.Props.MethSearchBlowsEx
import Verif.Props.MethSearchEx
import Verif.Props.MethSearchStart
import Verif.Props.MethSearchSym
import Verif.Props.Method
import Verif.Props.MethodClass
import Verif.Props.MethodName
import Verif.Props.MethodName2
import Verif.Props.MethodOrders
import Verif.Props.MethodPred
import Verif.Props.MethodSet
import Verif.Props.MethodUtils
import Verif.Props.MsLibrary
import Verif.Props.Multtab
import Verif.Props.MusGrep
import Verif.Props.Music
import Verif.Props.MusicRuns
import Verif.Props.NamedMusic
import Verif.Props.NamedRows
import Verif.Props.OldCodes
import Verif.Props.OverUnder
import Verif.Props.Pointers
import Verif.Props.PrintTouch
import Verif.Props.Prover
import Verif.Props.RowCalc
import Verif.Props.RowCalcParse
import Verif.Props.RowCore
import Verif.Props.RowCycles
import Verif.Props.Search
import Verif.Props.SearchConstraints
import Verif.Props.Siril
import Verif.Props.SirilFilter
import Verif.Props.SirilLiterals
import Verif.Props.SirilMain
import Verif.Props.SirilParser
import Verif.Props.SirilPrograms
import Verif.Props.SirilReport
import Verif.Props.SirilRun
import Verif.Props.SirilStatements
import Verif.Props.SirilTokens
import Verif.Props.SirilTouch
import Verif.Props.Splices
import Verif.Props.TableParts
import Verif.Props.TableSearch
import Verif.Props.Touch
import Verif.Props.Trim
import Verif.Props.Wildcard
import Verif.Spec.Change
import Verif.Spec.Dimension
import Verif.Spec.Extent
import Verif.Spec.FalseSymbols
import Verif.Spec.Group
import Verif.Spec.JoinPlan
import Verif.Spec.Library
import Verif.Spec.Mask
import Verif.Spec.MaskBlocks
import Verif.Spec.MathUtils
import Verif.Spec.MethSearch
import Verif.Spec.Method
import Verif.Spec.MethodClass
import Verif.Spec.MethodName
import Verif.Spec.MethodUtils
import Verif.Spec.MusGrep
import Verif.Spec.Music
import Verif.Spec.NamedMusic
import Verif.Spec.PlaceNotation
import Verif.Spec.PrintTouch
import Verif.Spec.Prover
import Verif.Spec.Row
import Verif.Spec.RowCalcParse
import Verif.Spec.Siril
import Verif.Spec.SirilFilter
import Verif.Spec.SirilGrammar
import Verif.Spec.SirilLiterals
import Verif.Spec.SirilMain
import Verif.Spec.SirilRun
import Verif.Spec.SirilStatements
import Verif.Spec.SirilTokens
import Verif.Spec.SirilTouch
import Verif.Spec.Touch
