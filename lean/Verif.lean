import Verif.Basic
import Verif.Utf8
import Verif.Props.Text
import Verif.Escape
import Verif.Props.Escape
import Verif.CharClass
import Verif.Props.CharClass
import Verif.Trie
import Verif.Props.Trie
import Verif.LineInfo
import Verif.Props.LineInfo
import Verif.PackratCache
import Verif.PackratCacheProofs
import Verif.Props.Packrat
import Verif.Ope
import Verif.Engine
import Verif.EngineMono
import Verif.EngineInv
import Verif.EngineFrame
import Verif.Parses
import Verif.Props.Engine
import Verif.Props.Parse
import Verif.Spec
import Verif.PegDet
import Verif.Cert
import Verif.Sim
import Verif.SimCases
import Verif.SimOps
import Verif.SimRules
import Verif.SimPrec
import Verif.SimAll
import Verif.SimLR
import Verif.Plain
import Verif.SimParse
import Verif.Check
import Verif.Props.Refine
import Verif.Utf8Pos
import Verif.FirstSet
import Verif.FirstSetProofs
import Verif.Annotate
import Verif.Loaded
import Verif.Props.FirstSet
import Verif.Der
import Verif.DerOk
import Verif.DerProofs
import Verif.DerParse
import Verif.DerVals
import Verif.Utf8Der
import Verif.Quiet
import Verif.Props.Derive
import Verif.Ast
import Verif.AstProofs
import Verif.AstBuild
import Verif.Props.Ast
import Verif.Blob
import Verif.BlobProofs
import Verif.BlobRound
import Verif.Props.Blob
import Verif.Analysis
import Verif.NullProofs
import Verif.LoopProofs
import Verif.LeftRec
import Verif.Accepted
import Verif.Props.Analysis
import Verif.Enters
import Verif.Props.Accept
import Verif.Props.Errors
import Verif.Props.ErrText
import Verif.Props.ErrUtf8
import Verif.Handlers
import Verif.Props.Handlers
import Verif.Safety
import Verif.Link
import Verif.Ids
import Verif.Congr
import Verif.Session
import Verif.Props.Session
import Verif.Lockstep
import Verif.Modes
import Verif.Props.Modes
import Verif.Load
import Verif.LoadSafe
import Verif.LoadInv
import Verif.LoadSimple
import Verif.Props.Link
import Verif.Threads
import Verif.ThreadParse
import Verif.Props.Threads
import Verif.Macro
import Verif.MacroSubst
import Verif.Props.Macro
import Verif.PrecTree
import Verif.PrecPeg
import Verif.Props.Prec
import Verif.Props.LeftRecursion
import Verif.MetaRules
import Verif.Meta
import Verif.MetaReady
import Verif.MetaAlg
import Verif.MetaSpec
import Verif.MetaTok
import Verif.MetaLex
import Verif.MetaLex2
import Verif.MetaRead
import Verif.MetaPrim
import Verif.MetaExp
import Verif.MetaInstr
import Verif.MetaDef
import Verif.MetaPrint
import Verif.SrcEq
import Verif.Props.Read
import Verif.MetaLang
import Verif.MetaShape
import Verif.MetaType
import Verif.MetaAct
import Verif.MetaChars
import Verif.Props.ReadTypes
import Verif.TextSem
import Verif.TextMeans
import Verif.Reflag
import Verif.TextMade
import Verif.Repack
import Verif.TextQuiet
import Verif.TextWf
import Verif.NoAlarm
import Verif.TextSane
import Verif.Props.TextMeaning
import Verif.Props.NoAlarm
import Verif.Props.Messages
import Verif.Captures
import Verif.Filter
import Verif.Props.Captures
import Verif.Once
import Verif.Props.Once
import Verif.BlobParser
import Verif.Props.BlobParser
import Verif.BlobText
import Verif.Props.BlobText
import Verif.AstPrint
import Verif.Props.AstPrint
import Verif.LoadLog
import Verif.Props.LoadLog
import Verif.Props.UserRules
import Verif.Object
import Verif.Props.Object
import Verif.Props.Literal
