import Verif.Spec.Order
import Verif.Spec.OMap
import Verif.Spec.Structure
import Verif.Model.Base
import Verif.Model.Memcomparable
import Verif.Model.Compact
import Verif.Model.Key
import Verif.Model.Provider
import Verif.Model.Structure
import Verif.Model.Util
import Verif.Model.Store
import Verif.Lemmas.Lex
import Verif.Lemmas.BigEndian
import Verif.Lemmas.EncBytes
import Verif.Lemmas.Float
import Verif.Lemmas.Compact
import Verif.Lemmas.Numeric
import Verif.Lemmas.Key
import Verif.Lemmas.Prog
import Verif.Lemmas.Scan
import Verif.Lemmas.Frame
import Verif.Lemmas.Util
import Verif.Lemmas.Structure
import Verif.Lemmas.StructHash
import Verif.Lemmas.StructList
import Verif.Lemmas.StructStep
import Verif.Lemmas.StructFrame
import Verif.Props.Codec
import Verif.Props.Key
import Verif.Props.Structure
import Verif.Props.Txn
import Verif.Spec.Scan
import Verif.Lemmas.Store
import Verif.Props.Store
import Verif.Model.Wire
import Verif.Lemmas.Wire
import Verif.Lemmas.WireCalm
import Verif.Props.Wire
import Verif.Model.Server
import Verif.Spec.Client
import Verif.Lemmas.Client
import Verif.Props.Client
import Verif.Lemmas.ClientTxn
import Verif.Lemmas.ClientSim
import Verif.Props.ClientTxn
import Verif.Model.Sequence
import Verif.Lemmas.Sequence
import Verif.Props.Sequence
import Verif.Props.OldSequence
import Verif.Model.DocKeys
import Verif.Props.DocKeys
import Verif.Spec.IMap
import Verif.Spec.Document
import Verif.Model.Document
import Verif.Lemmas.Document
import Verif.Props.Document
import Verif.Props.CollectionIds
import Verif.Props.InsertOne
import Verif.Model.Index
import Verif.Props.Index
import Verif.Model.Schema
import Verif.Props.Schema
import Verif.Model.Dml
import Verif.Props.Dml
import Verif.Lemmas.SProg
import Verif.Lemmas.Meta
import Verif.Lemmas.MetaStep
import Verif.Lemmas.MetaClient
import Verif.Lemmas.MetaTxn
import Verif.Lemmas.Ser
import Verif.Lemmas.ClientStatic
import Verif.Model.Job
import Verif.Model.Meta
import Verif.Model.Client
import Verif.Spec.Meta
import Verif.Props.Meta
import Verif.Props.MetaFacts
import Verif.Props.MetaExamples
import Verif.Props.Malformed
import Verif.Props.DmlInsert
import Verif.Model.Ddl
import Verif.Spec.Ddl
import Verif.Lemmas.Ddl
import Verif.Lemmas.DdlWork
import Verif.Lemmas.DdlCalls
import Verif.Lemmas.DdlSane
import Verif.Lemmas.DdlSeq
import Verif.Lemmas.DdlOnly
import Verif.Lemmas.DdlHistory
import Verif.Lemmas.DdlFacts
import Verif.Props.Ddl
import Verif.Props.DdlExamples
import Verif.Model.Domain
import Verif.Lemmas.DomainBare
import Verif.Lemmas.DomainFrame
import Verif.Spec.Domain
import Verif.Lemmas.DomainOp
import Verif.Lemmas.DomainPic
import Verif.Lemmas.DomainMatch
import Verif.Lemmas.DomainStep
import Verif.Lemmas.DomainEvents
import Verif.Lemmas.DomainLoose
import Verif.Lemmas.DomainGrow
import Verif.Lemmas.DomainIds
import Verif.Lemmas.DomainJobs
import Verif.Lemmas.DomainDuty
import Verif.Props.Domain
import Verif.Props.DomainExamples
import Verif.Spec.Serial
import Verif.Lemmas.DomainLooks
import Verif.Lemmas.DomainTale
import Verif.Lemmas.DomainNotes
import Verif.Lemmas.DomainCourse
import Verif.Lemmas.DomainRecord
import Verif.Lemmas.DomainReads
import Verif.Lemmas.DomainChain
import Verif.Props.DomainSerial
import Verif.Props.ClientBreak
import Verif.Model.DocumentDB
import Verif.Spec.DocumentDB
import Verif.Lemmas.DocDBStore
import Verif.Lemmas.DocDBInv
import Verif.Lemmas.DocDBStep
import Verif.Lemmas.DocDBEvents
import Verif.Lemmas.DocDBRun
import Verif.Lemmas.DocDBClosed
import Verif.Props.DocumentDB
import Verif.Props.DocumentDBExamples
import Verif.Spec.DocumentIndex
import Verif.Lemmas.DocDBQuiet
import Verif.Lemmas.DocDBIndex
import Verif.Lemmas.DocDBMemory
import Verif.Props.DocumentIndex
import Verif.Props.DocumentIndexExamples
import Verif.Model.DomainAsk
import Verif.Spec.DomainAsk
import Verif.Lemmas.DomainRange
import Verif.Lemmas.DomainAsk
import Verif.Props.DomainAsk
import Verif.Props.DdlIndex
import Verif.Props.DocumentLive
import Verif.Props.DocumentLiveExamples
import Verif.Model.Registry
import Verif.Props.Registry
import Verif.Spec.StructShare
import Verif.Lemmas.StructShare
import Verif.Props.StructShare
import Verif.Model.ClientShare
import Verif.Spec.ClientShare
import Verif.Lemmas.ClientShare
import Verif.Props.ClientShare
import Verif.Model.Hall
import Verif.Spec.Hall
import Verif.Lemmas.Hall
import Verif.Lemmas.HallHung
import Verif.Props.Hall
import Verif.Props.HallExamples
import Verif.Model.Torn
import Verif.Spec.Torn
import Verif.Lemmas.Torn
import Verif.Props.Torn
import Verif.Model.Race
import Verif.Spec.Race
import Verif.Lemmas.Race
import Verif.Lemmas.RaceHistory
import Verif.Lemmas.RaceFacts
import Verif.Props.Race
import Verif.Model.Crowd
import Verif.Spec.Crowd
import Verif.Lemmas.Crowd
import Verif.Props.Crowd
import Verif.Props.CrowdExamples
import Verif.Lemmas.Gets
import Verif.Lemmas.CrowdAside
import Verif.Props.CrowdAside
import Verif.Props.CrowdSerial
import Verif.Model.ServerLevel
import Verif.Spec.ServerLevel
import Verif.Props.ServerLevel
import Verif.Model.DdlWait
import Verif.Spec.DdlWait
import Verif.Lemmas.DdlWait
import Verif.Props.DdlWait
import Verif.Props.DdlWaitExamples
import Verif.Model.DdlLoop
import Verif.Spec.DdlLoop
import Verif.Lemmas.DdlLoop
import Verif.Props.DdlLoop
import Verif.Props.DdlLoopExamples
