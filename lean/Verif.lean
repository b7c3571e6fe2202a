import Verif.Common.Bm
import Verif.Common.SMap
import Verif.RowSet.Props
import Verif.Deletion.Props
import Verif.Bits.Props
import Verif.RowIds.PropsArrays
import Verif.RowIds.PropsSegment
import Verif.RowIds.PropsSequence
import Verif.RowIds.PropsIndex
import Verif.RowIds.PropsSerde
import Verif.Txn.Isolation
import Verif.Txn.Lineage
import Verif.Txn.RowIdsInv
import Verif.Txn.Play
import Verif.Txn.PropsIds
import Verif.Txn.PropsIsolation
import Verif.Txn.PropsRowIds
import Verif.Txn.PropsConfig
import Verif.Txn.PropsIndex
import Verif.Stored.Props
import Verif.Naming.Props
import Verif.Handlers.Props
import Verif.Handlers.PropsExternal
import Verif.Cleanup.PropsTags
import Verif.Compact.PropsPlan
import Verif.Compact.PropsRemap
import Verif.Compact.PropsContents
import Verif.Read.PropsParams
import Verif.Read.PropsRows
import Verif.Read.PropsScan
import Verif.Chunk.PropsWriter
import Verif.Take.PropsFilter
import Verif.Prefilter.PropsOffset
import Verif.Prefilter.PropsMask
import Verif.Sampler.PropsShard
import Verif.Sampler.PropsFiltered
import Verif.Sampler.PropsSample
import Verif.Sampler.PropsTorch
import Verif.Join.Model
import Verif.Join.Lemmas
import Verif.Join.PropsUpdater
import Verif.Join.PropsJoin
import Verif.Sched.Coalesce
import Verif.Sched.PropsCoalesce
import Verif.Sched.Queue
import Verif.Sched.QueueLemmas
import Verif.Sched.PropsQueue
import Verif.Update.PropsUpdate
import Verif.Merge.PropsMerge
import Verif.Merge.PropsPartial
import Verif.Scalar.PropsSearch
import Verif.Scalar.PropsRemap
import Verif.Scalar.PropsUpdate
import Verif.Expr.PropsFilter
import Verif.Coerce.PropsCoerce
import Verif.ListCol.PropsListCol
import Verif.Phys.PropsPhys
import Verif.Blob.PropsBlob
import Verif.Resume.PropsResume
import Verif.Stats.PropsStats
import Verif.Stats.PropsPushdown
import Verif.Fts.PropsSearch
import Verif.Fts.PropsPhrase
import Verif.Fts.PropsIndex
import Verif.Fts.PropsScan
import Verif.Vec.PropsIndex
import Verif.Vec.PropsSearch
import Verif.Vec.PropsCodes
import Verif.Evolve.Decide
import Verif.Evolve.LemmasAbs
import Verif.Evolve.LemmasAccept
import Verif.Evolve.LemmasAccept2
import Verif.Evolve.LemmasAccept3
import Verif.Evolve.LemmasAccept4
import Verif.Evolve.LemmasAdd
import Verif.Evolve.LemmasAlter
import Verif.Evolve.LemmasAlter2
import Verif.Evolve.LemmasAlter3
import Verif.Evolve.LemmasDelete
import Verif.Evolve.LemmasDrop
import Verif.Evolve.LemmasFrags
import Verif.Evolve.LemmasNew
import Verif.Evolve.LemmasProject
import Verif.Evolve.LemmasRead
import Verif.Evolve.LemmasRead2
import Verif.Evolve.LemmasRows
import Verif.Evolve.LemmasRun
import Verif.Evolve.LemmasScan
import Verif.Evolve.LemmasTree
import Verif.Evolve.LemmasWrite
import Verif.Evolve.Model
import Verif.Evolve.Ops
import Verif.Evolve.Props
import Verif.Evolve.PropsViolations
import Verif.Evolve.Spec
import Verif.Evolve.Tree
import Verif.Fsst.LemmasBulk
import Verif.Fsst.LemmasBytes
import Verif.Fsst.LemmasDec
import Verif.Fsst.LemmasEnc
import Verif.Fsst.LemmasFin
import Verif.Fsst.LemmasTable
import Verif.Fsst.Model
import Verif.Fsst.PropsFsst
import Verif.Fsst.Spec
import Verif.Mini.Binary
import Verif.Mini.LemmasBinary
import Verif.Mini.Bitpack
import Verif.Mini.LemmasBitpack
import Verif.Mini.LemmasBytes
import Verif.Mini.LemmasFastlanes
import Verif.Mini.LemmasCut
import Verif.Mini.LemmasDecode
import Verif.Mini.LemmasDrain
import Verif.Mini.LemmasIndex
import Verif.Mini.LemmasMap
import Verif.Mini.LemmasPage
import Verif.Mini.LemmasRange
import Verif.Mini.LemmasSched
import Verif.Mini.LemmasSplit
import Verif.Mini.LemmasStrings
import Verif.Mini.LemmasValue
import Verif.Mini.Model
import Verif.Mini.PropsBitpack
import Verif.Mini.PropsMini
import Verif.Mini.PropsStrings
import Verif.Mini.Spec
import Verif.RepDef.Model
import Verif.RepDef.Spec
import Verif.RepDef.LemmasFlat
import Verif.RepDef.LemmasSer
import Verif.RepDef.LemmasRead
import Verif.RepDef.LemmasRows
import Verif.RepDef.LemmasList
import Verif.RepDef.LemmasListEnc
import Verif.RepDef.LemmasListPage
import Verif.RepDef.LemmasListRead
import Verif.RepDef.LemmasPages
import Verif.RepDef.PropsRepDef
import Verif.RepDef.LemmasFsl
import Verif.RepDef.LemmasFslEnc
import Verif.RepDef.LemmasFslDec
import Verif.RepDef.PropsFsl
import Verif.RepDef.Column
import Verif.RepDef.LemmasColumn
import Verif.RepDef.PropsColumn
import Verif.Zip.Model
import Verif.Zip.Spec
import Verif.Zip.LemmasWords
import Verif.Zip.LemmasRows
import Verif.Zip.LemmasFixed
import Verif.Zip.LemmasVariable
import Verif.Zip.PropsZip
import Verif.Zip.Column
import Verif.Zip.LemmasColumn
import Verif.Zip.PropsZipColumn
import Verif.Zip.LemmasVectors
import Verif.Zip.PropsZipVectors
import Verif.Iscan.Model
import Verif.Iscan.LemmasTidy
import Verif.Iscan.LemmasExpr
import Verif.Iscan.LemmasScan
import Verif.Iscan.LemmasRows
import Verif.Iscan.LemmasIx
import Verif.Iscan.LemmasPlan
import Verif.Iscan.PropsScan
import Verif.Iscan.PropsScanCases
import Verif.Iscan.PropsScanQueries
import Verif.Upload.Model
import Verif.Upload.Lemmas
import Verif.Upload.LemmasRun
import Verif.Upload.LemmasMore
import Verif.Upload.PropsUpload
import Verif.File.Model
import Verif.File.LemmasBytes
import Verif.File.LemmasWrite
import Verif.File.LemmasRead
import Verif.File.LemmasFile
import Verif.File.PropsFile
import Verif.File.Batch
import Verif.File.LemmasBatch
import Verif.File.PropsBatch
import Verif.Proj.Model
import Verif.Proj.Lemmas
import Verif.Proj.PropsProj
import Verif.Session.Model
import Verif.Session.Lemmas
import Verif.Session.PropsSession
import Verif.Train.Model
import Verif.Train.Lemmas
import Verif.Train.PropsTrain
import Verif.Sampler.Loader
import Verif.Sampler.PropsLoader
import Verif.Conv.Model
import Verif.Conv.Lemmas
import Verif.Conv.PropsConv
import Verif.Fmt.Model
import Verif.Fmt.PropsFmt
import Verif.Legacy.Model
import Verif.Legacy.Lemmas
import Verif.Legacy.PropsPlain
import Verif.Legacy.Binary
import Verif.Legacy.LemmasBin
import Verif.Legacy.PropsBin
import Verif.Legacy.Column
import Verif.Legacy.LemmasCol
import Verif.Legacy.LemmasRead
import Verif.Legacy.LemmasReadCol
import Verif.Legacy.FileModel
import Verif.Legacy.LemmasFile
import Verif.Legacy.PropsFile
import Verif.Pq.Model
import Verif.Pq.Spec
import Verif.Pq.Lemmas
import Verif.Pq.LemmasCode
import Verif.Pq.LemmasDist
import Verif.Pq.LemmasFour
import Verif.Pq.PropsPq
import Verif.Pq.Part
import Verif.Pq.LemmasPart
import Verif.Pq.PropsMaintain
import Verif.Pq.LemmasSearch
import Verif.Pq.PropsSearch
import Verif.Sq.Model
import Verif.Sq.Lemmas
import Verif.Sq.PropsDist
import Verif.Sq.PropsMerge
import Verif.Hnsw.Model
import Verif.Hnsw.LemmasSearch
import Verif.Hnsw.LemmasFind
import Verif.Hnsw.LemmasBuild
import Verif.Hnsw.LemmasLoad
import Verif.Hnsw.PropsLoad
import Verif.Hnsw.PropsSearch
import Verif.Hnsw.PropsFind
import Verif.PageTable.Model
import Verif.PageTable.Lemmas
import Verif.PageTable.PropsPageTable
import Verif.Validate.Model
import Verif.Validate.Lemmas
import Verif.Validate.PropsValidate
import Verif.Fix.Model
import Verif.Fix.Lemmas
import Verif.Fix.PropsFix
import Verif.Replace.Model
import Verif.Replace.Lemmas
import Verif.Replace.PropsReplace
import Verif.Tfrecord.Model
import Verif.Tfrecord.Lemmas
import Verif.Tfrecord.PropsTfrecord
import Verif.Shared.Model
import Verif.Shared.Lemmas
import Verif.Shared.PropsShared
import Verif.Bitpack.Model
import Verif.Bitpack.Move
import Verif.Bitpack.Lemmas
import Verif.Bitpack.Numbers
import Verif.Bitpack.Loops
import Verif.Bitpack.PropsBitpack
import Verif.Lanes.Model
import Verif.Lanes.Lemmas
import Verif.Lanes.Write
import Verif.Lanes.PropsLanes
import Verif.Nest.Model
import Verif.Nest.Lemmas
import Verif.Nest.Select
import Verif.Nest.PropsNest
import Verif.Optim.Model
import Verif.Optim.Lemmas
import Verif.Optim.Rule
import Verif.Optim.Simplify
import Verif.Optim.PropsOptim
