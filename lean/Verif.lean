import Verif.Basic
import Verif.BufChain
import Verif.BufChainProps
import Verif.BufStream
import Verif.BufStreamProps
import Verif.BufQueue
import Verif.BufQueueProps
import Verif.Lba
import Verif.LbaProps
import Verif.LbaReuse
import Verif.BlockPool
import Verif.BlockPoolProps
import Verif.BlockPoolOwner
import Verif.Rstream
import Verif.RstreamProps
import Verif.PersistWrite
import Verif.PersistWriteProps
import Verif.PersistRead
import Verif.PersistReadProps
import Verif.PersistRoundTrip
import Verif.Json
import Verif.JsonDecode
import Verif.JsonProps
import Verif.JsonGrammar
import Verif.JsonParse
import Verif.KmpIn
import Verif.KmpInProps
import Verif.KmpInFrames
import Verif.KmpInNodes
import Verif.KmpInAck
import Verif.KmpOut
import Verif.KmpOutMem
import Verif.KmpOutAck
import Verif.KmpOutUp
import Verif.KmpOutTrack
import Verif.KmpOutProps
import Verif.KmpLinkUp
import Verif.KmpLink
import Verif.KmpLinkSession
import Verif.KmpLinkProps
import Verif.KmpLinkCases
import Verif.InputBufs
import Verif.InputBufsProps
import Verif.InputBufsCases
import Verif.SegmentList
import Verif.SegmentListInv
import Verif.SegmentListFind
import Verif.SegmentListTime
import Verif.SegmentListPeriod
import Verif.SegmentListRead
import Verif.SegmentListRead2
import Verif.SegmentListSave
import Verif.SegmentListRestore
import Verif.SegmentListProps
import Verif.SegmentListCorrupt
import Verif.SegmentListCases
import Verif.SegmentInfo
import Verif.SegmentInfoInv
import Verif.SegmentInfoSave
import Verif.SegmentInfoProps
import Verif.SegmentInfoPckg
import Verif.SegmentInfoCorrupt
import Verif.SegmentInfoCases
import Verif.SegmentIndex
import Verif.SegmentIndexInv
import Verif.SegmentIndexFree
import Verif.SegmentIndexOps
import Verif.SegmentIndexReady
import Verif.SegmentIndexPersisted
import Verif.SegmentIndexProps
import Verif.SegmentIndexCases
import Verif.Timeline
import Verif.TimelineIter
import Verif.TimelineInv
import Verif.TimelineCut
import Verif.TimelineAdd
import Verif.TimelineUpd
import Verif.TimelineList
import Verif.TimelineCh
import Verif.TimelineServe
import Verif.TimelineProps
import Verif.TimelineMove
import Verif.TimelineWin
import Verif.TimelineTgt
import Verif.TimelineKeep
import Verif.TimelineEnd
import Verif.TimelineCases
import Verif.TimelineSeq
import Verif.TimelineSeqCases
import Verif.TimelineSkip
import Verif.TimelineSkipCases
import Verif.Ctr
import Verif.WriteBuf
import Verif.Cenc
import Verif.CencInv
import Verif.CencLoop
import Verif.CencProps
import Verif.CencCases
import Verif.Segmenter
import Verif.SegmenterList
import Verif.SegmenterInv
import Verif.SegmenterPush
import Verif.SegmenterCheck
import Verif.SegmenterCopy
import Verif.SegmenterGood
import Verif.SegmenterStep
import Verif.SegmenterReach
import Verif.SegmenterProps
import Verif.SegmenterJump
import Verif.SegmenterBreak
import Verif.SegmenterCases
import Verif.Rtmp
import Verif.RtmpFlat
import Verif.RtmpMem
import Verif.RtmpSim
import Verif.RtmpIter
import Verif.RtmpProps
import Verif.RtmpSpec
import Verif.RtmpEnc
import Verif.RtmpDeliver
import Verif.RtmpPools
import Verif.RtmpHeld
import Verif.RtmpCases
import Verif.Amf
import Verif.AmfFlat
import Verif.AmfSafe
import Verif.AmfSpec
import Verif.AmfRead
import Verif.AmfProps
import Verif.AmfCmd
import Verif.AmfWrite
import Verif.AmfEnc
import Verif.AmfSend
import Verif.RtmpSend
import Verif.AmfChunks
import Verif.AmfCases
import Verif.Ts
import Verif.TsSafe
import Verif.TsProps
import Verif.TsSpec
import Verif.TsFlat
import Verif.TsPes
import Verif.TsLoss
import Verif.TsTable
import Verif.TsStart
import Verif.TsCases
import Verif.TsNal
import Verif.TsNalSpec
import Verif.TsNalProps
import Verif.TsNalStream
import Verif.TsNalFrames
import Verif.TsNalSets
import Verif.TsNalAvc
import Verif.TsAac
import Verif.TsAacFlat
import Verif.TsAacSpec
import Verif.TsAacFrames
import Verif.TsTimes
import Verif.TsKmpCases
import Verif.MtsEnc
import Verif.MtsFilt
import Verif.MtsLay
import Verif.MtsFrame
import Verif.MtsCarve
import Verif.MtsPes
import Verif.MtsVideo
import Verif.MtsNal
import Verif.MtsAudio
import Verif.MtsStream
import Verif.MtsSpec
import Verif.MtsSim
import Verif.MtsMux
import Verif.MtsRun
import Verif.MtsGroups
import Verif.MtsProps
import Verif.MtsStreams
import Verif.MtsTables
import Verif.MtsCrc
import Verif.MtsPsi
import Verif.MtsCases
import Verif.AckMap
import Verif.AckSpec
import Verif.AckHist
import Verif.AckAudio
import Verif.AckVideo
import Verif.AckCases
import Verif.Fmp4
import Verif.Fmp4Spec
import Verif.Fmp4Order
import Verif.Fmp4Data
import Verif.Fmp4Box
import Verif.Fmp4Trun
import Verif.Fmp4Head
import Verif.Fmp4Read
import Verif.Fmp4Props
import Verif.Fmp4Cases
import Verif.Sub
import Verif.SubSpec
import Verif.SubTrim
import Verif.SubTime
import Verif.SubBox
import Verif.SubVtt
import Verif.SubTtml
import Verif.SubProps
import Verif.SubCases
import Verif.CencFileSpec
import Verif.CencFile
import Verif.CencFileBox
import Verif.CencFileRead
import Verif.CencFileProps
import Verif.CencFileCases
import Verif.PckgName
import Verif.PckgNameSpec
import Verif.PckgNameProps
import Verif.PckgNameCases
import Verif.M3u8
import Verif.M3u8Spec
import Verif.M3u8Line
import Verif.M3u8Tags
import Verif.M3u8Head
import Verif.M3u8Body
import Verif.M3u8Periods
import Verif.M3u8Props
import Verif.M3u8Size
import Verif.M3u8Fits
import Verif.M3u8Cases
import Verif.KmpRtmp
import Verif.KmpRtmpSpec
import Verif.KmpRtmpChunk
import Verif.KmpRtmpSend
import Verif.KmpRtmpMem
import Verif.KmpRtmpStep
import Verif.KmpRtmpConn
import Verif.KmpRtmpLanes
import Verif.KmpRtmpProps
import Verif.KmpRtmpCases
import Verif.RtmpKmp
import Verif.RtmpKmpSpec
import Verif.RtmpKmpRead
import Verif.RtmpKmpRun
import Verif.RtmpKmpProps
import Verif.RtmpLen
import Verif.RtmpKmpTrip
import Verif.RtmpKmpCases
import Verif.Syncer
import Verif.SyncerSpec
import Verif.SyncerProps
import Verif.SyncerLip
import Verif.SyncerBack
import Verif.SyncerCases
import Verif.Cbc
import Verif.CbcSpec
import Verif.CbcProps
import Verif.CbcCases
import Verif.Cbcs
import Verif.CbcsSpec
import Verif.CbcsProps
import Verif.CbcsUnits
import Verif.CbcsCases
import Verif.Rbsp
import Verif.RbspSpec
import Verif.RbspProps
import Verif.RbspBits
import Verif.RbspCases
import Verif.CodecCfg
import Verif.CodecCfgSpec
import Verif.CodecCfgProps
import Verif.CodecCfgCases
import Verif.AacCfg
import Verif.AacCfgSpec
import Verif.AacCfgProps
import Verif.AacCfgCases
import Verif.SampleAes
import Verif.SampleAesSpec
import Verif.SampleAesProps
import Verif.FrameEnc
import Verif.FrameEncSpec
import Verif.FrameEncProps
import Verif.SampleAesCases
import Verif.Eac3Enc
import Verif.Eac3EncSpec
import Verif.Eac3EncProps
import Verif.Eac3EncAny
import Verif.Eac3EncCases
import Verif.SegmenterBestSpec
import Verif.SegmenterBest
import Verif.SegmenterBestCases
