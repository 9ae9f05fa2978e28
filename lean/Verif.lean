import Verif.Props.Base58
import Verif.Props.Num
import Verif.Props.Crc8
import Verif.Props.Map
import Verif.Props.LinkedHashMap
import Verif.Props.LimitMap
import Verif.Props.LimitHashMap
import Verif.Props.TreeMap
import Verif.Props.Consistenthash
import Verif.Props.Bloom
import Verif.Props.Lru
import Verif.Props.Aes
import Verif.Props.AesCbc
import Verif.Props.Compress
import Verif.Props.KeyBean
import Verif.Props.KeyStore
import Verif.Props.Uuid
import Verif.Props.Buffer
import Verif.Props.Pool
import Verif.Props.Mmap
import Verif.Props.MmapLife
import Verif.Props.Fastio
import Verif.Props.FastFile
import Verif.Props.Lock
import Verif.Props.Await
import Verif.Props.FastAwait
import Verif.Props.GoPool
import Verif.Props.Image
import Verif.Props.Websocket
import Verif.Props.Rsa
import Verif.Props.Checksum
import Verif.Props.Rand
import Verif.Props.Gosignal
import Verif.Spec.Time
import Verif.Model.StrTime
import Verif.Proof.StrTime
import Verif.Props.StrTime
import Verif.Spec.Http
import Verif.Model.Post
import Verif.Proof.Post
import Verif.Props.Post
import Verif.Spec.Linear
import Verif.Spec.LinearRel
import Verif.Model.Locked
import Verif.Model.LockedObj
import Verif.Proof.Locked
import Verif.Proof.LockedObj
import Verif.Proof.Linear
import Verif.Props.Linear
import Verif.Spec.Relaxed
import Verif.Model.LinkedConc
import Verif.Proof.LinkedConc
import Verif.Proof.LinkedExec
import Verif.Proof.Relaxed
import Verif.Props.LinkedConc
import Verif.Props.LinkedIter
import Verif.Props.BTree
import Verif.Spec.Race
import Verif.Model.Race
import Verif.Model.RaceLinked
import Verif.Proof.Race
import Verif.Proof.RaceFree
import Verif.Proof.RaceCode
import Verif.Proof.RaceLinked
import Verif.Props.Race
import Verif.Spec.RWLock
import Verif.Model.RWLock
import Verif.Proof.RWLock
import Verif.Proof.RWLockFree
import Verif.Props.RWLock
import Verif.Spec.MapLin
import Verif.Model.MapConc
import Verif.Proof.MapConc
import Verif.Props.MapConc
import Verif.Spec.Picture
import Verif.Model.ImageTr
import Verif.Proof.ImageTr
import Verif.Props.ImageTr
import Verif.Proof.AwaitLeak
import Verif.Props.AwaitLeak
import Verif.Spec.Anim
import Verif.Model.Gif
import Verif.Proof.Gif
import Verif.Props.Gif
import Verif.Model.RaceFastio
import Verif.Proof.RaceVal
import Verif.Proof.RaceFastio
import Verif.Props.RaceFastio
import Verif.Model.RaceMmap
import Verif.Proof.RaceMmap
import Verif.Props.RaceMmap
import Verif.Spec.KeyStoreMany
import Verif.Model.KeyStoreMany
import Verif.Proof.KeyStoreMany
import Verif.Props.KeyStoreMany
import Verif.Spec.KeyStoreHeap
import Verif.Model.KeyStoreHeap
import Verif.Proof.KeyStoreHeap
import Verif.Props.KeyStoreHeap
import Verif.Model.RaceUuid
import Verif.Proof.RaceUuid
import Verif.Props.RaceUuid
import Verif.Spec.UuidForm
import Verif.Model.UuidBase58
import Verif.Proof.UuidNext
import Verif.Props.UuidNext
import Verif.Model.OddKeys
import Verif.Proof.OddKeys
import Verif.Props.OddKeys
import Verif.Proof.ImageCover
import Verif.Props.ImageCover
import Verif.Model.ReadFile
import Verif.Proof.ReadFile
import Verif.Props.ReadFile
import Verif.Props.KeyStoreDisk
import Verif.Props.Snappy
import Verif.Props.KeyBeanInto
import Verif.Props.BloomRate
import Verif.Props.Json
import Verif.Props.JsonDoc
import Verif.Proof.ImageAgain
import Verif.Props.ImageAgain
import Verif.Model.Digest
import Verif.Model.AesBlock
import Verif.Proof.Digest
import Verif.Proof.AesBlock
import Verif.Props.Digest
import Verif.Props.AesReal
import Verif.Model.Gob
import Verif.Spec.Gob
import Verif.Proof.Gob
import Verif.Proof.GobStream
import Verif.Props.Gob
import Verif.Props.KeyPwd
import Verif.Model.FileExist
import Verif.Spec.FileExist
import Verif.Proof.FileExist
import Verif.Props.FileExist
import Verif.Props.Uuid32
import Verif.Model.PostWire
import Verif.Spec.HttpReader
import Verif.Proof.PostWire
import Verif.Props.PostWire
import Verif.Props.LockOrder
import Verif.Spec.Proto
import Verif.Model.Proto
import Verif.Proof.Proto
import Verif.Proof.ProtoBody
import Verif.Proof.ProtoMsg
import Verif.Proof.ProtoMerge
import Verif.Proof.ProtoLevels
import Verif.Proof.ProtoBad
import Verif.Props.Proto
import Verif.Proof.GobCut
import Verif.Props.Blake2b
import Verif.Props.KeyStoreConc
import Verif.Props.ProtoTypes
import Verif.Props.ThriftStruct
import Verif.Spec.RaceLock
import Verif.Model.RaceLock
import Verif.Proof.RaceLock
import Verif.Props.RaceLock
import Verif.Model.RaceAwait
import Verif.Proof.RaceAwait
import Verif.Spec.RaceHand
import Verif.Model.RaceHand
import Verif.Proof.RaceHand
import Verif.Props.RaceHand
import Verif.Spec.SyncMap
import Verif.Model.SyncMap
import Verif.Proof.LinStamp
import Verif.Proof.SyncMapLin
import Verif.Proof.SyncMapSh
import Verif.Proof.SyncMap
import Verif.Props.SyncMap
import Verif.Spec.Regexp
import Verif.Model.Regexp
import Verif.Proof.RegexpRun
import Verif.Proof.RegexpComp
import Verif.Proof.RegexpSimp
import Verif.Proof.RegexpParse
import Verif.Proof.RegexpSize
import Verif.Proof.RegexpMain
import Verif.Props.Regexp
import Verif.Spec.JsonStruct
import Verif.Model.JsonStruct
import Verif.Proof.JsonStructRead
import Verif.Proof.JsonStruct
import Verif.Proof.JsonStructBack
import Verif.Proof.JsonStructDoc
import Verif.Props.JsonStruct
import Verif.Spec.Deflate
import Verif.Model.Inflate
import Verif.Proof.DeflateCode
import Verif.Proof.DeflateBody
import Verif.Proof.DeflateHead
import Verif.Proof.DeflateBlock
import Verif.Proof.DeflateWrap
import Verif.Proof.DeflateCut
import Verif.Proof.DeflateMore
import Verif.Props.Deflate
import Verif.Model.GobType
import Verif.Spec.GobType
import Verif.Proof.GobType
import Verif.Proof.GobRead
import Verif.Proof.GobDefs
import Verif.Proof.GobWhole
import Verif.Proof.GobVersion
import Verif.Props.GobType
import Verif.Spec.Resample
import Verif.Model.Resample
import Verif.Proof.Resample
import Verif.Proof.ResamplePic
import Verif.Proof.ResampleTr
import Verif.Proof.ResampleFill
import Verif.Proof.ResampleMild
import Verif.Props.Resample
import Verif.Model.LimitAny
import Verif.Proof.LimitAny
import Verif.Props.LimitAny
import Verif.Model.GoPoolDepth
import Verif.Proof.GoPoolDepth
import Verif.Props.GoPoolDepth
import Verif.Model.MmapAgain
import Verif.Proof.MmapAgain
import Verif.Props.MmapAgain
import Verif.Spec.WsWire
import Verif.Model.WsWire
import Verif.Proof.WsWire
import Verif.Props.WsWire
import Verif.Model.BloomConc
import Verif.Proof.BloomConc
import Verif.Props.BloomConc
import Verif.Spec.Fast
import Verif.Model.Fast
import Verif.Proof.Fast
import Verif.Props.Fast
import Verif.Model.UuidMany
import Verif.Proof.UuidMany
import Verif.Props.UuidMany
import Verif.Spec.Float32
import Verif.Model.Float32Key
import Verif.Proof.Float32Key
import Verif.Props.Float32Key
import Verif.Model.Recover
import Verif.Props.Recover
import Verif.Model.UuidBytes
import Verif.Proof.UuidBytes
import Verif.Props.UuidBytes
import Verif.Spec.Scheme
import Verif.Proof.PostScheme
import Verif.Props.PostScheme
import Verif.Model.Concat
import Verif.Proof.Concat
import Verif.Props.Concat
import Verif.Model.BloomString
import Verif.Proof.BloomString
import Verif.Props.BloomString
