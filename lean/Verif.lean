import Verif.Case.Channel
import Verif.Case.Engine
import Verif.Case.Gasless
import Verif.Case.Http
import Verif.Case.Store
import Verif.Case.Trie
import Verif.Case.Validate
import Verif.Lemmas.AddressOwner
import Verif.Lemmas.Admission
import Verif.Lemmas.AdmissionUse
import Verif.Lemmas.AdmitEngine
import Verif.Lemmas.Auth
import Verif.Lemmas.BlockEvents
import Verif.Lemmas.BlockStore
import Verif.Lemmas.BlockTime
import Verif.Lemmas.Bytes
import Verif.Lemmas.Channel
import Verif.Lemmas.ChannelAuth
import Verif.Lemmas.ChannelHist
import Verif.Lemmas.ChannelInv
import Verif.Lemmas.ChannelMerge
import Verif.Lemmas.ChannelOwner
import Verif.Lemmas.ChannelReplay
import Verif.Lemmas.ChannelReplica
import Verif.Lemmas.ChannelUri
import Verif.Lemmas.Consensus
import Verif.Lemmas.Crash
import Verif.Lemmas.Engine
import Verif.Lemmas.EngineKeep
import Verif.Lemmas.Event
import Verif.Lemmas.EventMigration
import Verif.Lemmas.FanOut
import Verif.Lemmas.FidIter
import Verif.Lemmas.Fnames
import Verif.Lemmas.FollowIndex
import Verif.Lemmas.Gasless
import Verif.Lemmas.GaslessInv
import Verif.Lemmas.GaslessRun
import Verif.Lemmas.Http
import Verif.Lemmas.Ingest
import Verif.Lemmas.KV
import Verif.Lemmas.KeyedPage
import Verif.Lemmas.Keys
import Verif.Lemmas.Lending
import Verif.Lemmas.Listing
import Verif.Lemmas.ListingKinds
import Verif.Lemmas.LocalState
import Verif.Lemmas.MapCount
import Verif.Lemmas.Mempool
import Verif.Lemmas.MempoolKeys
import Verif.Lemmas.Migrations
import Verif.Lemmas.NameFeed
import Verif.Lemmas.NameTrie
import Verif.Lemmas.Names
import Verif.Lemmas.Numbered
import Verif.Lemmas.OnChain
import Verif.Lemmas.OnChainChan
import Verif.Lemmas.OnChainRun
import Verif.Lemmas.Profile
import Verif.Lemmas.ProfileInv
import Verif.Lemmas.Proposals
import Verif.Lemmas.RangePage
import Verif.Lemmas.ReadNode
import Verif.Lemmas.Regex
import Verif.Lemmas.ReplPeers
import Verif.Lemmas.ReplStore
import Verif.Lemmas.Replay
import Verif.Lemmas.Replicate
import Verif.Lemmas.RowOrigin
import Verif.Lemmas.RowSource
import Verif.Lemmas.Scan
import Verif.Lemmas.Shard
import Verif.Lemmas.ShardEffect
import Verif.Lemmas.ShardEngine
import Verif.Lemmas.ShardReport
import Verif.Lemmas.ShardSource
import Verif.Lemmas.ShardTrie
import Verif.Lemmas.ShardTurn
import Verif.Lemmas.Snapshot
import Verif.Lemmas.Storage
import Verif.Lemmas.StoreAgree
import Verif.Lemmas.StoreCompact
import Verif.Lemmas.StoreDelete
import Verif.Lemmas.StoreExec
import Verif.Lemmas.StoreHist
import Verif.Lemmas.StoreInst
import Verif.Lemmas.StoreInv
import Verif.Lemmas.StoreKinds
import Verif.Lemmas.StoreLaws
import Verif.Lemmas.StoreMerge
import Verif.Lemmas.StoreNear
import Verif.Lemmas.StoreOrder
import Verif.Lemmas.StoreReject
import Verif.Lemmas.StoreRowsOf
import Verif.Lemmas.StoreSafe
import Verif.Lemmas.StoreTrie
import Verif.Lemmas.StoreWrites
import Verif.Lemmas.Subscribe
import Verif.Lemmas.SubscribeInv
import Verif.Lemmas.TrieBinding
import Verif.Lemmas.TrieCache
import Verif.Lemmas.TrieCounts
import Verif.Lemmas.TrieDelete
import Verif.Lemmas.TrieGood
import Verif.Lemmas.TrieGroups
import Verif.Lemmas.TrieHist
import Verif.Lemmas.TrieImport
import Verif.Lemmas.TrieInsert
import Verif.Lemmas.TriePages
import Verif.Lemmas.TriePaging
import Verif.Lemmas.TriePart
import Verif.Lemmas.TrieReads
import Verif.Lemmas.Usage
import Verif.Lemmas.Validate
import Verif.Lemmas.ValidateMsg
import Verif.Lemmas.ValidateNames
import Verif.Lemmas.VerificationCap
import Verif.Lemmas.Wire
import Verif.Lemmas.WireMsgs
import Verif.Lemmas.WireRead
import Verif.Lemmas.WireSync
import Verif.Lemmas.Witness
import Verif.Lemmas.ZeroAdmit
import Verif.Lemmas.ZeroAgree
import Verif.Lemmas.ZeroChannels
import Verif.Lemmas.ZeroEngine
import Verif.Lemmas.ZeroNumbers
import Verif.Lemmas.ZeroRows
import Verif.Lemmas.ZeroTold
import Verif.Lemmas.ZipListing
import Verif.Model.AddressOwner
import Verif.Model.Admission
import Verif.Model.AdmitEngine
import Verif.Model.Auth
import Verif.Model.BlockEvents
import Verif.Model.BlockStore
import Verif.Model.Bytes
import Verif.Model.Channel
import Verif.Model.ChannelReplica
import Verif.Model.ChannelUri
import Verif.Model.Consensus
import Verif.Model.Engine
import Verif.Model.Event
import Verif.Model.EventMigration
import Verif.Model.FanOut
import Verif.Model.Fnames
import Verif.Model.Gasless
import Verif.Model.Http
import Verif.Model.Ingest
import Verif.Model.KV
import Verif.Model.Keys
import Verif.Model.Lending
import Verif.Model.Listing
import Verif.Model.Mempool
import Verif.Model.MessageType
import Verif.Model.Migrations
import Verif.Model.NameFeed
import Verif.Model.NameTrie
import Verif.Model.Names
import Verif.Model.OMap
import Verif.Model.OnChain
import Verif.Model.Profile
import Verif.Model.Reconcile
import Verif.Model.Regex
import Verif.Model.Replication
import Verif.Model.Routing
import Verif.Model.Shard
import Verif.Model.ShardEngine
import Verif.Model.ShardTrie
import Verif.Model.Snapshot
import Verif.Model.Storage
import Verif.Model.Store
import Verif.Model.StoreRun
import Verif.Model.StoreTrie
import Verif.Model.Stores
import Verif.Model.Subscribe
import Verif.Model.Text
import Verif.Model.Time
import Verif.Model.Trie
import Verif.Model.TrieKey
import Verif.Model.TrieRead
import Verif.Model.Usage
import Verif.Model.Validate
import Verif.Model.VerificationCap
import Verif.Model.Version
import Verif.Model.Wire
import Verif.Model.WireSync
import Verif.Model.ZeroEngine
import Verif.Props.C01
import Verif.Props.C02
import Verif.Props.C03
import Verif.Props.C04
import Verif.Props.C05
import Verif.Props.C06
import Verif.Props.C07
import Verif.Props.C08
import Verif.Props.C09
import Verif.Props.C10
import Verif.Props.C100
import Verif.Props.C101
import Verif.Props.C102
import Verif.Props.C103
import Verif.Props.C104
import Verif.Props.C105
import Verif.Props.C11
import Verif.Props.C12
import Verif.Props.C13
import Verif.Props.C14
import Verif.Props.C15
import Verif.Props.C16
import Verif.Props.C17
import Verif.Props.C18
import Verif.Props.C19
import Verif.Props.C20
import Verif.Props.C21
import Verif.Props.C22
import Verif.Props.C23
import Verif.Props.C24
import Verif.Props.C25
import Verif.Props.C26
import Verif.Props.C27
import Verif.Props.C28
import Verif.Props.C29
import Verif.Props.C30
import Verif.Props.C31
import Verif.Props.C32
import Verif.Props.C33
import Verif.Props.C34
import Verif.Props.C35
import Verif.Props.C36
import Verif.Props.C37
import Verif.Props.C38
import Verif.Props.C39
import Verif.Props.C40
import Verif.Props.C41
import Verif.Props.C42
import Verif.Props.C43
import Verif.Props.C44
import Verif.Props.C45
import Verif.Props.C46
import Verif.Props.C47
import Verif.Props.C48
import Verif.Props.C49
import Verif.Props.C50
import Verif.Props.C51
import Verif.Props.C52
import Verif.Props.C53
import Verif.Props.C54
import Verif.Props.C55
import Verif.Props.C56
import Verif.Props.C57
import Verif.Props.C58
import Verif.Props.C59
import Verif.Props.C60
import Verif.Props.C61
import Verif.Props.C62
import Verif.Props.C63
import Verif.Props.C64
import Verif.Props.C65
import Verif.Props.C66
import Verif.Props.C67
import Verif.Props.C68
import Verif.Props.C69
import Verif.Props.C70
import Verif.Props.C71
import Verif.Props.C72
import Verif.Props.C73
import Verif.Props.C74
import Verif.Props.C75
import Verif.Props.C76
import Verif.Props.C77
import Verif.Props.C78
import Verif.Props.C79
import Verif.Props.C80
import Verif.Props.C81
import Verif.Props.C82
import Verif.Props.C83
import Verif.Props.C84
import Verif.Props.C85
import Verif.Props.C86
import Verif.Props.C87
import Verif.Props.C88
import Verif.Props.C89
import Verif.Props.C90
import Verif.Props.C91
import Verif.Props.C92
import Verif.Props.C93
import Verif.Props.C94
import Verif.Props.C95
import Verif.Props.C96
import Verif.Props.C97
import Verif.Props.C98
import Verif.Props.C99
import Verif.Spec.Admission
import Verif.Spec.AdmitEngine
import Verif.Spec.Auth
import Verif.Spec.BlockEvents
import Verif.Spec.BlockStore
import Verif.Spec.Channel
import Verif.Spec.ChannelOwner
import Verif.Spec.ChannelReplica
import Verif.Spec.ChannelUri
import Verif.Spec.Consensus
import Verif.Spec.Crash
import Verif.Spec.Engine
import Verif.Spec.EventMigration
import Verif.Spec.FanOut
import Verif.Spec.Fnames
import Verif.Spec.Http
import Verif.Spec.Ingest
import Verif.Spec.Lending
import Verif.Spec.Links
import Verif.Spec.Listing
import Verif.Spec.Mempool
import Verif.Spec.Migrations
import Verif.Spec.NameFeed
import Verif.Spec.NameTrie
import Verif.Spec.Names
import Verif.Spec.OnChain
import Verif.Spec.Profile
import Verif.Spec.Provenance
import Verif.Spec.Replay
import Verif.Spec.Replication
import Verif.Spec.Scan
import Verif.Spec.Shard
import Verif.Spec.ShardTrie
import Verif.Spec.ShardTurn
import Verif.Spec.Snapshot
import Verif.Spec.Storage
import Verif.Spec.Store
import Verif.Spec.StoreTrie
import Verif.Spec.Subscribe
import Verif.Spec.Trie
import Verif.Spec.TrieKey
import Verif.Spec.Usage
import Verif.Spec.Validate
import Verif.Spec.Wire
import Verif.Spec.WireSync
import Verif.Spec.Zero
import Verif.Spec.ZeroAgree
import Verif.Spec.ZeroChannels
