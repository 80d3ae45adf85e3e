import Verif.Base.Bytes
import Verif.Base.BTree
import Verif.Codec.Base64
import Verif.Base.Digits
import Verif.Codec.Base58
import Verif.Codec.Varint
import Verif.Base.Deps
import Verif.Codec.Json
import Verif.Codec.JsonLemmas
import Verif.Codec.Base32
import Verif.Codec.Cid
import Verif.Codec.DagJson
import Verif.Base.Fail
import Verif.Model.Caveat
import Verif.Model.Capability
import Verif.Model.Payload
import Verif.Model.Did
import Verif.Model.World
import Verif.Model.Ucan
import Verif.Model.Ipv6
import Verif.Model.Url
import Verif.Model.Semantics
import Verif.Model.Proof
import Verif.Model.Store
import Verif.Model.Builder
import Verif.Model.Chain
import Verif.Model.IpldUcan
import Verif.Model.KeySupport
import Verif.Model.PayloadLemmas
import Verif.Model.UcanLemmas
import Verif.Spec.Capability
import Verif.Spec.Token
import Verif.Props.Capability
import Verif.Props.Token
import Verif.Spec.Did
import Verif.Props.Did
import Verif.Spec.Time
import Verif.Props.Time
import Verif.Spec.Proof
import Verif.Props.ProofSemantics
import Verif.Spec.Chain
import Verif.Model.ChainLemmas
import Verif.Props.Chain
import Verif.Props.ChainExamples
import Verif.Spec.Reduce
import Verif.Model.ReduceLemmas
import Verif.Props.Reduce
import Verif.Props.ReduceExamples
import Verif.Spec.Crypto
import Verif.Props.Crypto
import Verif.Spec.Store
import Verif.Props.Store
import Verif.Props.StoreTokens
import Verif.Spec.Ipld
import Verif.Props.Ipld
import Verif.Spec.Builder
import Verif.Props.Builder
import Verif.Spec.EndToEnd
import Verif.Props.EndToEnd
import Verif.Props.Wildcard
import Verif.Spec.Authority
import Verif.Props.Authority
import Verif.Props.Cost
import Verif.Spec.Encoding
import Verif.Props.Encoding
import Verif.Spec.Cid
import Verif.Props.CidText
import Verif.Spec.Json
import Verif.Props.JsonText
import Verif.Spec.Wire
import Verif.Props.Wire
import Verif.Codec.Cbor
import Verif.Spec.Cbor
import Verif.Props.Cbor
import Verif.Model.IpldCbor
import Verif.Spec.IpldCbor
import Verif.Props.IpldCbor
import Verif.Model.Fixtures
import Verif.Spec.Fixtures
import Verif.Props.Fixtures
import Verif.Model.UcanJson
import Verif.Spec.UcanJson
import Verif.Props.UcanJson
import Verif.Spec.Der
import Verif.Props.WebKey
import Verif.Spec.Merge
import Verif.Props.Merge
import Verif.Spec.DidKey
import Verif.Props.DidKey
import Verif.Spec.IpldForm
import Verif.Props.IpldForm
import Verif.Props.Replay
import Verif.Spec.Failure
import Verif.Props.Failure
import Verif.Spec.Depends
import Verif.Props.Depends
import Verif.Spec.Ipv6
import Verif.Spec.Url
import Verif.Props.Ipv6
import Verif.Props.Url
import Verif.Props.Foreign
import Verif.Props.TokenId
import Verif.Props.Report
import Verif.Spec.Verify
import Verif.Props.Verify
import Verif.Model.Check
import Verif.Spec.Check
import Verif.Props.Check
import Verif.Model.Doc
import Verif.Props.Doc
import Verif.Spec.Views
import Verif.Props.Views
import Verif.Model.Width
import Verif.Spec.Width
import Verif.Props.Width
import Verif.Model.HashStore
import Verif.Spec.AnyStore
import Verif.Props.AnyStore
import Verif.Model.Async
import Verif.Spec.Async
import Verif.Props.Async
import Verif.Props.Malformed
import Verif.Spec.Restrict
import Verif.Props.Restrict
import Verif.Spec.HandOn
import Verif.Props.HandOn
import Verif.Spec.Moment
import Verif.Props.Moment
import Verif.Spec.Untrusted
import Verif.Props.Untrusted
import Verif.Spec.Rename
import Verif.Props.Rename
import Verif.Model.Ipv4
import Verif.Spec.Ipv4
import Verif.Props.Ipv4
import Verif.Props.SpecialUrl
import Verif.Props.Audience
import Verif.Props.Number
import Verif.Model.Clock
import Verif.Props.Clock
import Verif.Props.Memory
import Verif.Props.Owner
import Verif.Props.Upgrade
import Verif.Spec.Fetch
import Verif.Props.Fetch
import Verif.Props.Depth
import Verif.Model.Debug
import Verif.Spec.Debug
import Verif.Props.Debug
import Verif.Model.Instant
import Verif.Spec.Instant
import Verif.Props.Instant
import Verif.Spec.Crash
import Verif.Props.Crash
import Verif.Spec.Withdraw
import Verif.Props.Withdraw
import Verif.Spec.Dates
import Verif.Props.Dates
import Verif.Spec.Issue
import Verif.Props.Issue
import Verif.Spec.Revoke
import Verif.Props.Revoke
import Verif.Spec.Walk
import Verif.Props.Walk
import Verif.Spec.IpldProof
import Verif.Props.IpldProof
import Verif.Spec.Empty
import Verif.Props.Empty
import Verif.Props.Antisymm
import Verif.Model.Message
import Verif.Spec.Message
import Verif.Props.Message
import Verif.Spec.Repeat
import Verif.Props.Repeat
import Verif.Spec.Register
import Verif.Props.Register
import Verif.Spec.Addressee
import Verif.Props.Addressee
import Verif.Spec.Precise
import Verif.Props.Precise
import Verif.Spec.Readable
import Verif.Props.Readable
import Verif.Spec.Size
import Verif.Props.Size
import Verif.Spec.Case
import Verif.Props.Case
import Verif.Spec.Suite
import Verif.Props.Suite
import Verif.Spec.Disclosure
import Verif.Props.Disclosure
import Verif.Spec.Lineage
import Verif.Props.Lineage
import Verif.Spec.Restate
import Verif.Props.Restate
import Verif.Spec.Own
import Verif.Props.Own
import Verif.Props.Behalf
import Verif.Spec.Bears
import Verif.Props.Bears
import Verif.Props.Split
import Verif.Props.Claiming
import Verif.Props.Escalate
import Verif.Props.Overall
import Verif.Spec.Group
import Verif.Props.Group
