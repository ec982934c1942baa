import Verif.Util.Props
import Verif.Codec.Props
import Verif.Asset.Props
import Verif.Asset.Select
import Verif.Asset.Bulk
import Verif.Wallet.Normalize
import Verif.Wallet.Sync
import Verif.Wallet.Prune
import Verif.Wallet.Props
import Verif.Sign.Props
import Verif.Transfer.Protocol
import Verif.Ledger.Props
import Verif.Ledger.Reasons
import Verif.Ledger.Roots
import Verif.Ledger.Fill
import Verif.Merkle.FullProps
import Verif.Merkle.Path
import Verif.Merkle.PartialProps
import Verif.Merkle.ForkProps
import Verif.Merkle.ForestProps
import Verif.Merkle.ForestProve
import Verif.Merkle.Initial
import Verif.Merkle.Trunk
import Verif.Merkle.TrunkRel
import Verif.Merkle.TrunkProps
import Verif.Ledger.Malleable
import Verif.Ledger.Supply
import Verif.Cipher.Props
import Verif.Cipher.Adapters
import Verif.Ceremony.Witness
import Verif.Ceremony.Transcript
import Verif.Ceremony.Files
import Verif.Ceremony.Verifier
import Verif.Ceremony.Register
import Verif.Ceremony.Prepare
import Verif.Setup.Model
import Verif.Setup.Phase2
import Verif.Setup.Phase1
import Verif.Poseidon.CompressProps
import Verif.Poseidon.LfsrProps
import Verif.Fs.FileProps
import Verif.Fs.Container
import Verif.Transfer.Identity
import Verif.Setup.Groth16
import Verif.Sign.Data
import Verif.Wallet.Accounts
import Verif.Wallet.Storage
import Verif.Ceremony.ClientAccepted
import Verif.Ceremony.Locks
import Verif.Ceremony.Serial
import Verif.Ceremony.Signing
import Verif.Ceremony.Enrol
import Verif.Gadget.Window
import Verif.Gadget.WindowProps
import Verif.Gadget.Cs
import Verif.Gadget.CsProps
import Verif.Gadget.Rem
import Verif.Ppot.Model
import Verif.Ppot.PointProps
import Verif.Ppot.Curves
import Verif.Ppot.FileProps
import Verif.Ppot.Examples
import Verif.Ppot.Hash
import Verif.Ppot.HashProps
import Verif.Ppot.Ark
import Verif.Setup.SubCeremony
import Verif.Sign.Flow
import Verif.Pay.Model
import Verif.Pay.Lemmas
import Verif.Pay.Props
import Verif.Pay.Fresh
import Verif.Settle.Ledger
import Verif.Settle.Model
import Verif.Settle.Lemmas
import Verif.Settle.Core
import Verif.Settle.Props
import Verif.Settle.Toy
import Verif.Settle.Paid
import Verif.Settle.PaidExamples
import Verif.Settle.Forest
import Verif.Settle.ForestLaws
import Verif.Settle.ForestProps
import Verif.Settle.ForestWallet
import Verif.Params.Model
import Verif.Params.Download
import Verif.Params.Build
import Verif.Params.Walk
import Verif.Params.Publish
import Verif.Poseidon.Constants
import Verif.Util.Select
import Verif.Util.Timed
import Verif.Circuit.Builder
import Verif.Circuit.Model
import Verif.Circuit.HashProps
import Verif.Circuit.ProtoProps
import Verif.Circuit.BuildProps
import Verif.Circuit.AllocProps
import Verif.Circuit.TransferProps
import Verif.Client.Model
import Verif.Client.Props
import Verif.Circuit.Bn254
import Verif.Circuit.Props
import Verif.Circuit.Examples
import Verif.Merkle.Bind
import Verif.Circuit.History
import Verif.Circuit.HistoryExamples
import Verif.Circuit.Measure
import Verif.Keys.Model
import Verif.Keys.Props
import Verif.Keys.Extract
import Verif.World.Model
import Verif.World.Lemmas
import Verif.World.Settle
import Verif.World.Book
import Verif.World.Props
import Verif.Net.Model
import Verif.Net.Spec
import Verif.Net.Ledger
import Verif.Net.Lemmas
import Verif.Net.Props
import Verif.Net.Example
import Verif.Manta.Model
import Verif.Manta.Sane
import Verif.Manta.Props
import Verif.Manta.Example
import Verif.Keys.Whole
import Verif.Sign.Failure
import Verif.Rand.Model
import Verif.Rand.Props
