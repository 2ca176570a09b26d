import Verif.Model.Adhoc
import Verif.Model.Alloc
import Verif.Model.Bincode
import Verif.Model.BitStream
import Verif.Model.Cli
import Verif.Model.Cost
import Verif.Model.Counters
import Verif.Model.Disk
import Verif.Model.Examples
import Verif.Model.F32
import Verif.Model.Frame
import Verif.Model.Indexing
import Verif.Model.Io
import Verif.Model.LinkedList
import Verif.Model.List32
import Verif.Model.ListSerde
import Verif.Model.Machine
import Verif.Model.Packed
import Verif.Model.Paths
import Verif.Model.Reader
import Verif.Model.Ring32
import Verif.Model.Rust
import Verif.Model.Sample
import Verif.Model.Signal
import Verif.Model.SignedZero
import Verif.Model.Tools
import Verif.Model.Usize
import Verif.Model.Wav
import Verif.Proofs.Alike
import Verif.Proofs.Append
import Verif.Proofs.Basic
import Verif.Proofs.Bincode
import Verif.Proofs.BitStream
import Verif.Proofs.Bounded
import Verif.Proofs.Canonical
import Verif.Proofs.Channel
import Verif.Proofs.Cli
import Verif.Proofs.Clip
import Verif.Proofs.Codec
import Verif.Proofs.Cost
import Verif.Proofs.Damage
import Verif.Proofs.Decoder
import Verif.Proofs.Encoder
import Verif.Proofs.Ends
import Verif.Proofs.F32
import Verif.Proofs.Files
import Verif.Proofs.Float
import Verif.Proofs.Forget
import Verif.Proofs.Frame
import Verif.Proofs.Growth
import Verif.Proofs.Halts
import Verif.Proofs.Headers
import Verif.Proofs.Ieee
import Verif.Proofs.LinkedList
import Verif.Proofs.NoiseCount
import Verif.Proofs.Over
import Verif.Proofs.Packed
import Verif.Proofs.Prefix
import Verif.Proofs.Reader
import Verif.Proofs.Refine
import Verif.Proofs.Resync
import Verif.Proofs.Rice
import Verif.Proofs.Ring
import Verif.Proofs.Robust
import Verif.Proofs.Room
import Verif.Proofs.Sample
import Verif.Proofs.Seek
import Verif.Proofs.Signal
import Verif.Proofs.Table
import Verif.Proofs.Terminate
import Verif.Proofs.Tidy
import Verif.Proofs.Time
import Verif.Proofs.Usize
import Verif.Proofs.UsizeLoad
import Verif.Proofs.Values
import Verif.Proofs.Wav
import Verif.Proofs.WavFile
import Verif.Props.Accepts
import Verif.Props.Again
import Verif.Props.Alias
import Verif.Props.AnyFile
import Verif.Props.Apart
import Verif.Props.Append
import Verif.Props.Bell
import Verif.Props.Bits
import Verif.Props.Bounds
import Verif.Props.Builds
import Verif.Props.Cache32
import Verif.Props.CacheSerde
import Verif.Props.Capacity
import Verif.Props.Causal
import Verif.Props.Cleared
import Verif.Props.Cli
import Verif.Props.CliLevels
import Verif.Props.CliOptions
import Verif.Props.Compression
import Verif.Props.Config
import Verif.Props.Containers
import Verif.Props.Continue
import Verif.Props.Copy
import Verif.Props.Corrupt
import Verif.Props.Counters
import Verif.Props.CutSeek
import Verif.Props.Damage
import Verif.Props.Deck
import Verif.Props.Disk
import Verif.Props.Encoding
import Verif.Props.Endings
import Verif.Props.Examples
import Verif.Props.Expansion
import Verif.Props.Extract
import Verif.Props.FileSize
import Verif.Props.Files
import Verif.Props.Filter
import Verif.Props.Finite
import Verif.Props.Forget
import Verif.Props.Format
import Verif.Props.GapSeek
import Verif.Props.GapTrip
import Verif.Props.Gaps
import Verif.Props.Generations
import Verif.Props.Half
import Verif.Props.HalfTape
import Verif.Props.Headroom
import Verif.Props.Indexing
import Verif.Props.Interchange
import Verif.Props.IterMut
import Verif.Props.Laws
import Verif.Props.Levels
import Verif.Props.Linear
import Verif.Props.List32
import Verif.Props.ListSerde
import Verif.Props.Lists
import Verif.Props.LongCalls
import Verif.Props.LongTail
import Verif.Props.Machine
import Verif.Props.Memory
import Verif.Props.MemorySeek
import Verif.Props.Mirror
import Verif.Props.Nibbles
import Verif.Props.NoChannels
import Verif.Props.Noise
import Verif.Props.Overflow
import Verif.Props.Overwrite
import Verif.Props.Parabola
import Verif.Props.Paths
import Verif.Props.Places
import Verif.Props.Playback
import Verif.Props.Player
import Verif.Props.Protocol
import Verif.Props.Quiet
import Verif.Props.Range
import Verif.Props.Rate
import Verif.Props.ReEncode
import Verif.Props.ReadCache
import Verif.Props.ReadList
import Verif.Props.Readers
import Verif.Props.RecordOver
import Verif.Props.RepoTests
import Verif.Props.Resync
import Verif.Props.Return
import Verif.Props.Reuse
import Verif.Props.Ring32
import Verif.Props.RoundTrip
import Verif.Props.Samples
import Verif.Props.Savings
import Verif.Props.Seeds
import Verif.Props.Seek
import Verif.Props.SeekAny
import Verif.Props.SeekFile
import Verif.Props.Sharp
import Verif.Props.Signal
import Verif.Props.SignedZero
import Verif.Props.Silence
import Verif.Props.Stale
import Verif.Props.Sync
import Verif.Props.Tools
import Verif.Props.Unchanged
import Verif.Props.Usize
import Verif.Props.WavBlocks
import Verif.Props.WavFiles
import Verif.Props.WavHeader
import Verif.Props.WavTape
import Verif.Props.WholeBlocks
import Verif.Props.Wrap
import Verif.Spec.Bits
import Verif.Spec.Clip
import Verif.Spec.Codec
import Verif.Spec.Config
import Verif.Spec.Dither
import Verif.Spec.Format
import Verif.Spec.Index
import Verif.Spec.Paths
import Verif.Spec.Player
import Verif.Spec.Reader
import Verif.Spec.Reel
import Verif.Spec.Resync
import Verif.Spec.Session
import Verif.Spec.Tape
import Verif.Spec.Usize
