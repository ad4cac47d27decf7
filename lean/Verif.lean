import Verif.Model.Bare
import Verif.Model.ByteOrder
import Verif.Model.Concurrent
import Verif.Model.Copies
import Verif.Model.Exec
import Verif.Model.Gost89
import Verif.Model.KuzLive
import Verif.Model.KuzStream
import Verif.Model.KuzToken
import Verif.Model.Kuznyechik
import Verif.Model.Layers
import Verif.Model.Leak
import Verif.Model.Live
import Verif.Model.Locale
import Verif.Model.MagmaBlock
import Verif.Model.MagmaKey
import Verif.Model.MagmaModes
import Verif.Model.MagmaViews
import Verif.Model.Memory
import Verif.Model.Mutex
import Verif.Model.Recorder
import Verif.Model.Reenter
import Verif.Model.Release
import Verif.Model.Scarce
import Verif.Model.ScarceKuz
import Verif.Model.ScarceLive
import Verif.Model.ScarceThreads
import Verif.Model.Share
import Verif.Model.SharedStreams
import Verif.Model.Sizes
import Verif.Model.StreamViews
import Verif.Model.TestSupport
import Verif.Model.Text
import Verif.Model.Threads
import Verif.Model.UserContainer
import Verif.Model.Views
import Verif.Model.WeakMemory
import Verif.Model.Work
import Verif.Spec.Alternate
import Verif.Spec.Bare
import Verif.Spec.ByteOrder
import Verif.Spec.Bytes
import Verif.Spec.Caches
import Verif.Spec.Codes
import Verif.Spec.Concurrent
import Verif.Spec.Copies
import Verif.Spec.Crash
import Verif.Spec.Differences
import Verif.Spec.Diffusion
import Verif.Spec.Endless
import Verif.Spec.EvenPermutations
import Verif.Spec.Failures
import Verif.Spec.Finalize
import Verif.Spec.Gf
import Verif.Spec.Hiding
import Verif.Spec.Keys
import Verif.Spec.KuzLive
import Verif.Spec.KuzStreams
import Verif.Spec.KuzToken
import Verif.Spec.KuzTokenStreams
import Verif.Spec.Kuznyechik
import Verif.Spec.Layers
import Verif.Spec.Live
import Verif.Spec.Locale
import Verif.Spec.Machines
import Verif.Spec.Magma
import Verif.Spec.MagmaDifferences
import Verif.Spec.MagmaViews
import Verif.Spec.ManyKeys
import Verif.Spec.ManyScarce
import Verif.Spec.Memory
import Verif.Spec.Modes
import Verif.Spec.Mutex
import Verif.Spec.Numerals
import Verif.Spec.OldObjects
import Verif.Spec.Pieces
import Verif.Spec.RandomTables
import Verif.Spec.Reenter
import Verif.Spec.Rekey
import Verif.Spec.Release
import Verif.Spec.Scarce
import Verif.Spec.ScarceKuz
import Verif.Spec.ScarceLive
import Verif.Spec.ScarceThreads
import Verif.Spec.Share
import Verif.Spec.SharedStreams
import Verif.Spec.StreamViews
import Verif.Spec.Streams
import Verif.Spec.TestSupport
import Verif.Spec.Vectors
import Verif.Spec.VectorsModes
import Verif.Spec.VectorsOrder
import Verif.Spec.Views
import Verif.Spec.WeakMemory
import Verif.Lemmas.AnyReads
import Verif.Lemmas.Bare
import Verif.Lemmas.Bits
import Verif.Lemmas.Blocks
import Verif.Lemmas.ByteOrder
import Verif.Lemmas.Codes
import Verif.Lemmas.Concurrent
import Verif.Lemmas.Container
import Verif.Lemmas.Copies
import Verif.Lemmas.Crash
import Verif.Lemmas.DifferenceTables
import Verif.Lemmas.Differences
import Verif.Lemmas.Diffusion
import Verif.Lemmas.Endings
import Verif.Lemmas.Endless
import Verif.Lemmas.EndlessKuz
import Verif.Lemmas.EvenPermutations
import Verif.Lemmas.Feistel
import Verif.Lemmas.Field
import Verif.Lemmas.Gf
import Verif.Lemmas.GfField
import Verif.Lemmas.Growing
import Verif.Lemmas.Hiding
import Verif.Lemmas.Imit
import Verif.Lemmas.Iv
import Verif.Lemmas.KeyCache
import Verif.Lemmas.KeyText
import Verif.Lemmas.Keys
import Verif.Lemmas.Kuz
import Verif.Lemmas.KuzCache
import Verif.Lemmas.KuzConc
import Verif.Lemmas.KuzKey
import Verif.Lemmas.KuzLeak
import Verif.Lemmas.KuzLive
import Verif.Lemmas.KuzOrder
import Verif.Lemmas.KuzSteps
import Verif.Lemmas.KuzStream
import Verif.Lemmas.KuzToken
import Verif.Lemmas.KuzTokenStreams
import Verif.Lemmas.Layers
import Verif.Lemmas.Leak
import Verif.Lemmas.Live
import Verif.Lemmas.LiveAsk
import Verif.Lemmas.LiveAskMore
import Verif.Lemmas.Locale
import Verif.Lemmas.Machines
import Verif.Lemmas.MagmaConc
import Verif.Lemmas.MagmaDifferences
import Verif.Lemmas.MagmaPaths
import Verif.Lemmas.MagmaRounds
import Verif.Lemmas.MagmaViews
import Verif.Lemmas.MagmaViewsRun
import Verif.Lemmas.ManyKeys
import Verif.Lemmas.ManyScarce
import Verif.Lemmas.Memory
import Verif.Lemmas.ModeRelations
import Verif.Lemmas.Mutex
import Verif.Lemmas.Numerals
import Verif.Lemmas.OldObjects
import Verif.Lemmas.OneKey
import Verif.Lemmas.OrderModel
import Verif.Lemmas.Parities
import Verif.Lemmas.RandomTables
import Verif.Lemmas.RandomTablesBoth
import Verif.Lemmas.Reads
import Verif.Lemmas.Recorder
import Verif.Lemmas.RecorderMac
import Verif.Lemmas.Reenter
import Verif.Lemmas.ReenterDialog
import Verif.Lemmas.ReenterMagma
import Verif.Lemmas.Reflection
import Verif.Lemmas.Rekey
import Verif.Lemmas.RekeyMore
import Verif.Lemmas.RelatedKeys
import Verif.Lemmas.Release
import Verif.Lemmas.ReleaseGrow
import Verif.Lemmas.Resume
import Verif.Lemmas.Reuse
import Verif.Lemmas.Sbox
import Verif.Lemmas.Scarce
import Verif.Lemmas.ScarceAlone
import Verif.Lemmas.ScarceKuz
import Verif.Lemmas.ScarceLive
import Verif.Lemmas.ScarceLiveStreams
import Verif.Lemmas.ScarceThreads
import Verif.Lemmas.Share
import Verif.Lemmas.SharedStreams
import Verif.Lemmas.SharedStreamsCalls
import Verif.Lemmas.SharedStreamsKuz
import Verif.Lemmas.Sinks
import Verif.Lemmas.Sizes
import Verif.Lemmas.Slide
import Verif.Lemmas.Sources
import Verif.Lemmas.StreamViews
import Verif.Lemmas.StreamViewsRun
import Verif.Lemmas.Streams
import Verif.Lemmas.TestSupport
import Verif.Lemmas.Text
import Verif.Lemmas.Threads
import Verif.Lemmas.TwoRounds
import Verif.Lemmas.Views
import Verif.Lemmas.ViewsRun
import Verif.Lemmas.WeakMemory
import Verif.Props.AnyReads
import Verif.Props.Bare
import Verif.Props.Blocks
import Verif.Props.ByteOrder
import Verif.Props.Cfb
import Verif.Props.Codes
import Verif.Props.Concurrent
import Verif.Props.Container
import Verif.Props.Copies
import Verif.Props.Crash
import Verif.Props.Differences
import Verif.Props.Diffusion
import Verif.Props.Ecb
import Verif.Props.Endings
import Verif.Props.Endless
import Verif.Props.EvenPermutations
import Verif.Props.Failures
import Verif.Props.Finalize
import Verif.Props.Growing
import Verif.Props.Hiding
import Verif.Props.Iv
import Verif.Props.KeySchedule
import Verif.Props.KeyText
import Verif.Props.KuzLive
import Verif.Props.KuzStream
import Verif.Props.KuzToken
import Verif.Props.KuzTokenStreams
import Verif.Props.Kuznyechik
import Verif.Props.Layers
import Verif.Props.Leak
import Verif.Props.Live
import Verif.Props.Locale
import Verif.Props.Mac
import Verif.Props.Machines
import Verif.Props.MagmaCipher
import Verif.Props.MagmaDifferences
import Verif.Props.MagmaKeys
import Verif.Props.MagmaViews
import Verif.Props.Malformed
import Verif.Props.ManyKeys
import Verif.Props.ManyScarce
import Verif.Props.Memory
import Verif.Props.ModeRelations
import Verif.Props.Mutex
import Verif.Props.Numerals
import Verif.Props.OldObjects
import Verif.Props.OneKey
import Verif.Props.Pieces
import Verif.Props.Positions
import Verif.Props.RandomTables
import Verif.Props.Recorder
import Verif.Props.Reenter
import Verif.Props.Reflection
import Verif.Props.Rekey
import Verif.Props.Related
import Verif.Props.RelatedKeys
import Verif.Props.Release
import Verif.Props.RepoTests
import Verif.Props.Resume
import Verif.Props.Retry
import Verif.Props.Reuse
import Verif.Props.Scarce
import Verif.Props.ScarceKuz
import Verif.Props.ScarceLive
import Verif.Props.ScarceThreads
import Verif.Props.Share
import Verif.Props.SharedStreams
import Verif.Props.Sizes
import Verif.Props.Slide
import Verif.Props.StreamViews
import Verif.Props.Tables
import Verif.Props.TestSupport
import Verif.Props.Threads
import Verif.Props.Token
import Verif.Props.Vectors
import Verif.Props.Views
import Verif.Props.WeakMemory
import Verif.Props.Work
import Verif.Tests
