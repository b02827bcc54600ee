import Verif.Spec
import Verif.Model.Store
import Verif.Model.Looper
import Verif.Model.Instance
import Verif.Lemmas.Bytes
import Verif.Lemmas.Proto
import Verif.Lemmas.Codec
import Verif.Lemmas.Map
import Verif.Lemmas.Crc
import Verif.Lemmas.Looper
import Verif.Lemmas.Framed
import Verif.Lemmas.Writer
import Verif.Lemmas.Instance
import Verif.Lemmas.Durable
import Verif.Model.Session
import Verif.Lemmas.Session
import Verif.Props.Common
import Verif.Props.Memory
import Verif.Props.Looper
import Verif.Props.Durability
import Verif.Props.Records
import Verif.Lemmas.Growth
import Verif.Lemmas.Fatal
import Verif.Props.Size
import Verif.Model.Crash
import Verif.Lemmas.Crash
import Verif.Props.Crash
import Verif.Model.Encrypt
import Verif.Props.Encrypt
import Verif.Model.World
import Verif.Lemmas.World
import Verif.Props.World
import Verif.Lemmas.WorldMap
import Verif.Props.Process
import Verif.Props.Deadlock
import Verif.Model.Logger
import Verif.Props.Logger
import Verif.Model.Ffi
import Verif.Props.Ffi
import Verif.Props.Failure
import Verif.Model.Bindings
import Verif.Props.Bindings
import Verif.Props.Total
import Verif.Lemmas.Bounded
import Verif.Props.Bounded
import Verif.Model.Mapping
import Verif.Props.Abort
import Verif.Model.Power
import Verif.Props.Power
import Verif.Lemmas.Quota
import Verif.Props.Quota
import Verif.Props.Clear
import Verif.Props.Keys
import Verif.Model.OpenSteps
import Verif.Props.Open
import Verif.Model.Turns
import Verif.Lemmas.Turns
import Verif.Props.Turns
import Verif.Model.User
import Verif.Props.User
import Verif.Model.Logged
import Verif.Props.Logged
import Verif.Model.NativeLog
import Verif.Props.NativeLog
import Verif.Lemmas.Latency
import Verif.Props.Latency
import Verif.Lemmas.Silent
import Verif.Props.Silent
import Verif.Model.NonceFile
import Verif.Props.NonceFile
import Verif.SpecLin
import Verif.Model.Threads
import Verif.Lemmas.Linear
import Verif.Props.Linear
import Verif.Props.DurLin
import Verif.Props.Switch
import Verif.Props.Host
import Verif.Props.Multi
import Verif.Props.JniString
import Verif.Props.CrashEnc
import Verif.Props.SizeEnc
import Verif.Props.EncLife
import Verif.Props.EncLife2
import Verif.Props.EncLife3
import Verif.Props.EncMap
import Verif.Model.AndroidLog
import Verif.Props.AndroidLog
import Verif.Model.CLog
import Verif.Props.CLog
import Verif.SpecFormat
import Verif.Lemmas.CrcPoly
import Verif.Lemmas.Wire
import Verif.Props.Format
import Verif.Model.Unwind
import Verif.Props.Unwind
import Verif.Props.EncUnwind
import Verif.Props.NoWait
import Verif.Props.BindingErrors
import Verif.Props.SwiftLog
import Verif.Model.Proc
import Verif.Lemmas.Proc
import Verif.Props.Reopen
import Verif.Model.EncWorld
import Verif.Lemmas.EncWorld
import Verif.Props.EncProc
import Verif.Props.EncWorld
import Verif.Props.Footprint
import Verif.Lemmas.Cost
import Verif.Props.Amplify
import Verif.Model.Kotlin
import Verif.Props.Kotlin
import Verif.Model.Blocks
import Verif.Lemmas.Blocks
import Verif.Props.DiskFull
import Verif.Props.DiskFullEnc
import Verif.Model.Build
import Verif.Lemmas.Build
import Verif.Props.Build
import Verif.Lemmas.Remains
import Verif.Props.Remanence
import Verif.Model.Copy
import Verif.Lemmas.Copy
import Verif.Props.Copy
import Verif.SpecAlike
import Verif.Lemmas.Alike
import Verif.Props.Alike
import Verif.Model.Grow
import Verif.Lemmas.Grow
import Verif.Props.Grow
import Verif.Model.Cwd
import Verif.Props.Cwd
import Verif.Model.Fork
import Verif.Model.Resources
import Verif.Props.Fork
import Verif.Props.Resources
import Verif.Props.KotlinThrows
import Verif.Props.Tamper
import Verif.Props.ClearWorld
import Verif.Model.Restarts
import Verif.Props.Restarts
import Verif.Props.Conformance
import Verif.Props.NativeFilter
import Verif.Props.More
import Verif.Props.Calls
import Verif.Props.LogText
import Verif.Props.LogHistory
import Verif.Props.CoreText
import Verif.Props.CoreTextLogged
import Verif.Props.KotlinText
