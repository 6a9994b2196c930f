import Verif.FastCdc.Props
import Verif.FastCdc.Local
import Verif.Delta.Props
import Verif.Pump.Props
import Verif.Pump.Listen
import Verif.Store.Props
import Verif.Provider.Props
import Verif.Provider.LockProps
import Verif.Provider.Reads
import Verif.ChunkMap.Props
import Verif.ChunkMap.Stats
import Verif.Asset.Dir
import Verif.Manifest.Chunks
import Verif.Manifest.Dirs
import Verif.Manifest.Closed
import Verif.Manifest.Iterator
import Verif.Manifest.Alias
import Verif.Manifest.Flush
import Verif.Manifest.Multi
import Verif.Manifest.MultiFlush
import Verif.Manifest.MultiHist
import Verif.Manifest.MultiExample
import Verif.Updater.Queue
import Verif.Updater.ScanProps
import Verif.Updater.Run
import Verif.Text.Path
import Verif.Sync.DiffProps
import Verif.Sync.Batch
import Verif.Sync.Sizes
import Verif.Sync.Delete
import Verif.Sync.RunProps
import Verif.Sync.RunExample
import Verif.Sync.CrashExample
import Verif.Text.Demux
import Verif.Text.Filter
import Verif.Text.Quote
import Verif.Text.Flags
import Verif.Text.CachePath
import Verif.Util.DirIter
import Verif.Threads.Pool
import Verif.Threads.Semaphore
import Verif.Threads.Opener
import Verif.Threads.Unzstd
import Verif.Threads.Ports
import Verif.Sync.ProtocolExample
import Verif.Stream.Sessions
import Verif.Stream.Service
import Verif.Stream.Fuse
import Verif.FuseFs.Inodes
import Verif.FuseFs.Paths
import Verif.FuseFs.Update
import Verif.FuseFs.Queue
import Verif.FuseFs.Cache
import Verif.FuseFs.Listing
import Verif.FuseFs.Access
import Verif.Stream.WatchExample
import Verif.Stream.Config
import Verif.Stream.Commands
import Verif.Stream.Content
import Verif.Stream.ChunkIndex
import Verif.Manifest.MultiDir
import Verif.Updater.UpdateProps
import Verif.Updater.MountedExample
import Verif.Updater.Heal
import Verif.Updater.HealExample
import Verif.Updater.Twins
import Verif.Updater.Prompt
import Verif.Pump.Sockets
import Verif.Pump.Switch
import Verif.Pump.Progress
import Verif.Text.Params
import Verif.Text.Components
import Verif.Text.Netstat
import Verif.Sync.Client
import Verif.Sync.Progress
import Verif.Indexer.Model
import Verif.Indexer.Spec
import Verif.Indexer.Run
import Verif.Indexer.Buckets
import Verif.Indexer.Props
import Verif.Stream.Settings
import Verif.Stream.Handshake
import Verif.Stream.Usage
import Verif.Stream.WatchRestart
import Verif.FuseFs.Ops
import Verif.FuseFs.Opens
import Verif.FuseFs.Check
import Verif.FuseFs.CheckUpdate
import Verif.FuseFs.Life
import Verif.Asset.Consistent
import Verif.Sync.Search
import Verif.Sync.Sources
import Verif.Sync.SearchLinux
import Verif.Sync.Expand
import Verif.Sync.Ends
import Verif.Util.Buffer
import Verif.Text.Split
import Verif.Store.Stdio
import Verif.Store.Size
import Verif.Text.ExeDir
import Verif.Util.FileTime
import Verif.Threads.Process
import Verif.Text.LogOutput
import Verif.Text.CommandLine
import Verif.Text.Url
import Verif.Util.Status
import Verif.Util.Handle
import Verif.Manifest.Counts
import Verif.ChunkMap.Picture
import Verif.Updater.SourceDir
import Verif.Util.Errno
import Verif.Stream.ServiceEnd
import Verif.Stream.WatchTimes
import Verif.Updater.EndToEnd
import Verif.Sync.Wire
import Verif.Sync.WireExample
import Verif.Stream.SettingsExact
import Verif.Sync.ProgressDelete
import Verif.Sync.SizesWire
import Verif.Manifest.Encode
import Verif.Util.StatsCollector
import Verif.Sync.ProgressText
import Verif.Stream.ManifestStreams
import Verif.Util.WatcherTime
import Verif.Indexer.Overflow
import Verif.Text.LocalStart
