import Verif.Props.Codec
import Verif.Props.Names
import Verif.Props.Reader
import Verif.Props.Endless
import Verif.Props.Sectors
import Verif.Props.Avl
import Verif.Props.Sector
import Verif.Props.Dirtab
import Verif.Props.Pack
import Verif.Props.Compress
import Verif.Props.Index
import Verif.Props.Repack
import Verif.Props.Unpack
import Verif.Props.Checksum
import Verif.Props.Remap
import Verif.Props.Fuse
import Verif.Props.MountOpts
import Verif.Props.BufWriter
import Verif.Props.Cli
import Verif.Props.Show
import Verif.Props.StdFs
import Verif.Props.BuildImage
import Verif.Props.CliPaths
import Verif.Props.CliUnpack
import Verif.Props.MemDev
import Verif.Props.CompressArgs
import Verif.Props.WebUi
import Verif.Props.Desktop
import Verif.Props.Browser
import Verif.Props.BrowserUnpack
import Verif.Props.BrowserCompress
import Verif.Props.BrowserShown
import Verif.Props.Daemon
import Verif.Props.FuseAlive
import Verif.Props.PackDefault
import Verif.Props.CompressBar
import Verif.Props.ReadCli
import Verif.Props.CopyRange
import Verif.Props.ReadErrors
import Verif.Props.ReadPrinted
import Verif.Props.Layout
import Verif.Props.Partition
import Verif.Props.UnpackParts
import Verif.Props.Attributes
import Verif.Props.BuildArgs
import Verif.Props.ScanIter
import Verif.Props.SameImage
import Verif.Props.Lookup
import Verif.Props.PathForm
import Verif.Props.Relist
import Verif.Props.WellFormed
import Verif.Props.Patch
import Verif.Props.Slack
import Verif.Props.Short
import Verif.Props.Changing
import Verif.Props.Injective
import Verif.Props.SameDirectory
import Verif.Props.Copies
import Verif.Props.PacksIff
import Verif.Props.Refusals
import Verif.Props.Session
import Verif.Props.ReadBuf
import Verif.Props.Tabs
import Verif.Props.SpecCmd
import Verif.Props.InfoText
import Verif.Props.Length
import Verif.Props.RepackIff
import Verif.Props.RemapExact
import Verif.Props.OffsetExact
import Verif.Props.SmallExact
import Verif.Props.RulesExact
import Verif.Props.UnpackExact
import Verif.Props.TruncExact
import Verif.Props.ShortReadsExact
import Verif.Props.RemapOrder
import Verif.Props.NoName
import Verif.Props.SmallExact2
import Verif.Props.ReaddirExact
import Verif.Props.InfoExact
import Verif.Props.PartsExact
import Verif.Props.IterExact
import Verif.Props.SubstExact
import Verif.Props.ContainedExact
import Verif.Props.BuildExact
import Verif.Props.BarExact
import Verif.Props.RepackSame
import Verif.Props.UnpackBarExact
import Verif.Props.SamePack
import Verif.Props.UnpackSelf
import Verif.Props.CompressPlaces
import Verif.Props.PackPlaces
import Verif.Props.CreateLast
import Verif.Props.TabsActs
import Verif.Props.ChecksumLast
