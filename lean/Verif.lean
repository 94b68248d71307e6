import Verif.Basic
import Verif.Model.Append
import Verif.Model.Archive
import Verif.Model.BitIO
import Verif.Model.Broken
import Verif.Model.Cli
import Verif.Model.Crc
import Verif.Model.Dhuf
import Verif.Model.Dry
import Verif.Model.Dump
import Verif.Model.Extract
import Verif.Model.Globals
import Verif.Model.Handles
import Verif.Model.Header
import Verif.Model.Huf
import Verif.Model.Larc
import Verif.Model.List
import Verif.Model.ListText
import Verif.Model.Mac
import Verif.Model.MakeTable
import Verif.Model.MakeTree
import Verif.Model.Memory
import Verif.Model.Methods
import Verif.Model.Pm
import Verif.Model.Print
import Verif.Model.Shuf
import Verif.Model.Slide
import Verif.Model.Steps
import Verif.Model.Text
import Verif.Model.Threads
import Verif.Model.Tokens
import Verif.Model.Trace
import Verif.Model.Value
import Verif.Proof.Adv
import Verif.Proof.Append
import Verif.Proof.Archive
import Verif.Proof.BitIO
import Verif.Proof.Block
import Verif.Proof.BlockSize
import Verif.Proof.Bound
import Verif.Proof.CLen
import Verif.Proof.Careful
import Verif.Proof.Cli
import Verif.Proof.Coarse
import Verif.Proof.Code
import Verif.Proof.Codec
import Verif.Proof.Copy
import Verif.Proof.Count
import Verif.Proof.Crc
import Verif.Proof.Deep
import Verif.Proof.DeepRun
import Verif.Proof.Dhuf
import Verif.Proof.DynCode
import Verif.Proof.DynInv
import Verif.Proof.DynRun
import Verif.Proof.DynStart
import Verif.Proof.Ends
import Verif.Proof.Entry
import Verif.Proof.Extract
import Verif.Proof.Foreign
import Verif.Proof.Frame
import Verif.Proof.Fuel
import Verif.Proof.Header
import Verif.Proof.Heap
import Verif.Proof.Hist
import Verif.Proof.Huf
import Verif.Proof.Huffman
import Verif.Proof.Larc
import Verif.Proof.Lazy
import Verif.Proof.Lh1
import Verif.Proof.Lh2
import Verif.Proof.Lh3
import Verif.Proof.Limit
import Verif.Proof.Links
import Verif.Proof.Longest
import Verif.Proof.Lookup
import Verif.Proof.Lz
import Verif.Proof.MakeLen
import Verif.Proof.MakeTable
import Verif.Proof.MakeTree
import Verif.Proof.Methods
import Verif.Proof.Multi
import Verif.Proof.Names
import Verif.Proof.Optimal
import Verif.Proof.PGrow
import Verif.Proof.PJoint
import Verif.Proof.PSprout
import Verif.Proof.PTree
import Verif.Proof.PView
import Verif.Proof.Path
import Verif.Proof.Pm2
import Verif.Proof.PmBuild
import Verif.Proof.PtLen
import Verif.Proof.Ratio
import Verif.Proof.Reconst
import Verif.Proof.Reconst2
import Verif.Proof.RelBlock
import Verif.Proof.RelLz
import Verif.Proof.RelTree
import Verif.Proof.RunD
import Verif.Proof.SendBlock
import Verif.Proof.Session
import Verif.Proof.ShufAdv
import Verif.Proof.SibCode
import Verif.Proof.Sibling
import Verif.Proof.SizeDec
import Verif.Proof.Static
import Verif.Proof.Steps
import Verif.Proof.Stream
import Verif.Proof.TextEnc
import Verif.Proof.TextRun
import Verif.Proof.TextSize
import Verif.Proof.TokenBuf
import Verif.Proof.Total
import Verif.Proof.Trace
import Verif.Proof.Tree
import Verif.Proof.Win
import Verif.Proof.WinCrc
import Verif.Proof.Zeros
import Verif.Props.C01
import Verif.Props.C01Exact
import Verif.Props.C02
import Verif.Props.C03
import Verif.Props.C04
import Verif.Props.C05
import Verif.Props.C06
import Verif.Props.C07
import Verif.Props.C08
import Verif.Props.C09
import Verif.Props.C10
import Verif.Props.C100
import Verif.Props.C100Long
import Verif.Props.C100Unix
import Verif.Props.C101
import Verif.Props.C102
import Verif.Props.C103
import Verif.Props.C104
import Verif.Props.C105
import Verif.Props.C105Extra
import Verif.Props.C105Long
import Verif.Props.C106
import Verif.Props.C107
import Verif.Props.C108
import Verif.Props.C109
import Verif.Props.C11
import Verif.Props.C110
import Verif.Props.C110Any
import Verif.Props.C111
import Verif.Props.C112
import Verif.Props.C113
import Verif.Props.C113Count
import Verif.Props.C114
import Verif.Props.C115
import Verif.Props.C116
import Verif.Props.C116Elsewhere
import Verif.Props.C117
import Verif.Props.C118
import Verif.Props.C119
import Verif.Props.C12
import Verif.Props.C120
import Verif.Props.C120Disk
import Verif.Props.C13
import Verif.Props.C14
import Verif.Props.C15
import Verif.Props.C16
import Verif.Props.C17
import Verif.Props.C18
import Verif.Props.C19
import Verif.Props.C20
import Verif.Props.C21
import Verif.Props.C22
import Verif.Props.C23
import Verif.Props.C24
import Verif.Props.C26
import Verif.Props.C27
import Verif.Props.C28
import Verif.Props.C29
import Verif.Props.C30
import Verif.Props.C31
import Verif.Props.C32
import Verif.Props.C32Options
import Verif.Props.C33
import Verif.Props.C34
import Verif.Props.C35
import Verif.Props.C36
import Verif.Props.C37
import Verif.Props.C38
import Verif.Props.C39
import Verif.Props.C40
import Verif.Props.C41
import Verif.Props.C42
import Verif.Props.C43
import Verif.Props.C44
import Verif.Props.C45
import Verif.Props.C46
import Verif.Props.C47
import Verif.Props.C48
import Verif.Props.C49
import Verif.Props.C50
import Verif.Props.C51
import Verif.Props.C52
import Verif.Props.C52Extra
import Verif.Props.C53
import Verif.Props.C54
import Verif.Props.C55
import Verif.Props.C56
import Verif.Props.C57
import Verif.Props.C58
import Verif.Props.C59
import Verif.Props.C60
import Verif.Props.C61
import Verif.Props.C62
import Verif.Props.C63
import Verif.Props.C64
import Verif.Props.C65
import Verif.Props.C66
import Verif.Props.C67
import Verif.Props.C68
import Verif.Props.C69
import Verif.Props.C70
import Verif.Props.C71
import Verif.Props.C72
import Verif.Props.C73
import Verif.Props.C74
import Verif.Props.C75
import Verif.Props.C76
import Verif.Props.C77
import Verif.Props.C78
import Verif.Props.C79
import Verif.Props.C80
import Verif.Props.C81
import Verif.Props.C82
import Verif.Props.C83
import Verif.Props.C83Stored
import Verif.Props.C84
import Verif.Props.C85
import Verif.Props.C86
import Verif.Props.C87
import Verif.Props.C88
import Verif.Props.C88Closed
import Verif.Props.C89
import Verif.Props.C90
import Verif.Props.C91
import Verif.Props.C92
import Verif.Props.C93
import Verif.Props.C94
import Verif.Props.C95
import Verif.Props.C96
import Verif.Props.C96Mixed
import Verif.Props.C97
import Verif.Props.C98
import Verif.Props.C99
import Verif.Spec.Archive
import Verif.Spec.Bits
import Verif.Spec.Code
import Verif.Spec.Confined
import Verif.Spec.Crc
import Verif.Spec.Date
import Verif.Spec.Disk
import Verif.Spec.Dump
import Verif.Spec.Feed
import Verif.Spec.Foreign0
import Verif.Spec.Hang
import Verif.Spec.Header
import Verif.Spec.Inside
import Verif.Spec.Larc
import Verif.Spec.Level1
import Verif.Spec.Level2
import Verif.Spec.Lh1
import Verif.Spec.Lh2
import Verif.Spec.Lh3
import Verif.Spec.ListStyle
import Verif.Spec.ListText
import Verif.Spec.Listing
import Verif.Spec.Longest
import Verif.Spec.Lz
import Verif.Spec.Mtf
import Verif.Spec.Named
import Verif.Spec.Old
import Verif.Spec.OneByte
import Verif.Spec.Optimal
import Verif.Spec.Path
import Verif.Spec.Periodic
import Verif.Spec.Pm2
import Verif.Spec.PmTree
import Verif.Spec.Quiet
import Verif.Spec.Schedule
import Verif.Spec.Sibling
import Verif.Spec.Static
import Verif.Spec.Systems
import Verif.Spec.Terminal
import Verif.Spec.Text
