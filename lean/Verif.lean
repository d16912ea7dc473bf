import Verif.Base
import Verif.Props.Base64
import Verif.Props.Hex
import Verif.Props.Rc4
import Verif.Props.Numbers
import Verif.Props.Text
import Verif.Props.Ipv4
import Verif.Props.Sblist
import Verif.Props.Tlist
import Verif.Props.Tglist
import Verif.Props.Bmap
import Verif.Props.Hashlist
import Verif.Props.Stringptr
import Verif.Props.Stringptrlist
import Verif.Props.Crc
import Verif.Props.Md5
import Verif.Props.Sha512
import Verif.Props.Filelib
import Verif.Props.Fileparser
import Verif.Props.Iniparser
import Verif.Props.Optparser
import Verif.Props.Bitarray
import Verif.Props.Endian
import Verif.Props.Ssalloc
import Verif.Props.Guard
import Verif.Props.Format
import Verif.Props.Timelib
import Verif.Props.Output
import Verif.Props.Wholefile
import Verif.Props.Proc
import Verif.Props.Filelist
import Verif.Props.CrcPoly
import Verif.Props.Programs
import Verif.Props.Stringlist
import Verif.Props.Misc
import Verif.Props.Codedup
import Verif.Props.Md5Table
import Verif.Props.Fpio
import Verif.Props.Ibmap
import Verif.Props.Samefiles
import Verif.Props.Psp
import Verif.Props.Life
import Verif.Props.Listfiles
import Verif.Props.Wait
import Verif.Props.Charclass
import Verif.Props.Writes
import Verif.Props.Alias
import Verif.Props.Inifile
import Verif.Props.Mapdel
import Verif.Props.Own
import Verif.Props.Tgisigned
import Verif.Tests
import Verif.Props.Anylist
import Verif.Props.Treap
import Verif.Props.Multimap
import Verif.Props.Tempdirs
import Verif.Props.Follow
import Verif.Props.Savers
import Verif.Props.Ssatest
import Verif.Props.Family
import Verif.Props.Crcinit
import Verif.Props.Overlap
import Verif.Props.Saber
import Verif.Props.Shatest
import Verif.Props.Fromdata
import Verif.Props.Nextsec
import Verif.Props.Tlimit
import Verif.Props.Iter
import Verif.Props.Badhash
import Verif.Props.Inplace
import Verif.Props.Linecat
import Verif.Props.Strmap
import Verif.Props.Bench
import Verif.Props.Parsetext
import Verif.Props.Frame
import Verif.Props.Hstrmap
import Verif.Props.Subcmp
import Verif.Props.Stdin
import Verif.Props.Cost
import Verif.Props.Macroarg
import Verif.Props.Pathroom
import Verif.Props.Balance
import Verif.Props.Held
import Verif.Props.Mapptr
import Verif.Props.Share
import Verif.Props.CrcForge
import Verif.Props.Extend
import Verif.Props.Ssashare
import Verif.Props.Base64text
import Verif.Props.Flood
import Verif.Props.Sbshare
import Verif.Props.Rc4stream
import Verif.Props.Spgrow
import Verif.Props.Sizes
import Verif.Props.Hlshare
import Verif.Props.Bashare
import Verif.Props.Stress
import Verif.Props.Kvmem
import Verif.Props.Shactx
import Verif.Props.Guardhist
import Verif.Props.Optany
import Verif.Props.Stopwatch
import Verif.Props.Aligned
import Verif.Props.Hliter
import Verif.Props.Ssaword
import Verif.Props.Readers
import Verif.Props.Dialog
import Verif.Props.Saveread
import Verif.Props.Rotate
import Verif.Props.Outside
import Verif.Props.Rc4keys
import Verif.Props.Sortset
import Verif.Props.Coproc
import Verif.Props.Closein
import Verif.Props.Normfs
import Verif.Props.Confine
import Verif.Props.Words
import Verif.Props.Logread
import Verif.Props.Carry
import Verif.Props.Stamps
import Verif.Props.Search
import Verif.Props.Escape
import Verif.Props.Handles
import Verif.Props.Settings
import Verif.Props.Tgiwrap
import Verif.Props.Mapins
import Verif.Props.Base64small
import Verif.Props.Rc4cycle
import Verif.Props.Setnum
import Verif.Props.Joinsplit
import Verif.Props.Doslines
import Verif.Props.Swapback
import Verif.Props.Onepass
import Verif.Props.Scrub
import Verif.Props.Onechar
import Verif.Audit
