import Verif.Base
import Verif.Util
import Verif.Order.Props
import Verif.Order.PropsIO
import Verif.MapIO.Props
import Verif.Sort.Props
import Verif.Sort.PropsPartial
import Verif.Match.Props
import Verif.Coarsen.Props
import Verif.Color.Props
import Verif.Bipart.Props
import Verif.Bipart.PropsBd
import Verif.Bipart.PropsDf
import Verif.Bipart.PropsFm
import Verif.Bipart.PropsGg
import Verif.Bipart.PropsSt
import Verif.Separ.Props
import Verif.Separ.PropsSt
import Verif.Separ.PropsEs
import Verif.Separ.PropsFm
import Verif.HOrder.Props
import Verif.Band.Props
import Verif.Mesh.Props
import Verif.Mesh.PropsCheck
import Verif.Memory.Props
import Verif.TextIO.Props
import Verif.Rand.Props
import Verif.Arch.Props
import Verif.Arch.PropsMatch
import Verif.Arch.PropsSub
import Verif.Graph.Props
import Verif.Graph.PropsIO
import Verif.Graph.PropsClone
import Verif.Context.Props
import Verif.Fibo.Props
import Verif.Gain.Props
import Verif.Thread.Props
import Verif.Thread.PropsPool
import Verif.Dist.Props
import Verif.Dist.FoldProps
import Verif.Kmap.Model
import Verif.Kmap.Spec
import Verif.Kmap.Lemmas
import Verif.Kmap.LemmasPart
import Verif.Kmap.LemmasMap
import Verif.Kmap.LemmasFix
import Verif.Kmap.LemmasMerge
import Verif.Kmap.LemmasCost
import Verif.Kmap.LemmasFinal
import Verif.Kmap.LemmasReal
import Verif.Kmap.LemmasTop
import Verif.Kmap.LemmasGp
import Verif.Kmap.Props
import Verif.Kmap.PropsSt
import Verif.Kmap.PropsChk
import Verif.Fax.Props
import Verif.ArchIO.Props
import Verif.Graph.OfListsW
import Verif.Coarsen.Quot
import Verif.Arch.PropsDeco
import Verif.Build.Props
import Verif.Esmumps.Props
import Verif.Ovl.Props
import Verif.Ovl.PropsEs
import Verif.Ovl.PropsChk
import Verif.Msep.Props
import Verif.Msep.PropsSt
import Verif.Msep.PropsHalo
import Verif.Msep.PropsInduce
import Verif.Str.Props
import Verif.HOrder.PropsCheck
import Verif.Msep.PropsSi
import Verif.Msep.PropsHchk
import Verif.HOrder.PropsMbl
