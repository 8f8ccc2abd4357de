import Verif.Angle.PropsIeee
import Verif.Angle.PropsRound
import Verif.Angle.PropsTowards
import Verif.Angle.Theorems
import Verif.AngleInt.Theorems
import Verif.Args.Theorems
import Verif.Base64.Theorems
import Verif.Bench.PropsFirst
import Verif.Bench.Theorems
import Verif.Bimap.PropsDefault
import Verif.Bimap.PropsList
import Verif.Bimap.PropsRef
import Verif.Bimap.Theorems
import Verif.Casts.Theorems
import Verif.Clock.PropsExact
import Verif.Clock.PropsWait
import Verif.Clock.Theorems
import Verif.CmdLine.PropsEffects
import Verif.CmdLine.PropsErrors
import Verif.CmdLine.PropsHelp
import Verif.CmdLine.PropsKept
import Verif.CmdLine.PropsNumbers
import Verif.CmdLine.Theorems
import Verif.Console.Theorems
import Verif.Container.PropsRefs
import Verif.Container.Theorems
import Verif.Delegate.PropsReenter
import Verif.Delegate.Theorems
import Verif.Easing.PropsMid
import Verif.Easing.PropsShape
import Verif.Easing.Theorems
import Verif.EasingFp.PropsBounce
import Verif.EasingFp.PropsCurves
import Verif.EasingFp.PropsLimits
import Verif.EasingFp.PropsOrder
import Verif.EasingFp.PropsSine
import Verif.EasingFp.Theorems
import Verif.EasingInt.Theorems
import Verif.Files.Theorems
import Verif.FnTraits.Theorems
import Verif.Frame.PropsIeee
import Verif.Frame.Theorems
import Verif.Grow.Theorems
import Verif.IDist.Theorems
import Verif.IntStr.Theorems
import Verif.Json.PropsBack
import Verif.Json.PropsErr
import Verif.Json.PropsIndex
import Verif.Json.PropsLayout
import Verif.Json.PropsPart
import Verif.Json.Theorems
import Verif.JsonConv.PropsChars
import Verif.JsonConv.PropsChecked
import Verif.JsonConv.PropsUser
import Verif.JsonConv.Theorems
import Verif.JsonFmt.Theorems
import Verif.JsonLife.PropsThrow
import Verif.JsonLife.Theorems
import Verif.Log.PropsThreads
import Verif.Log.Theorems
import Verif.MakeArray.Theorems
import Verif.Manager.PropsCtor
import Verif.Manager.PropsIter
import Verif.Manager.PropsOrder
import Verif.Manager.PropsReent
import Verif.Manager.Theorems
import Verif.Md5.Theorems
import Verif.Mpl.Theorems
import Verif.Num.Theorems
import Verif.Obf.PropsDiv
import Verif.Obf.Theorems
import Verif.Path.PropsMisc
import Verif.Path.PropsObject
import Verif.Path.Theorems
import Verif.Pcg.PropsDraw
import Verif.Pcg.PropsIo
import Verif.Pcg.PropsOutput
import Verif.Pcg.PropsPromo
import Verif.Pcg.Theorems
import Verif.PcgExt.PropsAdvance
import Verif.PcgExt.PropsExamples
import Verif.PcgExt.PropsInherit
import Verif.PcgExt.PropsIo
import Verif.PcgExt.PropsLibrary
import Verif.PcgExt.PropsSet
import Verif.PcgExt.Theorems
import Verif.Range.PropsReverse
import Verif.Range.Theorems
import Verif.RealText.PropsJson
import Verif.RealText.Theorems
import Verif.RecVec.PropsCtor
import Verif.RecVec.Theorems
import Verif.Recycler.Theorems
import Verif.Str.PropsAlias
import Verif.Str.PropsArray
import Verif.Str.Theorems
import Verif.Stringify.PropsFmt
import Verif.Stringify.Theorems
import Verif.Ticker.Theorems
import Verif.Timeline.PropsEdit
import Verif.Timeline.PropsManaged
import Verif.Timeline.PropsState
import Verif.Timeline.PropsSystem
import Verif.Timeline.PropsThrow
import Verif.Timeline.Theorems
import Verif.Tmpl.PropsDict
import Verif.Tmpl.PropsDiverge
import Verif.Tmpl.PropsOpen
import Verif.Tmpl.Theorems
import Verif.ToStr.Theorems
import Verif.U128.Theorems
import Verif.Union.PropsThrow
import Verif.Union.Theorems
import Verif.Util.PropsStateful
import Verif.Util.Theorems
import Verif.Basic
