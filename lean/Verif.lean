import Verif.Props.Split
import Verif.Props.Format
import Verif.Props.FormatF
import Verif.Props.FormatFSci
import Verif.Props.FormatFWidth
import Verif.Props.FormatFWidthG
import Verif.Props.FormatFExp
import Verif.Props.FormatExt
import Verif.Props.RoundSig
import Verif.Props.Options
import Verif.Props.MailBox
import Verif.Props.MailBoxBase
import Verif.Props.Barrier
import Verif.Props.PropertyTree
import Verif.Props.Session
import Verif.Props.OptionsNum
import Verif.Props.HappensBefore
import Verif.Props.MailBoxHB
import Verif.Props.BarrierWake
import Verif.Props.Exact
import Verif.Props.OptionsFloat
import Verif.Props.PropertyTreeNum
import Verif.Props.RepoTests
import Verif.Props.MailBoxTest
import Verif.Props.FormatTest
import Verif.Props.OptionsRejected
import Verif.Props.BarrierTest
import Verif.Props.BarrierLate
import Verif.Props.BarrierAfter
import Verif.Props.BarrierSurplus
import Verif.Props.PropertyHeap
import Verif.Props.CTest
import Verif.Props.BarrierLife
import Verif.Props.BarrierProgram
import Verif.Props.OptionsCopy
import Verif.Props.Exceptions
import Verif.Props.MailBoxWorld
import Verif.Props.MailBoxAlloc
import Verif.Props.TestMains
import Verif.Props.ExampleMains
import Verif.Props.Defaults
import Verif.Props.OptionsTests
import Verif.Props.MailBoxLife
import Verif.Props.BarrierClock
import Verif.Props.FormatAlloc
import Verif.Props.OptionsAlloc
import Verif.Props.OptionsParseAlloc
import Verif.Spec.OptionsParseAgain
import Verif.Props.OptionsParseAgain
import Verif.Props.FormatFInt
import Verif.Props.FormatThreads
import Verif.Props.BarrierFair
import Verif.Props.MailBoxFair
import Verif.Props.PropertyAlloc
import Verif.Props.PropertyThreads
import Verif.Props.PropertyErrors
import Verif.Props.PropertyAlias
import Verif.Props.FormatFTen
import Verif.Props.RoundSigTen
import Verif.Props.FormatFDigits
import Verif.Spec.OptionsThreads
import Verif.Proof.OptionsThreads
import Verif.Props.OptionsThreads
import Verif.Spec.OptionsPresence
import Verif.Proof.OptionsPresence
import Verif.Props.OptionsPresence
import Verif.Model.MailBoxGuard
import Verif.Spec.MailBoxGuard
import Verif.Proof.MailBoxGuard
import Verif.Proof.MailBoxGuardView
import Verif.Proof.MailBoxGuardLock
import Verif.Proof.MailBoxGuardInside
import Verif.Props.MailBoxGuard
import Verif.Model.OptionsNested
import Verif.Spec.OptionsNested
import Verif.Proof.OptionsNested
import Verif.Props.OptionsNested
import Verif.Model.Locale
import Verif.Spec.Locale
import Verif.Proof.Locale
import Verif.Props.Locale
import Verif.Proof.LocaleRead
import Verif.Props.LocaleRead
import Verif.Props.ReadBack
import Verif.Props.YamlNumbers
import Verif.Props.PropertyLocale
import Verif.Props.OptionsPoint
import Verif.Props.PropertyInto
import Verif.Props.SmallInts
import Verif.Model.MailBoxPtr
import Verif.Spec.MailBoxPtr
import Verif.Proof.MailBoxPtr
import Verif.Proof.MailBoxPtrSafe
import Verif.Proof.MailBoxPtrStart
import Verif.Proof.MailBoxPtrSolo
import Verif.Props.MailBoxPtr
import Verif.Model.OStream
import Verif.Spec.OStream
import Verif.Proof.OStream
import Verif.Props.OStream
import Verif.Spec.Linear
import Verif.Model.Monitors
import Verif.Proof.Linear
import Verif.Proof.LinearMany
import Verif.Props.Linear
import Verif.Proof.LinearLocal
import Verif.Props.LinearLocal
import Verif.Spec.MonitorsHB
import Verif.Props.MonitorsHB
import Verif.Props.BarrierSmall
import Verif.Props.Together
import Verif.Props.PropertyDepth
import Verif.Props.PropertyCut
import Verif.Props.OStreamTree
import Verif.Props.Collect
import Verif.Props.Standstill
import Verif.Props.StandstillEnds
import Verif.Props.TogetherFair
import Verif.Props.Unfair
import Verif.Props.UnfairBarrier
import Verif.Props.BarrierOrders
