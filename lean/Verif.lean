import Verif.Leb128.Props
import Verif.Abi.LayoutProps
import Verif.Handles.Props
import Verif.Abi.ScalarProps
import Verif.Abi.StoreProps
import Verif.Abi.FrameProps
import Verif.Abi.LoadProps
import Verif.Abi.FlatProps
import Verif.Abi.CaseProps
import Verif.Abi.CanonProps
import Verif.Encoding.Props
import Verif.Binary.Props
import Verif.Runtime.Props
import Verif.Collections.Props
import Verif.Wat.LexProps
import Verif.Wat.NumProps
import Verif.Wat.ConstProps
import Verif.Wat.Number
import Verif.Wat.NumberLemmas
import Verif.Wat.NumberProps
import Verif.Wat.Items
import Verif.Wat.ItemsProps
import Verif.Wat.OwnRules
import Verif.Wat.OwnRulesProps
import Verif.Wat.FromString
import Verif.Wat.RuleOrder
import Verif.Wat.StateRule
import Verif.Wat.Messages
import Verif.Wit.Messages
import Verif.Wit.Faults
import Verif.Wat.ParseProps
import Verif.Wat.PrintProps
import Verif.Wit.LexProps
import Verif.Wit.ParseProps
import Verif.Wit.GrammarProps
import Verif.Wit.PrintProps
import Verif.Wat.Grammar
import Verif.Wat.GrammarSound
import Verif.Wat.GrammarComplete
import Verif.Wat.LexCut
import Verif.Wat.GrammarProps
import Verif.Wat.BalanceProps
import Verif.Wat.FloatProps
import Verif.Wast.Parse
import Verif.Wast.Grammar
import Verif.Wast.Ends
import Verif.Wast.GrammarSound
import Verif.Wast.GrammarComplete
import Verif.Wast.Props
import Verif.Wast.PrintProps
import Verif.Abi.HandleProps
import Verif.Abi.CanonHandles
import Verif.Abi.CanonDeliver
import Verif.Wat.Decode
import Verif.Wat.DecodeProps
import Verif.Runtime.LoadProps
import Verif.Abi.StringCopy
import Verif.Abi.StringCopyProps
import Verif.Handles.Limits
import Verif.Abi.FullMemory
import Verif.Abi.HandleLimits
import Verif.Handles.LedgerProps
import Verif.Handles.DtorProps
import Verif.Handles.AddProps
import Verif.Binary.AllocProps
import Verif.Abi.Limits
import Verif.Binary.PairProps
import Verif.Go.Ieee
import Verif.Go.Float
import Verif.Go.FloatLemmas
import Verif.Wat.GoLib
import Verif.Wat.HexFloatProps
import Verif.Wat.FloatConstProps
import Verif.Go.Reader
import Verif.Binary.Stream
import Verif.Binary.StreamProps
import Verif.Wat.DecodeStream
import Verif.Wat.DecodeStreamProps
import Verif.Go.Writer
import Verif.Leb128.Writer
import Verif.Leb128.WriterProps
import Verif.Leb128.Reader
import Verif.Leb128.ReaderProps
import Verif.Abi.ManyProps
import Verif.Abi.Typed
import Verif.Abi.SameUnique
import Verif.Abi.TypedProps
import Verif.Abi.LiftTame
import Verif.Abi.LiftLocal
import Verif.Abi.ReceiveProps
import Verif.Abi.HandleBooks
import Verif.Abi.HandleAnyProps
import Verif.Abi.LoadOwn
import Verif.Abi.LoadOwnProps
import Verif.Wat.FloatWords
import Verif.Wat.SemiProps
import Verif.Wat.Local
import Verif.Wat.ErrorPlace
import Verif.Wit.Local
import Verif.Wit.ErrorPlace
import Verif.Abi.SpillProps
import Verif.Wast.Local
import Verif.Wast.ErrorPlace
import Verif.Abi.AnyMemory
import Verif.Abi.GrowSpec
import Verif.Abi.GrowLemmas
import Verif.Abi.GrowProps
import Verif.Wit.Concat
import Verif.Wit.ConcatProps
import Verif.Abi.ExtendSpec
import Verif.Abi.ExtendProps
import Verif.Wit.Rename
import Verif.Wit.RenameProps
import Verif.Wat.Rename
import Verif.Wat.RenameProps
import Verif.Wat.Sections
import Verif.Wit.Items
import Verif.Wast.Modules
import Verif.Wast.Rename
import Verif.Binary.Extend
import Verif.Wit.Utf8Props
import Verif.Abi.StringReadProps
import Verif.Handles.RefusedProps
import Verif.Abi.MeansProps
import Verif.Abi.StoreMeansProps
import Verif.Abi.CoreProps
import Verif.Abi.FlatMeansProps
import Verif.Abi.BareSpec
import Verif.Abi.LowerInv
import Verif.Abi.IsolationSpec
import Verif.Abi.IsolationLemmas
import Verif.Abi.IsolationProps
import Verif.Abi.ConfineSpec
import Verif.Abi.ConfineLemmas
import Verif.Abi.ConfineProps
import Verif.Abi.ClosedProps
import Verif.Handles.HistorySpec
import Verif.Handles.HistoryLemmas
import Verif.Abi.HistorySpec
import Verif.Abi.HistoryLemmas
import Verif.Abi.HistoryProps
import Verif.Abi.ReceivedFits
import Verif.Abi.FitProps
import Verif.Abi.AlikeLemmas
import Verif.Abi.AlikeProps
import Verif.Abi.MeansOnce
import Verif.Abi.BlindSpec
import Verif.Abi.BlindLemmas
import Verif.Abi.BlindProps
import Verif.Abi.AskSpec
import Verif.Abi.AskLemmas
import Verif.Abi.AskProps
import Verif.Abi.Bare
import Verif.Abi.BareMirror
import Verif.Abi.BareLoad
import Verif.Abi.BareLower
import Verif.Abi.BareFlat
import Verif.Abi.BareProps
import Verif.Abi.BareCall
import Verif.Abi.BareSame
import Verif.Abi.BareCallProps
import Verif.Abi.CallMeansProps
import Verif.Abi.BoundSpec
import Verif.Abi.BoundLemmas
import Verif.Abi.BoundProps
import Verif.Binary.LanguageProps
import Verif.Axioms
